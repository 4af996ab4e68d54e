import Verif.Graph.Funcs
import Verif.Graph.Refine
import Verif.Spec.Walks
namespace GT

theorem Dict.ext_items {K V : Type} {d e : Dict K V} (h : d.items = e.items) : d = e := by
  cases d; cases e; simp_all

theorem Dict.pyEq_iff {K V : Type} [DecidableEq K] {veq : V → V → Bool}
    {d e : Dict K V} (hd : d.WF) (he : e.WF) :
    d.pyEq veq e = true ↔ ∀ k, (d.get? k = none ∧ e.get? k = none) ∨
      ∃ v w, d.get? k = some v ∧ e.get? k = some w ∧ veq v w = true := by
  unfold Dict.pyEq
  simp only [Bool.and_eq_true, beq_iff_eq, List.all_eq_true]
  constructor
  · rintro ⟨hl, h⟩ k
    have hsub : ∀ k, k ∈ d.keys → k ∈ e.keys := by
      intro k hk
      obtain ⟨v, hv⟩ := Dict.exists_get?_of_mem_keys hk
      have := h (k, v) ((Dict.get?_eq_some_iff hd k v).1 hv)
      simp only at this
      split at this
      · rename_i w hw; exact Dict.mem_keys_of_get? hw
      · cases this
    cases hk : d.get? k with
    | some v =>
      have := h (k, v) ((Dict.get?_eq_some_iff hd k v).1 hk)
      simp only at this
      split at this
      · rename_i w hw; exact Or.inr ⟨v, w, rfl, hw, this⟩
      · cases this
    | none =>
      left; refine ⟨rfl, ?_⟩
      rw [Dict.get?_eq_none_iff] at hk ⊢
      intro hke
      have h1 : (k :: d.keys).Nodup := List.nodup_cons.2 ⟨hk, hd⟩
      have h2 := h1.length_le_of_subset (l₂ := e.keys) (by
        intro x hx
        rcases List.mem_cons.1 hx with rfl | hx
        · exact hke
        · exact hsub x hx)
      simp [Dict.keys] at h2; omega
  · intro h
    have hk : ∀ k, k ∈ d.keys ↔ k ∈ e.keys := by
      intro k
      rw [← Dict.get?_isSome_iff, ← Dict.get?_isSome_iff]
      rcases h k with ⟨h1, h2⟩ | ⟨v, w, h1, h2, _⟩ <;> simp [h1, h2]
    refine ⟨?_, ?_⟩
    · have h1 := hd.length_le_of_subset (l₂ := e.keys) (fun x hx => (hk x).1 hx)
      have h2 := he.length_le_of_subset (l₂ := d.keys) (fun x hx => (hk x).2 hx)
      simp [Dict.keys] at h1 h2; omega
    · rintro ⟨k, v⟩ hm
      have := (Dict.get?_eq_some_iff hd k v).2 hm
      rcases h k with ⟨h1, h2⟩ | ⟨v', w, h1, h2, h3⟩
      · rw [h1] at this; cases this
      · rw [h1] at this; cases this; simp only [h2]; exact h3

namespace Graph
variable {α V O : Type} [DecidableEq α]

/-- `a → b` is an edge, read through the public `edge` -/
def Adj (g : Graph α V O) (a b : α) : Prop := (g.edge a b).isSome

instance (g : Graph α V O) (a b : α) : Decidable (g.Adj a b) := by unfold Adj; infer_instance

theorem Inv.mem_edgeList {g : Graph α V O} (h : g.Inv) {a b : α} {v : V} :
    (a, b, v) ∈ g.edgeList ↔ g.edge a b = some v := by
  unfold edgeList edge
  simp only [List.mem_flatMap, List.mem_map]
  constructor
  · rintro ⟨⟨x, d⟩, hm, ⟨y, w⟩, hm2, heq⟩
    simp only [Prod.mk.injEq] at heq
    obtain ⟨rfl, rfl, rfl⟩ := heq
    have h1 := (Dict.get?_eq_some_iff h.edgesWF x d).2 hm
    rw [h1]; simp only [Option.bind_some]
    exact (Dict.get?_eq_some_iff (h.row x d h1).1 _ _).2 hm2
  · intro he
    cases hr : g.edges.get? a with
    | none => rw [hr] at he; cases he
    | some d =>
      rw [hr] at he; simp only [Option.bind_some] at he
      exact ⟨(a, d), mem_of_aget hr, (b, v), mem_of_aget he, rfl⟩

theorem nodup_flatMap_rows {l : List (α × Dict α V)} (hn : (l.map Prod.fst).Nodup)
    (hr : ∀ p ∈ l, p.2.WF) :
    (l.flatMap (fun r => r.2.items.map (fun p => (r.1, p.1)))).Nodup := by
  induction l with
  | nil => simp
  | cons r l ih =>
    simp only [List.map_cons, List.nodup_cons] at hn
    simp only [List.flatMap_cons]
    rw [List.nodup_append]
    refine ⟨?_, ih hn.2 (fun p hp => hr p (List.mem_cons_of_mem _ hp)), ?_⟩
    · have := hr r (by simp)
      unfold Dict.WF Dict.keys at this
      have h2 : (r.2.items.map (fun p => (r.1, p.1))) =
          (r.2.items.map Prod.fst).map (fun x => (r.1, x)) := by simp
      rw [h2]
      rw [List.Nodup, List.pairwise_map]
      exact this.imp (fun h => by simpa using h)
    · intro x hx y hy hxy
      subst hxy
      simp only [List.mem_map, List.mem_flatMap] at hx hy
      obtain ⟨p, _, rfl⟩ := hx
      obtain ⟨r', hr', p', _, heq⟩ := hy
      simp only [Prod.mk.injEq] at heq
      exact hn.1 (List.mem_map.2 ⟨r', hr', heq.1⟩)

/-- no (source, target) pair is listed twice -/
theorem Inv.edgeList_pairs_nodup {g : Graph α V O} (h : g.Inv) :
    (g.edgeList.map (fun e => (e.1, e.2.1))).Nodup := by
  have := nodup_flatMap_rows h.edgesWF (fun p hp =>
    (h.row p.1 p.2 ((Dict.get?_eq_some_iff h.edgesWF p.1 p.2).2 hp)).1)
  unfold edgeList
  rw [List.map_flatMap]
  simpa [Function.comp_def] using this

theorem nodup_of_nodup_map {β γ : Type} (f : β → γ) {l : List β} (h : (l.map f).Nodup) : l.Nodup := by
  rw [List.Nodup, List.pairwise_map] at h
  exact h.imp (fun h2 h3 => h2 (by rw [h3]))

theorem Inv.edgeList_nodup {g : Graph α V O} (h : g.Inv) : g.edgeList.Nodup :=
  nodup_of_nodup_map _ h.edgeList_pairs_nodup

theorem Inv.mem_edgesFrom {g : Graph α V O} (h : g.Inv) {n a b : α} {v : V} :
    (a, b, v) ∈ g.edgesFrom n ↔ a = n ∧ g.edge n b = some v := by
  rw [edgesFrom_eq_row, edge_eq_row, Dict.get?_eq_some_iff (h.rowWF n)]
  simp only [List.mem_map, Prod.mk.injEq, Prod.exists]
  constructor
  · rintro ⟨x, y, h1, rfl, rfl, rfl⟩; exact ⟨rfl, h1⟩
  · rintro ⟨rfl, h1⟩; exact ⟨b, v, h1, rfl, rfl, rfl⟩

theorem Inv.mem_edgesTo {g : Graph α V O} (h : g.Inv) {n a b : α} {v : V} :
    (a, b, v) ∈ g.edgesTo n ↔ b = n ∧ g.edge a n = some v := by
  rw [edgesTo_eq_row, h.sym, reverseEdge_eq_row, Dict.get?_eq_some_iff (h.colWF n)]
  simp only [List.mem_map, Prod.mk.injEq, Prod.exists]
  constructor
  · rintro ⟨x, y, h1, rfl, rfl, rfl⟩; exact ⟨rfl, h1⟩
  · rintro ⟨rfl, h1⟩; exact ⟨a, v, h1, rfl, rfl, rfl⟩

theorem Inv.edgesFrom_nodup {g : Graph α V O} (h : g.Inv) (n : α) : (g.edgesFrom n).Nodup := by
  rw [edgesFrom_eq_row]
  refine nodup_of_nodup_map (fun e => e.2.1) ?_
  have := h.rowWF n
  simpa [Function.comp_def, Dict.WF, Dict.keys] using this

theorem Inv.edgesTo_nodup {g : Graph α V O} (h : g.Inv) (n : α) : (g.edgesTo n).Nodup := by
  rw [edgesTo_eq_row]
  refine nodup_of_nodup_map (fun e => e.1) ?_
  have := h.colWF n
  simpa [Function.comp_def, Dict.WF, Dict.keys] using this

theorem mem_nodeList {g : Graph α V O} {n : α} : n ∈ g.nodeList ↔ g.has n = true := by
  unfold nodeList has; rw [Dict.contains_iff_keys]

/-! ### folds of `add_edge` -/

/-- an edge list with at most one value per pair -/
def Func (l : List (α × α × V)) : Prop :=
  ∀ a b v w, (a, b, v) ∈ l → (a, b, w) ∈ l → v = w

theorem addEdges_inv {g : Graph α V O} (h : g.Inv) (l : List (α × α × V)) : (g.addEdges l).Inv := by
  unfold addEdges
  induction l generalizing g with
  | nil => exact h
  | cons e l ih => exact ih (h.addEdge _ _ _)

theorem addEdges_built {g : Graph α V O} (h : g.Built) (l : List (α × α × V)) :
    (g.addEdges l).Built := by
  unfold addEdges
  induction l generalizing g with
  | nil => exact h
  | cons e l ih => exact ih (h.addEdge _ _ _)

omit [DecidableEq α] in
theorem Func.tail {e : α × α × V} {l : List (α × α × V)} (h : Func (e :: l)) : Func l :=
  fun a b v w h1 h2 => h a b v w (List.mem_cons_of_mem _ h1) (List.mem_cons_of_mem _ h2)

theorem addEdges_edge {g : Graph α V O} {l : List (α × α × V)} (hf : Func l) (a b : α) (v : V) :
    (g.addEdges l).edge a b = some v ↔
      (a, b, v) ∈ l ∨ ((∀ w, (a, b, w) ∉ l) ∧ g.edge a b = some v) := by
  induction l generalizing g with
  | nil => simp [addEdges]
  | cons e l ih =>
    have : g.addEdges (e :: l) = (g.addEdge e.1 e.2.1 e.2.2).addEdges l := rfl
    rw [this, ih hf.tail, edge_addEdge]
    obtain ⟨x, y, u⟩ := e
    simp only
    by_cases hxy : x = a ∧ y = b
    · obtain ⟨rfl, rfl⟩ := hxy
      simp only [and_self, if_true, Option.some.injEq]
      constructor
      · rintro (h | ⟨_, rfl⟩)
        · exact Or.inl (List.mem_cons_of_mem _ h)
        · exact Or.inl (by simp)
      · rintro (h | ⟨h, _⟩)
        · rcases List.mem_cons.1 h with h | h
          · cases h
            by_cases h3 : ∃ w, (x, y, w) ∈ l
            · obtain ⟨w, hw⟩ := h3
              have := hf x y v w (by simp) (List.mem_cons_of_mem _ hw)
              subst this; exact Or.inl hw
            · exact Or.inr ⟨fun w hw => h3 ⟨w, hw⟩, rfl⟩
          · exact Or.inl h
        · exact absurd (by simp) (h u)
    · simp only [hxy, if_false, List.mem_cons, Prod.mk.injEq]
      constructor
      · rintro (h | ⟨h, h2⟩)
        · exact Or.inl (Or.inr h)
        · refine Or.inr ⟨fun w hw => ?_, h2⟩
          rcases hw with ⟨h3, h4, _⟩ | hw
          · exact hxy ⟨h3.symm, h4.symm⟩
          · exact h w hw
      · rintro (h | ⟨h, h2⟩)
        · rcases h with ⟨h3, h4, _⟩ | h
          · exact absurd ⟨h3.symm, h4.symm⟩ hxy
          · exact Or.inl h
        · exact Or.inr ⟨fun w hw => h w (Or.inr hw), h2⟩

theorem addEdges_nodes {g : Graph α V O} {l : List (α × α × V)} (x : α) :
    (g.addEdges l).nodes.get? x =
      if (∃ e ∈ l, x = e.1 ∨ x = e.2.1) then some (g.node x) else g.nodes.get? x := by
  induction l generalizing g with
  | nil => simp [addEdges]
  | cons e l ih =>
    have : g.addEdges (e :: l) = (g.addEdge e.1 e.2.1 e.2.2).addEdges l := rfl
    rw [this, ih]
    have hnode : (g.addEdge e.1 e.2.1 e.2.2).node x = g.node x := by
      unfold node; rw [addEdge_nodes_get?]; split
      · unfold node; simp
      · rfl
    rw [hnode, addEdge_nodes_get?]
    by_cases h1 : ∃ e ∈ l, x = e.1 ∨ x = e.2.1
    · have : ∃ e' ∈ e :: l, x = e'.1 ∨ x = e'.2.1 := by
        obtain ⟨e', h, h2⟩ := h1; exact ⟨e', List.mem_cons_of_mem _ h, h2⟩
      rw [if_pos h1, if_pos this]
    · rw [if_neg h1]
      by_cases h2 : x = e.1 ∨ x = e.2.1
      · rw [if_pos h2, if_pos ⟨e, by simp, h2⟩]
      · rw [if_neg h2, if_neg]
        rintro ⟨e', h3, h4⟩
        rcases List.mem_cons.1 h3 with rfl | h3
        · exact h2 h4
        · exact h1 ⟨e', h3, h4⟩

/-! ### folds of `add_node` -/

theorem addNodes_get? {g : Graph α V O} {l : List (α × Option O)} (hn : (l.map Prod.fst).Nodup) (x : α) :
    (l.foldl (fun h p => h.addNode p.1 p.2) g).nodes.get? x =
      match aget x l with
      | some o => some o
      | none => g.nodes.get? x := by
  induction l generalizing g with
  | nil => rfl
  | cons p l ih =>
    simp only [List.map_cons, List.nodup_cons] at hn
    rw [List.foldl_cons, ih hn.2, addNode_nodes, Dict.get?_set]
    obtain ⟨n, o⟩ := p
    simp only [aget]
    by_cases h : n = x
    · subst h; rw [aget_eq_none_iff.2 hn.1]; simp
    · simp [h]

theorem addNodes_edges (g : Graph α V O) (l : List (α × Option O)) :
    (l.foldl (fun h p => h.addNode p.1 p.2) g).edges = g.edges := by
  induction l generalizing g with
  | nil => rfl
  | cons p l ih => rw [List.foldl_cons, ih, addNode_edges]

theorem addNodes_built {g : Graph α V O} (h : g.Built) (l : List (α × Option O)) :
    (l.foldl (fun h p => h.addNode p.1 p.2) g).Built := by
  induction l generalizing g with
  | nil => exact h
  | cons p l ih => exact ih (h.addNode _ _)

/-! ### copy -/

theorem Inv.func_edgeList {g : Graph α V O} (h : g.Inv) : Func g.edgeList := by
  intro a b v w h1 h2
  rw [h.mem_edgeList] at h1 h2
  rw [h1] at h2; exact Option.some.inj h2

theorem edge_empty (a b : α) : (empty : Graph α V O).edge a b = none := rfl
theorem nodes_empty (a : α) : (empty : Graph α V O).nodes.get? a = none := rfl

theorem option_ext_iff {β : Type} {x y : Option β} : (∀ v, x = some v ↔ y = some v) → x = y := by
  intro h
  cases x with
  | none => cases y with
    | none => rfl
    | some w => exact absurd ((h w).2 rfl) (by simp)
  | some v => exact ((h v).1 rfl).symm

theorem copy_built (g : Graph α V O) : g.copy.Built :=
  addEdges_built (addNodes_built built_empty _) _

theorem Inv.copy_edge {g : Graph α V O} (h : g.Inv) (a b : α) : g.copy.edge a b = g.edge a b := by
  apply option_ext_iff
  intro v
  unfold copy
  rw [addEdges_edge h.func_edgeList, h.mem_edgeList, edge_congr (addNodes_edges _ _), edge_empty]
  simp

theorem Inv.copy_nodes {g : Graph α V O} (h : g.Inv) (x : α) :
    g.copy.nodes.get? x = g.nodes.get? x := by
  unfold copy
  rw [addEdges_nodes]
  have h1 : (g.nodes.items.foldl (fun h p => h.addNode p.1 p.2) (empty : Graph α V O)).nodes.get? x
      = g.nodes.get? x := by
    rw [addNodes_get? h.nodesWF]
    unfold Dict.get?
    cases aget x g.nodes.items <;> rfl
  unfold node
  rw [h1]
  split
  · rename_i he
    obtain ⟨⟨a, b, v⟩, hm, hx⟩ := he
    rw [h.mem_edgeList] at hm
    have := h.dom a b v hm
    have hk : x ∈ g.nodes.keys := by rcases hx with rfl | rfl; exact this.1; exact this.2
    obtain ⟨o, ho⟩ := Dict.exists_get?_of_mem_keys hk
    rw [ho]; rfl
  · rfl

/-! ### equality -/

theorem Inv.eqB_iff [DecidableEq V] [DecidableEq O] {g h : Graph α V O} (hg : g.Inv) (hh : h.Inv) :
    g.eqB h = true ↔ (∀ n, g.nodes.get? n = h.nodes.get? n) ∧ ∀ a b, g.edge a b = h.edge a b := by
  have hnodes : (g.nodes.pyEq (fun a b => a == b) h.nodes = true) ↔
      ∀ n, g.nodes.get? n = h.nodes.get? n := by
    rw [Dict.pyEq_iff hg.nodesWF hh.nodesWF]
    constructor
    · intro hk n
      rcases hk n with ⟨h1, h2⟩ | ⟨v, w, h1, h2, h3⟩
      · rw [h1, h2]
      · rw [h1, h2]; simp at h3; rw [h3]
    · intro hk n
      rw [hk n]
      cases h.nodes.get? n with
      | none => exact Or.inl ⟨rfl, rfl⟩
      | some v => exact Or.inr ⟨v, v, rfl, rfl, by simp⟩
  have hrow : ∀ (r s : Dict α V), r.WF → s.WF →
      (r.pyEq (fun a b => a == b) s = true ↔ ∀ n, r.get? n = s.get? n) := by
    intro r s hr hs
    rw [Dict.pyEq_iff hr hs]
    constructor
    · intro hk n
      rcases hk n with ⟨h1, h2⟩ | ⟨v, w, h1, h2, h3⟩
      · rw [h1, h2]
      · rw [h1, h2]; simp at h3; rw [h3]
    · intro hk n
      rw [hk n]
      cases s.get? n with
      | none => exact Or.inl ⟨rfl, rfl⟩
      | some v => exact Or.inr ⟨v, v, rfl, rfl, by simp⟩
  have hedges : (g.edges.pyEq (fun r s => r.pyEq (fun a b => a == b) s) h.edges = true) ↔
      ∀ a b, g.edge a b = h.edge a b := by
    rw [Dict.pyEq_iff hg.edgesWF hh.edgesWF]
    constructor
    · intro hk a b
      unfold edge
      rcases hk a with ⟨h1, h2⟩ | ⟨v, w, h1, h2, h3⟩
      · rw [h1, h2]
      · rw [h1, h2]
        exact (hrow v w (hg.row a v h1).1 (hh.row a w h2).1).1 h3 b
    · intro hk a
      have hex : ∀ (k : Graph α V O), k.Inv → ∀ d, k.edges.get? a = some d →
          ∃ b v, k.edge a b = some v := by
        intro k hki d hd
        obtain ⟨hw, hne⟩ := hki.row a d hd
        cases hi : d.items with
        | nil => exact absurd hi hne
        | cons p l =>
          refine ⟨p.1, p.2, ?_⟩
          unfold edge; rw [hd]
          exact (Dict.get?_eq_some_iff hw _ _).2 (by rw [hi]; simp)
      cases h1 : g.edges.get? a with
      | none =>
        cases h2 : h.edges.get? a with
        | none => exact Or.inl ⟨rfl, rfl⟩
        | some w =>
          obtain ⟨b, v, hv⟩ := hex h hh w h2
          rw [← hk a b] at hv
          unfold edge at hv; rw [h1] at hv; cases hv
      | some v =>
        cases h2 : h.edges.get? a with
        | none =>
          obtain ⟨b, v, hv⟩ := hex g hg v h1
          rw [hk a b] at hv
          unfold edge at hv; rw [h2] at hv; cases hv
        | some w =>
          refine Or.inr ⟨v, w, rfl, rfl, (hrow v w (hg.row a v h1).1 (hh.row a w h2).1).2 ?_⟩
          intro b
          have := hk a b
          unfold edge at this; rw [h1, h2] at this; exact this
  have hcount : (∀ a b, g.edge a b = h.edge a b) → g.edgeCount = h.edgeCount := by
    intro hk
    rw [hg.count, hh.count]
    have h1 := hg.edgeList_nodup.length_le_of_subset (l₂ := h.edgeList) (by
      rintro ⟨a, b, v⟩ hm
      rw [hg.mem_edgeList] at hm; rw [hh.mem_edgeList, ← hk]; exact hm)
    have h2 := hh.edgeList_nodup.length_le_of_subset (l₂ := g.edgeList) (by
      rintro ⟨a, b, v⟩ hm
      rw [hh.mem_edgeList] at hm; rw [hg.mem_edgeList, hk]; exact hm)
    omega
  unfold eqB
  by_cases c1 : g.nodes.pyEq (fun a b => a == b) h.nodes = true
  · simp only [c1, Bool.not_true, Bool.false_eq_true, if_false]
    by_cases c3 : g.edges.pyEq (fun r s => r.pyEq (fun a b => a == b) s) h.edges = true
    · have c2 := hcount (hedges.1 c3)
      simp [c2, c3, hnodes.1 c1, hedges.1 c3]
    · have : ¬ ∀ a b, g.edge a b = h.edge a b := fun h4 => c3 (hedges.2 h4)
      simp only [Bool.not_eq_true] at c3
      simp only [c3, Bool.not_false, if_true]
      constructor
      · intro h5; split at h5 <;> cases h5
      · rintro ⟨_, h5⟩; exact absurd h5 this
  · have : ¬ ∀ n, g.nodes.get? n = h.nodes.get? n := fun h4 => c1 (hnodes.2 h4)
    simp only [Bool.not_eq_true] at c1
    simp only [c1, Bool.not_false, if_true]
    constructor
    · intro h5; cases h5
    · rintro ⟨h5, _⟩; exact absurd h5 this

end Graph
end GT

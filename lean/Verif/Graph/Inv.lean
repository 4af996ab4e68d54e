import Verif.Graph.Model
/-
Representation invariant of `BasicGraph`, preserved by every operation, and agreement of the
literal and the total layer.
-/
namespace GT
namespace Graph
variable {α V O : Type} [DecidableEq α]

/-! ### sums over association lists -/
section
variable {K W : Type} [DecidableEq K]

def asum (f : W → Nat) (l : List (K × W)) : Nat := (l.map (fun p => f p.2)).sum

theorem asum_aset (f : W → Nat) (k : K) (v : W) (l : List (K × W)) :
    asum f (aset k v l) + ((aget k l).map f).getD 0 = asum f l + f v := by
  induction l with
  | nil => simp [asum, aset, aget]
  | cons p l ih =>
    obtain ⟨k', v'⟩ := p
    by_cases h : k' = k
    · simp [asum, aset, aget, h]; omega
    · simp only [asum, aset, aget, h, if_false, List.map_cons, List.sum_cons] at ih ⊢
      omega

theorem asum_adel (f : W → Nat) (k : K) (l : List (K × W)) :
    asum f (adel k l) + ((aget k l).map f).getD 0 = asum f l := by
  induction l with
  | nil => simp [asum, adel, aget]
  | cons p l ih =>
    obtain ⟨k', v'⟩ := p
    by_cases h : k' = k
    · simp [asum, adel, aget, h]; omega
    · simp only [asum, adel, aget, h, if_false, List.map_cons, List.sum_cons] at ih ⊢
      omega
end

omit [DecidableEq α] in
theorem edgeList_length (g : Graph α V O) :
    g.edgeList.length = asum (fun d : Dict α V => d.items.length) g.edges.items := by
  unfold edgeList asum
  rw [List.length_flatMap]
  simp

/-- The representation invariant. -/
structure Inv (g : Graph α V O) : Prop where
  nodesWF : g.nodes.WF
  edgesWF : g.edges.WF
  revWF : g.rev.WF
  inWF : g.inDeg.WF
  outWF : g.outDeg.WF
  row : ∀ a d, g.edges.get? a = some d → d.WF ∧ d.items ≠ []
  col : ∀ a d, g.rev.get? a = some d → d.WF ∧ d.items ≠ []
  sym : ∀ a b, g.edge a b = g.reverseEdge b a
  dom : ∀ a b v, g.edge a b = some v → a ∈ g.nodes.keys ∧ b ∈ g.nodes.keys
  outD : ∀ n, n ∈ g.nodes.keys → g.outDeg.get? n = some ((g.nodesFrom n).length : Int)
  inD : ∀ n, n ∈ g.nodes.keys → g.inDeg.get? n = some ((g.nodesTo n).length : Int)
  outPh : ∀ n, n ∉ g.nodes.keys → g.outDeg.get? n = none ∨ g.outDeg.get? n = some 0
  inPh : ∀ n, n ∉ g.nodes.keys → g.inDeg.get? n = none ∨ g.inDeg.get? n = some 0
  count : g.edgeCount = (g.edgeList.length : Int)

theorem inv_empty : (empty : Graph α V O).Inv := by
  constructor <;> simp [empty, edge, reverseEdge, edgeList, Dict.empty, Dict.get?, aget, Dict.WF, Dict.keys]

/-! ### rows -/

/-- `_edges[a]`, or `{}` -/
def rowOf (d : Dict α (Dict α V)) (a : α) : Dict α V := (d.get? a).getD .empty

theorem rowOf_get? (d : Dict α (Dict α V)) (a b : α) :
    (rowOf d a).get? b = (d.get? a).bind (fun r => r.get? b) := by
  unfold rowOf; cases d.get? a <;> simp

theorem edge_eq_row (g : Graph α V O) (a b : α) : g.edge a b = (rowOf g.edges a).get? b :=
  (rowOf_get? _ _ _).symm

theorem reverseEdge_eq_row (g : Graph α V O) (a b : α) :
    g.reverseEdge b a = (rowOf g.rev b).get? a := (rowOf_get? _ _ _).symm

theorem nodesFrom_eq_row (g : Graph α V O) (a : α) : g.nodesFrom a = (rowOf g.edges a).keys := by
  unfold nodesFrom rowOf; cases g.edges.get? a <;> simp [Dict.empty, Dict.keys]

theorem nodesTo_eq_row (g : Graph α V O) (a : α) : g.nodesTo a = (rowOf g.rev a).keys := by
  unfold nodesTo rowOf; cases g.rev.get? a <;> simp [Dict.empty, Dict.keys]

theorem edgesFrom_eq_row (g : Graph α V O) (a : α) :
    g.edgesFrom a = (rowOf g.edges a).items.map (fun p => (a, p.1, p.2)) := by
  unfold edgesFrom rowOf; cases g.edges.get? a <;> simp [Dict.empty]

theorem edgesTo_eq_row (g : Graph α V O) (a : α) :
    g.edgesTo a = (rowOf g.rev a).items.map (fun p => (p.1, a, p.2)) := by
  unfold edgesTo rowOf; cases g.rev.get? a <;> simp [Dict.empty]

theorem Inv.rowWF {g : Graph α V O} (h : g.Inv) (a : α) : (rowOf g.edges a).WF := by
  unfold rowOf
  cases hr : g.edges.get? a with
  | none => simp
  | some d => exact (h.row a d hr).1

theorem Inv.colWF {g : Graph α V O} (h : g.Inv) (a : α) : (rowOf g.rev a).WF := by
  unfold rowOf
  cases hr : g.rev.get? a with
  | none => simp
  | some d => exact (h.col a d hr).1

theorem mem_nodesFrom {g : Graph α V O} {a b : α} : b ∈ g.nodesFrom a ↔ (g.edge a b).isSome := by
  rw [nodesFrom_eq_row, edge_eq_row, Dict.get?_isSome_iff]

theorem mem_nodesTo' {g : Graph α V O} {a b : α} :
    a ∈ g.nodesTo b ↔ (g.reverseEdge b a).isSome := by
  rw [nodesTo_eq_row, reverseEdge_eq_row, Dict.get?_isSome_iff]

theorem Inv.mem_nodesTo {g : Graph α V O} (h : g.Inv) {a b : α} :
    a ∈ g.nodesTo b ↔ (g.edge a b).isSome := by
  rw [mem_nodesTo', h.sym]

theorem Inv.nodup_nodesFrom {g : Graph α V O} (h : g.Inv) (a : α) : (g.nodesFrom a).Nodup := by
  rw [nodesFrom_eq_row]; exact h.rowWF a

theorem Inv.nodup_nodesTo {g : Graph α V O} (h : g.Inv) (a : α) : (g.nodesTo a).Nodup := by
  rw [nodesTo_eq_row]; exact h.colWF a

/-! ### generic row updates -/

theorem rowOf_set (d : Dict α (Dict α V)) (a x : α) (r : Dict α V) :
    rowOf (d.set a r) x = if a = x then r else rowOf d x := by
  unfold rowOf; rw [Dict.get?_set]; split <;> simp

theorem rowOf_putRow {d : Dict α (Dict α V)} (hd : d.WF) (a x : α) (r : Dict α V) :
    rowOf (putRow d a r) x = if a = x then r else rowOf d x := by
  unfold putRow
  split
  · rename_i he
    unfold rowOf
    rw [Dict.get?_del (hd.set a r), Dict.get?_set]
    by_cases h : a = x
    · simp only [h, if_true, Option.getD_none]
      have := (Dict.isEmpty_iff r).1 he
      cases r; simp_all [Dict.empty]
    · simp [h]
  · exact rowOf_set d a x r

theorem wf_putRow {d : Dict α (Dict α V)} (hd : d.WF) (a : α) (r : Dict α V) :
    (putRow d a r).WF := by
  unfold putRow; split
  · exact (hd.set _ _).del _
  · exact hd.set _ _

theorem get?_putRow_some {d : Dict α (Dict α V)} (hd : d.WF) {a x : α} {r s : Dict α V}
    (h : (putRow d a r).get? x = some s) :
    (a = x ∧ s = r ∧ r.items ≠ []) ∨ (a ≠ x ∧ d.get? x = some s) := by
  unfold putRow at h
  split at h
  · rename_i he
    rw [Dict.get?_del (hd.set a r), Dict.get?_set] at h
    by_cases hx : a = x
    · simp [hx] at h
    · simp [hx] at h; exact Or.inr ⟨hx, h⟩
  · rename_i he
    rw [Dict.get?_set] at h
    by_cases hx : a = x
    · simp [hx] at h
      refine Or.inl ⟨hx, h.symm, ?_⟩
      intro h2; exact he ((Dict.isEmpty_iff r).2 h2)
    · simp [hx] at h; exact Or.inr ⟨hx, h⟩

/-! ### add_node -/

@[simp] theorem addNode_edges (g : Graph α V O) (n obj) : (g.addNode n obj).edges = g.edges := by
  unfold addNode; split <;> rfl
@[simp] theorem addNode_rev (g : Graph α V O) (n obj) : (g.addNode n obj).rev = g.rev := by
  unfold addNode; split <;> rfl
@[simp] theorem addNode_count (g : Graph α V O) (n obj) :
    (g.addNode n obj).edgeCount = g.edgeCount := by
  unfold addNode; split <;> rfl
@[simp] theorem addNode_nodes (g : Graph α V O) (n obj) :
    (g.addNode n obj).nodes = g.nodes.set n obj := by
  unfold addNode; split <;> rfl

theorem edge_congr {g g' : Graph α V O} (h : g'.edges = g.edges) (a b : α) :
    g'.edge a b = g.edge a b := by unfold edge; rw [h]
theorem reverseEdge_congr {g g' : Graph α V O} (h : g'.rev = g.rev) (a b : α) :
    g'.reverseEdge a b = g.reverseEdge a b := by unfold reverseEdge; rw [h]
theorem nodesFrom_congr {g g' : Graph α V O} (h : g'.edges = g.edges) (a : α) :
    g'.nodesFrom a = g.nodesFrom a := by unfold nodesFrom; rw [h]
theorem nodesTo_congr {g g' : Graph α V O} (h : g'.rev = g.rev) (a : α) :
    g'.nodesTo a = g.nodesTo a := by unfold nodesTo; rw [h]
omit [DecidableEq α] in
theorem edgeList_congr {g g' : Graph α V O} (h : g'.edges = g.edges) :
    g'.edgeList = g.edgeList := by unfold edgeList; rw [h]

theorem Inv.nodesFrom_of_not_mem {g : Graph α V O} (h : g.Inv) {n : α} (hn : n ∉ g.nodes.keys) :
    g.nodesFrom n = [] := by
  rw [List.eq_nil_iff_forall_not_mem]
  intro b hb
  rw [mem_nodesFrom] at hb
  obtain ⟨v, hv⟩ := Option.isSome_iff_exists.1 hb
  exact hn (h.dom n b v hv).1

theorem Inv.nodesTo_of_not_mem {g : Graph α V O} (h : g.Inv) {n : α} (hn : n ∉ g.nodes.keys) :
    g.nodesTo n = [] := by
  rw [List.eq_nil_iff_forall_not_mem]
  intro b hb
  rw [h.mem_nodesTo] at hb
  obtain ⟨v, hv⟩ := Option.isSome_iff_exists.1 hb
  exact hn (h.dom b n v hv).2

theorem Inv.addNode {g : Graph α V O} (h : g.Inv) (n : α) (obj : Option O) :
    (g.addNode n obj).Inv := by
  have he : (g.addNode n obj).edges = g.edges := addNode_edges ..
  have hr : (g.addNode n obj).rev = g.rev := addNode_rev ..
  have hin : (g.addNode n obj).inDeg =
      if g.nodes.contains n then g.inDeg else g.inDeg.set n 0 := by
    unfold Graph.addNode; split <;> rfl
  have hout : (g.addNode n obj).outDeg =
      if g.nodes.contains n then g.outDeg else g.outDeg.set n 0 := by
    unfold Graph.addNode; split <;> rfl
  have hk : g.nodes.contains n = true ↔ n ∈ g.nodes.keys := Dict.contains_iff_keys _ _
  constructor
  · rw [addNode_nodes]; exact h.nodesWF.set _ _
  · rw [he]; exact h.edgesWF
  · rw [hr]; exact h.revWF
  · rw [hin]; split
    · exact h.inWF
    · exact h.inWF.set _ _
  · rw [hout]; split
    · exact h.outWF
    · exact h.outWF.set _ _
  · rw [he]; exact h.row
  · rw [hr]; exact h.col
  · intro a b; rw [edge_congr he, reverseEdge_congr hr]; exact h.sym a b
  · intro a b v hv
    rw [edge_congr he] at hv
    rw [addNode_nodes, Dict.mem_keys_set, Dict.mem_keys_set]
    exact ⟨Or.inr (h.dom a b v hv).1, Or.inr (h.dom a b v hv).2⟩
  · intro m hm
    rw [nodesFrom_congr he, hout]
    rw [addNode_nodes, Dict.mem_keys_set] at hm
    split
    · rename_i hc
      rcases hm with rfl | hm
      · exact h.outD _ (hk.1 hc)
      · exact h.outD _ hm
    · rename_i hc
      rw [Dict.get?_set]
      by_cases hmn : n = m
      · subst hmn
        rw [h.nodesFrom_of_not_mem (fun h2 => hc (hk.2 h2))]; simp
      · rcases hm with rfl | hm
        · exact absurd rfl hmn
        · simp [hmn, h.outD _ hm]
  · intro m hm
    rw [nodesTo_congr hr, hin]
    rw [addNode_nodes, Dict.mem_keys_set] at hm
    split
    · rename_i hc
      rcases hm with rfl | hm
      · exact h.inD _ (hk.1 hc)
      · exact h.inD _ hm
    · rename_i hc
      rw [Dict.get?_set]
      by_cases hmn : n = m
      · subst hmn
        rw [h.nodesTo_of_not_mem (fun h2 => hc (hk.2 h2))]; simp
      · rcases hm with rfl | hm
        · exact absurd rfl hmn
        · simp [hmn, h.inD _ hm]
  · intro m hm
    rw [addNode_nodes, Dict.mem_keys_set, not_or] at hm
    rw [hout]; split
    · exact h.outPh m hm.2
    · rw [Dict.get?_set_ne _ _ (Ne.symm hm.1)]; exact h.outPh m hm.2
  · intro m hm
    rw [addNode_nodes, Dict.mem_keys_set, not_or] at hm
    rw [hin]; split
    · exact h.inPh m hm.2
    · rw [Dict.get?_set_ne _ _ (Ne.symm hm.1)]; exact h.inPh m hm.2
  · rw [addNode_count, edgeList_congr he]; exact h.count

/-! ### add_edge -/

theorem Inv.ensureNode {g : Graph α V O} (h : g.Inv) (n : α) : (g.ensureNode n).Inv := by
  unfold Graph.ensureNode; split
  · exact h
  · exact h.addNode n none

@[simp] theorem ensureNode_edges (g : Graph α V O) (n) : (g.ensureNode n).edges = g.edges := by
  unfold ensureNode; split <;> simp
@[simp] theorem ensureNode_rev (g : Graph α V O) (n) : (g.ensureNode n).rev = g.rev := by
  unfold ensureNode; split <;> simp
@[simp] theorem ensureNode_count (g : Graph α V O) (n) :
    (g.ensureNode n).edgeCount = g.edgeCount := by
  unfold ensureNode; split <;> simp

theorem ensureNode_nodes_get? (g : Graph α V O) (n x : α) :
    (g.ensureNode n).nodes.get? x =
      if n = x ∧ g.nodes.get? n = none then some none else g.nodes.get? x := by
  unfold ensureNode
  by_cases hc : g.nodes.contains n = true
  · have : g.nodes.get? n ≠ none := by
      unfold Dict.contains at hc; intro h2; rw [h2] at hc; simp at hc
    simp [hc, this]
  · have hn : g.nodes.get? n = none := by
      unfold Dict.contains at hc; simpa using hc
    rw [if_neg hc, addNode_nodes, Dict.get?_set]
    simp [hn]

theorem mem_keys_ensureNode (g : Graph α V O) (n x : α) :
    x ∈ (g.ensureNode n).nodes.keys ↔ x = n ∨ x ∈ g.nodes.keys := by
  rw [← Dict.get?_isSome_iff, ← Dict.get?_isSome_iff, ensureNode_nodes_get?]
  by_cases h : n = x
  · subst h; by_cases h2 : g.nodes.get? n = none
    · simp [h2]
    · simp only [h2, and_false, if_false, true_or, iff_true]
      cases h3 : g.nodes.get? n <;> simp_all
  · simp [h, Ne.symm h]

/-- the graph after both end points have been registered -/
def withEnds (g : Graph α V O) (a b : α) : Graph α V O := (g.ensureNode a).ensureNode b

@[simp] theorem withEnds_edges (g : Graph α V O) (a b : α) : (g.withEnds a b).edges = g.edges := by
  simp [withEnds]
@[simp] theorem withEnds_rev (g : Graph α V O) (a b : α) : (g.withEnds a b).rev = g.rev := by
  simp [withEnds]
@[simp] theorem withEnds_count (g : Graph α V O) (a b : α) :
    (g.withEnds a b).edgeCount = g.edgeCount := by simp [withEnds]
theorem Inv.withEnds {g : Graph α V O} (h : g.Inv) (a b : α) : (g.withEnds a b).Inv :=
  (h.ensureNode a).ensureNode b
theorem mem_keys_withEnds (g : Graph α V O) (a b x : α) :
    x ∈ (g.withEnds a b).nodes.keys ↔ x = a ∨ x = b ∨ x ∈ g.nodes.keys := by
  unfold withEnds; rw [mem_keys_ensureNode, mem_keys_ensureNode]
  constructor
  · rintro (h | h | h)
    · exact Or.inr (Or.inl h)
    · exact Or.inl h
    · exact Or.inr (Or.inr h)
  · rintro (h | h | h)
    · exact Or.inr (Or.inl h)
    · exact Or.inl h
    · exact Or.inr (Or.inr h)

theorem addEdge_edges (g : Graph α V O) (a b : α) (v : V) :
    (g.addEdge a b v).edges = g.edges.set a ((rowOf g.edges a).set b v) := by
  unfold addEdge rowOf; simp only [ensureNode_edges]; split <;> rfl

theorem addEdge_rev (g : Graph α V O) (a b : α) (v : V) :
    (g.addEdge a b v).rev = g.rev.set b ((rowOf g.rev b).set a v) := by
  unfold addEdge rowOf; simp only [ensureNode_rev]; split <;> rfl

theorem addEdge_nodes (g : Graph α V O) (a b : α) (v : V) :
    (g.addEdge a b v).nodes = (g.withEnds a b).nodes := by
  unfold addEdge withEnds; simp only []; split <;> rfl

theorem addEdge_count (g : Graph α V O) (a b : α) (v : V) :
    (g.addEdge a b v).edgeCount =
      if (g.edge a b).isSome then g.edgeCount else g.edgeCount + 1 := by
  unfold addEdge
  simp only [edge_congr (g' := (g.ensureNode a).ensureNode b) (g := g) (by simp) a b]
  split <;> simp

theorem addEdge_outDeg (g : Graph α V O) (a b : α) (v : V) :
    (g.addEdge a b v).outDeg = if (g.edge a b).isSome then (g.withEnds a b).outDeg
      else ddAdd (g.withEnds a b).outDeg a 1 := by
  unfold addEdge withEnds
  simp only [edge_congr (g' := (g.ensureNode a).ensureNode b) (g := g) (by simp) a b]
  split <;> simp

theorem addEdge_inDeg (g : Graph α V O) (a b : α) (v : V) :
    (g.addEdge a b v).inDeg = if (g.edge a b).isSome then (g.withEnds a b).inDeg
      else ddAdd (g.withEnds a b).inDeg b 1 := by
  unfold addEdge withEnds
  simp only [edge_congr (g' := (g.ensureNode a).ensureNode b) (g := g) (by simp) a b]
  split <;> simp

theorem edge_addEdge (g : Graph α V O) (a b x y : α) (v : V) :
    (g.addEdge a b v).edge x y = if a = x ∧ b = y then some v else g.edge x y := by
  rw [edge_eq_row, edge_eq_row, addEdge_edges, rowOf_set]
  by_cases hx : a = x
  · subst hx; simp only [if_true, Dict.get?_set, true_and]
  · simp [hx]

theorem reverseEdge_addEdge (g : Graph α V O) (a b x y : α) (v : V) :
    (g.addEdge a b v).reverseEdge y x =
      if a = x ∧ b = y then some v else g.reverseEdge y x := by
  rw [reverseEdge_eq_row, reverseEdge_eq_row, addEdge_rev, rowOf_set]
  by_cases hx : b = y
  · subst hx; simp only [if_true, Dict.get?_set, and_true]
  · simp [hx]

theorem nodesFrom_addEdge_length (g : Graph α V O) (a b x : α) (v : V) :
    ((g.addEdge a b v).nodesFrom x).length =
      if a = x ∧ (g.edge a b).isSome = false then (g.nodesFrom x).length + 1
      else (g.nodesFrom x).length := by
  rw [nodesFrom_eq_row, nodesFrom_eq_row, addEdge_edges, rowOf_set, edge_eq_row]
  by_cases hx : a = x
  · subst hx
    simp only [if_true, true_and]
    have := aset_length (k := b) (v := v) (l := (rowOf g.edges a).items)
    have h2 := Dict.get?_isSome_iff (rowOf g.edges a) b
    unfold Dict.keys at h2 ⊢
    simp only [List.length_map, Dict.set] at *
    rw [this]
    by_cases hb : ((rowOf g.edges a).get? b).isSome = true
    · simp [h2.1 hb, hb]
    · have : b ∉ (rowOf g.edges a).items.map Prod.fst := fun h3 => hb (h2.2 h3)
      rw [if_neg this]; simp only [Bool.not_eq_true] at hb; simp [hb]
  · simp [hx]

theorem nodesTo_addEdge_length {g : Graph α V O} (h : g.Inv) (a b x : α) (v : V) :
    ((g.addEdge a b v).nodesTo x).length =
      if b = x ∧ (g.edge a b).isSome = false then (g.nodesTo x).length + 1
      else (g.nodesTo x).length := by
  rw [nodesTo_eq_row, nodesTo_eq_row, addEdge_rev, rowOf_set, h.sym, reverseEdge_eq_row]
  by_cases hx : b = x
  · subst hx
    simp only [if_true, true_and]
    have := aset_length (k := a) (v := v) (l := (rowOf g.rev b).items)
    have h2 := Dict.get?_isSome_iff (rowOf g.rev b) a
    unfold Dict.keys at h2 ⊢
    simp only [List.length_map, Dict.set] at *
    rw [this]
    by_cases hb : ((rowOf g.rev b).get? a).isSome = true
    · simp [h2.1 hb, hb]
    · have : a ∉ (rowOf g.rev b).items.map Prod.fst := fun h3 => hb (h2.2 h3)
      rw [if_neg this]; simp only [Bool.not_eq_true] at hb; simp [hb]
  · simp [hx]

theorem edgeList_addEdge_length (g : Graph α V O) (a b : α) (v : V) :
    ((g.addEdge a b v).edgeList).length =
      if (g.edge a b).isSome then g.edgeList.length else g.edgeList.length + 1 := by
  rw [edgeList_length, edgeList_length, addEdge_edges]
  have h1 := asum_aset (fun d : Dict α V => d.items.length) a ((rowOf g.edges a).set b v) g.edges.items
  have h2 : ((aget a g.edges.items).map (fun d : Dict α V => d.items.length)).getD 0
      = (rowOf g.edges a).items.length := by
    unfold rowOf Dict.get?; cases aget a g.edges.items <;> simp [Dict.empty]
  rw [h2] at h1
  have h3 := aset_length (k := b) (v := v) (l := (rowOf g.edges a).items)
  have h4 := Dict.get?_isSome_iff (rowOf g.edges a) b
  rw [edge_eq_row]
  simp only [Dict.set, Dict.keys] at *
  by_cases hb : ((rowOf g.edges a).get? b).isSome = true
  · rw [if_pos (h4.1 hb)] at h3; rw [if_pos hb]; omega
  · rw [if_neg (fun h5 => hb (h4.2 h5))] at h3; rw [if_neg hb]; omega

theorem ddAdd_get? (d : Dict α Int) (k x : α) (c : Int) :
    (ddAdd d k c).get? x = if k = x then some ((d.get? k).getD 0 + c) else d.get? x := by
  unfold ddAdd; rw [Dict.get?_set]

theorem Inv.addEdge {g : Graph α V O} (h : g.Inv) (a b : α) (v : V) : (g.addEdge a b v).Inv := by
  have h' := h.withEnds a b
  constructor
  · rw [addEdge_nodes]; exact h'.nodesWF
  · rw [addEdge_edges]; exact h.edgesWF.set _ _
  · rw [addEdge_rev]; exact h.revWF.set _ _
  · rw [addEdge_inDeg]; split
    · exact h'.inWF
    · exact h'.inWF.set _ _
  · rw [addEdge_outDeg]; split
    · exact h'.outWF
    · exact h'.outWF.set _ _
  · intro x d hd
    rw [addEdge_edges, Dict.get?_set] at hd
    split at hd
    · cases hd; exact ⟨(h.rowWF a).set _ _, aset_ne_nil⟩
    · exact h.row x d hd
  · intro x d hd
    rw [addEdge_rev, Dict.get?_set] at hd
    split at hd
    · cases hd; exact ⟨(h.colWF b).set _ _, aset_ne_nil⟩
    · exact h.col x d hd
  · intro x y; rw [edge_addEdge, reverseEdge_addEdge, h.sym]
  · intro x y w hw
    rw [addEdge_nodes, mem_keys_withEnds, mem_keys_withEnds]
    rw [edge_addEdge] at hw
    split at hw
    · rename_i hxy; exact ⟨Or.inl hxy.1.symm, Or.inr (Or.inl hxy.2.symm)⟩
    · exact ⟨Or.inr (Or.inr (h.dom x y w hw).1), Or.inr (Or.inr (h.dom x y w hw).2)⟩
  · intro n hn
    rw [addEdge_nodes] at hn
    have := h'.outD n hn
    rw [nodesFrom_congr (withEnds_edges g a b)] at this
    rw [nodesFrom_addEdge_length, addEdge_outDeg]
    by_cases hs : (g.edge a b).isSome = true
    · simp [hs, this]
    · rw [if_neg hs, ddAdd_get?]
      by_cases han : a = n
      · subst han; simp at hs; simp [this, hs]
      · simp [han, this]
  · intro n hn
    rw [addEdge_nodes] at hn
    have := h'.inD n hn
    rw [nodesTo_congr (withEnds_rev g a b)] at this
    rw [nodesTo_addEdge_length h, addEdge_inDeg]
    by_cases hs : (g.edge a b).isSome = true
    · simp [hs, this]
    · rw [if_neg hs, ddAdd_get?]
      by_cases han : b = n
      · subst han; simp at hs; simp [this, hs]
      · simp [han, this]
  · intro n hn
    rw [addEdge_nodes] at hn
    have hne : a ≠ n := by
      intro h2; subst h2; exact hn ((mem_keys_withEnds ..).2 (Or.inl rfl))
    rw [addEdge_outDeg]; split
    · exact h'.outPh n hn
    · rw [ddAdd_get?, if_neg hne]; exact h'.outPh n hn
  · intro n hn
    rw [addEdge_nodes] at hn
    have hne : b ≠ n := by
      intro h2; subst h2; exact hn ((mem_keys_withEnds ..).2 (Or.inr (Or.inl rfl)))
    rw [addEdge_inDeg]; split
    · exact h'.inPh n hn
    · rw [ddAdd_get?, if_neg hne]; exact h'.inPh n hn
  · rw [addEdge_count, edgeList_addEdge_length]
    have := h.count
    split <;> simp [this]

/-! ### del_edge -/

theorem delEdge_of_none {g : Graph α V O} {a b : α} (h : g.edge a b = none) :
    g.delEdge a b = g := by
  unfold delEdge; simp [h]

theorem delEdge_nodes (g : Graph α V O) (a b : α) : (g.delEdge a b).nodes = g.nodes := by
  unfold delEdge; split <;> rfl

theorem edge_delEdge {g : Graph α V O} (h : g.Inv) (a b x y : α) :
    (g.delEdge a b).edge x y = if a = x ∧ b = y then none else g.edge x y := by
  by_cases hs : (g.edge a b).isSome = true
  · rw [edge_eq_row (g.delEdge a b), edge_eq_row g x y]
    have : (g.delEdge a b).edges = putRow g.edges a ((rowOf g.edges a).del b) := by
      unfold delEdge; rw [if_pos hs]; rfl
    rw [this, rowOf_putRow h.edgesWF]
    by_cases hx : a = x
    · subst hx; simp only [if_true, true_and, Dict.get?_del (h.rowWF a)]
    · simp [hx]
  · have hn : g.edge a b = none := by simpa using hs
    rw [delEdge_of_none hn]
    split
    · rename_i hxy; rw [← hxy.1, ← hxy.2]; exact hn
    · rfl

theorem Inv.delEdge {g : Graph α V O} (h : g.Inv) (a b : α) : (g.delEdge a b).Inv := by
  by_cases hs' : ¬ (g.edge a b).isSome = true
  · rw [delEdge_of_none (by simpa using hs')]; exact h
  have hs : (g.edge a b).isSome = true := Classical.not_not.1 hs'
  obtain ⟨v, hv⟩ := Option.isSome_iff_exists.1 hs
  have hdom := h.dom a b v hv
  have he : (g.delEdge a b).edges = putRow g.edges a ((rowOf g.edges a).del b) := by
    unfold Graph.delEdge; rw [if_pos hs]; rfl
  have hr : (g.delEdge a b).rev = putRow g.rev b ((rowOf g.rev b).del a) := by
    unfold Graph.delEdge; rw [if_pos hs]; rfl
  have ho : (g.delEdge a b).outDeg = ddAdd g.outDeg a (-1) := by
    unfold Graph.delEdge; rw [if_pos hs]
  have hi : (g.delEdge a b).inDeg = ddAdd g.inDeg b (-1) := by
    unfold Graph.delEdge; rw [if_pos hs]
  have hc : (g.delEdge a b).edgeCount = g.edgeCount - 1 := by
    unfold Graph.delEdge; rw [if_pos hs]
  have hbrow : b ∈ (rowOf g.edges a).keys := by
    rw [← Dict.get?_isSome_iff, ← edge_eq_row]; exact hs
  have hacol : a ∈ (rowOf g.rev b).keys := by
    rw [← Dict.get?_isSome_iff, ← reverseEdge_eq_row, ← h.sym]; exact hs
  have hrev : ∀ x y, (g.delEdge a b).reverseEdge y x =
      if a = x ∧ b = y then none else g.reverseEdge y x := by
    intro x y
    rw [reverseEdge_eq_row, reverseEdge_eq_row, hr, rowOf_putRow h.revWF]
    by_cases hy : b = y
    · subst hy; simp only [if_true, and_true, Dict.get?_del (h.colWF b)]
    · simp [hy]
  constructor
  · rw [delEdge_nodes]; exact h.nodesWF
  · rw [he]; exact wf_putRow h.edgesWF _ _
  · rw [hr]; exact wf_putRow h.revWF _ _
  · rw [hi]; exact h.inWF.set _ _
  · rw [ho]; exact h.outWF.set _ _
  · intro x d hd
    rw [he] at hd
    rcases get?_putRow_some h.edgesWF hd with ⟨_, rfl, h3⟩ | ⟨_, h3⟩
    · exact ⟨(h.rowWF a).del _, h3⟩
    · exact h.row x d h3
  · intro x d hd
    rw [hr] at hd
    rcases get?_putRow_some h.revWF hd with ⟨_, rfl, h3⟩ | ⟨_, h3⟩
    · exact ⟨(h.colWF b).del _, h3⟩
    · exact h.col x d h3
  · intro x y; rw [edge_delEdge h, hrev, h.sym]
  · intro x y w hw
    rw [edge_delEdge h] at hw
    split at hw
    · cases hw
    · rw [delEdge_nodes]; exact h.dom x y w hw
  · intro n hn
    rw [delEdge_nodes] at hn
    rw [nodesFrom_eq_row, he, rowOf_putRow h.edgesWF, ho, ddAdd_get?]
    have := h.outD n hn
    rw [nodesFrom_eq_row] at this
    by_cases han : a = n
    · subst han
      have hl := adel_length hbrow
      simp only [if_true, this, Option.getD_some, Dict.keys, Dict.del, List.length_map]
      congr 1; omega
    · simp [han, this]
  · intro n hn
    rw [delEdge_nodes] at hn
    rw [nodesTo_eq_row, hr, rowOf_putRow h.revWF, hi, ddAdd_get?]
    have := h.inD n hn
    rw [nodesTo_eq_row] at this
    by_cases han : b = n
    · subst han
      have hl := adel_length hacol
      simp only [if_true, this, Option.getD_some, Dict.keys, Dict.del, List.length_map]
      congr 1; omega
    · simp [han, this]
  · intro n hn
    rw [delEdge_nodes] at hn
    have hne : a ≠ n := by intro h2; subst h2; exact hn hdom.1
    rw [ho, ddAdd_get?, if_neg hne]; exact h.outPh n hn
  · intro n hn
    rw [delEdge_nodes] at hn
    have hne : b ≠ n := by intro h2; subst h2; exact hn hdom.2
    rw [hi, ddAdd_get?, if_neg hne]; exact h.inPh n hn
  · rw [hc, h.count, edgeList_length, edgeList_length, he]
    have h1 := asum_aset (fun d : Dict α V => d.items.length) a ((rowOf g.edges a).del b) g.edges.items
    have h2 : ((aget a g.edges.items).map (fun d : Dict α V => d.items.length)).getD 0
        = (rowOf g.edges a).items.length := by
      unfold rowOf Dict.get?; cases aget a g.edges.items <;> simp [Dict.empty]
    rw [h2] at h1
    have hl : ((rowOf g.edges a).del b).items.length + 1 = (rowOf g.edges a).items.length :=
      adel_length hbrow
    unfold putRow
    split
    · rename_i hemp
      have h4 := asum_adel (fun d : Dict α V => d.items.length) a
        (aset a ((rowOf g.edges a).del b) g.edges.items)
      rw [aget_aset, if_pos rfl] at h4
      have h5 : ((rowOf g.edges a).del b).items.length = 0 := by
        rw [(Dict.isEmpty_iff _).1 hemp]; rfl
      simp only [Option.map_some, Option.getD_some] at h4
      show _ = ((asum (fun d : Dict α V => d.items.length)
        (adel a (aset a ((rowOf g.edges a).del b) g.edges.items)) : Nat) : Int)
      omega
    · show _ = ((asum (fun d : Dict α V => d.items.length)
        (aset a ((rowOf g.edges a).del b) g.edges.items) : Nat) : Int)
      omega

/-! ### del_node -/

theorem delEdges_from {g : Graph α V O} (h : g.Inv) (n : α) (l : List α) :
    (l.foldl (fun g n2 => g.delEdge n n2) g).Inv ∧
    (l.foldl (fun g n2 => g.delEdge n n2) g).nodes = g.nodes ∧
    ∀ x y, (l.foldl (fun g n2 => g.delEdge n n2) g).edge x y =
      if n = x ∧ y ∈ l then none else g.edge x y := by
  induction l generalizing g with
  | nil => exact ⟨h, rfl, by simp⟩
  | cons b l ih =>
    obtain ⟨h1, h2, h3⟩ := ih (h.delEdge n b)
    refine ⟨h1, by rw [List.foldl_cons, h2, delEdge_nodes], ?_⟩
    intro x y
    rw [List.foldl_cons, h3, edge_delEdge h]
    by_cases hx : n = x
    · by_cases hy : b = y
      · subst hx hy; simp
      · simp [hx, hy, Ne.symm hy]
    · simp [hx]

theorem delEdges_to {g : Graph α V O} (h : g.Inv) (n : α) (l : List α) :
    (l.foldl (fun g n1 => g.delEdge n1 n) g).Inv ∧
    (l.foldl (fun g n1 => g.delEdge n1 n) g).nodes = g.nodes ∧
    ∀ x y, (l.foldl (fun g n1 => g.delEdge n1 n) g).edge x y =
      if n = y ∧ x ∈ l then none else g.edge x y := by
  induction l generalizing g with
  | nil => exact ⟨h, rfl, by simp⟩
  | cons b l ih =>
    obtain ⟨h1, h2, h3⟩ := ih (h.delEdge b n)
    refine ⟨h1, by rw [List.foldl_cons, h2, delEdge_nodes], ?_⟩
    intro x y
    rw [List.foldl_cons, h3, edge_delEdge h]
    by_cases hx : n = y
    · by_cases hy : b = x
      · subst hx hy; simp
      · simp [hx, hy, Ne.symm hy]
    · simp [hx]

/-- Dropping a node without incident edges. -/
theorem dropNode_spec {g : Graph α V O} (h : g.Inv) (n : α)
    (hout : ∀ y, g.edge n y = none) (hin : ∀ x, g.edge x n = none) :
    (g.dropNode n).Inv ∧ (g.dropNode n).edges = g.edges ∧ (g.dropNode n).rev = g.rev := by
  have hne : n ∉ g.edges.keys := by
    intro hk
    obtain ⟨d, hd⟩ := Dict.exists_get?_of_mem_keys hk
    obtain ⟨hw, hd2⟩ := h.row n d hd
    cases hd3 : d.items with
    | nil => exact hd2 hd3
    | cons p l =>
      have : d.get? p.1 = some p.2 := (Dict.get?_eq_some_iff hw _ _).2 (by rw [hd3]; simp)
      have h2 := hout p.1
      unfold edge at h2; rw [hd] at h2; simp [this] at h2
  have hnr : n ∉ g.rev.keys := by
    intro hk
    obtain ⟨d, hd⟩ := Dict.exists_get?_of_mem_keys hk
    obtain ⟨hw, hd2⟩ := h.col n d hd
    cases hd3 : d.items with
    | nil => exact hd2 hd3
    | cons p l =>
      have : d.get? p.1 = some p.2 := (Dict.get?_eq_some_iff hw _ _).2 (by rw [hd3]; simp)
      have h2 := hin p.1
      rw [h.sym] at h2
      unfold reverseEdge at h2; rw [hd] at h2; simp [this] at h2
  have he : (g.dropNode n).edges = g.edges := by
    unfold dropNode Dict.del; simp only; rw [adel_of_not_mem hne]
  have hr : (g.dropNode n).rev = g.rev := by
    unfold dropNode Dict.del; simp only; rw [adel_of_not_mem hnr]
  refine ⟨?_, he, hr⟩
  have hk : ∀ x, x ∈ (g.dropNode n).nodes.keys ↔ x ≠ n ∧ x ∈ g.nodes.keys :=
    fun x => Dict.mem_keys_del h.nodesWF n x
  constructor
  · exact h.nodesWF.del _
  · rw [he]; exact h.edgesWF
  · rw [hr]; exact h.revWF
  · exact h.inWF.del _
  · exact h.outWF.del _
  · rw [he]; exact h.row
  · rw [hr]; exact h.col
  · intro x y; rw [edge_congr he, reverseEdge_congr hr]; exact h.sym x y
  · intro x y v hv
    rw [edge_congr he] at hv
    rw [hk, hk]
    refine ⟨⟨?_, (h.dom x y v hv).1⟩, ⟨?_, (h.dom x y v hv).2⟩⟩
    · intro h2; subst h2; rw [hout] at hv; cases hv
    · intro h2; subst h2; rw [hin] at hv; cases hv
  · intro m hm
    rw [hk] at hm
    rw [nodesFrom_congr he]
    show (g.outDeg.del n).get? m = _
    rw [Dict.get?_del h.outWF, if_neg (Ne.symm hm.1)]; exact h.outD m hm.2
  · intro m hm
    rw [hk] at hm
    rw [nodesTo_congr hr]
    show (g.inDeg.del n).get? m = _
    rw [Dict.get?_del h.inWF, if_neg (Ne.symm hm.1)]; exact h.inD m hm.2
  · intro m hm
    rw [hk] at hm
    show (g.outDeg.del n).get? m = _ ∨ (g.outDeg.del n).get? m = _
    rw [Dict.get?_del h.outWF]
    by_cases h2 : n = m
    · simp [h2]
    · simp only [h2, if_false]
      exact h.outPh m (fun h3 => hm ⟨Ne.symm h2, h3⟩)
  · intro m hm
    rw [hk] at hm
    show (g.inDeg.del n).get? m = _ ∨ (g.inDeg.del n).get? m = _
    rw [Dict.get?_del h.inWF]
    by_cases h2 : n = m
    · simp [h2]
    · simp only [h2, if_false]
      exact h.inPh m (fun h3 => hm ⟨Ne.symm h2, h3⟩)
  · rw [edgeList_congr he]; exact h.count

/-- Full specification of `del_node` in one statement. -/
theorem delNode_spec {g : Graph α V O} (h : g.Inv) (n : α) :
    (g.delNode n).Inv ∧
    (∀ x, (g.delNode n).nodes.get? x = if n = x then none else g.nodes.get? x) ∧
    (∀ x y, (g.delNode n).edge x y = if n = x ∨ n = y then none else g.edge x y) ∧
    (g.delNode n).nodes = g.nodes.del n := by
  unfold delNode
  by_cases hc : g.nodes.contains n = true
  · rw [if_pos hc]
    obtain ⟨h1, h2, h3⟩ := delEdges_from h n (g.nodesFrom n)
    revert h1 h2 h3
    generalize (g.nodesFrom n).foldl (fun g n2 => g.delEdge n n2) g = g1
    intro h1 h2 h3
    obtain ⟨h4, h5, h6⟩ := delEdges_to h1 n (g1.nodesTo n)
    revert h4 h5 h6
    simp only
    generalize (g1.nodesTo n).foldl (fun g n1 => g.delEdge n1 n) g1 = g2
    intro h4 h5 h6
    have hall1 : ∀ y, g1.edge n y = none := by
      intro y; rw [h3]
      by_cases hy : y ∈ g.nodesFrom n
      · simp [hy]
      · simp only [hy, and_false, if_false]
        rw [mem_nodesFrom] at hy; simpa using hy
    have hin : ∀ x, g2.edge x n = none := by
      intro x; rw [h6]
      by_cases hy : x ∈ g1.nodesTo n
      · simp [hy]
      · simp only [hy, and_false, if_false]
        rw [h1.mem_nodesTo] at hy; simpa using hy
    have hout : ∀ y, g2.edge n y = none := by
      intro y; rw [h6]; split
      · rfl
      · exact hall1 y
    obtain ⟨h7, h8, _⟩ := dropNode_spec h4 n hout hin
    have hn2 : g2.nodes = g.nodes := by rw [h5, h2]
    have hnodes : (g2.dropNode n).nodes = g.nodes.del n := by unfold dropNode; simp [hn2]
    refine ⟨h7, ?_, ?_, hnodes⟩
    · intro x; rw [hnodes, Dict.get?_del h.nodesWF]
    · intro x y
      rw [edge_congr h8]
      by_cases hx : n = x
      · subst hx
        simp [hout]
      · by_cases hy : n = y
        · subst hy
          simp [hin]
        · rw [h6, h3]; simp [hx, hy]
  · rw [if_neg hc]
    have hn : n ∉ g.nodes.keys := fun h2 => hc ((Dict.contains_iff_keys _ _).2 h2)
    have hnone : g.nodes.get? n = none := (Dict.get?_eq_none_iff _ _).2 hn
    refine ⟨h, ?_, ?_, ?_⟩
    · intro x; split
      · rename_i hx; rw [← hx]; exact hnone
      · rfl
    · intro x y; split
      · rename_i hx
        cases hv : g.edge x y with
        | none => rfl
        | some v =>
          have := h.dom x y v hv
          rcases hx with rfl | rfl
          · exact absurd this.1 hn
          · exact absurd this.2 hn
      · rfl
    · unfold Dict.del; rw [adel_of_not_mem hn]

theorem Inv.delNode {g : Graph α V O} (h : g.Inv) (n : α) : (g.delNode n).Inv :=
  (delNode_spec h n).1

/-! ### degree reads -/

theorem Inv.inDegree {g : Graph α V O} (h : g.Inv) (n : α) : (g.inDegree n).2.Inv := by
  unfold Graph.inDegree ddRead
  cases hd : g.inDeg.get? n with
  | some c => exact h
  | none =>
    have hn : n ∉ g.nodes.keys := by
      intro h2; rw [h.inD n h2] at hd; cases hd
    constructor
    · exact h.nodesWF
    · exact h.edgesWF
    · exact h.revWF
    · exact h.inWF.set _ _
    · exact h.outWF
    · exact h.row
    · exact h.col
    · exact h.sym
    · exact h.dom
    · exact h.outD
    · intro m hm
      have hne : n ≠ m := by intro h2; subst h2; exact hn hm
      show (g.inDeg.set n 0).get? m = _
      rw [Dict.get?_set_ne _ _ hne]; exact h.inD m hm
    · exact h.outPh
    · intro m hm
      show (g.inDeg.set n 0).get? m = _ ∨ (g.inDeg.set n 0).get? m = _
      rw [Dict.get?_set]; split
      · exact Or.inr rfl
      · exact h.inPh m hm
    · exact h.count

theorem Inv.outDegree {g : Graph α V O} (h : g.Inv) (n : α) : (g.outDegree n).2.Inv := by
  unfold Graph.outDegree ddRead
  cases hd : g.outDeg.get? n with
  | some c => exact h
  | none =>
    have hn : n ∉ g.nodes.keys := by
      intro h2; rw [h.outD n h2] at hd; cases hd
    constructor
    · exact h.nodesWF
    · exact h.edgesWF
    · exact h.revWF
    · exact h.inWF
    · exact h.outWF.set _ _
    · exact h.row
    · exact h.col
    · exact h.sym
    · exact h.dom
    · intro m hm
      have hne : n ≠ m := by intro h2; subst h2; exact hn hm
      show (g.outDeg.set n 0).get? m = _
      rw [Dict.get?_set_ne _ _ hne]; exact h.outD m hm
    · exact h.inD
    · intro m hm
      show (g.outDeg.set n 0).get? m = _ ∨ (g.outDeg.set n 0).get? m = _
      rw [Dict.get?_set]; split
      · exact Or.inr rfl
      · exact h.outPh m hm
    · exact h.inPh
    · exact h.count

/-! ### literal layer = total layer on well-formed graphs -/

theorem addEdge1E_eq {g : Graph α V O} (h : g.Inv) (a b : α) (v : V) :
    g.addEdge1E a b v = .ok (g.addEdge a b v) := by
  unfold addEdge1E addEdge
  have h' : ((g.ensureNode a).ensureNode b).Inv := (h.ensureNode a).ensureNode b
  revert h'
  generalize (g.ensureNode a).ensureNode b = k
  intro h'
  simp only
  have hsym := h'.sym a b
  unfold edge reverseEdge at hsym
  unfold edge
  cases he : k.edges.get? a with
  | none => cases hr : k.rev.get? b <;> simp
  | some d =>
    rw [he] at hsym
    simp only [Option.bind_some] at hsym
    unfold Dict.contains
    by_cases hd : d.get? b = none
    · cases hr : k.rev.get? b <;> simp [hd]
    · obtain ⟨w, hd⟩ := Option.ne_none_iff_exists'.1 hd
      rw [hd] at hsym
      cases hr : k.rev.get? b with
      | none => rw [hr] at hsym; cases hsym
      | some r => simp [hd, Dict.getE, he, hr, bind, Except.bind]

theorem delEdgeE_eq {g : Graph α V O} (h : g.Inv) (a b : α) :
    g.delEdgeE a b = .ok (g.delEdge a b) := by
  unfold delEdgeE delEdge
  have hsym := h.sym a b
  unfold edge reverseEdge at hsym
  unfold edge
  cases he : g.edges.get? a with
  | none => simp
  | some d =>
    rw [he] at hsym
    simp only [Option.bind_some] at hsym
    unfold Dict.contains
    by_cases hd : d.get? b = none
    · simp [hd]
    · obtain ⟨w, hd⟩ := Option.ne_none_iff_exists'.1 hd
      rw [hd] at hsym
      cases hr : g.rev.get? b with
      | none => rw [hr] at hsym; cases hsym
      | some r =>
        rw [hr] at hsym
        simp only [Option.bind_some] at hsym
        simp [hd, Dict.getE, Dict.delE, Dict.contains, ← hsym, hr, bind, Except.bind, putRow]

theorem forE_delEdge_from {g : Graph α V O} (h : g.Inv) (n : α) (l : List α) :
    forE l g (fun g n2 => g.delEdgeE n n2) = .ok (l.foldl (fun g n2 => g.delEdge n n2) g) := by
  induction l generalizing g with
  | nil => rfl
  | cons b l ih => simp only [forE, delEdgeE_eq h, List.foldl_cons]; exact ih (h.delEdge n b)

theorem forE_delEdge_to {g : Graph α V O} (h : g.Inv) (n : α) (l : List α) :
    forE l g (fun g n1 => g.delEdgeE n1 n) = .ok (l.foldl (fun g n1 => g.delEdge n1 n) g) := by
  induction l generalizing g with
  | nil => rfl
  | cons b l ih => simp only [forE, delEdgeE_eq h, List.foldl_cons]; exact ih (h.delEdge b n)

theorem delNodeE_eq {g : Graph α V O} (h : g.Inv) (n : α) :
    g.delNodeE n = .ok (g.delNode n) := by
  unfold delNodeE delNode
  by_cases hc' : ¬ g.nodes.contains n = true
  · simp [hc']
  have hc : g.nodes.contains n = true := by simpa using hc'
  have hn : n ∈ g.nodes.keys := (Dict.contains_iff_keys _ _).1 hc
  simp only [hc, if_true, Bool.not_true, Bool.false_eq_true, if_false]
  have s1 : g.delOutE n = .ok ((g.nodesFrom n).foldl (fun g n2 => g.delEdge n n2) g) := by
    unfold delOutE
    have : ddRead g.outDeg n = (((g.nodesFrom n).length : Int), g.outDeg) := by
      unfold ddRead; rw [h.outD n hn]
    rw [this]
    simp only
    unfold nodesFrom Dict.getE
    cases hr : g.edges.get? n with
    | none => simp
    | some d =>
      simp only
      split
      · exact forE_delEdge_from h n _
      · rename_i hz
        have : d.keys = [] := by
          simpa using hz
        rw [this]; rfl
  rw [s1]
  obtain ⟨h1, h2, h3⟩ := delEdges_from h n (g.nodesFrom n)
  revert h1 h2 h3
  generalize (g.nodesFrom n).foldl (fun g n2 => g.delEdge n n2) g = g1
  intro h1 h2 h3
  simp only
  have s2 : g1.delInE n = .ok ((g1.nodesTo n).foldl (fun g n1 => g.delEdge n1 n) g1) := by
    unfold delInE
    have : ddRead g1.inDeg n = (((g1.nodesTo n).length : Int), g1.inDeg) := by
      unfold ddRead; rw [h1.inD n (by rw [h2]; exact hn)]
    rw [this]
    simp only
    unfold nodesTo Dict.getE
    cases hr : g1.rev.get? n with
    | none => simp
    | some d =>
      simp only
      split
      · exact forE_delEdge_to h1 n _
      · rename_i hz
        have : d.keys = [] := by
          simpa using hz
        rw [this]; rfl
  rw [s2]
  rfl

/-! ### all histories -/

theorem stepE_inv {g : Graph α V O} (h : g.Inv) (op : Op α V O) : (g.stepE op).1.Inv := by
  cases op with
  | addNode n obj => exact h.addNode n obj
  | addEdge a b v bi =>
    cases v with
    | container => exact h
    | scalar v =>
      simp only [stepE, addEdgeE, addEdge1E_eq h, bind, Except.bind]
      cases bi with
      | false => exact h.addEdge a b v
      | true =>
        simp only [if_true, addEdge1E_eq (h.addEdge a b v)]
        exact (h.addEdge a b v).addEdge b a v
  | delEdge a b => simp only [stepE, delEdgeE_eq h]; exact h.delEdge a b
  | delNode n => simp only [stepE, delNodeE_eq h]; exact h.delNode n
  | inDegree n => exact h.inDegree n
  | outDegree n => exact h.outDegree n

theorem run_append (ops : List (Op α V O)) (op : Op α V O) :
    run (ops ++ [op]) = ((run ops).stepE op).1 := by simp [run]

theorem inv_foldl {g : Graph α V O} (h : g.Inv) (ops : List (Op α V O)) :
    (ops.foldl (fun g op => (g.stepE op).1) g).Inv := by
  induction ops generalizing g with
  | nil => exact h
  | cons op ops ih => exact ih (stepE_inv h op)

theorem inv_run (ops : List (Op α V O)) : (run ops).Inv := inv_foldl inv_empty ops

theorem Built.inv {g : Graph α V O} (h : g.Built) : g.Inv := by
  obtain ⟨ops, rfl⟩ := h; exact inv_run ops

theorem built_empty : (empty : Graph α V O).Built := ⟨[], rfl⟩

theorem Built.step {g : Graph α V O} (h : g.Built) (op : Op α V O) : (g.stepE op).1.Built := by
  obtain ⟨ops, rfl⟩ := h
  exact ⟨ops ++ [op], run_append ops op⟩

theorem Built.addNode {g : Graph α V O} (h : g.Built) (n : α) (obj : Option O) :
    (g.addNode n obj).Built := h.step (.addNode n obj)

theorem Built.addEdge {g : Graph α V O} (h : g.Built) (a b : α) (v : V) :
    (g.addEdge a b v).Built := by
  have := h.step (.addEdge a b (.scalar v) false)
  simpa only [stepE, addEdgeE, addEdge1E_eq h.inv, bind, Except.bind, Bool.false_eq_true, if_false] using this

theorem Built.delEdge {g : Graph α V O} (h : g.Built) (a b : α) : (g.delEdge a b).Built := by
  have := h.step (.delEdge a b)
  simpa only [stepE, delEdgeE_eq h.inv] using this

theorem Built.delNode {g : Graph α V O} (h : g.Built) (n : α) : (g.delNode n).Built := by
  have := h.step (.delNode n)
  simpa only [stepE, delNodeE_eq h.inv] using this

end Graph
end GT

import Verif.Graph.Refine
import Verif.Spec.Order
/-
`BasicGraph` enumerates in insertion order (the dictionaries of base.py keep it).
-/
namespace GT

section AL
variable {K V : Type} [DecidableEq K]

theorem adel_keys_filter {k : K} {l : List (K × V)} (hn : (l.map Prod.fst).Nodup) :
    (adel k l).map Prod.fst = (l.map Prod.fst).filter (fun x => x != k) := by
  induction l with
  | nil => rfl
  | cons p l ih =>
    obtain ⟨k', v'⟩ := p
    simp only [List.map_cons, List.nodup_cons] at hn
    unfold adel
    by_cases h : k' = k
    · subst h
      rw [if_pos rfl]
      simp only [List.map_cons, List.filter_cons, bne_self_eq_false]
      symm
      simp only [Bool.false_eq_true, if_false]
      rw [List.filter_eq_self]
      intro x hx
      simp only [bne_iff_ne, ne_eq]
      rintro rfl; exact hn.1 hx
    · rw [if_neg h]
      simp [List.filter_cons, h, ih hn.2]

theorem Dict.keys_del {d : Dict K V} (h : d.WF) (k : K) :
    (d.del k).keys = d.keys.filter (fun x => x != k) := adel_keys_filter h

theorem Dict.keys_set (d : Dict K V) (k : K) (v : V) : (d.set k v).keys = Order.append d.keys k := by
  unfold Order.append
  by_cases h : k ∈ d.keys
  · rw [Dict.keys_set_of_mem v h, if_pos h]
  · rw [Dict.keys_set_of_not_mem v h, if_neg h]
end AL

namespace Order
variable {β : Type} [DecidableEq β]
theorem append_self (l : List β) (x : β) : append (append l x) x = append l x := by
  unfold append
  by_cases h : x ∈ l <;> simp [h]
theorem mem_append {l : List β} {x y : β} : y ∈ append l x ↔ y ∈ l ∨ y = x := by
  unfold append
  by_cases h : x ∈ l
  · rw [if_pos h]; constructor
    · exact .inl
    · rintro (h' | rfl) <;> assumption
  · simp [h]
end Order

namespace Graph
variable {α V O : Type} [DecidableEq α]

/-- abstraction relation -/
structure Ord (g : Graph α V O) (s : Order α) : Prop where
  nodes : g.nodeList = s.nodes
  out : ∀ n, g.nodesFrom n = s.targets n
  inn : ∀ n, g.nodesTo n = s.origins n
  src : g.edges.keys = s.sources

theorem ord_empty : Ord (empty : Graph α V O) ⟨[], [], []⟩ :=
  ⟨rfl, fun _ => rfl, fun _ => rfl, rfl⟩

theorem ensureNode_nodeList (g : Graph α V O) (n : α) :
    (g.ensureNode n).nodeList = Order.append g.nodeList n := by
  unfold ensureNode nodeList
  by_cases h : g.nodes.contains n
  · rw [if_pos h]; unfold Order.append; rw [if_pos ((Dict.contains_iff_keys ..).1 h)]
  · rw [if_neg h, addNode_nodes, Dict.keys_set]

theorem append_filter_map {β γ : Type} [DecidableEq β] [DecidableEq γ] (l : List β) (x : β)
    (p : β → Bool) (f : β → γ) (hinj : ∀ y ∈ l, p y = true → p x = true → f y = f x → y = x) :
    ((Order.append l x).filter p).map f =
      if p x = true then Order.append ((l.filter p).map f) (f x) else (l.filter p).map f := by
  unfold Order.append
  by_cases h : x ∈ l
  · rw [if_pos h]
    by_cases hp : p x = true
    · rw [if_pos hp, if_pos]
      exact List.mem_map.2 ⟨x, List.mem_filter.2 ⟨h, hp⟩, rfl⟩
    · rw [if_neg hp]
  · rw [if_neg h, List.filter_append, List.map_append]
    by_cases hp : p x = true
    · rw [if_pos hp, if_neg]
      · simp [hp]
      · intro hm
        obtain ⟨y, hy, he⟩ := List.mem_map.1 hm
        obtain ⟨hy, hpy⟩ := List.mem_filter.1 hy
        exact h (hinj y hy hpy hp he ▸ hy)
    · rw [if_neg hp]; simp [hp]

theorem Ord.addEdge {g : Graph α V O} {s : Order α} (h : Ord g s) (a b : α) (v : V) :
    Ord (g.addEdge a b v) (s.link a b) := by
  refine ⟨?_, fun n => ?_, fun n => ?_, ?_⟩
  · show (g.addEdge a b v).nodes.keys = _
    rw [addEdge_nodes]
    show (g.withEnds a b).nodeList = _
    unfold withEnds
    rw [ensureNode_nodeList, ensureNode_nodeList, h.nodes]; rfl
  · rw [nodesFrom_eq_row, addEdge_edges, rowOf_set]
    unfold Order.targets Order.link
    rw [append_filter_map]
    · show _ = if _ then Order.append (s.targets n) b else s.targets n
      rw [← h.out, nodesFrom_eq_row]
      by_cases hn : a = n
      · subst hn; simp [Dict.keys_set]
      · simp [hn]
    · intro y _ h1 h2 h3
      simp only [beq_iff_eq] at h1 h2
      exact Prod.ext (h1.trans h2.symm) h3
  · rw [nodesTo_eq_row, addEdge_rev, rowOf_set]
    unfold Order.origins Order.link
    rw [append_filter_map]
    · show _ = if _ then Order.append (s.origins n) a else s.origins n
      rw [← h.inn, nodesTo_eq_row]
      by_cases hn : b = n
      · subst hn; simp [Dict.keys_set]
      · simp [hn]
    · intro y _ h1 h2 h3
      simp only [beq_iff_eq] at h1 h2
      exact Prod.ext h3 (h1.trans h2.symm)
  · rw [addEdge_edges, Dict.keys_set, h.src]; rfl

/-! ### deletion -/

theorem bne_pair (x y a b : α) : ((x, y) != (a, b)) = (x != a || y != b) := by
  rw [Bool.eq_iff_iff]
  by_cases h1 : x = a <;> by_cases h2 : y = b <;> simp [h1, h2]

theorem keep_keep (s : Order α) (p q : α × α → Bool) :
    (s.keep p).keep q = s.keep (fun e => p e && q e) := by
  unfold Order.keep
  simp only [List.filter_filter, Order.mk.injEq, true_and]
  constructor
  · congr 1; funext e; exact Bool.and_comm ..
  · congr 1; funext x
    have : (List.filter (fun a => q a && p a) s.edges) = (List.filter (fun a => p a && q a) s.edges) := by
      congr 1; funext e; exact Bool.and_comm ..
    rw [this]
    rw [Bool.eq_iff_iff, Bool.and_eq_true]
    refine ⟨fun h => h.1, fun h => ⟨h, ?_⟩⟩
    rw [List.any_eq_true] at h ⊢
    obtain ⟨e, he, hx⟩ := h
    obtain ⟨he, hp⟩ := List.mem_filter.1 he
    exact ⟨e, List.mem_filter.2 ⟨he, (Bool.and_eq_true_iff.1 hp).1⟩, hx⟩

theorem keep_congr {s : Order α} {p q : α × α → Bool} (h : ∀ e ∈ s.edges, p e = q e) :
    s.keep p = s.keep q := by
  unfold Order.keep
  rw [List.filter_congr h]

theorem mem_targets {s : Order α} {n b : α} : b ∈ s.targets n ↔ (n, b) ∈ s.edges := by
  unfold Order.targets
  constructor
  · intro h
    obtain ⟨e, he, rfl⟩ := List.mem_map.1 h
    obtain ⟨he', h1⟩ := List.mem_filter.1 he
    have h1 : e.1 = n := by simpa using h1
    rw [← h1]; exact he'
  · intro h
    exact List.mem_map.2 ⟨_, List.mem_filter.2 ⟨h, by simp⟩, rfl⟩

theorem Ord.mem_edges {g : Graph α V O} {s : Order α} (h : Ord g s) {a b : α} :
    (a, b) ∈ s.edges ↔ (g.edge a b).isSome := by
  rw [← mem_targets, ← h.out, mem_nodesFrom]

theorem Inv.mem_sources {g : Graph α V O} (hi : g.Inv) {a : α} :
    a ∈ g.edges.keys ↔ ∃ b, (g.edge a b).isSome := by
  constructor
  · intro hk
    obtain ⟨d, hd⟩ := Dict.exists_get?_of_mem_keys hk
    obtain ⟨hw, hd2⟩ := hi.row a d hd
    cases hd3 : d.items with
    | nil => exact absurd hd3 hd2
    | cons p l =>
      have : d.get? p.1 = some p.2 := (Dict.get?_eq_some_iff hw _ _).2 (by rw [hd3]; simp)
      refine ⟨p.1, ?_⟩
      unfold edge; rw [hd]; simp [this]
  · rintro ⟨b, hb⟩
    unfold edge at hb
    cases hd : g.edges.get? a with
    | none => rw [hd] at hb; simp at hb
    | some d => exact Dict.mem_keys_of_get? hd

theorem Ord.keep_all {g : Graph α V O} {s : Order α} (hi : g.Inv) (h : Ord g s)
    {p : α × α → Bool} (hp : ∀ e ∈ s.edges, p e = true) : s.keep p = s := by
  unfold Order.keep
  have h1 : s.edges.filter p = s.edges := List.filter_eq_self.2 hp
  have h2 : s.sources.filter (fun x => s.edges.any (fun e => e.1 == x)) = s.sources := by
    rw [List.filter_eq_self]
    intro x hx
    rw [← h.src] at hx
    obtain ⟨b, hb⟩ := hi.mem_sources.1 hx
    exact List.any_eq_true.2 ⟨(x, b), h.mem_edges.2 hb, by simp⟩
  rw [h1, h2]

theorem Ord.delEdge {g : Graph α V O} {s : Order α} (hi : g.Inv) (h : Ord g s) (a b : α) :
    Ord (g.delEdge a b) (s.keep (fun e => e != (a, b))) := by
  cases hab : g.edge a b with
  | none =>
    rw [delEdge_of_none hab, h.keep_all hi]
    · exact h
    · intro e he
      simp only [bne_iff_ne, ne_eq]
      rintro rfl
      have := h.mem_edges.1 he
      rw [hab] at this; simp at this
  | some v =>
    have hi' := hi.delEdge a b
    have he : (g.delEdge a b).edges = putRow g.edges a ((rowOf g.edges a).del b) := by
      unfold Graph.delEdge; rw [if_pos (by simp [hab])]; rfl
    have hr : (g.delEdge a b).rev = putRow g.rev b ((rowOf g.rev b).del a) := by
      unfold Graph.delEdge; rw [if_pos (by simp [hab])]; rfl
    have hout : ∀ n, (g.delEdge a b).nodesFrom n = (s.keep (fun e => e != (a, b))).targets n := by
      intro n
      rw [nodesFrom_eq_row, he, rowOf_putRow hi.edgesWF]
      unfold Order.keep Order.targets
      have hn := h.out n
      rw [nodesFrom_eq_row] at hn
      unfold Order.targets at hn
      by_cases hx : a = n
      · subst hx
        rw [if_pos rfl, Dict.keys_del (hi.rowWF a), hn, List.filter_map, List.filter_filter, List.filter_filter]
        congr 1
        apply List.filter_congr
        rintro ⟨x, y⟩ _
        have e1 : (x == a) = decide (x = a) := by by_cases h1 : x = a <;> simp [h1]
        have e2 : (y == b) = decide (y = b) := by by_cases h1 : y = b <;> simp [h1]
        rw [bne_pair]
        simp only [Function.comp_apply, bne, e1, e2]
        by_cases h1 : x = a <;> by_cases h2 : y = b <;> simp [h1, h2]
      · rw [if_neg hx, hn, List.filter_filter]
        congr 1
        apply List.filter_congr
        rintro ⟨x, y⟩ _
        by_cases h1 : x = n
        · subst h1; simp [bne_pair, Ne.symm hx]
        · simp [h1]
    refine ⟨?_, hout, fun n => ?_, ?_⟩
    · show (g.delEdge a b).nodes.keys = _
      rw [delEdge_nodes]; exact h.nodes
    · rw [nodesTo_eq_row, hr, rowOf_putRow hi.revWF]
      unfold Order.keep Order.origins
      have hn := h.inn n
      rw [nodesTo_eq_row] at hn
      unfold Order.origins at hn
      by_cases hx : b = n
      · subst hx
        rw [if_pos rfl, Dict.keys_del (hi.colWF b), hn, List.filter_map, List.filter_filter, List.filter_filter]
        congr 1
        apply List.filter_congr
        rintro ⟨x, y⟩ _
        have e1 : (x == a) = decide (x = a) := by by_cases h1 : x = a <;> simp [h1]
        have e2 : (y == b) = decide (y = b) := by by_cases h1 : y = b <;> simp [h1]
        rw [bne_pair]
        simp only [Function.comp_apply, bne, e1, e2]
        by_cases h1 : x = a <;> by_cases h2 : y = b <;> simp [h1, h2]
      · rw [if_neg hx, hn, List.filter_filter]
        congr 1
        apply List.filter_congr
        rintro ⟨x, y⟩ _
        by_cases h1 : y = n
        · subst h1; simp [bne_pair, Ne.symm hx]
        · simp [h1]
    · have hka : a ∈ g.edges.keys := hi.mem_sources.2 ⟨b, by simp [hab]⟩
      have hk : (g.delEdge a b).edges.keys =
          g.edges.keys.filter (fun x => x ∈ (g.delEdge a b).edges.keys) := by
        have hset : (g.edges.set a ((rowOf g.edges a).del b)).keys = g.edges.keys :=
          Dict.keys_set_of_mem _ hka
        rw [he]; unfold putRow
        split
        · rw [Dict.keys_del (hi.edgesWF.set _ _), hset]
          apply List.filter_congr
          intro x hx
          by_cases hxa : x = a <;> simp [hxa, hx]
        · rw [hset]; symm; rw [List.filter_eq_self]; intro x hx; simpa using hx
      rw [hk, h.src]
      unfold Order.keep
      apply List.filter_congr
      intro x _
      rw [Bool.eq_iff_iff, decide_eq_true_iff, hi'.mem_sources, List.any_eq_true]
      constructor
      · rintro ⟨y, hy⟩
        rw [← mem_nodesFrom, hout, mem_targets] at hy
        exact ⟨(x, y), hy, by simp⟩
      · rintro ⟨⟨x', y⟩, hy, hx⟩
        have hx : x' = x := by simpa using hx
        subst hx
        refine ⟨y, ?_⟩
        rw [← mem_nodesFrom, hout, mem_targets]; exact hy

theorem Ord.delEdges_from {g : Graph α V O} {s : Order α} (hi : g.Inv) (h : Ord g s) (n : α) (l : List α) :
    Ord (l.foldl (fun g n2 => g.delEdge n n2) g) (s.keep (fun e => !(e.1 == n && l.contains e.2))) := by
  induction l generalizing g s with
  | nil => rw [h.keep_all hi (by simp)]; exact h
  | cons b l ih =>
    have h2 := ih (hi.delEdge n b) (h.delEdge hi n b)
    rw [keep_keep] at h2
    rw [List.foldl_cons]
    have hk : ∀ e ∈ s.edges, (e != (n, b) && !(e.1 == n && l.contains e.2)) =
        !(e.1 == n && (b :: l).contains e.2) := by
      rintro ⟨x, y⟩ _
      have e1 : (x == n) = decide (x = n) := by by_cases h1 : x = n <;> simp [h1]
      have e2 : (y == b) = decide (y = b) := by by_cases h1 : y = b <;> simp [h1]
      simp only [bne_pair, bne, e1, e2, List.contains_cons]
      by_cases h1 : x = n <;> by_cases h2 : y = b <;> simp [h1, h2]
    rw [← keep_congr hk]; exact h2

theorem Ord.delEdges_to {g : Graph α V O} {s : Order α} (hi : g.Inv) (h : Ord g s) (n : α) (l : List α) :
    Ord (l.foldl (fun g n1 => g.delEdge n1 n) g) (s.keep (fun e => !(e.2 == n && l.contains e.1))) := by
  induction l generalizing g s with
  | nil => rw [h.keep_all hi (by simp)]; exact h
  | cons b l ih =>
    have h2 := ih (hi.delEdge b n) (h.delEdge hi b n)
    rw [keep_keep] at h2
    rw [List.foldl_cons]
    have hk : ∀ e ∈ s.edges, (e != (b, n) && !(e.2 == n && l.contains e.1)) =
        !(e.2 == n && (b :: l).contains e.1) := by
      rintro ⟨x, y⟩ _
      have e1 : (y == n) = decide (y = n) := by by_cases h1 : y = n <;> simp [h1]
      have e2 : (x == b) = decide (x = b) := by by_cases h1 : x = b <;> simp [h1]
      simp only [bne_pair, bne, e1, e2, List.contains_cons]
      by_cases h1 : y = n <;> by_cases h2 : x = b <;> simp [h1, h2]
    rw [← keep_congr hk]; exact h2

theorem Ord.delNode {g : Graph α V O} {s : Order α} (hi : g.Inv) (h : Ord g s) (n : α) :
    Ord (g.delNode n) { s.keep (fun e => e.1 != n && e.2 != n) with
      nodes := s.nodes.filter (fun x => x != n) } := by
  unfold Graph.delNode
  by_cases hc : g.nodes.contains n = true
  · rw [if_pos hc]
    obtain ⟨hi1, hn1, he1⟩ := Graph.delEdges_from hi n (g.nodesFrom n)
    have o1 := h.delEdges_from hi n (g.nodesFrom n)
    obtain ⟨hi2, hn2, he2⟩ := Graph.delEdges_to hi1 n
      (((g.nodesFrom n).foldl (fun g n2 => g.delEdge n n2) g).nodesTo n)
    have o2 := o1.delEdges_to hi1 n
      (((g.nodesFrom n).foldl (fun g n2 => g.delEdge n n2) g).nodesTo n)
    generalize hg1 : (g.nodesFrom n).foldl (fun g n2 => g.delEdge n n2) g = g1 at *
    generalize hg2 : (g1.nodesTo n).foldl (fun g n1 => g.delEdge n1 n) g1 = g2 at *
    simp only [hg1, hg2]
    rw [keep_keep] at o2
    have hk : s.keep (fun e => !(e.1 == n && (g.nodesFrom n).contains e.2) &&
        !(e.2 == n && (g1.nodesTo n).contains e.1)) = s.keep (fun e => e.1 != n && e.2 != n) := by
      apply keep_congr
      rintro ⟨x, y⟩ hxy
      have hxy := h.mem_edges.1 hxy
      by_cases h1 : x = n
      · subst h1
        have : y ∈ g.nodesFrom x := mem_nodesFrom.2 hxy
        simp [this]
      · by_cases h2 : y = n
        · subst h2
          have : x ∈ g1.nodesTo y := by
            rw [hi1.mem_nodesTo, he1, if_neg (fun h => h1 h.1.symm)]; exact hxy
          simp [this]
        · have e1 : (x == n) = false := beq_eq_false_iff_ne.2 h1
          have e2 : (y == n) = false := beq_eq_false_iff_ne.2 h2
          simp only [bne, e1, e2]; rfl
    rw [hk] at o2
    have hout : ∀ y, g2.edge n y = none := by
      intro y
      rw [he2]; split
      · rfl
      · rw [he1]
        cases hy : g.edge n y with
        | none => simp
        | some v => rw [if_pos ⟨rfl, mem_nodesFrom.2 (by simp [hy])⟩]
    have hin : ∀ x, g2.edge x n = none := by
      intro x
      rw [he2]
      cases hx : g1.edge x n with
      | none => simp
      | some v => rw [if_pos ⟨rfl, hi1.mem_nodesTo.2 (by simp [hx])⟩]
    obtain ⟨_, hd1, hd2⟩ := dropNode_spec hi2 n hout hin
    refine ⟨?_, fun x => ?_, fun x => ?_, ?_⟩
    · show (g2.nodes.del n).keys = _
      rw [Dict.keys_del hi2.nodesWF]
      have : g2.nodes.keys = s.nodes := o2.nodes
      rw [this]
    · rw [nodesFrom_congr hd1]; exact o2.out x
    · rw [nodesTo_congr hd2]; exact o2.inn x
    · rw [hd1]; exact o2.src
  · rw [if_neg hc]
    have hnk : n ∉ g.nodes.keys := fun hk => hc ((Dict.contains_iff_keys ..).2 hk)
    rw [h.keep_all hi]
    · have : s.nodes.filter (fun x => x != n) = s.nodes := by
        rw [List.filter_eq_self]
        intro x hx
        simp only [bne_iff_ne, ne_eq]
        rintro rfl
        rw [← h.nodes] at hx; exact hnk hx
      rw [this]; exact h
    · rintro ⟨x, y⟩ hxy
      have hxy := h.mem_edges.1 hxy
      have h1 : x ≠ n := by
        rintro rfl
        have := mem_nodesFrom.2 hxy
        rw [hi.nodesFrom_of_not_mem hnk] at this; simp at this
      have h2 : y ≠ n := by
        rintro rfl
        have := hi.mem_nodesTo.2 hxy
        rw [hi.nodesTo_of_not_mem hnk] at this; simp at this
      simp [h1, h2]

theorem Ord.step {g : Graph α V O} {s : Order α} (hi : g.Inv) (h : Ord g s) (op : Op α V O) :
    Ord (g.stepE op).1 (s.step op) := by
  cases op with
  | addNode n obj =>
    refine ⟨?_, fun x => ?_, fun x => ?_, ?_⟩
    · show (g.addNode n obj).nodes.keys = _
      rw [addNode_nodes, Dict.keys_set]
      have : g.nodes.keys = s.nodes := h.nodes
      rw [this]; rfl
    · show (g.addNode n obj).nodesFrom x = _
      rw [nodesFrom_congr (addNode_edges ..)]; exact h.out x
    · show (g.addNode n obj).nodesTo x = _
      rw [nodesTo_congr (addNode_rev ..)]; exact h.inn x
    · show (g.addNode n obj).edges.keys = _
      rw [addNode_edges]; exact h.src
  | addEdge a b v bi =>
    cases v with
    | container => exact h
    | scalar v =>
      simp only [stepE, addEdgeE, addEdge1E_eq hi, bind, Except.bind, Order.step]
      cases bi with
      | false => exact h.addEdge a b v
      | true =>
        simp only [if_true, addEdge1E_eq (hi.addEdge a b v)]
        exact (h.addEdge a b v).addEdge b a v
  | delEdge a b => simp only [stepE, delEdgeE_eq hi, Order.step]; exact h.delEdge hi a b
  | delNode n => simp only [stepE, delNodeE_eq hi, Order.step]; exact h.delNode hi n
  | inDegree n => exact ⟨h.nodes, h.out, h.inn, h.src⟩
  | outDegree n => exact ⟨h.nodes, h.out, h.inn, h.src⟩

theorem ord_run (ops : List (Op α V O)) : Ord (run ops) (Order.run ops) := by
  have : ∀ (g : Graph α V O) (s : Order α), g.Inv → Ord g s →
      Ord (ops.foldl (fun g op => (g.stepE op).1) g) (ops.foldl Order.step s) := by
    induction ops with
    | nil => intro g s _ h; exact h
    | cons op ops ih => intro g s hi h; exact ih _ _ (stepE_inv hi op) (Ord.step hi h op)
  exact this _ _ inv_empty ord_empty

/-- `edges()` goes through the sources in order, and through the edges of each in order. -/
theorem Ord.edgeList {g : Graph α V O} {s : Order α} (hi : g.Inv) (h : Ord g s) :
    g.edgeList.map (fun e => (e.1, e.2.1)) =
      s.sources.flatMap (fun a => (s.targets a).map (fun b => (a, b))) := by
  unfold Graph.edgeList
  rw [← h.src, List.map_flatMap]
  show _ = (g.edges.items.map Prod.fst).flatMap _
  rw [List.flatMap_map]
  have hget : ∀ r ∈ g.edges.items, g.edges.get? r.1 = some r.2 := fun r hr =>
    (Dict.get?_eq_some_iff hi.edgesWF _ _).2 hr
  have key : ∀ r ∈ g.edges.items,
      (r.2.items.map (fun p => (r.1, p.1, p.2))).map (fun e : α × α × V => (e.1, e.2.1)) =
        (s.targets r.1).map (fun b => (r.1, b)) := by
    intro r hr
    rw [← h.out, nodesFrom_eq_row]
    unfold rowOf
    rw [hget r hr]
    simp [Dict.keys]
  generalize g.edges.items = l at key
  induction l with
  | nil => rfl
  | cons r l ih =>
    rw [List.flatMap_cons, List.flatMap_cons, key r (by simp), ih (fun r hr => key r (by simp [hr]))]

end Graph
end GT

import Verif.Graph.FuncLemmas
namespace GT
namespace Graph
variable {α V O : Type} [DecidableEq α]

/-! ### from_dict -/

/-- the edges named by a nested dictionary -/
def flat (l : List (α × Dict α V)) : List (α × α × V) :=
  l.flatMap (fun p => p.2.items.map (fun q => (p.1, q.1, q.2)))

omit [DecidableEq α] in
theorem mem_flat {l : List (α × Dict α V)} {a b : α} {v : V} :
    (a, b, v) ∈ flat l ↔ ∃ row, (a, row) ∈ l ∧ (b, v) ∈ row.items := by
  unfold flat
  simp only [List.mem_flatMap, List.mem_map, Prod.mk.injEq, Prod.exists]
  constructor
  · rintro ⟨x, row, h1, y, w, h2, rfl, rfl, rfl⟩; exact ⟨row, h1, h2⟩
  · rintro ⟨row, h1, h2⟩; exact ⟨a, row, h1, b, v, h2, rfl, rfl, rfl⟩

/-- all node objects are `None` -/
def AllNone (g : Graph α V O) : Prop := ∀ x o, g.nodes.get? x = some o → o = none

theorem AllNone.node {g : Graph α V O} (h : g.AllNone) (x : α) : g.node x = none := by
  unfold Graph.node
  cases hx : g.nodes.get? x with
  | none => rfl
  | some o => rw [h x o hx]; rfl

theorem addEdges_edges_congr {g g' : Graph α V O} (h : g.edges = g'.edges) (l : List (α × α × V)) :
    (g.addEdges l).edges = (g'.addEdges l).edges := by
  induction l generalizing g g' with
  | nil => exact h
  | cons e l ih =>
    refine ih ?_
    simp only [addEdge_edges, h]

theorem addEdges_append (g : Graph α V O) (l m : List (α × α × V)) :
    g.addEdges (l ++ m) = (g.addEdges l).addEdges m := by simp [addEdges]

/-- one outer iteration of `from_dict` -/
def fromRow (g : Graph α V O) (p : α × Dict α V) : Graph α V O :=
  if p.2.isEmpty then g.addNode p.1 none
  else p.2.items.foldl (fun g q => g.addEdge p.1 q.1 q.2) g

theorem fromRow_addEdges (g : Graph α V O) (p : α × Dict α V) :
    p.2.items.foldl (fun g q => g.addEdge p.1 q.1 q.2) g
      = g.addEdges (p.2.items.map (fun q => (p.1, q.1, q.2))) := by
  unfold addEdges; rw [List.foldl_map]

theorem fromRow_edges (g : Graph α V O) (p : α × Dict α V) :
    (g.fromRow p).edges = (g.addEdges (p.2.items.map (fun q => (p.1, q.1, q.2)))).edges := by
  unfold fromRow; split
  · rename_i h
    rw [(Dict.isEmpty_iff _).1 h]; simp [addEdges]
  · rw [fromRow_addEdges]

theorem fromRow_nodes {g : Graph α V O} (hN : g.AllNone) (p : α × Dict α V) (x : α) :
    (g.fromRow p).nodes.get? x =
      if x = p.1 ∨ x ∈ p.2.keys then some none else g.nodes.get? x := by
  unfold fromRow; split
  · rename_i h
    have : p.2.keys = [] := by simp [Dict.keys, (Dict.isEmpty_iff _).1 h]
    rw [addNode_nodes, Dict.get?_set, this]; simp [eq_comm]
  · rename_i h
    rw [fromRow_addEdges, addEdges_nodes, hN.node]
    have hne : p.2.items ≠ [] := fun h2 => h ((Dict.isEmpty_iff _).2 h2)
    have : (∃ e ∈ p.2.items.map (fun q => (p.1, q.1, q.2)), x = e.1 ∨ x = e.2.1) ↔
        (x = p.1 ∨ x ∈ p.2.keys) := by
      simp only [List.mem_map, Dict.keys]
      constructor
      · rintro ⟨e, ⟨q, hq, rfl⟩, h3 | h3⟩
        · exact Or.inl h3
        · exact Or.inr ⟨q, hq, h3.symm⟩
      · rintro (h3 | ⟨q, hq, h3⟩)
        · obtain ⟨q, hq⟩ := List.exists_mem_of_ne_nil _ hne
          exact ⟨_, ⟨q, hq, rfl⟩, Or.inl h3⟩
        · exact ⟨_, ⟨q, hq, rfl⟩, Or.inr h3.symm⟩
    simp only [this]

theorem fromRow_allNone {g : Graph α V O} (hN : g.AllNone) (p : α × Dict α V) :
    (g.fromRow p).AllNone := by
  intro x o h
  rw [fromRow_nodes hN] at h
  split at h
  · cases h; rfl
  · exact hN x o h

theorem fromRow_built {g : Graph α V O} (h : g.Built) (p : α × Dict α V) : (g.fromRow p).Built := by
  unfold fromRow; split
  · exact h.addNode _ _
  · rw [fromRow_addEdges]; exact addEdges_built h _

theorem fromDict_eq (g : Graph α V O) (d : Dict α (Dict α V)) :
    g.fromDict d = d.items.foldl fromRow g := rfl

theorem foldRows_edges (g : Graph α V O) (l : List (α × Dict α V)) :
    (l.foldl fromRow g).edges = (g.addEdges (flat l)).edges := by
  induction l generalizing g with
  | nil => rfl
  | cons p l ih =>
    rw [List.foldl_cons, ih, addEdges_edges_congr (fromRow_edges g p)]
    unfold flat
    rw [List.flatMap_cons, addEdges_append]

theorem foldRows_nodes {g : Graph α V O} (hN : g.AllNone) (l : List (α × Dict α V)) (x : α) :
    (l.foldl fromRow g).nodes.get? x =
      if (∃ p ∈ l, x = p.1 ∨ x ∈ p.2.keys) then some none else g.nodes.get? x := by
  induction l generalizing g with
  | nil => simp
  | cons p l ih =>
    rw [List.foldl_cons, ih (fromRow_allNone hN p), fromRow_nodes hN]
    by_cases h1 : ∃ p ∈ l, x = p.1 ∨ x ∈ p.2.keys
    · obtain ⟨q, hq, h2⟩ := h1
      rw [if_pos ⟨q, hq, h2⟩, if_pos ⟨q, List.mem_cons_of_mem _ hq, h2⟩]
    · rw [if_neg h1]
      by_cases h2 : x = p.1 ∨ x ∈ p.2.keys
      · rw [if_pos h2, if_pos ⟨p, by simp, h2⟩]
      · rw [if_neg h2, if_neg]
        rintro ⟨q, hq, h3⟩
        rcases List.mem_cons.1 hq with rfl | hq
        · exact h2 h3
        · exact h1 ⟨q, hq, h3⟩

theorem fromDict_built {g : Graph α V O} (h : g.Built) (d : Dict α (Dict α V)) :
    (g.fromDict d).Built := by
  rw [fromDict_eq]
  generalize d.items = l
  induction l generalizing g with
  | nil => exact h
  | cons p l ih => exact ih (fromRow_built h p)

theorem allNone_empty : (empty : Graph α V O).AllNone := by
  intro x o h; cases h

theorem func_flat {d : Dict α (Dict α V)} (hd : d.WF) (hr : ∀ a r, d.get? a = some r → r.WF) :
    Func (flat d.items) := by
  intro a b v w h1 h2
  rw [mem_flat] at h1 h2
  obtain ⟨r1, h3, h4⟩ := h1
  obtain ⟨r2, h5, h6⟩ := h2
  have h7 := (Dict.get?_eq_some_iff hd a r1).2 h3
  have h8 := (Dict.get?_eq_some_iff hd a r2).2 h5
  have : r1 = r2 := by rw [h7] at h8; exact Option.some.inj h8
  subst this
  have h9 := (Dict.get?_eq_some_iff (hr a r1 h7) b v).2 h4
  have h10 := (Dict.get?_eq_some_iff (hr a r1 h7) b w).2 h6
  rw [h9] at h10; exact Option.some.inj h10

theorem fromDict_edge {d : Dict α (Dict α V)} (hd : d.WF) (hr : ∀ a r, d.get? a = some r → r.WF)
    (a b : α) :
    ((empty : Graph α V O).fromDict d).edge a b = (d.get? a).bind (fun r => r.get? b) := by
  apply option_ext_iff
  intro v
  rw [fromDict_eq, edge_congr (foldRows_edges _ _), addEdges_edge (func_flat hd hr), edge_empty, mem_flat]
  simp only [reduceCtorEq, and_false, or_false]
  constructor
  · rintro ⟨row, h1, h2⟩
    have h3 := (Dict.get?_eq_some_iff hd a row).2 h1
    rw [h3]; exact (Dict.get?_eq_some_iff (hr a row h3) b v).2 h2
  · intro h
    cases h1 : d.get? a with
    | none => rw [h1] at h; cases h
    | some row =>
      rw [h1] at h
      exact ⟨row, mem_of_aget h1, mem_of_aget h⟩

open Classical in
theorem fromDict_nodes {d : Dict α (Dict α V)} (hd : d.WF) (x : α) :
    ((empty : Graph α V O).fromDict d).nodes.get? x =
      if x ∈ d.keys ∨ (∃ a r, d.get? a = some r ∧ x ∈ r.keys) then some none else none := by
  rw [fromDict_eq, foldRows_nodes allNone_empty, nodes_empty]
  have : (∃ p ∈ d.items, x = p.1 ∨ x ∈ p.2.keys) ↔
      (x ∈ d.keys ∨ (∃ a r, d.get? a = some r ∧ x ∈ r.keys)) := by
    constructor
    · rintro ⟨p, hp, h | h⟩
      · exact Or.inl (List.mem_map.2 ⟨p, hp, h.symm⟩)
      · exact Or.inr ⟨p.1, p.2, (Dict.get?_eq_some_iff hd _ _).2 hp, h⟩
    · rintro (h | ⟨a, r, h1, h2⟩)
      · obtain ⟨p, hp, h2⟩ := List.mem_map.1 h
        exact ⟨p, hp, Or.inl h2.symm⟩
      · exact ⟨(a, r), mem_of_aget h1, Or.inr h2⟩
  simp only [this]

/-! ### to_dict -/

theorem toDict_init (l : List α) (d : Dict α (Dict α V)) (x : α) :
    (l.foldl (fun (d : Dict α (Dict α V)) n => d.set n .empty) d).get? x =
      if x ∈ l then some .empty else d.get? x := by
  induction l generalizing d with
  | nil => simp
  | cons n l ih =>
    rw [List.foldl_cons, ih, Dict.get?_set]
    by_cases h : x ∈ l
    · simp [h]
    · by_cases h2 : n = x
      · subst h2; simp
      · simp [h, h2, Ne.symm h2]

theorem toDict_init_wf (l : List α) {d : Dict α (Dict α V)} (hd : d.WF) :
    (l.foldl (fun (d : Dict α (Dict α V)) n => d.set n .empty) d).WF := by
  induction l generalizing d with
  | nil => exact hd
  | cons n l ih => exact ih (hd.set _ _)

theorem toDict_loop {l : List (α × α × V)} (hf : Func l) {d : Dict α (Dict α V)} (hd : d.WF)
    (hr : ∀ a r, d.get? a = some r → r.WF) (hl : ∀ e ∈ l, e.1 ∈ d.keys) :
    ∃ d', forE l d (fun d e => match d.get? e.1 with
      | none => .error .keyError
      | some row => .ok (d.set e.1 (row.set e.2.1 e.2.2))) = .ok d' ∧ d'.WF ∧
      (∀ a r, d'.get? a = some r → r.WF) ∧ d'.keys = d.keys ∧
      ∀ a b v, (rowOf d' a).get? b = some v ↔
        (a, b, v) ∈ l ∨ ((∀ w, (a, b, w) ∉ l) ∧ (rowOf d a).get? b = some v) := by
  induction l generalizing d with
  | nil => exact ⟨d, rfl, hd, hr, rfl, by simp⟩
  | cons e l ih =>
    obtain ⟨x, y, u⟩ := e
    have hx : x ∈ d.keys := hl (x, y, u) (by simp)
    obtain ⟨row, hrow⟩ := Dict.exists_get?_of_mem_keys hx
    have hk : (d.set x (row.set y u)).keys = d.keys := Dict.keys_set_of_mem _ hx
    obtain ⟨d', h1, h2, h3, h4, h5⟩ := ih hf.tail (d := d.set x (row.set y u)) (hd.set _ _)
      (by
        intro a r ha
        rw [Dict.get?_set] at ha
        split at ha
        · cases ha; exact (hr x row hrow).set _ _
        · exact hr a r ha)
      (by intro e he; rw [hk]; exact hl e (List.mem_cons_of_mem _ he))
    refine ⟨d', ?_, h2, h3, h4.trans hk, ?_⟩
    · simp only [forE, hrow]; exact h1
    · intro a b v
      rw [h5, rowOf_set]
      by_cases hxa : x = a
      · subst hxa
        simp only [if_true, Dict.get?_set]
        have hro : rowOf d x = row := by unfold rowOf; rw [hrow]; rfl
        by_cases hyb : y = b
        · subst hyb
          simp only [if_true, Option.some.injEq]
          constructor
          · rintro (h | ⟨_, rfl⟩)
            · exact Or.inl (List.mem_cons_of_mem _ h)
            · exact Or.inl (by simp)
          · rintro (h | ⟨h, _⟩)
            · rcases List.mem_cons.1 h with h | h
              · cases h
                by_cases h3 : ∃ w, (x, y, w) ∈ l
                · obtain ⟨w, hw⟩ := h3
                  have := hf x y u w (by simp) (List.mem_cons_of_mem _ hw)
                  subst this; exact Or.inl hw
                · exact Or.inr ⟨fun w hw => h3 ⟨w, hw⟩, rfl⟩
              · exact Or.inl h
            · exact absurd (by simp) (h u)
        · simp only [hyb, if_false, hro, List.mem_cons, Prod.mk.injEq, true_and, Ne.symm hyb, false_and, false_or]
      · simp only [hxa, if_false, List.mem_cons, Prod.mk.injEq, Ne.symm hxa, false_and, false_or]

theorem Inv.toDict_spec {g : Graph α V O} (h : g.Inv) :
    ∃ d, g.toDictE = .ok d ∧ d.WF ∧ (∀ a r, d.get? a = some r → r.WF) ∧
      (∀ n, n ∈ d.keys ↔ n ∈ g.nodeList) ∧
      ∀ a b, (d.get? a).bind (fun r => r.get? b) = g.edge a b := by
  have hinit := toDict_init g.nodeList (Dict.empty : Dict α (Dict α V))
  have hk : ∀ n, n ∈ (g.nodeList.foldl (fun (d : Dict α (Dict α V)) n => d.set n .empty) .empty).keys ↔
      n ∈ g.nodeList := by
    intro n; rw [← Dict.get?_isSome_iff, hinit]; split <;> simp_all
  obtain ⟨d', h1, h2, h3, h4, h5⟩ := toDict_loop h.func_edgeList
    (d := g.nodeList.foldl (fun (d : Dict α (Dict α V)) n => d.set n .empty) .empty)
    (toDict_init_wf _ (by simp))
    (by intro a r ha; rw [hinit] at ha; split at ha
        · cases ha; simp
        · cases ha)
    (by rintro ⟨a, b, v⟩ he
        rw [h.mem_edgeList] at he
        rw [hk]; exact (h.dom a b v he).1)
  refine ⟨d', h1, h2, h3, fun n => by rw [h4, hk], ?_⟩
  intro a b
  rw [← rowOf_get?]
  apply option_ext_iff
  intro v
  rw [h5, h.mem_edgeList]
  have : (rowOf (g.nodeList.foldl (fun (d : Dict α (Dict α V)) n => d.set n .empty) .empty) a).get? b
      = none := by
    unfold rowOf; rw [hinit]; split <;> simp
  rw [this]; simp

/-! ### to_list / from_list -/

theorem fromList_append (one : V) (g : Graph α V O) (l m : List (Link α V)) :
    g.fromList one (l ++ m) = (g.fromList one l).fromList one m := by simp [fromList]

theorem fromList_edges_eq (one : V) (g : Graph α V O) (l : List (α × α × V)) :
    g.fromList one (l.map (fun e => Link.edge e.1 e.2.1 e.2.2)) = g.addEdges l := by
  unfold fromList addEdges; rw [List.foldl_map]

theorem fromList_nodes_eq (one : V) (g : Graph α V O) (l : List α) :
    g.fromList one (l.map Link.node) = (l.map (fun n => (n, none))).foldl (fun h p => h.addNode p.1 p.2) g := by
  unfold fromList; rw [List.foldl_map, List.foldl_map]

theorem fromList_built (one : V) {g : Graph α V O} (h : g.Built) (l : List (Link α V)) :
    (g.fromList one l).Built := by
  unfold fromList
  induction l generalizing g with
  | nil => exact h
  | cons i l ih =>
    rw [List.foldl_cons]; apply ih
    cases i with
    | node n => exact h.addNode _ _
    | pair a b => exact h.addEdge _ _ _
    | edge a b v => exact h.addEdge _ _ _
    | edgeBi a b v bi =>
      simp only; split
      · exact (h.addEdge _ _ _).addEdge _ _ _
      · exact h.addEdge _ _ _

theorem Inv.fromList_toList_edge (one : V) {g : Graph α V O} (h : g.Inv) (a b : α) :
    ((empty : Graph α V O).fromList one g.toList).edge a b = g.edge a b := by
  apply option_ext_iff
  intro v
  unfold toList
  rw [fromList_append, fromList_nodes_eq, edge_congr (addNodes_edges _ _), fromList_edges_eq,
    addEdges_edge h.func_edgeList, h.mem_edgeList, edge_empty]
  simp

theorem Inv.fromList_toList_nodes (one : V) {g : Graph α V O} (h : g.Inv) (x : α) :
    ((empty : Graph α V O).fromList one g.toList).nodes.get? x =
      if x ∈ g.nodeList then some none else none := by
  unfold toList
  have hm : (g.nodeList.map (fun n => (n, (none : Option O)))).map Prod.fst = g.nodeList := by
    simp [Function.comp_def]
  rw [fromList_append, fromList_nodes_eq, addNodes_get? (by rw [hm]; exact h.nodesWF)]
  by_cases hx : x ∈ g.nodeList
  · have : aget x (g.nodeList.map (fun n => (n, (none : Option O)))) = some none :=
      aget_of_mem (by rw [hm]; exact h.nodesWF) (List.mem_map.2 ⟨x, hx, rfl⟩)
    rw [this]; simp [hx]
  · have : aget x (g.nodeList.map (fun n => (n, (none : Option O)))) = none := by
      rw [aget_eq_none_iff, hm]; exact hx
    rw [this]; simp only [hx, if_false]
    rw [fromList_edges_eq, addEdges_nodes, nodes_empty, if_neg]
    rintro ⟨⟨a, b, v⟩, he, h2⟩
    rw [h.mem_edgeList] at he
    have := h.dom a b v he
    rcases h2 with rfl | rfl
    · exact hx this.1
    · exact hx this.2

/-! ### subgraph -/

/-- one outer iteration of `subgraph` -/
def subRow (g : Graph α V O) (nodes : List α) (h : Graph α V O) (n1 : α) : Graph α V O :=
  (g.edgesFrom n1).foldl (fun h e => if e.2.1 ∈ nodes then h.addEdge n1 e.2.1 e.2.2 else h)
      (h.addNode n1 (g.node n1))

theorem subRow_eq (g : Graph α V O) (nodes : List α) (h : Graph α V O) (n1 : α) :
    g.subRow nodes h n1 = (h.addNode n1 (g.node n1)).addEdges
      (((rowOf g.edges n1).items.filter (fun p => p.1 ∈ nodes)).map (fun p => (n1, p.1, p.2))) := by
  unfold subRow addEdges
  rw [edgesFrom_eq_row, List.foldl_map, List.foldl_map, List.foldl_filter]
  simp

/-- what has been built after the nodes in `done` -/
structure SubInv (g : Graph α V O) (nodes done : List α) (h : Graph α V O) : Prop where
  built : h.Built
  edge : ∀ a b v, h.edge a b = some v ↔ a ∈ done ∧ b ∈ nodes ∧ g.edge a b = some v
  node : ∀ x, x ∈ done → h.nodes.get? x = some (g.node x)
  sub : ∀ x, x ∈ h.nodes.keys → x ∈ nodes

theorem SubInv.step {g : Graph α V O} (hg : g.Inv) {nodes done : List α} {h : Graph α V O}
    (hi : SubInv g nodes done h) (n : α) (hn : n ∈ nodes) :
    SubInv g nodes (done ++ [n]) (g.subRow nodes h n) := by
  have hmem : ∀ a b v, (a, b, v) ∈ (((rowOf g.edges n).items.filter (fun p => p.1 ∈ nodes)).map
      (fun p => (n, p.1, p.2))) ↔ a = n ∧ b ∈ nodes ∧ g.edge n b = some v := by
    intro a b v
    rw [edge_eq_row, Dict.get?_eq_some_iff (hg.rowWF n)]
    simp only [List.mem_map, List.mem_filter, Prod.mk.injEq, Prod.exists, decide_eq_true_eq]
    constructor
    · rintro ⟨x, y, ⟨h1, h2⟩, rfl, rfl, rfl⟩; exact ⟨rfl, h2, h1⟩
    · rintro ⟨rfl, h1, h2⟩; exact ⟨b, v, ⟨h2, h1⟩, rfl, rfl, rfl⟩
  have hfunc : Func (((rowOf g.edges n).items.filter (fun p => p.1 ∈ nodes)).map
      (fun p => (n, p.1, p.2))) := by
    intro a b v w h1 h2
    rw [hmem] at h1 h2
    have := h1.2.2.symm.trans h2.2.2; simpa using this
  have hnode' : ∀ x, (h.addNode n (g.node n)).nodes.get? x =
      if n = x then some (g.node n) else h.nodes.get? x := by
    intro x; rw [addNode_nodes, Dict.get?_set]
  constructor
  · rw [subRow_eq]; exact addEdges_built (hi.built.addNode _ _) _
  · intro a b v
    rw [subRow_eq, addEdges_edge hfunc, hmem, edge_congr (addNode_edges ..), hi.edge]
    constructor
    · rintro (⟨rfl, h1, h2⟩ | ⟨_, h1, h2, h3⟩)
      · exact ⟨by simp, h1, h2⟩
      · exact ⟨by simp [h1], h2, h3⟩
    · rintro ⟨h1, h2, h3⟩
      by_cases han : a = n
      · subst han; exact Or.inl ⟨rfl, h2, h3⟩
      · refine Or.inr ⟨?_, ?_, h2, h3⟩
        · intro w hw; rw [hmem] at hw; exact han hw.1
        · simpa [han] using h1
  · intro x hx
    rw [subRow_eq, addEdges_nodes]
    have h1 : (h.addNode n (g.node n)).nodes.get? x = some (g.node x) := by
      rw [hnode']; split
      · rename_i h2; rw [h2]
      · rename_i h2
        refine hi.node x ?_
        rcases List.mem_append.1 hx with h3 | h3
        · exact h3
        · simp at h3; exact absurd h3.symm h2
    rw [h1]; unfold Graph.node at h1 ⊢; rw [h1]; simp
  · intro x hx
    rw [← Dict.get?_isSome_iff, subRow_eq, addEdges_nodes] at hx
    split at hx
    · rename_i h1
      obtain ⟨⟨a, b, v⟩, h2, h3⟩ := h1
      rw [hmem] at h2
      rcases h3 with rfl | rfl
      · rw [h2.1]; exact hn
      · exact h2.2.1
    · rw [hnode'] at hx
      split at hx
      · rename_i h2; rw [← h2]; exact hn
      · rw [Dict.get?_isSome_iff] at hx; exact hi.sub x hx

theorem subgraph_inv {g : Graph α V O} (hg : g.Inv) (nodes : List α) :
    SubInv g nodes nodes (g.subgraph nodes) := by
  have : ∀ (l done : List α) (h : Graph α V O), (∀ x ∈ l, x ∈ nodes) → SubInv g nodes done h →
      SubInv g nodes (done ++ l) (l.foldl (g.subRow nodes) h) := by
    intro l
    induction l with
    | nil => intro done h _ hi; simpa using hi
    | cons n l ih =>
      intro done h hl hi
      have := ih (done ++ [n]) _ (fun x hx => hl x (List.mem_cons_of_mem _ hx))
        (hi.step hg n (hl n (by simp)))
      simpa using this
  have h0 : SubInv g nodes [] (empty : Graph α V O) :=
    ⟨built_empty, by simp [edge_empty], by simp, by intro x hx; simp [empty, Dict.empty, Dict.keys] at hx⟩
  exact this nodes [] empty (fun x hx => hx) h0

/-! ### is_subgraph -/

theorem Inv.isSubgraph_iff [DecidableEq V] {g h : Graph α V O} (hg : g.Inv) (hh : h.Inv) :
    g.isSubgraph h = true ↔ (∀ n, g.has n = true → h.has n = true) ∧
      ∀ a b v, g.edge a b = some v → h.edge a b = some v := by
  have h1 : (g.nodeList.all (fun n => decide (n ∈ h.nodeList))) = true ↔
      ∀ n, g.has n = true → h.has n = true := by
    simp only [List.all_eq_true, decide_eq_true_eq, mem_nodeList]
  have h2 : (g.edgeList.all (fun e => decide (e ∈ h.edgeList))) = true ↔
      ∀ a b v, g.edge a b = some v → h.edge a b = some v := by
    simp only [List.all_eq_true, decide_eq_true_eq]
    constructor
    · intro hk a b v hv
      have := hk (a, b, v) (hg.mem_edgeList.2 hv)
      exact hh.mem_edgeList.1 this
    · rintro hk ⟨a, b, v⟩ hv
      exact hh.mem_edgeList.2 (hk a b v (hg.mem_edgeList.1 hv))
  unfold isSubgraph
  rw [← h1, ← h2]
  cases g.nodeList.all (fun n => decide (n ∈ h.nodeList)) <;>
    cases g.edgeList.all (fun e => decide (e ∈ h.edgeList)) <;> simp

/-! ### has_path, edges(path) -/

theorem hasPath_go (g : Graph α V O) (v : α) (l : List α) :
    hasPath.go g v l = true ↔ Consec g.Adj (v :: l) := by
  induction l generalizing v with
  | nil => simp [hasPath.go, Consec]
  | cons b l ih =>
    simp only [hasPath.go, Consec, Adj]
    cases h : g.edge v b with
    | none => simp
    | some w => simp only [Option.isNone_some, Bool.false_eq_true, if_false, Option.isSome_some, true_and]; exact ih b

theorem edgesAlong_ok {g : Graph α V O} (p : List α) (r : List (α × α × V)) :
    g.edgesAlong p = .ok r ↔ Consec g.Adj p ∧ r.length = p.length - 1 ∧
      ∀ i, i + 1 < p.length → ∃ a b v, p[i]? = some a ∧ p[i + 1]? = some b ∧ g.edge a b = some v ∧
        r[i]? = some (a, b, v) := by
  induction p generalizing r with
  | nil => simp only [edgesAlong, Consec]; constructor
           · intro h; cases h; simp
           · rintro ⟨_, h, _⟩; have : r = [] := by simpa using h
             rw [this]
  | cons a l ih =>
    cases l with
    | nil => simp only [edgesAlong, Consec]; constructor
             · intro h; cases h; simp
             · rintro ⟨_, h, _⟩; have : r = [] := by simpa using h
               rw [this]
    | cons b l =>
      simp only [edgesAlong, Consec, Adj, edge]
      cases h1 : g.edges.get? a with
      | none => simp
      | some d =>
        simp only [Option.bind_some]
        cases h2 : d.get? b with
        | none => simp
        | some v =>
          have hedge : g.edge a b = some v := by unfold edge; rw [h1]; exact h2
          cases h3 : g.edgesAlong (b :: l) with
          | error e =>
            simp only [reduceCtorEq, false_iff]
            rintro ⟨⟨_, hc⟩, hlen, hi⟩
            have := (ih r.tail).2 ⟨hc, by simp [hlen], ?_⟩
            · rw [h3] at this; cases this
            · intro i hlt
              obtain ⟨x, y, w, h4, h5, h6, h7⟩ := hi (i + 1) (by simpa using hlt)
              exact ⟨x, y, w, by simpa using h4, by simpa using h5, h6, by simpa using h7⟩
          | ok r' =>
            simp only [Except.ok.injEq]
            have hr' := (ih r').1 h3
            constructor
            · rintro rfl
              refine ⟨⟨rfl, hr'.1⟩, by simp [hr'.2.1], ?_⟩
              intro i hlt
              cases i with
              | zero => exact ⟨a, b, v, rfl, rfl, by first | exact hedge | (simp only [h1, Option.bind_some]; exact h2), rfl⟩
              | succ i =>
                obtain ⟨x, y, w, h4, h5, h6, h7⟩ := hr'.2.2 i (by simpa using hlt)
                exact ⟨x, y, w, by simpa using h4, by simpa using h5, h6, by simpa using h7⟩
            · rintro ⟨⟨_, hc⟩, hlen, hi⟩
              have h0 := hi 0 (by simp)
              obtain ⟨x, y, w, h4, h5, h6, h7⟩ := h0
              simp at h4 h5; subst h4 h5
              rw [h1] at h6; simp only [Option.bind_some] at h6
              rw [h2] at h6; cases h6
              have := (ih r.tail).2 ⟨hc, by simp [hlen], ?_⟩
              · rw [h3] at this; cases this
                cases r with
                | nil => simp at h7
                | cons e r => simp at h7; simp [h7]
              · intro i hlt
                obtain ⟨x, y, w, h4, h5, h6, h7⟩ := hi (i + 1) (by simpa using hlt)
                exact ⟨x, y, w, by simpa using h4, by simpa using h5, h6, by simpa using h7⟩

theorem edgesAlong_error {g : Graph α V O} (p : List α) (e : Err) (h : g.edgesAlong p = .error e) :
    e = .keyError ∧ ¬ Consec g.Adj p := by
  induction p with
  | nil => cases h
  | cons a l ih =>
    cases l with
    | nil => cases h
    | cons b l =>
      simp only [edgesAlong, Consec, Adj, edge] at h ⊢
      cases h1 : g.edges.get? a with
      | none => rw [h1] at h; cases h; exact ⟨rfl, by simp⟩
      | some d =>
        rw [h1] at h; simp only [Option.bind_some] at h ⊢
        cases h2 : d.get? b with
        | none => rw [h2] at h; cases h; exact ⟨rfl, by simp⟩
        | some v =>
          rw [h2] at h; simp only at h
          cases h3 : g.edgesAlong (b :: l) with
          | error e' =>
            rw [h3] at h; cases h
            obtain ⟨h4, h5⟩ := ih h3
            exact ⟨h4, fun h6 => h5 h6.2⟩
          | ok r => rw [h3] at h; cases h

end Graph

/-! ### same_path -/

theorem all_zip_eq {α : Type} [DecidableEq α] (p q : List α) (hl : p.length = q.length) :
    ((p.zip q).all (fun ab => ab.1 == ab.2)) = true ↔ p = q := by
  induction p generalizing q with
  | nil => cases q with
    | nil => simp
    | cons b q => simp at hl
  | cons a p ih => cases q with
    | nil => simp at hl
    | cons b q =>
      have hl' : p.length = q.length := by simpa using hl
      simp only [List.zip_cons_cons, List.all_cons, Bool.and_eq_true, beq_iff_eq, List.cons.injEq]
      rw [ih q hl']

theorem samePath_iff {α : Type} [DecidableEq α] (p1 p2 : List α) :
    samePath p1 p2 = true ↔ p1 ≠ [] ∧ IsRotation p1 p2 := by
  unfold samePath
  constructor
  · intro h
    split at h
    · cases h
    · rename_i hc
      have hlen : p1.length = p2.length := Classical.not_not.1 (fun h2 => hc (Or.inl h2))
      simp only [List.any_eq_true, List.mem_filter, List.mem_range] at h
      obtain ⟨s, ⟨hs, _⟩, h2⟩ := h
      have h3 : p1 = p2.drop s ++ p2.take s := by
        rw [all_zip_eq] at h2
        · exact h2
        · simp; omega
      refine ⟨?_, p2.drop s, p2.take s, h3, by simp⟩
      intro h4; rw [h4] at hlen; simp at hlen; omega
  · rintro ⟨hne, s, t, h1, h2⟩
    have hlen : p1.length = p2.length := by rw [h1, h2]; simp; omega
    rw [if_neg]
    · simp only [List.any_eq_true, List.mem_filter, List.mem_range]
      -- p1 = s ++ t, p2 = t ++ s; the start index is t.length, unless s is empty (then 0)
      by_cases hs : s = []
      · subst hs
        simp at h1 h2
        subst h1 h2
        refine ⟨0, ⟨by cases p2 with | nil => exact absurd rfl hne | cons _ _ => simp, ?_⟩, ?_⟩
        · cases p2 <;> simp
        · rw [all_zip_eq] <;> simp
      · refine ⟨t.length, ⟨?_, ?_⟩, ?_⟩
        · rw [h2]; cases s with
          | nil => exact absurd rfl hs
          | cons _ _ => simp
        · rw [h2, h1]; cases s with
          | nil => exact absurd rfl hs
          | cons _ _ => simp
        · rw [all_zip_eq]
          · rw [h1, h2]; simp
          · simp; omega
    · rintro (h | h)
      · exact h hlen
      · apply h
        constructor
        · simp only [List.all_eq_true, decide_eq_true_eq]
          intro x hx; rw [h1] at hx; rw [h2]
          rcases List.mem_append.1 hx with h3 | h3
          · exact List.mem_append_right _ h3
          · exact List.mem_append_left _ h3
        · simp only [List.all_eq_true, decide_eq_true_eq]
          intro x hx; rw [h2] at hx; rw [h1]
          rcases List.mem_append.1 hx with h3 | h3
          · exact List.mem_append_right _ h3
          · exact List.mem_append_left _ h3

end GT

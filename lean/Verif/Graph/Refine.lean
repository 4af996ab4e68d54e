import Verif.Graph.Inv
import Verif.Spec.Maps
/-
`BasicGraph` refines the pair of maps.
-/
namespace GT
namespace Graph
variable {α V O : Type} [DecidableEq α]

/-- abstraction relation -/
structure Rel (g : Graph α V O) (m : Maps α V O) : Prop where
  node : ∀ n, g.nodes.get? n = m.node n
  edge : ∀ a b, g.edge a b = m.edge a b

theorem rel_empty : Rel (empty : Graph α V O) Maps.empty := ⟨fun _ => rfl, fun _ _ => rfl⟩

theorem addEdge_nodes_get? (g : Graph α V O) (a b x : α) (v : V) :
    (g.addEdge a b v).nodes.get? x =
      if x = a ∨ x = b then some (g.node x) else g.nodes.get? x := by
  rw [addEdge_nodes, withEnds, ensureNode_nodes_get?, ensureNode_nodes_get?, ensureNode_nodes_get?]
  unfold node
  by_cases hxa : x = a
  · subst hxa
    by_cases hb : b = x
    · subst hb; cases h : g.nodes.get? b <;> simp
    · cases h : g.nodes.get? x <;> simp [hb]
  · by_cases hxb : x = b
    · subst hxb
      have : ¬ a = x := Ne.symm hxa
      cases h : g.nodes.get? x <;> simp [this]
    · have h1 : ¬ a = x := Ne.symm hxa
      have h2 : ¬ b = x := Ne.symm hxb
      simp [hxa, hxb, h1, h2]

theorem Rel.addEdge {g : Graph α V O} {m : Maps α V O} (h : Rel g m) (a b : α) (v : V) :
    Rel (g.addEdge a b v) (((m.touch a).touch b).put a b v) := by
  constructor
  · intro x
    rw [addEdge_nodes_get?]
    unfold Graph.node
    simp only [Maps.put, Maps.touch, h.node]
    by_cases hxb : x = b
    · subst hxb
      by_cases hxa : x = a
      · subst hxa; cases hm : m.node x <;> simp
      · simp [hxa]
    · by_cases hxa : x = a
      · subst hxa; simp [hxb]
      · simp [hxa, hxb]
  · intro x y
    rw [edge_addEdge]
    simp only [Maps.put, Maps.touch, h.edge, eq_comm]

theorem Rel.step {g : Graph α V O} {m : Maps α V O} (hi : g.Inv) (h : Rel g m) (op : Op α V O) :
    Rel (g.stepE op).1 (m.step op).1 ∧ (g.stepE op).2 = (m.step op).2 := by
  cases op with
  | addNode n obj =>
    refine ⟨⟨?_, ?_⟩, rfl⟩
    · intro x; simp only [stepE, Maps.step, addNode_nodes, Dict.get?_set, h.node, eq_comm]
    · intro a b; simp only [stepE, Maps.step]; rw [edge_congr (addNode_edges ..)]; exact h.edge a b
  | addEdge a b v bi =>
    cases v with
    | container => exact ⟨h, rfl⟩
    | scalar v =>
      simp only [stepE, addEdgeE, addEdge1E_eq hi, bind, Except.bind, Maps.step]
      cases bi with
      | false => exact ⟨h.addEdge a b v, rfl⟩
      | true =>
        simp only [if_true, addEdge1E_eq (hi.addEdge a b v)]
        refine ⟨?_, trivial⟩
        have h2 := (h.addEdge a b v).addEdge b a v
        refine ⟨fun x => ?_, fun x y => ?_⟩
        · rw [h2.node]
          simp only [Maps.put, Maps.touch]
          by_cases hxa : x = a
          · subst hxa
            by_cases hxb : x = b
            · subst hxb; simp
            · simp [hxb]
          · by_cases hxb : x = b
            · subst hxb; simp [hxa]
            · simp [hxa, hxb]
        · rw [h2.edge]; rfl
  | delEdge a b =>
    simp only [stepE, delEdgeE_eq hi, Maps.step]
    refine ⟨⟨?_, ?_⟩, trivial⟩
    · intro x; rw [delEdge_nodes]; exact h.node x
    · intro x y; rw [edge_delEdge hi, h.edge]; simp only [eq_comm]
  | delNode n =>
    simp only [stepE, delNodeE_eq hi, Maps.step]
    obtain ⟨_, h1, h2, _⟩ := delNode_spec hi n
    refine ⟨⟨?_, ?_⟩, trivial⟩
    · intro x; rw [h1, h.node]; simp only [eq_comm]
    · intro x y; rw [h2, h.edge]; simp only [eq_comm]
  | inDegree n =>
    refine ⟨⟨?_, ?_⟩, rfl⟩
    · intro x; exact h.node x
    · intro x y; exact h.edge x y
  | outDegree n =>
    refine ⟨⟨?_, ?_⟩, rfl⟩
    · intro x; exact h.node x
    · intro x y; exact h.edge x y

theorem rel_run (ops : List (Op α V O)) : Rel (run ops) (Maps.run ops) := by
  have : ∀ (g : Graph α V O) (m : Maps α V O), g.Inv → Rel g m →
      Rel (ops.foldl (fun g op => (g.stepE op).1) g) (ops.foldl (fun m op => (m.step op).1) m) := by
    induction ops with
    | nil => intro g m _ h; exact h
    | cons op ops ih => intro g m hi h; exact ih _ _ (stepE_inv hi op) (Rel.step hi h op).1
  exact this _ _ inv_empty rel_empty

end Graph
end GT

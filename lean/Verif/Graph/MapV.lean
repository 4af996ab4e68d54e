import Verif.Search.Bfs
import Verif.Search.Dfs
import Verif.Search.Network
import Verif.Search.Paths
import Verif.Search.AllPaths
import Verif.Dag.Cpm
import Verif.Flow.Partite
import Verif.Sp.DijkstraNum
/-
Graphs that differ in their edge values only: replacing every value by another one, `mapV f`, commutes with the operations of `BasicGraph`.
-/
namespace GT
variable {α V W O : Type} [DecidableEq α]

/-- two loops whose bodies correspond: the one ends exactly if the other does -/
theorem pyWhile_map_eq {σ σ' ρ ρ' : Type} {step : σ → σ ⊕ ρ} {step' : σ' → σ' ⊕ ρ'} (f : σ → σ') (k : ρ → ρ')
    (h : ∀ s, step' (f s) = match step s with | .inl s' => .inl (f s') | .inr r => .inr (k r)) (s : σ) :
    pyWhile step' (f s) = (pyWhile step s).map k := by
  cases hs : pyWhile step s with
  | some r => exact pyWhile_map f k h hs
  | none =>
    cases hs' : pyWhile step' (f s) with
    | none => rfl
    | some r' =>
      exfalso
      have key := pyWhile.partial_correctness step' (fun t _ => ∀ s, t = f s → pyWhile step s ≠ none) (by
        intro F ih t r hr s hts
        subst hts
        have h1 := h s
        split at hr
        · rename_i s' hs'
          rw [hs'] at h1
          cases hst : step s with
          | inr r => rw [pyWhile_inr hst]; simp
          | inl s1 =>
            rw [hst] at h1
            cases h1
            rw [pyWhile_inl hst]
            exact ih _ _ hr _ rfl
        · rename_i r1 hs'
          rw [hs'] at h1
          cases hst : step s with
          | inr r => rw [pyWhile_inr hst]; simp
          | inl s1 => rw [hst] at h1; cases h1) (f s) r' hs' s rfl
      exact key hs

namespace Dict

/-- all values of a dictionary replaced -/
def mapV {K : Type} (f : V → W) (d : Dict K V) : Dict K W := ⟨d.items.map (fun p => (p.1, f p.2))⟩

variable {K : Type} [DecidableEq K]

theorem mapV_get (f : V → W) (d : Dict K V) (k : K) : (d.mapV f).get? k = (d.get? k).map f := by
  obtain ⟨l⟩ := d
  show aget k (l.map _) = (aget k l).map _
  induction l with
  | nil => rfl
  | cons a l ih =>
    obtain ⟨k', v⟩ := a
    simp only [List.map_cons, aget]
    split
    · rfl
    · exact ih

theorem mapV_set (f : V → W) (d : Dict K V) (k : K) (v : V) : (d.set k v).mapV f = (d.mapV f).set k (f v) := by
  obtain ⟨l⟩ := d
  show Dict.mk ((aset k v l).map _) = Dict.mk (aset k (f v) (l.map _))
  congr 1
  induction l with
  | nil => rfl
  | cons a l ih =>
    obtain ⟨k', w⟩ := a
    simp only [List.map_cons, aset]
    split
    · rfl
    · rw [List.map_cons, ih]

theorem mapV_del (f : V → W) (d : Dict K V) (k : K) : (d.del k).mapV f = (d.mapV f).del k := by
  obtain ⟨l⟩ := d
  show Dict.mk ((adel k l).map _) = Dict.mk (adel k (l.map _))
  congr 1
  induction l with
  | nil => rfl
  | cons a l ih =>
    obtain ⟨k', w⟩ := a
    simp only [List.map_cons, adel]
    split
    · rfl
    · rw [List.map_cons, ih]

omit [DecidableEq K] in
theorem mapV_keys (f : V → W) (d : Dict K V) : (d.mapV f).keys = d.keys := by
  simp [mapV, keys]

theorem mapV_contains (f : V → W) (d : Dict K V) (k : K) : (d.mapV f).contains k = d.contains k := by
  unfold contains; rw [mapV_get, Option.isSome_map]

omit [DecidableEq K] in
theorem mapV_isEmpty (f : V → W) (d : Dict K V) : (d.mapV f).isEmpty = d.isEmpty := by
  simp [mapV, isEmpty]

end Dict

namespace Graph

/-- the graph with every edge value `v` replaced by `f v` -/
def mapV (f : V → W) (g : Graph α V O) : Graph α W O :=
  ⟨g.nodes, g.edges.mapV (Dict.mapV f), g.edgeCount, g.rev.mapV (Dict.mapV f), g.inDeg, g.outDeg⟩

theorem mapV_has (f : V → W) (g : Graph α V O) (n : α) : (g.mapV f).has n = g.has n := rfl
theorem mapV_node (f : V → W) (g : Graph α V O) (n : α) : (g.mapV f).node n = g.node n := rfl
theorem mapV_nodeList (f : V → W) (g : Graph α V O) : (g.mapV f).nodeList = g.nodeList := rfl
theorem mapV_nodesInDeg (f : V → W) (g : Graph α V O) (k : Int) : (g.mapV f).nodesInDeg k = g.nodesInDeg k := rfl
theorem mapV_nodesOutDeg (f : V → W) (g : Graph α V O) (k : Int) : (g.mapV f).nodesOutDeg k = g.nodesOutDeg k := rfl

theorem mapV_edge (f : V → W) (g : Graph α V O) (a b : α) : (g.mapV f).edge a b = (g.edge a b).map f := by
  unfold edge mapV
  dsimp only
  rw [Dict.mapV_get]
  cases g.edges.get? a with
  | none => rfl
  | some d => simp [Dict.mapV_get]

theorem mapV_nodesFrom (f : V → W) (g : Graph α V O) : (g.mapV f).nodesFrom = g.nodesFrom := by
  funext n
  unfold nodesFrom mapV
  dsimp only
  rw [Dict.mapV_get]
  cases g.edges.get? n with
  | none => rfl
  | some d => simp [Dict.mapV_keys]

theorem mapV_nodesTo (f : V → W) (g : Graph α V O) : (g.mapV f).nodesTo = g.nodesTo := by
  funext n
  unfold nodesTo mapV
  dsimp only
  rw [Dict.mapV_get]
  cases g.rev.get? n with
  | none => rfl
  | some d => simp [Dict.mapV_keys]

theorem mapV_edgeList (f : V → W) (g : Graph α V O) : (g.mapV f).edgeList = g.edgeList.map (fun e => (e.1, e.2.1, f e.2.2)) := by
  unfold edgeList mapV Dict.mapV
  simp [List.flatMap_map, List.map_flatMap]
  rfl

theorem mapV_empty (f : V → W) : (empty : Graph α V O).mapV f = empty := rfl

theorem mapV_addNode (f : V → W) (g : Graph α V O) (n : α) (obj : Option O) : (g.addNode n obj).mapV f = (g.mapV f).addNode n obj := by
  unfold addNode
  have : (g.mapV f).nodes = g.nodes := rfl
  rw [this]
  split <;> rfl

theorem mapV_ensureNode (f : V → W) (g : Graph α V O) (n : α) : (g.ensureNode n).mapV f = (g.mapV f).ensureNode n := by
  unfold ensureNode
  have : (g.mapV f).nodes = g.nodes := rfl
  rw [this]
  split
  · rfl
  · exact mapV_addNode f g n none

theorem mapV_row (f : V → W) (d : Dict α (Dict α V)) (a : α) : ((d.mapV (Dict.mapV f)).get? a).getD .empty = ((d.get? a).getD .empty).mapV f := by
  rw [Dict.mapV_get]
  cases d.get? a <;> rfl

theorem mapV_addEdge (f : V → W) (g : Graph α V O) (a b : α) (v : V) : (g.addEdge a b v).mapV f = (g.mapV f).addEdge a b (f v) := by
  unfold addEdge
  rw [← mapV_ensureNode, ← mapV_ensureNode]
  generalize (g.ensureNode a).ensureNode b = g'
  have h1 : ((g'.mapV f).edge a b).isSome = (g'.edge a b).isSome := by rw [mapV_edge, Option.isSome_map]
  have h2 : (g'.mapV f).edges = g'.edges.mapV (Dict.mapV f) := rfl
  have h3 : (g'.mapV f).rev = g'.rev.mapV (Dict.mapV f) := rfl
  dsimp only
  rw [h1, h2, h3, mapV_row, mapV_row, ← Dict.mapV_set, ← Dict.mapV_set, ← Dict.mapV_set, ← Dict.mapV_set]
  split <;> rfl

theorem mapV_putRow (f : V → W) (d : Dict α (Dict α V)) (k : α) (row : Dict α V) :
    (putRow d k row).mapV (Dict.mapV f) = putRow (d.mapV (Dict.mapV f)) k (row.mapV f) := by
  unfold putRow
  rw [Dict.mapV_isEmpty]
  split
  · rw [Dict.mapV_del, Dict.mapV_set]
  · rw [Dict.mapV_set]

theorem mapV_delEdge (f : V → W) (g : Graph α V O) (a b : α) : (g.delEdge a b).mapV f = (g.mapV f).delEdge a b := by
  unfold delEdge
  have h1 : ((g.mapV f).edge a b).isSome = (g.edge a b).isSome := by rw [mapV_edge, Option.isSome_map]
  have h2 : (g.mapV f).edges = g.edges.mapV (Dict.mapV f) := rfl
  have h3 : (g.mapV f).rev = g.rev.mapV (Dict.mapV f) := rfl
  rw [h1, h2, h3, mapV_row, mapV_row, ← Dict.mapV_del, ← Dict.mapV_del, ← mapV_putRow, ← mapV_putRow]
  split <;> rfl

theorem mapV_foldl {β : Type} (f : V → W) (h : Graph α V O → β → Graph α V O) (h' : Graph α W O → β → Graph α W O)
    (hh : ∀ g x, (h g x).mapV f = h' (g.mapV f) x) (l : List β) : ∀ g, (l.foldl h g).mapV f = l.foldl h' (g.mapV f) := by
  induction l with
  | nil => intro g; rfl
  | cons x l ih => intro g; rw [List.foldl_cons, List.foldl_cons, ih, hh]

theorem mapV_dropNode (f : V → W) (g : Graph α V O) (n : α) : (g.dropNode n).mapV f = (g.mapV f).dropNode n := by
  unfold dropNode mapV
  simp only [Dict.mapV_del]

theorem mapV_delNode (f : V → W) (g : Graph α V O) (n : α) : (g.delNode n).mapV f = (g.mapV f).delNode n := by
  unfold delNode
  have : (g.mapV f).nodes = g.nodes := rfl
  rw [this]
  split
  · dsimp only
    have h1 := mapV_foldl f (fun g n2 => g.delEdge n n2) (fun g n2 => g.delEdge n n2) (fun g x => mapV_delEdge f g n x) (g.nodesFrom n) g
    have h2 := mapV_foldl f (fun (g : Graph α V O) n1 => g.delEdge n1 n) (fun g n1 => g.delEdge n1 n) (fun g x => mapV_delEdge f g x n)
    rw [mapV_dropNode, h2, mapV_nodesFrom, ← h1, mapV_nodesTo]
  · rfl

theorem mapV_delNodes (f : V → W) (g : Graph α V O) (l : List α) : (g.delNodes l).mapV f = (g.mapV f).delNodes l :=
  mapV_foldl f _ _ (fun g x => mapV_delNode f g x) l g

theorem mapV_copy (f : V → W) (g : Graph α V O) : g.copy.mapV f = (g.mapV f).copy := by
  unfold copy addEdges
  have h1 := mapV_foldl f (fun (g : Graph α V O) (e : α × α × V) => g.addEdge e.1 e.2.1 e.2.2) (fun g e => g.addEdge e.1 e.2.1 (f e.2.2))
    (fun g e => mapV_addEdge f g e.1 e.2.1 e.2.2)
  have h2 := mapV_foldl f (fun (h : Graph α V O) (p : α × Option O) => h.addNode p.1 p.2) (fun h p => h.addNode p.1 p.2) (fun g p => mapV_addNode f g p.1 p.2)
  rw [mapV_edgeList, List.foldl_map, h1, h2, mapV_empty]
  rfl

theorem mapV_inDegree (f : V → W) (g : Graph α V O) (n : α) : (g.mapV f).inDegree n = ((g.inDegree n).1, (g.inDegree n).2.mapV f) := rfl
theorem mapV_outDegree (f : V → W) (g : Graph α V O) (n : α) : (g.mapV f).outDegree n = ((g.outDegree n).1, (g.outDegree n).2.mapV f) := rfl

end Graph

/-- the value replaced in an argument -/
def Arg.mapV (f : V → W) : Arg V → Arg W
  | .scalar v => .scalar (f v)
  | .container => .container

/-- the value replaced in an operation -/
def Op.mapV (f : V → W) : Op α V O → Op α W O
  | .addNode n obj => .addNode n obj
  | .addEdge a b v bi => .addEdge a b (v.mapV f) bi
  | .delEdge a b => .delEdge a b
  | .delNode n => .delNode n
  | .inDegree n => .inDegree n
  | .outDegree n => .outDegree n

namespace Graph

theorem mapV_step (f : V → W) {g : Graph α V O} (h : g.Inv) (h' : (g.mapV f).Inv) (op : Op α V O) :
    (g.stepE op).1.mapV f = ((g.mapV f).stepE (op.mapV f)).1 := by
  cases op with
  | addNode n obj => exact mapV_addNode f g n obj
  | addEdge a b v bi =>
    cases v with
    | container => rfl
    | scalar v =>
      show _ = ((g.mapV f).stepE (.addEdge a b (.scalar (f v)) bi)).1
      simp only [stepE, addEdgeE, addEdge1E_eq h, addEdge1E_eq h', bind, Except.bind]
      cases bi with
      | false => exact mapV_addEdge f g a b v
      | true =>
        simp only [if_true]
        rw [← mapV_addEdge, addEdge1E_eq (h.addEdge a b v)]
        have h2 : ((g.addEdge a b v).mapV f).Inv := by rw [mapV_addEdge]; exact h'.addEdge a b (f v)
        rw [addEdge1E_eq h2]
        exact mapV_addEdge f _ b a v
  | delEdge a b =>
    show _ = ((g.mapV f).stepE (.delEdge a b)).1
    simp only [stepE, delEdgeE_eq h, delEdgeE_eq h']
    exact mapV_delEdge f g a b
  | delNode n =>
    show _ = ((g.mapV f).stepE (.delNode n)).1
    simp only [stepE, delNodeE_eq h, delNodeE_eq h']
    exact mapV_delNode f g n
  | inDegree n => rfl
  | outDegree n => rfl

theorem mapV_run (f : V → W) (ops : List (Op α V O)) : (run ops).mapV f = run (ops.map (Op.mapV f)) := by
  have key : ∀ (ops : List (Op α V O)) (g : Graph α V O), g.Inv → (g.mapV f).Inv →
      (ops.foldl (fun g op => (g.stepE op).1) g).mapV f = (ops.map (Op.mapV f)).foldl (fun g op => (g.stepE op).1) (g.mapV f) := by
    intro ops
    induction ops with
    | nil => intro g _ _; rfl
    | cons op ops ih =>
      intro g h h'
      rw [List.map_cons, List.foldl_cons, List.foldl_cons, ← mapV_step f h h' op]
      refine ih _ (stepE_inv h op) ?_
      rw [mapV_step f h h' op]
      exact stepE_inv h' _
  exact key ops empty inv_empty inv_empty

/-! ### the programs that do not look at the values -/

theorem mapV_isConnected (f : V → W) (g : Graph α V O) : (g.mapV f).isConnected = g.isConnected := by
  funext a b
  unfold isConnected
  have h : (g.mapV f).edges.contains a = g.edges.contains a := Dict.mapV_contains _ _ _
  rw [h, mapV_nodesFrom]

theorem mapV_topologicalSort (f : V → W) (g : Graph α V O) (srt : List α → List α) : (g.mapV f).topologicalSort srt = g.topologicalSort srt := by
  unfold topologicalSort
  dsimp only
  have h := pyWhile_map_eq (step := topoStep (V := V) (O := O) srt) (step' := topoStep (V := W) srt) (fun s => (s.1.mapV f, s.2)) id (by
    rintro ⟨g2, zero, out⟩
    unfold topoStep
    dsimp only
    by_cases hz : zero ≠ []
    · rw [if_pos hz, if_pos hz, ← mapV_delNodes]; rfl
    · rw [if_neg hz, if_neg hz, mapV_nodeList]
      split <;> rfl) (g.copy, srt (g.copy.nodesInDeg 0), [])
  rw [Option.map_id_fun, id] at h
  rw [← h, ← mapV_copy]
  rfl

theorem mapV_topoList (f : V → W) (g : Graph α V O) (srt : List α → List α) : (g.mapV f).topoList srt = g.topoList srt := by
  unfold topoList
  rw [mapV_topologicalSort]

theorem mapV_hasCycles (f : V → W) (g : Graph α V O) (srt : List α → List α) : (g.mapV f).hasCycles srt = g.hasCycles srt := by
  unfold hasCycles
  rw [mapV_topoList, mapV_edgeList, List.any_map]
  rfl

theorem mapV_phaseScan (f : V → W) (k : Nat) (l : List α) : ∀ (g2 : Graph α V O) (phases : Dict α Nat) (q2 : List α),
    phaseScan k l (g2.mapV f, phases, q2) = ((phaseScan k l (g2, phases, q2)).1.mapV f, (phaseScan k l (g2, phases, q2)).2) := by
  induction l with
  | nil => intro g2 phases q2; rfl
  | cons n l ih =>
    intro g2 phases q2
    unfold phaseScan
    dsimp only
    rw [mapV_inDegree]
    dsimp only
    split
    · exact ih _ _ _
    · rw [mapV_nodesFrom]; exact ih _ _ _

theorem mapV_phaseLines (f : V → W) (g : Graph α V O) (ord : Nat → List α → List α) : (g.mapV f).phaseLines ord = g.phaseLines ord := by
  unfold phaseLines
  dsimp only
  rw [← mapV_copy, mapV_nodesInDeg, mapV_nodeList]
  split
  · rfl
  · have h := pyWhile_map_eq (step := phaseStep (V := V) (O := O) ord) (step' := phaseStep (V := W) ord) (fun s => ⟨s.g2.mapV f, s.q, s.phases, s.k⟩) id (by
      rintro ⟨g2, q, phases, k⟩
      unfold phaseStep
      dsimp only
      by_cases hq : q = []
      · rw [if_pos hq, if_pos hq]; rfl
      · rw [if_neg hq, if_neg hq, mapV_phaseScan]
        dsimp only
        split
        · rfl
        · rw [← mapV_delNodes]) ⟨g.copy, g.copy.nodesInDeg 0, phaseInit g.nodeList, 0⟩
    rw [Option.map_id_fun, id] at h
    exact h

theorem mapV_cpForward (f : V → W) (num : O → Option Rat) (g : Graph α V O) (l : List α) : ∀ s, cpForward num (g.mapV f) l s = cpForward num g l s := by
  induction l with
  | nil => intro s; rfl
  | cons x l ih =>
    rintro ⟨d, cpl⟩
    unfold cpForward
    rw [mapV_nodesTo, mapV_node]
    simp only [ih]

theorem mapV_cpBackward (f : V → W) (g : Graph α V O) (cpl : Rat) (l : List α) : ∀ d, cpBackward (g.mapV f) cpl l d = cpBackward g cpl l d := by
  induction l with
  | nil => intro d; rfl
  | cons x l ih =>
    intro d
    unfold cpBackward
    rw [mapV_nodesFrom]
    simp only [ih]

theorem mapV_criticalPath (f : V → W) (g : Graph α V O) (num : O → Option Rat) (srt : List α → List α) :
    (g.mapV f).criticalPath num srt = g.criticalPath num srt := by
  unfold criticalPath
  simp only [mapV_topoList, mapV_cpForward, mapV_cpBackward]

end Graph
end GT

import Verif.Search.WorkBound
import Verif.Search.WorkComps
import Verif.Props.Search
import Verif.Props.Sp
/-
Property theorems C126: how often the `while` loops run.  `XUpTo k` is the function `X` whose loop is cut after `k` passes (Search/WorkBound).
-/
namespace GT
open Graph
variable {α V O : Type} [DecidableEq α]

/-- **C126**: `breadth_first_search`, `breadth_first_walk`, `depth_first_search`, `depth_scan`, `network_size` and `topological_sort` are over after at most
one pass per node and a last one. -/
theorem C126_one_pass_per_node {g : Graph α V O} (hg : g.Built) {ord : Nat → List α → List α} (hord : ∀ t l x, x ∈ ord t l ↔ x ∈ l)
    {srt : List α → List α} (hs : ∀ l, (srt l).Perm l) (start e : α) (stop : Option α) (rev : Bool) (crit : α → Bool) (radius : Option Int) :
    let N := g.nodeList.length
    g.breadthFirstSearchUpTo (N + 1) start e = g.breadthFirstSearch start e ∧
    g.breadthFirstWalkUpTo (N + 1) start stop rev = g.breadthFirstWalk start stop rev ∧
    g.depthFirstSearchUpTo (N + 1) start e = g.depthFirstSearch start e ∧
    g.depthScanUpTo (N + 1) start crit = g.depthScan start crit ∧
    g.networkSizeUpTo (N + 1) ord start radius = g.networkSize ord start radius ∧
    g.topologicalSortUpTo (N + 1) srt = g.topologicalSort srt :=
  ⟨breadthFirstSearchUpTo_eq hg start e, breadthFirstWalkUpTo_eq hg start stop rev, depthFirstSearchUpTo_eq hg start e, depthScanUpTo_eq hg start crit,
    networkSizeUpTo_eq hg hord start radius, topologicalSortUpTo_eq hg hs⟩

/-- **C126**: so is `distance_map`, -/
theorem C126_distance_map {g : Graph α Rat O} (hg : g.Built) {ord : List α → List α} (hord : ∀ l, (ord l).Perm l) (starts ends : Option (List α)) (reverse : Bool) :
    g.distanceMapUpTo (g.nodeList.length + 1) ord starts ends reverse = g.distanceMap ord starts ends reverse := distanceMapUpTo_eq hg hord starts ends reverse

/-- **C126**: `shortest_path` is over after at most one pass per edge and two more, with values of any sign, -/
theorem C126_shortest_path {g : Graph α Rat O} (hg : g.Built) (start e : α) (avoids : List α) :
    g.shortestPathUpTo (g.edgeList.length + 2) start e avoids = g.shortestPath start e avoids := shortestPathUpTo_eq hg start e avoids

/-- **C126**: and `sources`, if there is no cycle before the node, after at most as many passes as the square of the number of nodes, and a last one. -/
theorem C126_sources {g : Graph α V O} (hg : g.Built) (n : α) (hac : ∀ c, Reach g.Adj c n → ¬ ReachPlus g.Adj c c) :
    g.sourcesUpTo (g.nodeList.length * g.nodeList.length + 1) n = g.sources n := sourcesUpTo_eq hg n hac

/-- **C126**: `phase_lines` is over after at most one pass per node and a last one; so is each of the two loops of `components`. -/
theorem C126_phase_lines_and_components {g : Graph α V O} (hg : g.Built) {ord : Nat → List α → List α} (ho : ∀ t l, (ord t l).Perm l)
    {pop : Nat → List α → α} (hpop : ∀ t l, l ≠ [] → pop t l ∈ l) :
    g.phaseLinesUpTo (g.nodeList.length + 1) ord = g.phaseLines ord ∧ g.componentsUpTo (g.nodeList.length + 1) pop = g.components pop :=
  ⟨phaseLinesUpTo_eq hg ho, componentsUpTo_eq hg hpop⟩

/-! ### is_connected -/

/-- `k + 1` layers of two nodes `2 t` and `2 t + 1`, with edges from each node to both nodes of the next layer -/
def ladder : Nat → Graph Nat Rat Nat
  | 0 => (Graph.empty.addNode 0 none).addNode 1 none
  | k + 1 => ((((ladder k).addEdge (2 * k) (2 * k + 2) 1).addEdge (2 * k) (2 * k + 3) 1).addEdge (2 * k + 1) (2 * k + 2) 1).addEdge (2 * k + 1) (2 * k + 3) 1

theorem ladder_built : ∀ k, (ladder k).Built
  | 0 => (built_empty.addNode 0 none).addNode 1 none
  | k + 1 => (((ladder_built k |>.addEdge _ _ _).addEdge _ _ _).addEdge _ _ _).addEdge _ _ _

theorem ladder_edge (k a b : Nat) : (ladder k).edge a b = if a / 2 < k ∧ b / 2 = a / 2 + 1 then some 1 else none := by
  induction k with
  | zero =>
    have : (ladder 0).edge a b = none := rfl
    rw [this, if_neg (by omega)]
  | succ k ih =>
    unfold ladder
    simp only [edge_addEdge, ih]
    split
    · rw [if_pos (by omega)]
    split
    · rw [if_pos (by omega)]
    split
    · rw [if_pos (by omega)]
    split
    · rw [if_pos (by omega)]
    by_cases h : a / 2 < k ∧ b / 2 = a / 2 + 1
    · rw [if_pos h, if_pos (by omega)]
    · rw [if_neg h, if_neg (by omega)]

theorem ladder_nodes (k x : Nat) : x ∈ (ladder k).nodeList ↔ x < 2 * k + 2 := by
  induction k with
  | zero =>
    have : (ladder 0).nodeList = [0, 1] := rfl
    rw [this]; simp; omega
  | succ k ih =>
    unfold ladder
    unfold nodeList at ih ⊢
    simp only [addEdge_nodes, mem_keys_withEnds, ih]
    omega

theorem ladder_succ (k a : Nat) (h : a / 2 < k) : ((ladder k).nodesFrom a).length = 2 := by
  have hp : ((ladder k).nodesFrom a).Perm [2 * (a / 2) + 2, 2 * (a / 2) + 3] := by
    rw [List.perm_ext_iff_of_nodup ((ladder_built k).inv.nodup_nodesFrom a) (by simp)]
    intro x
    rw [mem_nodesFrom, ladder_edge]
    simp only [List.mem_cons, List.not_mem_nil, or_false]
    split
    · simp; omega
    · simp; omega
  exact hp.length_eq

/-- `is_connected` cut short answers, if it does, what the whole call answers -/
theorem C126_is_connected_cut (g : Graph α V O) (k : Nat) (a b : α) {r : Bool} (h : g.isConnectedUpTo k a b = some r) : g.isConnected a b = some r := by
  unfold isConnectedUpTo at h
  unfold isConnected
  split
  · rename_i hc
    rw [if_pos hc] at h
    exact pyWhile_of_runFuel h
  · rename_i hc
    rw [if_neg hc] at h
    exact h

/-- **C126** does not hold of `is_connected`: a node is looked at again each time it is found, even if it was visited before.  In the graph of `k + 1` layers
of two nodes, with edges from each node to both nodes of the next layer, `is_connected(0, 1)` is not over after `2^k` passes; the answer is `False`. -/
theorem C126_is_connected_counterexample (k : Nat) (hk : 0 < k) :
    (ladder k).nodeList.length = 2 * k + 2 ∧ (ladder k).isConnectedUpTo (2 ^ k) 0 1 = none ∧ (ladder k).isConnected 0 1 = some false := by
  refine ⟨?_, ?_, ?_⟩
  · have hp : (ladder k).nodeList.Perm (List.range (2 * k + 2)) := by
      rw [List.perm_ext_iff_of_nodup (l₁ := (ladder k).nodeList) (ladder_built k).inv.nodesWF List.nodup_range]
      intro x
      rw [List.mem_range]
      exact ladder_nodes k x
    rw [hp.length_eq, List.length_range]
  · have hc : (ladder k).edges.contains 0 = true := by
      have h1 : ((ladder k).edge 0 2).isSome := by rw [ladder_edge, if_pos (by omega)]; rfl
      unfold edge at h1
      unfold Dict.contains
      cases h : (ladder k).edges.get? 0 with
      | none => rw [h] at h1; cases h1
      | some d => rfl
    unfold isConnectedUpTo
    rw [if_pos hc]
    have := conn_slow (succ := (ladder k).nodesFrom) (n2 := 1) (layer := fun x => x / 2) (w := 2) (K := k) (fun x hx => ⟨ladder_succ k x hx, ?_, ?_⟩) (fun x hx => ?_)
      k 0 (by omega) [0] [] (by simp) (by simp)
    · simpa using this
    · rw [mem_nodesFrom, ladder_edge, if_neg (by omega)]; simp
    · intro y hy
      rw [mem_nodesFrom, ladder_edge] at hy
      split at hy
      · rename_i h; exact h.2
      · cases hy
    · rw [List.eq_nil_iff_forall_not_mem]
      intro y hy
      rw [mem_nodesFrom, ladder_edge, if_neg (by omega)] at hy
      cases hy
  · obtain ⟨r, h1, h2⟩ := C12_is_connected (ladder_built k) 0 1
    cases r with
    | false => exact h1
    | true =>
      obtain ⟨n, hn⟩ := reachPlus_iff_walk.2 (h2.1 rfl)
      cases hn with
      | @succ _ _ b _ _ h =>
        unfold Adj at h
        rw [ladder_edge, if_neg (by omega)] at h
        cases h

/-- the hypotheses are met: in the diamond `1 → {2, 3} → 4` five passes are enough for `breadth_first_search`, three are not; nothing cyclic is before 4;
`shortest_path` across a ladder -/
example : diamond.Built ∧ diamond.breadthFirstSearchUpTo 3 1 4 = none ∧ diamond.breadthFirstSearchUpTo 5 1 4 = some (.ok [1, 2, 4]) ∧
    (∀ c, Reach diamond.Adj c 4 → ¬ ReachPlus diamond.Adj c c) ∧ diamond.sourcesUpTo 2 4 = none ∧ diamond.sourcesUpTo 17 4 = some (.ok [2, 3, 1]) ∧
    (ladder 3).shortestPathUpTo 14 0 7 = some (.ok (.fin 3, [0, 2, 4, 7])) ∧ (ladder 3).edgeList.length = 12 ∧ (ladder 2).isConnectedUpTo 4 0 1 = none :=
  ⟨⟨_, rfl⟩, by decide +kernel, by decide +kernel, fun c _ => diamond_acyclic c, by decide +kernel, by decide +kernel, by decide +kernel, by decide +kernel,
    by decide +kernel⟩

/-- in the diamond three passes are not enough for `phase_lines`, nor for `components`, five are -/
example : (∀ (t : Nat) (l : List Nat), ((fun (_ : Nat) (l : List Nat) => l) t l).Perm l) ∧ (∀ (t : Nat) (l : List Nat), l ≠ [] → (fun (_ : Nat) (l : List Nat) => l.headD 0) t l ∈ l) ∧
    diamond.phaseLinesUpTo 3 (fun _ l => l) = none ∧ (diamond.phaseLinesUpTo 5 (fun _ l => l)).isSome = true ∧
    diamond.componentsUpTo 3 (fun _ l => l.headD 0) = none ∧ (diamond.componentsUpTo 5 (fun _ l => l.headD 0)).isSome = true := by
  refine ⟨fun _ _ => List.Perm.refl _, fun _ l hl => ?_, by decide +kernel, by decide +kernel, by decide +kernel, by decide +kernel⟩
  cases l with
  | nil => exact absurd rfl hl
  | cons a l => simp

end GT

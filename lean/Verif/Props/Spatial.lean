import Verif.Props.Misc
import Verif.Other.Ap
import Verif.Other.Nearest
import Verif.Other.RandomXy
/-
Property theorems C51, C54, C55: assignability check, random graphs, nearest neighbours.
-/
namespace GT
open Graph
variable {α β V O : Type} [DecidableEq α]

/-! ### C51 -/

/-- **C51**, `True` is right, whatever `set.pop` selects: every load gets its own end.
Missing: `False` need not be right (counterexample below; it is if ends are disjoint or nested, next theorem). -/
theorem C51_is_ap_solvable_true_partial [DecidableEq β] {pop : Nat → List α → α} (hpop : ∀ t l, l ≠ [] → pop t l ∈ l) {asg : List (β × List α)}
    (hnd : (asg.map Prod.fst).Nodup) (h : isApSolvable pop asg = true) : Assignable asg := isApSolvable_sound hpop hnd h

/-- **C51** in full, whatever `set.pop` selects, if the ends of any two loads are disjoint or one contains the other. -/
theorem C51_is_ap_solvable_laminar [DecidableEq β] {pop : Nat → List α → α} (hpop : ∀ t l, l ≠ [] → pop t l ∈ l) {asg : List (β × List α)}
    (hnd : (asg.map Prod.fst).Nodup) (hset : ∀ p ∈ asg, p.2.Nodup) (hlam : LaminarEnds asg) : isApSolvable pop asg = true ↔ Assignable asg :=
  ⟨isApSolvable_sound hpop hnd, isApSolvable_complete hpop hnd hset hlam⟩

/-- `set.pop` takes the first element -/
def popHead (_ : Nat) (l : List Nat) : Nat := l.headD 0

theorem popHead_mem (t : Nat) (l : List Nat) (h : l ≠ []) : popHead t l ∈ l := by
  cases l with
  | nil => exact absurd rfl h
  | cons a l => simp [popHead]

/-- nested ends, solvable and not; the hypotheses are met -/
example : (∀ t l, l ≠ [] → popHead t l ∈ l) ∧ LaminarEnds [("A", [1, 2]), ("B", [1]), ("C", [3, 4]), ("D", [2, 1, 3, 4])] ∧
    isApSolvable popHead [("A", [1, 2]), ("B", [1]), ("C", [3, 4]), ("D", [2, 1, 3, 4])] = true ∧
    LaminarEnds [("A", [1, 2]), ("B", [1, 2]), ("C", [1])] ∧ isApSolvable popHead [("A", [1, 2]), ("B", [1, 2]), ("C", [1])] = false := by
  refine ⟨popHead_mem, by unfold LaminarEnds; decide +kernel, by decide +kernel, by unfold LaminarEnds; decide +kernel, by decide +kernel⟩

/-- **C51** fails for overlapping ends: `A = {1, 3}, B = {1, 2}, C = {1, 2}` is assignable (3, 1, 2), but `False` is returned when `pop`
takes the smallest element. -/
theorem C51_greedy_counterexample :
    isApSolvable popHead [("A", [1, 3]), ("B", [1, 2]), ("C", [1, 2])] = false ∧ Assignable [("A", [1, 3]), ("B", [1, 2]), ("C", [1, 2])] := by
  refine ⟨by decide +kernel, fun s => if s = "A" then some 3 else if s = "B" then some 1 else some 2, by decide +kernel, by decide +kernel⟩

/-! ### C54 -/

/-- **C54**, for every stream of random numbers and all shuffles (`R.Ok`: the numbers are in the frame, shuffles permute): if
`random_xy_graph` with parameters accepted by the guard returns, it returns a graph with exactly `nodes` nodes inside the frame and exactly
`edges` (`nodes * nodes` if `None`) edges that carry the distance of their end points; it returns if every point of the frame is drawn
again and again.
Missing: termination for the other streams (counterexample below), negative numbers of nodes and edges. -/
theorem C54_random_xy_graph_partial {R : XyRandom} {dist : XY → XY → V} {nodes xmax ymax : Int} {edges : Option Int} (hR : R.Ok xmax ymax)
    (hn : 0 ≤ nodes) (hx : 1 ≤ xmax) (hy : 1 ≤ ymax) (hg : nodes ≤ xmax * ymax) (he : ∀ e, edges = some e → 0 ≤ e ∧ e ≤ nodes * nodes) :
    (∀ r, randomXyGraph R dist nodes xmax ymax edges = some r → ∃ g, r = .ok g ∧ (g.nodeList.length : Int) = nodes ∧ g.nodeList.Nodup ∧
      (∀ p ∈ g.nodeList, 1 ≤ p.1 ∧ p.1 ≤ xmax ∧ 1 ≤ p.2 ∧ p.2 ≤ ymax) ∧
      (g.edgeList.length : Int) = edges.getD (nodes * nodes) ∧ (∀ a b v, g.edge a b = some v → v = dist a b)) ∧
    (R.Fair xmax ymax → ∃ r, randomXyGraph R dist nodes xmax ymax edges = some r) := by
  refine ⟨fun r hr => ?_, fun hf => randomXy_terminates hR hf⟩
  rcases randomXy_post hR hn (fun e h => (he e h).1) hr with ⟨_, h⟩ | ⟨g, rfl, h⟩
  · rcases h with h | ⟨e, h1, h2⟩ | h | h
    · omega
    · have := (he e h1).2; omega
    · omega
    · omega
  · exact ⟨g, rfl, h.count, h.inv.nodesWF, fun p hp => h.frame p ((Dict.contains_iff_keys _ _).2 hp), h.edgeCount, h.value⟩

/-- the guard: too many nodes or edges raise `ValueError` -/
theorem C54_guard {R : XyRandom} {dist : XY → XY → V} {nodes xmax ymax : Int} {edges : Option Int}
    (h : xmax * ymax < nodes ∨ ∃ e, edges = some e ∧ nodes * nodes < e) : randomXyGraph R dist nodes xmax ymax edges = some (.error .valueError) := by
  unfold randomXyGraph
  by_cases h1 : xmax * ymax < nodes
  · rw [if_pos h1]
  · rw [if_neg h1]
    dsimp only
    obtain ⟨e, rfl, h2⟩ := h.resolve_left h1
    rw [if_pos (by simpa using h2)]

/-- all points of the 2x2 frame in turn, no shuffling -/
def roundRobin : XyRandom := ⟨fun t => (t % 2 + 1, t / 2 % 2 + 1), id, id, id, id⟩

/-- the hypotheses are met: three nodes in the 2x2 frame, four edges -/
example : roundRobin.Ok 2 2 ∧ roundRobin.Fair 2 2 ∧ (3 : Int) ≤ 2 * 2 ∧
    (∃ g, randomXyGraph roundRobin (fun a b => (a, b)) 3 2 2 (some 4) = some (.ok g) ∧ g.nodeList = [(1, 1), (2, 1), (1, 2)] ∧
      g.edgeList.length = 4) := by
  refine ⟨⟨fun _ _ t => ?_, fun l => .refl _, fun l => .refl _, fun l => .refl _, fun l => .refl _⟩, fun p hp t => ?_, by decide, ?_⟩
  · unfold InFrame roundRobin; dsimp only; omega
  · obtain ⟨x, y⟩ := p
    unfold InFrame at hp
    dsimp only at hp
    refine ⟨4 * t + 2 * (y - 1).toNat + (x - 1).toNat, by omega, ?_⟩
    unfold roundRobin
    simp only [Prod.mk.injEq]
    omega
  · unfold randomXyGraph
    rw [if_neg (by decide)]
    dsimp only
    rw [if_neg (by decide)]
    cases hk : runFuel (xyStep roundRobin 3 2 2) 10 (⟨0, Graph.empty, [], 0⟩ : XySt (XY × XY)) with
    | none => exact absurd (show (runFuel (xyStep roundRobin 3 2 2) 10 (⟨0, Graph.empty, [], 0⟩ : XySt (XY × XY))).isSome = true by decide +kernel) (by rw [hk]; decide)
    | some r =>
      rw [pyWhile_of_runFuel hk]
      have h1 : (runFuel (xyStep roundRobin 3 2 2) 10 (⟨0, Graph.empty, [], 0⟩ : XySt (XY × XY))).map
          (fun r => match r with
            | .ok s =>
              let s := if (s.g.nodeList.length : Int) < 3 then xyRows 3 (range1 2) (range1 2) s else s
              let g := xyEdges (fun a b => (a, b)) 4 (s.g.nodeList.flatMap (fun a => s.g.nodeList.map (fun b => (a, b)))) 0 s.g
              decide (g.nodeList = [(1, 1), (2, 1), (1, 2)] ∧ g.edgeList.length = 4)
            | .error _ => false) = some true := by decide +kernel
      rw [hk] at h1
      cases r with
      | error e => cases h1
      | ok s =>
        simp only [Option.map_some, Option.some.injEq, decide_eq_true_eq] at h1
        exact ⟨_, rfl, h1⟩

/-- **C54** fails for a stream that keeps drawing the same point: the search never ends (2 nodes in the 2x2 frame). -/
theorem C54_stuck_counterexample (dist : XY → XY → V) (edges : Option Int) (he : edges = none) :
    (⟨fun _ => (1, 1), id, id, id, id⟩ : XyRandom).Ok 2 2 ∧
    randomXyGraph (⟨fun _ => (1, 1), id, id, id, id⟩ : XyRandom) dist 2 2 2 edges = none := by
  subst he
  refine ⟨⟨fun _ _ t => by unfold InFrame; dsimp only; omega, fun l => .refl _, fun l => .refl _, fun l => .refl _, fun l => .refl _⟩, ?_⟩
  unfold randomXyGraph
  rw [if_neg (by decide)]
  dsimp only
  rw [if_neg (by decide)]
  have : pyWhile (xyStep (⟨fun _ => (1, 1), id, id, id, id⟩ : XyRandom) 2 2 2) (⟨0, Graph.empty, [], 0⟩ : XySt V) = none := by
    rw [pyWhile_eq]
    refine pyWhile_diverges (fun s => s.space = [(1, 1)] ∧ s.count = 1) (fun s hs => ?_) ⟨rfl, rfl⟩
    refine ⟨{ s with t := s.t + 1 }, ?_, hs⟩
    unfold xyStep
    rw [if_pos (by omega), if_neg (by decide)]
    dsimp only
    rw [if_neg (by rw [hs.1]; simp), if_neg (by rw [hs.1]; decide)]
  rw [this]

/-- negative numbers of edges are accepted and mean all edges -/
theorem C54_negative_edges_counterexample (dist : XY → XY → V) :
    ∃ g, randomXyGraph (⟨fun _ => (1, 1), id, id, id, id⟩ : XyRandom) dist 1 1 1 (some (-1)) = some (.ok g) ∧ g.edgeList = [((1, 1), (1, 1), dist (1, 1) (1, 1))] := by
  unfold randomXyGraph
  rw [if_neg (by decide)]
  dsimp only
  rw [if_neg (by decide)]
  rw [pyWhile_eq]
  have h1 : xyStep (⟨fun _ => (1, 1), id, id, id, id⟩ : XyRandom) 1 1 1 (⟨0, Graph.empty, [], 0⟩ : XySt V) =
    .inl ⟨1, Graph.empty.addNode (1, 1) none, [(1, 1)], 1⟩ := rfl
  rw [h1]
  dsimp only
  rw [pyWhile_eq]
  exact ⟨_, rfl, rfl⟩

/-! ### C55 -/

/-- **C55**. For every point and every `n >= 1`: `n_nearest_neighbours` is `None` exactly if there is no other node, and otherwise
`min(n, number of other nodes)` distinct other nodes by increasing distance, none of the remaining nodes being nearer than one of them.
(`sqDist` is the square of the Euclidean distance.) -/
theorem C55_n_nearest_neighbours {g : Graph Pt V O} (hg : g.Built) (x y z : Rat) {n : Int} (hn : 1 ≤ n) :
    (g.nNearest (.tuple [some x, some y, some z]) (.int n) = .ok none ∧ ∀ m, g.has m = true → m = (x, y, z)) ∨
    ∃ r, g.nNearest (.tuple [some x, some y, some z]) (.int n) = .ok (some r) ∧ (∃ m, g.has m = true ∧ m ≠ (x, y, z)) ∧
      (r.length : Int) = min n (g.nodeList.filter (fun m => decide (m ≠ (x, y, z)))).length ∧ r.Nodup ∧
      (∀ m ∈ r, g.has m = true ∧ m ≠ (x, y, z)) ∧
      r.Pairwise (fun a b => sqDist (x, y, z) a ≤ sqDist (x, y, z) b) ∧
      ∀ m, g.has m = true → m ≠ (x, y, z) → m ∉ r → ∀ a ∈ r, sqDist (x, y, z) a ≤ sqDist (x, y, z) m := by
  simp only [← dist2_eq]
  exact nNearest_spec hg.inv x y z hn

/-- **C55**. It raises exactly if the point is not a tuple of three numbers or `n` is not an integer of at least 1. -/
theorem C55_invalid_raises (g : Graph Pt V O) (p : PtArg) (n : IntArg) :
    (∃ e, g.nNearest p n = .error e) ↔ ¬ ((∃ x y z, p = .tuple [some x, some y, some z]) ∧ ∃ k, n = .int k ∧ 1 ≤ k) :=
  nNearest_invalid g p n

/-- **C55**. Which exception: `TypeError` if the point is no tuple, `ValueError` if it has not three elements, `TypeError` if an element is no
number; for a point, `TypeError` if `n` is no integer and `ValueError` if it is less than 1. -/
theorem C55_errors (g : Graph Pt V O) :
    (∀ n, g.nNearest .other n = .error .typeError) ∧
    (∀ l n, l.length ≠ 3 → g.nNearest (.tuple l) n = .error .valueError) ∧
    (∀ a b c n, (a = none ∨ b = none ∨ c = none) → g.nNearest (.tuple [a, b, c]) n = .error .typeError) ∧
    (∀ x y z, g.nNearest (.tuple [some x, some y, some z]) .other = .error .typeError) ∧
    (∀ x y z n, n < 1 → g.nNearest (.tuple [some x, some y, some z]) (.int n) = .error .valueError) := by
  refine ⟨fun _ => rfl, fun l n h => ?_, fun a b c n h => ?_, fun _ _ _ => rfl, fun x y z n h => ?_⟩
  · simp [nNearest, checkTuple, h]
  · cases a <;> cases b <;> cases c <;> first | rfl | simp at h
  · simp [nNearest, checkTuple, allNum, h]

/-- four nodes -/
def ptG : Graph Pt Rat Nat := run [.addNode (0, 0, 0) none, .addNode (3, 0, 0) none, .addNode (0, 1, 0) none, .addNode (1, 0, 0) none]

/-- all cases occur -/
example : ptG.Built ∧ ptG.nNearest (.tuple [some 0, some 0, some 0]) (.int 2) = .ok (some [(0, 1, 0), (1, 0, 0)]) ∧
    ptG.nNearest (.tuple [some 2, some 0, some 0]) (.int 9) = .ok (some [(1, 0, 0), (3, 0, 0), (0, 0, 0), (0, 1, 0)]) ∧
    (run [.addNode (0, 0, 0) none] : Graph Pt Rat Nat).nNearest (.tuple [some 0, some 0, some 0]) (.int 2) = .ok none ∧
    ptG.nNearest (.tuple [some 0, none, some 0]) (.int 2) = .error .typeError ∧ ptG.nNearest (.tuple [some 0, some 0, some 0]) (.int 0) = .error .valueError :=
  ⟨⟨_, rfl⟩, by decide +kernel, by decide +kernel, by decide +kernel, by decide +kernel, by decide +kernel⟩

end GT

import Verif.Sp.BidirBis
import Verif.Other.BnbBis
import Verif.Other.JamBis
import Verif.Flow.MinCostCmp
import Verif.Props.Flow
import Verif.Props.Jam
import Verif.Props.Tsp
/-
Property theorems C123: `bisect.insort` finds the right place only in a sorted list.  `shortestPathBiB`, `bnbB`, `jamSolverB` and `minCostFlowE` are the
programs with the binary search of Python's library (Bisect): `while lo < hi: mid = (lo + hi) // 2; if x < a[mid]: hi = mid else: lo = mid + 1`.
The models of C29, C41, C48 and C53 insert behind all elements that are not greater.  The results are the same, whatever the input.
-/
namespace GT
open Graph
variable {α O : Type} [DecidableEq α]

/-- **C123**, the binary search, on any list sorted by `__lt__`: `insort(l, x)` puts `x` behind all elements that are not greater and before all that are,
and the list stays sorted. -/
theorem C123_insort {β : Type} {lt : β → β → Bool} (htr : ∀ a b c, lt b a = false → lt c b = false → lt c a = false)
    (has : ∀ a b, lt a b = true → lt b a = false) (x : β) {l : List β} (hs : l.Pairwise (fun a b => lt b a = false)) :
    ∃ l1 l2, l = l1 ++ l2 ∧ insortB lt x l = l1 ++ x :: l2 ∧ (∀ y ∈ l1, lt x y = false) ∧ (∀ y ∈ l2, lt x y = true) ∧
      (insortB lt x l).Pairwise (fun a b => lt b a = false) := by
  have hsorted : (insortB lt x l).Pairwise (fun a b => lt b a = false) := by
    rw [insortB_eq htr has x hs]; exact insertBehind_pairwise htr has x hs
  have hs' : l.Pairwise (fun a b => lt x a = true → lt x b = true) := by
    refine hs.imp ?_
    intro a b hab hxa
    cases hxb : lt x b with
    | true => rfl
    | false => have := htr a b x hab hxb; rw [hxa] at this; cases this
  obtain ⟨h1, h2, h3⟩ := bisectB_spec hs' l.length 0 l.length (by omega) (by omega) (Nat.le_refl _) (fun i h h' => by omega) (fun i h h' => by omega)
  refine ⟨l.take (bisectB lt x l 0 l.length), l.drop (bisectB lt x l 0 l.length), (List.take_append_drop _ _).symm, rfl, fun y hy => ?_, fun y hy => ?_,
    hsorted⟩
  · obtain ⟨i, hi, rfl⟩ := List.getElem_of_mem hy
    rw [List.length_take] at hi
    rw [List.getElem_take]
    exact h2 i (by omega) (by omega)
  · obtain ⟨i, hi, rfl⟩ := List.getElem_of_mem hy
    rw [List.length_drop] at hi
    rw [List.getElem_drop]
    exact h3 _ (by omega) (by omega)

/-- **C123**, `shortest_path_bidirectional`: for all graphs, also with negative values -/
theorem C123_bidirectional (srt : List (α × Rat) → List (α × Rat)) (g : Graph α Rat O) (start fin : α) (avoids : List α) :
    g.shortestPathBiB srt start fin avoids = g.shortestPathBi srt start fin avoids := shortestPathBiB_eq srt g start fin avoids

/-- **C123**, `tsp_branch_and_bound`: for all graphs -/
theorem C123_branch_and_bound {nlt : α → α → Bool} (ho : TotalOrder nlt) (it : SetOrders α) (g : Graph α Rat O) : bnbB nlt it g = bnb nlt it g :=
  bnbB_eq ho it g

/-- **C123**, `jam_solver`: for all networks and loads, although states are replaced and removed in the middle of the queues -/
theorem C123_jam_solver {ι : Type} [DecidableEq ι] (E : JamEnv ι α) (g : Graph α Rat O) (raw : List (RawLoad ι α)) (timeout : Option Rat)
    (sync first : Bool) : jamSolverB E g raw timeout sync first = jamSolver E g raw timeout sync first := jamSolverB_eq E g raw timeout sync first

/-- **C123**, `minimum_cost_flow_using_successive_shortest_path`: for all inputs on which it terminates (all of C41) -/
theorem C123_min_cost_flow {nlt : α → α → Bool} (ho : TotalOrder nlt) {costs : Graph α Rat O} {inventory : Dict α Rat} (hwf : inventory.WF)
    {capacity : Option (Graph α Ext O)} {r : Py (Rat × Graph α Rat O)} (hr : costs.minCostFlow nlt inventory capacity = some r) :
    costs.minCostFlowE (fun _ _ => true) nlt inventory capacity = some r := by
  rcases minCostFlowE_cut (cmp := fun _ _ => true) ho hwf hr with h | ⟨⟨_, _, _, _, _, _, _, h, _⟩, _⟩
  · exact h
  · cases h

/-- **C123**: on a list that is not sorted the binary search goes wrong, so this is needed -/
theorem C123_unsorted_counterexample : insortB (fun a b : Nat => decide (a < b)) 2 [3, 1, 1] = [3, 1, 1, 2] ∧
    insertBehind (fun a b : Nat => decide (a < b)) 2 [3, 1, 1] = [2, 3, 1, 1] := by decide +kernel

/-- the hypotheses are met; the searches find something -/
example : insortB (fun a b : Nat => decide (a < b)) 2 [1, 1, 2, 3, 5] = [1, 1, 2, 2, 3, 5] ∧ TotalOrder natLt ∧
    jamSolverB plainEnv siding swapJam none true false =
      some (.ok [[("a", 1, 2)], [("a", 2, 4), ("b", 3, 2)], [("b", 2, 1), ("a", 4, 2)], [("a", 2, 3)]]) :=
  ⟨by decide +kernel, natLt_total, (C123_jam_solver _ _ _ _ _ _).trans (jamSolverF_ok (k := 60) (by decide +kernel))⟩

end GT

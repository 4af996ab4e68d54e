import Verif.Other.TspLocal
import Verif.Props.Tsp
/-
Properties C92, C93: the tours of `tsp_greedy` and `tsp_2023` are local optima.
-/
namespace GT
variable {α O : Type} [DecidableEq α]

/-- **C92**: on every symmetric complete graph with positive values and two nodes or more, whatever the order of the nodes, `tsp_greedy`
returns `(d, t)` where `t` visits every node exactly once, `d` is its length, and no section of `t` can be reversed to make the round trip
shorter: in a map with straight roads the tour does not cross itself. -/
theorem C92_greedy_two_optimal {nlt : α → α → Bool} {g : Graph α Rat O} (hg : g.Built) (hc : CompletePos g.edge g.nodeList)
    (hs : SymmetricW g.edge) (h2 : 2 ≤ g.nodeList.length) :
    ∃ d t, tspGreedy nlt g = some (.ok (d, t)) ∧ IsTourOf g.edge g.nodeList t d ∧ TwoOptimal g.edge t := by
  obtain ⟨d, t, h3, h4⟩ := tspGreedy_local (nlt := nlt) hg.inv hc hs h2
  obtain ⟨d', t', t1, h5, hp, hd, _⟩ := tspGreedy_spec (nlt := nlt) hg.inv hc h2
  rw [h3] at h5
  cases h5
  exact ⟨d, t, h3, ⟨hp, by rw [tourLen_eq_clen hc hg.inv.nodesWF h2 hp, hd]⟩, h4⟩

/-- **C93**, in part: on every symmetric complete graph with positive values and seven nodes or more, whatever the order of the nodes,
`tsp_2023` returns `(d, t)` where `t` is the tour of `_greedy` or a tour that can be shortened neither by reversing a section nor by
exchanging two adjacent sections of two or more nodes each; in both cases some such tour is not shorter than `d`.
(With fewer nodes the tour is optimal, C50.)
Missing: the tour of `_greedy` may be returned although a reversal would make it shorter (counterexample below). -/
theorem C93_local_optimum_partial {nlt : α → α → Bool} {g : Graph α Rat O} (hg : g.Built) (hc : CompletePos g.edge g.nodeList)
    (hs : SymmetricW g.edge) (h7 : 7 ≤ g.nodeList.length) :
    ∃ d t, tsp2023 nlt g = some (.ok (d, t)) ∧ IsTourOf g.edge g.nodeList t d ∧
      (greedyTour nlt g = .ok t ∨ (TwoOptimal g.edge t ∧ SwapOptimal g.edge t)) ∧
      ∃ t' d', IsTourOf g.edge g.nodeList t' d' ∧ TwoOptimal g.edge t' ∧ SwapOptimal g.edge t' ∧ d ≤ d' := by
  have h2 : 2 ≤ g.nodeList.length := by omega
  have hnd : g.nodeList.Nodup := hg.inv.nodesWF
  obtain ⟨d, t, t1, t3, h3, h4, hp3, hl, hle, hor⟩ := tsp2023Long_local (nlt := nlt) hg.inv hc hs h7
  obtain ⟨d', t', t1', he, hp, hd, _⟩ := tsp2023Long_partial (nlt := nlt) hg.inv hc h2 h3
  cases he
  have ho2 := twoOptimal_of hc hs hnd h2 hp3 (hl.pairs (totW_symm hs) hp3.length_eq h7)
  have ho3 := swapOptimal_of hc hnd h2 hp3 hl
  refine ⟨d, t, ?_, ⟨hp, by rw [tourLen_eq_clen hc hnd h2 hp, hd]⟩, ?_, t3, _, ⟨hp3, tourLen_eq_clen hc hnd h2 hp3⟩, ho2, ho3, hle⟩
  · unfold tsp2023; rw [if_neg (by omega)]; exact h3
  · rcases hor with rfl | rfl
    · exact .inl h4
    · exact .inr ⟨ho2, ho3⟩

/-- the hypotheses are met by seven points on a circle -/
example : circG.Built ∧ CompletePos circG.edge circG.nodeList ∧ SymmetricW circG.edge ∧ circG.nodeList.length = 7 :=
  ⟨⟨_, rfl⟩, completePos_of (by decide +kernel), symmetricW_of ⟨_, rfl⟩ (by decide +kernel), by decide +kernel⟩

/-- 2-optimality excludes tours: on the line with five points the tour `0, 4, 2, 1, 3` becomes shorter when `2, 1` is reversed -/
example : ¬ TwoOptimal fiveG.edge [0, 4, 2, 1, 3] := by
  intro h
  have := h [0, 4] [2, 1] [3] rfl 14 12 (by decide +kernel) (by decide +kernel)
  exact absurd this (by decide +kernel)

/-- a symmetric graph with seven nodes and values 1, 2, 3 -/
def crossG : Graph Nat Rat Nat :=
  matG 7 (fun a b => (([[0, 3, 2, 3, 3, 2, 1], [3, 0, 3, 2, 2, 3, 2], [2, 3, 0, 1, 3, 3, 2], [3, 2, 1, 0, 1, 1, 1],
    [3, 2, 3, 1, 0, 2, 1], [2, 3, 3, 1, 2, 0, 1], [1, 2, 2, 1, 1, 1, 0]] : List (List Rat)).getD a []).getD b 0)

/-- **C93** is false for the tour of `_greedy`: `_opt1` compares lengths that count the closing edge twice (C57) and makes the tour longer
(13 instead of 12); the later steps start from there and end at another tour of length 12; `tsp_2023` then returns the tour of `_greedy`, although
reversing `4, 6, 0, 5` makes it shorter.  `tsp_greedy` does find the tour of length 11. -/
theorem C93_greedy_tour_counterexample : crossG.Built ∧ CompletePos crossG.edge crossG.nodeList ∧ SymmetricW crossG.edge ∧
    tsp2023 natLt crossG = some (.ok (12, [1, 2, 3, 4, 6, 0, 5])) ∧ IsTourOf crossG.edge crossG.nodeList [1, 2, 3, 5, 0, 6, 4] 11 ∧
    ¬ TwoOptimal crossG.edge [1, 2, 3, 4, 6, 0, 5] ∧ tspGreedy natLt crossG = some (.ok (11, [1, 2, 3, 5, 0, 6, 4])) := by
  refine ⟨⟨_, rfl⟩, completePos_of (by decide +kernel), symmetricW_of ⟨_, rfl⟩ (by decide +kernel), ?_, ⟨by decide +kernel, by decide +kernel⟩,
    ?_, ?_⟩
  · unfold tsp2023
    rw [if_neg (by decide +kernel)]
    have hd : crossG.distance [1, 2, 3, 4, 6, 0, 5] false = .ok 12 := by decide +kernel
    have hd1 : crossG.distance [3, 1, 2, 4, 6, 0, 5] false = .ok 13 := by decide +kernel
    have hd2 : crossG.distance [3, 1, 2, 0, 6, 4, 5] false = .ok 12 := by decide +kernel
    have h2 : opt2 crossG [3, 1, 2, 4, 6, 0, 5] = some (.ok [3, 1, 2, 0, 6, 4, 5]) := by
      unfold opt2
      rw [hd1]
      exact pyWhile_of_runFuel (n := 5) (by decide +kernel)
    have h3 : opt3 crossG [3, 1, 2, 0, 6, 4, 5] = some (.ok [3, 1, 2, 0, 6, 4, 5]) := by
      unfold opt3
      rw [hd2]
      exact pyWhile_of_runFuel (n := 5) (by decide +kernel)
    unfold tsp2023Long
    rw [show greedyTour natLt crossG = .ok [1, 2, 3, 4, 6, 0, 5] by decide +kernel]; dsimp only
    rw [hd]; dsimp only
    rw [show opt1 crossG [1, 2, 3, 4, 6, 0, 5] = .ok [3, 1, 2, 4, 6, 0, 5] by decide +kernel]; dsimp only
    rw [hd1]; dsimp only
    rw [h2]; dsimp only
    rw [hd2]; dsimp only
    rw [h3]; dsimp only
    rw [hd2]; dsimp only
    rw [show leastTour natLt [((12 : Rat), [1, 2, 3, 4, 6, 0, 5]), (13, [3, 1, 2, 4, 6, 0, 5]), (12, [3, 1, 2, 0, 6, 4, 5]), (12, [3, 1, 2, 0, 6, 4, 5])] =
      .ok (12, [1, 2, 3, 4, 6, 0, 5]) by decide +kernel]
  · intro h
    have := h [1, 2, 3] [4, 6, 0, 5] [] rfl 12 11 (by decide +kernel) (by decide +kernel)
    exact absurd this (by decide +kernel)
  · exact tspGreedy_eval (k := 5) (t1 := [1, 2, 3, 4, 6, 0, 5]) (t2 := [1, 2, 3, 5, 0, 6, 4]) (d1 := 12) (d2 := 11) (by decide +kernel)
      (by decide +kernel) (by decide +kernel) (by decide +kernel)

end GT

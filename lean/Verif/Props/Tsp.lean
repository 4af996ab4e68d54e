import Verif.Props.Spatial
import Verif.Other.Tsp2023
import Verif.Other.Bnb
/-
Property theorems C48, C49, C50: the travelling salesman solvers.
-/
namespace GT
open Graph
variable {α V O : Type} [DecidableEq α]

/-! ### C49 -/

/-- **C49**.  On every complete graph with positive values and at least two nodes, whatever the order of the nodes: `tsp_greedy` returns
`(d, t)` where `t` visits every node exactly once and `d` is the length of the round trip `t`; `_greedy` returns a round trip as well, of
length `d1`, and `d ≤ d1`. -/
theorem C49_tsp_greedy {nlt : α → α → Bool} {g : Graph α Rat O} (hg : g.Built) (hc : CompletePos g.edge g.nodeList)
    (h2 : 2 ≤ g.nodeList.length) : ∃ d t d1 t1, tspGreedy nlt g = some (.ok (d, t)) ∧ IsTourOf g.edge g.nodeList t d ∧
      greedyTour nlt g = .ok t1 ∧ IsTourOf g.edge g.nodeList t1 d1 ∧ d ≤ d1 := by
  obtain ⟨d, t, t1, h3, h4, h5, h6, h7, h8⟩ := tspGreedy_spec (nlt := nlt) hg.inv hc h2
  have hnd : g.nodeList.Nodup := hg.inv.nodesWF
  exact ⟨d, t, _, t1, h3, ⟨h4, by rw [tourLen_eq_clen hc hnd h2 h4, h5]⟩, h6, ⟨h7, tourLen_eq_clen hc hnd h2 h7⟩, h8⟩

/-- the start tour of `tsp_greedy` on any graph: every node exactly once, or `ValueError` -/
theorem C49_greedy_any_graph {nlt : α → α → Bool} {g : Graph α Rat O} (hg : g.Built) :
    (∃ t, greedyTour nlt g = .ok t ∧ t.Perm g.nodeList) ∨ greedyTour nlt g = .error .valueError := greedyTour_sound hg.inv

/-- a graph without isolated nodes given by a matrix -/
def matG (n : Nat) (f : Nat → Nat → Rat) : Graph Nat Rat Nat :=
  run ((List.range n).flatMap (fun a => ((List.range n).filter (fun b => decide (a ≠ b))).map (fun b => W a b (f a b))))

theorem completePos_of {w : α → α → Option Rat} {nodes : List α}
    (h : ∀ a ∈ nodes, ∀ b ∈ nodes, a ≠ b → ((w a b).any (fun v => decide (0 < v))) = true) : CompletePos w nodes := by
  intro a ha b hb hab
  have := h a ha b hb hab
  cases hw : w a b with
  | none => rw [hw] at this; cases this
  | some v => rw [hw] at this; exact ⟨v, rfl, by simpa using this⟩

/-- the points 0, 3, 1, 2, 5 on a line -/
def fiveG : Graph Nat Rat Nat :=
  matG 5 (fun a b => let x : List Int := [0, 3, 1, 2, 5]; (((x.getD a 0 - x.getD b 0).natAbs : Nat) : Rat))

theorem tspGreedy_eval {nlt : α → α → Bool} {g : Graph α Rat O} {k : Nat} {t1 t2 : List α} {d1 d2 : Rat} (h1 : greedyTour nlt g = .ok t1)
    (h2 : g.distance t1 false = .ok d1) (h3 : runFuel (opt2Step g) k ⟨t1, t1, d1, [t1], 0⟩ = some (.ok t2))
    (h4 : g.distance t2 false = .ok d2) : tspGreedy nlt g = some (.ok (if d1 ≥ d2 then (d2, t2) else (d1, t1))) := by
  unfold tspGreedy
  rw [h1]; dsimp only; rw [h2]; dsimp only
  have : opt2 g t1 = some (.ok t2) := by unfold opt2; rw [h2]; exact pyWhile_of_runFuel h3
  rw [this]; dsimp only; rw [h4]

/-- the hypotheses are met: five points on a line -/
example : fiveG.Built ∧ CompletePos fiveG.edge fiveG.nodeList ∧ fiveG.nodeList.length = 5 ∧
    tspGreedy natLt fiveG = some (.ok (10, [0, 2, 3, 1, 4])) :=
  ⟨⟨_, rfl⟩, completePos_of (by decide +kernel), by decide +kernel,
    tspGreedy_eval (k := 5) (d1 := 10) (d2 := 10) (t1 := [0, 2, 3, 1, 4]) (t2 := [0, 2, 3, 1, 4]) (by decide +kernel) (by decide +kernel) (by decide +kernel) (by decide +kernel)⟩

/-- a graph with one node has no tour: `ValueError` -/
theorem C49_one_node_counterexample : ∃ g : Graph Nat Rat Nat, g.Built ∧ g.nodeList = [1] ∧ tspGreedy natLt g = some (.error .valueError) := by
  refine ⟨run [.addNode 1 none], ⟨_, rfl⟩, by decide +kernel, ?_⟩
  unfold tspGreedy
  rw [show greedyTour natLt (run [Op.addNode 1 none] : Graph Nat Rat Nat) = .error .valueError by decide +kernel]

/-! ### C50 -/

/-- **C50** for two to six nodes: on every complete graph with positive values `tsp_2023` (`solve_tsp`) returns a round trip of minimum
length, if one is shorter than `sys.maxsize`. -/
theorem C50_tsp_2023_small {nlt : α → α → Bool} {g : Graph α Rat O} (hg : g.Built) (hc : CompletePos g.edge g.nodeList)
    (h2 : 2 ≤ g.nodeList.length) (h7 : g.nodeList.length < 7) (hm : ∃ t c, IsTourOf g.edge g.nodeList t c ∧ c < maxsize) :
    ∃ d t, tsp2023 nlt g = some (.ok (d, t)) ∧ IsTourOf g.edge g.nodeList t d ∧ MinimalTour g.edge g.nodeList d := by
  have hnd : g.nodeList.Nodup := hg.inv.nodesWF
  unfold tsp2023
  rw [if_pos h7]
  rcases bruteForce_spec hg.inv hc h2 with ⟨d, t, h3, h4, h5, _, h6⟩ | ⟨_, h3⟩
  · refine ⟨d, t, h3, ⟨h4, by rw [tourLen_eq_clen hc hnd h2 h4, h5]⟩, fun t' c ht' => ?_⟩
    have := ht'.2
    rw [tourLen_eq_clen hc hnd h2 ht'.1] at this
    cases this
    exact h6 t' ht'.1
  · obtain ⟨t, c, ht, hlt⟩ := hm
    have := ht.2
    rw [tourLen_eq_clen hc hnd h2 ht.1] at this
    cases this
    have := h3 t ht.1
    exact absurd hlt (by grind)

/-- **C50** for two to six nodes, if every round trip is at least as long as `sys.maxsize`: `UnboundLocalError` -/
theorem C50_no_short_tour {nlt : α → α → Bool} {g : Graph α Rat O} (hg : g.Built) (hc : CompletePos g.edge g.nodeList)
    (h2 : 2 ≤ g.nodeList.length) (h7 : g.nodeList.length < 7) (hm : ∀ t c, IsTourOf g.edge g.nodeList t c → maxsize ≤ c) :
    tsp2023 nlt g = some (.error .unboundLocal) := by
  have hnd : g.nodeList.Nodup := hg.inv.nodesWF
  unfold tsp2023
  rw [if_pos h7]
  rcases bruteForce_spec hg.inv hc h2 with ⟨d, t, h3, h4, h5, h6, _⟩ | ⟨h3, _⟩
  · have := hm t d ⟨h4, by rw [tourLen_eq_clen hc hnd h2 h4, h5]⟩
    exact absurd h6 (by grind)
  · exact h3

/-- such graphs exist -/
example : (matG 2 (fun _ _ => maxsize)).Built ∧ CompletePos (matG 2 (fun _ _ => maxsize)).edge (matG 2 (fun _ _ => maxsize)).nodeList ∧
    tsp2023 natLt (matG 2 (fun _ _ => maxsize)) = some (.error .unboundLocal) := by
  refine ⟨⟨_, rfl⟩, completePos_of (by decide +kernel), ?_⟩
  unfold tsp2023
  rw [if_pos (by decide +kernel)]
  decide +kernel

/-- **C50** for seven nodes or more: on every complete graph with positive values, if `tsp_2023` (`solve_tsp`) returns, it returns `(d, t)`
where `t` visits every node exactly once, `d` is its length and `d` is at most the length of the tour of `_greedy`; if the graph is
symmetric it returns.
Missing: termination on asymmetric graphs, where it is false (counterexample below). -/
theorem C50_tsp_2023_large_partial {nlt : α → α → Bool} {g : Graph α Rat O} (hg : g.Built) (hc : CompletePos g.edge g.nodeList)
    (h7 : 7 ≤ g.nodeList.length) :
    (∀ r, tsp2023 nlt g = some r → ∃ d t d1 t1, r = .ok (d, t) ∧ IsTourOf g.edge g.nodeList t d ∧
      greedyTour nlt g = .ok t1 ∧ IsTourOf g.edge g.nodeList t1 d1 ∧ d ≤ d1) ∧
    (SymmetricW g.edge → ∃ r, tsp2023 nlt g = some r) := by
  have hnd : g.nodeList.Nodup := hg.inv.nodesWF
  have h2 : 2 ≤ g.nodeList.length := by omega
  unfold tsp2023
  rw [if_neg (by omega)]
  refine ⟨fun r hr => ?_, fun hs => tsp2023Long_terminates hg.inv hc hs h2⟩
  obtain ⟨d, t, t1, h3, h4, h5, h6, h8, h9⟩ := tsp2023Long_partial hg.inv hc h2 hr
  exact ⟨d, t, _, t1, h3, ⟨h4, by rw [tourLen_eq_clen hc hnd h2 h4, h5]⟩, h6, ⟨h8, tourLen_eq_clen hc hnd h2 h8⟩, h9⟩

/-- **C50** on symmetric complete graphs with seven nodes or more, in full -/
theorem C50_tsp_2023_symmetric {nlt : α → α → Bool} {g : Graph α Rat O} (hg : g.Built) (hc : CompletePos g.edge g.nodeList)
    (hs : SymmetricW g.edge) (h7 : 7 ≤ g.nodeList.length) : ∃ d t d1 t1, tsp2023 nlt g = some (.ok (d, t)) ∧
      IsTourOf g.edge g.nodeList t d ∧ greedyTour nlt g = .ok t1 ∧ IsTourOf g.edge g.nodeList t1 d1 ∧ d ≤ d1 := by
  have h := C50_tsp_2023_large_partial (nlt := nlt) hg hc h7
  obtain ⟨r, hr⟩ := h.2 hs
  obtain ⟨d, t, d1, t1, rfl, h⟩ := h.1 r hr
  exact ⟨d, t, d1, t1, hr, h⟩

theorem symmetricW_of {g : Graph α Rat O} (hg : g.Built) (h : ∀ e ∈ g.edgeList, g.edge e.2.1 e.1 = some e.2.2) : SymmetricW g.edge := by
  intro a b
  cases hab : g.edge a b with
  | some v => rw [h (a, b, v) (hg.inv.mem_edgeList.2 hab)]
  | none =>
    cases hba : g.edge b a with
    | none => rfl
    | some v => have := h (b, a, v) (hg.inv.mem_edgeList.2 hba); rw [hab] at this; cases this

/-- seven points on a circle -/
def circG : Graph Nat Rat Nat := matG 7 (fun a b => ((min ((a * 3 + 7 - b * 3 % 7) % 7) ((b * 3 + 7 - a * 3 % 7) % 7) : Nat) : Rat))

/-- the hypotheses are met: a symmetric graph with seven nodes, the line above with five -/
example : circG.Built ∧ CompletePos circG.edge circG.nodeList ∧ SymmetricW circG.edge ∧ circG.nodeList.length = 7 ∧
    (∃ t c, IsTourOf fiveG.edge fiveG.nodeList t c ∧ c < maxsize) :=
  ⟨⟨_, rfl⟩, completePos_of (by decide +kernel), symmetricW_of ⟨_, rfl⟩ (by decide +kernel), by decide +kernel,
    fiveG.nodeList, 14, ⟨.refl _, by decide +kernel⟩, by decide +kernel⟩

/-- `brute_force` on the line with five points: every tour of minimum length has length 10 -/
example : tsp2023 natLt fiveG = some (.ok (10, [0, 1, 4, 3, 2])) := by
  unfold tsp2023
  rw [if_pos (by decide +kernel)]
  decide +kernel

/-- an asymmetric complete graph with seven nodes and values 1 and 2 -/
def asymG : Graph Nat Rat Nat :=
  matG 7 (fun a b => (([[1, 1, 2, 2, 1, 2, 2], [1, 1, 1, 2, 1, 1, 1], [2, 2, 1, 1, 2, 2, 1], [2, 2, 1, 2, 1, 1, 1],
    [2, 2, 2, 2, 1, 2, 2], [1, 1, 2, 2, 1, 1, 1], [2, 1, 2, 1, 2, 2, 2]] : List (List Rat)).getD a []).getD b 0)

/-- **C50** is false on asymmetric graphs with seven nodes: `_opt3` reverses segments, adding negative numbers to `delta` again and again, without changing
the length of the tour; `solve_tsp` never returns. -/
theorem C50_asymmetric_counterexample :
    asymG.Built ∧ CompletePos asymG.edge asymG.nodeList ∧ asymG.nodeList.length = 7 ∧ tsp2023 natLt asymG = none := by
  refine ⟨⟨_, rfl⟩, completePos_of (by decide +kernel), by decide +kernel, ?_⟩
  unfold tsp2023
  rw [if_neg (by decide +kernel)]
  have hfix : (allSegments 7).foldl (opt3Try asymG) ([4, 0, 1, 2, 6, 3, 5], 0) = ([4, 0, 1, 2, 6, 3, 5], -5) := by decide +kernel
  have hd : asymG.distance [4, 0, 1, 2, 6, 3, 5] false = .ok 8 := by decide +kernel
  have h3 : opt3 asymG [4, 0, 1, 2, 6, 3, 5] = none := by
    unfold opt3
    rw [hd]
    refine pyWhile_diverges (fun s : Opt3St Nat => s.tour = [4, 0, 1, 2, 6, 3, 5]) ?_ rfl
    rintro ⟨t, p0, d0⟩ rfl
    refine ⟨⟨[4, 0, 1, 2, 6, 3, 5], if 8 < d0 then [4, 0, 1, 2, 6, 3, 5] else p0, if 8 < d0 then 8 else d0⟩, ?_, rfl⟩
    unfold opt3Step
    dsimp only
    rw [show ([4, 0, 1, 2, 6, 3, 5] : List Nat).length = 7 from rfl, hfix]
    dsimp only
    rw [hd]
    dsimp only
    rw [if_neg (by decide +kernel)]
  have h2 : opt2 asymG [4, 0, 1, 2, 6, 3, 5] = some (.ok [4, 0, 1, 2, 6, 3, 5]) := by
    unfold opt2
    rw [show asymG.distance [4, 0, 1, 2, 6, 3, 5] false = .ok 8 by decide +kernel]
    exact pyWhile_of_runFuel (n := 5) (by decide +kernel)
  unfold tsp2023Long
  rw [show greedyTour natLt asymG = .ok [4, 0, 1, 2, 3, 5, 6] by decide +kernel]; dsimp only
  rw [show asymG.distance [4, 0, 1, 2, 3, 5, 6] false = .ok 9 by decide +kernel]; dsimp only
  rw [show opt1 asymG [4, 0, 1, 2, 3, 5, 6] = .ok [4, 0, 1, 2, 6, 3, 5] by decide +kernel]; dsimp only
  rw [show asymG.distance [4, 0, 1, 2, 6, 3, 5] false = .ok 8 by decide +kernel]; dsimp only
  rw [h2]; dsimp only
  rw [hd]; dsimp only
  rw [h3]

/-! ### C48 -/

/-- **C48**, in part, whatever the iteration orders of the sets and the order of the nodes: on every complete graph with positive values and
at least four nodes (and no edge from the first node to itself) `tsp_branch_and_bound` terminates; it raises `AssertionError` or returns
`(d, t)` where `t` starts at the first node and visits every node exactly once and `d` is the length of the round trip `t`.
Missing: optimality, the assertion, fewer than four nodes; all of these are false (counterexamples below). -/
theorem C48_branch_and_bound_partial {nlt : α → α → Bool} {it : SetOrders α} (hit : it.Ok) {g : Graph α Rat O} (hg : g.Built)
    (hc : CompletePos g.edge g.nodeList) (h4 : 4 ≤ g.nodeList.length) (hself : ∀ a, g.edge a a = none) :
    ∃ r, bnb nlt it g = some r ∧ (r = .error .assertionError ∨
      ∃ d t, r = .ok (.fin d, t) ∧ IsTourOf g.edge g.nodeList t d ∧ t.head? = g.nodeList.head?) := by
  have hnd : g.nodeList.Nodup := hg.inv.nodesWF
  obtain ⟨start, hst⟩ : ∃ s, g.nodeList.head? = some s := by
    cases hl : g.nodeList with
    | nil => rw [hl] at h4; simp at h4
    | cons x l => exact ⟨x, rfl⟩
  obtain ⟨r, h1, h2⟩ := bnb_spec (nlt := nlt) hit hg.inv hc h4 hst (hself start)
  refine ⟨r, h1, ?_⟩
  rcases h2 with h2 | ⟨p, h2, h3⟩
  · exact .inl h2
  · exact .inr ⟨_, _, h2, ⟨h3, tourLen_eq_clen hc hnd (by omega) h3⟩, by rw [hst]; rfl⟩

/-- sets of small integers are iterated in increasing order; the nodes of the examples are added in that order -/
def setsInOrder : SetOrders Nat := ⟨fun _ l => l, fun _ l => l⟩

theorem setsInOrder_ok : setsInOrder.Ok := ⟨fun _ _ => .refl _, fun _ _ => .refl _⟩

theorem bnb_eval {nlt : Nat → Nat → Bool} {it : SetOrders Nat} {g : Graph Nat Rat Nat} {k : Nat} {start : Nat} {r : Py (Ext × List Nat)} {glb : Rat}
    (h1 : g.nodeList.head? = some start) (h2 : lowerBound nlt it g [] g.nodeList = glb)
    (h3 : runFuelD (bnbStep nlt it g glb) k ⟨bnbInit nlt it g start, 0, []⟩ = some r) : bnb nlt it g = some r := by
  unfold bnb
  obtain ⟨l, hl⟩ := List.head?_eq_some_iff.1 h1
  rw [hl]; dsimp only; rw [← hl, h2]
  exact pyWhileD_of_runFuel h3

/-- the hypotheses are met by five points on a line; there the answer is optimal -/
example : fiveG.Built ∧ CompletePos fiveG.edge fiveG.nodeList ∧ 4 ≤ fiveG.nodeList.length ∧ (∀ a, fiveG.edge a a = none) ∧ setsInOrder.Ok ∧
    bnb natLt setsInOrder fiveG = some (.ok (.fin 10, [0, 2, 1, 4, 3])) := by
  have hb : fiveG.Built := ⟨_, rfl⟩
  refine ⟨hb, completePos_of (by decide +kernel), by decide +kernel, ?_, setsInOrder_ok,
    bnb_eval (k := 60) (start := 0) (glb := 7) (by decide +kernel) (by decide +kernel) (by decide +kernel)⟩
  intro a
  cases h : fiveG.edge a a with
  | none => rfl
  | some v =>
    have := hb.inv.mem_edgeList.2 h
    have hk : ∀ e ∈ fiveG.edgeList, e.1 ≠ e.2.1 := by decide +kernel
    exact absurd rfl (hk _ this)

/-- the corners of a square with the hop distance: 0 and 1, 2 and 3 are opposite -/
def squareG : Graph Nat Rat Nat := matG 4 (fun a b => if a / 2 = b / 2 then 2 else 1)

/-- **C48** fails on the corners of a square: `AssertionError`, because `global_lower_bound` is 5 but the round trip 0, 2, 1, 3 has length 4. -/
theorem C48_assertion_counterexample : squareG.Built ∧ CompletePos squareG.edge squareG.nodeList ∧ SymmetricW squareG.edge ∧
    bnb natLt setsInOrder squareG = some (.error .assertionError) ∧ IsTourOf squareG.edge squareG.nodeList [0, 2, 1, 3] 4 :=
  ⟨⟨_, rfl⟩, completePos_of (by decide +kernel), symmetricW_of ⟨_, rfl⟩ (by decide +kernel),
    bnb_eval (k := 60) (start := 0) (glb := 5) (by decide +kernel) (by decide +kernel) (by decide +kernel), by decide +kernel, by decide +kernel⟩

/-- a symmetric graph with five nodes and values 1 and 2 -/
def subG : Graph Nat Rat Nat :=
  matG 5 (fun a b => (([[0, 1, 1, 1, 1], [1, 0, 1, 1, 2], [1, 1, 0, 2, 1], [1, 1, 2, 0, 2], [1, 2, 1, 2, 0]] : List (List Rat)).getD a []).getD b 0)

/-- **C48** fails on a symmetric graph with values 1 and 2 (a metric): a round trip of length 6 is returned, but 0, 3, 1, 2, 4 has length 5. -/
theorem C48_suboptimal_counterexample : subG.Built ∧ CompletePos subG.edge subG.nodeList ∧ SymmetricW subG.edge ∧
    bnb natLt setsInOrder subG = some (.ok (.fin 6, [0, 1, 2, 4, 3])) ∧ IsTourOf subG.edge subG.nodeList [0, 3, 1, 2, 4] 5 :=
  ⟨⟨_, rfl⟩, completePos_of (by decide +kernel), symmetricW_of ⟨_, rfl⟩ (by decide +kernel),
    bnb_eval (k := 100) (start := 0) (glb := 5) (by decide +kernel) (by decide +kernel) (by decide +kernel), by decide +kernel, by decide +kernel⟩

/-- **C48** fails for three nodes (`Exception("bad logic!")`), for two (`(inf, [])`, although 0, 1 is a round trip) and for none
(`IndexError`). -/
theorem C48_few_nodes_counterexample :
    bnb natLt setsInOrder (Graph.empty : Graph Nat Rat Nat) = some (.error .indexError) ∧
    bnb natLt setsInOrder (matG 3 (fun _ _ => 1)) = some (.error .exception) ∧
    bnb natLt setsInOrder (matG 2 (fun _ _ => 1)) = some (.ok (.inf, [])) ∧
    IsTourOf (matG 2 (fun _ _ => 1)).edge (matG 2 (fun _ _ => 1)).nodeList [0, 1] 2 :=
  ⟨rfl, bnb_eval (k := 60) (start := 0) (glb := 3) (by decide +kernel) (by decide +kernel) (by decide +kernel),
   bnb_eval (k := 60) (start := 0) (glb := 1) (by decide +kernel) (by decide +kernel) (by decide +kernel), by decide +kernel, by decide +kernel⟩

end GT

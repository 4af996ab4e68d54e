import Verif.Other.TspFl
import Verif.Spec.Double
import Verif.Props.Tsp
/-
Property theorems C132: the travelling salesman functions on floats.
-/
namespace GT
open Graph
variable {α O : Type} [DecidableEq α]

/-- **C132** for `tsp_greedy`: on every complete graph with positive values, whatever the rounding `fl` of an addition and whatever the builtin `sum` computes, `tsp_greedy`
terminates without exception and returns `(d, t)` where `t` visits every node exactly once, `d` is the `sum` of the values along `t`, and `d` is at most the `sum` for the
tour of `_greedy`. -/
theorem C132_tsp_greedy_rounded {fl : Rat → Rat} {sumf : List Rat → Rat} {nlt : α → α → Bool} {g : Graph α Rat O} (hg : g.Built)
    (hc : CompletePos g.edge g.nodeList) (h2 : 2 ≤ g.nodeList.length) :
    ∃ t t1, tspGreedyFl fl sumf nlt g = some (.ok (sumf (tourVals g.edge t), t)) ∧ t.Perm g.nodeList ∧
      greedyTour nlt g = .ok t1 ∧ t1.Perm g.nodeList ∧ sumf (tourVals g.edge t) ≤ sumf (tourVals g.edge t1) :=
  tspGreedyFl_spec hg.inv hc h2

/-- **C132** for `tsp_2023` with seven nodes or more: if it returns, it returns a tour, the `sum` of the values along it, and that is at most the `sum` for the tour of
`_greedy`.  Missing: that it returns; false for IEEE doubles (`C132_hang_counterexample`), also on symmetric graphs. -/
theorem C132_tsp_2023_rounded_partial {fl : Rat → Rat} {sumf : List Rat → Rat} {nlt : α → α → Bool} {g : Graph α Rat O} (hg : g.Built)
    (hc : CompletePos g.edge g.nodeList) (h7 : 7 ≤ g.nodeList.length) {r : Py (Rat × List α)} (hr : tsp2023Fl fl sumf nlt g = some r) :
    ∃ t t1, r = .ok (sumf (tourVals g.edge t), t) ∧ t.Perm g.nodeList ∧ greedyTour nlt g = .ok t1 ∧ t1.Perm g.nodeList ∧
      sumf (tourVals g.edge t) ≤ sumf (tourVals g.edge t1) := by
  unfold tsp2023Fl at hr
  rw [if_neg (by omega)] at hr
  exact tsp2023LongFl_partial hg.inv hc (by omega) hr

/-- **C132** for `tsp_2023` with two to six nodes: it terminates; among the round trips from the first node it returns one whose length, added from left to right with
rounding, is smallest (if one is smaller than `sys.maxsize`; otherwise it raises `UnboundLocalError`). -/
theorem C132_tsp_2023_small {fl : Rat → Rat} {sumf : List Rat → Rat} {nlt : α → α → Bool} {g : Graph α Rat O} (hg : g.Built)
    (hc : CompletePos g.edge g.nodeList) (h2 : 2 ≤ g.nodeList.length) (h7 : g.nodeList.length < 7) :
    ∃ x, g.nodeList.head? = some x ∧
    ((∃ l, tsp2023Fl fl sumf nlt g = some (.ok (flAdd fl (stepVals g.edge x (l ++ [x])), x :: l)) ∧ (x :: l).Perm g.nodeList ∧
      flAdd fl (stepVals g.edge x (l ++ [x])) < maxsize ∧
      ∀ l', (x :: l').Perm g.nodeList → flAdd fl (stepVals g.edge x (l ++ [x])) ≤ flAdd fl (stepVals g.edge x (l' ++ [x]))) ∨
    (tsp2023Fl fl sumf nlt g = some (.error .unboundLocal) ∧
      ∀ l', (x :: l').Perm g.nodeList → maxsize ≤ flAdd fl (stepVals g.edge x (l' ++ [x])))) := by
  unfold tsp2023Fl
  rw [if_pos h7]
  exact bruteForceFl_spec hg.inv hc h2

/-! ### accuracy -/

theorem flAdd_bounds {fl : Rat → Rat} {ε : Rat} (h0 : 0 ≤ ε) (h1 : ε ≤ 1) (hε : RelErr fl ε) (l : List Rat) (hl : ∀ x ∈ l, 0 ≤ x) :
    ∀ {acc : Rat}, 0 ≤ acc → 0 ≤ l.sum ∧ (1 - ε) ^ l.length * (acc + l.sum) ≤ l.foldl (fun s x => fl (s + x)) acc ∧
      l.foldl (fun s x => fl (s + x)) acc ≤ (1 + ε) ^ l.length * (acc + l.sum) := by
  induction l with
  | nil =>
    intro acc ha
    simp only [List.length_nil, Rat.pow_zero, List.foldl_nil, List.sum_nil]
    refine ⟨Rat.le_refl, ?_, ?_⟩ <;> grind
  | cons a l ih =>
    intro acc ha
    have hc1 := hl a (by simp)
    obtain ⟨e1, e2⟩ := hε (acc + a) (by grind)
    have hpos : 0 ≤ (1 - ε) * (acc + a) := Rat.mul_nonneg (by grind) (by grind)
    obtain ⟨hc2, b1, b2⟩ := ih (fun x hx => hl x (List.mem_cons_of_mem _ hx)) (acc := fl (acc + a)) (by grind)
    rw [List.length_cons, Rat.pow_succ, Rat.pow_succ, List.foldl_cons, List.sum_cons]
    generalize l.foldl (fun s x => fl (s + x)) (fl (acc + a)) = F at *
    generalize l.sum = c2 at *
    generalize l.length = m at *
    have p1 : 0 ≤ (1 - ε) ^ m := Rat.pow_nonneg (by grind)
    have p2 : 0 ≤ (1 + ε) ^ m := Rat.pow_nonneg (by grind)
    have k0 : 0 ≤ ε * c2 := Rat.mul_nonneg h0 hc2
    have k1 : (1 - ε) * (acc + (a + c2)) ≤ fl (acc + a) + c2 := by grind
    have k2 : fl (acc + a) + c2 ≤ (1 + ε) * (acc + (a + c2)) := by grind
    have m1 := Rat.mul_le_mul_of_nonneg_left k1 p1
    have m2 := Rat.mul_le_mul_of_nonneg_left k2 p2
    refine ⟨by grind, ?_, ?_⟩
    · rw [Rat.mul_assoc]; exact Rat.le_trans m1 b1
    · rw [Rat.mul_assoc]; exact Rat.le_trans b2 m2

/-- the `sum` (Python 3.11 or older) of the values along a tour is the length of the tour up to one relative error per node -/
theorem tourVals_bounds {fl : Rat → Rat} {ε : Rat} (h0 : 0 ≤ ε) (h1 : ε ≤ 1) (hε : RelErr fl ε) {w : α → α → Option Rat} {nodes t : List α} (hc : CompletePos w nodes)
    (hnd : nodes.Nodup) (h2 : 2 ≤ nodes.length) (ht : t.Perm nodes) : ∃ c, tourLen w t = some c ∧
      (1 - ε) ^ nodes.length * c ≤ flAdd fl (tourVals w t) ∧ flAdd fl (tourVals w t) ≤ (1 + ε) ^ nodes.length * c := by
  refine ⟨_, tourLen_eq_clen hc hnd h2 ht, ?_⟩
  have hb := (flAdd_bounds h0 h1 hε (tourVals w t) (fun x hx => by
    obtain ⟨_, _, _, h⟩ := tourVals_edges hc hnd h2 ht x hx
    exact Rat.le_of_lt h) (acc := 0) Rat.le_refl).2
  rw [tourVals_length, ht.length_eq, tourVals_sum, Rat.zero_add] at hb
  exact hb

/-- **C132**, accuracy of `tsp_greedy` with the left-to-right `sum`: the number returned is the length of the tour returned up to `n` relative errors, and the tour is at most
`((1 + ε) / (1 - ε))ⁿ` times as long as the tour of `_greedy` (`n` nodes). -/
theorem C132_accuracy {fl : Rat → Rat} {ε : Rat} (h0 : 0 ≤ ε) (h1 : ε ≤ 1) (hε : RelErr fl ε) {nlt : α → α → Bool} {g : Graph α Rat O} (hg : g.Built)
    (hc : CompletePos g.edge g.nodeList) (h2 : 2 ≤ g.nodeList.length) :
    ∃ d t c t1 c1, tspGreedyFl fl (flAdd fl) nlt g = some (.ok (d, t)) ∧ IsTourOf g.edge g.nodeList t c ∧
      (1 - ε) ^ g.nodeList.length * c ≤ d ∧ d ≤ (1 + ε) ^ g.nodeList.length * c ∧
      greedyTour nlt g = .ok t1 ∧ IsTourOf g.edge g.nodeList t1 c1 ∧ (1 - ε) ^ g.nodeList.length * c ≤ (1 + ε) ^ g.nodeList.length * c1 := by
  obtain ⟨t, t1, h3, h4, h5, h6, h7⟩ := C132_tsp_greedy_rounded (fl := fl) (sumf := flAdd fl) (nlt := nlt) hg hc h2
  have hnd : g.nodeList.Nodup := hg.inv.nodesWF
  obtain ⟨c, k1, k2, k3⟩ := tourVals_bounds h0 h1 hε hc hnd h2 h4
  obtain ⟨c1, q1, q2, q3⟩ := tourVals_bounds h0 h1 hε hc hnd h2 h6
  exact ⟨_, t, c, t1, c1, h3, ⟨h4, k1⟩, k2, k3, h5, ⟨h6, q1⟩, by grind⟩

/-! ### integers -/

/-- `fl` leaves the integers from `-N` to `N` as they are -/
def ExactInts (fl : Rat → Rat) (N : Nat) : Prop := ∀ z : Int, z.natAbs ≤ N → fl (z : Rat) = (z : Rat)

theorem double_exactInts : ExactInts double (2 ^ 53) := fun _ h => double_int h

theorem sum_int {M : Nat} (l : List Rat) (hl : ∀ x ∈ l, ∃ z : Nat, x = (z : Rat) ∧ z ≤ M) : ∃ z : Nat, l.sum = (z : Rat) ∧ z ≤ l.length * M := by
  induction l with
  | nil => exact ⟨0, rfl, by simp⟩
  | cons a l ih =>
    obtain ⟨z, h1, h2⟩ := hl a (by simp)
    obtain ⟨y, h3, h4⟩ := ih (fun x hx => hl x (List.mem_cons_of_mem _ hx))
    refine ⟨z + y, ?_, ?_⟩
    · rw [List.sum_cons, h1, h3, Rat.natCast_add]
    · rw [List.length_cons, Nat.succ_mul]; omega

theorem ExactInts.nat {fl : Rat → Rat} {N : Nat} (h : ExactInts fl N) {z : Nat} (hz : z ≤ N) : fl (z : Rat) = (z : Rat) := by
  have := h (z : Int) (by simpa using hz)
  rwa [Rat.intCast_natCast] at this

theorem ExactInts.neg {fl : Rat → Rat} {N : Nat} (h : ExactInts fl N) {z : Nat} (hz : z ≤ N) : fl (-(z : Rat)) = -(z : Rat) := by
  have := h (-(z : Int)) (by simpa using hz)
  rwa [Rat.intCast_neg, Rat.intCast_natCast] at this

theorem flAdd_int {fl : Rat → Rat} {N M : Nat} (h : ExactInts fl N) (l : List Rat) (hl : ∀ x ∈ l, ∃ z : Nat, x = (z : Rat) ∧ z ≤ M) :
    ∀ z : Nat, z + l.length * M ≤ N → l.foldl (fun s x => fl (s + x)) (z : Rat) = z + l.sum := by
  induction l with
  | nil => intro z _; simp [Rat.add_zero]
  | cons a l ih =>
    intro z hz
    obtain ⟨y, h1, h2⟩ := hl a (by simp)
    rw [List.length_cons, Nat.succ_mul] at hz
    rw [List.foldl_cons, List.sum_cons, h1, ← Rat.natCast_add, h.nat (by omega), ih (fun x hx => hl x (List.mem_cons_of_mem _ hx)) _ (by omega),
      Rat.natCast_add, Rat.add_assoc]

theorem flKahan_int {fl : Rat → Rat} {N M : Nat} (hr : Rounding fl) (h : ExactInts fl N) (l : List Rat) (hl : ∀ x ∈ l, ∃ z : Nat, x = (z : Rat) ∧ z ≤ M) :
    ∀ z : Nat, z + l.length * M ≤ N → l.foldl (kahanStep fl) ((z : Rat), 0) = (z + l.sum, 0) := by
  induction l with
  | nil => intro z _; simp [Rat.add_zero]
  | cons a l ih =>
    intro z hz
    obtain ⟨y, h1, h2⟩ := hl a (by simp)
    rw [List.length_cons, Nat.succ_mul] at hz
    have hs : kahanStep fl ((z : Rat), 0) a = (((z + y : Nat) : Rat), 0) := by
      have e1 : fl ((z : Rat) + y) = (z : Rat) + y := by rw [← Rat.natCast_add]; exact h.nat (by omega)
      have e2 : fl ((z : Rat) - ((z : Rat) + y)) = -(y : Rat) := by
        rw [show (z : Rat) - ((z : Rat) + y) = -(y : Rat) by grind]; exact h.neg (by omega)
      have e3 : fl ((y : Rat) - ((z : Rat) + y)) = -(z : Rat) := by
        rw [show (y : Rat) - ((z : Rat) + y) = -(z : Rat) by grind]; exact h.neg (by omega)
      unfold kahanStep
      dsimp only
      rw [h1, e1, e2, e3, show -(y : Rat) + y = 0 by grind, show -(z : Rat) + z = 0 by grind, hr.zero, Rat.add_zero, hr.zero, Rat.natCast_add]
      split <;> rfl
    rw [List.foldl_cons, hs, ih (fun x hx => hl x (List.mem_cons_of_mem _ hx)) _ (by omega), List.sum_cons, h1, Rat.natCast_add, Rat.add_assoc]

/-- integer values up to `M` on `n` nodes with `(n + 1) M ≤ N`: no rounding, with either `sum` -/
theorem exactSums_int {fl : Rat → Rat} {N M n : Nat} (hr : Rounding fl) (h : ExactInts fl N) {w : α → α → Option Rat}
    (hw : ∀ a b v, w a b = some v → ∃ z : Nat, v = (z : Rat) ∧ z ≤ M) (h2 : 2 ≤ n) (hN : (n + 1) * M ≤ N) {sumf : List Rat → Rat}
    (hs : sumf = flAdd fl ∨ sumf = flKahan fl) : ExactSums fl sumf w n := by
  have hN' : n * M + M ≤ N := by rwa [Nat.succ_mul] at hN
  have hl : ∀ l : List Rat, (∀ x ∈ l, ∃ a b, w a b = some x) → ∀ x ∈ l, ∃ z : Nat, x = (z : Rat) ∧ z ≤ M :=
    fun l hl x hx => let ⟨a, b, hab⟩ := hl x hx; hw a b x hab
  refine ⟨hr, ?_, ?_⟩
  · intro l hln hl'
    have hm : l.length * M ≤ n * M := Nat.mul_le_mul_right M hln
    obtain ⟨z, h1, h3⟩ := sum_int l (hl l hl')
    refine ⟨?_, fun a b v hv => ?_⟩
    · rcases hs with rfl | rfl
      · have := flAdd_int h l (hl l hl') 0 (by omega)
        unfold flAdd
        rw [show ((0 : Nat) : Rat) = 0 from rfl, Rat.zero_add] at this
        exact this
      · have := flKahan_int hr h l (hl l hl') 0 (by omega)
        unfold flKahan
        rw [show ((0 : Nat) : Rat) = 0 from rfl, Rat.zero_add] at this
        rw [this]
        dsimp only
        rw [Rat.add_zero, h1]
        exact h.nat (by omega)
    · obtain ⟨y, h4, h5⟩ := hw a b v hv
      rw [h1, h4, ← Rat.natCast_add]
      exact h.nat (by omega)
  · intro l m h3 h4 hl' hm' hlt
    obtain ⟨z, h5, h6⟩ := sum_int l (hl l hl')
    obtain ⟨y, h7, h8⟩ := sum_int m (hl m hm')
    rw [h3] at h6; rw [h4] at h8
    have h3M : 3 * M ≤ (n + 1) * M := Nat.mul_le_mul_right M (by omega)
    have e : -m.sum + l.sum = (((z : Int) - y : Int) : Rat) := by
      rw [h5, h7, Rat.intCast_sub, Rat.intCast_natCast, Rat.intCast_natCast]; grind
    have := h ((z : Int) - y) (by omega)
    rw [e, this, ← e]
    grind

/-- **C132** on integers: if the values are integers from 1 to `M` and `(n + 1) M ≤ 2^53` (for doubles), nothing is rounded, with either `sum`: the functions compute what they
compute in exact arithmetic; in particular `tsp_2023` returns on symmetric graphs, as in C50. -/
theorem C132_integers {fl : Rat → Rat} {N M : Nat} (hr : Rounding fl) (h : ExactInts fl N) {nlt : α → α → Bool} {g : Graph α Rat O} (hg : g.Built)
    (hc : CompletePos g.edge g.nodeList) (hw : ∀ a b v, g.edge a b = some v → ∃ z : Nat, v = (z : Rat) ∧ z ≤ M) (hN : (g.nodeList.length + 1) * M ≤ N)
    {sumf : List Rat → Rat} (hs : sumf = flAdd fl ∨ sumf = flKahan fl) :
    (2 ≤ g.nodeList.length → tspGreedyFl fl sumf nlt g = tspGreedy nlt g) ∧
    (7 ≤ g.nodeList.length → tsp2023Fl fl sumf nlt g = tsp2023 nlt g) ∧
    (7 ≤ g.nodeList.length → SymmetricW g.edge → ∃ d t d1 t1, tsp2023Fl fl sumf nlt g = some (.ok (d, t)) ∧
      IsTourOf g.edge g.nodeList t d ∧ greedyTour nlt g = .ok t1 ∧ IsTourOf g.edge g.nodeList t1 d1 ∧ d ≤ d1) := by
  have hbig : 7 ≤ g.nodeList.length → tsp2023Fl fl sumf nlt g = tsp2023 nlt g := by
    intro h7
    unfold tsp2023Fl tsp2023
    rw [if_neg (by omega), if_neg (by omega)]
    exact tsp2023LongFl_exact hg.inv (exactSums_int hr h hw (by omega) hN hs) hc (by omega)
  refine ⟨fun h2 => tspGreedyFl_exact hg.inv (exactSums_int hr h hw h2 hN hs) hc h2, hbig, fun h7 hsym => ?_⟩
  rw [hbig h7]
  exact C50_tsp_2023_symmetric hg hc hsym h7

/-- seven points on a line meet the hypotheses of `C132_integers` -/
def lineTsp : Graph Nat Rat Nat := matG 7 (fun a b => ((max a b - min a b : Nat) : Rat))

example : lineTsp.Built ∧ CompletePos lineTsp.edge lineTsp.nodeList ∧ (lineTsp.nodeList.length + 1) * 6 ≤ 2 ^ 53 ∧
    (∀ a b v, lineTsp.edge a b = some v → ∃ z : Nat, v = (z : Rat) ∧ z ≤ 6) := by
  refine ⟨⟨_, rfl⟩, completePos_of (by decide +kernel), by decide +kernel, fun a b v h => ?_⟩
  have hb : lineTsp.Built := ⟨_, rfl⟩
  have h1 := hb.inv.mem_edgeList.2 h
  have : ∀ e ∈ lineTsp.edgeList, e.2.2 ∈ (List.range 7).map (fun n : Nat => (n : Rat)) := by decide +kernel
  have := this _ h1
  obtain ⟨z, h3, h4⟩ := List.mem_map.1 this
  exact ⟨z, h4.symm, by have := List.mem_range.1 h3; omega⟩

/-! ### `_opt3` runs forever on a symmetric graph -/

/-- a symmetric complete graph with seven nodes and the values 0.1, 0.2 and 0.3 -/
def hangTsp : Graph Nat Rat Nat :=
  matG 7 (fun a b => double (((([[0, 1, 2, 3, 3, 3, 2], [1, 0, 1, 2, 3, 2, 2], [2, 1, 0, 3, 2, 3, 1], [3, 2, 3, 0, 3, 3, 3],
    [3, 3, 2, 3, 0, 2, 1], [3, 2, 3, 3, 2, 0, 1], [2, 2, 1, 3, 1, 1, 0]] : List (List Rat)).getD a []).getD b 0) / 10))

theorem hangTsp_opt3 {sumf : List Rat → Rat} : opt3Fl double sumf hangTsp [4, 6, 2, 1, 0, 3, 5] = none := by
  have hc : CompletePos hangTsp.edge hangTsp.nodeList := completePos_of (by decide +kernel)
  have hnd : hangTsp.nodeList.Nodup := by decide +kernel
  have h2 : 2 ≤ hangTsp.nodeList.length := by decide +kernel
  have hp1 : [4, 6, 2, 1, 0, 3, 5].Perm hangTsp.nodeList := by decide +kernel
  have hp2 : [4, 6, 5, 3, 0, 1, 2].Perm hangTsp.nodeList := by decide +kernel
  have f1 : (allSegments 7).foldl (opt3TryFl double hangTsp) ([4, 6, 2, 1, 0, 3, 5], 0) = ([4, 6, 5, 3, 0, 1, 2], -(1 / 9007199254740992)) := by
    decide +kernel
  have f2 : (allSegments 7).foldl (opt3TryFl double hangTsp) ([4, 6, 5, 3, 0, 1, 2], 0) = ([4, 6, 5, 3, 0, 1, 2], -(1 / 4503599627370496)) := by
    decide +kernel
  have hd := (distanceFl_tour (fl := double) (sumf := sumf) hc hnd h2 hp2).1
  unfold opt3Fl
  rw [(distanceFl_tour hc hnd h2 hp1).1]
  refine pyWhile_diverges (fun s : Opt3St Nat => s.tour = [4, 6, 2, 1, 0, 3, 5] ∨ s.tour = [4, 6, 5, 3, 0, 1, 2]) ?_ (.inl rfl)
  rintro ⟨t, p0, d0⟩ (h | h)
  · dsimp only at h
    subst h
    refine ⟨⟨[4, 6, 5, 3, 0, 1, 2], if sumf (tourVals hangTsp.edge [4, 6, 5, 3, 0, 1, 2]) < d0 then [4, 6, 5, 3, 0, 1, 2] else p0,
      if sumf (tourVals hangTsp.edge [4, 6, 5, 3, 0, 1, 2]) < d0 then sumf (tourVals hangTsp.edge [4, 6, 5, 3, 0, 1, 2]) else d0⟩, ?_, .inr rfl⟩
    · unfold opt3StepFl
      dsimp only
      rw [show ([4, 6, 2, 1, 0, 3, 5] : List Nat).length = 7 from rfl, f1]
      dsimp only
      rw [hd]
      dsimp only
      rw [if_neg (by decide +kernel)]
  · dsimp only at h
    subst h
    refine ⟨⟨[4, 6, 5, 3, 0, 1, 2], if sumf (tourVals hangTsp.edge [4, 6, 5, 3, 0, 1, 2]) < d0 then [4, 6, 5, 3, 0, 1, 2] else p0,
      if sumf (tourVals hangTsp.edge [4, 6, 5, 3, 0, 1, 2]) < d0 then sumf (tourVals hangTsp.edge [4, 6, 5, 3, 0, 1, 2]) else d0⟩, ?_, .inr rfl⟩
    · unfold opt3StepFl
      dsimp only
      rw [show ([4, 6, 5, 3, 0, 1, 2] : List Nat).length = 7 from rfl, f2]
      dsimp only
      rw [hd]
      dsimp only
      rw [if_neg (by decide +kernel)]

/-- **C132** fails for `tsp_2023` with doubles: on this symmetric complete graph (values 0.1, 0.2, 0.3) `_opt3` exchanges edges forever, because rounded sums of three values
depend on their order; `tsp_2023` never returns, with the `sum` of old and of new Python versions.  In exact arithmetic it returns (C50). -/
theorem C132_hang_counterexample : hangTsp.Built ∧ CompletePos hangTsp.edge hangTsp.nodeList ∧ SymmetricW hangTsp.edge ∧ Rounding double ∧
    hangTsp.nodeList.length = 7 ∧ tsp2023Fl double (flAdd double) natLt hangTsp = none ∧ tsp2023Fl double (flKahan double) natLt hangTsp = none ∧
    ∃ r, tsp2023 natLt hangTsp = some (.ok r) := by
  have hb : hangTsp.Built := ⟨_, rfl⟩
  have hc : CompletePos hangTsp.edge hangTsp.nodeList := completePos_of (by decide +kernel)
  have hsym : SymmetricW hangTsp.edge := by
    intro a b
    have h1 : ∀ e ∈ hangTsp.edgeList, hangTsp.edge e.2.1 e.1 = some e.2.2 := by decide +kernel
    cases hab : hangTsp.edge a b with
    | some v => exact (h1 _ (hb.inv.mem_edgeList.2 hab)).symm
    | none =>
      cases hba : hangTsp.edge b a with
      | none => rfl
      | some v =>
        have := h1 _ (hb.inv.mem_edgeList.2 hba)
        rw [hab] at this; cases this
  have hnd : hangTsp.nodeList.Nodup := by decide +kernel
  have h7 : hangTsp.nodeList.length = 7 := by decide +kernel
  have h2 : 2 ≤ hangTsp.nodeList.length := by omega
  have hp0 : [5, 4, 6, 2, 1, 0, 3].Perm hangTsp.nodeList := by decide +kernel
  have hp1 : [4, 6, 2, 1, 0, 3, 5].Perm hangTsp.nodeList := by decide +kernel
  have hgr : greedyTour natLt hangTsp = .ok [5, 4, 6, 2, 1, 0, 3] := by decide +kernel
  have ho2 : (opt2Pairs 7).foldl (opt2TryFl double hangTsp) ([4, 6, 2, 1, 0, 3, 5], false) = ([4, 6, 2, 1, 0, 3, 5], false) := by decide +kernel
  have key : ∀ sumf, opt1Fl double sumf hangTsp [5, 4, 6, 2, 1, 0, 3] = .ok [4, 6, 2, 1, 0, 3, 5] → tsp2023Fl double sumf natLt hangTsp = none := by
    intro sumf h1
    have hd := (distanceFl_tour (fl := double) (sumf := sumf) hc hnd h2 hp1).1
    have h3 : opt2Fl double sumf hangTsp [4, 6, 2, 1, 0, 3, 5] = some (.ok [4, 6, 2, 1, 0, 3, 5]) := by
      unfold opt2Fl
      rw [hd]
      refine pyWhile_inr ?_
      unfold opt2StepFl
      dsimp only
      rw [show ([4, 6, 2, 1, 0, 3, 5] : List Nat).length = 7 from rfl, ho2]
      dsimp only
      rw [hd]
      dsimp only
      simp
    unfold tsp2023Fl
    rw [if_neg (by omega)]
    unfold tsp2023LongFl
    rw [hgr]; dsimp only
    rw [(distanceFl_tour hc hnd h2 hp0).1]; dsimp only
    rw [h1]; dsimp only
    rw [hd]; dsimp only
    rw [h3]; dsimp only
    rw [hd]; dsimp only
    rw [hangTsp_opt3]
  refine ⟨hb, hc, hsym, double_rounding, h7, key _ (by decide +kernel), key _ (by decide +kernel), ?_⟩
  obtain ⟨d, t, _, _, h, _⟩ := C50_tsp_2023_symmetric (nlt := natLt) hb hc hsym (by omega)
  exact ⟨_, h⟩

/-- on the same graph `tsp_greedy` returns -/
example : ∃ r, tspGreedyFl double (flKahan double) natLt hangTsp = some (.ok r) :=
  let ⟨_, _, h, _⟩ := C132_tsp_greedy_rounded (fl := double) (sumf := flKahan double) (nlt := natLt) (g := hangTsp) ⟨_, rfl⟩
    C132_hang_counterexample.2.1 (by decide +kernel)
  ⟨_, h⟩

end GT

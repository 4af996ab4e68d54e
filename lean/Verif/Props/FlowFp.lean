import Verif.Flow.FpInt
import Verif.Flow.Eval
import Verif.Props.Round
/-
Property theorems C138: `maximum_flow` on floats.
-/
namespace GT
open Graph
variable {α O : Type} [DecidableEq α]

/-- **C138**. `maximum_flow` with non-negative `float` capacities and `start ≠ end` in the graph terminates after at most `2 * |edges|` paths.
The flow is put together from simple paths from `start` to `end` along edges with capacity, each with a positive amount: the recorded flows and the
total are the rounded sums of the amounts; no flow exceeds its capacity by more than the rounding of `(1 + ε) * capacity`; and the
search stopped because the rounded rest of `min(inflow, outflow)` became 0, or because every path from `start` to `end` has an edge whose flow is at least its capacity. -/
theorem C138_maximum_flow_float {fl : Rat → Rat} {ε : Rat} (hfl : Rounding fl) (he : RelErr fl ε) (hst : Sterbenz fl) (he0 : 0 ≤ ε) (he1 : ε ≤ 1 / 4)
    {sum : List Rat → Rat} (hsum : SumLike sum) {g : Graph α Rat O} (hg : g.Built) (hc : NonNeg g.edge)
    (hfix : ∀ a b d, g.edge a b = some d → fl d = d) {start fin : α} (hne : start ≠ fin) (hs : g.has start = true) (hf : g.has fin = true) :
    ∃ total f L, g.maximumFlowFp fl sum start fin = some (.ok (total, f)) ∧
      PathsOf g.edge start fin L ∧ L.length ≤ 2 * g.edgeList.length ∧
      (∀ a b, f.edge a b = sentFl fl L a b) ∧ total = flTotal fl (L.map (·.2)) ∧
      (∀ a b v, f.edge a b = some v → 0 < v ∧ v ≤ fl ((1 + ε) * capOf g.edge a b)) ∧
      ((∃ u, (u = sum ((g.edgesFrom start).map (·.2.2)) ∨ u = sum ((g.edgesTo fin).map (·.2.2))) ∧
          u ≤ sum ((g.edgesFrom start).map (·.2.2)) ∧ u ≤ sum ((g.edgesTo fin).map (·.2.2)) ∧ restFl fl u L = 0) ∨
        Blocking g.edge start fin (fun a b => (f.edge a b).getD 0)) := by
  obtain ⟨r, hr, total, f, L, rfl, _, h1, h2, h3, h4, h5, h6⟩ := maximumFlowFp_main hfl he hst he0 he1 hsum hg.inv hc hfix hne hs hf
  refine ⟨total, f, L, hr, h1, h5, h2, h3, fun a b v hv => ⟨(h4 a b v hv).1, (h4 a b v hv).2.2⟩, ?_⟩
  rcases h6 with h6 | h6
  · refine .inl ⟨_, ?_, ?_, ?_, h6⟩ <;> unfold mfBoundFp <;> dsimp only <;> split <;> first | grind | exact .inl rfl | exact .inr rfl
  · exact .inr h6

/-- **C138**, accuracy: there is an exact flow - conserved at all other nodes, within `(1 + ε)²` times the capacities - that the recorded flows and the total
match up to `2 * |edges|` roundings. -/
theorem C138_accuracy {fl : Rat → Rat} {ε : Rat} (hfl : Rounding fl) (he : RelErr fl ε) (hst : Sterbenz fl) (he0 : 0 ≤ ε) (he1 : ε ≤ 1 / 4)
    {sum : List Rat → Rat} (hsum : SumLike sum) {g : Graph α Rat O} (hg : g.Built) (hc : NonNeg g.edge)
    (hfix : ∀ a b d, g.edge a b = some d → fl d = d) {start fin : α} (hne : start ≠ fin) (hs : g.has start = true) (hf : g.has fin = true) :
    ∃ total f F val, g.maximumFlowFp fl sum start fin = some (.ok (total, f)) ∧
      IsFlow g.nodeList (fun a b => (g.edge a b).map ((1 + ε) ^ 2 * ·)) start fin F val ∧
      (∀ a b, F a b ≤ (f.edge a b).getD 0 ∧
        (1 - ε) ^ (2 * g.edgeList.length) * (f.edge a b).getD 0 ≤ (1 + ε) ^ (2 * g.edgeList.length) * F a b) ∧
      val ≤ total ∧ (1 - ε) ^ (2 * g.edgeList.length) * total ≤ (1 + ε) ^ (2 * g.edgeList.length) * val := by
  obtain ⟨r, hr, hp⟩ := maximumFlowFp_main hfl he hst he0 he1 hsum hg.inv hc hfix hne hs hf
  obtain ⟨total, f, L, rfl, _⟩ := id hp
  obtain ⟨F, val, h1, h2, h3, h4⟩ := hp.exact he he0 (by grind) hg.inv hc hne
  exact ⟨total, f, F, val, hr, h1, h2, h3, h4⟩

/-- **C138**, cuts: up to rounding errors the total is not larger than the capacity of any set of edges that separates `start` from `end`. -/
theorem C138_cuts {fl : Rat → Rat} {ε : Rat} (hfl : Rounding fl) (he : RelErr fl ε) (hst : Sterbenz fl) (he0 : 0 ≤ ε) (he1 : ε ≤ 1 / 4)
    {sum : List Rat → Rat} (hsum : SumLike sum) {g : Graph α Rat O} (hg : g.Built) (hc : NonNeg g.edge)
    (hfix : ∀ a b d, g.edge a b = some d → fl d = d) {start fin : α} (hne : start ≠ fin) (hs : g.has start = true) (hf : g.has fin = true) :
    ∃ total f, g.maximumFlowFp fl sum start fin = some (.ok (total, f)) ∧ ∀ S : α → Bool, S start = true → S fin = false →
      (1 - ε) ^ (2 * g.edgeList.length) * total ≤ (1 + ε) ^ (2 * g.edgeList.length + 2) * cutCapacity g.nodeList g.edge S := by
  obtain ⟨total, f, F, val, hr, h1, h2, h3, h4⟩ := C138_accuracy hfl he hst he0 he1 hsum hg hc hfix hne hs hf
  refine ⟨total, f, hr, fun S hS hT => ?_⟩
  have h5 := h1.le_cut hg.inv.nodesWF (has_iff.1 hs) S hS hT
  rw [cutCapacity_scale] at h5
  have hQ := one_le_pow' (x := 1 + ε) (by grind) (2 * g.edgeList.length)
  refine Rat.le_trans h4 ?_
  have h6 := Rat.mul_le_mul_of_nonneg_left h5 (show 0 ≤ (1 + ε) ^ (2 * g.edgeList.length) by grind)
  have h7 : (1 + ε) ^ (2 * g.edgeList.length + 2) = (1 + ε) ^ (2 * g.edgeList.length) * (1 + ε) ^ 2 := by
    rw [show (1 + ε) ^ 2 = (1 + ε) * (1 + ε) by grind, show 2 * g.edgeList.length + 2 = 2 * g.edgeList.length + 1 + 1 from rfl, Rat.pow_succ, Rat.pow_succ]
    grind
  rw [h7, Rat.mul_assoc]
  exact h6

/-- **C138** for Python's `float` and its `sum` from left to right: the hypotheses on the arithmetic hold -/
theorem C138_doubles : Rounding double ∧ RelErr double (pow2 (-53)) ∧ Sterbenz double ∧ (0 : Rat) ≤ pow2 (-53) ∧ pow2 (-53) ≤ 1 / 4 ∧ SumLike (flTotal double) ∧
    ∀ x, IsDouble x → double x = x :=
  ⟨double_rounding, double_relErr, double_sterbenz, by decide +kernel, by decide +kernel, flTotal_like double_rounding double_relErr (by decide +kernel),
    fun _ h => double_exact h⟩

/-- **C138** on integers: if the capacities are integers and neither they nor their sums at `start` and `end` exceed the largest integer `N` up to which the arithmetic is exact
(`2^53` for Python's `float`), nothing is rounded but the reciprocals and the lengths of the paths; the answers are those of C98. -/
theorem C138_integers {fl : Rat → Rat} (hfl : Rounding fl) {N : Nat} (hN : ExactUpTo fl N) {sum : List Rat → Rat} (hsum : SumExactUpTo sum N)
    {g : Graph α Rat O} (hg : g.Built) (hint : ∀ a b d, g.edge a b = some d → ∃ z : Nat, d = (z : Rat) ∧ z ≤ N) {start fin : α} (hne : start ≠ fin)
    (hout : sumL g.nodeList (fun y => capOf g.edge start y) ≤ (N : Rat)) (hin : sumL g.nodeList (fun y => capOf g.edge y fin) ≤ (N : Rat)) :
    g.maximumFlowFp fl sum start fin = g.maximumFlowFl fl start fin :=
  maximumFlowFp_int hfl hN hsum hg.inv hint hne hout hin

/-- **C138**, without rounding it is the function of C39 -/
theorem C138_exact (g : Graph α Rat O) (start fin : α) : g.maximumFlowFp id List.sum start fin = g.maximumFlow start fin := by
  rw [← maximumFlow_eq_fl]
  have h1 : mfRecordFp id g = mfRecordFl id g := rfl
  have h2 : mfStepFp id g start fin = mfStepFl id g start fin := by
    funext s
    unfold mfStepFp mfStepFl
    rw [h1]
    rfl
  unfold maximumFlowFp maximumFlowFl
  rw [h2]
  rfl

/-- **C138**, errors: a node that is not in the graph raises `ValueError` -/
theorem C138_errors (fl : Rat → Rat) (sum : List Rat → Rat) {g : Graph α Rat O} {start fin : α} (h : ¬ (g.has start = true ∧ g.has fin = true)) :
    g.maximumFlowFp fl sum start fin = some (.error .valueError) := by
  unfold maximumFlowFp
  cases hs : g.has start with
  | false => rfl
  | true =>
    cases hf : g.has fin with
    | false => rfl
    | true => exact absurd ⟨hs, hf⟩ h

/-! ### evaluation -/

/-- `shortest_path` with a bounded loop -/
def spFlF (fl : Rat → Rat) (k : Nat) (g : Graph α Rat O) (start fin : α) : Option (Py (Ext × List α)) :=
  if g.has start = true ∧ g.has fin = true then
    match runFuel (dijStepFl fl g.outNbr fin) k ⟨[⟨0, 0, start, []⟩], Dict.empty.set start 0, [], 1⟩ with
    | none => none
    | some r => some (.ok r)
  else none

theorem spFlF_ok {fl : Rat → Rat} {k : Nat} {g : Graph α Rat O} {start fin : α} {r : Py (Ext × List α)} (h : spFlF fl k g start fin = some r) :
    g.shortestPathFl fl start fin = some r := by
  unfold spFlF at h
  split at h
  · rename_i h1
    split at h
    · cases h
    · rename_i r' hr; cases h; exact spFl_eval k h1.1 h1.2 hr
  · cases h

def mfStepFpF (fl : Rat → Rat) (k : Nat) (g : Graph α Rat O) (start fin : α) (s : MfSt α O) : Option (MfSt α O ⊕ Py (Rat × Graph α Rat O)) :=
  if s.unassigned = 0 then some (.inr (.ok (s.total, s.flow)))
  else match spFlF fl k s.inv start fin with
    | none => none
    | some (.error e) => some (.inr (.error e))
    | some (.ok (.inf, _)) => some (.inr (.ok (s.total, s.flow)))
    | some (.ok (.fin _, path)) => match g.edgesPath path with
      | .error e => some (.inr (.error e))
      | .ok es => match ratMin (es.map (mfLeft s.capg)) with
        | .error e => some (.inr (.error e))
        | .ok pf => match forE es (s.flow, s.capg, s.inv) (mfRecordFp fl g pf) with
          | .error e => some (.inr (.error e))
          | .ok (flow, capg, inv) => some (.inl ⟨inv, capg, flow, fl (s.unassigned - pf), fl (s.total + pf)⟩)

theorem mfStepFpF_ok {fl : Rat → Rat} {k : Nat} {g : Graph α Rat O} {start fin : α} (s : MfSt α O) (r) (h : mfStepFpF fl k g start fin s = some r) :
    mfStepFp fl g start fin s = some r := by
  unfold mfStepFpF at h
  unfold mfStepFp
  by_cases hu : s.unassigned = 0
  · rw [if_pos hu] at h ⊢; exact h
  · rw [if_neg hu] at h ⊢
    cases hsp : spFlF fl k s.inv start fin with
    | none => rw [hsp] at h; cases h
    | some x => rw [hsp] at h; rw [spFlF_ok hsp]; exact h

theorem mfFp_eval {fl : Rat → Rat} {sum : List Rat → Rat} (k : Nat) {g : Graph α Rat O} {start fin : α} {r}
    (hs : g.has start = true) (hf : g.has fin = true)
    (h : runFuelD (mfStepFpF fl k g start fin) k ⟨g.mfInvertedFl fl, Graph.empty, Graph.empty, g.mfBoundFp sum start fin, 0⟩ = some r) :
    g.maximumFlowFp fl sum start fin = some r := by
  unfold maximumFlowFp
  simp only [hs, hf, Bool.not_true, Bool.false_eq_true, if_false]
  exact pyWhileD_of_runFuel' mfStepFpF_ok h

/-- the first path is 1, 2, 3, 4, the second one goes around the edge from 1 to 2 -/
def overG : Graph Nat Rat Nat := run [W 1 2 (2 ^ 51 + 3 / 2), W 2 3 (2 ^ 53 - 1), W 3 4 (2 ^ 54), W 1 5 (2 ^ 53), W 5 6 (2 ^ 53), W 6 7 (2 ^ 53),
  W 7 8 (2 ^ 53), W 8 2 (2 ^ 53)]

/-- the answer for `overG` -/
theorem overG_eval : ∃ f, overG.maximumFlowFp double (flTotal double) 1 4 = some (.ok ((2 ^ 53 : Rat), f)) ∧ f.edge 2 3 = some (2 ^ 53 : Rat) := by
  have h : (runFuelD (mfStepFpF double 60 overG 1 4) 60
      ⟨overG.mfInvertedFl double, Graph.empty, Graph.empty, overG.mfBoundFp (flTotal double) 1 4, 0⟩).map
      (fun r => match r with
        | .ok (t, f) => decide (t = (2 ^ 53 : Rat) ∧ f.edge 2 3 = some (2 ^ 53 : Rat))
        | .error _ => false) = some true := by decide +kernel
  match h2 : runFuelD (mfStepFpF double 60 overG 1 4) 60
      ⟨overG.mfInvertedFl double, Graph.empty, Graph.empty, overG.mfBoundFp (flTotal double) 1 4, 0⟩ with
  | none => rw [h2] at h; cases h
  | some (.error e) => rw [h2] at h; cases h
  | some (.ok (t, f)) =>
    rw [h2] at h
    simp only [Option.map_some, Option.some.injEq, decide_eq_true_eq] at h
    obtain ⟨rfl, h3⟩ := h
    exact ⟨f, mfFp_eval 60 (by decide +kernel) (by decide +kernel) h2, h3⟩

/-- **C138**, capacities: the claim that a flow never exceeds its capacity is false for `float`s: the edge from 2 to 3 with capacity `2^53 - 1` carries `2^53`. -/
theorem C138_capacity_counterexample : overG.Built ∧ NonNeg overG.edge ∧ (∀ a b d, overG.edge a b = some d → IsDouble d) ∧
    ∃ f v c, overG.maximumFlowFp double (flTotal double) 1 4 = some (.ok ((2 ^ 53 : Rat), f)) ∧ f.edge 2 3 = some v ∧ overG.edge 2 3 = some c ∧ c < v := by
  refine ⟨⟨_, rfl⟩, nonneg_of_edgeList ⟨_, rfl⟩ (by decide +kernel), fun a b d hd => ?_, ?_⟩
  · have hb : overG.Built := ⟨_, rfl⟩
    have : ∀ e ∈ overG.edgeList, double e.2.2 = e.2.2 := by decide +kernel
    have h1 := this _ (hb.inv.mem_edgeList.2 hd)
    dsimp only at h1
    rw [← h1]
    exact double_isDouble _
  · obtain ⟨f, h1, h2⟩ := overG_eval
    exact ⟨f, _, (2 ^ 53 - 1 : Rat), h1, h2, by decide +kernel, by decide +kernel⟩

/-- 0.1 directly and 0.2 over the node 3 -/
def tenthG : Graph Nat Rat Nat := run [W 1 2 (double (1/10)), W 1 3 (double (1/5)), W 3 2 (double (1/5)), W 2 4 1]

/-- the answer for `tenthG` -/
theorem tenthG_eval : ∃ t f, tenthG.maximumFlowFp double (flTotal double) 1 4 = some (.ok (t, f)) ∧
    f.edge 1 2 = some (double (1/10)) ∧ f.edge 3 2 = some (double (1/5)) ∧ f.edge 2 4 = some t ∧ t = double (double (1/10) + double (1/5)) := by
  have h : (runFuelD (mfStepFpF double 60 tenthG 1 4) 60
      ⟨tenthG.mfInvertedFl double, Graph.empty, Graph.empty, tenthG.mfBoundFp (flTotal double) 1 4, 0⟩).map
      (fun r => match r with
        | .ok (t, f) => decide (f.edge 1 2 = some (double (1/10)) ∧ f.edge 3 2 = some (double (1/5)) ∧ f.edge 2 4 = some t ∧ t = double (double (1/10) + double (1/5)))
        | .error _ => false) = some true := by decide +kernel
  match h2 : runFuelD (mfStepFpF double 60 tenthG 1 4) 60
      ⟨tenthG.mfInvertedFl double, Graph.empty, Graph.empty, tenthG.mfBoundFp (flTotal double) 1 4, 0⟩ with
  | none => rw [h2] at h; cases h
  | some (.error e) => rw [h2] at h; cases h
  | some (.ok (t, f)) =>
    rw [h2] at h
    simp only [Option.map_some, Option.some.injEq, decide_eq_true_eq] at h
    exact ⟨t, f, mfFp_eval 60 (by decide +kernel) (by decide +kernel) h2, h⟩

/-- **C138**, conservation: with `float`s more leaves the node 2 than enters it: `0.1 + 0.2` is less than `0.30000000000000004`. -/
theorem C138_conservation_counterexample : tenthG.Built ∧ NonNeg tenthG.edge ∧ (∀ a b d, tenthG.edge a b = some d → IsDouble d) ∧
    ∃ t f x y z, tenthG.maximumFlowFp double (flTotal double) 1 4 = some (.ok (t, f)) ∧ f.edge 1 2 = some x ∧ f.edge 3 2 = some y ∧ f.edge 2 4 = some z ∧ x + y < z := by
  refine ⟨⟨_, rfl⟩, nonneg_of_edgeList ⟨_, rfl⟩ (by decide +kernel), fun a b d hd => ?_, ?_⟩
  · have hb : tenthG.Built := ⟨_, rfl⟩
    have : ∀ e ∈ tenthG.edgeList, double e.2.2 = e.2.2 := by decide +kernel
    have h1 := this _ (hb.inv.mem_edgeList.2 hd)
    dsimp only at h1
    rw [← h1]
    exact double_isDouble _
  · obtain ⟨t, f, h1, h2, h3, h4, rfl⟩ := tenthG_eval
    exact ⟨_, f, _, _, _, h1, h2, h3, h4, by decide +kernel⟩

/-- the hypotheses of `C138_maximum_flow_float`, `C138_accuracy` and `C138_cuts` are met by Python's `float` -/
example : Rounding double ∧ RelErr double (pow2 (-53)) ∧ Sterbenz double ∧ (0 : Rat) ≤ pow2 (-53) ∧ pow2 (-53) ≤ 1 / 4 ∧ SumLike (flTotal double) ∧
    tenthG.Built ∧ NonNeg tenthG.edge ∧ (∀ a b d, tenthG.edge a b = some d → double d = d) ∧ (1 : Nat) ≠ 4 ∧ tenthG.has 1 = true ∧ tenthG.has 4 = true ∧
    ∃ S : Nat → Bool, S 1 = true ∧ S 4 = false :=
  ⟨double_rounding, double_relErr, double_sterbenz, by decide +kernel, by decide +kernel, flTotal_like double_rounding double_relErr (by decide +kernel),
    ⟨_, rfl⟩, nonneg_of_edgeList ⟨_, rfl⟩ (by decide +kernel), fun a b d hd => double_exact (C138_conservation_counterexample.2.2.1 a b d hd), by decide,
    by decide +kernel, by decide +kernel, fun n => n == 1, rfl, rfl⟩

/-- the hypotheses of `C138_integers` -/
example : ∃ g : Graph Nat Rat Nat, g.Built ∧ ExactUpTo double (2 ^ 53) ∧ SumExactUpTo (flTotal double) (2 ^ 53) ∧
    (∀ a b d, g.edge a b = some d → ∃ z : Nat, d = (z : Rat) ∧ z ≤ 2 ^ 53) ∧ (1 : Nat) ≠ 3 ∧
    sumL g.nodeList (fun y => capOf g.edge 1 y) ≤ ((2 ^ 53 : Nat) : Rat) ∧ sumL g.nodeList (fun y => capOf g.edge y 3) ≤ ((2 ^ 53 : Nat) : Rat) := by
  refine ⟨run [W 1 3 4, W 1 2 1, W 2 3 2], ⟨_, rfl⟩, double_exactUpTo, flTotal_exactUpTo double_exactUpTo, fun a b d hd => ?_, by decide, by decide +kernel, by decide +kernel⟩
  have hb : (run [W 1 3 4, W 1 2 1, W 2 3 2] : Graph Nat Rat Nat).Built := ⟨_, rfl⟩
  have : ∀ e ∈ (run [W 1 3 4, W 1 2 1, W 2 3 2] : Graph Nat Rat Nat).edgeList, e.2.2 = ((e.2.2.num.toNat : Nat) : Rat) ∧ e.2.2.num.toNat ≤ 2 ^ 53 := by decide +kernel
  exact ⟨_, this _ (hb.inv.mem_edgeList.2 hd)⟩

end GT

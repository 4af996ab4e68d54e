import Verif.Flow.MinCutFp
import Verif.Props.FlowInt
import Verif.Props.FlowFp
/-
Property theorems C140: `maximum_flow_min_cut` on floating point capacities.
-/
namespace GT
open Graph
variable {α O : Type} [DecidableEq α]

/-- **C140**. On float capacities `maximum_flow_min_cut` returns, nothing if the total of `maximum_flow` is 0; otherwise every returned edge `(a, b)` leaves a node all of whose outgoing recorded flows are exactly
equal to their capacities and which the flow reaches in at most as many steps as `end`; and every such edge is returned if the flow reaches `a` in fewer steps than `end`. -/
theorem C140_min_cut_float {fl : Rat → Rat} {ε : Rat} (hfl : Rounding fl) (he : RelErr fl ε) (hst : Sterbenz fl) (hz : ∀ x, fl x = 0 ↔ x = 0) (he0 : 0 ≤ ε) (he1 : ε ≤ 1 / 4)
    {sum : List Rat → Rat} (hsum : SumLike sum) {g : Graph α Rat O} (hg : g.Built) (hc : NonNeg g.edge)
    (hfix : ∀ a b d, g.edge a b = some d → fl d = d) {start fin : α} (hne : start ≠ fin) (hs : g.has start = true) (hf : g.has fin = true) :
    ∃ total f cut, g.maximumFlowFp fl sum start fin = some (.ok (total, f)) ∧ g.maxFlowMinCutFp fl sum start fin = some (.ok cut) ∧
      cut.Nodup ∧ (total = 0 → cut = []) ∧
      (∀ a b, (a, b) ∈ cut → FullExit g.edge f.edge a b ∧ ∃ n, HopDist f.Adj start a n ∧ ∀ m, Steps f.Adj m start fin → n ≤ m) ∧
      (total ≠ 0 → ∀ a b n, FullExit g.edge f.edge a b → Steps f.Adj n start a → (∀ m, Steps f.Adj m start fin → n < m) →
        (a, b) ∈ cut) := by
  obtain ⟨total, f, cut, h1, h2, h0, h3⟩ := maxFlowMinCutFp_main hfl he hst hz he0 he1 hsum hg.inv hc hfix hne hs hf
  by_cases ht : total = 0
  · have := h0 ht
    subst this
    exact ⟨_, _, _, h1, h2, List.nodup_nil, fun _ => rfl, (fun a b h => nomatch h), fun h => absurd ht h⟩
  · obtain ⟨hfi, hfs, hff, walk, h4, h5⟩ := h3 ht
    obtain ⟨h6, h7⟩ := minCut_members_of hfi hfs hff h4 h5
    exact ⟨_, _, _, h1, h2, h5.nodup, fun h => absurd h ht, h6, fun _ => h7⟩

/-- **C140**: an edge that `maximum_flow` has filled beyond its capacity is not returned, nor is any other edge that leaves its first node. -/
theorem C140_overfull {fl : Rat → Rat} {ε : Rat} (hfl : Rounding fl) (he : RelErr fl ε) (hst : Sterbenz fl) (hz : ∀ x, fl x = 0 ↔ x = 0) (he0 : 0 ≤ ε) (he1 : ε ≤ 1 / 4)
    {sum : List Rat → Rat} (hsum : SumLike sum) {g : Graph α Rat O} (hg : g.Built) (hc : NonNeg g.edge)
    (hfix : ∀ a b d, g.edge a b = some d → fl d = d) {start fin : α} (hne : start ≠ fin) (hs : g.has start = true) (hf : g.has fin = true)
    {total : Rat} {f : Graph α Rat O} {cut : List (α × α)} (h1 : g.maximumFlowFp fl sum start fin = some (.ok (total, f))) (h2 : g.maxFlowMinCutFp fl sum start fin = some (.ok cut))
    {a b : α} {c v : Rat} (hcap : g.edge a b = some c) (hv : f.edge a b = some v) (hlt : c < v) : ∀ y, (a, y) ∉ cut := by
  obtain ⟨t, f', cut', k1, k2, _, _, k3, _⟩ := C140_min_cut_float hfl he hst hz he0 he1 hsum hg hc hfix hne hs hf
  rw [h1] at k1; cases k1
  rw [h2] at k2; cases k2
  intro y hy
  have := (k3 a y hy).1.2 b v hv
  rw [hcap] at this; cases this
  exact absurd hlt (by grind)

/-- **C140**, a certificate: when edges, such as the returned ones, separate `start` from `end`, the total of `maximum_flow` is not larger than their capacity, up to rounding errors. -/
theorem C140_certificate {fl : Rat → Rat} {ε : Rat} (hfl : Rounding fl) (he : RelErr fl ε) (hst : Sterbenz fl) (he0 : 0 ≤ ε) (he1 : ε ≤ 1 / 4)
    {sum : List Rat → Rat} (hsum : SumLike sum) {g : Graph α Rat O} (hg : g.Built) (hc : NonNeg g.edge)
    (hfix : ∀ a b d, g.edge a b = some d → fl d = d) {start fin : α} (hne : start ≠ fin) (hs : g.has start = true) (hf : g.has fin = true) :
    ∃ total f, g.maximumFlowFp fl sum start fin = some (.ok (total, f)) ∧ ∀ E : List (α × α), Separates g.edge start fin E →
      (1 - ε) ^ (2 * g.edgeList.length) * total ≤ (1 + ε) ^ (2 * g.edgeList.length + 2) * sumL E (fun e => capOf g.edge e.1 e.2) := by
  obtain ⟨total, f, F, val, hr, h1, h2, h3, h4⟩ := C138_accuracy hfl he hst he0 he1 hsum hg hc hfix hne hs hf
  refine ⟨total, f, hr, fun E hE => ?_⟩
  have hnn : NonNeg (fun a b => (g.edge a b).map ((1 + ε) ^ 2 * ·)) := by
    intro a b c hcc
    dsimp only at hcc
    cases hab : g.edge a b with
    | none => rw [hab] at hcc; cases hcc
    | some d =>
      rw [hab] at hcc; cases hcc
      exact Rat.mul_nonneg (Rat.pow_nonneg (by grind)) (hc _ _ _ hab)
  have hE' : Separates (fun a b => (g.edge a b).map ((1 + ε) ^ 2 * ·)) start fin E := by
    unfold Separates at hE ⊢
    simpa using hE
  have h5 := h1.le_separating hg.inv.nodesWF hnn (has_iff.1 hs) hE'
  have hcap : ∀ e : α × α, capOf (fun a b => (g.edge a b).map ((1 + ε) ^ 2 * ·)) e.1 e.2 = (1 + ε) ^ 2 * capOf g.edge e.1 e.2 := by
    intro e
    unfold capOf
    show ((g.edge e.1 e.2).map ((1 + ε) ^ 2 * ·)).getD 0 = (1 + ε) ^ 2 * (g.edge e.1 e.2).getD 0
    cases g.edge e.1 e.2 with
    | none => simp [Rat.mul_zero]
    | some d => rfl
  rw [sumL_congr (fun e _ => hcap e), sumL_mul] at h5
  have hQ := one_le_pow' (x := 1 + ε) (by grind) (2 * g.edgeList.length)
  refine Rat.le_trans h4 ?_
  have h6 := Rat.mul_le_mul_of_nonneg_left h5 (show 0 ≤ (1 + ε) ^ (2 * g.edgeList.length) by grind)
  have h7 : (1 + ε) ^ (2 * g.edgeList.length + 2) = (1 + ε) ^ (2 * g.edgeList.length) * (1 + ε) ^ 2 := by
    rw [show (1 + ε) ^ 2 = (1 + ε) * (1 + ε) by grind, show 2 * g.edgeList.length + 2 = 2 * g.edgeList.length + 1 + 1 from rfl, Rat.pow_succ, Rat.pow_succ]
    grind
  rw [h7, Rat.mul_assoc]
  exact h6

theorem double_eq_zero (x : Rat) : double x = 0 ↔ x = 0 := by
  constructor
  · intro h
    have pos : ∀ y, 0 < y → double y ≠ 0 := fun y hy => by
      have := fl_pos double_relErr (by decide +kernel) hy
      grind
    by_cases h1 : 0 < x
    · exact absurd h (pos x h1)
    · by_cases h2 : 0 < -x
      · have := pos _ h2
        rw [double_neg, h] at this
        exact absurd (by grind) this
      · grind
  · rintro rfl; rfl

/-- **C140** for Python's `float`: the hypothesis on differences holds -/
theorem C140_doubles : Rounding double ∧ RelErr double (pow2 (-53)) ∧ Sterbenz double ∧ (∀ x, double x = 0 ↔ x = 0) ∧ (0 : Rat) ≤ pow2 (-53) ∧ pow2 (-53) ≤ 1 / 4 ∧ SumLike (flTotal double) :=
  ⟨double_rounding, double_relErr, double_sterbenz, double_eq_zero, by decide +kernel, by decide +kernel, flTotal_like double_rounding double_relErr (by decide +kernel)⟩

/-- `maximum_flow_min_cut` depends on the rounding through the flow only -/
theorem mcTailFp_congr {fl : Rat → Rat} (hz : ∀ x, fl x = 0 ↔ x = 0) (g f : Graph α Rat O) (start fin : α) : g.mcTailFp fl f start fin = g.mcTailFp id f start fin := by
  unfold mcTailFp
  simp only [mcEdgeFp_eq hz, mcEdgeFp_eq (fl := id) (fun x => Iff.rfl)]

theorem maxFlowMinCutFl_tail (fl : Rat → Rat) (g : Graph α Rat O) (start fin : α) :
    g.maxFlowMinCutFl fl start fin = if !g.has start then some (.error .valueError) else if !g.has fin then some (.error .valueError)
      else match g.maximumFlowFl fl start fin with
        | none => none
        | some (.error e) => some (.error e)
        | some (.ok (flow, mfg)) => if flow = 0 then some (.ok []) else g.mcTailFp id mfg start fin := by
  unfold maxFlowMinCutFl mcTailFp
  simp only [mcEdgeFp_eq (fl := id) (fun x => Iff.rfl)]
  rfl

/-- **C140** on integers: if nothing exceeds the largest integer up to which the arithmetic is exact, the answer is that of C98 -/
theorem C140_integers {fl : Rat → Rat} (hfl : Rounding fl) (hz : ∀ x, fl x = 0 ↔ x = 0) {N : Nat} (hN : ExactUpTo fl N) {sum : List Rat → Rat} (hsum : SumExactUpTo sum N)
    {g : Graph α Rat O} (hg : g.Built) (hint : ∀ a b d, g.edge a b = some d → ∃ z : Nat, d = (z : Rat) ∧ z ≤ N) {start fin : α} (hne : start ≠ fin)
    (hout : sumL g.nodeList (fun y => capOf g.edge start y) ≤ (N : Rat)) (hin : sumL g.nodeList (fun y => capOf g.edge y fin) ≤ (N : Rat)) :
    g.maxFlowMinCutFp fl sum start fin = g.maxFlowMinCutFl fl start fin := by
  rw [maxFlowMinCutFl_tail]
  unfold maxFlowMinCutFp
  rw [C138_integers hfl hN hsum hg hint hne hout hin]
  simp only [mcTailFp_congr hz]
  rfl

/-- **C140**, without rounding it is the function of C40 -/
theorem C140_exact (g : Graph α Rat O) (start fin : α) : g.maxFlowMinCutFp id List.sum start fin = g.maxFlowMinCut start fin := by
  rw [← C98_min_cut_exact, maxFlowMinCutFl_tail, maxFlowMinCutFp, C138_exact, C98_exact]
  rfl

/-- **C140**, errors: a node that is not in the graph raises `ValueError` -/
theorem C140_errors (fl : Rat → Rat) (sum : List Rat → Rat) {g : Graph α Rat O} {start fin : α} (h : ¬ (g.has start = true ∧ g.has fin = true)) :
    g.maxFlowMinCutFp fl sum start fin = some (.error .valueError) := by
  unfold maxFlowMinCutFp
  cases hs : g.has start with
  | false => rfl
  | true =>
    cases hf : g.has fin with
    | false => rfl
    | true => exact absurd ⟨hs, hf⟩ h

theorem overG_exits : ∃ f, overG.maximumFlowFp double (flTotal double) 1 4 = some (.ok ((2 ^ 53 : Rat), f)) ∧
    ∀ e ∈ overG.edgeList, ∃ e' ∈ overG.edgeList, e'.1 = e.1 ∧ (f.edge e.1 e'.2.1).isSome = true ∧ f.edge e.1 e'.2.1 ≠ some e'.2.2 := by
  have h : (runFuelD (mfStepFpF double 60 overG 1 4) 60
      ⟨overG.mfInvertedFl double, Graph.empty, Graph.empty, overG.mfBoundFp (flTotal double) 1 4, 0⟩).map
      (fun r => match r with
        | .ok (t, f) => decide (t = (2 ^ 53 : Rat) ∧
            ∀ e ∈ overG.edgeList, ∃ e' ∈ overG.edgeList, e'.1 = e.1 ∧ (f.edge e.1 e'.2.1).isSome = true ∧ f.edge e.1 e'.2.1 ≠ some e'.2.2)
        | .error _ => false) = some true := by decide +kernel
  match h2 : runFuelD (mfStepFpF double 60 overG 1 4) 60
      ⟨overG.mfInvertedFl double, Graph.empty, Graph.empty, overG.mfBoundFp (flTotal double) 1 4, 0⟩ with
  | none => rw [h2] at h; cases h
  | some (.error e) => rw [h2] at h; cases h
  | some (.ok (t, f)) =>
    rw [h2] at h
    simp only [Option.map_some, Option.some.injEq, decide_eq_true_eq] at h
    obtain ⟨rfl, h3⟩ := h
    exact ⟨f, mfFp_eval 60 (by decide +kernel) (by decide +kernel) h2, h3⟩

/-- **C140**: on floats the answer can be empty although there is flow and one edge is the minimum cut: the edge from 2 to 3 with capacity `2^53 - 1` carries `2^53`, and the difference is not 0. -/
theorem C140_missed_cut_counterexample : overG.Built ∧ NonNeg overG.edge ∧ (∀ a b d, overG.edge a b = some d → IsDouble d) ∧
    overG.maxFlowMinCutFp double (flTotal double) 1 4 = some (.ok []) ∧ WalkFT overG.Adj 1 4 [1, 2, 3, 4] ∧ Separates overG.edge 1 4 [(2, 3)] := by
  obtain ⟨hb, hc, hd, _⟩ := C138_capacity_counterexample
  refine ⟨hb, hc, hd, ?_, by refine ⟨?_, rfl, rfl⟩; simp only [Consec]; decide +kernel, ?_⟩
  · obtain ⟨f, h1, h2⟩ := overG_exits
    obtain ⟨t, f', cut, k1, k2, _, _, k3, _⟩ := C140_min_cut_float double_rounding double_relErr double_sterbenz double_eq_zero (by decide +kernel) (by decide +kernel)
      (flTotal_like double_rounding double_relErr (by decide +kernel)) hb hc (fun a b d h => double_exact (hd a b d h)) (start := 1) (fin := 4) (by decide) (by decide +kernel) (by decide +kernel)
    rw [h1] at k1; cases k1
    rw [k2]
    cases cut with
    | nil => rfl
    | cons e l =>
      exfalso
      obtain ⟨a, b⟩ := e
      obtain ⟨⟨⟨d, h3, _⟩, h4⟩, _⟩ := k3 a b (by simp)
      obtain ⟨e', h5, h6, h7, h8⟩ := h2 _ (hb.inv.mem_edgeList.2 h3)
      dsimp only at h6 h7 h8
      obtain ⟨v, hv⟩ := Option.isSome_iff_exists.1 h7
      have h9 := h4 _ _ hv
      have h10 := hb.inv.mem_edgeList.1 h5
      rw [h6, h9] at h10
      cases h10
      exact h8 hv
  · rintro ⟨n, hn⟩
    have hedge : ∀ e ∈ overG.edgeList, (e.1, e.2.1) ∉ [((2 : Nat), 3)] → e.1 ∉ [3, 4] → e.2.1 ∉ [3, 4] := by decide +kernel
    have key : ∀ n s x, Steps (fun a b => (overG.edge a b).isSome = true ∧ (a, b) ∉ [(2, 3)]) n s x → s ∉ [3, 4] → x ∉ [3, 4] := by
      intro n
      induction n with
      | zero => intro s x hx h1; cases hx; exact h1
      | succ n ih =>
        intro s x hx h1
        cases hx with | succ h2 h34 =>
        obtain ⟨h3, h4⟩ := h34
        obtain ⟨w, hw⟩ := Option.isSome_iff_exists.1 h3
        exact hedge _ (hb.inv.mem_edgeList.2 hw) h4 (ih _ _ h2 h1)
    exact key n 1 4 hn (by decide) (by decide)

/-- the hypotheses of `C140_min_cut_float` and `C140_overfull` are met by `overG`, whose edge from 2 to 3 is overfull -/
example : overG.Built ∧ NonNeg overG.edge ∧ (∀ a b d, overG.edge a b = some d → double d = d) ∧ (1 : Nat) ≠ 4 ∧ overG.has 1 = true ∧ overG.has 4 = true ∧
    (∃ f v c, overG.maximumFlowFp double (flTotal double) 1 4 = some (.ok ((2 ^ 53 : Rat), f)) ∧ f.edge 2 3 = some v ∧ overG.edge 2 3 = some c ∧ c < v) :=
  ⟨⟨_, rfl⟩, C138_capacity_counterexample.2.1, fun a b d hd => double_exact (C138_capacity_counterexample.2.2.1 a b d hd), by decide, by decide +kernel, by decide +kernel,
    C138_capacity_counterexample.2.2.2⟩

/-- the hypotheses of `C140_integers` -/
example : ∃ g : Graph Nat Rat Nat, g.Built ∧ (∀ x, double x = 0 ↔ x = 0) ∧ ExactUpTo double (2 ^ 53) ∧ SumExactUpTo (flTotal double) (2 ^ 53) ∧
    (∀ a b d, g.edge a b = some d → ∃ z : Nat, d = (z : Rat) ∧ z ≤ 2 ^ 53) ∧ (1 : Nat) ≠ 3 ∧
    sumL g.nodeList (fun y => capOf g.edge 1 y) ≤ ((2 ^ 53 : Nat) : Rat) ∧ sumL g.nodeList (fun y => capOf g.edge y 3) ≤ ((2 ^ 53 : Nat) : Rat) := by
  refine ⟨run [W 1 3 4, W 1 2 1, W 2 3 2], ⟨_, rfl⟩, double_eq_zero, double_exactUpTo, flTotal_exactUpTo double_exactUpTo, fun a b d hd => ?_, by decide, by decide +kernel, by decide +kernel⟩
  have hb : (run [W 1 3 4, W 1 2 1, W 2 3 2] : Graph Nat Rat Nat).Built := ⟨_, rfl⟩
  have : ∀ e ∈ (run [W 1 3 4, W 1 2 1, W 2 3 2] : Graph Nat Rat Nat).edgeList, e.2.2 = ((e.2.2.num.toNat : Nat) : Rat) ∧ e.2.2.num.toNat ≤ 2 ^ 53 := by decide +kernel
  exact ⟨_, this _ (hb.inv.mem_edgeList.2 hd)⟩

end GT

import Verif.Dag.CpmAcc
import Verif.Props.Round
/-
Property theorems C109, C110: `critical_path` in rounded (floating point) arithmetic.
-/
namespace GT
open Graph
variable {α V O : Type} [DecidableEq α]

/-! ### C109 -/

/-- **C109**. Whatever the rounding, on a DAG with non-negative durations `critical_path` returns a length `cpl` and a schedule `d`:
* `earliest_start` is the largest computed total of a chain of tasks that must precede the task, `cpl` that of any chain;
* `latest_finish` is the smallest result of subtracting from `cpl` the durations of a chain that must follow the task;
* finish and start differ by the duration, rounded;
* both schedules respect every dependency, and no task starts before 0 or finishes after `cpl`;
* unless the graph is empty, some task finishes at `cpl` in both schedules. -/
theorem C109_critical_path_rounded {fl : Rat → Rat} (hfl : Rounding fl) {g : Graph α V O} (hg : g.Built) (hA : Acyclic g.Adj)
    {srt : List α → List α} (hs : ∀ l, (srt l).Perm l) {num : O → Option Rat} {dur : α → Rat}
    (hdur : ∀ x, g.has x = true → (g.node x).bind num = some (dur x)) (hpos : ∀ x, g.has x = true → 0 ≤ dur x) :
    ∃ cpl d, g.criticalPathFl fl num srt = some (.ok (cpl, d)) ∧ (∀ x, x ∈ d.keys ↔ g.has x = true) ∧
      (∀ x t, d.get? x = some t →
        t.duration = dur x ∧
        LargestOn (flDur fl dur 0) (fun p => Consec g.Adj (p ++ [x])) t.earliestStart ∧
        t.earliestFinish = fl (t.earliestStart + dur x) ∧
        SmallestOn (flBack fl dur cpl) (fun p => Consec g.Adj (x :: p)) t.latestFinish ∧
        t.latestStart = fl (t.latestFinish - dur x) ∧
        t.slackFl fl = fl (t.latestFinish - t.earliestFinish) ∧
        0 ≤ t.earliestStart ∧ t.earliestFinish ≤ cpl ∧ t.latestFinish ≤ cpl) ∧
      LargestOn (flDur fl dur 0) (fun p => Consec g.Adj p ∧ ∀ x ∈ p, g.has x = true) cpl ∧
      (∀ a b ta tb, g.Adj a b → d.get? a = some ta → d.get? b = some tb →
        ta.earliestFinish ≤ tb.earliestStart ∧ ta.latestFinish ≤ tb.latestStart) ∧
      ((∃ x, g.has x = true) → ∃ x t, d.get? x = some t ∧ t.earliestFinish = cpl ∧ t.latestFinish = cpl) := by
  have h := hg.inv
  obtain ⟨cpl, d, h1, h2⟩ := (criticalPathFl_eqs (fl := fl) h hs num hA).1 (fun x hx => by rw [hdur x hx]; rfl)
  have hde : ∀ x, g.has x = true → g.dur num x = dur x := fun x hx => by
    unfold Graph.dur; rw [hdur x hx]; rfl
  have hd : ∀ x, g.has x = true → 0 ≤ g.dur num x := fun x hx => by rw [hde x hx]; exact hpos x hx
  have hkey : ∀ x t, d.get? x = some t → g.has x = true := fun x t ht => (h2.keys x).1 (Dict.mem_keys_of_get? ht)
  have hF : ∀ p : List α, (∀ x ∈ p, g.has x = true) → ∀ acc, flDur fl dur acc p = flDur fl (g.dur num) acc p := by
    intro p
    induction p with
    | nil => intro _ acc; rfl
    | cons x p ih =>
      intro hp acc
      rw [flDur, flDur, hde x (hp x (by simp))]
      exact ih (fun y hy => hp y (List.mem_cons_of_mem _ hy)) _
  have hB : ∀ p : List α, (∀ x ∈ p, g.has x = true) → flBack fl dur cpl p = flBack fl (g.dur num) cpl p := by
    intro p
    induction p with
    | nil => intro _; rfl
    | cons x p ih =>
      intro hp
      rw [flBack, flBack, hde x (hp x (by simp)), ih (fun y hy => hp y (List.mem_cons_of_mem _ hy))]
  refine ⟨cpl, d, h1, h2.keys, ?_, ?_, ?_, fun hne => h2.zero_slack hfl hA h hd hne⟩
  · intro x t ht
    have hx := hkey x t ht
    have hdx : t.duration = dur x := by rw [← h2.dur_eq ht, hde x hx]
    have pre : ∀ p, Consec g.Adj (p ++ [x]) → ∀ y ∈ p, g.has y = true := fun p hp y hy =>
      (chain_length hA h hp (x := x) (by simp) hx).2 y (by simp [hy])
    have post : ∀ p, Consec g.Adj (x :: p) → ∀ y ∈ p, g.has y = true := fun p hp y hy =>
      (chain_length hA h hp (x := x) (by simp) hx).2 y (by simp [hy])
    refine ⟨hdx, ⟨?_, ?_⟩, by rw [← hdx]; exact (h2.fwd x t ht).ef, ⟨?_, ?_⟩, by rw [← hdx]; exact (h2.bwd x t ht).ls, rfl,
      h2.es_nonneg hfl hA h hd ht, h2.cge.2 x t ht, h2.lf_le hfl hA h hd x t ht⟩
    · obtain ⟨p, h3, h4⟩ := h2.es_att hA h x t ht
      exact ⟨p, h3, by rw [hF p (pre p h3), h4]⟩
    · intro p hp
      rw [hF p (pre p hp)]
      exact h2.es_ub hfl hA h hd p x t ht hp
    · obtain ⟨p, h3, h4⟩ := h2.lf_att hA h x t ht
      exact ⟨p, h3, by rw [hB p (post p h3), h4]⟩
    · intro p hp
      rw [hB p (post p hp)]
      exact h2.lf_ub hfl hA h hd p x t ht hp
  · obtain ⟨⟨p, h3, h4⟩, h5⟩ := h2.cpl_longest hfl hA h hd
    exact ⟨⟨p, h3, by rw [hF p h3.2, h4]⟩, fun q hq => by rw [hF q hq.2]; exact h5 q hq⟩
  · intro a b ta tb hab ha hb
    obtain ⟨ta', h3, h4⟩ := (h2.fwd b tb hb).ge a hab
    obtain ⟨tb', h5, h6⟩ := (h2.bwd a ta ha).le b hab
    rw [ha] at h3; rw [hb] at h5
    cases h3; cases h5
    exact ⟨h4, h6⟩

/-- **C109**, errors: rounding does not change when `critical_path` raises, and what. -/
theorem C109_errors (fl : Rat → Rat) {g : Graph α V O} (hg : g.Built) {srt : List α → List α}
    (hs : ∀ l, (srt l).Perm l) (num : O → Option Rat) :
    (¬ Acyclic g.Adj → g.criticalPathFl fl num srt = some (.error .attributeError)) ∧
    (Acyclic g.Adj → (∃ x, g.has x = true ∧ (g.node x).bind num = none) →
      g.criticalPathFl fl num srt = some (.error .valueError)) ∧
    (Acyclic g.Adj → (¬ ∃ x, g.has x = true ∧ (g.node x).bind num = none) →
      ∃ r, g.criticalPathFl fl num srt = some (.ok r)) := by
  have h := hg.inv
  refine ⟨fun hA => ?_, fun hA hx => ?_, fun hA hx => ?_⟩
  · unfold criticalPathFl; rw [(topoList_spec h hs).2 hA]
  · refine (criticalPathFl_eqs h hs num hA).2 (fun hall => ?_)
    obtain ⟨x, hx, hn⟩ := hx
    have := hall x hx
    rw [hn] at this; cases this
  · obtain ⟨cpl, d, h1, _⟩ := (criticalPathFl_eqs (fl := fl) h hs num hA).1 (fun x hx' => by
      rw [Option.isSome_iff_ne_none]; intro hn; exact hx ⟨x, hx', hn⟩)
    exact ⟨_, h1⟩

/-- **C109**, accuracy of Python's `float`: for `n ≤ 2^51` tasks every number that `critical_path` computes differs from the exact one (that of
C26) by at most `2 n 2^-52` times the exact length of the project; the length and the earliest schedule by half of that. -/
theorem C109_accuracy {g : Graph α V O} (hg : g.Built) (hA : Acyclic g.Adj)
    {srt : List α → List α} (hs : ∀ l, (srt l).Perm l) {num : O → Option Rat} {dur : α → Rat}
    (hdur : ∀ x, g.has x = true → (g.node x).bind num = some (dur x)) (hpos : ∀ x, g.has x = true → 0 ≤ dur x)
    (hn : g.nodeList.length ≤ 2 ^ 51) :
    ∃ cpl d cpl' d', g.criticalPath num srt = some (.ok (cpl, d)) ∧ g.criticalPathFl double num srt = some (.ok (cpl', d')) ∧
      (cpl' - cpl).abs ≤ (g.nodeList.length : Rat) * pow2 (-52) * cpl ∧
      ∀ x t t', d.get? x = some t → d'.get? x = some t' →
        (t'.earliestStart - t.earliestStart).abs ≤ (g.nodeList.length : Rat) * pow2 (-52) * cpl ∧
        (t'.earliestFinish - t.earliestFinish).abs ≤ (g.nodeList.length : Rat) * pow2 (-52) * cpl ∧
        (t'.latestStart - t.latestStart).abs ≤ 2 * (g.nodeList.length : Rat) * pow2 (-52) * cpl ∧
        (t'.latestFinish - t.latestFinish).abs ≤ 2 * (g.nodeList.length : Rat) * pow2 (-52) * cpl := by
  have h := hg.inv
  have hnum : ∀ x, g.has x = true → ((g.node x).bind num).isSome := fun x hx => by rw [hdur x hx]; rfl
  obtain ⟨cpl, d, h1, h2⟩ := (criticalPath_eqs h hs num hA).1 hnum
  obtain ⟨cpl', d', h1', h2'⟩ := (criticalPathFl_eqs (fl := double) h hs num hA).1 hnum
  have hd : ∀ x, g.has x = true → 0 ≤ g.dur num x := fun x hx => by
    unfold Graph.dur; rw [hdur x hx]; exact hpos x hx
  have hc := h2.cge.1
  have hn' : (g.nodeList.length : Rat) ≤ (2 ^ 51 : Nat) := by exact_mod_cast hn
  have hn0 : (0 : Rat) ≤ (g.nodeList.length : Rat) := by exact_mod_cast Nat.zero_le _
  have e53 : pow2 (-53) * (2 * cpl) = pow2 (-52) * cpl := by
    have : pow2 (-53) * 2 = pow2 (-52) := by decide +kernel
    rw [← this]; grind
  have hm : (g.nodeList.length : Rat) * (pow2 (-52) * cpl) ≤ ((2 ^ 51 : Nat) : Rat) * (pow2 (-52) * cpl) :=
    Rat.mul_le_mul_of_nonneg_right hn' (Rat.mul_nonneg (by decide +kernel) hc)
  have hm2 : 2 * (((2 ^ 51 : Nat) : Rat) * (pow2 (-52) * cpl)) = cpl := by
    have : 2 * (((2 ^ 51 : Nat) : Rat) * pow2 (-52)) = 1 := by decide +kernel
    grind
  obtain ⟨a1, a2⟩ := cpm_accuracy double_rounding hA h h2 h2' hd (B := 2 * cpl) (δ := pow2 (-53) * (2 * cpl))
    (Rat.mul_nonneg (by decide +kernel) (by grind)) (double_absErr (by grind)) (by rw [e53]; grind)
  rw [e53] at a1 a2
  have abs_le : ∀ {x b : Rat}, x ≤ b → -b ≤ x → x.abs ≤ b := by
    intro x b h1 h2; unfold Rat.abs; split <;> grind
  refine ⟨cpl, d, cpl', d', h1, h1', abs_le (by grind) (by grind), ?_⟩
  intro x t t' ht ht'
  obtain ⟨⟨b1, b2⟩, ⟨b3, b4⟩, ⟨b5, b6⟩, b7, b8⟩ := a2 x t t' ht ht'
  exact ⟨abs_le (by grind) (by grind), abs_le (by grind) (by grind), abs_le (by grind) (by grind), abs_le (by grind) (by grind)⟩

/-- **C109**, integers: if all durations are integers between 0 and `M`, and `M` times the number of tasks is at most `2^53`, `critical_path`
with `float`s gives the exact answer. -/
theorem C109_integers {g : Graph α V O} (hg : g.Built) {num : O → Option Rat} {M : Nat}
    (hd : ∀ x v, (g.node x).bind num = some v → ∃ z : Nat, v = (z : Rat) ∧ z ≤ M) (hM : g.nodeList.length * M ≤ 2 ^ 53)
    {srt : List α → List α} (hs : ∀ l, (srt l).Perm l) : g.criticalPathFl double num srt = g.criticalPath num srt :=
  criticalPathFl_int hg.inv double_exactBetween hd hM hs

/-- **C109**, without rounding this is the function of C26 -/
theorem C109_exact (g : Graph α V O) (num : O → Option Rat) (srt : List α → List α) :
    g.criticalPathFl id num srt = g.criticalPath num srt := criticalPath_eq_fl num srt g

/-- tasks of given durations -/
def R (n : Nat) (d : Rat) : Op Nat Nat Rat := .addNode n (some d)

/-- a dependency -/
def D (a b : Nat) : Op Nat Nat Rat := .addEdge a b (.scalar 1) false

/-- a project of 0.1, then 0.2, as `float`s; and a task of 0.05 beside them -/
def tenthsPos : Graph Nat Nat Rat := run [R 1 (double (1/10)), R 2 (double (2/10)), R 3 (double (1/20)), D 1 2, D 3 2]

/-- a project of 0.1, then 0.4, as `float`s -/
def tenthsNeg : Graph Nat Nat Rat := run [R 1 (double (1/10)), R 2 (double (4/10)), D 1 2]

theorem cpFl_eval {fl : Rat → Rat} (n : Nat) {num : O → Option Rat} {srt : List α → List α} {g : Graph α V O} {order : List α}
    {d d' : Dict α Task} {cpl : Rat}
    (h : runFuel (topoStep srt) n (g.copy, srt (g.copy.nodesInDeg 0), []) = some (order, none))
    (hf : cpForwardFl fl num g order (.empty, 0) = .ok (d, cpl)) (hb : cpBackwardFl fl g cpl order.reverse d = .ok d') :
    g.criticalPathFl fl num srt = some (.ok (cpl, d')) := by
  unfold criticalPathFl topoList topologicalSort
  simp only [pyWhile_of_runFuel h, hf, hb]

/-- the numbers of `tenthsPos` -/
theorem tenthsPos_eval : ∃ d, tenthsPos.criticalPathFl double some natSrt = some (.ok (double (30000000000000004 / 100000000000000000), d)) ∧
    (d.get? 1).map (Task.slackFl double) = some (pow2 (-55)) ∧ (d.get? 2).map (Task.slackFl double) = some 0 := by
  have h : (match cpForwardFl double some tenthsPos [1, 3, 2] (.empty, 0) with
    | .ok (d, cpl) => match cpBackwardFl double tenthsPos cpl [2, 3, 1] d with
      | .ok d' => decide (cpl = double (30000000000000004 / 100000000000000000)) &&
          decide ((d'.get? 1).map (Task.slackFl double) = some (pow2 (-55))) &&
          decide ((d'.get? 2).map (Task.slackFl double) = some 0)
      | _ => false
    | _ => false) = true := by decide +kernel
  split at h
  · rename_i d cpl hf
    split at h
    · rename_i d' hb
      simp only [Bool.and_eq_true, decide_eq_true_eq] at h
      refine ⟨d', ?_, h.1.2, h.2⟩
      rw [← h.1.1]
      exact cpFl_eval 20 (order := [1, 3, 2]) (by decide +kernel) hf hb
    · cases h
  · cases h

/-- the numbers of `tenthsNeg` -/
theorem tenthsNeg_eval : ∃ d, tenthsNeg.criticalPathFl double some natSrt = some (.ok (1/2, d)) ∧
    (d.get? 1).map (Task.slackFl double) = some (-pow2 (-55)) := by
  have h : (match cpForwardFl double some tenthsNeg [1, 2] (.empty, 0) with
    | .ok (d, cpl) => match cpBackwardFl double tenthsNeg cpl [2, 1] d with
      | .ok d' => decide (cpl = 1/2) &&
          decide ((d'.get? 1).map (Task.slackFl double) = some (-pow2 (-55)))
      | _ => false
    | _ => false) = true := by decide +kernel
  split at h
  · rename_i d cpl hf
    split at h
    · rename_i d' hb
      simp only [Bool.and_eq_true, decide_eq_true_eq] at h
      refine ⟨d', ?_, h.2⟩
      rw [← h.1]
      exact cpFl_eval 20 (order := [1, 2]) (by decide +kernel) hf hb
    · cases h
  · cases h

/-- the hypotheses of **C109** -/
example : Rounding double ∧ tenthsPos.Built ∧ Acyclic tenthsPos.Adj ∧ tenthsPos.nodeList.length ≤ 2 ^ 51 ∧
    (∀ x, tenthsPos.has x = true → (tenthsPos.node x).bind some = some (tenthsPos.dur some x)) ∧
    (∀ x, tenthsPos.has x = true → 0 ≤ tenthsPos.dur some x) ∧ ∃ r, tenthsPos.criticalPathFl double some natSrt = some (.ok r) := by
  obtain ⟨h1, h2⟩ := numeric_of_nodeList (g := tenthsPos) (num := some) (dur := tenthsPos.dur some) (by decide +kernel)
  obtain ⟨d, h3, _⟩ := tenthsPos_eval
  exact ⟨double_rounding, ⟨_, rfl⟩, acyclic_of_edgeList ⟨_, rfl⟩ (fun n => if n = 2 then 1 else 0) (by decide +kernel), by decide +kernel,
    h1, h2, _, h3⟩

/-- the docstring's project has integer durations up to 20 -/
example : project.criticalPathFl double natNum natSrt = project.criticalPath natNum natSrt := by
  refine C109_integers (g := project) (M := 20) ⟨_, rfl⟩ (fun x v hv => ?_) (by decide +kernel) natSrt_perm
  by_cases hx : x ∈ project.nodeList
  · have h1 : ∀ x ∈ project.nodeList, ∀ o, project.node x = some o → o ≤ 20 := by decide +kernel
    cases ho : project.node x with
    | none => rw [ho] at hv; cases hv
    | some o =>
      rw [ho] at hv
      have hv : some (o : Rat) = some v := hv
      exact ⟨o, (Option.some.inj hv).symm, h1 x hx o ho⟩
  · have : project.node x = none := by
      cases ho : project.node x with
      | none => rfl
      | some o =>
        have : project.has x = true := by
          have := hv; unfold Graph.node at ho
          cases h3 : project.nodes.get? x with
          | none => rw [h3] at ho; cases ho
          | some _ => exact has_iff.2 (Dict.mem_keys_of_get? h3)
        exact absurd (has_iff.1 this) hx
    rw [this] at hv; cases hv

/-! ### C110 -/

/-- **C110** (partial): `slack` in `float`s.  For `n ≤ 2^51` tasks the computed slack is within `(3 n + 1) 2^-52 cpl` of the exact slack, which
is never negative; and unless the graph is empty some task has the computed slack 0.
Missing from the claim: the computed slack may be negative, and positive for a task of the critical path (`C110_slack_sign`). -/
theorem C110_slack_partial {g : Graph α V O} (hg : g.Built) (hA : Acyclic g.Adj)
    {srt : List α → List α} (hs : ∀ l, (srt l).Perm l) {num : O → Option Rat} {dur : α → Rat}
    (hdur : ∀ x, g.has x = true → (g.node x).bind num = some (dur x)) (hpos : ∀ x, g.has x = true → 0 ≤ dur x)
    (hn : g.nodeList.length ≤ 2 ^ 51) :
    ∃ cpl d cpl' d', g.criticalPath num srt = some (.ok (cpl, d)) ∧ g.criticalPathFl double num srt = some (.ok (cpl', d')) ∧
      (∀ x t t', d.get? x = some t → d'.get? x = some t' → 0 ≤ t.slack ∧
        (t'.slackFl double - t.slack).abs ≤ (3 * (g.nodeList.length : Rat) + 1) * pow2 (-52) * cpl) ∧
      ((∃ x, g.has x = true) → ∃ x t', d'.get? x = some t' ∧ t'.slackFl double = 0) := by
  have h := hg.inv
  have hnum : ∀ x, g.has x = true → ((g.node x).bind num).isSome := fun x hx => by rw [hdur x hx]; rfl
  obtain ⟨cpl, d, h1, h2⟩ := (criticalPath_eqs h hs num hA).1 hnum
  obtain ⟨cpl', d', h1', h2'⟩ := (criticalPathFl_eqs (fl := double) h hs num hA).1 hnum
  have hd : ∀ x, g.has x = true → 0 ≤ g.dur num x := fun x hx => by
    unfold Graph.dur; rw [hdur x hx]; exact hpos x hx
  have hc := h2.cge.1
  have hn' : (g.nodeList.length : Rat) ≤ (2 ^ 51 : Nat) := by exact_mod_cast hn
  have hn0 : (0 : Rat) ≤ (g.nodeList.length : Rat) := by exact_mod_cast Nat.zero_le _
  have e53 : pow2 (-53) * (2 * cpl) = pow2 (-52) * cpl := by
    have : pow2 (-53) * 2 = pow2 (-52) := by decide +kernel
    rw [← this]; grind
  have hp := Rat.mul_nonneg (show (0 : Rat) ≤ pow2 (-52) by decide +kernel) hc
  have hm : (g.nodeList.length : Rat) * (pow2 (-52) * cpl) ≤ ((2 ^ 51 : Nat) : Rat) * (pow2 (-52) * cpl) :=
    Rat.mul_le_mul_of_nonneg_right hn' hp
  have hm0 : 0 ≤ (g.nodeList.length : Rat) * (pow2 (-52) * cpl) := Rat.mul_nonneg hn0 hp
  have hm2 : 2 * (((2 ^ 51 : Nat) : Rat) * (pow2 (-52) * cpl)) = cpl := by
    have : 2 * (((2 ^ 51 : Nat) : Rat) * pow2 (-52)) = 1 := by decide +kernel
    grind
  have herr : AbsErr double (2 * cpl) (pow2 (-52) * cpl) := e53 ▸ double_absErr (by grind)
  obtain ⟨a1, a2⟩ := cpm_accuracy double_rounding hA h h2 h2' hd (B := 2 * cpl) (δ := pow2 (-52) * cpl)
    hp herr (by grind)
  have abs_le : ∀ {x b : Rat}, x ≤ b → -b ≤ x → x.abs ≤ b := by
    intro x b h1 h2; unfold Rat.abs; split <;> grind
  refine ⟨cpl, d, cpl', d', h1, h1', ?_, fun hne => ?_⟩
  · intro x t t' ht ht'
    obtain ⟨⟨b1, b2⟩, ⟨b3, b4⟩, ⟨b5, b6⟩, b7, b8⟩ := a2 x t t' ht ht'
    have s1 := h2.slack_nonneg hA h ht
    have s2 := h2'.lf_le double_rounding hA h hd x t' ht'
    have s3 := h2'.es_nonneg double_rounding hA h hd ht'
    have s4 := h2'.cge.2 x t' ht'
    have s5 := h2.es_nonneg hA h hd ht
    have s6 := hd x ((h2.keys x).1 (Dict.mem_keys_of_get? ht))
    rw [h2.dur_eq ht] at s6
    have s7 := (h2.fwd x t ht).ef
    have s8 := h2.lf_le hA h hd ht
    obtain ⟨r1, r2⟩ := herr (t'.latestFinish - t'.earliestFinish) (by unfold Task.slack at s1; grind) (by grind)
    refine ⟨s1, ?_⟩
    unfold Task.slackFl Task.slack
    exact abs_le (by grind) (by grind)
  · obtain ⟨x, t', h3, h4, h5⟩ := h2'.zero_slack double_rounding hA h hd hne
    refine ⟨x, t', h3, ?_⟩
    unfold Task.slackFl
    rw [h4, h5, Rat.sub_self, double_rounding.zero]

/-- **C110 is violated**: with durations 0.1 and then 0.2 (and a task of 0.05 beside the first) the first task of the critical path has the
positive slack `2^-55`; with 0.1 and then 0.4 the first task has the negative slack `-2^-55`, and `latest_finish < earliest_finish`. -/
theorem C110_slack_sign :
    (∃ cpl d t, tenthsPos.criticalPathFl double some natSrt = some (.ok (cpl, d)) ∧ d.get? 1 = some t ∧ 0 < t.slackFl double ∧
      flDur double (tenthsPos.dur some) 0 [1, 2] = cpl) ∧
    (∃ cpl d t, tenthsNeg.criticalPathFl double some natSrt = some (.ok (cpl, d)) ∧ d.get? 1 = some t ∧ t.slackFl double < 0) := by
  obtain ⟨d, h1, h2, _⟩ := tenthsPos_eval
  obtain ⟨d', h1', h2'⟩ := tenthsNeg_eval
  obtain ⟨t, h3, h4⟩ := Option.map_eq_some_iff.1 h2
  obtain ⟨t', h3', h4'⟩ := Option.map_eq_some_iff.1 h2'
  exact ⟨⟨_, d, t, h1, h3, by rw [h4]; decide +kernel, by decide +kernel⟩, _, d', t', h1', h3', by rw [h4']; decide +kernel⟩

example : (∀ x, tenthsNeg.has x = true → (tenthsNeg.node x).bind some = some (tenthsNeg.dur some x)) ∧
    (∀ x, tenthsNeg.has x = true → 0 ≤ tenthsNeg.dur some x) ∧ tenthsNeg.Built ∧ Acyclic tenthsNeg.Adj ∧
    tenthsNeg.nodeList.length ≤ 2 ^ 51 := by
  obtain ⟨h1, h2⟩ := numeric_of_nodeList (g := tenthsNeg) (num := some) (dur := tenthsNeg.dur some) (by decide +kernel)
  exact ⟨h1, h2, ⟨_, rfl⟩, acyclic_of_edgeList ⟨_, rfl⟩ (fun n => if n = 2 then 1 else 0) (by decide +kernel), by decide +kernel⟩

end GT

import Verif.Dag.CpmFl
/-
How far the schedule of `critical_path` in rounded arithmetic is from the exact one.
-/
namespace GT
variable {α V O : Type} [DecidableEq α]
open Graph

/-- rounding a number between `-B` and `B` changes it by at most `δ` -/
def AbsErr (fl : Rat → Rat) (B δ : Rat) : Prop := ∀ x, -B ≤ x → x ≤ B → x - δ ≤ fl x ∧ fl x ≤ x + δ

theorem double_absErr {B : Rat} (hB : 0 ≤ B) : AbsErr double B (pow2 (-53) * B) := by
  have pos : ∀ x, 0 ≤ x → x ≤ B → x - pow2 (-53) * B ≤ double x ∧ double x ≤ x + pow2 (-53) * B := by
    intro x h1 h2
    obtain ⟨e1, e2⟩ := double_relErr x h1
    have h3 := Rat.mul_le_mul_of_nonneg_left h2 (show (0 : Rat) ≤ pow2 (-53) by decide +kernel)
    constructor <;> grind
  intro x h1 h2
  by_cases h : 0 ≤ x
  · exact pos x h h2
  · obtain ⟨e1, e2⟩ := pos (-x) (by grind) (by grind)
    rw [double_neg] at e1 e2
    constructor <;> grind

omit [DecidableEq α] in
theorem totalDur_nonneg {dur : α → Rat} (l : List α) (h : ∀ x ∈ l, 0 ≤ dur x) : 0 ≤ totalDur dur l := by
  induction l with
  | nil => exact Rat.le_refl
  | cons b l ih =>
    have h2 := ih (fun x hx => h x (List.mem_cons_of_mem _ hx))
    have h3 := h b (by simp)
    rw [totalDur_cons]; grind

omit [DecidableEq α] in
theorem flDur_abs {fl : Rat → Rat} {B δ : Rat} (h0 : 0 ≤ δ) (hδ : AbsErr fl B δ) {dur : α → Rat} (p : List α)
    (hp : ∀ x ∈ p, 0 ≤ dur x) : ∀ {a acc e : Rat}, 0 ≤ a → 0 ≤ e → a - e ≤ acc → acc ≤ a + e →
      a + totalDur dur p + (e + (p.length : Rat) * δ) ≤ B →
      a + totalDur dur p - (e + (p.length : Rat) * δ) ≤ flDur fl dur acc p ∧
      flDur fl dur acc p ≤ a + totalDur dur p + (e + (p.length : Rat) * δ) := by
  induction p with
  | nil =>
    intro a acc e ha he h1 h2 _
    simp only [flDur, totalDur, List.map_nil, List.sum_nil, List.length_nil]
    constructor <;> grind
  | cons x p ih =>
    intro a acc e ha he h1 h2 hB
    have hx := hp x (by simp)
    have hp' := fun y hy => hp y (List.mem_cons_of_mem x hy)
    have ht := totalDur_nonneg p hp'
    rw [totalDur_cons, List.length_cons, Rat.natCast_add] at hB ⊢
    have hl : (0 : Rat) ≤ (p.length : Rat) := by exact_mod_cast Nat.zero_le _
    have hl' : 0 ≤ (p.length : Rat) * δ := Rat.mul_nonneg hl h0
    obtain ⟨e1, e2⟩ := hδ (acc + dur x) (by grind) (by grind)
    obtain ⟨b1, b2⟩ := ih hp' (a := a + dur x) (acc := fl (acc + dur x)) (e := e + δ) (by grind) (by grind) (by grind) (by grind)
      (by grind)
    rw [flDur]
    constructor <;> grind

omit [DecidableEq α] in
theorem flBack_abs {fl : Rat → Rat} {B δ : Rat} (h0 : 0 ≤ δ) (hδ : AbsErr fl B δ) {dur : α → Rat} {T T' e : Rat}
    (he : 0 ≤ e) (h1 : T - e ≤ T') (h2 : T' ≤ T + e) (p : List α) (hp : ∀ x ∈ p, 0 ≤ dur x)
    (hB : T + (e + (p.length : Rat) * δ) ≤ B) (hB' : -B ≤ T - totalDur dur p - (e + (p.length : Rat) * δ)) :
      T - totalDur dur p - (e + (p.length : Rat) * δ) ≤ flBack fl dur T' p ∧
      flBack fl dur T' p ≤ T - totalDur dur p + (e + (p.length : Rat) * δ) := by
  induction p with
  | nil =>
    simp only [flBack, totalDur, List.map_nil, List.sum_nil, List.length_nil]
    constructor <;> grind
  | cons x p ih =>
    have hx := hp x (by simp)
    have hp' := fun y hy => hp y (List.mem_cons_of_mem x hy)
    have ht := totalDur_nonneg p hp'
    rw [totalDur_cons, List.length_cons, Rat.natCast_add] at hB' ⊢
    rw [List.length_cons, Rat.natCast_add] at hB
    have hl : (0 : Rat) ≤ (p.length : Rat) := by exact_mod_cast Nat.zero_le _
    have hl' : 0 ≤ (p.length : Rat) * δ := Rat.mul_nonneg hl h0
    obtain ⟨b1, b2⟩ := ih hp' (by grind) (by grind)
    rw [flBack]
    obtain ⟨e1, e2⟩ := hδ (flBack fl dur T' p - dur x) (by grind) (by grind)
    constructor <;> grind

section
variable {fl : Rat → Rat} {g : Graph α V O} {num : O → Option Rat} {d d' : Dict α Task} {cpl cpl' : Rat}

theorem chain_length (hA : Acyclic g.Adj) (hg : g.Inv) {p : List α} (h : Consec g.Adj p) {x : α} (hx : x ∈ p)
    (hn : g.has x = true) : p.length ≤ g.nodeList.length ∧ ∀ y ∈ p, g.has y = true := by
  have hall : ∀ y ∈ p, y ∈ g.nodeList := by
    match p, h, hx with
    | [z], _, hx =>
      intro y hy
      simp only [List.mem_singleton] at hx hy
      subst hx; subst hy; exact has_iff.1 hn
    | z :: w :: p, h, _ => exact fun y hy => h.of_mem hg.finite (by simp) y hy
  exact ⟨nodup_length_le (hA.nodup h) hall, fun y hy => has_iff.2 (hall y hy)⟩

/-- the computed schedule and the exact schedule: `n` tasks, each rounding changes a number by at most `δ` -/
theorem cpm_accuracy (hfl : Rounding fl) (hA : Acyclic g.Adj) (hg : g.Inv) (h : CpmEqs g num d cpl) (h' : CpmEqsFl fl g num d' cpl')
    (hd : ∀ x, g.has x = true → 0 ≤ g.dur num x) {B δ : Rat} (h0 : 0 ≤ δ) (hδ : AbsErr fl B δ)
    (hB : cpl + 2 * (g.nodeList.length : Rat) * δ ≤ B) :
    (cpl - (g.nodeList.length : Rat) * δ ≤ cpl' ∧ cpl' ≤ cpl + (g.nodeList.length : Rat) * δ) ∧
    ∀ x t t', d.get? x = some t → d'.get? x = some t' →
      (t.earliestStart - (g.nodeList.length : Rat) * δ ≤ t'.earliestStart ∧
        t'.earliestStart ≤ t.earliestStart + (g.nodeList.length : Rat) * δ) ∧
      (t.earliestFinish - (g.nodeList.length : Rat) * δ ≤ t'.earliestFinish ∧
        t'.earliestFinish ≤ t.earliestFinish + (g.nodeList.length : Rat) * δ) ∧
      (t.latestFinish - 2 * (g.nodeList.length : Rat) * δ ≤ t'.latestFinish ∧
        t'.latestFinish ≤ t.latestFinish + 2 * (g.nodeList.length : Rat) * δ) ∧
      (t.latestStart - 2 * (g.nodeList.length : Rat) * δ ≤ t'.latestStart ∧
        t'.latestStart ≤ t.latestStart + 2 * (g.nodeList.length : Rat) * δ) := by
  generalize hn : (g.nodeList.length : Rat) = n at *
  have hn0 : 0 ≤ n := by rw [← hn]; exact_mod_cast Nat.zero_le _
  have hnd : 0 ≤ n * δ := Rat.mul_nonneg hn0 h0
  have hcpl := h.cge.1
  have hL := h.cpl_longest hA hg hd
  have hL' := h'.cpl_longest hfl hA hg hd
  have hlen : ∀ p : List α, p.length ≤ g.nodeList.length → (p.length : Rat) * δ ≤ n * δ := by
    intro p hp
    have : (p.length : Rat) ≤ n := by rw [← hn]; exact_mod_cast hp
    exact Rat.mul_le_mul_of_nonneg_right this h0
  have cmp : ∀ p : List α, p.length ≤ g.nodeList.length → Consec g.Adj p → (∀ y ∈ p, g.has y = true) →
      totalDur (g.dur num) p - n * δ ≤ flDur fl (g.dur num) 0 p ∧ flDur fl (g.dur num) 0 p ≤ totalDur (g.dur num) p + n * δ := by
    intro p hp hc hh
    have h1 := hlen p hp
    have h2 := hL.2 p ⟨hc, hh⟩
    obtain ⟨b1, b2⟩ := flDur_abs h0 hδ p (fun x hx => hd x (hh x hx)) (a := 0) (acc := 0) (e := 0) (by grind) (by grind) (by grind)
      (by grind) (by grind)
    constructor <;> grind
  have chainOf : ∀ p, (Consec g.Adj p ∧ ∀ x ∈ p, g.has x = true) → p.length ≤ g.nodeList.length := fun p hp =>
    nodup_length_le (hA.nodup hp.1) (fun x hx => has_iff.1 (hp.2 x hx))
  have hc1 : cpl - n * δ ≤ cpl' ∧ cpl' ≤ cpl + n * δ := by
    obtain ⟨p, hp, ht⟩ := hL.1
    obtain ⟨q, hq, ht'⟩ := hL'.1
    have a1 := cmp p (chainOf p hp) hp.1 hp.2
    have a2 := cmp q (chainOf q hq) hq.1 hq.2
    have a3 := hL.2 q hq
    have a4 := hL'.2 p hp
    constructor <;> grind
  refine ⟨hc1, ?_⟩
  intro x t t' ht ht'
  have hx : g.has x = true := (h.keys x).1 (Dict.mem_keys_of_get? ht)
  have hdx := hd x hx
  have e1 := h.dur_eq ht
  have e2 := h'.dur_eq ht'
  have f1 := (h.fwd x t ht).ef
  have f2 := (h'.fwd x t' ht').ef
  have f3 := (h.bwd x t ht).ls
  have f4 := (h'.bwd x t' ht').ls
  obtain ⟨p, hp1, hp2⟩ := h.es_att hA hg x t ht
  obtain ⟨q, hq1, hq2⟩ := h'.es_att hA hg x t' ht'
  have hpl := chain_length hA hg hp1 (x := x) (by simp) hx
  have hql := chain_length hA hg hq1 (x := x) (by simp) hx
  have a1 := h.es_ub hA hg hd q x t ht hq1
  have a2 := h'.es_ub hfl hA hg hd p x t' ht' hp1
  have toPrefix : ∀ p, Consec g.Adj (p ++ [x]) → Consec g.Adj p := by
    intro p hp
    by_cases hne : p = []
    · subst hne; trivial
    · obtain ⟨q, a, rfl⟩ : ∃ q a, p = q ++ [a] := ⟨_, _, (List.dropLast_concat_getLast hne).symm⟩
      exact (consec_snoc_split hp).1
  have a3 := cmp p (by have := hpl.1; simp at this; omega) (toPrefix p hp1) (fun y hy => hpl.2 y (by simp [hy]))
  have a4 := cmp q (by have := hql.1; simp at this; omega) (toPrefix q hq1) (fun y hy => hql.2 y (by simp [hy]))
  have a5 := cmp (p ++ [x]) hpl.1 hp1 hpl.2
  have a6 := cmp (q ++ [x]) hql.1 hq1 hql.2
  have s1 : totalDur (g.dur num) (p ++ [x]) = totalDur (g.dur num) p + t.duration := by
    rw [totalDur_append, ← e1]; simp [totalDur, Rat.add_zero]
  have s2 : totalDur (g.dur num) (q ++ [x]) = totalDur (g.dur num) q + t.duration := by
    rw [totalDur_append, ← e1]; simp [totalDur, Rat.add_zero]
  have s3 : flDur fl (g.dur num) 0 (q ++ [x]) = t'.earliestFinish := by rw [flDur_snoc, hq2, f2, e2]
  have s4 : flDur fl (g.dur num) 0 (p ++ [x]) ≤ t'.earliestFinish := by
    rw [flDur_snoc, f2, e2]; exact hfl.mono _ _ (by grind)
  -- the latest schedule
  obtain ⟨u, hu1, hu2⟩ := h.lf_att hA hg x t ht
  obtain ⟨v, hv1, hv2⟩ := h'.lf_att hA hg x t' ht'
  have hul := chain_length hA hg hu1 (x := x) (by simp) hx
  have hvl := chain_length hA hg hv1 (x := x) (by simp) hx
  have b1 := h.lf_ub hA hg hd v x t ht hv1
  have b2 := h'.lf_ub hfl hA hg hd u x t' ht' hu1
  have cmpB : ∀ w : List α, w.length ≤ g.nodeList.length → Consec g.Adj w → (∀ y ∈ w, g.has y = true) →
      cpl - totalDur (g.dur num) w - 2 * n * δ ≤ flBack fl (g.dur num) cpl' w ∧
      flBack fl (g.dur num) cpl' w ≤ cpl - totalDur (g.dur num) w + 2 * n * δ := by
    intro w hw hc hh
    have h1 := hlen w hw
    have h2 := hL.2 w ⟨hc, hh⟩
    have h3 := totalDur_nonneg (dur := g.dur num) w (fun y hy => hd y (hh y hy))
    obtain ⟨b1, b2⟩ := flBack_abs h0 hδ (T := cpl) (T' := cpl') (e := n * δ) (by grind) hc1.1 hc1.2 w (fun y hy => hd y (hh y hy))
      (by grind) (by grind)
    constructor <;> grind
  have b3 := cmpB u (by have := hul.1; simp at this; omega) hu1.tail (fun y hy => hul.2 y (by simp [hy]))
  have b4 := cmpB v (by have := hvl.1; simp at this; omega) hv1.tail (fun y hy => hvl.2 y (by simp [hy]))
  have b5 := cmpB (x :: u) hul.1 hu1 hul.2
  have b6 := cmpB (x :: v) hvl.1 hv1 hvl.2
  have s5 : flBack fl (g.dur num) cpl' (x :: v) = t'.latestStart := by rw [flBack, hv2, f4, e2]
  have s6 : t'.latestStart ≤ flBack fl (g.dur num) cpl' (x :: u) := by
    rw [flBack, f4, e2]; exact hfl.mono _ _ (by grind)
  rw [totalDur_cons] at b5 b6
  refine ⟨⟨by grind, by grind⟩, ⟨by grind, by grind⟩, ⟨by grind, by grind⟩, by grind, by grind⟩

end
end GT

import Verif.Dag.Cpm
import Verif.Spec.Sched
/- Consequences of the schedule equations: chains, feasible schedules, slack. -/
namespace GT
variable {α V O : Type} [DecidableEq α]
open Graph

/-- the duration of a task (0 if it has none) -/
def Graph.dur (num : O → Option Rat) (g : Graph α V O) (x : α) : Rat := ((g.node x).bind num).getD 0

omit [DecidableEq α] in
theorem totalDur_append (dur : α → Rat) (p q : List α) :
    totalDur dur (p ++ q) = totalDur dur p + totalDur dur q := by simp [totalDur]
omit [DecidableEq α] in
theorem totalDur_cons (dur : α → Rat) (x : α) (q : List α) :
    totalDur dur (x :: q) = dur x + totalDur dur q := by simp [totalDur]

section
variable {g : Graph α V O} {num : O → Option Rat} {d : Dict α Task} {cpl : Rat}

theorem CpmEqs.get (h : CpmEqs g num d cpl) {x : α} (hx : g.has x = true) :
    ∃ t, d.get? x = some t ∧ t.duration = g.dur num x := by
  obtain ⟨t, ht⟩ := Dict.exists_get?_of_mem_keys ((h.keys x).2 hx)
  exact ⟨t, ht, by unfold Graph.dur; rw [(h.fwd x t ht).dur]; rfl⟩

theorem CpmEqs.dur_eq (h : CpmEqs g num d cpl) {x : α} {t : Task} (ht : d.get? x = some t) :
    g.dur num x = t.duration := by unfold Graph.dur; rw [(h.fwd x t ht).dur]; rfl

theorem CpmEqs.es_att (hA : Acyclic g.Adj) (hg : g.Inv) (h : CpmEqs g num d cpl) :
    ∀ x t, d.get? x = some t → ∃ p, Consec g.Adj (p ++ [x]) ∧ totalDur (g.dur num) p = t.earliestStart := by
  have hA' : Acyclic (Flip g.Adj) := by
    rintro a ⟨n, hn⟩; exact hA a ⟨n, hn.flip⟩
  obtain ⟨rank, hr, _, _⟩ := hA'.rank (U := g.nodeList) (fun a b hab => ⟨(hg.finite b a hab).2, (hg.finite b a hab).1⟩)
  have : ∀ n x t, rank x = n → d.get? x = some t →
      ∃ p, Consec g.Adj (p ++ [x]) ∧ totalDur (g.dur num) p = t.earliestStart := by
    intro n
    induction n using Nat.strongRecOn with
    | _ n ih =>
      intro x t hx ht
      rcases (h.fwd x t ht).att with ⟨h1, _⟩ | ⟨a, ta, h1, h2, h3⟩
      · exact ⟨[], trivial, by rw [h1]; rfl⟩
      · obtain ⟨p, h4, h5⟩ := ih (rank a) (hx ▸ hr x a h1) a ta rfl h2
        refine ⟨p ++ [a], Consec.snoc h4 (by simp) h1, ?_⟩
        rw [totalDur_append, h5, ← h3, (h.fwd a ta h2).ef, ← h.dur_eq h2]
        simp [totalDur, Rat.add_zero]
  intro x t ht
  exact this _ x t rfl ht

theorem CpmEqs.es_nonneg (hA : Acyclic g.Adj) (hg : g.Inv) (h : CpmEqs g num d cpl)
    (hd : ∀ x, g.has x = true → 0 ≤ g.dur num x) {x : α} {t : Task} (ht : d.get? x = some t) :
    0 ≤ t.earliestStart := by
  have hA' : Acyclic (Flip g.Adj) := by
    rintro a ⟨n, hn⟩; exact hA a ⟨n, hn.flip⟩
  obtain ⟨rank, hr, _, _⟩ := hA'.rank (U := g.nodeList) (fun a b hab => ⟨(hg.finite b a hab).2, (hg.finite b a hab).1⟩)
  have : ∀ n x t, rank x = n → d.get? x = some t → 0 ≤ t.earliestStart := by
    intro n
    induction n using Nat.strongRecOn with
    | _ n ih =>
      intro x t hx ht
      rcases (h.fwd x t ht).att with ⟨h1, _⟩ | ⟨a, ta, h1, h2, h3⟩
      · rw [h1]; exact Rat.le_refl
      · have h4 := ih (rank a) (hx ▸ hr x a h1) a ta rfl h2
        have h5 := (h.fwd a ta h2).ef
        have h6 := hd a (has_iff.2 (hg.finite a x h1).1)
        rw [h.dur_eq h2] at h6
        grind
  exact this _ x t rfl ht

omit [DecidableEq α] in
theorem consec_snoc_split {R : α → α → Prop} {p : List α} {a x : α} (h : Consec R (p ++ [a] ++ [x])) :
    Consec R (p ++ [a]) ∧ R a x := by
  induction p with
  | nil => exact ⟨trivial, h.1⟩
  | cons y p ih =>
    cases p with
    | nil => exact ⟨⟨h.1, trivial⟩, h.2.1⟩
    | cons z p =>
      have := ih h.2
      exact ⟨⟨h.1, this.1⟩, this.2⟩

theorem CpmEqs.es_ub (hA : Acyclic g.Adj) (hg : g.Inv) (h : CpmEqs g num d cpl)
    (hd : ∀ x, g.has x = true → 0 ≤ g.dur num x) (p : List α) :
    ∀ x t, d.get? x = some t → Consec g.Adj (p ++ [x]) → totalDur (g.dur num) p ≤ t.earliestStart := by
  generalize hn : p.length = n
  induction n generalizing p with
  | zero =>
    intro x t ht _
    have : p = [] := List.length_eq_zero_iff.1 hn
    subst this
    exact h.es_nonneg hA hg hd ht
  | succ n ih =>
    intro x t ht hc
    have hp : p ≠ [] := by rintro rfl; simp at hn
    obtain ⟨q, a, rfl⟩ : ∃ q a, p = q ++ [a] := ⟨_, _, (List.dropLast_concat_getLast hp).symm⟩
    obtain ⟨h1, h2⟩ := consec_snoc_split hc
    obtain ⟨ta, h3, h4⟩ := (h.fwd x t ht).ge a h2
    have h5 := ih q (by simpa using hn) a ta h3 h1
    have h6 := (h.fwd a ta h3).ef
    rw [totalDur_append]
    have h7 : totalDur (g.dur num) [a] = ta.duration := by rw [← h.dur_eq h3]; simp [totalDur, Rat.add_zero]
    grind

theorem CpmEqs.lf_att (hA : Acyclic g.Adj) (hg : g.Inv) (h : CpmEqs g num d cpl) :
    ∀ x t, d.get? x = some t → ∃ p, Consec g.Adj (x :: p) ∧ totalDur (g.dur num) p = cpl - t.latestFinish := by
  obtain ⟨rank, hr, _, _⟩ := hA.rank hg.finite
  have : ∀ n x t, rank x = n → d.get? x = some t →
      ∃ p, Consec g.Adj (x :: p) ∧ totalDur (g.dur num) p = cpl - t.latestFinish := by
    intro n
    induction n using Nat.strongRecOn with
    | _ n ih =>
      intro x t hx ht
      rcases (h.bwd x t ht).att with ⟨h1, _⟩ | ⟨b, tb, h1, h2, h3⟩
      · refine ⟨[], trivial, ?_⟩
        have : totalDur (g.dur num) ([] : List α) = 0 := rfl
        grind
      · obtain ⟨p, h4, h5⟩ := ih (rank b) (hx ▸ hr x b h1) b tb rfl h2
        refine ⟨b :: p, ⟨h1, h4⟩, ?_⟩
        rw [totalDur_cons, h5, h.dur_eq h2]
        have := (h.bwd b tb h2).ls
        grind
  intro x t ht
  exact this _ x t rfl ht

theorem CpmEqs.lf_le (hA : Acyclic g.Adj) (hg : g.Inv) (h : CpmEqs g num d cpl)
    (hd : ∀ x, g.has x = true → 0 ≤ g.dur num x) {x : α} {t : Task} (ht : d.get? x = some t) :
    t.latestFinish ≤ cpl := by
  obtain ⟨p, h1, h2⟩ := h.lf_att hA hg x t ht
  have hnn : ∀ (p : List α) (x : α), Consec g.Adj (x :: p) → 0 ≤ totalDur (g.dur num) p := by
    intro p
    induction p with
    | nil => intro x _; exact Rat.le_refl
    | cons b p ih =>
      intro x hc
      have h3 := ih b hc.2
      have h4 := hd b (has_iff.2 (hg.finite x b hc.1).2)
      rw [totalDur_cons]; grind
  have := hnn p x h1
  grind

theorem CpmEqs.lf_ub (hA : Acyclic g.Adj) (hg : g.Inv) (h : CpmEqs g num d cpl)
    (hd : ∀ x, g.has x = true → 0 ≤ g.dur num x) (p : List α) :
    ∀ x t, d.get? x = some t → Consec g.Adj (x :: p) → totalDur (g.dur num) p ≤ cpl - t.latestFinish := by
  induction p with
  | nil =>
    intro x t ht _
    have := h.lf_le hA hg hd ht
    have : totalDur (g.dur num) ([] : List α) = 0 := rfl
    grind
  | cons b p ih =>
    intro x t ht hc
    obtain ⟨tb, h1, h2⟩ := (h.bwd x t ht).le b hc.1
    have h3 := ih b tb h1 hc.2
    have h4 := (h.bwd b tb h1).ls
    rw [totalDur_cons, h.dur_eq h1]
    grind

theorem CpmEqs.cpl_longest (hA : Acyclic g.Adj) (hg : g.Inv) (h : CpmEqs g num d cpl)
    (hd : ∀ x, g.has x = true → 0 ≤ g.dur num x) :
    LongestDur (g.dur num) (fun p => Consec g.Adj p ∧ ∀ x ∈ p, g.has x = true) cpl := by
  constructor
  · rcases h.catt with h1 | ⟨x, t, h1, h2⟩
    · exact ⟨[], ⟨trivial, by simp⟩, by rw [h1]; rfl⟩
    · obtain ⟨p, h3, h4⟩ := h.es_att hA hg x t h1
      refine ⟨p ++ [x], ⟨h3, ?_⟩, ?_⟩
      · intro y hy
        cases p with
        | nil =>
          have : y = x := by simpa using hy
          subst this; exact (h.keys y).1 (Dict.mem_keys_of_get? h1)
        | cons z p =>
          exact has_iff.2 (h3.of_mem hg.finite (by simp) y hy)
      · rw [totalDur_append, h4, ← h2, (h.fwd x t h1).ef, ← h.dur_eq h1]; simp [totalDur, Rat.add_zero]
  · rintro p ⟨hc, hp⟩
    by_cases hne : p = []
    · subst hne; exact h.cge.1
    · obtain ⟨q, a, rfl⟩ : ∃ q a, p = q ++ [a] := ⟨_, _, (List.dropLast_concat_getLast hne).symm⟩
      obtain ⟨t, ht, hdt⟩ := h.get (hp a (by simp))
      have h1 := h.es_ub hA hg hd q a t ht hc
      have h2 := h.cge.2 a t ht
      have h3 := (h.fwd a t ht).ef
      rw [totalDur_append]
      have h7 : totalDur (g.dur num) [a] = t.duration := by rw [hdt]; simp [totalDur, Rat.add_zero]
      grind

theorem CpmEqs.slack_nonneg (hA : Acyclic g.Adj) (hg : g.Inv) (h : CpmEqs g num d cpl) {x : α} {t : Task} (ht : d.get? x = some t) :
    0 ≤ t.slack := by
  obtain ⟨p, h1, h2⟩ := h.lf_att hA hg x t ht
  -- the finish time can only grow along the chain
  have key : ∀ (p : List α) x t, d.get? x = some t → Consec g.Adj (x :: p) →
      t.earliestFinish + totalDur (g.dur num) p ≤ cpl := by
    intro p
    induction p with
    | nil =>
      intro x t ht _
      have := h.cge.2 x t ht
      have : totalDur (g.dur num) ([] : List α) = 0 := rfl
      grind
    | cons b p ih =>
      intro x t ht hc
      obtain ⟨tb, htb⟩ := Dict.exists_get?_of_mem_keys ((h.keys b).2 (has_iff.2 (hg.finite x b hc.1).2))
      have h3 := ih b tb htb hc.2
      obtain ⟨tx, h4, h5⟩ := (h.fwd b tb htb).ge x hc.1
      rw [ht] at h4
      have h4 := Option.some.inj h4; subst h4
      have h6 := (h.fwd b tb htb).ef
      rw [totalDur_cons, h.dur_eq htb]
      grind
  have := key p x t ht h1
  unfold Task.slack
  grind

theorem CpmEqs.zero_slack (hA : Acyclic g.Adj) (hg : g.Inv) (h : CpmEqs g num d cpl)
    (hd : ∀ x, g.has x = true → 0 ≤ g.dur num x) (hne : ∃ x, g.has x = true) :
    ∃ x t, d.get? x = some t ∧ t.slack = 0 := by
  have hone : ∀ x t, d.get? x = some t → t.earliestFinish = cpl → t.slack = 0 := by
    intro x t ht he
    have h1 := h.slack_nonneg hA hg ht
    have h2 := h.lf_le hA hg hd ht
    unfold Task.slack at *
    grind
  rcases h.catt with h1 | ⟨x, t, h1, h2⟩
  · obtain ⟨x, hx⟩ := hne
    obtain ⟨t, ht, hdt⟩ := h.get hx
    refine ⟨x, t, ht, hone x t ht ?_⟩
    have h2 := h.cge.2 x t ht
    have h3 := h.es_nonneg hA hg hd ht
    have h4 := hd x hx
    have h5 := (h.fwd x t ht).ef
    grind
  · exact ⟨x, t, h1, hone x t h1 h2⟩

/-- no feasible schedule starts a task earlier -/
theorem CpmEqs.es_le_start (hA : Acyclic g.Adj) (hg : g.Inv) (h : CpmEqs g num d cpl)
    {start : α → Rat} (hf : FeasibleSchedule (fun x => g.has x = true) g.Adj (g.dur num) start)
    {x : α} {t : Task} (ht : d.get? x = some t) : t.earliestStart ≤ start x := by
  obtain ⟨p, h1, h2⟩ := h.es_att hA hg x t ht
  have hx : g.has x = true := (h.keys x).1 (Dict.mem_keys_of_get? ht)
  have key : ∀ (n : Nat) (p : List α) x, p.length = n → g.has x = true → Consec g.Adj (p ++ [x]) →
      totalDur (g.dur num) p ≤ start x := by
    intro n
    induction n with
    | zero =>
      intro p x hl hx _
      have : p = [] := List.length_eq_zero_iff.1 hl
      subst this; exact hf.nonneg x hx
    | succ n ih =>
      intro p x hl hx hc
      have hp : p ≠ [] := by rintro rfl; simp at hl
      obtain ⟨q, a, rfl⟩ : ∃ q a, p = q ++ [a] := ⟨_, _, (List.dropLast_concat_getLast hp).symm⟩
      obtain ⟨h3, h4⟩ := consec_snoc_split hc
      have h5 := ih q a (by simpa using hl) (has_iff.2 (hg.finite a x h4).1) h3
      have h6 := hf.prec a x h4
      rw [totalDur_append]
      have h7 : totalDur (g.dur num) [a] = g.dur num a := by simp [totalDur, Rat.add_zero]
      grind
  have := key _ p x rfl hx h1
  grind

/-- no feasible schedule that ends by the critical path length starts a task later -/
theorem CpmEqs.start_le_ls (hA : Acyclic g.Adj) (hg : g.Inv) (h : CpmEqs g num d cpl)
    {start : α → Rat} (hf : FeasibleSchedule (fun x => g.has x = true) g.Adj (g.dur num) start)
    (hT : ∀ x, g.has x = true → start x + g.dur num x ≤ cpl)
    {x : α} {t : Task} (ht : d.get? x = some t) : start x ≤ t.latestStart := by
  obtain ⟨p, h1, h2⟩ := h.lf_att hA hg x t ht
  have hx : g.has x = true := (h.keys x).1 (Dict.mem_keys_of_get? ht)
  have key : ∀ (p : List α) x, g.has x = true → Consec g.Adj (x :: p) →
      start x + g.dur num x + totalDur (g.dur num) p ≤ cpl := by
    intro p
    induction p with
    | nil =>
      intro x hx _
      have := hT x hx
      have : totalDur (g.dur num) ([] : List α) = 0 := rfl
      grind
    | cons b p ih =>
      intro x hx hc
      have h3 := ih b (has_iff.2 (hg.finite x b hc.1).2) hc.2
      have h4 := hf.prec x b hc.1
      rw [totalDur_cons]; grind
  have h3 := key p x hx h1
  have h4 := (h.bwd x t ht).ls
  have h5 := h.dur_eq ht
  grind

/-- every feasible schedule needs at least the critical path length -/
theorem CpmEqs.cpl_le_makespan (hA : Acyclic g.Adj) (hg : g.Inv) (h : CpmEqs g num d cpl)
    {start : α → Rat} (hf : FeasibleSchedule (fun x => g.has x = true) g.Adj (g.dur num) start)
    {T : Rat} (h0 : 0 ≤ T) (hT : ∀ x, g.has x = true → start x + g.dur num x ≤ T) : cpl ≤ T := by
  rcases h.catt with h1 | ⟨x, t, h1, h2⟩
  · rw [h1]; exact h0
  · have h3 := h.es_le_start hA hg hf h1
    have h4 := hT x ((h.keys x).1 (Dict.mem_keys_of_get? h1))
    have h5 := (h.fwd x t h1).ef
    have h6 := h.dur_eq h1
    grind

end
end GT

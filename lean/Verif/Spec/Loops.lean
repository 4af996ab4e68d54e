import Verif.Spec.Dist
/-
Independent specification vocabulary: values of the edges between different nodes.
Nothing here refers to the model of the library.
-/
namespace GT
variable {α : Type} [DecidableEq α]

/-- the values of the edges between different nodes: loops are left out -/
def noLoops (w : α → α → Option Rat) : α → α → Option Rat := fun a b => if a = b then none else w a b

omit [DecidableEq α] in
/-- fewer edges, fewer walks -/
theorem WalkOf.sub {w w' : α → α → Option Rat} (h : ∀ a b c, w a b = some c → w' a b = some c) {p : List α} :
    ∀ {a b : α} {c : Rat}, WalkOf w a b p c → WalkOf w' a b p c := by
  induction p with
  | nil => intro a b c hp; exact absurd rfl hp.ne_nil
  | cons x p ih =>
    intro a b c hp
    rcases hp.inv with ⟨h1, h2, h3⟩ | ⟨y, q, d, d', h1, h2, h3, h4⟩
    · rw [h1]; subst h2 h3; exact WalkOf.single _
    · simp only [List.cons.injEq] at h1
      obtain ⟨rfl, rfl⟩ := h1
      rw [h4]; exact (ih h3).cons (h _ _ _ h2)

theorem noLoops_some {w : α → α → Option Rat} {a b : α} {c : Rat} : noLoops w a b = some c ↔ a ≠ b ∧ w a b = some c := by
  unfold noLoops; split
  · rename_i h; simp [h]
  · rename_i h; simp [h]

theorem WalkOf.of_noLoops {w : α → α → Option Rat} {p : List α} {a b : α} {c : Rat} (h : WalkOf (noLoops w) a b p c) : WalkOf w a b p c :=
  h.sub fun _ _ _ h => (noLoops_some.1 h).2

/-- a simple walk uses no loop -/
theorem WalkOf.noLoops_of_nodup {w : α → α → Option Rat} {p : List α} : ∀ {a b : α} {c : Rat}, WalkOf w a b p c → p.Nodup →
    WalkOf (noLoops w) a b p c := by
  induction p with
  | nil => intro a b c hp; exact absurd rfl hp.ne_nil
  | cons x p ih =>
    intro a b c hp hn
    rcases hp.inv with ⟨h1, h2, h3⟩ | ⟨y, q, d, d', h1, h2, h3, h4⟩
    · rw [h1]; subst h2 h3; exact WalkOf.single _
    · simp only [List.cons.injEq] at h1
      obtain ⟨rfl, rfl⟩ := h1
      rw [h4]
      refine (ih h3 (List.nodup_cons.1 hn).2).cons (noLoops_some.2 ⟨?_, h2⟩)
      rintro rfl
      have := h3.1
      cases p with
      | nil => simp at this
      | cons z p => simp at this; subst this; simp at hn

/-- without negative values of loops, leaving out the loops makes no closed walk negative -/
theorem WalkOf.drop_loops {w : α → α → Option Rat} (hl : ∀ a c, w a a = some c → 0 ≤ c) {p : List α} : ∀ {a b : α} {c : Rat}, WalkOf w a b p c →
    ∃ p' c', WalkOf (noLoops w) a b p' c' ∧ c' ≤ c := by
  induction p with
  | nil => intro a b c hp; exact absurd rfl hp.ne_nil
  | cons x p ih =>
    intro a b c hp
    rcases hp.inv with ⟨h1, h2, h3⟩ | ⟨y, q, d, d', h1, h2, h3, h4⟩
    · subst h2 h3; exact ⟨_, _, WalkOf.single _, Rat.le_refl⟩
    · simp only [List.cons.injEq] at h1
      obtain ⟨rfl, rfl⟩ := h1
      obtain ⟨p', c', h5, h6⟩ := ih h3
      by_cases hxy : x = y
      · subst hxy; exact ⟨p', c', h5, by have := hl _ _ h2; grind⟩
      · exact ⟨_, _, h5.cons (noLoops_some.2 ⟨hxy, h2⟩), by grind⟩

end GT

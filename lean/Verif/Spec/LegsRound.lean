import Verif.Spec.Round
import Verif.Spec.Dist
/-
Independent specification vocabulary: the rounded length of a route whose legs need not be edges.  Nothing here refers to the model of the library.
-/
namespace GT
variable {α : Type}

/-- the rounded length of one leg of a route: the value of the edge if there is one, otherwise the smallest rounded length of a walk (which a walk without
repetitions attains), infinite if there is no walk -/
def FlLeg (fl : Rat → Rat) (w : α → α → Option Rat) (a b : α) (d : Ext) : Prop :=
  (∃ c, w a b = some c ∧ d = .fin c) ∨
  (w a b = none ∧ ∃ x, d = .fin x ∧ (∃ p, p.Nodup ∧ FlWalk fl w [] a b p x) ∧ ∀ p c, FlWalk fl w [] a b p c → x ≤ c) ∨
  (w a b = none ∧ d = .inf ∧ ¬ ∃ p c, FlWalk fl w [] a b p c)

/-- `r` is `acc` plus the rounded lengths of the legs, added from left to right with rounding after every addition -/
def FlLegs (fl : Rat → Rat) (w : α → α → Option Rat) : Rat → List α → Ext → Prop
  | acc, a :: b :: l, r => (FlLeg fl w a b .inf ∧ r = .inf) ∨ ∃ d, FlLeg fl w a b (.fin d) ∧ FlLegs fl w (fl (acc + d)) (b :: l) r
  | acc, _, r => r = .fin acc

theorem FlLeg.unique {fl : Rat → Rat} {w : α → α → Option Rat} {a b : α} {d e : Ext} (h : FlLeg fl w a b d) (h' : FlLeg fl w a b e) : d = e := by
  rcases h with ⟨c, h1, rfl⟩ | ⟨h1, x, rfl, ⟨p, _, hp⟩, hm⟩ | ⟨h1, rfl, hn⟩ <;>
    rcases h' with ⟨c', h1', rfl⟩ | ⟨h1', x', rfl, ⟨p', _, hp'⟩, hm'⟩ | ⟨h1', rfl, hn'⟩
  · rw [h1] at h1'; cases h1'; rfl
  · rw [h1] at h1'; cases h1'
  · rw [h1] at h1'; cases h1'
  · rw [h1] at h1'; cases h1'
  · have := hm _ _ hp'; have := hm' _ _ hp; congr 1; grind
  · exact absurd ⟨_, _, hp⟩ hn'
  · rw [h1] at h1'; cases h1'
  · exact absurd ⟨_, _, hp'⟩ hn
  · rfl

theorem FlLegs.unique {fl : Rat → Rat} {w : α → α → Option Rat} {p : List α} : ∀ {acc : Rat} {d e : Ext}, FlLegs fl w acc p d → FlLegs fl w acc p e → d = e := by
  induction p with
  | nil => intro acc d e h h'; exact Eq.trans h (Eq.symm h')
  | cons a l ih =>
    cases l with
    | nil => intro acc d e h h'; exact Eq.trans h (Eq.symm h')
    | cons b l =>
      intro acc d e h h'
      rcases h with ⟨h1, h2⟩ | ⟨x, h1, h2⟩ <;> rcases h' with ⟨h1', h2'⟩ | ⟨x', h1', h2'⟩
      · rw [h2, h2']
      · have := h1.unique h1'; cases this
      · have := h1.unique h1'; cases this
      · have := h1.unique h1'; cases this; exact ih h2 h2'

end GT

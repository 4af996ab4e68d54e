import Verif.Spec.Walks
/-
Specification vocabulary for project schedules: chains of tasks and feasible schedules.
-/
namespace GT
variable {α : Type}

/-- total duration of a list of tasks -/
def totalDur (dur : α → Rat) (p : List α) : Rat := (p.map dur).sum

/-- `m` is the largest total duration of a list of tasks with property `P` -/
def LongestDur (dur : α → Rat) (P : List α → Prop) (m : Rat) : Prop :=
  (∃ p, P p ∧ totalDur dur p = m) ∧ ∀ p, P p → totalDur dur p ≤ m

/-- a schedule that starts every task of the project at or after time 0 and not before all its
predecessors have finished -/
structure FeasibleSchedule (tasks : α → Prop) (R : α → α → Prop) (dur : α → Rat) (start : α → Rat) : Prop where
  nonneg : ∀ x, tasks x → 0 ≤ start x
  prec : ∀ a b, R a b → start a + dur a ≤ start b

end GT

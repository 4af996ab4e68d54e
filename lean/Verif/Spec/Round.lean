import Verif.Spec.Walks
/-
Independent specification vocabulary: sums in rounded (floating point) arithmetic.
Nothing here refers to the model of the library.
-/
namespace GT
variable {α : Type}

/-- a rounding function: monotone, and it leaves what is rounded already, and 0, unchanged.  Every IEEE 754 rounding mode is of this
kind as long as nothing overflows: then `x + y` on floats is `fl (x + y)`. -/
structure Rounding (fl : Rat → Rat) : Prop where
  mono : ∀ x y, x ≤ y → fl x ≤ fl y
  idem : ∀ x, fl (fl x) = fl x
  zero : fl 0 = 0

/-- the values along a node list, added from left to right to `acc` with rounding after every addition; `none` if some consecutive
pair has no value or if the list is empty -/
def flCost (fl : Rat → Rat) (w : α → α → Option Rat) : Rat → List α → Option Rat
  | _, [] => none
  | acc, [_] => some acc
  | acc, a :: b :: l => match w a b with
    | some c => flCost fl w (fl (acc + c)) (b :: l)
    | none => none

/-- `p` is a walk from `a` to `b`, none of whose nodes is in `av`, and its rounded length is `c` -/
def FlWalk (fl : Rat → Rat) (w : α → α → Option Rat) (av : List α) (a b : α) (p : List α) (c : Rat) : Prop :=
  p.head? = some a ∧ p.getLast? = some b ∧ flCost fl w 0 p = some c ∧ ∀ x ∈ p, x ∉ av

/-- rounding a non-negative number changes it by a factor between `1 - ε` and `1 + ε` (for doubles rounded to nearest: `ε = 2^-53`) -/
def RelErr (fl : Rat → Rat) (ε : Rat) : Prop := ∀ x, 0 ≤ x → (1 - ε) * x ≤ fl x ∧ fl x ≤ (1 + ε) * x

/-- the distance `x` is the distance `d` up to `n` roundings with relative error `ε` -/
def WithinErr (ε : Rat) (n : Nat) : Ext → Ext → Prop
  | .fin d, .fin x => (1 - ε) ^ n * d ≤ x ∧ x ≤ (1 + ε) ^ n * d
  | .inf, .inf => True
  | _, _ => False

/-- the distance `d` is not larger than `e`, up to `n` roundings of each -/
def NearlyLe (ε : Rat) (n : Nat) : Ext → Ext → Prop
  | .fin d, .fin e => (1 - ε) ^ n * d ≤ (1 + ε) ^ n * e
  | _, .inf => True
  | .inf, .fin _ => False

/-- the distance `d` is so much smaller than `e` that `n` roundings of each cannot change it -/
def ClearlyLe (ε : Rat) (n : Nat) : Ext → Ext → Prop
  | .fin d, .fin e => (1 + ε) ^ n * d ≤ (1 - ε) ^ n * e
  | _, .inf => True
  | .inf, .fin _ => False

/-- `c` is the total value of a walk from `a` to `b`, added up in some order of brackets with rounding after every addition -/
inductive BracketSum (fl : Rat → Rat) (w : α → α → Option Rat) : α → α → Rat → Prop
  | stay (a : α) : BracketSum fl w a a 0
  | edge {a b : α} {c : Rat} : w a b = some c → BracketSum fl w a b c
  | join {a b c : α} {x y : Rat} : BracketSum fl w a b x → BracketSum fl w b c y → BracketSum fl w a c (fl (x + y))

/-- the durations of a list of tasks, added from left to right to `acc` with rounding after every addition -/
def flDur (fl : Rat → Rat) (dur : α → Rat) : Rat → List α → Rat
  | acc, [] => acc
  | acc, x :: l => flDur fl dur (fl (acc + dur x)) l

/-- the durations of a list of tasks, subtracted from `T` from the last to the first with rounding after every subtraction -/
def flBack (fl : Rat → Rat) (dur : α → Rat) (T : Rat) : List α → Rat
  | [] => T
  | x :: l => fl (flBack fl dur T l - dur x)

/-- largest value of `f` on the lists with property `P` -/
def LargestOn (f : List α → Rat) (P : List α → Prop) (m : Rat) : Prop := (∃ p, P p ∧ f p = m) ∧ ∀ p, P p → f p ≤ m

/-- smallest value of `f` on the lists with property `P` -/
def SmallestOn (f : List α → Rat) (P : List α → Prop) (m : Rat) : Prop := (∃ p, P p ∧ f p = m) ∧ ∀ p, P p → m ≤ f p

theorem flCost_snoc {fl : Rat → Rat} {w : α → α → Option Rat} {p : List α} {acc c d : Rat} {x y : α} (hx : p.getLast? = some x)
    (h : flCost fl w acc p = some c) (hw : w x y = some d) : flCost fl w acc (p ++ [y]) = some (fl (c + d)) := by
  induction p generalizing acc with
  | nil => simp [flCost] at h
  | cons a l ih =>
    cases l with
    | nil =>
      simp at hx; subst hx
      simp only [flCost, Option.some.injEq] at h; subst h
      simp [flCost, hw]
    | cons b l =>
      simp only [flCost] at h
      simp only [List.cons_append, flCost]
      split at h
      · exact ih (by simpa using hx) h
      · cases h

/-- without rounding it is the sum -/
theorem flCost_id {w : α → α → Option Rat} (p : List α) (acc : Rat) : flCost id w acc p = (walkCost w p).map (acc + ·) := by
  induction p generalizing acc with
  | nil => rfl
  | cons a l ih =>
    cases l with
    | nil => simp only [flCost, walkCost, Option.map_some]; congr 1; grind
    | cons b l =>
      simp only [flCost, walkCost]
      cases w a b with
      | none => rfl
      | some c =>
        simp only [ih]
        cases walkCost w (b :: l) with
        | none => rfl
        | some d => simp only [Option.map_some, id]; congr 1; grind

end GT

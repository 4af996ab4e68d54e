import Verif.Spec.Tour
import Verif.Spec.Round
/-
Independent specification vocabulary: the rounded length of a round trip.  Nothing here refers to the model of the library.
-/
namespace GT
variable {α : Type}

/-- the values met when going from `a` through the nodes of the list (0 where there is no edge) -/
def stepVals (w : α → α → Option Rat) : α → List α → List Rat
  | _, [] => []
  | a, b :: l => (w a b).getD 0 :: stepVals w b l

/-- the values along the round trip, starting with the edge that closes it -/
def tourVals (w : α → α → Option Rat) (t : List α) : List Rat :=
  match t.getLast? with
  | none => []
  | some z => stepVals w z t

/-- the builtin `sum` on floats up to Python 3.11: additions from left to right, each of them rounded -/
def flAdd (fl : Rat → Rat) (l : List Rat) : Rat := l.foldl (fun s x => fl (s + x)) 0

/-- one step of the compensated summation; the state is (sum, correction) -/
def kahanStep (fl : Rat → Rat) (s : Rat × Rat) (x : Rat) : Rat × Rat :=
  let t := fl (s.1 + x)
  if s.1.abs ≥ x.abs then (t, fl (s.2 + fl (fl (s.1 - t) + x))) else (t, fl (s.2 + fl (fl (x - t) + s.1)))

/-- the builtin `sum` on floats since Python 3.12: Neumaier's compensated summation -/
def flKahan (fl : Rat → Rat) (l : List Rat) : Rat :=
  let r := l.foldl (kahanStep fl) (0, 0)
  fl (r.1 + r.2)

theorem stepVals_length (w : α → α → Option Rat) (l : List α) : ∀ a, (stepVals w a l).length = l.length := by
  induction l with
  | nil => intro a; rfl
  | cons b l ih => intro a; simp [stepVals, ih]

theorem stepVals_sum (w : α → α → Option Rat) (l : List α) : ∀ a, (stepVals w a l).sum = plen (totW w) (a :: l) := by
  induction l with
  | nil => intro a; rfl
  | cons b l ih => intro a; rw [stepVals, List.sum_cons, ih]; rfl

theorem tourVals_length (w : α → α → Option Rat) (t : List α) : (tourVals w t).length = t.length := by
  unfold tourVals
  split
  · rename_i h; rw [List.getLast?_eq_none_iff] at h; subst h; rfl
  · exact stepVals_length w t _

theorem tourVals_sum (w : α → α → Option Rat) (t : List α) : (tourVals w t).sum = clen (totW w) t := by
  unfold tourVals
  split
  · rename_i h; rw [List.getLast?_eq_none_iff] at h; subst h; rfl
  · rename_i z h
    rw [stepVals_sum]
    obtain ⟨m, rfl⟩ : ∃ m, t = m ++ [z] := List.getLast?_eq_some_iff.1 h
    cases m with
    | nil => simp [clen, plen]
    | cons x m =>
      simp only [List.cons_append, clen, List.append_assoc]
      have := plen_append2 (totW w) (x :: m) z x []
      simp only [List.cons_append, List.nil_append, plen] at this ⊢
      rw [this]; grind

theorem stepVals_getElem? (w : α → α → Option Rat) (l : List α) : ∀ (a : α) (i : Nat), (stepVals w a l)[i]? =
    match (a :: l)[i]?, l[i]? with
    | some x, some y => some (totW w x y)
    | _, _ => none := by
  induction l with
  | nil => intro a i; cases i <;> simp [stepVals]
  | cons b l ih =>
    intro a i
    cases i with
    | zero => simp [stepVals, totW]
    | succ i =>
      simp only [stepVals, List.getElem?_cons_succ]
      exact ih b i

end GT

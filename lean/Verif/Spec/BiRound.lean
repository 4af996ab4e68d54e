import Verif.Spec.Round
/-
Independent specification vocabulary: the length of a walk that is added up from both ends.  Nothing here refers to the model of the library.
-/
namespace GT
variable {α : Type}

/-- `c` is the length of the walk `p` as two searches that meet in a node of `p` compute it: the values before that node are added from the first edge on, the
values after it from the last edge backwards, then the two sums are added; every addition is rounded. -/
def MeetSum (fl : Rat → Rat) (w : α → α → Option Rat) (p : List α) (c : Rat) : Prop :=
  ∃ l x r f b, p = l ++ [x] ++ r ∧ flCost fl w 0 (l ++ [x]) = some f ∧ flCost fl (fun a b => w b a) 0 (r.reverse ++ [x]) = some b ∧ c = fl (f + b)

/-- the same for the reversed walk -/
theorem MeetSum.reverse {fl : Rat → Rat} {w : α → α → Option Rat} {p : List α} {c : Rat} (h : MeetSum fl w p c) : MeetSum fl (fun a b => w b a) p.reverse c := by
  obtain ⟨l, x, r, f, b, rfl, h2, h3, rfl⟩ := h
  exact ⟨r.reverse, x, l.reverse, b, f, by simp, h3, by simpa using h2, by rw [Rat.add_comm]⟩

end GT

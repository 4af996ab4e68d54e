import Verif.Py
/-
`sorted(l, key=…)` / `list.sort`: a stable sort, here insertion sort.  `lt a b` is `key(a) < key(b)`
(`key(b) < key(a)` for `reverse=True`, which is stable as well).
-/
namespace GT
variable {β : Type}

/-- insert before the first element that is not smaller -/
def insSorted (lt : β → β → Bool) (x : β) : List β → List β
  | [] => [x]
  | y :: l => if lt y x then y :: insSorted lt x l else x :: y :: l

/-- `sorted(l)` with respect to the strict order `lt` of the keys -/
def pySort (lt : β → β → Bool) : List β → List β
  | [] => []
  | x :: l => insSorted lt x (pySort lt l)

theorem insSorted_perm (lt : β → β → Bool) (x : β) (l : List β) : (insSorted lt x l).Perm (x :: l) := by
  induction l with
  | nil => exact .refl _
  | cons y l ih =>
    unfold insSorted
    split
    · exact (ih.cons y).trans (.swap x y l)
    · exact .refl _

theorem pySort_perm (lt : β → β → Bool) (l : List β) : (pySort lt l).Perm l := by
  induction l with
  | nil => exact .refl _
  | cons x l ih => exact (insSorted_perm lt x _).trans (ih.cons x)

theorem mem_pySort {lt : β → β → Bool} {l : List β} {x : β} : x ∈ pySort lt l ↔ x ∈ l :=
  (pySort_perm lt l).mem_iff

theorem insSorted_pairwise {lt : β → β → Bool} (htr : ∀ a b c, lt b a = false → lt c b = false → lt c a = false)
    (has : ∀ a b, lt a b = true → lt b a = false) (x : β) (l : List β)
    (h : l.Pairwise (fun a b => lt b a = false)) :
    (insSorted lt x l).Pairwise (fun a b => lt b a = false) := by
  induction l with
  | nil => simp [insSorted]
  | cons y l ih =>
    unfold insSorted
    rw [List.pairwise_cons] at h
    split
    · rename_i hlt
      rw [List.pairwise_cons]
      refine ⟨fun z hz => ?_, ih h.2⟩
      rw [(insSorted_perm lt x l).mem_iff, List.mem_cons] at hz
      rcases hz with rfl | hz
      · exact has _ _ hlt
      · exact h.1 z hz
    · rename_i hlt
      have hlt : lt y x = false := by simpa using hlt
      rw [List.pairwise_cons]
      refine ⟨fun z hz => ?_, List.pairwise_cons.2 h⟩
      rcases List.mem_cons.1 hz with rfl | hz
      · exact hlt
      · exact htr x y z hlt (h.1 z hz)

/-- the result is sorted, if `not (b < a)` is transitive and `<` is asymmetric -/
theorem pySort_pairwise {lt : β → β → Bool} (htr : ∀ a b c, lt b a = false → lt c b = false → lt c a = false)
    (has : ∀ a b, lt a b = true → lt b a = false) (l : List β) :
    (pySort lt l).Pairwise (fun a b => lt b a = false) := by
  induction l with
  | nil => simp [pySort]
  | cons x l ih => exact insSorted_pairwise htr has x _ ih

end GT

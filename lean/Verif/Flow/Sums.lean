import Verif.Spec.Flow
/-
Finite sums of rational numbers over lists.
-/
namespace GT
variable {α β : Type}

@[simp] theorem sumL_nil (f : β → Rat) : sumL [] f = 0 := rfl
theorem sumL_cons (a : β) (l : List β) (f : β → Rat) : sumL (a :: l) f = f a + sumL l f := by
  simp [sumL]

theorem sumL_congr {l : List β} {f g : β → Rat} (h : ∀ x ∈ l, f x = g x) : sumL l f = sumL l g := by
  unfold sumL; rw [List.map_congr_left h]

theorem sumL_add (l : List β) (f g : β → Rat) : sumL l (fun x => f x + g x) = sumL l f + sumL l g := by
  induction l with
  | nil => simp only [sumL_nil]; grind
  | cons a l ih => rw [sumL_cons, sumL_cons, sumL_cons, ih]; grind

theorem sumL_sub (l : List β) (f g : β → Rat) : sumL l (fun x => f x - g x) = sumL l f - sumL l g := by
  induction l with
  | nil => simp only [sumL_nil, List.nil_append]; grind
  | cons a l ih => rw [sumL_cons, sumL_cons, sumL_cons, ih]; grind

theorem sumL_zero (l : List β) : sumL l (fun _ => 0) = 0 := by
  induction l with
  | nil => rfl
  | cons a l ih => rw [sumL_cons, ih]; grind

theorem sumL_eq_zero {l : List β} {f : β → Rat} (h : ∀ x ∈ l, f x = 0) : sumL l f = 0 := by
  rw [sumL_congr h, sumL_zero]

theorem sumL_le {l : List β} {f g : β → Rat} (h : ∀ x ∈ l, f x ≤ g x) : sumL l f ≤ sumL l g := by
  induction l with
  | nil => exact Rat.le_refl
  | cons a l ih =>
    rw [sumL_cons, sumL_cons]
    have h1 := h a (by simp)
    have h2 := ih (fun x hx => h x (List.mem_cons_of_mem _ hx))
    grind

theorem sumL_nonneg {l : List β} {f : β → Rat} (h : ∀ x ∈ l, 0 ≤ f x) : 0 ≤ sumL l f := by
  have := sumL_le h; rw [sumL_zero] at this; exact this

theorem sumL_append (l m : List β) (f : β → Rat) : sumL (l ++ m) f = sumL l f + sumL m f := by
  induction l with
  | nil => simp only [sumL_nil, List.nil_append]; grind
  | cons a l ih => rw [List.cons_append, sumL_cons, sumL_cons, ih]; grind

theorem sumL_perm {l m : List β} (h : l.Perm m) (f : β → Rat) : sumL l f = sumL m f := by
  induction h with
  | nil => rfl
  | cons a _ ih => rw [sumL_cons, sumL_cons, ih]
  | swap a b l => rw [sumL_cons, sumL_cons, sumL_cons, sumL_cons]; grind
  | trans _ _ ih1 ih2 => rw [ih1, ih2]

theorem sumL_swap (l : List α) (m : List β) (f : α → β → Rat) :
    sumL l (fun x => sumL m (fun y => f x y)) = sumL m (fun y => sumL l (fun x => f x y)) := by
  induction l with
  | nil => simp only [sumL_nil]; rw [sumL_zero]
  | cons a l ih =>
    rw [sumL_cons, ih, ← sumL_add]
    exact sumL_congr (fun y _ => by rw [sumL_cons])

theorem sumL_single [DecidableEq β] {l : List β} (hl : l.Nodup) {x : β} (hx : x ∈ l) (c : Rat) :
    sumL l (fun y => if y = x then c else 0) = c := by
  induction l with
  | nil => cases hx
  | cons a l ih =>
    rw [List.nodup_cons] at hl
    rw [sumL_cons]
    by_cases ha : a = x
    · subst ha
      rw [if_pos rfl, sumL_eq_zero (fun y hy => if_neg (fun e : y = a => hl.1 (e ▸ hy)))]; grind
    · rw [if_neg ha]
      rcases List.mem_cons.1 hx with h | h
      · exact absurd h.symm ha
      · rw [ih hl.2 h]; grind

/-- the sum over a larger list whose other terms vanish -/
theorem sumL_subset [DecidableEq β] {K l : List β} (hK : K.Nodup) (hl : l.Nodup) (hKl : ∀ x ∈ K, x ∈ l) {f : β → Rat}
    (hz : ∀ x ∈ l, x ∉ K → f x = 0) : sumL l f = sumL K f := by
  induction K generalizing l with
  | nil => rw [sumL_nil]; exact sumL_eq_zero (fun x hx => hz x hx (by simp))
  | cons a K ih =>
    rw [List.nodup_cons] at hK
    have ha : a ∈ l := hKl a (by simp)
    have hp := List.perm_cons_erase ha
    rw [sumL_perm hp, sumL_cons, sumL_cons]
    congr 1
    apply ih hK.2 (hl.erase a)
    · intro x hx
      rw [hl.mem_erase_iff]
      exact ⟨fun e => hK.1 (e ▸ hx), hKl x (List.mem_cons_of_mem _ hx)⟩
    · intro x hx hxK
      rw [hl.mem_erase_iff] at hx
      exact hz x hx.2 (fun h => (List.mem_cons.1 h).elim hx.1 hxK)

theorem sumL_map {γ : Type} (l : List γ) (g : γ → β) (f : β → Rat) : sumL (l.map g) f = sumL l (fun x => f (g x)) := by
  unfold sumL; rw [List.map_map]; rfl

theorem sumL_le_single [DecidableEq β] {l : List β} {f : β → Rat} (hf : ∀ x ∈ l, 0 ≤ f x) {x : β} (hx : x ∈ l) : f x ≤ sumL l f := by
  induction l with
  | nil => cases hx
  | cons a l ih =>
    rw [sumL_cons]
    have h1 := hf a (by simp)
    have h2 := sumL_nonneg (fun x hx => hf x (List.mem_cons_of_mem _ hx) : ∀ x ∈ l, 0 ≤ f x)
    rcases List.mem_cons.1 hx with rfl | hx
    · grind
    · have := ih (fun x hx => hf x (List.mem_cons_of_mem _ hx)) hx
      grind

/-! ### flows -/

/-- what leaves `s` arrives at `t` -/
theorem IsFlow.value_at_end [DecidableEq α] {V : List α} (hV : V.Nodup) {cap : α → α → Option Rat} {s t : α} (hst : s ≠ t) (hs : s ∈ V)
    (ht : t ∈ V) {F : α → α → Rat} {val : Rat} (h : IsFlow V cap s t F val) :
    sumL V (fun y => F y t) - sumL V (fun y => F t y) = val := by
  have h0 : sumL V (fun x => sumL V (fun y => F x y) - sumL V (fun y => F y x)) = 0 := by
    rw [sumL_sub]
    rw [sumL_swap V V (fun x y => F x y)]
    grind
  have h1 : sumL V (fun x => sumL V (fun y => F x y) - sumL V (fun y => F y x)) =
      sumL V (fun x => (if x = s then val else 0) + (if x = t then sumL V (fun y => F t y) - sumL V (fun y => F y t) else 0)) := by
    refine sumL_congr (fun x hx => ?_)
    by_cases hxs : x = s
    · subst hxs
      rw [if_pos rfl, if_neg hst, h.value]; grind
    · rw [if_neg hxs]
      by_cases hxt : x = t
      · subst hxt; rw [if_pos rfl]; grind
      · rw [if_neg hxt, h.conserved x hx hxs hxt]; grind
  rw [h1, sumL_add, sumL_single hV hs, sumL_single hV ht] at h0
  grind

/-- the value is at most the total capacity leaving `s` and at most the total capacity entering `t` -/
theorem IsFlow.le_out {V : List α} {cap : α → α → Option Rat} {s t : α}
    {F : α → α → Rat} {val : Rat} (h : IsFlow V cap s t F val) : val ≤ sumL V (fun y => capOf cap s y) := by
  have h1 := sumL_le (l := V) (fun y _ => h.within s y)
  have h2 := sumL_nonneg (l := V) (fun y _ => h.nonneg y s)
  have := h.value
  grind

theorem IsFlow.le_in [DecidableEq α] {V : List α} (hV : V.Nodup) {cap : α → α → Option Rat} {s t : α} (hst : s ≠ t) (hs : s ∈ V)
    (ht : t ∈ V) {F : α → α → Rat} {val : Rat} (h : IsFlow V cap s t F val) : val ≤ sumL V (fun y => capOf cap y t) := by
  have h1 := sumL_le (l := V) (fun y _ => h.within y t)
  have h2 := sumL_nonneg (l := V) (fun y _ => h.nonneg t y)
  have := h.value_at_end hV hst hs ht
  grind

end GT

import Verif.Flow.MaxFlow
/-
Cuts: weak duality, and networks in which the blocking flow of `maximum_flow` is maximal.
-/
namespace GT
open Graph
variable {α O : Type} [DecidableEq α]

theorem IsFlow.across {V : List α} (hV : V.Nodup) {cap : α → α → Option Rat} {s t : α} (hs : s ∈ V) {F : α → α → Rat} {val : Rat}
    (h : IsFlow V cap s t F val) (S : α → Bool) (hS : S s = true) (hT : S t = false) :
    val = sumL V (fun x => sumL V (fun y => (if S x = true then F x y else 0) - (if S y = true then F x y else 0))) := by
  have h1 : sumL V (fun x => if S x = true then sumL V (fun y => F x y) - sumL V (fun y => F y x) else 0) = val := by
    rw [← sumL_single hV hs val]
    refine sumL_congr (fun x hx => ?_)
    by_cases hxs : x = s
    · subst hxs; rw [if_pos hS, if_pos rfl, h.value]
    · rw [if_neg hxs]
      by_cases hx2 : S x = true
      · rw [if_pos hx2, h.conserved x hx hxs (fun e => by subst e; rw [hT] at hx2; cases hx2)]; grind
      · rw [if_neg hx2]
  rw [← h1]
  have h2 : sumL V (fun x => sumL V (fun y => (if S x = true then F x y else 0) - (if S y = true then F x y else 0))) =
      sumL V (fun x => sumL V (fun y => (if S x = true then F x y else 0))) - sumL V (fun x => sumL V (fun y => if S y = true then F x y else 0)) := by
    rw [← sumL_sub]
    exact sumL_congr (fun x _ => sumL_sub _ _ _)
  rw [h2, sumL_swap V V (fun x y => if S y = true then F x y else 0), ← sumL_sub]
  refine sumL_congr (fun x _ => ?_)
  by_cases hx2 : S x = true
  · simp only [hx2, if_true]
  · rw [if_neg hx2, sumL_eq_zero (fun y _ => if_neg hx2), sumL_eq_zero (fun y _ => if_neg hx2)]; grind

/-- no flow is larger than a cut -/
theorem IsFlow.le_cut {V : List α} (hV : V.Nodup) {cap : α → α → Option Rat} {s t : α} (hs : s ∈ V) {F : α → α → Rat} {val : Rat}
    (h : IsFlow V cap s t F val) (S : α → Bool) (hS : S s = true) (hT : S t = false) : val ≤ cutCapacity V cap S := by
  rw [h.across hV hs S hS hT]
  refine sumL_le (fun x _ => sumL_le (fun y _ => ?_))
  have h1 := h.nonneg x y
  have h2 := h.within x y
  cases hx : S x <;> cases hy : S y <;> simp <;> grind

/-- a flow that fills a cut and does not flow back over it has the value of the cut -/
theorem IsFlow.eq_cut {V : List α} (hV : V.Nodup) {cap : α → α → Option Rat} {s t : α} (hs : s ∈ V) {F : α → α → Rat} {val : Rat}
    (h : IsFlow V cap s t F val) (S : α → Bool) (hS : S s = true) (hT : S t = false)
    (hfull : ∀ x y, S x = true → S y = false → F x y = capOf cap x y) (hback : ∀ x y, S x = false → S y = true → F x y = 0) :
    val = cutCapacity V cap S := by
  rw [h.across hV hs S hS hT]
  refine sumL_congr (fun x _ => sumL_congr (fun y _ => ?_))
  cases hx : S x <;> cases hy : S y
  · simp; grind
  · rw [hback x y hx hy]; simp; grind
  · rw [hfull x y hx hy]; simp; grind
  · simp; grind

theorem IsFlow.max_of_cut {V : List α} (hV : V.Nodup) {cap : α → α → Option Rat} {s t : α} (hs : s ∈ V) {F : α → α → Rat} {val : Rat}
    (h : IsFlow V cap s t F val) (S : α → Bool) (hS : S s = true) (hT : S t = false)
    (hfull : ∀ x y, S x = true → S y = false → F x y = capOf cap x y) (hback : ∀ x y, S x = false → S y = true → F x y = 0) :
    IsMaxFlowValue V cap s t val :=
  ⟨⟨F, h⟩, fun F' v' h' => by rw [h.eq_cut hV hs S hS hT hfull hback]; exact h'.le_cut hV hs S hS hT⟩

open Classical in
/-- a blocking flow is maximal if no inner node is entered by two edges -/
theorem IsFlow.max_of_noMerge {V : List α} (hV : V.Nodup) {cap : α → α → Option Rat} {s t : α} (hs : s ∈ V) {F : α → α → Rat} {val : Rat}
    (h : IsFlow V cap s t F val) (hb : Blocking cap s t F) (hin : ∀ a, F a s = 0) (hnm : NoMerge cap s t) :
    IsMaxFlowValue V cap s t val := by
  let R := fun a b => ∃ d, cap a b = some d ∧ F a b < d
  have hR : ∀ a b, R a b ↔ F a b < capOf cap a b := by
    intro a b
    constructor
    · rintro ⟨d, h1, h2⟩; unfold capOf; rw [h1]; exact h2
    · intro h1
      cases hc : cap a b with
      | none =>
        have := h.nonneg a b
        unfold capOf at h1; rw [hc] at h1
        simp at h1; grind
      | some d => unfold capOf at h1; rw [hc] at h1; exact ⟨d, hc, h1⟩
  refine h.max_of_cut hV hs (fun x => decide (Reach R s x)) (by simpa using ⟨0, .zero s⟩) (decide_eq_false hb) ?_ ?_
  · intro x y hx hy
    simp only [decide_eq_true_eq, decide_eq_false_iff_not] at hx hy
    apply Classical.byContradiction
    intro hne
    have h1 := h.within x y
    obtain ⟨n, hn⟩ := hx
    exact hy ⟨n + 1, .succ hn ((hR x y).2 (by grind))⟩
  · intro x y hx hy
    simp only [decide_eq_true_eq, decide_eq_false_iff_not] at hx hy
    apply Classical.byContradiction
    intro hne
    have h0 := h.nonneg x y
    have h1 := h.within x y
    have hys : y ≠ s := fun e => by subst e; exact hne (hin x)
    have hyt : y ≠ t := fun e => by subst e; exact hb hy
    obtain ⟨n, hn⟩ := hy
    cases hn with
    | zero => exact hys rfl
    | succ hn hr =>
      rename_i b
      have h2 := (hR b y).1 hr
      have h3 := h.nonneg b y
      have := hnm y hys hyt x b (by grind) (by grind)
      subst this
      exact hx ⟨_, hn⟩

open Classical in
/-- a blocking flow is maximal if no inner node is left by two edges -/
theorem IsFlow.max_of_noFork {V : List α} (hV : V.Nodup) {cap : α → α → Option Rat} {s t : α} (hs : s ∈ V) {F : α → α → Rat} {val : Rat}
    (h : IsFlow V cap s t F val) (hb : Blocking cap s t F) (hout : ∀ a, F t a = 0) (hnf : NoFork cap s t) :
    IsMaxFlowValue V cap s t val := by
  let R := fun a b => ∃ d, cap a b = some d ∧ F a b < d
  have hR : ∀ a b, R a b ↔ F a b < capOf cap a b := by
    intro a b
    constructor
    · rintro ⟨d, h1, h2⟩; unfold capOf; rw [h1]; exact h2
    · intro h1
      cases hc : cap a b with
      | none =>
        have := h.nonneg a b
        unfold capOf at h1; rw [hc] at h1
        simp at h1; grind
      | some d => unfold capOf at h1; rw [hc] at h1; exact ⟨d, hc, h1⟩
  refine h.max_of_cut hV hs (fun x => decide (¬ Reach R x t)) (decide_eq_true hb) (by simpa using ⟨0, .zero t⟩) ?_ ?_
  · intro x y hx hy
    simp only [decide_eq_true_eq, decide_eq_false_iff_not, Classical.not_not] at hx hy
    apply Classical.byContradiction
    intro hne
    have h1 := h.within x y
    obtain ⟨n, hn⟩ := hy
    exact hx ⟨n + 1, Steps.cons ((hR x y).2 (by grind)) hn⟩
  · intro x y hx hy
    simp only [decide_eq_true_eq, decide_eq_false_iff_not, Classical.not_not] at hx hy
    apply Classical.byContradiction
    intro hne
    have h0 := h.nonneg x y
    have h1 := h.within x y
    have hxt : x ≠ t := fun e => by subst e; exact hne (hout y)
    have hxs : x ≠ s := fun e => by subst e; exact hb hx
    obtain ⟨n, hn⟩ := hx
    cases n with
    | zero => cases hn; exact hxt rfl
    | succ n =>
      obtain ⟨b, hr, hn⟩ := Steps.head hn
      have h2 := (hR x b).1 hr
      have h3 := h.nonneg x b
      have := hnf x hxs hxt y b (by grind) (by grind)
      subst this
      exact hy ⟨_, hn⟩

end GT

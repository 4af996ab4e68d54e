import Verif.Spec.Round
import Verif.Spec.Dist
/-
Independent specification vocabulary: number types as a program sees them, by their operations only.
Nothing here refers to the model of the library.
-/
namespace GT
variable {α C V : Type}

/-- what can be done with sums (of type `C`) of values (of type `V`): start from 0, add a value, compare two sums with `<` and `==` -/
structure NumType (C V : Type) where
  zero : C
  add : C → V → C
  lt : C → C → Bool
  eq : C → C → Bool

/-- `not b < a` -/
def NumType.le (N : NumType C V) (a b : C) : Prop := N.lt b a = false

/-- the number type behaves: sums are ordered by `<` and `==`, adding a value respects the order, and adding a `good` value makes no `ok` sum smaller -/
structure NumType.Laws (N : NumType C V) (ok : C → Prop) (good : V → Prop) : Prop where
  irrefl : ∀ a, N.lt a a = false
  asymm : ∀ a b, N.lt a b = true → N.lt b a = false
  trans : ∀ a b c, N.le a b → N.le b c → N.le a c
  eq : ∀ a b, N.eq a b = true ↔ N.le a b ∧ N.le b a
  mono : ∀ a b v, good v → N.le a b → N.le (N.add a v) (N.add b v)
  ext : ∀ a v, ok a → good v → N.le a (N.add a v)
  ok_zero : ok N.zero
  ok_add : ∀ a v, ok a → good v → ok (N.add a v)

/-- the values along a node list, added from left to right to `acc`; `none` if some consecutive pair has no value or if the list is empty -/
def anyCost (N : NumType C V) (w : α → α → Option V) : C → List α → Option C
  | _, [] => none
  | acc, [_] => some acc
  | acc, a :: b :: l => match w a b with
    | some v => anyCost N w (N.add acc v) (b :: l)
    | none => none

/-- `p` is a walk from `a` to `b`, none of whose nodes is in `av`, and its values add up to `c` -/
def AnyWalk (N : NumType C V) (w : α → α → Option V) (av : List α) (a b : α) (p : List α) (c : C) : Prop :=
  p.head? = some a ∧ p.getLast? = some b ∧ anyCost N w N.zero p = some c ∧ ∀ x ∈ p, x ∉ av

/-! ### three number types -/

/-- rational numbers, with a rounding `fl` after every addition -/
def flNum (fl : Rat → Rat) : NumType Rat Rat where
  zero := 0
  add a v := fl (a + v)
  lt a b := decide (a < b)
  eq a b := decide (a = b)

/-- `a < b` for numbers with infinity -/
def Ext.below : Ext → Ext → Bool
  | .fin a, .fin b => decide (a < b)
  | .fin _, .inf => true
  | .inf, _ => false

/-- numbers with infinity, with rounding `fl`, where results above `M` are infinite.  `fl = id`, `M = inf`: exact numbers and `float('inf')`.
`fl = double`, `M` the largest `float`: Python's non-negative `float`s. -/
def extNum (fl : Rat → Rat) (M : Ext) : NumType Ext Ext where
  zero := .fin 0
  add
    | .fin a, .fin v => if M.below (.fin (fl (a + v))) then .inf else .fin (fl (a + v))
    | _, _ => .inf
  lt := Ext.below
  eq a b := decide (a = b)

/-- non-negative or infinite -/
def Ext.NonNeg : Ext → Prop
  | .fin q => 0 ≤ q
  | .inf => True

/-- numbers with infinity and `nan`: a sum with `nan` is `nan`, and `nan` compares false with everything -/
def nanNum : NumType (Option Ext) (Option Ext) where
  zero := some (.fin 0)
  add
    | some a, some v => some (a.add v)
    | _, _ => none
  lt
    | some a, some b => a.below b
    | _, _ => false
  eq
    | some a, some b => decide (a = b)
    | _, _ => false

theorem anyCost_snoc {N : NumType C V} {w : α → α → Option V} {p : List α} {acc c : C} {d : V} {x y : α} (hx : p.getLast? = some x)
    (h : anyCost N w acc p = some c) (hw : w x y = some d) : anyCost N w acc (p ++ [y]) = some (N.add c d) := by
  induction p generalizing acc with
  | nil => simp [anyCost] at h
  | cons a l ih =>
    cases l with
    | nil =>
      simp at hx; subst hx
      simp only [anyCost, Option.some.injEq] at h; subst h
      simp [anyCost, hw]
    | cons b l =>
      simp only [anyCost] at h
      simp only [List.cons_append, anyCost]
      split at h
      · exact ih (by simpa using hx) h
      · cases h

theorem flNum_laws {fl : Rat → Rat} (h : Rounding fl) : (flNum fl).Laws (fun a => fl a = a) (fun v => 0 ≤ v) := by
  have hl : ∀ a b : Rat, (flNum fl).le a b ↔ a ≤ b := fun a b => by
    simp only [NumType.le, flNum, decide_eq_false_iff_not]; grind
  refine ⟨fun a => ?_, fun a b hab => ?_, fun a b c => ?_, fun a b => ?_, fun a b v hv => ?_, fun a v ha hv => ?_, h.zero, fun a v _ _ => h.idem _⟩
  · simp only [flNum, decide_eq_false_iff_not]; grind
  · simp only [flNum, decide_eq_true_eq, decide_eq_false_iff_not] at *; grind
  · simp only [hl]; grind
  · simp only [hl]; simp only [flNum, decide_eq_true_eq]; grind
  · simp only [hl]; intro hab; exact h.mono _ _ (by grind)
  · simp only [hl]
    have := h.mono a (a + v) (by grind)
    show a ≤ fl (a + v)
    rw [ha] at this; exact this

theorem Ext.below_false {a b : Ext} : b.below a = false ↔ a.le b := by
  cases a <;> cases b <;> simp [Ext.below, Ext.le] <;> grind

theorem extNum_laws {fl : Rat → Rat} (h : Rounding fl) {M : Ext} (hM : (Ext.fin 0).le M) :
    (extNum fl M).Laws (fun a => ∀ q, a = .fin q → fl q = q ∧ (Ext.fin q).le M) Ext.NonNeg := by
  have hl : ∀ a b : Ext, (extNum fl M).le a b ↔ a.le b := fun a b => Ext.below_false
  have hlt : ∀ a b : Ext, (extNum fl M).lt a b = a.below b := fun a b => rfl
  have hadd : ∀ a v : Rat, (M.below (.fin (fl (a + v))) = true ∧ (extNum fl M).add (.fin a) (.fin v) = .inf) ∨
      ((Ext.fin (fl (a + v))).le M ∧ (extNum fl M).add (.fin a) (.fin v) = .fin (fl (a + v))) := by
    intro a v
    cases hb : M.below (.fin (fl (a + v))) with
    | true => exact .inl ⟨rfl, by simp only [extNum, hb, if_true]⟩
    | false => exact .inr ⟨Ext.below_false.1 hb, by simp [extNum, hb]⟩
  refine ⟨fun a => ?_, fun a b hab => ?_, fun a b c => ?_, fun a b => ?_, fun a b v hv => ?_, fun a v ha hv => ?_, ?_, fun a v _ _ => ?_⟩
  · rw [hlt, Ext.below_false]; cases a <;> simp [Ext.le, Rat.le_refl]
  · rw [hlt, Ext.below_false]; rw [hlt] at hab
    cases a <;> cases b <;> simp_all [Ext.below, Ext.le]; grind
  · simp only [hl]; cases a <;> cases b <;> cases c <;> simp [Ext.le]; grind
  · simp only [hl]; simp only [extNum, decide_eq_true_eq]
    cases a <;> cases b <;> simp [Ext.le]; grind
  · simp only [hl]; intro hab
    cases b with
    | inf => show Ext.le _ .inf; simp [Ext.le]
    | fin b =>
      cases a with
      | inf => simp [Ext.le] at hab
      | fin a =>
        cases v with
        | inf => show Ext.le .inf .inf; simp [Ext.le]
        | fin v =>
          have hm := h.mono (a + v) (b + v) (by simp only [Ext.le] at hab; grind)
          rcases hadd b v with ⟨_, h2⟩ | ⟨h1, h2⟩
          · rw [h2]; simp [Ext.le]
          · rcases hadd a v with ⟨h3, _⟩ | ⟨_, h4⟩
            · exfalso
              have h5 : M.below (.fin (fl (a + v))) = false := by
                rw [Ext.below_false]
                cases M <;> simp [Ext.le] at *; grind
              rw [h5] at h3; cases h3
            · rw [h2, h4]; exact hm
  · simp only [hl]
    cases a with
    | inf => show Ext.le _ .inf; simp [Ext.le]
    | fin a =>
      cases v with
      | inf => show Ext.le _ .inf; simp [Ext.le]
      | fin v =>
        have hm := h.mono a (a + v) (by simp only [Ext.NonNeg] at hv; grind)
        rw [(ha a rfl).1] at hm
        rcases hadd a v with ⟨_, h2⟩ | ⟨_, h2⟩ <;> rw [h2]
        · simp [Ext.le]
        · exact hm
  · intro q hq
    cases hq
    exact ⟨h.zero, hM⟩
  · intro q hq
    cases a with
    | inf => cases hq
    | fin a =>
      cases v with
      | inf => cases hq
      | fin v =>
        rcases hadd a v with ⟨_, h2⟩ | ⟨h1, h2⟩ <;> rw [h2] at hq
        · cases hq
        · cases hq; exact ⟨h.idem _, h1⟩

end GT

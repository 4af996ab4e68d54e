import Verif.Spec.Flow
import Verif.Spec.Round
import Verif.Spec.Double
/-
Independent specification vocabulary: flows that are put together from paths in rounded (floating point) arithmetic.
Nothing here refers to the model of the library.
-/
namespace GT
variable {α : Type} [DecidableEq α]

/-- the difference of two rounded numbers that differ by a factor of at most 2 is exact (Sterbenz' lemma, a property of IEEE 754
arithmetic: `double_sterbenz`) -/
def Sterbenz (fl : Rat → Rat) : Prop := ∀ x y, fl x = x → fl y = y → x / 2 ≤ y → y ≤ x → fl (x - y) = x - y

/-- what a `sum` of non-negative numbers must satisfy whatever its rounding: it is not negative, and zero for zeros only -/
def SumLike (sum : List Rat → Rat) : Prop := ∀ l, (∀ x ∈ l, 0 ≤ x) → 0 ≤ sum l ∧ (sum l = 0 ↔ ∀ x ∈ l, x = 0)

/-- the numbers of the list, added from left to right with rounding after every addition -/
def flTotal (fl : Rat → Rat) (l : List Rat) : Rat := l.foldl (fun t x => fl (t + x)) 0

/-- what goes through the edge from `a` to `b` after the amounts have been sent along the paths, one after the other, rounded after
every addition; `none` if no path has this edge -/
def sentFl (fl : Rat → Rat) (L : List (List α × Rat)) (a b : α) : Option Rat :=
  L.foldl (fun o pq => if (a, b) ∈ pq.1.zip pq.1.tail then some (match o with
    | none => pq.2
    | some v => fl (v + pq.2)) else o) none

/-- what goes through the edge from `a` to `b`, exactly -/
def sentOf (L : List (List α × Rat)) (a b : α) : Rat := sumL L (fun pq => if (a, b) ∈ pq.1.zip pq.1.tail then pq.2 else 0)

/-- what is left of `u` after the amounts have been subtracted one after the other, rounded after every subtraction -/
def restFl (fl : Rat → Rat) (u : Rat) (L : List (List α × Rat)) : Rat := L.foldl (fun t pq => fl (t - pq.2)) u

/-- every path leads from `s` to `t` along edges with capacity and visits no node twice, and every amount is positive -/
def PathsOf (cap : α → α → Option Rat) (s t : α) (L : List (List α × Rat)) : Prop :=
  ∀ pq ∈ L, 0 < pq.2 ∧ WalkFT (fun a b => 0 < capOf cap a b) s t pq.1 ∧ pq.1.Nodup

omit [DecidableEq α] in
/-- Sterbenz' lemma for doubles -/
theorem double_sterbenz : Sterbenz double := by
  intro x y hx hy h1 h2
  by_cases hx0 : x ≤ 0
  · have : x = y := by grind
    subst this
    rw [show x - x = 0 by grind]; rfl
  have hx1 : 0 < x := by grind
  have hy1 : 0 < y := by grind
  rw [double_pos hx1] at hx
  rw [double_pos hy1] at hy
  have he := expo_mono hy1 h2
  obtain ⟨n, hn⟩ : ∃ n : Nat, expo x - 52 = (n : Int) + (expo y - 52) := ⟨(expo x - expo y).toNat, by omega⟩
  have hm := (mantissa_bounds hy1)
  unfold roundPos at hx hy
  generalize roundEven (x / pow2 (expo x - 52)) = mx at hx
  generalize roundEven (y / pow2 (expo y - 52)) = my at hy hm
  rw [hn, pow2_add, pow2_nat] at hx
  generalize hP : pow2 (expo y - 52) = P at hx hy
  have hP0 : 0 < P := by rw [← hP]; exact pow2_pos _
  have hd : x - y = ((mx * ((2 ^ n : Nat) : Int) - my : Int) : Rat) * P := by
    rw [Rat.intCast_sub, Rat.intCast_mul, Rat.intCast_natCast]; grind
  by_cases hz : x - y = 0
  · rw [hz]; rfl
  have hd0 : 0 < x - y := by grind
  have hle : x - y ≤ y := by grind
  generalize mx * ((2 ^ n : Nat) : Int) - my = k at hd
  have hk0 : 0 < k := by
    have : 0 < (k : Rat) := by
      by_cases h : 0 < (k : Rat)
      · exact h
      · exfalso
        have := Rat.mul_le_mul_of_nonneg_right (show (k : Rat) ≤ 0 by grind) (Rat.le_of_lt hP0)
        grind
    exact Rat.intCast_lt_intCast.1 (by simpa using this)
  have hk1 : k ≤ my := by
    have : (k : Rat) ≤ (my : Rat) := by
      have h3 : (k : Rat) * P ≤ (my : Rat) * P := by grind
      exact Rat.le_of_mul_le_mul_right h3 hP0
    exact Rat.intCast_le_intCast.1 this
  rw [double_pos hd0, hd, ← hP, roundPos_exact hk0 (by omega)]

theorem flTotal_like {fl : Rat → Rat} {ε : Rat} (hfl : Rounding fl) (he : RelErr fl ε) (h1 : ε < 1) : SumLike (flTotal fl) := by
  have key : ∀ l : List Rat, (∀ x ∈ l, 0 ≤ x) → ∀ t, 0 ≤ t →
      0 ≤ l.foldl (fun t x => fl (t + x)) t ∧ (l.foldl (fun t x => fl (t + x)) t = 0 ↔ t = 0 ∧ ∀ x ∈ l, x = 0) := by
    intro l
    induction l with
    | nil => intro _ t ht; exact ⟨ht, by simp⟩
    | cons a l ih =>
      intro h t ht
      have ha := h a List.mem_cons_self
      obtain ⟨h2, -⟩ := he (t + a) (by grind)
      have h3 : 0 ≤ (1 - ε) * (t + a) := Rat.mul_nonneg (by grind) (by grind)
      have h4 : fl (t + a) = 0 ↔ t = 0 ∧ a = 0 := by
        constructor
        · intro h5
          have h6 : ¬ 0 < t + a := by
            intro h7
            have := Rat.mul_pos (show 0 < 1 - ε by grind) h7
            grind
          constructor <;> grind
        · rintro ⟨rfl, rfl⟩
          rw [show (0 : Rat) + 0 = 0 by grind, hfl.zero]
      obtain ⟨h5, h6⟩ := ih (fun x hx => h x (List.mem_cons_of_mem _ hx)) (fl (t + a)) (by grind)
      refine ⟨h5, ?_⟩
      show l.foldl (fun t x => fl (t + x)) (fl (t + a)) = 0 ↔ _
      rw [h6, h4, List.forall_mem_cons, and_assoc]
  intro l hl
  obtain ⟨h2, h3⟩ := key l hl 0 Rat.le_refl
  exact ⟨h2, by unfold flTotal; rw [h3]; simp⟩

theorem sentFl_snoc (fl : Rat → Rat) (L : List (List α × Rat)) (p : List α) (q : Rat) (a b : α) :
    sentFl fl (L ++ [(p, q)]) a b = if (a, b) ∈ p.zip p.tail then some (match sentFl fl L a b with
      | none => q
      | some v => fl (v + q)) else sentFl fl L a b := by
  unfold sentFl; rw [List.foldl_append]; rfl

omit [DecidableEq α] in
theorem restFl_snoc (fl : Rat → Rat) (u : Rat) (L : List (List α × Rat)) (p : List α) (q : Rat) :
    restFl fl u (L ++ [(p, q)]) = fl (restFl fl u L - q) := by
  unfold restFl; rw [List.foldl_append]; rfl

omit [DecidableEq α] in
theorem flTotal_snoc (fl : Rat → Rat) (L : List (List α × Rat)) (p : List α) (q : Rat) :
    flTotal fl ((L ++ [(p, q)]).map (·.2)) = fl (flTotal fl (L.map (·.2)) + q) := by
  unfold flTotal; rw [List.map_append, List.foldl_append]; rfl

end GT

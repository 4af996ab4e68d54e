import Verif.Spec.Round
/-
Independent specification vocabulary: rounding to IEEE 754 double precision ("round to nearest, ties to even"), the arithmetic of Python's
`float`.  Nothing here refers to the model of the library.

The exponent is unbounded: overflow to `inf` is not represented, and gradual underflow needs no treatment, because the sum of two doubles
that lies below the normal range is a double.
-/
namespace GT

/-- `2 ^ e` -/
def pow2 (e : Int) : Rat := (2 : Rat) ^ e

/-- the doubles: numbers with at most 53 binary digits -/
def IsDouble (q : Rat) : Prop := ∃ m e : Int, m.natAbs < 2 ^ 53 ∧ q = (m : Rat) * pow2 e

/-- the exponent of the leading binary digit of `q > 0` -/
def expo (q : Rat) : Int :=
  let e : Int := (Nat.log2 q.num.toNat : Int) - (Nat.log2 q.den : Int)
  if q < pow2 e then e - 1 else e

/-- the nearest integer, the even one of two -/
def roundEven (q : Rat) : Int :=
  let f := q.floor
  if q - f < 1 / 2 then f else if 1 / 2 < q - f then f + 1 else if f % 2 = 0 then f else f + 1

/-- for `q > 0`: 53 binary digits of `q`, rounded to nearest -/
def roundPos (q : Rat) : Rat := (roundEven (q / pow2 (expo q - 52)) : Rat) * pow2 (expo q - 52)

/-- rounding to the nearest double -/
def double (q : Rat) : Rat := if 0 < q then roundPos q else if q < 0 then -roundPos (-q) else 0

/-! ### powers of two -/

theorem pow2_pos (e : Int) : 0 < pow2 e := Rat.zpow_pos (by decide)

theorem pow2_add (a b : Int) : pow2 (a + b) = pow2 a * pow2 b := Rat.zpow_add (by decide) a b

theorem pow2_zero : pow2 0 = 1 := Rat.zpow_zero 2

theorem pow2_succ (e : Int) : pow2 (e + 1) = pow2 e * 2 := by
  rw [pow2_add]; congr 1

theorem pow2_nat (n : Nat) : pow2 (n : Int) = ((2 ^ n : Nat) : Rat) := by
  induction n with
  | zero => rw [show ((0 : Nat) : Int) = 0 from rfl, pow2_zero]; rfl
  | succ n ih => rw [Int.natCast_succ, pow2_succ, ih, Nat.pow_succ, Rat.natCast_mul]; rfl

theorem one_le_pow2 {n : Int} (h : 0 ≤ n) : 1 ≤ pow2 n := by
  obtain ⟨k, rfl⟩ := Int.eq_ofNat_of_zero_le h
  rw [pow2_nat]
  have : 1 ≤ 2 ^ k := Nat.one_le_two_pow
  exact_mod_cast this

theorem pow2_mono {a b : Int} (h : a ≤ b) : pow2 a ≤ pow2 b := by
  have h1 := one_le_pow2 (n := b - a) (by omega)
  have h2 : pow2 b = pow2 a * pow2 (b - a) := by rw [← pow2_add]; congr 1; omega
  rw [h2]
  have := Rat.mul_le_mul_of_nonneg_left h1 (Rat.le_of_lt (pow2_pos a))
  simpa using this

theorem pow2_lt_iff {a b : Int} : pow2 a < pow2 b ↔ a < b := by
  constructor
  · intro h
    by_cases hab : a < b
    · exact hab
    · have := pow2_mono (show b ≤ a by omega)
      grind
  · intro h
    have h1 := pow2_mono (show a + 1 ≤ b by omega)
    have h2 := pow2_pos a
    rw [pow2_succ] at h1
    grind

/-! ### the exponent -/

theorem expo_spec {q : Rat} (hq : 0 < q) : pow2 (expo q) ≤ q ∧ q < pow2 (expo q + 1) := by
  have hn : 0 < q.num := by
    have h1 : 0 ≤ q.num := Rat.num_nonneg.2 (Rat.le_of_lt hq)
    have h2 : q.num ≠ 0 := fun h => by rw [Rat.num_eq_zero] at h; grind
    omega
  obtain ⟨n, hn'⟩ : ∃ n : Nat, q.num = n := Int.eq_ofNat_of_zero_le (by omega)
  have hn0 : n ≠ 0 := by omega
  have hd0 : q.den ≠ 0 := q.den_nz
  have hqd : q * (q.den : Rat) = (n : Rat) := by
    have h1 := Rat.mkRat_self q
    rw [Rat.mkRat_eq_div, hn'] at h1
    have h2 : (q.den : Rat) ≠ 0 := by exact_mod_cast hd0
    have h3 : ((n : Int) : Rat) = (n : Rat) := rfl
    rw [h3] at h1
    generalize (q.den : Rat) = D at *
    rw [← h1]; grind
  have a1 : pow2 (n.log2 : Int) ≤ (n : Rat) := by rw [pow2_nat]; exact_mod_cast Nat.log2_self_le hn0
  have a2 : (n : Rat) < pow2 ((n.log2 : Int) + 1) := by
    rw [← Int.natCast_succ, pow2_nat]; exact_mod_cast Nat.lt_log2_self
  have b1 : pow2 (q.den.log2 : Int) ≤ (q.den : Rat) := by rw [pow2_nat]; exact_mod_cast Nat.log2_self_le hd0
  have b2 : (q.den : Rat) < pow2 ((q.den.log2 : Int) + 1) := by
    rw [← Int.natCast_succ, pow2_nat]; exact_mod_cast Nat.lt_log2_self
  have he : expo q = if q < pow2 ((n.log2 : Int) - (q.den.log2 : Int)) then (n.log2 : Int) - (q.den.log2 : Int) - 1
      else (n.log2 : Int) - (q.den.log2 : Int) := by
    unfold expo; rw [hn']; rfl
  generalize hk : (n.log2 : Int) - (q.den.log2 : Int) = k at he
  have hka : pow2 (n.log2 : Int) = pow2 k * pow2 (q.den.log2 : Int) := by rw [← pow2_add]; congr 1; omega
  have hB := pow2_pos (q.den.log2 : Int)
  have hK := pow2_pos k
  rw [pow2_succ] at a2 b2
  rw [hka] at a1 a2
  generalize pow2 (q.den.log2 : Int) = B at *
  generalize (q.den : Rat) = D at *
  have hD : 0 < D := by grind
  have hK1 : pow2 (k - 1) * 2 = pow2 k := by rw [← pow2_succ]; congr 1; omega
  -- K*B ≤ q*D < 2*K*B and B ≤ D < 2*B
  rw [← hqd] at a1 a2
  have lo : pow2 (k - 1) ≤ q := by
    apply Rat.not_lt.1
    intro hlt
    have h1 : q * D ≤ pow2 (k - 1) * D := Rat.mul_le_mul_of_nonneg_right (Rat.le_of_lt hlt) (Rat.le_of_lt hD)
    have h2 : pow2 (k - 1) * D < pow2 (k - 1) * (B * 2) := Rat.mul_lt_mul_of_pos_left b2 (pow2_pos _)
    have h3 : pow2 (k - 1) * (B * 2) = pow2 k * B := by rw [← hK1]; grind
    grind
  have hi : q < pow2 (k + 1) := by
    apply Rat.not_le.1
    intro hle
    have h1 : pow2 (k + 1) * D ≤ q * D := Rat.mul_le_mul_of_nonneg_right hle (Rat.le_of_lt hD)
    have h2 : pow2 (k + 1) * B ≤ pow2 (k + 1) * D := Rat.mul_le_mul_of_nonneg_left b1 (Rat.le_of_lt (pow2_pos _))
    rw [pow2_succ] at h1 h2
    have h3 : pow2 k * 2 * B = pow2 k * B * 2 := by grind
    grind
  rw [he]
  split
  · rename_i hlt
    exact ⟨lo, by rw [show k - 1 + 1 = k by omega]; exact hlt⟩
  · rename_i hge
    exact ⟨Rat.not_lt.1 hge, hi⟩

theorem expo_unique {q : Rat} {e : Int} (h1 : pow2 e ≤ q) (h2 : q < pow2 (e + 1)) : expo q = e := by
  have hq : 0 < q := by have := pow2_pos e; grind
  obtain ⟨h3, h4⟩ := expo_spec hq
  have h5 : e < expo q + 1 := pow2_lt_iff.1 (by grind)
  have h6 : expo q < e + 1 := pow2_lt_iff.1 (by grind)
  omega

theorem expo_mono {x y : Rat} (hx : 0 < x) (h : x ≤ y) : expo x ≤ expo y := by
  have hy : 0 < y := by grind
  have h1 := (expo_spec hx).1
  have h2 := (expo_spec hy).2
  have := pow2_lt_iff.1 (show pow2 (expo x) < pow2 (expo y + 1) by grind)
  omega

/-! ### rounding to integers -/

theorem roundEven_cases (q : Rat) : (roundEven q = q.floor ∧ q - q.floor ≤ 1 / 2) ∨ (roundEven q = q.floor + 1 ∧ 1 / 2 ≤ q - q.floor) := by
  unfold roundEven
  simp only
  split
  · left; exact ⟨rfl, by grind⟩
  · split
    · right; exact ⟨rfl, by grind⟩
    · split
      · left; exact ⟨rfl, by grind⟩
      · right; exact ⟨rfl, by grind⟩

theorem roundEven_int (z : Int) : roundEven (z : Rat) = z := by
  unfold roundEven
  simp only [Rat.floor_intCast]
  rw [if_pos (by grind)]

theorem floor_bounds (q : Rat) : (q.floor : Rat) ≤ q ∧ q < (q.floor : Rat) + 1 := by
  refine ⟨Rat.floor_le q, ?_⟩
  have := Rat.lt_floor_add_one q
  simpa [Rat.intCast_add] using this

theorem roundEven_mono {x y : Rat} (h : x ≤ y) : roundEven x ≤ roundEven y := by
  have hf : x.floor ≤ y.floor := Rat.floor_monotone h
  by_cases he : x.floor = y.floor
  · unfold roundEven
    simp only [he]
    repeat' split
    all_goals first
      | omega
      | (exfalso; grind)
  · rcases roundEven_cases x with ⟨h1, _⟩ | ⟨h1, _⟩ <;> rcases roundEven_cases y with ⟨h2, _⟩ | ⟨h2, _⟩ <;> omega

theorem roundEven_near (q : Rat) : (roundEven q : Rat) - q ≤ 1 / 2 ∧ q - (roundEven q : Rat) ≤ 1 / 2 := by
  obtain ⟨h1, h2⟩ := floor_bounds q
  rcases roundEven_cases q with ⟨h3, h4⟩ | ⟨h3, h4⟩
  · rw [h3]; constructor <;> grind
  · rw [h3]; simp only [Rat.intCast_add, show ((1 : Int) : Rat) = 1 from rfl]; constructor <;> grind

/-- no integer is nearer -/
theorem roundEven_nearest (q : Rat) (z : Int) : ((roundEven q : Rat) - q).abs ≤ ((z : Rat) - q).abs := by
  obtain ⟨h1, h2⟩ := roundEven_near q
  by_cases hz : z = roundEven q
  · rw [hz]; exact Rat.le_refl
  · have h3 : ((roundEven q : Rat) - q).abs ≤ 1 / 2 := by unfold Rat.abs; split <;> grind
    have h4 : 1 / 2 ≤ ((z : Rat) - q).abs := by
      rcases Int.lt_or_gt_of_ne hz with h | h
      · have : (z : Rat) + 1 ≤ (roundEven q : Rat) := by
          have := Rat.intCast_le_intCast.2 (show z + 1 ≤ roundEven q by omega)
          simpa [Rat.intCast_add] using this
        unfold Rat.abs; split <;> grind
      · have : (roundEven q : Rat) + 1 ≤ (z : Rat) := by
          have := Rat.intCast_le_intCast.2 (show roundEven q + 1 ≤ z by omega)
          simpa [Rat.intCast_add] using this
        unfold Rat.abs; split <;> grind
    grind

/-! ### rounding of positive numbers -/

theorem scaled_bounds {q : Rat} (hq : 0 < q) :
    ((2 ^ 52 : Int) : Rat) ≤ q / pow2 (expo q - 52) ∧ q / pow2 (expo q - 52) < ((2 ^ 53 : Int) : Rat) := by
  obtain ⟨h1, h2⟩ := expo_spec hq
  have hu := pow2_pos (expo q - 52)
  have e1 : pow2 (expo q) = ((2 ^ 52 : Int) : Rat) * pow2 (expo q - 52) := by
    have : ((2 ^ 52 : Int) : Rat) = pow2 52 := by decide +kernel
    rw [this, ← pow2_add]; congr 1; omega
  have e2 : pow2 (expo q + 1) = ((2 ^ 53 : Int) : Rat) * pow2 (expo q - 52) := by
    have : ((2 ^ 53 : Int) : Rat) = pow2 53 := by decide +kernel
    rw [this, ← pow2_add]; congr 1; omega
  rw [e1] at h1; rw [e2] at h2
  have hq' : q = q / pow2 (expo q - 52) * pow2 (expo q - 52) := by grind
  generalize q / pow2 (expo q - 52) = r at *
  constructor
  · apply Rat.not_lt.1; intro hlt
    have := Rat.mul_lt_mul_of_pos_right hlt hu
    grind
  · apply Rat.not_le.1; intro hle
    have := Rat.mul_le_mul_of_nonneg_right hle (Rat.le_of_lt hu)
    grind

theorem mantissa_bounds {q : Rat} (hq : 0 < q) :
    2 ^ 52 ≤ roundEven (q / pow2 (expo q - 52)) ∧ roundEven (q / pow2 (expo q - 52)) ≤ 2 ^ 53 := by
  obtain ⟨h1, h2⟩ := scaled_bounds hq
  have h3 := roundEven_mono h1
  have h4 := roundEven_mono (Rat.le_of_lt h2)
  rw [roundEven_int] at h3 h4
  exact ⟨h3, h4⟩

theorem pow2_52 (e : Int) : ((2 ^ 52 : Int) : Rat) * pow2 (e - 52) = pow2 e := by
  have : ((2 ^ 52 : Int) : Rat) = pow2 52 := by decide +kernel
  rw [this, ← pow2_add]; congr 1; omega

theorem pow2_53 (e : Int) : ((2 ^ 53 : Int) : Rat) * pow2 (e - 52) = pow2 (e + 1) := by
  have : ((2 ^ 53 : Int) : Rat) = pow2 53 := by decide +kernel
  rw [this, ← pow2_add]; congr 1; omega

theorem roundPos_bounds {q : Rat} (hq : 0 < q) : pow2 (expo q) ≤ roundPos q ∧ roundPos q ≤ pow2 (expo q + 1) := by
  obtain ⟨h1, h2⟩ := mantissa_bounds hq
  have hu := Rat.le_of_lt (pow2_pos (expo q - 52))
  unfold roundPos
  rw [← pow2_52, ← pow2_53]
  exact ⟨Rat.mul_le_mul_of_nonneg_right (Rat.intCast_le_intCast.2 h1) hu,
    Rat.mul_le_mul_of_nonneg_right (Rat.intCast_le_intCast.2 h2) hu⟩

theorem roundPos_pos {q : Rat} (hq : 0 < q) : 0 < roundPos q := by
  have := (roundPos_bounds hq).1; have := pow2_pos (expo q); grind

theorem roundPos_mono {x y : Rat} (hx : 0 < x) (h : x ≤ y) : roundPos x ≤ roundPos y := by
  have hy : 0 < y := by grind
  rcases Int.lt_or_eq_of_le (expo_mono hx h) with he | he
  · have h1 := (roundPos_bounds hx).2
    have h2 := (roundPos_bounds hy).1
    have h3 := pow2_mono (show expo x + 1 ≤ expo y by omega)
    grind
  · unfold roundPos
    rw [he]
    have hu := pow2_pos (expo y - 52)
    refine Rat.mul_le_mul_of_nonneg_right (Rat.intCast_le_intCast.2 (roundEven_mono ?_)) (Rat.le_of_lt hu)
    rw [Rat.div_def, Rat.div_def]
    exact Rat.mul_le_mul_of_nonneg_right h (Rat.le_of_lt (Rat.inv_pos.2 hu))

/-- a number with at most 53 digits is left as it is -/
theorem roundPos_exact {m e : Int} (h0 : 0 < m) (h : m ≤ 2 ^ 53) : roundPos ((m : Rat) * pow2 e) = (m : Rat) * pow2 e := by
  have hm : 0 < (m : Rat) := by exact_mod_cast h0
  have hq : 0 < (m : Rat) * pow2 e := Rat.mul_pos hm (pow2_pos e)
  generalize hk : expo ((m : Rat) * pow2 e) - 52 = k
  have hle : expo ((m : Rat) * pow2 e) ≤ e + 53 := by
    have h1 : (m : Rat) * pow2 e ≤ pow2 (e + 53) := by
      rw [pow2_add, Rat.mul_comm (pow2 e)]
      have : ((2 ^ 53 : Int) : Rat) = pow2 53 := by decide +kernel
      rw [← this]
      exact Rat.mul_le_mul_of_nonneg_right (Rat.intCast_le_intCast.2 h) (Rat.le_of_lt (pow2_pos e))
    have h2 := (expo_spec hq).1
    have : expo ((m : Rat) * pow2 e) < e + 53 + 1 := pow2_lt_iff.1 (by rw [pow2_succ]; have := pow2_pos (e + 53); grind)
    omega
  have key : ∃ z : Int, (m : Rat) * pow2 e = (z : Rat) * pow2 k := by
    by_cases hek : k ≤ e
    · obtain ⟨n, hn⟩ := Int.eq_ofNat_of_zero_le (show 0 ≤ e - k by omega)
      refine ⟨m * 2 ^ n, ?_⟩
      have : pow2 e = pow2 (n : Int) * pow2 k := by rw [← pow2_add]; congr 1; omega
      rw [this, pow2_nat, Rat.intCast_mul]
      have : (((2 ^ n : Nat) : Nat) : Rat) = ((2 ^ n : Int) : Rat) := by
        rw [← Rat.intCast_natCast]; congr 1
      rw [this]; grind
    · -- the mantissa is 2 ^ 53
      have h1 : k = e + 1 := by omega
      have h2 := (expo_spec hq).1
      rw [show expo ((m : Rat) * pow2 e) = e + 53 by omega] at h2
      have h3 : ((2 ^ 53 : Int) : Rat) ≤ (m : Rat) := by
        apply Rat.not_lt.1; intro hlt
        have := Rat.mul_lt_mul_of_pos_right hlt (pow2_pos e)
        have h53 : ((2 ^ 53 : Int) : Rat) = pow2 53 := by decide +kernel
        rw [h53, ← pow2_add, Int.add_comm] at this
        grind
      have h4 : m = 2 ^ 53 := by have := Rat.intCast_le_intCast.1 h3; omega
      refine ⟨2 ^ 52, ?_⟩
      rw [h4, h1, pow2_succ]
      have : ((2 ^ 53 : Int) : Rat) = ((2 ^ 52 : Int) : Rat) * 2 := by decide +kernel
      rw [this]; grind
  obtain ⟨z, hz⟩ := key
  unfold roundPos
  rw [hk]
  have hu := pow2_pos k
  have : (m : Rat) * pow2 e / pow2 k = (z : Rat) := by rw [hz]; grind
  rw [this, roundEven_int, hz]

theorem roundPos_idem {q : Rat} (hq : 0 < q) : roundPos (roundPos q) = roundPos q := by
  obtain ⟨h1, h2⟩ := mantissa_bounds hq
  have : roundPos q = ((roundEven (q / pow2 (expo q - 52)) : Int) : Rat) * pow2 (expo q - 52) := rfl
  rw [this]
  exact roundPos_exact (by omega) h2

theorem roundPos_err {q : Rat} (hq : 0 < q) : roundPos q - q ≤ pow2 (-53) * q ∧ q - roundPos q ≤ pow2 (-53) * q := by
  have hu := pow2_pos (expo q - 52)
  obtain ⟨h1, h2⟩ := roundEven_near (q / pow2 (expo q - 52))
  have hq' : q = q / pow2 (expo q - 52) * pow2 (expo q - 52) := by grind
  have h3 : pow2 (-53) * pow2 (expo q) = 1 / 2 * pow2 (expo q - 52) := by
    have : (1 / 2 : Rat) = pow2 (-1) := by decide +kernel
    rw [this, ← pow2_add, ← pow2_add]; congr 1; omega
  have h4 := Rat.mul_le_mul_of_nonneg_left (expo_spec hq).1 (Rat.le_of_lt (pow2_pos (-53)))
  have h5 := Rat.mul_le_mul_of_nonneg_right h1 (Rat.le_of_lt hu)
  have h6 := Rat.mul_le_mul_of_nonneg_right h2 (Rat.le_of_lt hu)
  unfold roundPos
  generalize (roundEven (q / pow2 (expo q - 52)) : Rat) = M at *
  generalize q / pow2 (expo q - 52) = r at *
  constructor <;> grind

/-! ### `double` -/

theorem double_pos {q : Rat} (hq : 0 < q) : double q = roundPos q := if_pos hq

theorem double_neg (q : Rat) : double (-q) = -double q := by
  unfold double
  by_cases h1 : 0 < q
  · rw [if_neg (by grind), if_pos (by grind), if_pos h1, Rat.neg_neg]
  · by_cases h2 : q < 0
    · rw [if_pos (by grind), if_neg h1, if_pos h2, Rat.neg_neg]
    · rw [if_neg (by grind), if_neg (by grind), if_neg h1, if_neg h2]; rfl

theorem double_zero : double 0 = 0 := rfl

/-- rounding to doubles is a rounding function in the sense of Spec/Round -/
theorem double_rounding : Rounding double := by
  refine ⟨?_, ?_, double_zero⟩
  · intro x y h
    unfold double
    by_cases hx : 0 < x
    · rw [if_pos hx, if_pos (by grind)]; exact roundPos_mono hx h
    · rw [if_neg hx]
      by_cases hy : 0 < y
      · rw [if_pos hy]
        have := roundPos_pos hy
        by_cases hx' : x < 0
        · rw [if_pos hx']; have := roundPos_pos (q := -x) (by grind); grind
        · rw [if_neg hx']; grind
      · rw [if_neg hy]
        by_cases hy' : y < 0
        · rw [if_pos hy', if_pos (by grind)]
          have := roundPos_mono (x := -y) (y := -x) (by grind) (by grind)
          grind
        · rw [if_neg hy']
          by_cases hx' : x < 0
          · rw [if_pos hx']; have := roundPos_pos (q := -x) (by grind); grind
          · rw [if_neg hx']; exact Rat.le_refl
  · have hp : ∀ q, 0 < q → double (double q) = double q := by
      intro q hq
      rw [double_pos hq, double_pos (roundPos_pos hq), roundPos_idem hq]
    intro x
    by_cases hx : 0 < x
    · exact hp x hx
    · by_cases hx' : x < 0
      · have := hp (-x) (by grind)
        rw [double_neg, double_neg] at this
        grind
      · have : x = 0 := by grind
        subst this; rfl

/-- the relative error is at most `2 ^ -53` -/
theorem double_relErr : RelErr double (pow2 (-53)) := by
  intro x hx
  by_cases h : 0 < x
  · obtain ⟨h1, h2⟩ := roundPos_err h
    rw [double_pos h]
    constructor <;> grind
  · have : x = 0 := by grind
    subst this
    rw [double_zero]; constructor <;> grind

/-- the result is a double … -/
theorem double_isDouble (q : Rat) : IsDouble (double q) := by
  have hp : ∀ q, 0 < q → IsDouble (double q) := by
    intro q hq
    rw [double_pos hq]
    obtain ⟨h1, h2⟩ := mantissa_bounds hq
    by_cases h3 : roundEven (q / pow2 (expo q - 52)) = 2 ^ 53
    · refine ⟨2 ^ 52, expo q - 52 + 1, by decide, ?_⟩
      unfold roundPos
      rw [h3, pow2_succ]
      have : ((2 ^ 53 : Int) : Rat) = ((2 ^ 52 : Int) : Rat) * 2 := by decide +kernel
      rw [this]; grind
    · exact ⟨_, _, by omega, rfl⟩
  by_cases hx : 0 < q
  · exact hp q hx
  · by_cases hx' : q < 0
    · obtain ⟨m, e, h1, h2⟩ := hp (-q) (by grind)
      refine ⟨-m, e, by omega, ?_⟩
      rw [double_neg] at h2
      rw [Rat.intCast_neg]; grind
    · have : q = 0 := by grind
      subst this
      exact ⟨0, 0, by decide, by decide +kernel⟩

/-- … and doubles are left as they are -/
theorem double_exact {q : Rat} (h : IsDouble q) : double q = q := by
  have hp : ∀ (m e : Int), 0 < m → m.natAbs < 2 ^ 53 → double ((m : Rat) * pow2 e) = (m : Rat) * pow2 e := by
    intro m e h0 h1
    have hm : 0 < (m : Rat) := by exact_mod_cast h0
    rw [double_pos (Rat.mul_pos hm (pow2_pos e))]
    exact roundPos_exact h0 (by omega)
  obtain ⟨m, e, h1, rfl⟩ := h
  rcases Int.lt_trichotomy m 0 with h2 | h2 | h2
  · have := hp (-m) e (by omega) (by omega)
    rw [Rat.intCast_neg, Rat.neg_mul, double_neg] at this
    grind
  · subst h2
    rw [show ((0 : Int) : Rat) = 0 from rfl, Rat.zero_mul]; rfl
  · exact hp m e h2 h1

/-- integers up to `2 ^ 53` are doubles -/
theorem double_int {z : Int} (h : z.natAbs ≤ 2 ^ 53) : double (z : Rat) = (z : Rat) := by
  apply double_exact
  by_cases h1 : z.natAbs = 2 ^ 53
  · rcases Int.natAbs_eq z with h2 | h2
    · refine ⟨2 ^ 52, 1, by decide, ?_⟩
      rw [h2, h1]; decide +kernel
    · refine ⟨-2 ^ 52, 1, by decide, ?_⟩
      rw [h2, h1]; decide +kernel
  · exact ⟨z, 0, by omega, by rw [pow2_zero, Rat.mul_one]⟩

/-- no double is nearer to `q` than `double q` -/
theorem double_nearest (q r : Rat) (hr : IsDouble r) : (double q - q).abs ≤ (r - q).abs := by
  have hp : ∀ q r : Rat, 0 < q → IsDouble r → (double q - q).abs ≤ (r - q).abs := by
    intro q r hq hr
    rw [double_pos hq]
    have hu := pow2_pos (expo q - 52)
    have hq' : q = q / pow2 (expo q - 52) * pow2 (expo q - 52) := by grind
    -- multiples of the last digit are not nearer
    have mult : ∀ z : Int, (roundPos q - q).abs ≤ ((z : Rat) * pow2 (expo q - 52) - q).abs := by
      intro z
      have h1 := roundEven_nearest (q / pow2 (expo q - 52)) z
      unfold roundPos
      generalize (roundEven (q / pow2 (expo q - 52)) : Rat) = M at *
      generalize q / pow2 (expo q - 52) = s at *
      generalize pow2 (expo q - 52) = u at *
      subst hq'
      have e1 : ∀ a : Rat, (a * u - s * u).abs = (a - s).abs * u := by
        intro a
        have hh : a * u - s * u = (a - s) * u := by grind
        rw [hh]
        generalize a - s = b
        unfold Rat.abs
        by_cases hb : 0 ≤ b
        · rw [if_pos hb, if_pos (Rat.mul_nonneg hb (Rat.le_of_lt hu))]
        · have : ¬ 0 ≤ b * u := by
            intro h2
            have := Rat.mul_lt_mul_of_pos_right (Rat.not_le.1 hb) hu
            grind
          rw [if_neg hb, if_neg this]; grind
      rw [e1, e1]
      exact Rat.mul_le_mul_of_nonneg_right h1 (Rat.le_of_lt hu)
    obtain ⟨m, e, hm, hr'⟩ := hr
    by_cases hlow : r < pow2 (expo q)
    · have h1 := mult (2 ^ 52)
      rw [pow2_52] at h1
      have h2 := (expo_spec hq).1
      have h3 : (pow2 (expo q) - q).abs ≤ (r - q).abs := by
        unfold Rat.abs; split <;> split <;> grind
      grind
    · have hlow := Rat.not_lt.1 hlow
      -- the last digit of `r` is not below that of `q`
      have hk : expo q - 52 ≤ e := by
        have hmq : (m : Rat) < ((2 ^ 53 : Int) : Rat) := by exact_mod_cast (show m < 2 ^ 53 by omega)
        have h1 := Rat.mul_lt_mul_of_pos_right hmq (pow2_pos e)
        have h53 : ((2 ^ 53 : Int) : Rat) = pow2 53 := by decide +kernel
        rw [← hr', h53, ← pow2_add] at h1
        have := pow2_lt_iff.1 (show pow2 (expo q) < pow2 (53 + e) by grind)
        omega
      obtain ⟨n, hn⟩ := Int.eq_ofNat_of_zero_le (show 0 ≤ e - (expo q - 52) by omega)
      have h2 : r = ((m * 2 ^ n : Int) : Rat) * pow2 (expo q - 52) := by
        have : pow2 e = pow2 (n : Int) * pow2 (expo q - 52) := by rw [← pow2_add]; congr 1; omega
        rw [hr', this, pow2_nat, Rat.intCast_mul]
        have : (((2 ^ n : Nat) : Nat) : Rat) = ((2 ^ n : Int) : Rat) := by
          rw [← Rat.intCast_natCast]; congr 1
        rw [this]; grind
      rw [h2]; exact mult _
  have habs : ∀ a b : Rat, (-a - -b).abs = (a - b).abs := by
    intro a b
    unfold Rat.abs; split <;> split <;> grind
  by_cases hx : 0 < q
  · exact hp q r hx hr
  · by_cases hx' : q < 0
    · have h1 := hp (-q) (-r) (by grind) (by
        obtain ⟨m, e, h1, h2⟩ := hr
        exact ⟨-m, e, by omega, by rw [Rat.intCast_neg, h2]; grind⟩)
      rw [double_neg, habs, habs] at h1
      exact h1
    · have : q = 0 := by grind
      subst this
      rw [double_zero]
      have : ((0 : Rat) - 0).abs = 0 := by decide +kernel
      rw [this]; exact Rat.abs_nonneg

/-- `0.1`, and `0.1 + 0.2 == 0.30000000000000004` -/
example : double (1 / 10) = 3602879701896397 / 36028797018963968 ∧
    double (double (1 / 10) + double (2 / 10)) = double (30000000000000004 / 100000000000000000) ∧
    double (double (1 / 10) + double (2 / 10)) ≠ double (3 / 10) := by decide +kernel

end GT

import Verif.Other.Jam
/-
The answers of `Timer.expired()` (graph/traffic_scheduling_problem.py:29-59).
-/
namespace GT

/-- the answers of `n` calls of `timer.expired()` one after the other, and the timer afterwards (traffic_scheduling_problem.py:46-59) -/
def Timer.calls (clock : Nat → Rat) : Nat → Timer → List Bool × Timer
  | 0, t => ([], t)
  | n + 1, t =>
    let (b, t') := t.check clock
    let (l, t'') := Timer.calls clock n t'
    (b :: l, t'')

/-- the timer after `n` calls -/
def Timer.after (clock : Nat → Rat) (t : Timer) : Nat → Timer
  | 0 => t
  | n + 1 => ((t.after clock n).check clock).2

theorem Timer.after_succ' (clock : Nat → Rat) (t : Timer) (n : Nat) :
    t.after clock (n + 1) = ((t.check clock).2).after clock n := by
  induction n with
  | zero => rfl
  | succ n ih => rw [Timer.after, ih, ← Timer.after]

theorem Timer.calls_get? (clock : Nat → Rat) (n : Nat) (t : Timer) (i : Nat) (hi : i < n) :
    (Timer.calls clock n t).1[i]? = some ((t.after clock i).check clock).1 := by
  induction n generalizing t i with
  | zero => omega
  | succ n ih =>
    cases i with
    | zero => rfl
    | succ i =>
      have := ih (t.check clock).2 i (by omega)
      rw [Timer.after_succ']
      exact this

/-- the `j`-th reading after the start is too late -/
def Late (clock : Nat → Rat) (start : Rat) (limit : Ext) (j : Nat) : Prop :=
  ∃ l, limit = .fin l ∧ l / 1000 < clock (j + 1) - start

/-- the state before call number `i`, if the clock was found late, or not yet -/
theorem Timer.after_inv (clock : Nat → Rat) {t₀ : Timer} (h0 : t₀.counter = 0 ∧ t₀.expired = false ∧ t₀.reads = 1) (i : Nat) :
    let t := t₀.after clock i
    t.limit = t₀.limit ∧ t.start = t₀.start ∧
    (t.expired = true ↔ ∃ j, 101 * j < i ∧ Late clock t₀.start t₀.limit j) ∧
    (t.expired = false → ∃ r c, t.reads = r + 1 ∧ t.counter = c ∧ 101 * r = i + c ∧ c ≤ 100) := by
  induction i with
  | zero =>
    refine ⟨rfl, rfl, ?_, fun _ => ⟨0, 0, h0.2.2, h0.1, rfl, by omega⟩⟩
    rw [Timer.after, h0.2.1]
    constructor
    · intro h; cases h
    · rintro ⟨j, h, _⟩; omega
  | succ i ih =>
    dsimp only at ih ⊢
    rw [Timer.after]
    generalize t₀.after clock i = t at ih
    obtain ⟨h1, h2, h3, h4⟩ := ih
    unfold Timer.check
    by_cases he : t.expired = true
    · rw [if_pos he]
      refine ⟨h1, h2, ?_, fun h => by rw [he] at h; cases h⟩
      rw [he]
      obtain ⟨j, h5, h6⟩ := h3.1 he
      exact ⟨fun _ => ⟨j, by omega, h6⟩, fun _ => rfl⟩
    · rw [if_neg he]
      have he' : t.expired = false := by simpa using he
      obtain ⟨r, c, h5, h6, h7, h8⟩ := h4 he'
      have hno : ¬ ∃ j, 101 * j < i ∧ Late clock t₀.start t₀.limit j := fun h => he (h3.2 h)
      by_cases hc : 0 < t.counter
      · rw [if_pos hc]
        refine ⟨h1, h2, ?_, fun _ => ⟨r, c - 1, h5, by dsimp only; omega, by omega, by omega⟩⟩
        dsimp only
        rw [he']
        constructor
        · intro h; cases h
        · rintro ⟨j, h9, h10⟩
          exact absurd ⟨j, by omega, h10⟩ hno
      · rw [if_neg hc]
        have hci : c = 0 := by omega
        subst hci
        dsimp only
        have hlate : (match t.limit with
            | .inf => false
            | .fin l => decide (l / 1000 < clock t.reads - t.start)) = true ↔ Late clock t₀.start t₀.limit r := by
          unfold Late
          rw [h5, h2, h1]
          cases t₀.limit with
          | inf => simp
          | fin l => simp
        refine ⟨h1, h2, ?_, fun _ => ⟨r + 1, 100, by omega, rfl, by omega, by omega⟩⟩
        refine hlate.trans ?_
        constructor
        · intro h; exact ⟨r, by omega, h⟩
        · rintro ⟨j, h9, h10⟩
          have : j = r := by
            by_cases hj : j < r
            · exact absurd ⟨j, by omega, h10⟩ hno
            · omega
          rwa [← this]

theorem Timer.check_fst (clock : Nat → Rat) (t : Timer) : (t.check clock).1 = t.expired := by
  unfold Timer.check
  by_cases he : t.expired = true
  · rw [if_pos he, he]
  · rw [if_neg he]
    have : t.expired = false := by simpa using he
    split <;> rw [this]

end GT

import Verif.Spec.Walks
/-
Independent specification vocabulary: distances between nodes and what is computed from them.
Nothing here refers to the model of the library.
-/
namespace GT
variable {α : Type}

/-- sum of two distances (`float('inf')` absorbs) -/
def Ext.add : Ext → Ext → Ext
  | .fin a, .fin b => .fin (a + b)
  | _, _ => .inf

/-- `a ≤ b` for distances -/
def Ext.le : Ext → Ext → Prop
  | _, .inf => True
  | .inf, .fin _ => False
  | .fin a, .fin b => a ≤ b

/-- `d` is the distance from `a` to `b`: the smallest total value of a walk, `inf` if there is no walk -/
def IsDist (w : α → α → Option Rat) (a b : α) : Ext → Prop
  | .fin d => (∃ p, WalkOf w a b p d) ∧ ∀ p c, WalkOf w a b p c → d ≤ c
  | .inf => ¬ ∃ p c, WalkOf w a b p c

/-- the length of one leg of a route: the edge if there is one, otherwise the shortest detour -/
def LegDist (w : α → α → Option Rat) (a b : α) (d : Ext) : Prop :=
  (∃ c, w a b = some c ∧ d = .fin c) ∨ (w a b = none ∧ IsDist w a b d)

/-- `d` is the sum of the legs of a route -/
def SumLegs (w : α → α → Option Rat) : List α → Ext → Prop
  | a :: b :: l, r => ∃ d e, LegDist w a b d ∧ SumLegs w (b :: l) e ∧ r = d.add e
  | _, r => r = .fin 0

/-- `e` is the largest element of the list -/
def IsMaxOf (l : List Ext) (e : Ext) : Prop := e ∈ l ∧ ∀ x ∈ l, x.le e

/-- the sum of a list of distances -/
def Ext.sum : List Ext → Ext
  | [] => .fin 0
  | x :: l => x.add (Ext.sum l)

/-- the total value of no closed walk is negative -/
def NoNegCycle (w : α → α → Option Rat) : Prop := ∀ a p c, WalkOf w a a p c → 0 ≤ c

theorem IsDist.unique {w : α → α → Option Rat} {a b : α} {d e : Ext} (h : IsDist w a b d) (h2 : IsDist w a b e) :
    d = e := by
  cases d with
  | inf => cases e with
    | inf => rfl
    | fin y => obtain ⟨p, hp⟩ := h2.1; exact absurd ⟨p, y, hp⟩ h
  | fin x => cases e with
    | inf => obtain ⟨p, hp⟩ := h.1; exact absurd ⟨p, x, hp⟩ h2
    | fin y =>
      obtain ⟨p, hp⟩ := h.1
      obtain ⟨q, hq⟩ := h2.1
      have := h.2 _ _ hq
      have := h2.2 _ _ hp
      congr 1; grind

theorem LegDist.unique {w : α → α → Option Rat} {a b : α} {d e : Ext} (h : LegDist w a b d) (h2 : LegDist w a b e) :
    d = e := by
  rcases h with ⟨c, h, rfl⟩ | ⟨h, h'⟩ <;> rcases h2 with ⟨c', h2, rfl⟩ | ⟨h2, h2'⟩
  · rw [h] at h2; cases h2; rfl
  · rw [h] at h2; cases h2
  · rw [h] at h2; cases h2
  · exact h'.unique h2'

theorem SumLegs.unique {w : α → α → Option Rat} {p : List α} {d e : Ext} (h : SumLegs w p d) (h2 : SumLegs w p e) : d = e := by
  induction p generalizing d e with
  | nil => simp only [SumLegs] at h h2; rw [h, h2]
  | cons a l ih =>
    cases l with
    | nil => simp only [SumLegs] at h h2; rw [h, h2]
    | cons b l =>
      obtain ⟨x, y, h1, h3, rfl⟩ := h
      obtain ⟨x', y', h1', h3', rfl⟩ := h2
      rw [h1.unique h1', ih h3 h3']

/-- on a walk the sum of the legs is the value of the walk -/
theorem SumLegs.of_walkCost {w : α → α → Option Rat} {p : List α} {c : Rat} (h : walkCost w p = some c) :
    SumLegs w p (.fin c) := by
  induction p generalizing c with
  | nil => simp [walkCost] at h
  | cons a l ih =>
    cases l with
    | nil => simp [walkCost] at h; subst h; rfl
    | cons b l =>
      simp only [walkCost] at h
      split at h
      · rename_i x y h1 h2
        cases h
        exact ⟨.fin x, .fin y, .inl ⟨x, h1, rfl⟩, ih h2, rfl⟩
      · cases h

theorem SpResult.isDist {w : α → α → Option Rat} {a b : α} {r : Ext × List α} (h : SpResult w [] a b r) :
    IsDist w a b r.1 := by
  rcases h with ⟨d, h1, h2, h3⟩ | ⟨h1, h2⟩
  · rw [h1]; exact ⟨⟨_, h2.1⟩, fun p c hp => h3 p c ⟨hp, by simp⟩⟩
  · rw [h1]; rintro ⟨p, c, hp⟩; exact h2 ⟨p, c, hp, by simp⟩

end GT

import Verif.Spec.Flow
import Verif.Spec.Round
/-
Independent specification vocabulary: shipments whose amounts are right up to rounding errors.
Nothing here refers to the model of the library.
-/
namespace GT
variable {α : Type}

/-- `y` is the non-negative number `x` up to `n` roundings with relative error `ε` -/
def NearTo (ε : Rat) (n : Nat) (x y : Rat) : Prop := (1 - ε) ^ n * x ≤ y ∧ y ≤ (1 + ε) ^ n * x

/-- `F` is a shipment (`IsShipment`) except that capacities, supplies and demands may be exceeded by the factor `(1 + ε)ⁿ`; what enters a node without stock still leaves it -/
structure IsShipmentUpTo (ε : Rat) (n : Nat) (V : List α) (cost : α → α → Option Rat) (cap : α → α → Option Ext) (stock : α → Rat) (F : α → α → Rat) : Prop where
  nonneg : ∀ a b, 0 ≤ F a b
  edges : ∀ a b, F a b ≠ 0 → (cost a b).isSome
  within : ∀ a b, F a b ≠ 0 → ∃ c, cap a b = some c ∧ ∀ q, c = .fin q → F a b ≤ (1 + ε) ^ n * q
  supply : ∀ x ∈ V, 0 ≤ stock x → 0 ≤ netOut V F x ∧ netOut V F x ≤ (1 + ε) ^ n * stock x
  demand : ∀ x ∈ V, stock x ≤ 0 → (1 + ε) ^ n * stock x ≤ netOut V F x ∧ netOut V F x ≤ 0

/-- nothing more can be done: all demand is met or all supply is shipped, except for the fraction `1 - (1 - ε)ⁿ` -/
def ShipDoneUpTo (ε : Rat) (n : Nat) (V : List α) (stock : α → Rat) (F : α → α → Rat) : Prop :=
  (∀ x ∈ V, stock x < 0 → netOut V F x ≤ (1 - ε) ^ n * stock x) ∨ (∀ x ∈ V, 0 < stock x → (1 - ε) ^ n * stock x ≤ netOut V F x)

/-- the edge is used to less than `(1 - ε)ⁿ` of its capacity -/
def CapLeftUpTo (ε : Rat) (n : Nat) (cap : α → α → Option Ext) (F : α → α → Rat) (a b : α) : Prop :=
  ∃ c, cap a b = some c ∧ ∀ q, c = .fin q → F a b < (1 - ε) ^ n * q

/-- the shipment is stuck: some demand is unmet, some supply is left, and no node that has shipped less than `(1 - ε)ⁿ` of its stock reaches that demand along edges used to
less than `(1 - ε)ⁿ` -/
def ShipStuckUpTo (ε : Rat) (n : Nat) (V : List α) (cost : α → α → Option Rat) (cap : α → α → Option Ext) (stock : α → Rat) (F : α → α → Rat) : Prop :=
  (∃ s ∈ V, 0 < stock s ∧ netOut V F s < (1 + ε) ^ n * stock s) ∧
  ∃ d ∈ V, (1 + ε) ^ n * stock d < netOut V F d ∧ stock d < 0 ∧ ∀ s ∈ V, 0 < stock s → netOut V F s < (1 - ε) ^ n * stock s →
    ¬ Reach (fun a b => (cost a b).isSome ∧ CapLeftUpTo ε n cap F a b) s d

/-- without rounding errors this is `IsShipment` -/
theorem isShipmentUpTo_zero {V : List α} {cost : α → α → Option Rat} {cap : α → α → Option Ext} {stock : α → Rat} {F : α → α → Rat} {n : Nat} :
    IsShipmentUpTo 0 n V cost cap stock F ↔ IsShipment V cost cap stock F := by
  have e1 : (1 + (0 : Rat)) ^ n = 1 := by
    rw [Rat.add_zero]
    induction n with
    | zero => rfl
    | succ n ih => rw [Rat.pow_succ, ih, Rat.mul_one]
  constructor
  · intro h
    refine ⟨h.nonneg, h.edges, fun a b hab => ?_, fun x hx hs => ?_, fun x hx hs => ?_⟩
    · obtain ⟨c, h1, h2⟩ := h.within a b hab
      refine ⟨c, h1, ?_⟩
      cases c with
      | inf => trivial
      | fin q => have := h2 q rfl; rw [e1, Rat.one_mul] at this; exact this
    · have := h.supply x hx hs; rwa [e1, Rat.one_mul] at this
    · have := h.demand x hx hs; rwa [e1, Rat.one_mul] at this
  · intro h
    refine ⟨h.nonneg, h.edges, fun a b hab => ?_, fun x hx hs => ?_, fun x hx hs => ?_⟩
    · obtain ⟨c, h1, h2⟩ := h.within a b hab
      refine ⟨c, h1, fun q hq => ?_⟩
      subst hq; rw [e1, Rat.one_mul]; exact h2
    · have := h.supply x hx hs; rwa [e1, Rat.one_mul]
    · have := h.demand x hx hs; rwa [e1, Rat.one_mul]

end GT

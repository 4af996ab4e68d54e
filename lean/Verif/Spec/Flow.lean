import Verif.Spec.Dist
/-
Independent specification vocabulary: flows and cuts.  Nothing here refers to the model of the library.
-/
namespace GT
variable {α : Type}

/-- the sum of `f x` over the list -/
def sumL {β : Type} (l : List β) (f : β → Rat) : Rat := (l.map f).sum

/-- the capacity of a pair: 0 without an edge -/
def capOf (cap : α → α → Option Rat) (a b : α) : Rat := (cap a b).getD 0

/-- `F` is a feasible flow of value `val` from `s` to `t` in the network with nodes `V` and capacities `cap`:
non-negative, within the capacities, conserved at all other nodes; `val` is what leaves `s` -/
structure IsFlow (V : List α) (cap : α → α → Option Rat) (s t : α) (F : α → α → Rat) (val : Rat) : Prop where
  nonneg : ∀ a b, 0 ≤ F a b
  within : ∀ a b, F a b ≤ capOf cap a b
  conserved : ∀ x ∈ V, x ≠ s → x ≠ t → sumL V (fun y => F x y) = sumL V (fun y => F y x)
  value : sumL V (fun y => F s y) - sumL V (fun y => F y s) = val

/-- no flow has a larger value -/
def IsMaxFlowValue (V : List α) (cap : α → α → Option Rat) (s t : α) (val : Rat) : Prop :=
  (∃ F, IsFlow V cap s t F val) ∧ ∀ F v, IsFlow V cap s t F v → v ≤ val

/-- every path from `s` to `t` has an edge without capacity left -/
def Blocking (cap : α → α → Option Rat) (s t : α) (F : α → α → Rat) : Prop :=
  ¬ Reach (fun a b => ∃ d, cap a b = some d ∧ F a b < d) s t

/-- the total capacity of the edges that leave the set `S` -/
def cutCapacity (V : List α) (cap : α → α → Option Rat) (S : α → Bool) : Rat :=
  sumL V (fun x => sumL V (fun y => if S x = true ∧ S y = false then capOf cap x y else 0))

/-- apart from `s` and `t` no node is entered by two edges with capacity -/
def NoMerge (cap : α → α → Option Rat) (s t : α) : Prop :=
  ∀ n, n ≠ s → n ≠ t → ∀ a b, 0 < capOf cap a n → 0 < capOf cap b n → a = b

/-- apart from `s` and `t` no node is left by two edges with capacity -/
def NoFork (cap : α → α → Option Rat) (s t : α) : Prop :=
  ∀ n, n ≠ s → n ≠ t → ∀ a b, 0 < capOf cap n a → 0 < capOf cap n b → a = b

/-- what leaves `n` minus what enters `n` -/
def netOut (V : List α) (F : α → α → Rat) (n : α) : Rat := sumL V (fun y => F n y) - sumL V (fun y => F y n)

/-- the cost of the shipment `F` at `cost` per unit -/
def shipCost (V : List α) (cost : α → α → Option Rat) (F : α → α → Rat) : Rat :=
  sumL V (fun a => sumL V (fun b => F a b * capOf cost a b))

/-- `F` ships available supply (`stock > 0`) to existing demand (`stock < 0`) along edges with a cost, within the capacities -/
structure IsShipment (V : List α) (cost : α → α → Option Rat) (cap : α → α → Option Ext) (stock : α → Rat) (F : α → α → Rat) : Prop where
  nonneg : ∀ a b, 0 ≤ F a b
  edges : ∀ a b, F a b ≠ 0 → (cost a b).isSome
  within : ∀ a b, F a b ≠ 0 → ∃ c, cap a b = some c ∧ Ext.le (.fin (F a b)) c
  supply : ∀ n ∈ V, 0 ≤ stock n → 0 ≤ netOut V F n ∧ netOut V F n ≤ stock n
  demand : ∀ n ∈ V, stock n ≤ 0 → stock n ≤ netOut V F n ∧ netOut V F n ≤ 0

/-- nothing more can be done: all demand is met or all supply is shipped -/
def ShipDone (V : List α) (stock : α → Rat) (F : α → α → Rat) : Prop :=
  (∀ n ∈ V, stock n < 0 → netOut V F n = stock n) ∨ (∀ n ∈ V, 0 < stock n → netOut V F n = stock n)

/-- the edge has capacity left -/
def CapLeft (cap : α → α → Option Ext) (F : α → α → Rat) (a b : α) : Prop :=
  ∃ c, cap a b = some c ∧ c ≠ .fin (F a b)

/-- the shipment is stuck: some demand is unmet, some supply is left, and no node with supply left reaches that demand
along edges with capacity left -/
def ShipStuck (V : List α) (cost : α → α → Option Rat) (cap : α → α → Option Ext) (stock : α → Rat) (F : α → α → Rat) : Prop :=
  (∃ s ∈ V, 0 < stock s ∧ netOut V F s < stock s) ∧
  ∃ d ∈ V, stock d < netOut V F d ∧ stock d < 0 ∧ ∀ s ∈ V, 0 < stock s → netOut V F s < stock s →
    ¬ Reach (fun a b => (cost a b).isSome ∧ CapLeft cap F a b) s d

/-- the same pairs are linked in both networks -/
def SameLinks {V W : Type} (e : α → α → Option V) (f : α → α → Option W) : Prop := ∀ a b, (e a b).isSome = (f a b).isSome

/-- the capacities that apply: unlimited on the edges with a cost if none are given -/
def effCap {V : Type} (cost : α → α → Option V) : Option (α → α → Option Ext) → α → α → Option Ext
  | none => fun a b => (cost a b).map (fun _ => .inf)
  | some c => c

/-- without the edges `E` no path leads from `s` to `t` -/
def Separates (cap : α → α → Option Rat) (s t : α) (E : List (α × α)) : Prop :=
  ¬ Reach (fun a b => (cap a b).isSome ∧ (a, b) ∉ E) s t

/-- the flow uses the whole capacity of the edge `(a, b)` and of every other edge by which it leaves `a` -/
def FullExit (cap flow : α → α → Option Rat) (a b : α) : Prop :=
  (∃ d, cap a b = some d ∧ flow a b = some d) ∧ ∀ y v, flow a y = some v → cap a y = some v

/-- an integer -/
def IsInt (x : Rat) : Prop := ∃ n : Int, x = n

end GT

import Verif.Spec.Flow
/-
Independent specification vocabulary: assignments.  Nothing here refers to the model of the library.
-/
namespace GT
variable {α : Type}

/-- every edge goes from a node that no edge enters to a node that no edge leaves -/
def Bipartite (w : α → α → Option Rat) : Prop :=
  ∀ a t, (w a t).isSome → (∀ x, w x a = none) ∧ (∀ x, w t x = none)

/-- `M` assigns agents to tasks along edges; no agent and no task occurs twice -/
structure IsAssignment (w : α → α → Option Rat) (M : List (α × α × Rat)) : Prop where
  edges : ∀ a t v, (a, t, v) ∈ M → w a t = some v
  agents : (M.map (fun e => e.1)).Nodup
  tasks : (M.map (fun e => e.2.1)).Nodup

/-- for every edge, its agent or its task is assigned at least as well -/
def Stable (w : α → α → Option Rat) (M : List (α × α × Rat)) : Prop :=
  ∀ a t v, w a t = some v → (∃ t' v', (a, t', v') ∈ M ∧ v ≤ v') ∨ (∃ a' v', (a', t, v') ∈ M ∧ v ≤ v')

/-- the total value of an assignment -/
def totalValue (M : List (α × α × Rat)) : Rat := sumL M (fun e => e.2.2)

/-- the product of the numbers `f x` over the list -/
def prodL {β : Type} (l : List β) (f : β → Rat) : Rat := l.foldr (fun x acc => f x * acc) 1

/-- the expected value that survives: every target `t` of value `v` survives the engagement `(weapon, t, p)` with
probability `1 - p`, independently -/
def survivors [DecidableEq α] (values : List (α × Rat)) (M : List (α × α × Rat)) : Rat :=
  sumL values (fun tv => tv.2 * prodL (M.filter (fun e => decide (e.2.1 = tv.1))) (fun e => 1 - e.2.2))

/-- the engagements after weapon `w` was moved to target `t`, where it succeeds with probability `p` -/
def retarget [DecidableEq α] (M : List (α × α × Rat)) (w t : α) (p : Rat) : List (α × α × Rat) :=
  (w, t, p) :: M.filter (fun e => decide (e.1 ≠ w))

/-- every weapon has exactly one engagement, along an edge -/
structure IsEngagement (prob : α → α → Option Rat) (weapons : List α) (M : List (α × α × Rat)) : Prop where
  edges : ∀ w t p, (w, t, p) ∈ M → prob w t = some p
  weapons : ∀ w, w ∈ weapons ↔ w ∈ M.map (fun e => e.1)
  once : (M.map (fun e => e.1)).Nodup

end GT

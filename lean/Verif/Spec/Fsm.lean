import Verif.Py
/-
Independent specification vocabulary: state machines.  Nothing here refers to the model of the library.
-/
namespace GT
variable {σ A : Type}

/-- what a user of a state machine does -/
inductive FsmOp (σ A : Type) where
  | addTransition (s : σ) (a : A) (t : σ)
  | setInitialState (s : σ)
  | next (a : A)
  | options

/-- a state machine: the declared transitions, oldest first, and the current state once it was set -/
structure Machine (σ A : Type) where
  trans : List (σ × A × σ)
  cur : Option σ

variable [DecidableEq σ] [DecidableEq A]

/-- the declared transitions out of a state, oldest first -/
def Machine.from (m : Machine σ A) (s : σ) : List (σ × A × σ) := m.trans.filter (fun t => decide (t.1 = s))

/-- `s` occurs in a declared transition -/
def Machine.IsState (m : Machine σ A) (s : σ) : Prop := ∃ t ∈ m.trans, t.1 = s ∨ t.2.2 = s

instance (m : Machine σ A) (s : σ) : Decidable (m.IsState s) := by unfold Machine.IsState; infer_instance

/-- one call: what it returns (`none` for `None`) or raises, and the machine afterwards -/
def Machine.step (m : Machine σ A) : FsmOp σ A → Py (Option (List A)) × Machine σ A
  | .addTransition s a t => (.ok none, { m with trans := m.trans ++ [(s, a, t)] })
  | .setInitialState s =>
    if m.cur.isSome then (.error .valueError, m)
    else if m.IsState s then (.ok none, { m with cur := some s })
    else (.error .valueError, m)
  | .next a => match m.cur with
    | none => (.error .valueError, m)
    | some s =>
      if m.from s = [] then (.error .stopIteration, m)
      else match (m.from s).find? (fun t => decide (t.2.1 = a)) with
        | some t => (.ok none, { m with cur := some t.2.2 })
        | none => (.error .valueError, m)
  | .options => match m.cur with
    | some s => (.ok (some ((m.from s).map (fun t => t.2.1))), m)
    -- not covered by the documentation: no state yet
    | none => (if m.trans = [] then .ok (some []) else .error .keyError, m)

/-- what the calls of a history return -/
def Machine.outputs (m : Machine σ A) : List (FsmOp σ A) → List (Py (Option (List A)))
  | [] => []
  | op :: ops => (m.step op).1 :: Machine.outputs (m.step op).2 ops

/-- the states an operation mentions -/
def FsmOp.states : FsmOp σ A → List σ
  | .addTransition s _ t => [s, t]
  | .setInitialState s => [s]
  | _ => []

end GT

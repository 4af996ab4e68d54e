import Verif.Spec.Dist
/-
Independent specification vocabulary for the rail scheduling of graph/transshipment_problem.py.
Nothing here refers to the model of the library.
-/
namespace GT
variable {α : Type} [DecidableEq α]

/-- the places a train standing at `cur` visits when it performs the jobs `(from, to)` in the given order: it goes to
`from` unless it is there already, and then to `to` -/
def route (cur : α) : List (α × α) → List α
  | [] => [cur]
  | (a, b) :: l => if a = cur then cur :: route b l else cur :: a :: route b l

/-- no edge is longer than a detour -/
def EdgesShortest (w : α → α → Option Rat) : Prop := ∀ a b c, w a b = some c → ∀ p d, WalkOf w a b p d → c ≤ d

/-- `c` is a perfect circuit: a closed tour from `start` whose every movement is one of the jobs -/
def PerfectCircuit (start : α) (jobs : List (α × α)) (c : List α) : Prop :=
  2 ≤ c.length ∧ WalkFT (fun a b => (a, b) ∈ jobs) start start c

end GT

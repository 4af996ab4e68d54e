import Verif.Spec.Walks
/-
Independent specification vocabulary for graph/traffic_scheduling_problem.py: placements of loads, legal moves, plans.
Nothing here refers to the model of the library.
-/
namespace GT
variable {ι α : Type} [DecidableEq ι]

/-- where each load is: pairs of load id and location -/
abbrev Placement (ι α : Type) := List (ι × α)

/-- the placement after the load `k` went to `b` -/
def moveTo (k : ι) (b : α) (s : Placement ι α) : Placement ι α := s.map (fun p => if p.1 = k then (k, b) else p)

/-- nobody is at `b` -/
def Free (s : Placement ι α) (b : α) : Prop := ∀ j, (j, b) ∉ s

/-- `Plan adj ok s moves t`: starting from `s`, the moves `(load, from, to)` can be made one after the other, each by the load that is at
`from`, along a connection `adj from to`, into a location that is free at that moment and allowed for the load (`ok load to`), and lead
to the placement `t` -/
def Plan (adj : α → α → Prop) (ok : ι → α → Prop) : Placement ι α → List (ι × α × α) → Placement ι α → Prop
  | s, [], t => s = t
  | s, (k, a, b) :: l, t => (k, a) ∈ s ∧ adj a b ∧ Free s b ∧ ok k b ∧ Plan adj ok (moveTo k b s) l t

/-- all placements the moves go through, the first one included -/
def placements : Placement ι α → List (ι × α × α) → List (Placement ι α)
  | s, [] => [s]
  | s, (k, _, b) :: l => s :: placements (moveTo k b s) l

/-- a serial plan without regard to connections: every move starts where the load is and goes to a free location -/
def SerialPlan (s : Placement ι α) (moves : List (ι × α × α)) : Prop :=
  ∃ t, Plan (fun _ _ => True) (fun _ _ => True) s moves t

/-- the occupied locations after a move -/
def occAfter (occ : α → Prop) (m : ι × α × α) : α → Prop := fun x => x = m.2.2 ∨ (occ x ∧ x ≠ m.2.1)

/-- the moves, one after the other, lead from an occupied to a free location; `occ` are the locations occupied at the beginning, `occ'` at the end -/
def OccRun : (α → Prop) → List (ι × α × α) → (α → Prop) → Prop
  | occ, [], occ' => ∀ x, occ' x ↔ occ x
  | occ, m :: l, occ' => occ m.2.1 ∧ ¬ occ m.2.2 ∧ OccRun (occAfter occ m) l occ'

/-- one load moved, legally -/
def LegalMove (adj : α → α → Prop) (ok : ι → α → Prop) (s t : Placement ι α) : Prop :=
  ∃ k a b, (k, a) ∈ s ∧ adj a b ∧ Free s b ∧ ok k b ∧ t = moveTo k b s

/-- every load has one place, and no two loads the same -/
def Distinct (s : Placement ι α) : Prop := (s.map Prod.fst).Nodup ∧ (s.map Prod.snd).Nodup

/-! ### the problem as the user states it -/

/-- one load as given by the user: `{'id': .., 'start': .., 'ends': .., 'prohibited': ..}` or `id: (start, ends, prohibited)`
(traffic_scheduling_problem.py:122-137); a single end is a list of one -/
structure RawLoad (ι α : Type) where
  id : ι
  start : α
  ends : Option (List α)
  prohibited : Option (List α)

/-- the candidate destinations: the given ones; without, the start -/
def RawLoad.endSet (r : RawLoad ι α) : List α := match r.ends with
  | none => [r.start]
  | some l => l

/-- the nodes the load must not enter -/
def RawLoad.proh (r : RawLoad ι α) : List α := match r.prohibited with
  | none => []
  | some l => l

/-- where the loads are at the beginning -/
def startPlacement (raw : List (RawLoad ι α)) : Placement ι α := raw.map (fun r => (r.id, r.start))

/-- the load `k` may enter `x` -/
def MayEnter (raw : List (RawLoad ι α)) (k : ι) (x : α) : Prop := ∀ r ∈ raw, r.id = k → x ∉ r.proh

/-- `x` is one of the ends of the load `k` -/
def IsEndOf (raw : List (RawLoad ι α)) (k : ι) (x : α) : Prop := ∃ r ∈ raw, r.id = k ∧ x ∈ r.endSet

/-- the placement has exactly the given loads, each at one of its ends -/
def AllAtEnds (raw : List (RawLoad ι α)) (t : Placement ι α) : Prop :=
  t.map Prod.fst = raw.map RawLoad.id ∧ ∀ p ∈ t, IsEndOf raw p.1 p.2

/-- the moves solve the traffic jam: they are a plan from the start that leads every load to an end without entering prohibited nodes -/
def Solves (adj : α → α → Prop) (raw : List (RawLoad ι α)) (moves : List (ι × α × α)) : Prop :=
  ∃ t, Plan adj (MayEnter raw) (startPlacement raw) moves t ∧ AllAtEnds raw t

/-- the same, except that a load may also enter a prohibited node that is one of its ends -/
def SolvesExceptEnds (adj : α → α → Prop) (raw : List (RawLoad ι α)) (moves : List (ι × α × α)) : Prop :=
  ∃ t, Plan adj (fun k x => MayEnter raw k x ∨ IsEndOf raw k x) (startPlacement raw) moves t ∧ AllAtEnds raw t

end GT

import Verif.Other.JamEval
import Verif.Other.JamSolve
/-
Model of `JamSolver` (graph/traffic_scheduling_problem.py:269-515) with the equality of `State`s that the code has: two states are equal
if their hashes are equal (293-299).  `rep` picks one placement for every hash value (`repOf`), so that `rep a = rep b` says that the hashes
of `a` and `b` are equal.  Dictionaries and sets of states are keyed by `rep`; where the code uses the state that was stored (the queues,
and the path through `movements`), the model keeps the placement that was stored.
-/
namespace GT
open Graph
variable {ι α O : Type} [DecidableEq ι] [DecidableEq α]

/-- the attributes of a `JamSolver`; `objs (a, b)` is the state that is the key of `b` in the row of `a` in `movements._edges`: a
dictionary keeps the key that was inserted first -/
structure JamStH (ι α O : Type) where
  base : JamSt ι α O
  objs : Dict (Placement ι α × Placement ι α) (Placement ι α)

/-- `queue.remove(state)`: the first equal element; `ValueError` if there is none -/
def removeStateH (rep : Placement ι α → Placement ι α) (l : Placement ι α) : List (JState ι α) → Py (List (JState ι α))
  | [] => .error .valueError
  | x :: q => if rep x.loads = rep l then .ok q else match removeStateH rep l q with
    | .error e => .error e
    | .ok q' => .ok (x :: q')

/-- what happens to a new state (traffic_scheduling_problem.py:427-443, 499-515).  Simplification: `_match` is left out, it is never
reached (its condition was excluded by the `continue` before; `push_eq`). -/
def pushH (rep : Placement ι α → Placement ι α) (rev : Bool) (s : JamSt ι α O) (n : JState ι α) : Py (JamSt ι α O) :=
  let own := s.side rev
  match own.edge.get? (rep n.loads) with
  | some ex =>
    if n.lt ex then
      match removeStateH rep ex.loads own.q with
      | .error e => .error e
      | .ok q => .ok (s.setSide rev ⟨insortR JState.lt n q, own.edge.set (rep n.loads) n, own.visited⟩)
    else .ok s
  | none =>
    if rep n.loads ∈ own.visited ∨ rep n.loads ∈ (s.side (!rev)).visited then .ok s
    else .ok (s.setSide rev ⟨insortR JState.lt n own.q, own.edge.set (rep n.loads) n, own.visited⟩)

/-- one option (traffic_scheduling_problem.py:415-443, 487-515) -/
def JamCfg.tryH (rep : Placement ι α → Placement ι α) (c : JamCfg ι α O) (rev : Bool) (st : JState ι α) (s : JamStH ι α O) (o : ι × Rat × α) :
    Py (JamStH ι α O) :=
  let loads := moveTo o.1 o.2.2 st.loads
  let n : JState ι α := ⟨loads, st.dist + o.2.1, c.grad loads⟩
  let a := if rev then loads else st.loads
  let b := if rev then st.loads else loads
  if cheaper s.base.mov (rep a) (rep b) o.2.1 then .ok s
  else
    let objs := if s.objs.contains (rep a, rep b) then s.objs else s.objs.set (rep a, rep b) b
    match pushH rep rev { s.base with mov := s.base.mov.addEdge (rep a) (rep b) o.2.1 } n with
    | .error e => .error e
    | .ok s' => .ok ⟨s', objs⟩

/-- the loop over the options -/
def JamCfg.tryAllH (rep : Placement ι α → Placement ι α) (c : JamCfg ι α O) (rev : Bool) (st : JState ι α) :
    List (ι × Rat × α) → JamStH ι α O → Py (JamStH ι α O)
  | [], s => .ok s
  | o :: l, s => match c.tryH rep rev st s o with
    | .error e => .error e
    | .ok s' => JamCfg.tryAllH rep c rev st l s'

/-- `_find_forward_options` / `_find_reverse_options` (traffic_scheduling_problem.py:401-443, 473-515) -/
def JamCfg.expandH (rep : Placement ι α → Placement ι α) (c : JamCfg ι α O) (rev : Bool) (s : JamStH ι α O) : Py (JamStH ι α O) :=
  let own := s.base.side rev
  match own.q with
  | [] => .ok s
  | st :: q =>
    match own.edge.delE (rep st.loads) with
    | .error e => .error e
    | .ok edge =>
      match c.allOptions rev st.loads st.loads with
      | .error e => .error e
      | .ok opts => c.tryAllH rep rev st opts ⟨s.base.setSide rev ⟨q, edge, sadd own.visited (rep st.loads)⟩, s.objs⟩

/-- one iteration of `_search` (traffic_scheduling_problem.py:391-399) -/
def JamCfg.searchStepH (rep : Placement ι α → Placement ι α) (c : JamCfg ι α O) (clock : Nat → Rat) (x : JamStH ι α O × Timer) :
    (JamStH ι α O × Timer) ⊕ Py (JamStH ι α O × Timer) :=
  let (late, t) := x.2.check clock
  if late then .inr (.ok (x.1, t))
  else match c.expandH rep false x.1 with
    | .error e => .inr (.error e)
    | .ok s => match c.expandH rep true s with
      | .error e => .inr (.error e)
      | .ok s => if s.base.f.q = [] ∧ s.base.r.q = [] then .inr (.ok (s, t)) else .inl (s, t)

/-- `JamSolver.__init__` (traffic_scheduling_problem.py:324-347) -/
def JamCfg.initH (rep : Placement ι α → Placement ι α) (c : JamCfg ι α O) : JamStH ι α O :=
  let s0 : JState ι α := ⟨c.start, 0, .inf⟩
  let es : List (JState ι α) := c.finals.map (fun l => ⟨l, 0, .inf⟩)
  ⟨{ mov := Graph.empty.addNode (rep c.start) none
     f := ⟨[s0], Dict.empty.set (rep c.start) s0, []⟩
     r := ⟨es, es.foldl (fun d s => d.set (rep s.loads) s) Dict.empty, []⟩
     maxd := .inf }, Dict.empty⟩

/-- the states of a path through `movements`: each one is the key it was found under in the row of the one before -/
def pathObjs (objs : Dict (Placement ι α × Placement ι α) (Placement ι α)) : List (Placement ι α) → List (Placement ι α)
  | a :: b :: l => (objs.get? (a, b)).getD b :: pathObjs objs (b :: l)
  | _ => []

/-- `solve` (traffic_scheduling_problem.py:368-377, 445-455): `(d, p)` and the timer afterwards.  The path begins with `self.start`.
Simplification: `final_states` may list equal states twice, the second one changes nothing. -/
def JamCfg.solveH (rep : Placement ι α → Placement ι α) (c : JamCfg ι α O) (clock : Nat → Rat) (t : Timer) :
    Option (Py ((Ext × Option (List (Placement ι α))) × Timer)) :=
  match pyWhile (c.searchStepH rep clock) (c.initH rep, t) with
  | none => none
  | some (.error e) => some (.error e)
  | some (.ok (s, t)) => match endsLoop s.base.mov (rep c.start) ((c.ord c.finals).map rep) .inf none with
    | none => none
    | some (.error e) => some (.error e)
    | some (.ok (d, p)) => some (.ok ((d, p.map (fun p => c.start :: pathObjs s.objs p)), t))

/-- the first of the placements `U` with the hash of `p` -/
def repOf (hash : Placement ι α → Int) (U : List (Placement ι α)) (p : Placement ι α) : Placement ι α :=
  (U.find? (fun q => decide (hash q = hash p))).getD p

/-- the representatives that a solver uses: all states that occur place the loads on nodes of the network -/
def JamCfg.rep (c : JamCfg ι α O) (hash : Placement ι α → Int) : Placement ι α → Placement ι α := repOf hash c.universe

/-- `jam_solver(graph, loads, timeout, synchronous_moves, return_on_first)` (traffic_scheduling_problem.py:518-569); `hash` is the hash of
a tuple of pairs (273) -/
def jamSolverH (hash : Placement ι α → Int) (E : JamEnv ι α) (g : Graph α Rat O) (raw : List (RawLoad ι α)) (timeout : Option Rat)
    (sync first : Bool) : Option (Py (List (List (ι × α × α)))) :=
  match checkUserInput E g raw with
  | none => none
  | some (.error e) => some (.error e)
  | some (.ok loads) => match newTimer E.clock timeout with
    | .error e => some (.error e)
    | .ok t => match distMaps E.setOrd g loads with
      | none => none
      | some (.error e) => some (.error e)
      | some (.ok maps) => match (jamCfg E g loads maps first).solveH ((jamCfg E g loads maps first).rep hash) E.clock t with
        | none => none
        | some (.error e) => some (.error e)
        | some (.ok ((_, p), t')) =>
          match p with
          | none => some (.error (if (t'.check E.clock).1 then .unSolvable else .noSolution))
          | some p =>
            if p = [] then some (.error (if (t'.check E.clock).1 then .unSolvable else .noSolution))
            else match pathToMoves p with
              | .error e => some (.error e)
              | .ok moves => if sync then synchronousMoves moves (loads.map Load.start) else some (.ok (moves.map (fun m => [m])))
end GT

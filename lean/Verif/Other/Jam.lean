import Verif.Sp.DistMap
import Verif.Other.Moves
import Verif.Other.Ap
import Verif.Other.Bnb
import Verif.Other.Rail
/-
Model of the traffic jam solver (graph/traffic_scheduling_problem.py): `Timer`, `Load`, `check_user_input`, `State`, `JamSolver`,
`jam_solver`.

A `State` is compared and looked up by the hash of its tuple of loads (267-299); the model compares the tuples themselves, which is
the same if the hashes of the occurring placements are different (C112; Other/JamHash models the solver with hashes).  `type(graph)()` is a `Graph`.
-/
namespace GT
open Graph
variable {ι α O : Type} [DecidableEq ι] [DecidableEq α]

/-! ### Timer -/

/-- a `Timer` (traffic_scheduling_problem.py:29-44): the limit in milliseconds, the start time; `reads` counts the readings of
`process_time`, of which `clock n` is the `n`-th -/
structure Timer where
  limit : Ext
  start : Rat
  counter : Nat
  expired : Bool
  reads : Nat

/-- `Timer(timeout)` (traffic_scheduling_problem.py:30-44); `timeout` is `None` or a number -/
def newTimer (clock : Nat → Rat) (timeout : Option Rat) : Py Timer :=
  match timeout with
  | none => .ok ⟨.inf, clock 0, 0, false, 1⟩
  | some t => if t < 0 then .error .valueError else .ok ⟨.fin t, clock 0, 0, false, 1⟩

/-- `timer.expired()` (traffic_scheduling_problem.py:46-59): the answer and the timer afterwards -/
def Timer.check (clock : Nat → Rat) (t : Timer) : Bool × Timer :=
  if t.expired then (true, t)
  else if 0 < t.counter then (false, { t with counter := t.counter - 1 })
  else
    let late := match t.limit with
      | .inf => false
      | .fin l => decide (l / 1000 < clock t.reads - t.start)
    (false, { t with counter := 100, expired := late, reads := t.reads + 1 })

/-! ### loads -/

/-- a `Load` (traffic_scheduling_problem.py:62-97): sets are lists.  The constructor's `ends=None` is `[start]`. -/
structure Load (ι α : Type) where
  id : ι
  start : α
  ends : List α
  prohibited : List α
  deriving DecidableEq

/-- `Load(id, start, ends, prohibited)` (traffic_scheduling_problem.py:67-97): an empty collection of ends raises `ValueError`; a single
end is a collection of one.  `ord` is the iteration order of the frozensets.  Type errors are not modelled. -/
def newLoad (ord : List α → List α) (id : ι) (start : α) (ends : Option (List α)) (prohibited : Option (List α)) : Py (Load ι α) :=
  match ends with
  | none => .ok ⟨id, start, [start], ord (saddAll [] (prohibited.getD []))⟩
  | some [] => .error .valueError
  | some (e :: es) => .ok ⟨id, start, ord (saddAll [] (e :: es)), ord (saddAll [] (prohibited.getD []))⟩

/-! ### the solver -/

/-- a `State` (traffic_scheduling_problem.py:269-302) -/
structure JState (ι α : Type) where
  loads : Placement ι α
  dist : Rat
  grad : Ext
  deriving DecidableEq

/-- `State.__lt__` (traffic_scheduling_problem.py:283-287) -/
def JState.lt (a b : JState ι α) : Bool := if a.grad = b.grad then decide (a.dist < b.dist) else extLt a.grad b.grad

/-- one direction of the search: the queue, the dictionary of queued states, the set of visited states
(traffic_scheduling_problem.py:330-336) -/
structure JSide (ι α : Type) where
  q : List (JState ι α)
  edge : Dict (Placement ι α) (JState ι α)
  visited : List (Placement ι α)
  deriving DecidableEq

/-- the changing attributes of a `JamSolver` -/
structure JamSt (ι α O : Type) where
  mov : Graph (Placement ι α) Rat O
  f : JSide ι α
  r : JSide ι α
  maxd : Ext

/-- the fixed attributes of a `JamSolver`: the network, the loads, the order of the nodes (for `sorted`), the temperature of a placement
(`sum((self._distance(lid, loc) for lid, loc in loads))`), the iteration order of the set `final_states` -/
structure JamCfg (ι α O : Type) where
  graph : Graph α Rat O
  loads : List (Load ι α)
  nlt : α → α → Bool
  grad : Placement ι α → Ext
  ord : List (Placement ι α) → List (Placement ι α)
  first : Bool

/-- the initial placement (traffic_scheduling_problem.py:324) -/
def JamCfg.start (c : JamCfg ι α O) : Placement ι α := c.loads.map (fun l => (l.id, l.start))

/-- `itertools.product` -/
def cartesian {β : Type} : List (List β) → List (List β)
  | [] => [[]]
  | l :: ls => l.flatMap (fun x => (cartesian ls).map (fun r => x :: r))

/-- `_end_state_gen` (traffic_scheduling_problem.py:379-389) -/
def JamCfg.finals (c : JamCfg ι α O) : List (Placement ι α) :=
  ((cartesian (c.loads.map Load.ends)).filter (fun combo => decide combo.Nodup)).map (fun combo => (c.loads.map Load.id).zip combo)

/-- the side of a direction (`true`: reverse) -/
def JamSt.side (s : JamSt ι α O) (rev : Bool) : JSide ι α := if rev then s.r else s.f
def JamSt.setSide (s : JamSt ι α O) (rev : Bool) (x : JSide ι α) : JamSt ι α O := if rev then { s with r := x } else { s with f := x }

/-- the loop of `_shortest_path_multiple_ends` (traffic_scheduling_problem.py:448-454) -/
def endsLoop (mov : Graph (Placement ι α) Rat O) (start : Placement ι α) : List (Placement ι α) → Ext → Option (List (Placement ι α)) →
    Option (Py (Ext × Option (List (Placement ι α))))
  | [], d, p => some (.ok (d, p))
  | e :: l, dmin, pmin =>
    if mov.has e then
      match mov.shortestPath start e with
      | none => none
      | some (.error er) => some (.error er)
      | some (.ok (d, p)) => if extLt d dmin then endsLoop mov start l d (some p) else endsLoop mov start l dmin pmin
    else endsLoop mov start l dmin pmin

/-- `_shortest_path_multiple_ends` (traffic_scheduling_problem.py:445-455) -/
def JamCfg.bestPath (c : JamCfg ι α O) (mov : Graph (Placement ι α) Rat O) : Option (Py (Ext × Option (List (Placement ι α)))) :=
  endsLoop mov c.start (c.ord c.finals) .inf none

/-- the effect of `_match` on one side (traffic_scheduling_problem.py:462-464 and 466-468) -/
def pruneSide (maxd : Ext) (x : JSide ι α) : JSide ι α :=
  let keep := x.q.filter (fun s => !extLt maxd (.fin s.dist))
  ⟨keep, keep.foldl (fun d s => d.set s.loads s) Dict.empty, saddAll x.visited ((x.q.filter (fun s => extLt maxd (.fin s.dist))).map JState.loads)⟩

/-- `_match` (traffic_scheduling_problem.py:457-471); the flag says that `StopCondition` is raised -/
def JamCfg.match_ (c : JamCfg ι α O) (s : JamSt ι α O) : Option (Py (Bool × JamSt ι α O)) :=
  match c.bestPath s.mov with
  | none => none
  | some (.error e) => some (.error e)
  | some (.ok (d, _)) =>
    let maxd := if extLt d s.maxd then d else s.maxd
    some (.ok (c.first, ⟨s.mov, pruneSide maxd s.f, pruneSide maxd s.r, maxd⟩))

/-- `queue.remove(state)`: the first equal element; `ValueError` if there is none -/
def removeState (l : Placement ι α) : List (JState ι α) → Py (List (JState ι α))
  | [] => .error .valueError
  | x :: q => if x.loads = l then .ok q else match removeState l q with
    | .error e => .error e
    | .ok q' => .ok (x :: q')

/-- what happens to a new state (traffic_scheduling_problem.py:427-443, 499-515) -/
def JamCfg.push (c : JamCfg ι α O) (rev : Bool) (s : JamSt ι α O) (n : JState ι α) : Option (Py (Bool × JamSt ι α O)) :=
  let own := s.side rev
  let other := s.side (!rev)
  match own.edge.get? n.loads with
  | some ex =>
    if n.lt ex then
      match removeState ex.loads own.q with
      | .error e => some (.error e)
      | .ok q => some (.ok (false, s.setSide rev ⟨insortR JState.lt n q, own.edge.set n.loads n, own.visited⟩))
    else some (.ok (false, s))
  | none =>
    if n.loads ∈ own.visited ∨ n.loads ∈ other.visited then some (.ok (false, s))
    else
      let s' := s.setSide rev ⟨insortR JState.lt n own.q, own.edge.set n.loads n, own.visited⟩
      if n.loads ∈ other.visited then c.match_ s' else some (.ok (false, s'))

/-- `self.movements.edge(state, new_state, inf) < distance` (traffic_scheduling_problem.py:422, 494) -/
def cheaper (mov : Graph (Placement ι α) Rat O) (a b : Placement ι α) (d : Rat) : Bool :=
  match mov.edge a b with
  | some x => decide (x < d)
  | none => false

/-- one option: the load `o.1` goes to (comes from) `o.2.2` over the distance `o.2.1` (traffic_scheduling_problem.py:415-443, 487-515) -/
def JamCfg.try_ (c : JamCfg ι α O) (rev : Bool) (st : JState ι α) (s : JamSt ι α O) (o : ι × Rat × α) : Option (Py (Bool × JamSt ι α O)) :=
  let loads := moveTo o.1 o.2.2 st.loads
  let n : JState ι α := ⟨loads, st.dist + o.2.1, c.grad loads⟩
  let a := if rev then loads else st.loads
  let b := if rev then st.loads else loads
  if cheaper s.mov a b o.2.1 then some (.ok (false, s))
  else c.push rev { s with mov := s.mov.addEdge a b o.2.1 } n

/-- the loop over the options -/
def JamCfg.tryAll (c : JamCfg ι α O) (rev : Bool) (st : JState ι α) : List (ι × Rat × α) → JamSt ι α O → Option (Py (Bool × JamSt ι α O))
  | [], s => some (.ok (false, s))
  | o :: l, s => match c.try_ rev st s o with
    | none => none
    | some (.error e) => some (.error e)
    | some (.ok (true, s')) => some (.ok (true, s'))
    | some (.ok (false, s')) => JamCfg.tryAll c rev st l s'

/-- the options of one load (traffic_scheduling_problem.py:411-413, 483-485) -/
def JamCfg.options (c : JamCfg ι α O) (rev : Bool) (s : Placement ι α) (proh : List α) (loc : α) : List (Rat × α) :=
  pySort (fun x y : Rat × α => decide (x.1 < y.1) || (decide (x.1 = y.1) && c.nlt x.2 y.2))
    ((if rev then c.graph.inNbr loc else c.graph.outNbr loc).filterMap (fun e =>
      if e.1 ∉ s.map Prod.snd ∧ e.1 ∉ proh then some (e.2, e.1) else none))

/-- `self.loads[load_id]` -/
def JamCfg.load? (c : JamCfg ι α O) (k : ι) : Option (Load ι α) := c.loads.find? (fun l => decide (l.id = k))

/-- the options of all loads, in order.  The code computes them load by load; they depend on `state` only. -/
def JamCfg.allOptions (c : JamCfg ι α O) (rev : Bool) (s : Placement ι α) : Placement ι α → Py (List (ι × Rat × α))
  | [] => .ok []
  | (k, loc) :: l => match c.load? k with
    | none => .error .keyError
    | some ld => match c.allOptions rev s l with
      | .error e => .error e
      | .ok r => .ok ((c.options rev s ld.prohibited loc).map (fun o => (k, o)) ++ r)

/-- `_find_forward_options` / `_find_reverse_options` (traffic_scheduling_problem.py:401-443, 473-515) -/
def JamCfg.expand (c : JamCfg ι α O) (rev : Bool) (s : JamSt ι α O) : Option (Py (Bool × JamSt ι α O)) :=
  let own := s.side rev
  match own.q with
  | [] => some (.ok (false, s))
  | st :: q =>
    match own.edge.delE st.loads with
    | .error e => some (.error e)
    | .ok edge =>
      match c.allOptions rev st.loads st.loads with
      | .error e => some (.error e)
      | .ok opts => c.tryAll rev st opts (s.setSide rev ⟨q, edge, sadd own.visited st.loads⟩)

/-- one iteration of `_search` (traffic_scheduling_problem.py:391-399); leaving by `StopCondition`, by the timer or by exhaustion all end
with the current state -/
def JamCfg.searchStep (c : JamCfg ι α O) (clock : Nat → Rat) (x : JamSt ι α O × Timer) :
    Option ((JamSt ι α O × Timer) ⊕ Py (JamSt ι α O × Timer)) :=
  let (late, t) := x.2.check clock
  if late then some (.inr (.ok (x.1, t)))
  else match c.expand false x.1 with
    | none => none
    | some (.error e) => some (.inr (.error e))
    | some (.ok (true, s)) => some (.inr (.ok (s, t)))
    | some (.ok (false, s)) => match c.expand true s with
      | none => none
      | some (.error e) => some (.inr (.error e))
      | some (.ok (true, s)) => some (.inr (.ok (s, t)))
      | some (.ok (false, s)) => if s.f.q = [] ∧ s.r.q = [] then some (.inr (.ok (s, t))) else some (.inl (s, t))

/-- `JamSolver.__init__` (traffic_scheduling_problem.py:324-347): the initial node, the queues -/
def JamCfg.init (c : JamCfg ι α O) : JamSt ι α O :=
  let s0 : JState ι α := ⟨c.start, 0, .inf⟩
  let es : List (JState ι α) := c.finals.map (fun l => ⟨l, 0, .inf⟩)
  { mov := Graph.empty.addNode c.start none
    f := ⟨[s0], Dict.empty.set c.start s0, []⟩
    r := ⟨es, es.foldl (fun d s => d.set s.loads s) Dict.empty, []⟩
    maxd := .inf }

/-- `solve` (traffic_scheduling_problem.py:368-377): `(d, p)` and the timer afterwards -/
def JamCfg.solve (c : JamCfg ι α O) (clock : Nat → Rat) (t : Timer) : Option (Py ((Ext × Option (List (Placement ι α))) × Timer)) :=
  match pyWhileD (c.searchStep clock) (c.init, t) with
  | none => none
  | some (.error e) => some (.error e)
  | some (.ok (s, t)) => match c.bestPath s.mov with
    | none => none
    | some (.error e) => some (.error e)
    | some (.ok r) => some (.ok (r, t))

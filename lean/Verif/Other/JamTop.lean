import Verif.Other.Jam
import Verif.Search.Bfs
import Verif.Graph.Funcs
/-
Model of the entry point of the traffic jam solver (graph/traffic_scheduling_problem.py): `check_user_input`, the distance maps of
`JamSolver.__init__`, `jam_solver`.
-/
namespace GT
open Graph
variable {ι α O : Type} [DecidableEq ι] [DecidableEq α]

/-- the orders Python does not fix: iteration over sets of nodes, `set.pop`, iteration over `final_states`; the order of the nodes; the
readings of the clock -/
structure JamEnv (ι α : Type) where
  setOrd : List α → List α
  pop : Nat → List α → α
  finOrd : List (Placement ι α) → List (Placement ι α)
  nlt : α → α → Bool
  clock : Nat → Rat

/-- the loop that builds `all_loads` and `all_nodes` (traffic_scheduling_problem.py:144-161) -/
def buildLoads (ord : List α → List α) : List (RawLoad ι α) → Dict ι (Load ι α) → List α → Py (Dict ι (Load ι α) × List α)
  | [], d, ns => .ok (d, ns)
  | r :: l, d, ns => match newLoad ord r.id r.start r.ends r.prohibited with
    | .error e => .error e
    | .ok ld => buildLoads ord l (d.set ld.id ld) (saddAll (sadd ns ld.start) ld.ends)

/-- `analyze to help the programmer` (traffic_scheduling_problem.py:165-173): is `ValueError` raised? -/
def nodesMissing (g : Graph α Rat O) (ns : List α) (loads : List (Load ι α)) : Bool :=
  let diff := ns.filter (fun n => !g.has n)
  !diff.isEmpty && loads.any (fun ld => decide (ld.start ∈ diff) || ld.ends.any (fun e => decide (e ∈ diff)) || ld.prohibited.any (fun e => decide (e ∈ diff)))

/-- the loop over the loads: is there a path to an end? (traffic_scheduling_problem.py:179-190) -/
def checkPaths (g : Graph α Rat O) : List (Load ι α) → Option (Py Unit)
  | [] => some (.ok ())
  | ld :: l =>
    let gc := if ld.prohibited = [] then g else ld.prohibited.foldl (fun h n => h.delNode n) g.copy
    match gc.breadthFirstWalk ld.start none false with
    | none => none
    | some (.error e) => some (.error e)
    | some (.ok out) => if out.any (fun n => decide (n ∈ ld.ends)) then checkPaths g l else some (.error .unSolvable)

/-- `check_user_input(graph, loads)` (traffic_scheduling_problem.py:116-190); the checks of types are not modelled -/
def checkUserInput (E : JamEnv ι α) (g : Graph α Rat O) (raw : List (RawLoad ι α)) : Option (Py (List (Load ι α))) :=
  match buildLoads E.setOrd raw Dict.empty [] with
  | .error e => some (.error e)
  | .ok (d, ns) =>
    let loads := d.items.map Prod.snd
    if nodesMissing g ns loads then some (.error .valueError)
    else if isApSolvable E.pop (loads.map (fun ld => (ld.id, ld.ends))) then
      match checkPaths g loads with
      | none => none
      | some (.error e) => some (.error e)
      | some (.ok ()) => some (.ok loads)
    else some (.error .unSolvable)

/-- the distance maps (traffic_scheduling_problem.py:349-354) -/
def distMaps (ord : List α → List α) (g : Graph α Rat O) : List (Load ι α) → Option (Py (List (ι × Dict α Rat)))
  | [] => some (.ok [])
  | ld :: l => match g.distanceMap ord none (some ld.ends) true with
    | none => none
    | some (.error e) => some (.error e)
    | some (.ok m) => match distMaps ord g l with
      | none => none
      | some (.error e) => some (.error e)
      | some (.ok r) => some (.ok ((ld.id, m) :: r))

/-- `_distance(load_id, location)` (traffic_scheduling_problem.py:362-366).  `max` of the values: a distance map has at least the value 0
(of an end), so that the maximum starts from 0; the search never asks for an unknown load. -/
def jamDistance (maps : List (ι × Dict α Rat)) (p : ι × α) : Rat :=
  match maps.find? (fun m => decide (m.1 = p.1)) with
  | none => 0
  | some (_, m) => match m.get? p.2 with
    | some d => d
    | none => (m.items.foldl (fun a x => if a < x.2 then x.2 else a) 0) + 1

/-- the temperature (traffic_scheduling_problem.py:420, 492) -/
def jamGrad (maps : List (ι × Dict α Rat)) (s : Placement ι α) : Ext := .fin (s.foldl (fun a p => a + jamDistance maps p) 0)

/-- `JamSolver(graph, loads, timer)` with the value of `return_on_first` given to `solve` (traffic_scheduling_problem.py:305-374) -/
def jamCfg (E : JamEnv ι α) (g : Graph α Rat O) (loads : List (Load ι α)) (maps : List (ι × Dict α Rat)) (first : Bool) : JamCfg ι α O :=
  ⟨g, loads, E.nlt, jamGrad maps, E.finOrd, first⟩

/-- `jam_solver(graph, loads, timeout, synchronous_moves, return_on_first)` (traffic_scheduling_problem.py:518-569).  The result is a list
of dictionaries `{load: (from, to), ..}`, here of their items. -/
def jamSolver (E : JamEnv ι α) (g : Graph α Rat O) (raw : List (RawLoad ι α)) (timeout : Option Rat) (sync first : Bool) :
    Option (Py (List (List (ι × α × α)))) :=
  match checkUserInput E g raw with
  | none => none
  | some (.error e) => some (.error e)
  | some (.ok loads) => match newTimer E.clock timeout with
    | .error e => some (.error e)
    | .ok t => match distMaps E.setOrd g loads with
      | none => none
      | some (.error e) => some (.error e)
      | some (.ok maps) => match (jamCfg E g loads maps first).solve E.clock t with
        | none => none
        | some (.error e) => some (.error e)
        | some (.ok ((_, p), t')) =>
          match p with
          | none => some (.error (if (t'.check E.clock).1 then .unSolvable else .noSolution))
          | some p =>
            if p = [] then some (.error (if (t'.check E.clock).1 then .unSolvable else .noSolution))
            else match pathToMoves p with
              | .error e => some (.error e)
              | .ok moves => if sync then synchronousMoves moves (loads.map Load.start) else some (.ok (moves.map (fun m => [m])))

end GT

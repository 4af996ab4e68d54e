import Verif.Graph.Model
/-
Model of the remaining `BasicGraph` methods and the module level helpers of `graph/base.py`.

These use the total layer of the mutators: `Verif/Props/Base.lean` (C04) proves that on reachable
graphs the literal mutators never raise and agree with the total ones.
-/
namespace GT

/-- Python `d1 == d2` for dictionaries: same number of keys and equal value for each key. -/
def Dict.pyEq {K V W : Type} [DecidableEq K] (veq : V → W → Bool) (d : Dict K V) (e : Dict K W) : Bool :=
  d.items.length == e.items.length &&
    d.items.all (fun p => match e.get? p.1 with
      | some v => veq p.2 v
      | none => false)

namespace Graph
variable {α V O : Type} [DecidableEq α]

/-- a sequence of `add_edge(a, b, v)` calls -/
def addEdges (g : Graph α V O) (l : List (α × α × V)) : Graph α V O :=
  l.foldl (fun g e => g.addEdge e.1 e.2.1 e.2.2) g

/-- `copy` (base.py:65-72) -/
def copy (g : Graph α V O) : Graph α V O :=
  (g.nodes.items.foldl (fun h p => h.addNode p.1 p.2) empty).addEdges g.edgeList

/-- `__eq__` for two graphs of the same class (base.py:33-42) -/
def eqB [DecidableEq V] [DecidableEq O] (g h : Graph α V O) : Bool :=
  if !(g.nodes.pyEq (fun a b => a == b) h.nodes) then false
  else if g.edgeCount ≠ h.edgeCount then false
  else if !(g.edges.pyEq (fun r s => r.pyEq (fun a b => a == b) s) h.edges) then false
  else true

/-- `__ne__` (base.py:44-45) -/
def neB [DecidableEq V] [DecidableEq O] (g h : Graph α V O) : Bool := !(g.eqB h)

/-- `from_dict` (base.py:282-301); the container check on values is C04's, here values are
scalars. -/
def fromDict (g : Graph α V O) (d : Dict α (Dict α V)) : Graph α V O :=
  d.items.foldl (fun g p =>
    if p.2.isEmpty then g.addNode p.1 none
    else p.2.items.foldl (fun g q => g.addEdge p.1 q.1 q.2) g) g

/-- `to_dict` (base.py:303-310): `d[n1][n2] = dist` on a row that exists because `n1` is a node
(proved in `toDict` lemmas); a missing row would raise `KeyError` in Python. -/
def toDictE (g : Graph α V O) : Py (Dict α (Dict α V)) :=
  forE g.edgeList (g.nodeList.foldl (fun (d : Dict α (Dict α V)) n => d.set n .empty) .empty)
    (fun d e => match d.get? e.1 with
      | none => .error .keyError
      | some row => .ok (d.set e.1 (row.set e.2.1 e.2.2)))

/-- an item of `from_list`: `(n,)`, `(a, b)`, `(a, b, v)` or `(a, b, v, bidirectional)`. -/
inductive Link (α V : Type) where
  | node (n : α)
  | pair (a b : α)
  | edge (a b : α) (v : V)
  | edgeBi (a b : α) (v : V) (bidirectional : Bool)

/-- `from_list` (base.py:312-332).  `one` is the default edge value `1`.  Simplification: the
assertion on the item type and the empty tuple / over-long tuple are excluded by typing. -/
def fromList (one : V) (g : Graph α V O) (l : List (Link α V)) : Graph α V O :=
  l.foldl (fun g i => match i with
    | .node n => g.addNode n none
    | .pair a b => g.addEdge a b one
    | .edge a b v => g.addEdge a b v
    | .edgeBi a b v bi => if bi then (g.addEdge a b v).addEdge b a v else g.addEdge a b v) g

/-- `to_list` (base.py:334-336) -/
def toList (g : Graph α V O) : List (Link α V) :=
  g.edgeList.map (fun e => Link.edge e.1 e.2.1 e.2.2) ++ g.nodeList.map Link.node

/-- `Graph3D.copy` (core.py:333-335 `return Graph3D(from_dict=self.to_dict())`), on the node and
edge content. -/
def copy3D (g : Graph α V O) : Py (Graph α V O) :=
  match g.toDictE with
  | .error e => .error e
  | .ok d => .ok ((empty : Graph α V O).fromDict d)

/-- one term of the sum in `distance` (base.py:365): `acc + self.edge(nodes[i - 1], nodes[i])`.
`self.edge` returns `None` for a missing edge, and adding `None` raises `TypeError`.
`nodes[i - 1]` for `i = 0` is the last node. -/
def distTerm (g : Graph α Rat O) (nodes : List α) (acc : Py Rat) (i : Nat) : Py Rat :=
  match acc with
  | .error e => .error e
  | .ok s =>
    match nodes[if i = 0 then nodes.length - 1 else i - 1]?, nodes[i]? with
    | some a, some b => match g.edge a b with
      | some v => .ok (s + v)
      | none => .error .typeError
    | _, _ => .error .indexError

/-- `distance(nodes, return_to_start)` (base.py:364-368). -/
def distance (g : Graph α Rat O) (nodes : List α) (returnToStart : Bool) : Py Rat :=
  match (List.range nodes.length).foldl (g.distTerm nodes) (.ok 0) with
  | .error e => .error e
  | .ok length =>
    if returnToStart then
      match nodes.getLast?, nodes.head? with
      | some a, some b => match g.edge a b with
        | some v => .ok (length + v)
        | none => .error .typeError
      | _, _ => .error .indexError
    else .ok length

/-- `subgraph` (base.py:372-392).  `graph.edge(n1, n2)` for `n2` in `nodes(from_node=n1)` is never
`None`, so the loop reads the items of the row. -/
def subgraph (g : Graph α V O) (nodes : List α) : Graph α V O :=
  nodes.foldl (fun h n1 =>
    (g.edgesFrom n1).foldl (fun h e => if e.2.1 ∈ nodes then h.addEdge n1 e.2.1 e.2.2 else h)
      (h.addNode n1 (g.node n1))) empty

/-- `is_subgraph` (base.py:395-411) -/
def isSubgraph [DecidableEq V] (g h : Graph α V O) : Bool :=
  if !(g.nodeList.all (fun n => n ∈ h.nodeList)) then false
  else if !(g.edgeList.all (fun e => e ∈ h.edgeList)) then false
  else true

/-- `has_path` (base.py:436-452) -/
def hasPath (g : Graph α V O) (path : List α) : Py Bool :=
  let rec go (v1 : α) : List α → Bool
    | [] => true
    | v2 :: l => if (g.edge v1 v2).isNone then false else go v2 l
  match path with
  | [] => .error .indexError
  | v1 :: l => .ok (go v1 l)

end Graph

/-- `same_path` (base.py:414-433) on two lists that are not the same object. -/
def samePath {α : Type} [DecidableEq α] (p1 p2 : List α) : Bool :=
  if p1.length ≠ p2.length ∨ ¬ (p1.all (· ∈ p2) ∧ p2.all (· ∈ p1)) then false
  else
    let starts := (List.range p2.length).filter (fun ix => p1.head? == p2[ix]?)
    starts.any (fun s => (p1.zip (p2.drop s ++ p2.take s)).all (fun ab => ab.1 == ab.2))

end GT

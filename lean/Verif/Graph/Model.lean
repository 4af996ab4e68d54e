import Verif.Py
import Verif.Graph.Api
/-
Model of `graph/base.py:BasicGraph` (lines 6-369), function by function.

Two layers:
* the *literal* layer (`…E`), in which every dictionary subscript of the Python code that can
  raise `KeyError` does so, as a value of `Py`;
* the *total* layer, in which a failing subscript is replaced by the empty dictionary.
`Verif/Graph/Inv.lean` proves that the two agree on every reachable graph, so that the rest of the
development may use the total layer.
-/
namespace GT

/-- The state of a `BasicGraph` (base.py:18-23).
`α` node ids, `V` edge values, `O` node objects (`None` is `none`). -/
structure Graph (α V O : Type) where
  /-- `self._nodes = {}` (base.py:18) -/
  nodes : Dict α (Option O)
  /-- `self._edges = {}` (base.py:19) -/
  edges : Dict α (Dict α V)
  /-- `self._edge_count = 0` (base.py:20) -/
  edgeCount : Int
  /-- `self._reverse_edges = {}` (base.py:21) -/
  rev : Dict α (Dict α V)
  /-- `self._in_degree = defaultdict(int)` (base.py:22) -/
  inDeg : Dict α Int
  /-- `self._out_degree = defaultdict(int)` (base.py:23) -/
  outDeg : Dict α Int
  deriving DecidableEq, Repr

namespace Graph
variable {α V O : Type}

/-- `BasicGraph()` (base.py:13-23) -/
def empty : Graph α V O := ⟨.empty, .empty, 0, .empty, .empty, .empty⟩

variable [DecidableEq α]

/-! ### Queries -/

/-- `__contains__` (base.py:56-60) -/
def has (g : Graph α V O) (n : α) : Bool := g.nodes.contains n

/-- `node(node_id)` (base.py:165-171); `None` for an absent node as for an absent object. -/
def node (g : Graph α V O) (n : α) : Option O := (g.nodes.get? n).join

/-- `edge(node1, node2)` with `default=None` (base.py:111-122) -/
def edge (g : Graph α V O) (a b : α) : Option V := (g.edges.get? a).bind (fun d => d.get? b)

/-- `reverse_edge(node2, node1)` with `default=None` (base.py:124-129) -/
def reverseEdge (g : Graph α V O) (b a : α) : Option V := (g.rev.get? b).bind (fun d => d.get? a)

/-- `nodes()` (base.py:222-223) -/
def nodeList (g : Graph α V O) : List α := g.nodes.keys

/-- `nodes(from_node=n)` (base.py:225-228) -/
def nodesFrom (g : Graph α V O) (n : α) : List α :=
  match g.edges.get? n with
  | some d => d.keys
  | none => []

/-- `nodes(to_node=n)` (base.py:230-231) -/
def nodesTo (g : Graph α V O) (n : α) : List α :=
  match g.rev.get? n with
  | some d => d.keys
  | none => []

/-- `nodes(in_degree=k)` for `k >= 0` (base.py:236) -/
def nodesInDeg (g : Graph α V O) (k : Int) : List α :=
  g.inDeg.items.filterMap (fun p => if p.2 = k then some p.1 else none)

/-- `nodes(out_degree=k)` for `k >= 0` (base.py:241) -/
def nodesOutDeg (g : Graph α V O) (k : Int) : List α :=
  g.outDeg.items.filterMap (fun p => if p.2 = k then some p.1 else none)

/-- `nodes(from_node, to_node, in_degree, out_degree)` with its argument checks (base.py:204-241).
Simplification: `isinstance(in_degree, int)` holds by typing. -/
def nodesQ (g : Graph α V O) (fromNode toNode : Option α) (inD outD : Option Int) : Py (List α) :=
  let inputs := fromNode.toList.length + toNode.toList.length + inD.toList.length + outD.toList.length
  if inputs > 1 then .error .valueError
  else if inputs = 0 then .ok g.nodeList
  else match fromNode, toNode, inD, outD with
    | some n, _, _, _ => .ok (g.nodesFrom n)
    | none, some n, _, _ => .ok (g.nodesTo n)
    | none, none, some k, _ => if k < 0 then .error .valueError else .ok (g.nodesInDeg k)
    | none, none, none, some k => if k < 0 then .error .valueError else .ok (g.nodesOutDeg k)
    | none, none, none, none => .ok g.nodeList

/-- `edges(from_node=n)` (base.py:268-272) -/
def edgesFrom (g : Graph α V O) (n : α) : List (α × α × V) :=
  match g.edges.get? n with
  | some d => d.items.map (fun p => (n, p.1, p.2))
  | none => []

/-- `edges(to_node=n)` (base.py:274-278) -/
def edgesTo (g : Graph α V O) (n : α) : List (α × α × V) :=
  match g.rev.get? n with
  | some d => d.items.map (fun p => (p.1, n, p.2))
  | none => []

/-- `edges()` (base.py:280).  `out[n2]` for `n2 in out` is read off the items directly. -/
def edgeList (g : Graph α V O) : List (α × α × V) :=
  g.edges.items.flatMap (fun r => r.2.items.map (fun p => (r.1, p.1, p.2)))

/-- the comprehension of `edges(path=...)` (base.py:266) -/
def edgesAlong (g : Graph α V O) : List α → Py (List (α × α × V))
  | a :: b :: l =>
    match g.edges.get? a with
    | none => .error .keyError
    | some d => match d.get? b with
      | none => .error .keyError
      | some v => match edgesAlong g (b :: l) with
        | .error e => .error e
        | .ok r => .ok ((a, b, v) :: r)
  | _ => .ok []

/-- `edges(path=path)` (base.py:260-266) -/
def edgesPath (g : Graph α V O) (path : List α) : Py (List (α × α × V)) :=
  if path.length < 2 then .error .valueError else g.edgesAlong path

/-- `edges(path, from_node, to_node)` with its argument checks (base.py:243-280).
Simplification: `isinstance(path, list)` holds by typing. -/
def edgesQ (g : Graph α V O) (path : Option (List α)) (fromNode toNode : Option α) :
    Py (List (α × α × V)) :=
  let inputs := fromNode.toList.length + toNode.toList.length + path.toList.length
  if inputs > 1 then .error .valueError
  else match path, fromNode, toNode with
    | some p, _, _ => g.edgesPath p
    | none, some n, _ => .ok (g.edgesFrom n)
    | none, none, some n => .ok (g.edgesTo n)
    | none, none, none => .ok g.edgeList

/-! ### Mutators, literal layer -/

/-- `add_node` (base.py:152-163) -/
def addNode (g : Graph α V O) (n : α) (obj : Option O) : Graph α V O :=
  if g.nodes.contains n then
    { g with nodes := g.nodes.set n obj }
  else
    { g with
      nodes := g.nodes.set n obj
      inDeg := g.inDeg.set n 0
      outDeg := g.outDeg.set n 0 }

/-- `d[k] += x` on a `defaultdict(int)` -/
def ddAdd (d : Dict α Int) (k : α) (x : Int) : Dict α Int := d.set k ((d.get? k).getD 0 + x)

/-- `if node not in self._nodes: self.add_node(node)` (base.py:83-86) -/
def ensureNode (g : Graph α V O) (n : α) : Graph α V O :=
  if g.nodes.contains n then g else g.addNode n none

/-- `add_edge` after the value check, one direction (base.py:83-106), literally. -/
def addEdge1E (g₀ : Graph α V O) (a b : α) (v : V) : Py (Graph α V O) :=
  let g := (g₀.ensureNode a).ensureNode b
  let isUpdate := match g.edges.get? a with
    | some d => d.contains b
    | none => false
  if isUpdate then do
    let fwd ← g.edges.getE a
    let bwd ← g.rev.getE b
    .ok { g with
          edges := g.edges.set a (fwd.set b v)
          rev := g.rev.set b (bwd.set a v) }
  else
    let edges' := match g.edges.get? a with
      | none => g.edges.set a (Dict.empty.set b v)
      | some fwd => g.edges.set a (fwd.set b v)
    let rev' := match g.rev.get? b with
      | none => g.rev.set b (Dict.empty.set a v)
      | some bwd => g.rev.set b (bwd.set a v)
    .ok { g with
          edges := edges'
          rev := rev'
          outDeg := ddAdd g.outDeg a 1
          inDeg := ddAdd g.inDeg b 1
          edgeCount := g.edgeCount + 1 }

/-- `add_edge(node1, node2, value, bidirectional)` (base.py:74-109), literally. -/
def addEdgeE (g : Graph α V O) (a b : α) (v : Arg V) (bidirectional : Bool) : Py (Graph α V O) :=
  match v with
  | .container => .error .valueError
  | .scalar v => do
    let g ← g.addEdge1E a b v
    if bidirectional then g.addEdge1E b a v else .ok g

/-- `del_edge` (base.py:131-150), literally. -/
def delEdgeE (g : Graph α V O) (a b : α) : Py (Graph α V O) :=
  match g.edges.get? a with
  | none => .ok g                                   -- except KeyError: return
  | some fwd =>
    if fwd.contains b then do
      let fwd' := fwd.del b
      let edges' := if fwd'.isEmpty then (g.edges.set a fwd').del a else g.edges.set a fwd'
      let bwd ← g.rev.getE b
      let bwd' ← bwd.delE a
      let rev' := if bwd'.isEmpty then (g.rev.set b bwd').del b else g.rev.set b bwd'
      .ok { g with
            edges := edges'
            rev := rev'
            outDeg := ddAdd g.outDeg a (-1)
            inDeg := ddAdd g.inDeg b (-1)
            edgeCount := g.edgeCount - 1 }
    else .ok g                                      -- except KeyError: return

/-- reading `d[k]` on a `defaultdict(int)` inserts `0` for a missing key -/
def ddRead (d : Dict α Int) (k : α) : Int × Dict α Int :=
  match d.get? k with
  | some c => (c, d)
  | none => (0, d.set k 0)

/-- a `for` loop whose body may raise -/
def forE {β σ : Type} (l : List β) (s : σ) (f : σ → β → Py σ) : Py σ :=
  match l with
  | [] => .ok s
  | x :: l => match f s x with
    | .error e => .error e
    | .ok s' => forE l s' f

/-- first part of `del_node`: the outgoing edges (base.py:183-185), literally. -/
def delOutE (g : Graph α V O) (n : α) : Py (Graph α V O) :=
  let (c, od) := ddRead g.outDeg n
  let g := { g with outDeg := od }
  if c ≠ 0 then
    match g.edges.getE n with
    | .error e => .error e
    | .ok row => forE row.keys g (fun g n2 => g.delEdgeE n n2)
  else .ok g

/-- second part of `del_node`: the incoming edges (base.py:188-190), literally. -/
def delInE (g : Graph α V O) (n : α) : Py (Graph α V O) :=
  let (c, id) := ddRead g.inDeg n
  let g := { g with inDeg := id }
  if c ≠ 0 then
    match g.rev.getE n with
    | .error e => .error e
    | .ok col => forE col.keys g (fun g n1 => g.delEdgeE n1 n)
  else .ok g

/-- `del_node` (base.py:173-202), literally. -/
def delNodeE (g : Graph α V O) (n : α) : Py (Graph α V O) :=
  if !g.nodes.contains n then .ok g
  else match g.delOutE n with
    | .error e => .error e
    | .ok g => match g.delInE n with
      | .error e => .error e
      | .ok g =>
        -- 192-202
        .ok { g with
              edges := g.edges.del n
              rev := g.rev.del n
              nodes := g.nodes.del n
              inDeg := g.inDeg.del n
              outDeg := g.outDeg.del n }

/-- `in_degree(node)` (base.py:356-358): reads a `defaultdict`, so it may insert a key. -/
def inDegree (g : Graph α V O) (n : α) : Int × Graph α V O :=
  let (c, d) := ddRead g.inDeg n
  (c, { g with inDeg := d })

/-- `out_degree(node)` (base.py:360-362) -/
def outDegree (g : Graph α V O) (n : α) : Int × Graph α V O :=
  let (c, d) := ddRead g.outDeg n
  (c, { g with outDeg := d })

/-! ### Mutators, total layer -/

/-- `add_edge`, one direction, accepted value; total. -/
def addEdge (g₀ : Graph α V O) (a b : α) (v : V) : Graph α V O :=
  let g := (g₀.ensureNode a).ensureNode b
  let edges' := g.edges.set a (((g.edges.get? a).getD .empty).set b v)
  let rev' := g.rev.set b (((g.rev.get? b).getD .empty).set a v)
  if (g.edge a b).isSome then
    { g with edges := edges', rev := rev' }
  else
    { g with
      edges := edges'
      rev := rev'
      outDeg := ddAdd g.outDeg a 1
      inDeg := ddAdd g.inDeg b 1
      edgeCount := g.edgeCount + 1 }

/-- store a row, dropping it when it becomes empty (base.py:141-142, 145-146) -/
def putRow (d : Dict α (Dict α V)) (k : α) (row : Dict α V) : Dict α (Dict α V) :=
  if row.isEmpty then (d.set k row).del k else d.set k row

/-- `del_edge`; total. -/
def delEdge (g : Graph α V O) (a b : α) : Graph α V O :=
  if (g.edge a b).isSome then
    { g with
      edges := putRow g.edges a (((g.edges.get? a).getD .empty).del b)
      rev := putRow g.rev b (((g.rev.get? b).getD .empty).del a)
      outDeg := ddAdd g.outDeg a (-1)
      inDeg := ddAdd g.inDeg b (-1)
      edgeCount := g.edgeCount - 1 }
  else g

/-- the last part of `del_node` (base.py:192-202) -/
def dropNode (g : Graph α V O) (n : α) : Graph α V O :=
  { g with
    edges := g.edges.del n
    rev := g.rev.del n
    nodes := g.nodes.del n
    inDeg := g.inDeg.del n
    outDeg := g.outDeg.del n }

/-- `del_node`; total. -/
def delNode (g : Graph α V O) (n : α) : Graph α V O :=
  if g.nodes.contains n then
    let g := (g.nodesFrom n).foldl (fun g n2 => g.delEdge n n2) g
    let g := (g.nodesTo n).foldl (fun g n1 => g.delEdge n1 n) g
    g.dropNode n
  else g

/-! ### Histories -/

/-- One public operation: the new state, and the exception it raised, if any.  (`add_edge` raises
`ValueError` before changing anything; the other exceptions are shown to be impossible.) -/
def stepE (g : Graph α V O) : Op α V O → Graph α V O × Option Err
  | .addNode n obj => (g.addNode n obj, none)
  | .addEdge a b v bi => match g.addEdgeE a b v bi with
    | .ok g' => (g', none)
    | .error e => (g, some e)
  | .delEdge a b => match g.delEdgeE a b with
    | .ok g' => (g', none)
    | .error e => (g, some e)
  | .delNode n => match g.delNodeE n with
    | .ok g' => (g', none)
    | .error e => (g, some e)
  | .inDegree n => ((g.inDegree n).2, none)
  | .outDegree n => ((g.outDegree n).2, none)

/-- the state after a history of public operations -/
def run (ops : List (Op α V O)) : Graph α V O := ops.foldl (fun g op => (g.stepE op).1) empty

/-- A graph is `Built` if some history of public operations leads to it. -/
def Built (g : Graph α V O) : Prop := ∃ ops : List (Op α V O), run ops = g

end Graph
end GT

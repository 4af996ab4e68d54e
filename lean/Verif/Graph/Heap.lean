import Verif.Graph.Inv
import Verif.Graph.Funcs
/-
Model of the *memory* behind `graph/base.py`: every dictionary is a mutable object with an address,
graph objects and callers hold addresses, and the rows of `_edges` / `_reverse_edges` are separate
dictionaries that are updated in place.  Nothing here assumes that two graphs, or a graph and a
dictionary of the caller, do not share a dictionary: that is what C100 proves.

The rest of the development works with graphs as values (`Verif/Graph/Model.lean`); this file and
`HeapProofs.lean` justify that.
-/
namespace GT
namespace Mem

/-- The dictionaries in memory, by address, with their kind: `nds` for `_nodes`, `out` for a
dictionary whose values are dictionaries (`_edges`, `_reverse_edges`, or the nested dictionary of a
caller): its values are the *addresses* of the rows, `row` for a row, `deg` for a degree table.
`cnt` is the attribute `_edge_count` of the object at that address.  `next` is the first address
never used (addresses are not reused: a Python object that is still referenced is not). -/
structure Heap (α V O : Type) where
  nds : Nat → Dict α (Option O)
  out : Nat → Dict α Nat
  row : Nat → Dict α V
  deg : Nat → Dict α Int
  cnt : Nat → Int
  next : Nat

/-- A graph object: the addresses its attributes hold (base.py:18-23); `self` is the address of the
object, whose `_edge_count` is `cnt self`. -/
structure Ref where
  self : Nat
  nodes : Nat
  edges : Nat
  rev : Nat
  inDeg : Nat
  outDeg : Nat
  deriving DecidableEq, Repr

/-- a store with the cell `a` replaced -/
def upd {β : Type} (f : Nat → β) (a : Nat) (x : β) : Nat → β := fun b => if b = a then x else f b

variable {α V O : Type} [DecidableEq α]

/-! ### what is observable -/

/-- the nested dictionary at address `A`, read through the rows -/
def Heap.nested (h : Heap α V O) (A : Nat) : Dict α (Dict α V) :=
  ⟨(h.out A).items.map (fun p => (p.1, h.row p.2))⟩

/-- the graph object `o`, read as a value -/
def Heap.view (h : Heap α V O) (o : Ref) : Graph α V O :=
  ⟨h.nds o.nodes, h.nested o.edges, h.cnt o.self, h.nested o.rev, h.deg o.inDeg, h.deg o.outDeg⟩

/-! ### statements on nested dictionaries -/

/-- `d[k][b] = v`: the row at `d[k]` is changed in place -/
def setInRow (h : Heap α V O) (A : Nat) (k b : α) (v : V) : Py (Heap α V O) :=
  match (h.out A).get? k with
  | none => .error .keyError
  | some r => .ok { h with row := upd h.row r ((h.row r).set b v) }

/-- `d[k] = row` for a new dictionary `row` with the given content -/
def newRow (h : Heap α V O) (A : Nat) (k : α) (content : Dict α V) : Heap α V O :=
  { h with
    row := upd h.row h.next content
    out := upd h.out A ((h.out A).set k h.next)
    next := h.next + 1 }

/-- `del d[k][b]` -/
def delInRow (h : Heap α V O) (A : Nat) (k b : α) : Py (Heap α V O) :=
  match (h.out A).get? k with
  | none => .error .keyError
  | some r =>
    if (h.row r).contains b then .ok { h with row := upd h.row r ((h.row r).del b) }
    else .error .keyError

/-- `try: del d[k] except KeyError: pass` -/
def delKey (h : Heap α V O) (A : Nat) (k : α) : Heap α V O :=
  { h with out := upd h.out A ((h.out A).del k) }

/-- `if not d[k]: del d[k]` (base.py:141-142, 145-146) -/
def dropIfEmpty (h : Heap α V O) (A : Nat) (k : α) : Py (Heap α V O) :=
  match (h.out A).get? k with
  | none => .error .keyError
  | some r => if (h.row r).isEmpty then .ok (delKey h A k) else .ok h

/-! ### the methods of `BasicGraph` -/

/-- `BasicGraph()` (base.py:13-23): five new dictionaries. -/
def newGraph (h : Heap α V O) : Heap α V O × Ref :=
  let o : Ref := ⟨h.next, h.next + 1, h.next + 2, h.next + 3, h.next + 4, h.next + 5⟩
  ({ h with
     nds := upd h.nds o.nodes .empty
     out := upd (upd h.out o.edges .empty) o.rev .empty
     deg := upd (upd h.deg o.inDeg .empty) o.outDeg .empty
     cnt := upd h.cnt o.self 0
     next := h.next + 6 }, o)

/-- a write to `_nodes` -/
def setNds (h : Heap α V O) (o : Ref) (d : Dict α (Option O)) : Heap α V O :=
  { h with nds := upd h.nds o.nodes d }

/-- a write to `_in_degree` -/
def setIn (h : Heap α V O) (o : Ref) (d : Dict α Int) : Heap α V O :=
  { h with deg := upd h.deg o.inDeg d }

/-- a write to `_out_degree` -/
def setOut (h : Heap α V O) (o : Ref) (d : Dict α Int) : Heap α V O :=
  { h with deg := upd h.deg o.outDeg d }

/-- a write to `_edge_count` -/
def setCnt (h : Heap α V O) (o : Ref) (c : Int) : Heap α V O :=
  { h with cnt := upd h.cnt o.self c }

/-- `add_node` (base.py:152-163) -/
def addNode (h : Heap α V O) (o : Ref) (n : α) (obj : Option O) : Heap α V O :=
  if (h.nds o.nodes).contains n then
    setNds h o ((h.nds o.nodes).set n obj)
  else
    let h := setNds h o ((h.nds o.nodes).set n obj)
    let h := setIn h o ((h.deg o.inDeg).set n 0)
    setOut h o ((h.deg o.outDeg).set n 0)

/-- `if node not in self._nodes: self.add_node(node)` (base.py:83-86) -/
def ensureNode (h : Heap α V O) (o : Ref) (n : α) : Heap α V O :=
  if (h.nds o.nodes).contains n then h else addNode h o n none

/-- `self._out_degree[a] += x; self._in_degree[b] += x; self._edge_count += x`
(base.py:104-106, 148-150) -/
def bump (h : Heap α V O) (o : Ref) (a b : α) (x : Int) : Heap α V O :=
  let h := setOut h o (Graph.ddAdd (h.deg o.outDeg) a x)
  let h := setIn h o (Graph.ddAdd (h.deg o.inDeg) b x)
  setCnt h o (h.cnt o.self + x)

/-- `forward = d.get(k, None)`; a new row or an update of the row that is there
(base.py:92-96, 98-102) -/
def putInRow (h : Heap α V O) (A : Nat) (k b : α) (v : V) : Py (Heap α V O) :=
  match (h.out A).get? k with
  | none => .ok (newRow h A k (Dict.empty.set b v))
  | some _ => setInRow h A k b v

/-- `k in d and b in d[k]` (base.py:88) -/
def hasInRow (h : Heap α V O) (A : Nat) (k b : α) : Bool :=
  match (h.out A).get? k with
  | some r => (h.row r).contains b
  | none => false

/-- `add_edge` after the value check, one direction (base.py:83-106) -/
def addEdge1 (h : Heap α V O) (o : Ref) (a b : α) (v : V) : Py (Heap α V O) :=
  let h := ensureNode (ensureNode h o a) o b
  if hasInRow h o.edges a b then
    match setInRow h o.edges a b v with
    | .error e => .error e
    | .ok h => setInRow h o.rev b a v
  else
    match putInRow h o.edges a b v with
    | .error e => .error e
    | .ok h => match putInRow h o.rev b a v with
      | .error e => .error e
      | .ok h => .ok (bump h o a b 1)

/-- `add_edge` (base.py:74-109) -/
def addEdge (h : Heap α V O) (o : Ref) (a b : α) (v : Arg V) (bidirectional : Bool) :
    Py (Heap α V O) :=
  match v with
  | .container => .error .valueError
  | .scalar v =>
    match addEdge1 h o a b v with
    | .error e => .error e
    | .ok h => if bidirectional then addEdge1 h o b a v else .ok h

/-- `del_edge` (base.py:131-150) -/
def delEdge (h : Heap α V O) (o : Ref) (a b : α) : Py (Heap α V O) :=
  match delInRow h o.edges a b with
  | .error _ => .ok h                               -- except KeyError: return
  | .ok h => match dropIfEmpty h o.edges a with
    | .error e => .error e
    | .ok h => match delInRow h o.rev b a with
      | .error e => .error e
      | .ok h => match dropIfEmpty h o.rev b with
        | .error e => .error e
        | .ok h => .ok (bump h o a b (-1))

/-- the outgoing edges in `del_node` (base.py:183-185); the test reads a `defaultdict` -/
def delOut (h : Heap α V O) (o : Ref) (n : α) : Py (Heap α V O) :=
  let (c, d) := Graph.ddRead (h.deg o.outDeg) n
  let h := setOut h o d
  if c ≠ 0 then
    match (h.out o.edges).get? n with
    | none => .error .keyError
    | some r => Graph.forE (h.row r).keys h (fun h n2 => delEdge h o n n2)
  else .ok h

/-- the incoming edges in `del_node` (base.py:188-190) -/
def delIn (h : Heap α V O) (o : Ref) (n : α) : Py (Heap α V O) :=
  let (c, d) := Graph.ddRead (h.deg o.inDeg) n
  let h := setIn h o d
  if c ≠ 0 then
    match (h.out o.rev).get? n with
    | none => .error .keyError
    | some r => Graph.forE (h.row r).keys h (fun h n1 => delEdge h o n1 n)
  else .ok h

/-- `del_node` (base.py:173-202) -/
def delNode (h : Heap α V O) (o : Ref) (n : α) : Py (Heap α V O) :=
  if !(h.nds o.nodes).contains n then .ok h
  else match delOut h o n with
    | .error e => .error e
    | .ok h => match delIn h o n with
      | .error e => .error e
      | .ok h =>
        -- 192-202
        let h := delKey h o.edges n
        let h := delKey h o.rev n
        let h := setNds h o ((h.nds o.nodes).del n)
        let h := setIn h o ((h.deg o.inDeg).del n)
        .ok (setOut h o ((h.deg o.outDeg).del n))

/-- one public operation on object `o` (cf. `Graph.stepE`); `in_degree` / `out_degree` read a
`defaultdict` (base.py:356-362) -/
def opStep (h : Heap α V O) (o : Ref) : Op α V O → Py (Heap α V O)
  | .addNode n obj => .ok (addNode h o n obj)
  | .addEdge a b v bi => addEdge h o a b v bi
  | .delEdge a b => delEdge h o a b
  | .delNode n => delNode h o n
  | .inDegree n => .ok (setIn h o (Graph.ddRead (h.deg o.inDeg) n).2)
  | .outDegree n => .ok (setOut h o (Graph.ddRead (h.deg o.outDeg) n).2)

/-- one iteration of the first loop of `copy` (base.py:68-69) -/
def copyNode (src o : Ref) (h : Heap α V O) (n : α) : Py (Heap α V O) :=
  match (h.nds src.nodes).getE n with
  | .error e => .error e
  | .ok obj => .ok (addNode h o n obj)

/-- `copy` (base.py:65-72): `self._nodes[n]` is read in every iteration, `self.edges()` once. -/
def copy (h : Heap α V O) (src : Ref) : Py (Heap α V O × Ref) :=
  let (h, o) := newGraph h
  match Graph.forE (h.nds src.nodes).keys h (copyNode src o) with
  | .error e => .error e
  | .ok h =>
    match Graph.forE (h.view src).edgeList h (fun h e => addEdge1 h o e.1 e.2.1 e.2.2) with
    | .error e => .error e
    | .ok h => .ok (h, o)

/-- one iteration of `subgraph` (base.py:386-391) -/
def subStep (src o : Ref) (nodes : List α) (h : Heap α V O) (n1 : α) : Py (Heap α V O) :=
  let h := addNode h o n1 ((h.view src).node n1)
  Graph.forE ((h.view src).edgesFrom n1) h (fun h e =>
    if e.2.1 ∈ nodes then addEdge1 h o n1 e.2.1 e.2.2 else .ok h)

/-- `subgraph` (base.py:372-392): the source graph is read in every iteration.
`graph.edge(n1, n2)` for `n2` in `nodes(from_node=n1)` is read off the row. -/
def subgraph (h : Heap α V O) (src : Ref) (nodes : List α) : Py (Heap α V O × Ref) :=
  let (h, o) := newGraph h
  match Graph.forE nodes h (subStep src o nodes) with
  | .error e => .error e
  | .ok h => .ok (h, o)

/-- a new empty dictionary at address `next` -/
def allocDict (h : Heap α V O) : Heap α V O :=
  { h with out := upd h.out h.next .empty, next := h.next + 1 }

/-- the rows of `to_dict` (base.py:307): a new row for every node -/
def newRows (A : Nat) (l : List α) (h : Heap α V O) : Heap α V O :=
  l.foldl (fun h n => newRow h A n .empty) h

/-- `to_dict` (base.py:303-310). -/
def toDict (h : Heap α V O) (src : Ref) : Py (Heap α V O × Nat) :=
  let A := h.next
  let h := allocDict h
  let h := newRows A (h.view src).nodeList h
  match Graph.forE (h.view src).edgeList h (fun h e => setInRow h A e.1 e.2.1 e.2.2) with
  | .error e => .error e
  | .ok h => .ok (h, A)

/-- `from_dict` (base.py:282-301) on the dictionary at address `A`: the rows are read when the loop
reaches them. -/
def fromDict (h : Heap α V O) (o : Ref) (A : Nat) : Py (Heap α V O) :=
  Graph.forE (h.out A).items h (fun h p =>
    if (h.row p.2).isEmpty then .ok (addNode h o p.1 none)
    else Graph.forE (h.row p.2).items h (fun h q => addEdge1 h o p.1 q.1 q.2))

/-! ### programs -/

/-- A program's state: memory, the graph objects it holds, and the dictionaries it holds (`dicts`
nested dictionaries, `rows` inner dictionaries). -/
structure World (α V O : Type) where
  heap : Heap α V O
  objs : List Ref
  dicts : List Nat
  rows : List Nat

/-- What a program can do.  The last four are statements of the caller on its own dictionaries,
which may be aliased in any way: creating one with any content, or replacing the content of one
(`d.clear(); d.update(content)` — any sequence of in-place changes has such an effect). -/
inductive Act (α V O : Type) where
  | new
  | on (i : Nat) (op : Op α V O)
  | copy (i : Nat)
  | subgraph (i : Nat) (nodes : List α)
  | toDict (i : Nat)
  | fromDict (i : Nat) (A : Nat)
  | newRow (content : Dict α V)
  | newDict (content : Dict α Nat)
  | setRow (r : Nat) (content : Dict α V)
  | setDict (A : Nat) (content : Dict α Nat)

/-- One step.  A name that denotes nothing the program holds does nothing.  Simplification: when a
call raises, memory is left as it was before the call; C100 shows that the only exception is the
`ValueError` of `add_edge`, which is raised before anything is changed. -/
def World.step (w : World α V O) : Act α V O → Py (World α V O)
  | .new =>
    let (h, o) := newGraph w.heap
    .ok { w with heap := h, objs := w.objs ++ [o] }
  | .on i op => match w.objs[i]? with
    | none => .ok w
    | some o => match opStep w.heap o op with
      | .error e => .error e
      | .ok h => .ok { w with heap := h }
  | .copy i => match w.objs[i]? with
    | none => .ok w
    | some o => match copy w.heap o with
      | .error e => .error e
      | .ok (h, o') => .ok { w with heap := h, objs := w.objs ++ [o'] }
  | .subgraph i nodes => match w.objs[i]? with
    | none => .ok w
    | some o => match subgraph w.heap o nodes with
      | .error e => .error e
      | .ok (h, o') => .ok { w with heap := h, objs := w.objs ++ [o'] }
  | .toDict i => match w.objs[i]? with
    | none => .ok w
    | some o => match toDict w.heap o with
      | .error e => .error e
      | .ok (h, A) => .ok { w with heap := h, dicts := A :: w.dicts, rows := (h.out A).values ++ w.rows }
  | .fromDict i A => match w.objs[i]? with
    | none => .ok w
    | some o =>
      if A ∈ w.dicts then
        match fromDict w.heap o A with
        | .error e => .error e
        | .ok h => .ok { w with heap := h }
      else .ok w
  | .newRow d =>
    .ok { w with
          heap := { w.heap with row := upd w.heap.row w.heap.next d, next := w.heap.next + 1 }
          rows := w.heap.next :: w.rows }
  | .newDict d =>
    if d.values.all (· ∈ w.rows) then
      .ok { w with
            heap := { w.heap with out := upd w.heap.out w.heap.next d, next := w.heap.next + 1 }
            dicts := w.heap.next :: w.dicts }
    else .ok w
  | .setRow r d =>
    if r ∈ w.rows then .ok { w with heap := { w.heap with row := upd w.heap.row r d } } else .ok w
  | .setDict A d =>
    if A ∈ w.dicts ∧ d.values.all (· ∈ w.rows) then
      .ok { w with heap := { w.heap with out := upd w.heap.out A d } }
    else .ok w

/-- memory before the program starts -/
def World.start : World α V O := ⟨⟨fun _ => .empty, fun _ => .empty, fun _ => .empty, fun _ => .empty, fun _ => 0, 0⟩, [], [], []⟩

/-- the program, continuing after an exception -/
def World.run (prog : List (Act α V O)) (w : World α V O) : World α V O :=
  prog.foldl (fun w a => match w.step a with
    | .ok w' => w'
    | .error _ => w) w

/-- the value of graph object `i` -/
def World.graph (w : World α V O) (i : Nat) : Option (Graph α V O) :=
  w.objs[i]?.map w.heap.view

/-- some program leads to this state of memory -/
def World.Reachable (w : World α V O) : Prop := ∃ prog : List (Act α V O), w = World.run prog World.start

/-- the dictionaries the program holds in `w` have the same content in `w'` -/
def SameDicts (w w' : World α V O) : Prop :=
  (∀ A ∈ w.dicts, w'.heap.out A = w.heap.out A) ∧ ∀ r ∈ w.rows, w'.heap.row r = w.heap.row r

/-- the statements of the caller on its own dictionaries -/
def Act.ofCaller : Act α V O → Bool
  | .newRow _ | .newDict _ | .setRow _ _ | .setDict _ _ => true
  | _ => false

/-- the actions that are operations on object `i` -/
def Act.on? (i : Nat) : Act α V O → Bool
  | .on j _ => j = i
  | .fromDict j _ => j = i
  | _ => false

end Mem
end GT

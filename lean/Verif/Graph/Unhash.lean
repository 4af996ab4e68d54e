import Verif.Graph.LoadE
/-
The methods of `BasicGraph` (graph/base.py) when they are given an unhashable object (a list, a dictionary, a set) where a node is expected.
Looking such an object up in a dictionary (`x in d`, `d[x]`, `d.get(x)`, `del d[x]`) raises `TypeError`, whatever the dictionary contains.
-/
namespace GT

/-- an object handed to a method as a node: hashable, or not -/
inductive NArg (α : Type) where
  | ok (n : α)
  | unhashable
  deriving DecidableEq, Repr

/-- the operations of `Op` with arbitrary objects as nodes -/
inductive UOp (α V O : Type) where
  | addNode (n : NArg α) (obj : Option O)
  | addEdge (a b : NArg α) (v : Arg V) (bidirectional : Bool)
  | delEdge (a b : NArg α)
  | delNode (n : NArg α)
  | inDegree (n : NArg α)
  | outDegree (n : NArg α)

namespace Graph
variable {α V O : Type} [DecidableEq α]

/-- one call: the state it leaves behind and the exception it raised.  For hashable nodes it is `stepE`.
* `add_node` (base.py:158), `del_node` (base.py:179), `in_degree` and `out_degree` (base.py:358, 362): the first lookup raises;
* `add_edge` (base.py:81-86): the value is checked first, then `node1` is looked up and added, then `node2` is looked up;
* `del_edge` (base.py:137-140): `self._edges[node1]` raises `KeyError` (and the method returns) before `node2` is hashed. -/
def stepU (g : Graph α V O) : UOp α V O → Graph α V O × Option Err
  | .addNode (.ok n) obj => g.stepE (.addNode n obj)
  | .addNode .unhashable _ => (g, some .typeError)
  | .addEdge (.ok a) (.ok b) v bi => g.stepE (.addEdge a b v bi)
  | .addEdge _ _ .container _ => (g, some .valueError)
  | .addEdge .unhashable _ (.scalar _) _ => (g, some .typeError)
  | .addEdge (.ok a) .unhashable (.scalar _) _ => (g.ensureNode a, some .typeError)
  | .delEdge (.ok a) (.ok b) => g.stepE (.delEdge a b)
  | .delEdge .unhashable _ => (g, some .typeError)
  | .delEdge (.ok a) .unhashable => match g.edges.get? a with
    | none => (g, none)
    | some _ => (g, some .typeError)
  | .delNode (.ok n) => g.stepE (.delNode n)
  | .delNode .unhashable => (g, some .typeError)
  | .inDegree (.ok n) => g.stepE (.inDegree n)
  | .inDegree .unhashable => (g, some .typeError)
  | .outDegree (.ok n) => g.stepE (.outDegree n)
  | .outDegree .unhashable => (g, some .typeError)

/-- the state after a history of calls with arbitrary arguments, the exceptions being caught by the caller -/
def runU (ops : List (UOp α V O)) : Graph α V O := ops.foldl (fun g op => (g.stepU op).1) empty

/-- `edge(node1, node2, default)` (base.py:119-122); only `KeyError` is caught -/
def edgeU (g : Graph α V O) (a b : NArg α) (default : Option V) : Py (Option V) :=
  match a, b with
  | .unhashable, _ => .error .typeError
  | .ok a, .unhashable => match g.edges.get? a with
    | none => .ok default
    | some _ => .error .typeError
  | .ok a, .ok b => .ok (match g.edge a b with | some v => some v | none => default)

/-- `reverse_edge(node2, node1, default)` (base.py:126-129) -/
def reverseEdgeU (g : Graph α V O) (b a : NArg α) (default : Option V) : Py (Option V) :=
  match b, a with
  | .unhashable, _ => .error .typeError
  | .ok b, .unhashable => match g.rev.get? b with
    | none => .ok default
    | some _ => .error .typeError
  | .ok b, .ok a => .ok (match g.reverseEdge b a with | some v => some v | none => default)

/-- `n in g` (base.py:60) -/
def hasU (g : Graph α V O) : NArg α → Py Bool
  | .ok n => .ok (g.has n)
  | .unhashable => .error .typeError

/-- `node(node_id)` (base.py:171) -/
def nodeU (g : Graph α V O) : NArg α → Py (Option O)
  | .ok n => .ok (g.node n)
  | .unhashable => .error .typeError

/-- `nodes(from_node=n)` (base.py:225-228) -/
def nodesFromU (g : Graph α V O) : NArg α → Py (List α)
  | .ok n => .ok (g.nodesFrom n)
  | .unhashable => .error .typeError

/-- `nodes(to_node=n)` (base.py:230-231) -/
def nodesToU (g : Graph α V O) : NArg α → Py (List α)
  | .ok n => .ok (g.nodesTo n)
  | .unhashable => .error .typeError

/-- the comprehension of `edges(path=...)` (base.py:266): `self._edges[path[ix]][path[ix + 1]]` for each index in turn -/
def edgesAlongU (g : Graph α V O) : List (NArg α) → Py (List (α × α × V))
  | a :: b :: l =>
    match a, b with
    | .unhashable, _ => .error .typeError
    | .ok a', .unhashable => match g.edges.get? a' with
      | none => .error .keyError
      | some _ => .error .typeError
    | .ok a', .ok b' => match g.edge a' b' with
      | none => .error .keyError
      | some v => match edgesAlongU g (b :: l) with
        | .error e => .error e
        | .ok r => .ok ((a', b', v) :: r)
  | _ => .ok []

/-- `edges(path=path)` (base.py:260-266) -/
def edgesPathU (g : Graph α V O) (path : List (NArg α)) : Py (List (α × α × V)) :=
  if path.length < 2 then .error .valueError else g.edgesAlongU path

/-- an item of the argument of `from_list`, with arbitrary objects as nodes -/
inductive UItem (α V : Type) where
  | other
  | tup0
  | tup1 (n : NArg α)
  | tup2 (a b : NArg α)
  | tup3 (a b : NArg α) (v : Arg V)
  | tup4 (a b : NArg α) (v : Arg V) (bidirectional : Bool)
  | more
  deriving DecidableEq, Repr

/-- the body of the loop of `from_list` (base.py:327-332) -/
def itemU (one : V) (g : Graph α V O) : UItem α V → Graph α V O × Option Err
  | .other => (g, some .assertionError)
  | .tup0 => (g, some .indexError)
  | .tup1 n => g.stepU (.addNode n none)
  | .tup2 a b => g.stepU (.addEdge a b (.scalar one) false)
  | .tup3 a b v => g.stepU (.addEdge a b v false)
  | .tup4 a b v bi => g.stepU (.addEdge a b v bi)
  | .more => (g, some .typeError)

/-- `from_list` (base.py:312-332) -/
def fromListU (one : V) (g : Graph α V O) (items : List (UItem α V)) : Graph α V O × Option Err := untilErr (itemU one) g items

/-! ### proofs -/

theorem ensureNode_built {g : Graph α V O} (h : g.Built) (a : α) : (g.ensureNode a).Built := by
  unfold ensureNode
  split
  · exact h
  · obtain ⟨ops, rfl⟩ := h
    exact ⟨ops ++ [.addNode a none], by simp [run, List.foldl_append, stepE]⟩

theorem stepE_built {g : Graph α V O} (h : g.Built) (op : Op α V O) : (g.stepE op).1.Built := by
  obtain ⟨ops, rfl⟩ := h
  exact ⟨ops ++ [op], by simp [run, List.foldl_append]⟩

theorem stepU_built {g : Graph α V O} (h : g.Built) (op : UOp α V O) : (g.stepU op).1.Built := by
  unfold stepU
  split <;> first | exact stepE_built h _ | exact h | exact ensureNode_built h _ | (split <;> exact h)

end Graph
end GT

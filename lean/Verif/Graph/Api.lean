/-
The vocabulary of public operations of `BasicGraph` (signatures only, no behaviour).
-/
namespace GT

/-- An edge value as handed to `add_edge`: containers (dict/list/tuple) are rejected
(base.py:81-82), everything else is stored. -/
inductive Arg (V : Type) where
  | scalar (v : V)
  | container
  deriving DecidableEq, Repr

/-- The public operations that can change a `BasicGraph`. -/
inductive Op (α V O : Type) where
  | addNode (n : α) (obj : Option O)
  | addEdge (a b : α) (v : Arg V) (bidirectional : Bool)
  | delEdge (a b : α)
  | delNode (n : α)
  | inDegree (n : α)
  | outDegree (n : α)

end GT

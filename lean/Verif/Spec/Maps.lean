import Verif.Py
import Verif.Graph.Api
/-
The abstract graph: a plain pair of maps, updated by the public operations.
This is the specification that `BasicGraph` is compared to; it has no reverse index, no counters and
no dictionaries.
-/
namespace GT

/-- node ↦ object (`none`: not a node; `some none`: a node without object), and
(source, target) ↦ value (`none`: no edge) -/
structure Maps (α V O : Type) where
  node : α → Option (Option O)
  edge : α → α → Option V

namespace Maps
variable {α V O : Type} [DecidableEq α]

def empty : Maps α V O := ⟨fun _ => none, fun _ _ => none⟩

/-- make `n` a node (keeping the object it has) -/
def touch (m : Maps α V O) (n : α) : Maps α V O :=
  { m with node := fun x => if x = n then some ((m.node n).join) else m.node x }

/-- set one edge -/
def put (m : Maps α V O) (a b : α) (v : V) : Maps α V O :=
  { m with edge := fun x y => if x = a ∧ y = b then some v else m.edge x y }

/-- The effect of a public operation on the pair of maps, and the exception the caller sees. -/
def step (m : Maps α V O) : Op α V O → Maps α V O × Option Err
  | .addNode n obj => ({ m with node := fun x => if x = n then some obj else m.node x }, none)
  | .addEdge _ _ .container _ => (m, some .valueError)
  | .addEdge a b (.scalar v) bi =>
    let m := ((m.touch a).touch b).put a b v
    (if bi then m.put b a v else m, none)
  | .delEdge a b =>
    ({ m with edge := fun x y => if x = a ∧ y = b then none else m.edge x y }, none)
  | .delNode n =>
    ({ node := fun x => if x = n then none else m.node x
       edge := fun x y => if x = n ∨ y = n then none else m.edge x y }, none)
  | .inDegree _ => (m, none)
  | .outDegree _ => (m, none)

/-- the maps after a history -/
def run (ops : List (Op α V O)) : Maps α V O := ops.foldl (fun m op => (m.step op).1) empty

end Maps
end GT

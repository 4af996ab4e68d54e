import Verif.Graph.Api
/-
The order in which a graph enumerates its nodes and edges: the order of first insertion, kept up to
date by the public operations.  No dictionaries, no indices, no counters: three lists.
-/
namespace GT

/-- the nodes, the edges (source, target) and the nodes with an outgoing edge, each oldest first -/
structure Order (α : Type) where
  nodes : List α
  edges : List (α × α)
  sources : List α

namespace Order
variable {α V O : Type} [DecidableEq α]

/-- append at the end, unless it is there already: re-adding does not move anything -/
def append {β : Type} [DecidableEq β] (l : List β) (x : β) : List β := if x ∈ l then l else l ++ [x]

/-- add the edge `a → b` -/
def link (s : Order α) (a b : α) : Order α :=
  { nodes := append (append s.nodes a) b
    edges := append s.edges (a, b)
    sources := append s.sources a }

/-- keep the edges satisfying `p`; a node stays a source as long as one of its edges is left -/
def keep (s : Order α) (p : α × α → Bool) : Order α :=
  { s with
    edges := s.edges.filter p
    sources := s.sources.filter (fun x => (s.edges.filter p).any (fun e => e.1 == x)) }

/-- The effect of a public operation on the insertion order. -/
def step (s : Order α) : Op α V O → Order α
  | .addNode n _ => { s with nodes := append s.nodes n }
  | .addEdge _ _ .container _ => s
  | .addEdge a b (.scalar _) bi => if bi then (s.link a b).link b a else s.link a b
  | .delEdge a b => s.keep (fun e => e != (a, b))
  | .delNode n => { s.keep (fun e => e.1 != n && e.2 != n) with nodes := s.nodes.filter (fun x => x != n) }
  | .inDegree _ => s
  | .outDegree _ => s

/-- the insertion order after a history -/
def run (ops : List (Op α V O)) : Order α := ops.foldl step ⟨[], [], []⟩

/-- the targets of the edges leaving `n`, oldest edge first -/
def targets (s : Order α) (n : α) : List α := (s.edges.filter (fun e => e.1 == n)).map Prod.snd

/-- the sources of the edges entering `n`, oldest edge first -/
def origins (s : Order α) (n : α) : List α := (s.edges.filter (fun e => e.2 == n)).map Prod.fst

end Order
end GT

import Verif.Other.Tsp2023
import Verif.Other.Bnb
/-
Model of `Graph.solve_tsp` (graph/core.py:154-169).
-/
namespace GT
variable {α O : Type} [DecidableEq α]

/-- a result `(length, tour)` with the length as an extended number -/
def toExt (r : Option (Py (Rat × List α))) : Option (Py (Ext × List α)) :=
  match r with
  | none => none
  | some (.error e) => some (.error e)
  | some (.ok (d, t)) => some (.ok (.fin d, t))

/-- `g.solve_tsp(method="2023")` (core.py:154-169): `methods.get(method)` is `None` for an unknown method, and `None(self)` raises
`TypeError` -/
def solveTsp (nlt : α → α → Bool) (it : SetOrders α) (g : Graph α Rat O) (method : String := "2023") : Option (Py (Ext × List α)) :=
  if method = "greedy" then toExt (tspGreedy nlt g)
  else if method = "bnb" then bnb nlt it g
  else if method = "2023" then toExt (tsp2023 nlt g)
  else some (.error .typeError)

end GT

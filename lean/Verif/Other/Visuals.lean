import Verif.Other.Nearest
import Verif.Spec.Plot
/-
Model of `graph/visuals.py`.  The calls of matplotlib are the observable effect: a plot is the list of the drawing commands issued.
Not modelled: matplotlib itself and the `visualise` wrapper (matplotlib is installed).
-/
namespace GT
open Graph
variable {α V O : Type} [DecidableEq α]

/-! ### plot_2d -/

/-- the calls of `plt` made by `plot_2d` -/
inductive Cmd2 where
  | figure
  | plot (xs ys : List Rat) (style : String)
  | axis (s : String)
  deriving DecidableEq

/-- the checks of one node (visuals.py:57-66) -/
def check2 : PtArg → Py Unit
  | .other => .error .valueError
  | .tuple l => if l.length ≠ 2 then .error .valueError else match l with
    | [x, y] => if x.isNone then .error .valueError else if y.isNone then .error .valueError else .ok ()
    | _ => .error .valueError

/-- `for node in graph.nodes(): …` (visuals.py:57-66) -/
def checkAll2 (shape : α → PtArg) : List α → Py Unit
  | [] => .ok ()
  | n :: l => match check2 (shape n) with
    | .error e => .error e
    | .ok () => checkAll2 shape l

/-- `a[i]` -/
def ptItem (i : Nat) : PtArg → Py Rat
  | .other => .error .typeError
  | .tuple l => match l[i]? with
    | none => .error .indexError
    | some none => .error .typeError
    | some (some q) => .ok q

/-- `[a[i] for a in nodes]` (visuals.py:70) -/
def items2 (shape : α → PtArg) (i : Nat) : List α → Py (List Rat)
  | [] => .ok []
  | n :: l => match ptItem i (shape n) with
    | .error e => .error e
    | .ok q => match items2 shape i l with
      | .error e => .error e
      | .ok qs => .ok (q :: qs)

/-- `for edge in graph.edges(): … plt.plot([s[0], e[0]], [s[1], e[1]], "bo-", clip_on=False)` (visuals.py:73-76) -/
def edges2 (shape : α → PtArg) : List (α × α × V) → Py (List Cmd2)
  | [] => .ok []
  | (s, e, _) :: l => match items2 shape 0 [s, e] with
    | .error er => .error er
    | .ok xs => match items2 shape 1 [s, e] with
      | .error er => .error er
      | .ok ys => match edges2 shape l with
        | .error er => .error er
        | .ok c => .ok (.plot xs ys "bo-" :: c)

/-- `if nodes: …` (visuals.py:69-71) -/
def nodes2 (shape : α → PtArg) (l : List α) : Py (List Cmd2) :=
  match items2 shape 0 l with
  | .error e => .error e
  | .ok xs => match items2 shape 1 l with
    | .error e => .error e
    | .ok ys => .ok [.plot xs ys ""]

/-- `plot_2d(graph, nodes, edges)` (visuals.py:22-80).  Node ids are arbitrary Python values, `shape n` says which. -/
def Graph.plot2d (shape : α → PtArg) (g : Graph α V O) (nodes edges : Bool) : Py (List Cmd2) :=
  match checkAll2 shape g.nodeList with
  | .error e => .error e
  | .ok () => match (if nodes then nodes2 shape g.nodeList else .ok []) with
    | .error e => .error e
    | .ok ns => match (if edges then edges2 shape g.edgeList else .ok []) with
      | .error e => .error e
      | .ok es => .ok (.figure :: (ns ++ es ++ [.axis "scaled", .axis "off"]))

/-! ### plot_3d -/

/-- the calls of `ax` made by `plot_3d` -/
inductive Cmd3 where
  | plot3D (xs ys zs : List Rat)
  | scatter3D (xs ys zs : List Rat) (ix : List Nat)
  | xlim (a b : Rat) | ylim (a b : Rat) | zlim (a b : Rat)
  | xlabel (c : Char) | ylabel (c : Char) | zlabel (c : Char)
  deriving DecidableEq

/-- `(xyz["x"], xyz["y"], xyz["z"])` -/
def xyzItems (d : Dict Char (List Rat)) : Py (List Rat × List Rat × List Rat) :=
  match d.getE 'x' with
  | .error e => .error e
  | .ok xs => match d.getE 'y' with
    | .error e => .error e
    | .ok ys => match d.getE 'z' with
      | .error e => .error e
      | .ok zs => .ok (xs, ys, zs)

/-- `for edge in graph.edges(): …` (visuals.py:103-109) -/
def edges3 (x y z : Char) : List (Pt × Pt × V) → Py (List Cmd3)
  | [] => .ok []
  | (n1, n2, _) :: l =>
    match xyzItems (((Dict.empty.set x [n1.1, n2.1]).set y [n1.2.1, n2.2.1]).set z [n1.2.2, n2.2.2]) with
    | .error e => .error e
    | .ok (xs, ys, zs) => match edges3 x y z l with
      | .error e => .error e
      | .ok c => .ok (.plot3D xs ys zs :: c)

/-- `d[k].append(v)` -/
def dictAppend (d : Dict Char (List Rat)) (k : Char) (v : Rat) : Py (Dict Char (List Rat)) :=
  match d.getE k with
  | .error e => .error e
  | .ok l => .ok (d.set k (l ++ [v]))

/-- `for idx, node in enumerate(graph.nodes()): …` (visuals.py:115-120) -/
def scatterLoop (x y z : Char) : List Pt → Nat → Dict Char (List Rat) → List Nat → Py (Dict Char (List Rat) × List Nat)
  | [], _, d, ix => .ok (d, ix)
  | n :: l, idx, d, ix => match dictAppend d x n.1 with
    | .error e => .error e
    | .ok d => match dictAppend d y n.2.1 with
      | .error e => .error e
      | .ok d => match dictAppend d z n.2.2 with
        | .error e => .error e
        | .ok d => scatterLoop x y z l (idx + 1) d (ix ++ [idx])

/-- `if nodes: …` (visuals.py:112-121) -/
def nodes3 (x y z : Char) (l : List Pt) : Py (List Cmd3) :=
  match scatterLoop x y z l 0 (((Dict.empty.set x []).set y []).set z []) [] with
  | .error e => .error e
  | .ok (d, ix) => match xyzItems d with
    | .error e => .error e
    | .ok (xs, ys, zs) => .ok [.scatter3D xs ys zs ix]

/-- `min(l)` -/
def pyMin : List Rat → Py Rat
  | [] => .error .valueError
  | a :: l => .ok (l.foldl (fun m b => if b < m then b else m) a)

/-- `max(l)` -/
def pyMax : List Rat → Py Rat
  | [] => .error .valueError
  | a :: l => .ok (l.foldl (fun m b => if m < b then b else m) a)

/-- `xyz_dir = {"x": 0, "y": 1, "z": 2}` (visuals.py:125) -/
def xyzDir : Dict Char Nat := ((Dict.empty.set 'x' 0).set 'y' 1).set 'z' 2

/-- `n[dim]` of a triple -/
def ptDim (n : Pt) : Nat → Py Rat
  | 0 => .ok n.1
  | 1 => .ok n.2.1
  | 2 => .ok n.2.2
  | _ => .error .indexError

/-- `[n[dim] for n in nodes]` (visuals.py:129, 134, 139) -/
def ptDims (dim : Nat) : List Pt → Py (List Rat)
  | [] => .ok []
  | n :: l => match ptDim n dim with
    | .error e => .error e
    | .ok q => match ptDims dim l with
      | .error e => .error e
      | .ok qs => .ok (q :: qs)

/-- `xdim = xyz_dir[x]; xs = …; xmin, xmax = min(xs), max(xs); dx = (xmax + xmin) / 2` (visuals.py:127-131, and 133-141 for y and z):
the minimum, the maximum and the middle -/
def dimRange (c : Char) (nodes : List Pt) : Py (Rat × Rat × Rat) :=
  match xyzDir.getE c with
  | .error e => .error e
  | .ok dim => match ptDims dim nodes with
    | .error e => .error e
    | .ok xs => match pyMin xs with
      | .error e => .error e
      | .ok lo => match pyMax xs with
        | .error e => .error e
        | .ok hi => .ok (lo, hi, (hi + lo) / 2)

/-- `if (nodes or edges) and maintain_aspect_ratio: …` (visuals.py:123-151) -/
def limits3 (x y z : Char) (nodes : List Pt) : Py (List Cmd3) :=
  match dimRange x nodes with
  | .error e => .error e
  | .ok (xmin, xmax, dx) => match dimRange y nodes with
    | .error e => .error e
    | .ok (ymin, ymax, dy) => match dimRange z nodes with
      | .error e => .error e
      | .ok (zmin, zmax, dz) => match pyMax [xmax - xmin, ymax - ymin, zmax - zmin] with
        | .error e => .error e
        | .ok m => let maxDim := m / 2
          .ok [.xlim (dx - maxDim) (dx + maxDim), .ylim (dy - maxDim) (dy + maxDim), .zlim (dz - maxDim) (dz + maxDim)]

/-- `plot_3d(graph, nodes, edges, rotation, maintain_aspect_ratio)` (visuals.py:83-156), `Graph3D.plot` (core.py:394-404) -/
def Graph.plot3d (g : Graph Pt V O) (nodes edges : Bool) (rotation : List Char) (aspect : Bool) : Py (List Cmd3) :=
  if ¬ rotation.length = 3 then .error .valueError
  else if ¬ ('x' ∈ rotation ∧ 'y' ∈ rotation ∧ 'z' ∈ rotation) then .error .valueError
  else match rotation with
    | [x, y, z] =>
      match (if edges then edges3 x y z g.edgeList else .ok []) with
      | .error e => .error e
      | .ok es => match (if nodes then nodes3 x y z g.nodeList else .ok []) with
        | .error e => .error e
        | .ok ns => match (if (nodes || edges) && aspect then limits3 x y z g.nodeList else .ok []) with
          | .error e => .error e
          | .ok ls => .ok (es ++ ns ++ ls ++ [.xlabel x, .ylabel y, .zlabel z])
    | _ => .error .valueError

/-! ### what can be seen -/

/-- the polylines drawn, with their styles -/
def polylines : List Cmd2 → List (String × List (Rat × Rat))
  | [] => []
  | .plot xs ys s :: l => (s, xs.zip ys) :: polylines l
  | _ :: l => polylines l

/-- the lines drawn in space -/
def lines3 : List Cmd3 → List (List Pt)
  | [] => []
  | .plot3D xs ys zs :: l => xs.zip (ys.zip zs) :: lines3 l
  | _ :: l => lines3 l

/-- the points drawn in space -/
def points3 : List Cmd3 → List Pt
  | [] => []
  | .scatter3D xs ys zs _ :: l => xs.zip (ys.zip zs) ++ points3 l
  | _ :: l => points3 l

/-- the limits of the axes, if they were set -/
def boxOf (l : List Cmd3) : Option Box :=
  match l.findSome? (fun c => match c with | .xlim a b => some (a, b) | _ => none),
    l.findSome? (fun c => match c with | .ylim a b => some (a, b) | _ => none),
    l.findSome? (fun c => match c with | .zlim a b => some (a, b) | _ => none) with
  | some x, some y, some z => some (x, y, z)
  | _, _, _ => none

/-- the labels of the axes -/
def labelsOf (l : List Cmd3) : List Char := l.filterMap (fun c => match c with | .xlabel c | .ylabel c | .zlabel c => some c | _ => none)

end GT

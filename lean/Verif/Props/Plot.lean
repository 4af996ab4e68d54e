import Verif.Other.VisualsProof
import Verif.Graph.Refine
/-
Properties C89-C91: what the plots show (graph/visuals.py, Graph3D.plot).
-/
namespace GT
open Graph
variable {α V O : Type} [DecidableEq α]

/-- **C89**: if every node is a pair of numbers, `plot_2d` draws one line through all nodes in the order of `nodes()` (if `nodes`) and for
every edge, once, a blue line with a dot at both ends between its ends (if `edges`), and nothing else.  `xy x` are the coordinates of the
node `x`. -/
theorem C89_plot_2d {shape : α → PtArg} {xy : α → Rat × Rat} {g : Graph α V O} (hg : g.Built)
    (h : ∀ x, g.has x = true → shape x = .tuple [some (xy x).1, some (xy x).2]) (nodes edges : Bool) :
    ∃ c, g.plot2d shape nodes edges = .ok c ∧
      polylines c = (if nodes then [("", g.nodeList.map xy)] else []) ++
        (if edges then g.edgeList.map (fun e => ("bo-", [xy e.1, xy e.2.1])) else []) :=
  plot2d_ok hg.inv h nodes edges

/-- **C89**: if some node is not a pair of numbers, `plot_2d` raises `ValueError`. -/
theorem C89_errors {shape : α → PtArg} {g : Graph α V O} {x : α} (hx : g.has x = true)
    (h : ¬ ∃ a b, shape x = .tuple [some a, some b]) (nodes edges : Bool) : g.plot2d shape nodes edges = .error .valueError :=
  plot2d_error hx h nodes edges

/-- **C90**: with a rotation that names the three axes in some order, `Graph3D.plot` (of a graph with a node, if the aspect ratio is to be
maintained) draws every edge once, as the line between the places of its ends, and every node once, at its place; nothing else.  The place of
a point has its first coordinate on the axis the rotation names first, and so on. -/
theorem C90_plot_3d {g : Graph Pt V O} {r : List Char} (hr : r.Perm ['x', 'y', 'z']) (nodes edges aspect : Bool)
    (hne : nodes = true ∨ edges = true → aspect = true → ∃ x, g.has x = true) :
    ∃ c, g.plot3d nodes edges r aspect = .ok c ∧
      lines3 c = (if edges then g.edgeList.map (fun e => [shownAt r e.1, shownAt r e.2.1]) else []) ∧
      points3 c = (if nodes then g.nodeList.map (shownAt r) else []) ∧
      ((boxOf c).isSome = true ↔ aspect = true ∧ (nodes = true ∨ edges = true)) := by
  obtain ⟨c, h1, h2, h3, _, h4, h5⟩ := plot3d_main (g := g) hr nodes edges aspect (fun h he => by
    simp at h
    obtain ⟨x, hx⟩ := hne h.1 h.2
    rw [has_iff, he] at hx
    cases hx)
  refine ⟨c, h1, h2, h3, ?_⟩
  cases hb : (nodes || edges) && aspect with
  | false =>
    rw [h4 hb]
    revert hb
    cases nodes <;> cases edges <;> cases aspect <;> simp
  | true =>
    obtain ⟨b, d, h6, _⟩ := h5 hb
    rw [h6]
    revert hb
    cases nodes <;> cases edges <;> cases aspect <;> simp

/-- **C90**: every other rotation is refused with `ValueError`. -/
theorem C90_bad_rotation {g : Graph Pt V O} {r : List Char} (hr : ¬ r.Perm ['x', 'y', 'z']) (nodes edges aspect : Bool) :
    g.plot3d nodes edges r aspect = .error .valueError := plot3d_rotation hr nodes edges aspect

/-- **C90**: a graph without nodes cannot be plotted with its aspect ratio maintained: `ValueError`. -/
theorem C90_empty_graph {g : Graph Pt V O} {r : List Char} (hr : r.Perm ['x', 'y', 'z']) {nodes edges : Bool}
    (h : nodes = true ∨ edges = true) (hg : ∀ x, g.has x = false) : g.plot3d nodes edges r true = .error .valueError := by
  refine plot3d_empty hr (by simpa using h) ?_
  cases hl : g.nodeList with
  | nil => rfl
  | cons a l =>
    have h1 : g.has a = true := has_iff.2 (hl ▸ List.mem_cons_self)
    rw [hg a] at h1
    cases h1

/-- **C91**, for the rotations that swap two axes or none: with `maintain_aspect_ratio` the limits of the axes are a cube, no larger than the
largest extent of the nodes, in which all nodes are shown; and the axis labelled `x`, `y` or `z` shows that coordinate.
Missing: the two cyclic rotations, for which both claims are false (next theorem). -/
theorem C91_aspect_ratio_partial {g : Graph Pt V O} {r : List Char}
    (hr : r ∈ [['x', 'y', 'z'], ['x', 'z', 'y'], ['y', 'x', 'z'], ['z', 'y', 'x']]) {nodes edges : Bool}
    (h : nodes = true ∨ edges = true) {p : Pt} (hp : g.has p = true) :
    ∃ c b d, g.plot3d nodes edges r true = .ok c ∧ boxOf c = some b ∧ b.Cube d ∧
      (∀ q, g.has q = true → b.Holds (shownAt r q)) ∧
      (∃ i, i < 3 ∧ ∃ q q', g.has q = true ∧ g.has q' = true ∧ coord q i - coord q' i = d) ∧
      labelsOf c = r ∧
      ∀ q : Pt, shownAt r q = (coord q (['x', 'y', 'z'].idxOf (r.getD 0 ' ')), coord q (['x', 'y', 'z'].idxOf (r.getD 1 ' ')),
        coord q (['x', 'y', 'z'].idxOf (r.getD 2 ' '))) := by
  have hperm : r.Perm ['x', 'y', 'z'] := by
    simp at hr
    rcases hr with rfl | rfl | rfl | rfl <;> decide
  obtain ⟨c, h1, _, _, h4, _, h5⟩ := plot3d_main (g := g) hperm nodes edges true (fun _ he => by
    rw [has_iff, he] at hp
    cases hp)
  obtain ⟨b, d, h6, h7, h8, _, i, hi, q, hq, q', hq', e⟩ := h5 (by simpa using h)
  have hs : ∀ q : Pt, shownAt r q = (coord q (numOf (r.getD 0 'x')), coord q (numOf (r.getD 1 'x')), coord q (numOf (r.getD 2 'x'))) ∧
      shownAt r q = (coord q (['x', 'y', 'z'].idxOf (r.getD 0 ' ')), coord q (['x', 'y', 'z'].idxOf (r.getD 1 ' ')),
        coord q (['x', 'y', 'z'].idxOf (r.getD 2 ' '))) := by
    intro q
    simp at hr
    rcases hr with rfl | rfl | rfl | rfl <;> exact ⟨rfl, rfl⟩
  exact ⟨c, b, d, h1, h6, h7, fun q hq => by rw [(hs q).1]; exact h8 q (has_iff.1 hq),
    ⟨i, hi, q, q', has_iff.2 hq, has_iff.2 hq', e⟩, h4, fun q => (hs q).2⟩

/-- **C91**, for every rotation: the limits are a cube with the largest extent of the nodes as side. -/
theorem C91_cube {g : Graph Pt V O} {r : List Char} (hr : r.Perm ['x', 'y', 'z']) {nodes edges : Bool}
    (h : nodes = true ∨ edges = true) {p : Pt} (hp : g.has p = true) :
    ∃ c b d, g.plot3d nodes edges r true = .ok c ∧ boxOf c = some b ∧ b.Cube d ∧
      (∀ i, i < 3 → ∀ q q', g.has q = true → g.has q' = true → coord q i - coord q' i ≤ d) ∧
      ∃ i, i < 3 ∧ ∃ q q', g.has q = true ∧ g.has q' = true ∧ coord q i - coord q' i = d := by
  obtain ⟨c, h1, _, _, _, _, h5⟩ := plot3d_main (g := g) hr nodes edges true (fun _ he => by
    rw [has_iff, he] at hp
    cases hp)
  obtain ⟨b, d, h6, h7, _, h9, i, hi, q, hq, q', hq', e⟩ := h5 (by simpa using h)
  exact ⟨c, b, d, h1, h6, h7, fun i hi q q' hq hq' => h9 i hi q (has_iff.1 hq) q' (has_iff.1 hq'),
    i, hi, q, q', has_iff.2 hq, has_iff.2 hq', e⟩

/-- two points -/
def plotG : Graph Pt Rat Nat := run [.addEdge (0, 10, 20) (1, 12, 23) (.scalar 1) false]

/-- the example meets the hypotheses; the four commands with rotation `xzy` -/
example : plotG.Built ∧ plotG.has (0, 10, 20) = true ∧
    plotG.plot3d true true ['x', 'z', 'y'] true = .ok [.plot3D [0, 1] [20, 23] [10, 12], .scatter3D [0, 1] [20, 23] [10, 12] [0, 1],
      .xlim (-1) 2, .ylim 20 23, .zlim (19 / 2) (25 / 2), .xlabel 'x', .ylabel 'z', .zlabel 'y'] := by
  refine ⟨⟨_, rfl⟩, by decide +kernel, by decide +kernel⟩

/-- **C91** fails for the rotations `yzx` and `zxy`: both nodes are drawn outside the limits of the axes, and the axis labelled `y` shows the
third coordinate. -/
theorem C91_rotation_counterexample :
    ∃ c b, plotG.plot3d true true ['y', 'z', 'x'] true = .ok c ∧ boxOf c = some b ∧ (∀ q ∈ points3 c, ¬ b.Holds q) ∧
      points3 c = [(20, 0, 10), (23, 1, 12)] ∧ labelsOf c = ['y', 'z', 'x'] := by
  refine ⟨[.plot3D [20, 23] [0, 1] [10, 12], .scatter3D [20, 23] [0, 1] [10, 12] [0, 1],
    .xlim (19 / 2) (25 / 2), .ylim 20 23, .zlim (-1) 2, .xlabel 'y', .ylabel 'z', .zlabel 'x'],
    ((19 / 2, 25 / 2), (20, 23), (-1, 2)), by decide +kernel, by decide +kernel, ?_, by decide +kernel, by decide +kernel⟩
  intro q hq
  have : q = (20, 0, 10) ∨ q = (23, 1, 12) := by simpa [points3] using hq
  rcases this with rfl | rfl
  · intro h
    have := h.2.1.1
    revert this
    decide +kernel
  · intro h
    have := h.2.1.1
    revert this
    decide +kernel

/-- a bad rotation, and no nodes -/
example : (¬ ['x', 'x', 'y'].Perm ['x', 'y', 'z']) ∧ ∀ x, (Graph.empty : Graph Pt Rat Nat).has x = false := by
  exact ⟨by decide, fun x => rfl⟩

/-- nodes that are pairs of numbers: the hypotheses of `C89_plot_2d` are met, and the plot is as stated -/
example : let g : Graph (Rat × Rat) Rat Nat := run [.addEdge (0, 1) (2, 3) (.scalar 1) false]
    g.Built ∧ (∀ x, g.has x = true → (fun p : Rat × Rat => PtArg.tuple [some p.1, some p.2]) x = .tuple [some (id x).1, some (id x).2]) ∧
    g.plot2d (fun p => .tuple [some p.1, some p.2]) true true =
      .ok [.figure, .plot [0, 2] [1, 3] "", .plot [0, 2] [1, 3] "bo-", .axis "scaled", .axis "off"] := by
  exact ⟨⟨_, rfl⟩, fun _ _ => rfl, by decide +kernel⟩

/-- nodes that are not -/
example : (run [.addNode 1 none] : Graph Nat Rat Nat).has 1 = true ∧ ¬ ∃ a b, (fun _ : Nat => PtArg.other) 1 = .tuple [some a, some b] :=
  ⟨by decide +kernel, by simp⟩

end GT

import Verif.Search.Bridge
import Verif.Graph.Misc
/-
Working copies: several algorithms copy the graph and delete nodes from the copy as they go
(topological_sort.py:23-33, dag.py:60-79).  `Remaining g g2 out` says that `g2` is `g` without the
nodes `out`.
-/
namespace GT
namespace Graph
variable {α V O : Type} [DecidableEq α]

/-- `for n in l: g.del_node(n)` -/
def delNodes (g : Graph α V O) (l : List α) : Graph α V O := l.foldl (fun g n => g.delNode n) g

structure Remaining (g g2 : Graph α V O) (out : List α) : Prop where
  inv : g2.Inv
  noPh : g2.NoPhantom
  node : ∀ x, g2.nodes.get? x = if x ∈ out then none else g.nodes.get? x
  edge : ∀ a b, g2.edge a b = if a ∈ out ∨ b ∈ out then none else g.edge a b

theorem noPhantom_empty : (empty : Graph α V O).NoPhantom := fun _ _ => ⟨rfl, rfl⟩

theorem noPhantom_copy (g : Graph α V O) : g.copy.NoPhantom := by
  unfold copy
  have h1 : ∀ (l : List (α × Option O)) (h : Graph α V O), h.NoPhantom →
      (l.foldl (fun h p => h.addNode p.1 p.2) h).NoPhantom := by
    intro l
    induction l with
    | nil => intro h hh; exact hh
    | cons p l ih => intro h hh; exact ih _ (noPhantom_addNode hh _ _)
  have h2 : ∀ (l : List (α × α × V)) (h : Graph α V O), h.NoPhantom → (h.addEdges l).NoPhantom := by
    intro l
    induction l with
    | nil => intro h hh; exact hh
    | cons p l ih => intro h hh; exact ih _ (noPhantom_addEdge hh _ _ _)
  exact h2 _ _ (h1 _ _ noPhantom_empty)

theorem Remaining.copy {g : Graph α V O} (h : g.Inv) : Remaining g g.copy [] :=
  ⟨(copy_built g).inv, noPhantom_copy g, fun x => by simp [h.copy_nodes], fun a b => by simp [h.copy_edge]⟩

theorem Remaining.delNode {g g2 : Graph α V O} {out : List α} (h : Remaining g g2 out) (n : α) :
    Remaining g (g2.delNode n) (out ++ [n]) := by
  obtain ⟨h1, h2, h3, _⟩ := delNode_spec h.inv n
  refine ⟨h1, noPhantom_delNode h.inv h.noPh n, fun x => ?_, fun a b => ?_⟩
  · rw [h2, h.node]; grind
  · rw [h3, h.edge]; grind

theorem Remaining.delNodes {g g2 : Graph α V O} {out : List α} (h : Remaining g g2 out) (l : List α) :
    Remaining g (g2.delNodes l) (out ++ l) := by
  induction l generalizing g2 out with
  | nil => simpa [Graph.delNodes] using h
  | cons n l ih =>
    have := ih (h.delNode n)
    simpa [Graph.delNodes] using this

theorem Remaining.has {g g2 : Graph α V O} {out : List α} (h : Remaining g g2 out) (x : α) :
    g2.has x = true ↔ g.has x = true ∧ x ∉ out := by
  unfold Graph.has Dict.contains; rw [h.node]; split <;> simp_all

theorem Remaining.adj {g g2 : Graph α V O} {out : List α} (h : Remaining g g2 out) (a b : α) :
    g2.Adj a b ↔ g.Adj a b ∧ a ∉ out ∧ b ∉ out := by
  unfold Graph.Adj; rw [h.edge]; grind

/-- exactness of the degree filter without phantom keys -/
theorem Inv.mem_nodesInDeg {g : Graph α V O} (hi : g.Inv) (hp : g.NoPhantom) (n : α) :
    n ∈ g.nodesInDeg 0 ↔ g.has n = true ∧ ∀ a, ¬ g.Adj a n := by
  unfold nodesInDeg; rw [mem_degFilter hi.inWF]
  unfold Graph.has; rw [Dict.contains_iff_keys]
  by_cases hn : n ∈ g.nodes.keys
  · rw [hi.inD n hn]
    have : ((g.nodesTo n).length : Int) = 0 ↔ ∀ a, ¬ g.Adj a n := by
      have h2 : ∀ a, a ∈ g.nodesTo n ↔ g.Adj a n := fun a => hi.mem_nodesTo
      simp only [← h2]
      cases g.nodesTo n with
      | nil => simp
      | cons a l =>
        constructor
        · intro h; simp only [List.length_cons] at h; omega
        · intro h; exact absurd (List.mem_cons_self) (h a)
    rw [Option.some.injEq, this]; simp [hn]
  · rw [(hp n hn).1]; simp [hn]

theorem Inv.nodup_nodesInDeg {g : Graph α V O} (hi : g.Inv) (k : Int) : (g.nodesInDeg k).Nodup :=
  nodup_degFilter hi.inWF k

theorem Remaining.mem_sources {g g2 : Graph α V O} {out : List α} (h : Remaining g g2 out) (x : α) :
    x ∈ g2.nodesInDeg 0 ↔ g.has x = true ∧ x ∉ out ∧ ∀ a, g.Adj a x → a ∈ out := by
  rw [h.inv.mem_nodesInDeg h.noPh, h.has]
  simp only [h.adj]
  constructor
  · rintro ⟨⟨h1, h2⟩, h3⟩
    refine ⟨h1, h2, fun a ha => ?_⟩
    have := h3 a; grind
  · rintro ⟨h1, h2, h3⟩; exact ⟨⟨h1, h2⟩, fun a ha => ha.2.1 (h3 a ha.1)⟩

end Graph
end GT

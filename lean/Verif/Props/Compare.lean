import Verif.Dag.TopoCmp
import Verif.Props.Dag
import Verif.Props.Sp
import Verif.Props.Flow
import Verif.Sp.BidirCmp
import Verif.Flow.AssignCmp
/-
Property theorems C116–C118: functions that sort nodes, on nodes that cannot be compared with each other (`1` and `"a"`): `topological_sort`, `has_cycles`
and `critical_path` (C116), `shortest_path_bidirectional` (C117), `ap_solver` (C118).

`Cmp a b`: the comparison of the keys of `a` and `b` (without a key: of the nodes) does not raise; `SortMayFail Cmp srt`: `srt` is a `sorted` that raises
`TypeError` exactly if it is given nodes that cannot be compared (Spec/Compare).  `Height g.Adj k x`: the longest walk to `x` has `k` edges.
-/
namespace GT
open Graph
variable {α V O : Type} [DecidableEq α]

/-- **C116**, `topological_sort(g, key)`: the nodes are yielded in the order of the length of the longest walk to them, and those with the same length
sorted by the key.  If nodes with the same length cannot be compared the generator raises `TypeError` when it gets there; otherwise it is as in C23. -/
theorem C116_topological_sort {Cmp : α → α → Prop} {g : Graph α V O} (hg : g.Built) {srt : List α → Py (List α)} (hs : SortMayFail Cmp srt) :
    ∃ out e layers, g.topologicalSortE srt = some (out, e) ∧ out = layers.flatten ∧ out.Nodup ∧
      SortedLayers srt g.Adj (fun x => g.has x = true) layers ∧
      (∀ j, j < layers.length → ¬ MixedLayer Cmp g.Adj (fun x => g.has x = true) j) ∧
      ((∃ k, MixedLayer Cmp g.Adj (fun x => g.has x = true) k) →
        e = some .typeError ∧ MixedLayer Cmp g.Adj (fun x => g.has x = true) layers.length) ∧
      ((∀ k, ¬ MixedLayer Cmp g.Adj (fun x => g.has x = true) k) →
        (∀ x, x ∈ out ↔ g.has x = true ∧ ¬ ∃ c, ReachPlus g.Adj c c ∧ Reach g.Adj c x) ∧
        (Acyclic g.Adj → e = none) ∧ (¬ Acyclic g.Adj → e = some .attributeError)) := by
  obtain ⟨⟨out, e⟩, h1, layers, h2, h3, h4, h5, h6⟩ := topoE_spec hg.inv hs
  refine ⟨out, e, layers, h1, h2, h3, h4, h5, fun ⟨k, hk⟩ => ?_, fun hno => ?_⟩
  · rcases h6 with h6 | h6
    · exact h6
    · exact absurd hk (h6.1 k)
  · rcases h6 with h6 | ⟨_, h7, h8, h9⟩
    · exact absurd h6.2 (hno _)
    · dsimp only at h7 h8 h9
      refine ⟨h7, fun hA => h8 (fun x hx => (h7 x).2 ⟨hx, fun ⟨c, hc, _⟩ => hA c hc⟩), fun hA => h9 (fun hall => hA (fun c hc => ?_))⟩
      have hcn : g.has c = true := by
        obtain ⟨m, hm⟩ := hc
        obtain ⟨b, hb, _⟩ := hm.head
        exact has_iff.2 (hg.inv.finite c b hb).1
      exact ((h7 c).1 (hall c hcn)).2 ⟨c, hc, .refl _⟩

/-- **C116**, `has_cycles(g)`: a self-loop is found first.  Without one, it raises `TypeError` exactly if two nodes with the same length of the longest
walk to them cannot be compared; otherwise it returns whether there is a cycle. -/
theorem C116_has_cycles {Cmp : α → α → Prop} {g : Graph α V O} (hg : g.Built) {srt : List α → Py (List α)} (hs : SortMayFail Cmp srt) :
    ((∃ x, g.Adj x x) → g.hasCyclesE srt = some (.ok true)) ∧
    ((¬ ∃ x, g.Adj x x) → (∃ k, MixedLayer Cmp g.Adj (fun x => g.has x = true) k) → g.hasCyclesE srt = some (.error .typeError)) ∧
    ((∀ k, ¬ MixedLayer Cmp g.Adj (fun x => g.has x = true) k) →
      ∃ r, g.hasCyclesE srt = some (.ok r) ∧ (r = true ↔ ∃ c p, WalkFT g.Adj c c p ∧ 2 ≤ p.length)) := by
  refine ⟨fun ⟨x, hx⟩ => ?_, fun hno hm => ?_, fun hno => ?_⟩
  · unfold hasCyclesE
    obtain ⟨v, hv⟩ := Option.isSome_iff_exists.1 hx
    rw [if_pos]
    rw [List.any_eq_true]
    exact ⟨(x, x, v), hg.inv.mem_edgeList.2 hv, by simp⟩
  · unfold hasCyclesE
    rw [if_neg]
    · rcases topoE_dichotomy hg.inv hs with ⟨_, out, h⟩ | ⟨h, _⟩
      · rw [h]
      · exact absurd hm (fun ⟨k, hk⟩ => h k hk)
    · intro hc
      rw [List.any_eq_true] at hc
      obtain ⟨⟨a, b, v⟩, h1, h2⟩ := hc
      simp at h2; subst h2
      rw [hg.inv.mem_edgeList] at h1
      exact hno ⟨a, by unfold Adj; rw [h1]; rfl⟩
  · rcases topoE_dichotomy hg.inv hs with ⟨⟨k, hk⟩, _⟩ | ⟨_, h⟩
    · exact absurd hk (hno k)
    · rw [hasCyclesE_eq h]
      exact C24_has_cycles hg (totalSort_perm hs)

/-- **C116**, `critical_path(g)`: raises `TypeError` if two tasks with the same length of the longest walk to them cannot be compared; otherwise it is
`critical_path` of C26 (for a sort that does not raise). -/
theorem C116_critical_path {Cmp : α → α → Prop} {g : Graph α V O} (hg : g.Built) {srt : List α → Py (List α)} (hs : SortMayFail Cmp srt)
    (num : O → Option Rat) :
    ((∃ k, MixedLayer Cmp g.Adj (fun x => g.has x = true) k) → g.criticalPathE num srt = some (.error .typeError)) ∧
    ((∀ k, ¬ MixedLayer Cmp g.Adj (fun x => g.has x = true) k) →
      ∃ srt' : List α → List α, (∀ l, (srt' l).Perm l) ∧ g.criticalPathE num srt = g.criticalPath num srt') := by
  refine ⟨fun hm => ?_, fun hno => ?_⟩
  · rcases topoE_dichotomy hg.inv hs with ⟨_, out, h⟩ | ⟨h, _⟩
    · unfold criticalPathE; rw [h]
    · exact absurd hm (fun ⟨k, hk⟩ => h k hk)
  · rcases topoE_dichotomy hg.inv hs with ⟨⟨k, hk⟩, _⟩ | ⟨_, h⟩
    · exact absurd hk (hno k)
    · exact ⟨_, totalSort_perm hs, criticalPathE_eq num h⟩

/-- nodes of Python: integers and strings -/
abbrev IntOrStr := Nat ⊕ String

/-- `sorted` on integers and strings: it raises if both occur (an arbitrary order of equal kinds is enough here) -/
def mixSort (l : List IntOrStr) : Py (List IntOrStr) :=
  if ∀ a ∈ l, ∀ b ∈ l, a ≠ b → a.isLeft = b.isLeft then .ok l else .error .typeError

theorem mixSort_mayFail : SortMayFail (fun a b : IntOrStr => a.isLeft = b.isLeft) mixSort where
  perm l r h := by unfold mixSort at h; split at h <;> cases h; exact List.Perm.refl _
  fails l h := by
    unfold mixSort
    rw [if_neg]
    obtain ⟨a, ha, b, hb, hab, hc⟩ := h
    exact fun hh => hc (hh a ha b hb hab)
  works l h := ⟨l, by unfold mixSort; rw [if_pos h]⟩

/-- `Graph(from_list=[(1, 2, 1), ("a", "b", 1)])` -/
def mixG : Graph IntOrStr Nat Nat := run [.addEdge (.inl 1) (.inl 2) (.scalar 1) false, .addEdge (.inr "a") (.inr "b") (.scalar 1) false]

/-- `Graph(from_list=[(1, "a", 1), ("a", 2, 1)])` -/
def mixG2 : Graph IntOrStr Nat Nat := run [.addEdge (.inl 1) (.inr "a") (.scalar 1) false, .addEdge (.inr "a") (.inl 2) (.scalar 1) false]

/-- **C116**, a graph without any cycle on which `has_cycles` raises `TypeError` -/
theorem C116_type_error_counterexample : mixG.Built ∧ mixG.hasCyclesE mixSort = some (.error .typeError) ∧
    mixG.topologicalSortE mixSort = some ([], some .typeError) := by
  have h : mixG.topologicalSortE mixSort = some ([], some .typeError) := by
    unfold topologicalSortE; dsimp only
    rw [show mixSort (mixG.copy.nodesInDeg 0) = .error .typeError by decide +kernel]
  refine ⟨⟨_, rfl⟩, ?_, h⟩
  unfold hasCyclesE
  rw [h, if_neg (by decide +kernel)]

/-- the hypotheses can be met: mixed nodes, but no two sources at the same time -/
example : mixG2.Built ∧ SortMayFail (fun a b : IntOrStr => a.isLeft = b.isLeft) mixSort ∧
    mixG2.topologicalSortE mixSort = some ([.inl 1, .inr "a", .inl 2], none) ∧ mixG2.hasCyclesE mixSort = some (.ok false) := by
  have h : mixG2.topologicalSortE mixSort = some ([.inl 1, .inr "a", .inl 2], none) := by
    unfold topologicalSortE; dsimp only
    rw [show mixSort (mixG2.copy.nodesInDeg 0) = .ok [.inl 1] by decide +kernel]
    exact pyWhile_of_runFuel (n := 10) (by decide +kernel)
  refine ⟨⟨_, rfl⟩, mixSort_mayFail, h, ?_⟩
  unfold hasCyclesE
  rw [h, if_neg (by decide +kernel)]

example : ∃ k, MixedLayer (fun a b : IntOrStr => a.isLeft = b.isLeft) mixG.Adj (fun x => mixG.has x = true) k := by
  have hno : ∀ x : IntOrStr, (∀ a, ¬ mixG.Adj a x) → Height mixG.Adj 0 x := fun x hx =>
    ⟨⟨x, .zero x⟩, fun m a hm => by cases hm with | zero => exact Nat.le_refl _ | succ _ hb => exact absurd hb (hx _)⟩
  have hE : ∀ a b, mixG.Adj a b → b = .inl 2 ∨ b = .inr "b" := by
    intro a b hab
    obtain ⟨v, hv⟩ := Option.isSome_iff_exists.1 hab
    have hb : mixG.Built := ⟨_, rfl⟩
    have h1 : ∀ e ∈ mixG.edgeList, e.2.1 = .inl 2 ∨ e.2.1 = .inr "b" := by decide +kernel
    exact h1 (a, b, v) (hb.inv.mem_edgeList.2 hv)
  refine ⟨0, .inl 1, .inr "a", by decide +kernel, by decide +kernel, hno _ (fun a ha => ?_), hno _ (fun a ha => ?_), by decide, by decide⟩
  · rcases hE a _ ha with h | h <;> revert h <;> decide
  · rcases hE a _ ha with h | h <;> revert h <;> decide

/-! ### C117 -/

/-- two edges with the same value, out of one node or into one node, lead to nodes outside `avoids` that cannot be compared -/
def TiedIncomparable (Cmp : α → α → Prop) (w : α → α → Option Rat) (avoids : List α) : Prop :=
  ∃ x t t' v, t ∉ avoids ∧ t' ∉ avoids ∧ t ≠ t' ∧ ¬ Cmp t t' ∧ ((w x t = some v ∧ w x t' = some v) ∨ (w t x = some v ∧ w t' x = some v))

theorem tiedEdges_out {Cmp : α → α → Prop} {g : Graph α Rat O} (hg : g.Inv) {avoids : List α} {x : α} :
    TiedEdges Cmp avoids (g.outNbr x) ↔ ∃ t t' v, t ∉ avoids ∧ t' ∉ avoids ∧ t ≠ t' ∧ ¬ Cmp t t' ∧ g.edge x t = some v ∧ g.edge x t' = some v := by
  constructor
  · rintro ⟨⟨t, v⟩, ha, ⟨t', v'⟩, hb, h1, h2, h3, h4, h5⟩
    dsimp only at *
    subst h4
    exact ⟨t, t', v, h1, h2, h3, h5, hg.mem_outNbr.1 ha, hg.mem_outNbr.1 hb⟩
  · rintro ⟨t, t', v, h1, h2, h3, h5, ha, hb⟩
    exact ⟨(t, v), hg.mem_outNbr.2 ha, (t', v), hg.mem_outNbr.2 hb, h1, h2, h3, rfl, h5⟩

theorem tiedEdges_in {Cmp : α → α → Prop} {g : Graph α Rat O} (hg : g.Inv) {avoids : List α} {x : α} :
    TiedEdges Cmp avoids (g.inNbr x) ↔ ∃ t t' v, t ∉ avoids ∧ t' ∉ avoids ∧ t ≠ t' ∧ ¬ Cmp t t' ∧ g.edge t x = some v ∧ g.edge t' x = some v := by
  constructor
  · rintro ⟨⟨t, v⟩, ha, ⟨t', v'⟩, hb, h1, h2, h3, h4, h5⟩
    dsimp only at *
    subst h4
    exact ⟨t, t', v, h1, h2, h3, h5, hg.mem_inNbr.1 ha, hg.mem_inNbr.1 hb⟩
  · rintro ⟨t, t', v, h1, h2, h3, h5, ha, hb⟩
    exact ⟨(t, v), hg.mem_inNbr.2 ha, (t', v), hg.mem_inNbr.2 hb, h1, h2, h3, rfl, h5⟩

/-- **C117**, `shortest_path_bidirectional(g, start, end, avoids)`, where `sorted` compares tuples `(value, node)`: it returns what C29 says, or it raises
`TypeError`; it raises `TypeError` only if two edges with the same value lead to nodes that cannot be compared; and it always does so if `start` has such
outgoing edges or `end` such incoming edges. -/
theorem C117_bidirectional {Cmp : α → α → Prop} {g : Graph α Rat O} (hg : g.Built) (hw : NonNeg g.edge) {start fin : α} (avoids : List α)
    {srt : List (α × Rat) → Py (List (α × Rat))} (hs : SortMayFail (fun a b => a.2 ≠ b.2 ∨ Cmp a.1 b.1) srt)
    (h1 : g.has start = true) (h2 : g.has fin = true) :
    ((∃ d p, g.shortestPathBiE srt start fin avoids = some (.ok (d, p)) ∧
        (start ∉ avoids → fin ∉ avoids → SpResult g.edge avoids start fin (d, p) ∧ ∃ q, g.shortestPath start fin avoids = some (.ok (d, q)))) ∨
      g.shortestPathBiE srt start fin avoids = some (.error .typeError)) ∧
    (g.shortestPathBiE srt start fin avoids = some (.error .typeError) → TiedIncomparable Cmp g.edge avoids) ∧
    (∀ t t' v, t ∉ avoids → t' ∉ avoids → t ≠ t' → ¬ Cmp t t' →
      (g.edge start t = some v ∧ g.edge start t' = some v) ∨ (g.edge t fin = some v ∧ g.edge t' fin = some v) →
      g.shortestPathBiE srt start fin avoids = some (.error .typeError)) := by
  obtain ⟨d, p, h3, _, h4⟩ := C29_bidirectional_any_avoids hg hw start fin avoids (totalSort_perm hs) h1 h2
  have hcase := shortestPathBiE_cases hs g start fin avoids h3
  refine ⟨?_, fun he => ?_, fun t t' v k1 k2 k3 k4 k5 => ?_⟩
  · rcases hcase with h | ⟨_, h⟩
    · refine .inl ⟨d, p, h, fun n1 n2 => ?_⟩
      obtain ⟨d', p', q, e1, e2, e3⟩ := (C29_bidirectional_partial hg hw start fin avoids n1 n2 (totalSort_perm hs)).1 ⟨h1, h2⟩
      rw [h3] at e1; cases e1
      exact ⟨e3, q, e2⟩
    · exact .inr h
  · rcases hcase with h | ⟨⟨x, hx⟩, _⟩
    · rw [he] at h; cases h
    · rcases hx with hx | hx
      · obtain ⟨t, t', v, a1, a2, a3, a4, a5, a6⟩ := (tiedEdges_out hg.inv).1 hx
        exact ⟨x, t, t', v, a1, a2, a3, a4, .inl ⟨a5, a6⟩⟩
      · obtain ⟨t, t', v, a1, a2, a3, a4, a5, a6⟩ := (tiedEdges_in hg.inv).1 hx
        exact ⟨x, t, t', v, a1, a2, a3, a4, .inr ⟨a5, a6⟩⟩
  · refine shortestPathBiE_ends hs g avoids h1 h2 (k5.imp (fun k => ?_) (fun k => ?_))
    · exact (tiedEdges_out hg.inv).2 ⟨t, t', v, k1, k2, k3, k4, k.1, k.2⟩
    · exact (tiedEdges_in hg.inv).2 ⟨t, t', v, k1, k2, k3, k4, k.1, k.2⟩

/-- numbers below 100 stand for integers, the others for strings -/
def sameKind (a b : Nat) : Bool := decide (a < 100) == decide (b < 100)

/-- `sorted` of tuples `(value, node)`, in an arbitrary order -/
def tupSort (l : List (Nat × Rat)) : Py (List (Nat × Rat)) :=
  if ∀ a ∈ l, ∀ b ∈ l, a ≠ b → a.2 ≠ b.2 ∨ sameKind a.1 b.1 = true then .ok l else .error .typeError

theorem tupSort_mayFail : SortMayFail (fun a b : Nat × Rat => a.2 ≠ b.2 ∨ sameKind a.1 b.1 = true) tupSort where
  perm l r h := by unfold tupSort at h; split at h <;> cases h; exact List.Perm.refl _
  fails l h := by
    unfold tupSort
    rw [if_neg]
    obtain ⟨a, ha, b, hb, hab, hc⟩ := h
    exact fun hh => hc (hh a ha b hb hab)
  works l h := ⟨l, by unfold tupSort; rw [if_pos h]⟩

/-- `1 → 2 → 3` and an edge `1 → "a"` with the same value -/
def tiedG : Graph Nat Rat Nat := run [W 1 2 1, W 1 100 1, W 2 3 1]

/-- **C117**: `shortest_path` finds the path, `shortest_path_bidirectional` (and so `shortest_path` with `memoize=True`) raises `TypeError` -/
theorem C117_type_error_counterexample : tiedG.Built ∧ NonNeg tiedG.edge ∧ tiedG.shortestPath 1 3 = some (.ok (.fin 2, [1, 2, 3])) ∧
    tiedG.shortestPathBiE tupSort 1 3 = some (.error .typeError) := by
  have hb : tiedG.Built := ⟨_, rfl⟩
  have hn : NonNeg tiedG.edge := nonneg_of_edgeList hb (by decide +kernel)
  refine ⟨hb, hn, sp_eval 20 (by decide +kernel) (by decide +kernel) (by decide +kernel), ?_⟩
  exact (C117_bidirectional (Cmp := fun a b => sameKind a b = true) hb hn [] tupSort_mayFail (by decide +kernel) (by decide +kernel)).2.2 2 100 1 (by simp) (by simp) (by decide) (by decide)
    (.inl ⟨by decide +kernel, by decide +kernel⟩)

/-- nodes of both kinds without ties: no exception -/
example : ∃ g : Graph Nat Rat Nat, g.Built ∧ NonNeg g.edge ∧ g.has 1 = true ∧ g.has 3 = true ∧
    SortMayFail (fun a b : Nat × Rat => a.2 ≠ b.2 ∨ sameKind a.1 b.1 = true) tupSort ∧
    g.shortestPathBiE tupSort 1 3 = some (.ok (.fin 2, [1, 2, 3])) := by
  refine ⟨run [W 1 2 1, W 1 100 2, W 2 3 1], ⟨_, rfl⟩, nonneg_of_edgeList ⟨_, rfl⟩ (by decide +kernel), by decide +kernel, by decide +kernel, tupSort_mayFail, ?_⟩
  unfold shortestPathBiE
  rw [if_neg (by decide +kernel), if_neg (by decide +kernel)]
  exact pyWhile_of_runFuel (n := 20) (by decide +kernel)

/-! ### C118 -/

/-- **C118**, `ap_solver(g)` on a bipartite graph with at least one edge: it raises `TypeError` exactly if an agent has two tasks with the same value
that cannot be compared, and then the dummy tasks are left in the graph (`g'` is the graph after the call); otherwise it returns what C42 says.
`cmp` says which nodes can be compared; the names of dummy tasks are strings. -/
theorem C118_ap_solver {cmp nlt : α → α → Bool} (ho : NodeOrder nlt) {fresh : Nat → α} {g : Graph α Rat O} (hg : g.Built)
    (hb : Bipartite g.edge) (hne : g.edgeList ≠ []) (hf : ∀ i, g.has (fresh i) = false ∧ fresh i ∉ g.nodesInDeg 0)
    (hcf : ∀ i j, cmp (fresh i) (fresh j) = true) :
    ∃ M g', g.apSolver nlt fresh = some (.ok M, g') ∧ IsAssignment g.edge M ∧ Stable g.edge M ∧
      ((∃ n t t' v, g.edge n t = some v ∧ g.edge n t' = some v ∧ t ≠ t' ∧ cmp t t' = false) →
        g.apSolverE cmp nlt fresh = some (.error .typeError, g')) ∧
      ((¬ ∃ n t t' v, g.edge n t = some v ∧ g.edge n t' = some v ∧ t ≠ t' ∧ cmp t t' = false) →
        g.apSolverE cmp nlt fresh = some (.ok M, g')) := by
  obtain ⟨M, g', h1, h2, h3⟩ := apSolverE_main (cmp := cmp) ho hg.inv hb hne hf hcf
  obtain ⟨M', g'', k1, k2, k3, _⟩ := C42_ap_solver_partial ho hg hb hne hf
  rw [h1] at k1; cases k1
  exact ⟨M, g', h1, k2, k3, h2, fun hno => h3 (fun n hn => hno ⟨n, hn⟩)⟩

/-- the agents 1, 2, 5; the tasks 3 and "a" -/
def tiedAp : Graph Nat Rat Nat := run [W 1 3 5, W 1 100 5, W 2 3 4, W 5 3 1]

/-- names of dummy tasks -/
def tiedFresh (i : Nat) : Nat := 1000 + i

theorem tiedAp_bipartite : Bipartite tiedAp.edge := by
  intro a t h
  obtain ⟨v, hv⟩ := Option.isSome_iff_exists.1 h
  have hb : tiedAp.Built := ⟨_, rfl⟩
  have key : ∀ e ∈ tiedAp.edgeList, ∀ f ∈ tiedAp.edgeList, f.2.1 ≠ e.1 ∧ f.1 ≠ e.2.1 := by decide +kernel
  refine ⟨fun x => ?_, fun x => ?_⟩
  · cases hx : tiedAp.edge x a with
    | none => rfl
    | some u => exact absurd rfl (key _ (hb.inv.mem_edgeList.2 hv) _ (hb.inv.mem_edgeList.2 hx)).1
  · cases hx : tiedAp.edge t x with
    | none => rfl
    | some u => exact absurd rfl (key _ (hb.inv.mem_edgeList.2 hv) _ (hb.inv.mem_edgeList.2 hx)).2

theorem tiedAp_fresh (i : Nat) : tiedAp.has (tiedFresh i) = false ∧ tiedFresh i ∉ tiedAp.nodesInDeg 0 := by
  have k1 : ∀ x ∈ tiedAp.nodeList, x < 1000 := by decide +kernel
  have k2 : ∀ x ∈ tiedAp.nodesInDeg 0, x < 1000 := by decide +kernel
  refine ⟨?_, fun h => ?_⟩
  · cases h : tiedAp.has (tiedFresh i) with
    | false => rfl
    | true =>
      have := k1 _ (has_iff.1 h)
      unfold tiedFresh at this; omega
  · have := k2 _ h
    unfold tiedFresh at this; omega

/-- **C118**: the call fails, and leaves a dummy task in the graph -/
theorem C118_type_error_counterexample : tiedAp.Built ∧ Bipartite tiedAp.edge ∧
    ∃ g', tiedAp.apSolverE sameKind natLt tiedFresh = some (.error .typeError, g') ∧ tiedAp.has 1000 = false ∧ g'.has 1000 = true := by
  refine ⟨⟨_, rfl⟩, tiedAp_bipartite, tiedAp.addEdges (apDummyEdges [1, 2, 5] [1000] 0), ?_, by decide +kernel, by decide +kernel⟩
  unfold apSolverE
  dsimp only
  rw [show ratMin (tiedAp.edgeList.map (fun e => e.2.2)) = .ok 1 by decide +kernel]
  dsimp only
  rw [show tiedAp.nodesInDeg 0 = [1, 2, 5] by decide +kernel, show tiedAp.nodesOutDeg 0 = [3, 100] by decide +kernel]
  rw [show List.map tiedFresh (List.range ([1, 2, 5].length - [3, 100].length)) = [1000] by decide +kernel, show (1 - 1 : Rat) = 0 by decide +kernel]
  rw [show pyWhile (apsStepE sameKind natLt (tiedAp.addEdges (apDummyEdges [1, 2, 5] [1000] 0)) (if [3, 100].length < [1, 2, 5].length then 0 - 1 else 0))
    ⟨[1, 2, 5], [3, 100] ++ [1000], Graph.empty, none⟩ = some (.error .typeError) from pyWhile_of_runFuel (n := 3) (by decide +kernel)]

/-- the hypotheses are met by this graph -/
example : NodeOrder natLt ∧ tiedAp.Built ∧ Bipartite tiedAp.edge ∧ tiedAp.edgeList ≠ [] ∧
    (∀ i, tiedAp.has (tiedFresh i) = false ∧ tiedFresh i ∉ tiedAp.nodesInDeg 0) ∧ ∀ i j, sameKind (tiedFresh i) (tiedFresh j) = true :=
  ⟨natLt_order, ⟨_, rfl⟩, tiedAp_bipartite, by decide +kernel, tiedAp_fresh, fun i j => by
    have h1 : ¬ (1000 + i < 100) := by omega
    have h2 : ¬ (1000 + j < 100) := by omega
    simp [sameKind, tiedFresh, h1, h2]⟩

end GT

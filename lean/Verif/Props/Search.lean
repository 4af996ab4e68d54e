import Verif.Props.Base
import Verif.Search.Bridge
import Verif.Search.Connected
import Verif.Search.Bfs
import Verif.Search.Dfs
import Verif.Search.Network
import Verif.Search.Paths
import Verif.Search.AllPaths
/-
Property theorems C12–C22: reachability and searches.

`g.Adj a b` says that `g.edge(a, b)` exists.  A result `none` of a modelled function means that the
Python call never returns; `some (.error e)` that it raises `e`; `some (.ok r)` that it returns `r`.
-/
namespace GT
open Graph
variable {α V O : Type} [DecidableEq α]

/-- the operation that adds one edge, used in the examples -/
def E (a b v : Nat) : Op Nat Nat Nat := .addEdge a b (.scalar v) false

/-- a graph with a cycle `1 → 2 → 3 → 1`, a branch `2 → 4 → 5`, a second component `7 → 6` -/
def sampleG : Graph Nat Nat Nat := run [E 1 2 1, E 2 3 1, E 3 1 1, E 2 4 1, E 4 5 1, E 1 5 9, E 7 6 1]

theorem sampleG_built : sampleG.Built := ⟨_, rfl⟩

/-! ### C12 -/

/-- **C12**. `is_connected(n1, n2)` always returns, and returns `True` exactly if there is a walk with at
least one edge from `n1` to `n2`. -/
theorem C12_is_connected {g : Graph α V O} (hg : g.Built) (n1 n2 : α) :
    ∃ r, g.isConnected n1 n2 = some r ∧
      (r = true ↔ ∃ p, WalkFT g.Adj n1 n2 p ∧ 2 ≤ p.length) := by
  have h := hg.inv
  simp only [← reachPlus_iff_walk]
  unfold isConnected
  by_cases hc : g.edges.contains n1 = true
  · rw [if_pos hc]
    obtain ⟨b, hb⟩ := (edges_contains_iff h).1 hc
    have := conn_total h.finiteFrom (h.finite n1 b hb).1 n2
    rw [rel_nodesFrom] at this; exact this
  · rw [if_neg hc]
    refine ⟨false, rfl, ?_⟩
    simp only [Bool.false_eq_true, false_iff]
    rintro ⟨m, hm⟩
    obtain ⟨b, hb, _⟩ := hm.head
    exact hc ((edges_contains_iff h).2 ⟨b, hb⟩)

example : sampleG.Built ∧ (∃ p, WalkFT sampleG.Adj 1 1 p ∧ 2 ≤ p.length) ∧
    runFuel (connStep sampleG.nodesFrom 1) 30 ([1], []) = some true ∧
    runFuel (connStep sampleG.nodesFrom 6) 30 ([1], []) = some false := by
  refine ⟨sampleG_built, ⟨[1, 2, 3, 1], ?_, by decide⟩, by decide, by decide⟩
  refine ⟨⟨?_, ?_, ?_, trivial⟩, rfl, rfl⟩ <;> (unfold Adj; decide)

/-! ### C13 -/

/-- **C13**. `breadth_first_search` returns a walk with the fewest nodes, `[]` if there is no walk, and
raises `ValueError` exactly if an end point is missing. -/
theorem C13_breadth_first_search {g : Graph α V O} (hg : g.Built) (start e : α) :
    (g.has start = true ∧ g.has e = true →
      ∃ p, g.breadthFirstSearch start e = some (.ok p) ∧
        ((∃ p', WalkFT g.Adj start e p') →
          WalkFT g.Adj start e p ∧ ∀ p', WalkFT g.Adj start e p' → p.length ≤ p'.length) ∧
        ((¬ ∃ p', WalkFT g.Adj start e p') → p = [])) ∧
    (¬ (g.has start = true ∧ g.has e = true) →
      g.breadthFirstSearch start e = some (.error .valueError)) := by
  have h := hg.inv
  constructor
  · rintro ⟨hs, he⟩
    unfold breadthFirstSearch
    simp only [hs, he, Bool.not_true, Bool.false_eq_true, if_false]
    obtain ⟨r, hr, hr2⟩ := bfs_loop h.finiteFrom (has_iff.1 hs) e
    rw [rel_nodesFrom] at hr2
    rw [hr]
    cases r with
    | none =>
      refine ⟨[], rfl, fun hp => ?_, fun _ => rfl⟩
      exact absurd (reach_iff_walk.2 hp) hr2
    | some r =>
      obtain ⟨node, vis⟩ := r
      simp only at hr2
      obtain ⟨rfl, q, done, D, hI, hv⟩ := hr2
      obtain ⟨r, h1, p, h2, h3, h4⟩ := bfs_path hI hv
      subst h2
      refine ⟨p, h1, fun _ => ⟨h3, fun p' hp' => ?_⟩, fun hn => absurd ⟨p, h3⟩ hn⟩
      have := (hI.hopDist hv).2 _ hp'.steps
      have hl := hp'.ne_nil
      have : 0 < p'.length := List.length_pos_iff.2 hl
      omega
  · intro hn
    unfold breadthFirstSearch
    by_cases hs : g.has start = true
    · have he : g.has e = false := by
        cases hh : g.has e with
        | false => rfl
        | true => exact absurd ⟨hs, hh⟩ hn
      simp [hs, he]
    · simp [hs]

example : sampleG.has 1 = true ∧ sampleG.has 4 = true ∧ WalkFT sampleG.Adj 1 4 [1, 2, 4] ∧
    ¬ ∃ p, WalkFT sampleG.Adj 6 1 p := by
  refine ⟨by decide, by decide, ⟨⟨by unfold Adj; decide, by unfold Adj; decide, trivial⟩, rfl, rfl⟩, ?_⟩
  rw [← reach_iff_walk]
  intro h
  have := Reach.closed (fun x => x = 6) rfl (fun b c hb hc => by
    subst hb
    have := mem_nodesFrom.2 hc
    revert this; rw [show sampleG.nodesFrom 6 = [] by decide]; simp) h
  simp at this

/-! ### C14 -/

/-- the direction in which `breadth_first_walk` follows the edges -/
def walkRel (g : Graph α V O) (reversedWalk : Bool) : α → α → Prop :=
  if reversedWalk then Flip g.Adj else g.Adj

/-- **C14** (exhaustive). Without `end`, `breadth_first_walk` yields every node reachable from `start`
exactly once, in order of non-decreasing hop distance. -/
theorem C14_breadth_first_walk {g : Graph α V O} (hg : g.Built) (start : α) (rev : Bool)
    (hs : g.has start = true) :
    ∃ out, g.breadthFirstWalk start none rev = some (.ok out) ∧ out.Nodup ∧
      (∀ x, x ∈ out ↔ Reach (walkRel g rev) start x) ∧
      ∃ dist : α → Nat, (∀ x ∈ out, HopDist (walkRel g rev) start x (dist x)) ∧
        out.Pairwise (fun x y => dist x ≤ dist y) := by
  have h := hg.inv
  unfold breadthFirstWalk walkRel
  simp only [hs, Bool.not_true, Bool.false_eq_true, if_false]
  cases rev with
  | false =>
    obtain ⟨out, h1, h2⟩ := bfw_none h.finiteFrom (has_iff.1 hs)
    rw [rel_nodesFrom] at h2
    refine ⟨out, ?_, ?_⟩
    · simp only [Bool.false_eq_true, if_false, h1]
    · simpa using h2
  | true =>
    obtain ⟨out, h1, h2⟩ := bfw_none h.finiteTo (has_iff.1 hs)
    rw [h.rel_nodesTo] at h2
    refine ⟨out, ?_, ?_⟩
    · simp only [if_true, h1]
    · simpa using h2

/-- **C14** (with `end`). The walk is the prefix of the exhaustive walk that stops at `end` (the whole
walk if `end` is not reached). -/
theorem C14_breadth_first_walk_end {g : Graph α V O} (hg : g.Built) (start e : α) (rev : Bool)
    (hs : g.has start = true) (he : g.has e = true) :
    ∃ full out, g.breadthFirstWalk start none rev = some (.ok full) ∧
      g.breadthFirstWalk start (some e) rev = some (.ok out) ∧ out <+: full ∧
      (e ∈ full → out.getLast? = some e) ∧ (e ∉ full → out = full) := by
  have h := hg.inv
  unfold breadthFirstWalk
  simp only [hs, he, Bool.not_true, Bool.false_eq_true, if_false]
  cases rev with
  | false =>
    obtain ⟨full, h1, -⟩ := bfw_none h.finiteFrom (has_iff.1 hs)
    obtain ⟨out, h2⟩ := bfw_some_total h.finiteFrom (has_iff.1 hs) (some e)
    exact ⟨full, out, by simp [h1], by simp [h2], bfw_some h1 (by simp) out h2⟩
  | true =>
    obtain ⟨full, h1, -⟩ := bfw_none h.finiteTo (has_iff.1 hs)
    obtain ⟨out, h2⟩ := bfw_some_total h.finiteTo (has_iff.1 hs) (some e)
    exact ⟨full, out, by simp [h1], by simp [h2], bfw_some h1 (by simp) out h2⟩

/-- **C14** (errors). `ValueError` exactly for a missing start or (given) end. -/
theorem C14_errors {g : Graph α V O} (start : α) (e : Option α) (rev : Bool)
    (h : g.has start = false ∨ ∃ x, e = some x ∧ g.has x = false) :
    g.breadthFirstWalk start e rev = some (.error .valueError) := by
  unfold breadthFirstWalk
  rcases h with h | ⟨x, rfl, h⟩
  · simp [h]
  · cases hs : g.has start <;> simp [h]

example : sampleG.has 5 = true ∧
    runFuel (bfwStep sampleG.nodesTo none) 30 (Dict.empty.set 5 none, [5], []) = some [5, 4, 1, 2, 3] ∧
    runFuel (bfwStep sampleG.nodesTo (some 1)) 30 (Dict.empty.set 5 none, [5], []) = some [5, 4, 1] := by
  decide

/-! ### C15 -/

/-- **C15**. `degree_of_separation(n1, n2)` is the hop distance, `-1` exactly if there is no walk. -/
theorem C15_degree_of_separation {g : Graph α V O} (hg : g.Built) (n1 n2 : α)
    (h1 : g.has n1 = true) (h2 : g.has n2 = true) :
    ∃ d : Int, g.degreeOfSeparation n1 n2 = some (.ok d) ∧
      (∀ n : Nat, d = n ↔ HopDist g.Adj n1 n2 n) ∧ (d = -1 ↔ ¬ Reach g.Adj n1 n2) := by
  obtain ⟨p, hp, hw, hn⟩ := (C13_breadth_first_search hg n1 n2).1 ⟨h1, h2⟩
  unfold degreeOfSeparation
  have h1' : n1 ∈ g.nodeList := has_iff.1 h1
  simp only [h1, h2, Bool.not_true, Bool.false_eq_true, if_false, h1', not_true, hp]
  refine ⟨_, rfl, ?_⟩
  rw [← reach_iff_walk] at hw hn
  by_cases hr : Reach g.Adj n1 n2
  · obtain ⟨hpw, hmin⟩ := hw hr
    have hlen : 0 < p.length := List.length_pos_iff.2 hpw.ne_nil
    have hdist : HopDist g.Adj n1 n2 (p.length - 1) := by
      refine ⟨hpw.steps, fun m hm => ?_⟩
      obtain ⟨p', hp', hl⟩ := hm.walk
      have := hmin p' hp'; omega
    refine ⟨fun n => ⟨fun hd => ?_, fun hd => ?_⟩, ⟨fun hd => by omega, fun h => absurd hr h⟩⟩
    · have : p.length - 1 = n := by omega
      exact this ▸ hdist
    · have h3 := hdist.2 n hd.1
      have h4 := hd.2 _ hdist.1
      omega
  · rw [hn hr]
    refine ⟨fun n => ⟨fun hd => by simp at hd, fun hd => absurd ⟨n, hd.1⟩ hr⟩, by simp [hr]⟩

/-- **C15** (errors). -/
theorem C15_errors {g : Graph α V O} (n1 n2 : α) (h : g.has n1 = false ∨ g.has n2 = false) :
    g.degreeOfSeparation n1 n2 = some (.error .valueError) := by
  unfold degreeOfSeparation
  rcases h with h | h
  · simp [h]
  · cases hs : g.has n1 <;> simp [h]

example : sampleG.has 1 = true ∧ sampleG.has 5 = true ∧ sampleG.has 6 = true := by decide

/-! ### C16 -/

/-- **C16**. `depth_first_search` returns a simple path whenever `end` is reachable and `None` exactly if
it is not. -/
theorem C16_depth_first_search {g : Graph α V O} (hg : g.Built) (start e : α) :
    (g.has start = true ∧ g.has e = true →
      ∃ r, g.depthFirstSearch start e = some (.ok r) ∧
        (∀ p, r = some p → WalkFT g.Adj start e p ∧ p.Nodup) ∧
        (r = none ↔ ¬ ∃ p, WalkFT g.Adj start e p)) ∧
    (¬ (g.has start = true ∧ g.has e = true) →
      g.depthFirstSearch start e = some (.error .valueError)) := by
  have h := hg.inv
  constructor
  · rintro ⟨hs, he⟩
    unfold depthFirstSearch
    simp only [hs, he, Bool.not_true, Bool.false_eq_true, if_false]
    obtain ⟨r, hr, hr2⟩ := dfs_total h.finiteFrom (has_iff.1 hs) e
    rw [rel_nodesFrom] at hr2
    rw [hr]
    refine ⟨r, rfl, ?_, ?_⟩
    · rintro p rfl; exact hr2
    · rw [← reach_iff_walk]
      cases r with
      | none => simp only [true_iff]; exact hr2
      | some p => simp only [reduceCtorEq, false_iff, Classical.not_not]; exact reach_iff_walk.2 ⟨p, hr2.1⟩
  · intro hn
    unfold depthFirstSearch
    by_cases hs : g.has start = true
    · have he : g.has e = false := by
        cases hh : g.has e with
        | false => rfl
        | true => exact absurd ⟨hs, hh⟩ hn
      simp [hs, he]
    · simp [hs]

/-- the search backtracks out of the cycle `1 → 2 → 3 → 1` -/
example : sampleG.has 1 = true ∧ sampleG.has 5 = true ∧
    runFuel (dfsStep sampleG.nodesFrom 5) 30 ([1], [], []) = some (some [1, 2, 4, 5]) ∧
    runFuel (dfsStep sampleG.nodesFrom 6) 30 ([1], [], []) = some none := by decide

/-! ### C17 -/

/-- **C17**. `depth_scan(start, criteria)` returns `start` and every node with an edge from a node that is
reachable from `start` through nodes satisfying the criterion; the empty set if `start` fails it. -/
theorem C17_depth_scan {g : Graph α V O} (hg : g.Built) (start : α) (crit : α → Bool)
    (hs : g.has start = true) :
    ∃ r, g.depthScan start crit = some (.ok r) ∧
      ∀ x, x ∈ r ↔ crit start = true ∧
        (x = start ∨ ∃ y, Reach (fun a b => g.Adj a b ∧ crit b = true) start y ∧ g.Adj y x) := by
  have h := hg.inv
  unfold depthScan
  simp only [hs, Bool.not_true, Bool.false_eq_true, if_false]
  by_cases hc : crit start = true
  · obtain ⟨r, hr, hr2⟩ := scan_total (crit := crit) h.finiteFrom (has_iff.1 hs) hc
    simp only [hc, Bool.not_true, Bool.false_eq_true, if_false, hr, true_and]
    refine ⟨r, rfl, fun x => ?_⟩
    rw [hr2]
    simp only [mem_nodesFrom, Adj]
  · simp [hc]

example : sampleG.has 1 = true ∧
    runFuel (scanStep sampleG.nodesFrom (fun x => x != 4)) 30 ([1], [], []) = some [1, 2, 3, 4, 5] := by
  decide

/-! ### C18 -/

/-- **C18**. `network_size(g, n, k)` is exactly the set of nodes reachable by at most `k` edges (by any
number for `k = None`); for `k ≤ 0` it is `{n}`.  `ord` is the unknown set iteration order. -/
theorem C18_network_size {g : Graph α V O} (hg : g.Built) (ord : Nat → List α → List α)
    (hord : ∀ t l x, x ∈ ord t l ↔ x ∈ l) (n : α) (k : Option Int) (hn : g.has n = true) :
    ∃ r, g.networkSize ord n k = some (.ok r) ∧
      ∀ x, x ∈ r ↔ ∃ m : Nat, Steps g.Adj m n x ∧ (m = 0 ∨ WithinRadius k m) := by
  have h := hg.inv
  unfold networkSize
  simp only [hn, Bool.not_true, Bool.false_eq_true, if_false]
  obtain ⟨r, hr, hr2⟩ := net_total h.finiteFrom hord (has_iff.1 hn) k
  rw [rel_nodesFrom] at hr2
  exact ⟨r, by rw [hr], hr2⟩

example : sampleG.has 1 = true ∧ (∀ (_ : Nat) (l : List Nat) (x : Nat), x ∈ l.reverse ↔ x ∈ l) ∧
    runFuel (netStep sampleG.nodesFrom (fun _ l => l.reverse) (some 1)) 30
      ([1], sampleG.nodesFrom 1, 1) = some [1, 5, 2] := ⟨by decide, by simp, by decide⟩

/-! ### C19 -/

/-- **C19**. `components(g)` is the partition of the nodes into weakly connected components, whatever
`set.pop` returns. -/
theorem C19_components {g : Graph α V O} (hg : g.Built) (pop : Nat → List α → α)
    (hpop : ∀ t l, l ≠ [] → pop t l ∈ l) :
    ∃ r, g.components pop = some r ∧
      (∀ s ∈ r, s ≠ [] ∧ s.Nodup) ∧
      r.Pairwise (fun s t => ∀ x ∈ s, x ∉ t) ∧
      (∀ x, g.has x = true ↔ ∃ s ∈ r, x ∈ s) ∧
      (∀ s ∈ r, ∀ x ∈ s, ∀ y, y ∈ s ↔ Reach (Undirected g.Adj) x y) := by
  have h := hg.inv
  obtain ⟨r, hr, h1, h2, h3, h4⟩ := components_total h.finiteFrom (pred := g.nodesTo)
    (fun a b => by rw [mem_nodesFrom, h.mem_nodesTo]) hpop
  rw [rel_nodesFrom] at h4
  exact ⟨r, hr, h1, h2, fun x => by rw [has_iff]; exact h3 x, h4⟩

/-- popping the last element is a legal `set.pop`; the sample has two components -/
example : (∀ (_ : Nat) (l : List Nat), l ≠ [] → l.getLastD 0 ∈ l) ∧ Reach (Undirected sampleG.Adj) 5 1 := by
  refine ⟨fun _ l hl => ?_, Reach.single (Or.inr (by unfold Adj; decide))⟩
  rw [List.getLastD_eq_getLast?, List.getLast?_eq_some_getLast hl]; exact List.getLast_mem hl

/-! ### C20 -/

/-- **C20**. `all_simple_paths(start, end)` returns every simple path exactly once and nothing else. -/
theorem C20_all_simple_paths {g : Graph α V O} (hg : g.Built) (start e : α)
    (hs : g.has start = true) (he : g.has e = true) (hse : start ≠ e) :
    ∃ ps, g.allSimplePaths start e = some (.ok ps) ∧ ps.Nodup ∧
      ∀ p, p ∈ ps ↔ WalkFT g.Adj start e p ∧ p.Nodup := by
  have h := hg.inv
  unfold allSimplePaths
  simp only [hs, he, Bool.not_true, Bool.false_eq_true, if_false, hse]
  obtain ⟨b, hb, hb2⟩ := C12_is_connected hg start e
  rw [hb]
  cases b with
  | false =>
    refine ⟨[], rfl, by simp, fun p => ?_⟩
    simp only [List.not_mem_nil, false_iff, not_and]
    intro hp _
    have : ¬ ∃ p, WalkFT g.Adj start e p ∧ 2 ≤ p.length := fun hh => by simpa using hb2.2 hh
    apply this
    refine ⟨p, hp, ?_⟩
    match p, hp with
    | [], hp => exact absurd rfl hp.ne_nil
    | [a], hp =>
      have h1 := hp.2.1; have h2 := hp.2.2
      simp at h1 h2; exact absurd (h1.symm.trans h2) hse
    | _ :: _ :: _, _ => simp
  | true =>
    have hf : (fun n => g.edgeTargets n) = g.nodesFrom := by funext n; exact edgeTargets_eq g n
    have hf' : g.edgeTargets = g.nodesFrom := hf
    rw [hf']
    obtain ⟨r, hr, ps, rfl, h1, h2⟩ := asp_total h.finiteFrom h.nodup_nodesFrom (has_iff.1 hs) hse
    rw [rel_nodesFrom] at h2
    rw [hr]
    refine ⟨ps.map List.reverse, rfl, ?_, fun p => ?_⟩
    · unfold List.Nodup at *
      rw [List.pairwise_map]
      exact h1.imp (fun hab h => hab (List.reverse_inj.1 h))
    · rw [List.mem_map]
      constructor
      · rintro ⟨q, hq, rfl⟩
        have := (h2 q).1 hq
        exact ⟨this.1, nodup_reverse.2 this.2⟩
      · rintro ⟨h3, h4⟩
        exact ⟨p.reverse, (h2 _).2 ⟨by simpa using h3, nodup_reverse.2 h4⟩, by simp⟩

/-- **C20** (errors). -/
theorem C20_errors {g : Graph α V O} (start e : α)
    (h : g.has start = false ∨ g.has e = false ∨ start = e) :
    g.allSimplePaths start e = some (.error .valueError) := by
  unfold allSimplePaths
  rcases h with h | h | h
  · simp [h]
  · cases hs : g.has start <;> simp [h]
  · cases hs : g.has start
    · simp
    · cases he : g.has e <;> simp [h]

example : sampleG.has 3 = true ∧ sampleG.has 5 = true ∧ WalkFT sampleG.Adj 3 5 [3, 1, 2, 4, 5] ∧
    runFuel (aspStep sampleG.edgeTargets 5) 30 ([[3]], []) = some (.ok [[5, 1, 3], [5, 4, 2, 1, 3]]) := by
  refine ⟨by decide, by decide, ?_, by decide⟩
  refine ⟨⟨?_, ?_, ?_, ?_, trivial⟩, rfl, rfl⟩ <;> (unfold Adj; decide)

/-! ### C21 -/

/-- **C21** (soundness, all graphs). Whenever `all_paths(start, end)` returns, the result consists of
distinct walks from `start` to `end`.
Missing for the full property: the call may diverge or raise on cyclic graphs (next theorems). -/
theorem C21_all_paths_sound_partial {g : Graph α V O} (_hg : g.Built) (start e : α) (ps : List (List α))
    (h : g.allPaths start e = some (.ok ps)) : ps.Nodup ∧ ∀ p ∈ ps, WalkFT g.Adj start e p := by
  unfold allPaths at h
  split at h
  · simp at h
  · split at h
    · simp at h
    · split at h
      · simp at h
      · split at h
        · simp at h
        · simp only [Option.some.injEq, Except.ok.injEq] at h; subst h; simp
        · split at h
          · simp at h
          · simp at h
          · rename_i r hr
            simp only [Option.some.injEq, Except.ok.injEq] at h; subst h
            obtain ⟨h1, h2⟩ := ap_sound hr _ rfl
            rw [rel_nodesFrom] at h1
            refine ⟨h2.filter _, fun p hp => ?_⟩
            simp only [List.mem_filter, decide_eq_true_eq] at hp
            obtain ⟨x, hx⟩ := h1 p hp.1
            have : x = e := by have := hx.2.2.symm.trans hp.2; simpa using this
            exact this ▸ hx

/-- **C21** (acyclic graphs). On a DAG `all_paths` returns exactly the paths from `start` to `end`, each
once. -/
theorem C21_all_paths_dag {g : Graph α V O} (hg : g.Built) (hA : Acyclic g.Adj) (start e : α)
    (hs : g.has start = true) (he : g.has e = true) (hse : start ≠ e) :
    ∃ ps, g.allPaths start e = some (.ok ps) ∧ ps.Nodup ∧ ∀ p, p ∈ ps ↔ WalkFT g.Adj start e p := by
  have h := hg.inv
  suffices hx : ∃ ps, g.allPaths start e = some (.ok ps) ∧ ∀ p, WalkFT g.Adj start e p → p ∈ ps by
    obtain ⟨ps, h1, h2⟩ := hx
    obtain ⟨h3, h4⟩ := C21_all_paths_sound_partial hg start e ps h1
    exact ⟨ps, h1, h3, fun p => ⟨h4 p, h2 p⟩⟩
  have hconn : ∀ a b, ∃ r, g.isConnected a b = some r ∧
      (r = true ↔ ReachPlus (fun a b => b ∈ g.nodesFrom a) a b) := by
    intro a b
    obtain ⟨r, h1, h2⟩ := C12_is_connected hg a b
    rw [← reachPlus_iff_walk] at h2
    rw [rel_nodesFrom]; exact ⟨r, h1, h2⟩
  unfold allPaths
  simp only [hs, he, Bool.not_true, Bool.false_eq_true, if_false, hse]
  obtain ⟨b, hb, hb2⟩ := C12_is_connected hg start e
  rw [hb]
  cases b with
  | false =>
    refine ⟨[], rfl, fun p hp => ?_⟩
    exfalso
    have : ¬ ∃ p, WalkFT g.Adj start e p ∧ 2 ≤ p.length := fun hh => by simpa using hb2.2 hh
    apply this
    refine ⟨p, hp, ?_⟩
    match p, hp with
    | [], hp => exact absurd rfl hp.ne_nil
    | [a], hp =>
      have h1 := hp.2.1; have h2 := hp.2.2
      simp at h1 h2; exact absurd (h1.symm.trans h2) hse
    | _ :: _ :: _, _ => simp
  | true =>
    obtain ⟨r, hr, ps, rfl, h2⟩ := ap_dag h.finiteFrom h.nodup_nodesFrom hconn
      (by rw [rel_nodesFrom]; exact hA) start e
    rw [rel_nodesFrom] at h2
    rw [hr]
    refine ⟨_, rfl, fun p hp => ?_⟩
    simp only [List.mem_filter, decide_eq_true_eq]
    exact ⟨h2 p hp, hp.2.2⟩

omit [DecidableEq α] in
/-- A relation whose edges increase a number is acyclic. -/
theorem acyclic_of_rank {R : α → α → Prop} (f : α → Nat) (h : ∀ a b, R a b → f a < f b) : Acyclic R := by
  have : ∀ n a b, Steps R n a b → f a + n ≤ f b := by
    intro n a b hs
    induction hs with
    | zero => simp
    | succ _ h2 ih => have := h _ _ h2; omega
  intro a ⟨n, hn⟩
  have := this _ _ _ hn; omega

/-- a DAG in which the diamond `1 → {2, 3} → 4` has two paths -/
def diamond : Graph Nat Nat Nat := run [E 1 2 1, E 1 3 1, E 2 4 1, E 3 4 1]

theorem diamond_acyclic : Acyclic diamond.Adj := by
  apply acyclic_of_rank (fun x => x)
  intro a b hab
  obtain ⟨v, hv⟩ := Option.isSome_iff_exists.1 hab
  have := (Built.inv ⟨_, rfl⟩ : diamond.Inv).mem_edgeList.2 hv
  rw [show diamond.edgeList = [(1, 2, 1), (1, 3, 1), (2, 4, 1), (3, 4, 1)] by decide] at this
  simp at this; omega

example : diamond.Built ∧ Acyclic diamond.Adj ∧ diamond.has 1 = true ∧ diamond.has 4 = true ∧
    WalkFT diamond.Adj 1 4 [1, 3, 4] := by
  refine ⟨⟨_, rfl⟩, diamond_acyclic, by decide, by decide, ⟨⟨?_, ?_, trivial⟩, rfl, rfl⟩⟩ <;> (unfold Adj; decide)

/-- the branch of `all_paths` after the guards -/
theorem allPaths_connected {g : Graph α V O} {start e : α} (hs : g.has start = true) (he : g.has e = true)
    (hse : start ≠ e) (hc : g.isConnected start e = some true) :
    g.allPaths start e =
      match pyWhileD (apStep g.nodesFrom g.isConnected e) ⟨.empty, [[start]], [start], []⟩ with
      | none => none
      | some (.error er) => some (.error er)
      | some (.ok paths) => some (.ok (paths.filter (fun p => p.getLast? = some e))) := by
  unfold allPaths
  simp only [hs, he, Bool.not_true, Bool.false_eq_true, if_false, hse, hc]
  rfl

/-- a self loop on a fork: `1 → 1`, `1 → 2` -/
def loopFork : Graph Nat Nat Nat := run [E 1 1 1, E 1 2 1]

/-- **C21** (violated, exception). On a graph with a self loop on a fork `all_paths` raises `IndexError`:
`path[i + j]` runs past the end of the path. -/
theorem C21_index_error_counterexample :
    loopFork.Built ∧ loopFork.allPaths 1 2 = some (.error .indexError) := by
  refine ⟨⟨_, rfl⟩, ?_⟩
  have h12 : loopFork.isConnected 1 2 = some true := by
    unfold isConnected; rw [if_pos (by decide)]; exact pyWhile_of_runFuel (n := 10) (by decide)
  have h11 : loopFork.isConnected 1 1 = some true := by
    unfold isConnected; rw [if_pos (by decide)]; exact pyWhile_of_runFuel (n := 10) (by decide)
  rw [allPaths_connected (by decide) (by decide) (by decide) h12, pyWhileD_eq]
  have hn1 : loopFork.nodesFrom 1 = [1, 2] := by decide
  simp [apStep, hn1, apInner, apLookup, h11, forkScan, forkPaths, pairIn, Dict.empty, Dict.get?, aget]

/-- a cycle without fork beside the way to the end: `0 → 1 → 2 → 1`, `0 → 9` -/
def trap : Graph Nat Nat Nat := run [E 0 1 1, E 0 9 1, E 1 2 1, E 2 1 1]

/-- **C21** (violated, termination). `all_paths` never returns if a cycle without forks can be entered. -/
theorem C21_divergence_counterexample : trap.Built ∧ trap.allPaths 0 9 = none := by
  have hb : trap.Built := ⟨_, rfl⟩
  refine ⟨hb, ?_⟩
  have h09 : trap.isConnected 0 9 = some true := by
    unfold isConnected; rw [if_pos (by decide)]; exact pyWhile_of_runFuel (n := 10) (by decide)
  rw [allPaths_connected (by decide) (by decide) (by decide) h09]
  have hf : ∀ n, trap.nodesFrom n = if n = 0 then [1, 9] else if n = 1 then [2] else if n = 2 then [1] else [] := by
    intro n
    match n with
    | 0 => decide
    | 1 => decide
    | 2 => decide
    | n + 3 =>
      have : trap.edges.get? (n + 3) = none := by
        rw [Dict.get?_eq_none_iff, show trap.edges.keys = [0, 1, 2] by decide]; simp
      simp [nodesFrom, this]
  have key : ∀ (n1 : Nat) (np : List (List Nat)) (l : List Nat) (s : ApState Nat), s.skip = [] →
      (∀ n2 ∈ l, (trap.nodesFrom n2).length ≤ 1) →
      ∃ s', apInner trap.nodesFrom trap.isConnected n1 np l s = some (.ok s') ∧ s'.skip = [] ∧
        (∀ x ∈ s.q, x ∈ s'.q) ∧ (∀ x ∈ l, x ∈ s'.q) := by
    intro n1 np l
    induction l with
    | nil => intro s hs _; exact ⟨s, rfl, hs, fun _ h => h, by simp⟩
    | cons n2 l ih =>
      intro s hs hl
      unfold apInner
      rw [if_neg (by rw [hs]; simp)]
      simp only
      obtain ⟨con, hcon⟩ : ∃ con, apLookup trap.isConnected s.cache n2 n1 = some con := by
        unfold apLookup
        cases h : s.cache.get? (n2, n1) with
        | some b => exact ⟨b, rfl⟩
        | none => obtain ⟨r, hr, _⟩ := C12_is_connected hb n2 n1; exact ⟨r, hr⟩
      rw [hcon]
      have hlen := hl n2 (by simp)
      have : (decide ((trap.nodesFrom n2).length > 1) && con) = false := by
        simp only [Bool.and_eq_false_iff, decide_eq_false_iff_not]; left; omega
      simp only [this, Bool.false_eq_true, if_false]
      obtain ⟨s', h1, h2, h3, h4⟩ := ih ⟨if (s.cache.get? (n2, n1)).isSome then s.cache else s.cache.set (n2, n1) con,
        extendPaths n2 np s.paths, if n2 ∉ s.q then s.q ++ [n2] else s.q, s.skip⟩ hs
        (fun x hx => hl x (by simp [hx]))
      have hq : ∀ x, x ∈ (if n2 ∉ s.q then s.q ++ [n2] else s.q) ↔ x ∈ s.q ∨ x = n2 := by
        intro x; split
        · simp
        · rename_i h; simp only [Decidable.not_not] at h; grind
      simp only [hq] at h3
      refine ⟨s', h1, h2, fun x hx => h3 x (Or.inl hx), fun x hx => ?_⟩
      rcases List.mem_cons.1 hx with rfl | hx
      · exact h3 x (Or.inr rfl)
      · exact h4 x hx
  have hdiv : pyWhileD (apStep trap.nodesFrom trap.isConnected 9) ⟨.empty, [[0]], [0], []⟩ = none := by
    apply pyWhileD_diverges (fun s => s.skip = [] ∧ (0 ∈ s.q ∨ 1 ∈ s.q ∨ 2 ∈ s.q))
    · rintro s ⟨hs, hq⟩
      right
      cases hsq : s.q with
      | nil => rw [hsq] at hq; simp at hq
      | cons n1 q =>
        rw [hsq] at hq
        by_cases h9 : n1 = 9
        · subst h9
          refine ⟨{ s with q := q }, by simp [apStep, hsq], hs, by simpa using hq⟩
        · have hl : ∀ n2 ∈ trap.nodesFrom n1, (trap.nodesFrom n2).length ≤ 1 := by
            intro n2 hn2
            rw [hf] at hn2 ⊢
            split at hn2
            · simp at hn2; rcases hn2 with rfl | rfl <;> simp
            · split at hn2
              · simp at hn2; subst hn2; simp
              · split at hn2
                · simp at hn2; subst hn2; simp
                · simp at hn2
          obtain ⟨s', h1, h2, h3, h4⟩ := key n1 (s.paths.filter (fun p => p.getLast? = some n1))
            (trap.nodesFrom n1) { s with q := q } hs hl
          refine ⟨s', by simp only [apStep, hsq, if_neg h9, h1], h2, ?_⟩
          have hn1 := fun x (hx : x ∈ trap.nodesFrom n1) => h4 x hx
          simp only at h3
          rw [hf] at hn1
          by_cases h0 : n1 = 0
          · subst h0; exact Or.inr (Or.inl (hn1 1 (by simp)))
          · by_cases hh1 : n1 = 1
            · subst hh1; exact Or.inr (Or.inr (hn1 2 (by simp)))
            · by_cases hh2 : n1 = 2
              · subst hh2; exact Or.inr (Or.inl (hn1 1 (by simp)))
              · simp only [List.mem_cons, Ne.symm h0, Ne.symm hh1, Ne.symm hh2, false_or] at hq
                rcases hq with hq | hq | hq
                · exact Or.inl (h3 _ hq)
                · exact Or.inr (Or.inl (h3 _ hq))
                · exact Or.inr (Or.inr (h3 _ hq))
    · exact ⟨rfl, Or.inl (by simp)⟩
  rw [hdiv]

/-! ### C22 -/

/-- **C22** (acyclic upstream, in particular every DAG). `sources(n)` returns exactly the nodes other than
`n` from which `n` can be reached. -/
theorem C22_sources {g : Graph α V O} (hg : g.Built) (n : α) (hn : g.has n = true)
    (hac : ∀ c, Reach g.Adj c n → ¬ ReachPlus g.Adj c c) :
    ∃ r, g.sources n = some (.ok r) ∧ r.Nodup ∧ ∀ x, x ∈ r ↔ x ≠ n ∧ Reach g.Adj x n := by
  have h := hg.inv
  have hflip : ∀ a b, Reach (Flip g.Adj) a b ↔ Reach g.Adj b a :=
    fun a b => ⟨fun h => h.flip, fun h => h.flip⟩
  have hplus : ∀ c, ReachPlus (Flip g.Adj) c c → ReachPlus g.Adj c c :=
    fun c ⟨m, hm⟩ => ⟨m, hm.flip⟩
  obtain ⟨r, h1, h2, h3⟩ := src_total h.finiteTo h.nodup_nodesTo (n := n) (by
    rw [h.rel_nodesTo]; intro c hc hp
    exact hac c ((hflip _ _).1 hc) (hplus c hp))
  rw [h.rel_nodesTo] at h3
  have hnr : n ∈ r := (h3 n).2 (Reach.refl n)
  refine ⟨r.erase n, ?_, h2.erase n, fun x => ?_⟩
  · unfold sources
    simp only [hn, Bool.not_true, Bool.false_eq_true, if_false, h1, if_pos hnr]
  · rw [h2.mem_erase_iff, h3, hflip]

/-- **C22** (cyclic upstream). If a cycle lies upstream of `n` (or `n` lies on one), `sources(n)` never
returns. -/
theorem C22_sources_diverges {g : Graph α V O} (hg : g.Built) (n c : α) (hn : g.has n = true)
    (h1 : Reach g.Adj c n) (h2 : ReachPlus g.Adj c c) : g.sources n = none := by
  have h := hg.inv
  have : pyWhile (srcStep g.nodesTo) ([n], [n]) = none := by
    apply src_diverges (c := c)
    · rw [h.rel_nodesTo]; exact h1.flip
    · rw [h.rel_nodesTo]; obtain ⟨m, hm⟩ := h2; exact ⟨m, hm.flip⟩
  unfold sources
  simp only [hn, Bool.not_true, Bool.false_eq_true, if_false, this]

/-- both situations occur in one graph: nothing cyclic is upstream of 6, the cycle is upstream of 5 -/
example : diamond.has 4 = true ∧ (∀ c, Reach diamond.Adj c 4 → ¬ ReachPlus diamond.Adj c c) ∧
    sampleG.has 5 = true ∧ Reach sampleG.Adj 1 5 ∧ ReachPlus sampleG.Adj 1 1 := by
  refine ⟨by decide, fun c _ => diamond_acyclic c, by decide, Reach.single (by unfold Adj; decide), 2, ?_⟩
  exact .succ (.succ (.succ (.zero 1) (b := 1) (c := 2) (by unfold Adj; decide)) (c := 3) (by unfold Adj; decide))
    (by unfold Adj; decide)

end GT

import Verif.Props.Search
import Verif.Props.Dag
import Verif.Props.Sp
/-
Property theorems C78 - C83: answers of different functions about the same graph agree with each other.
-/
namespace GT
open Graph
variable {α V O : Type} [DecidableEq α]

/-! ### C78 -/

/-- **C78**. For two different nodes, all functions that answer "can `n2` be reached from `n1`" give the same answer: `is_connected`,
`breadth_first_search` (a path), `depth_first_search` (not `None`), `degree_of_separation` (not -1), `breadth_first_walk` (contains `n2`),
`network_size` (contains `n2`), `all_simple_paths` (not empty). -/
theorem C78_reachability_answers_agree {g : Graph α V O} (hg : g.Built) {n1 n2 : α} (h1 : g.has n1 = true) (h2 : g.has n2 = true)
    (hne : n1 ≠ n2) (ord : Nat → List α → List α) (hord : ∀ t l x, x ∈ ord t l ↔ x ∈ l) :
    ∃ b p q d out net ps,
      g.isConnected n1 n2 = some b ∧ g.breadthFirstSearch n1 n2 = some (.ok p) ∧ g.depthFirstSearch n1 n2 = some (.ok q) ∧
      g.degreeOfSeparation n1 n2 = some (.ok d) ∧ g.breadthFirstWalk n1 none false = some (.ok out) ∧
      g.networkSize ord n1 none = some (.ok net) ∧ g.allSimplePaths n1 n2 = some (.ok ps) ∧
      (b = true ↔ p ≠ []) ∧ (b = true ↔ q ≠ none) ∧ (b = true ↔ d ≠ -1) ∧ (b = true ↔ n2 ∈ out) ∧ (b = true ↔ n2 ∈ net) ∧
      (b = true ↔ ps ≠ []) := by
  obtain ⟨b, hb, hb'⟩ := C12_is_connected hg n1 n2
  obtain ⟨p, hp, hp1, hp2⟩ := (C13_breadth_first_search hg n1 n2).1 ⟨h1, h2⟩
  obtain ⟨q, hq, hq1, hq2⟩ := (C16_depth_first_search hg n1 n2).1 ⟨h1, h2⟩
  obtain ⟨d, hd, _, hd2⟩ := C15_degree_of_separation hg n1 n2 h1 h2
  obtain ⟨out, ho, _, ho2, _⟩ := C14_breadth_first_walk hg n1 false h1
  obtain ⟨net, hn, hn2⟩ := C18_network_size hg ord hord n1 none h1
  obtain ⟨ps, hps, _, hps2⟩ := C20_all_simple_paths hg n1 n2 h1 h2 hne
  have key : b = true ↔ ∃ p, WalkFT g.Adj n1 n2 p := by
    rw [hb']
    constructor
    · rintro ⟨p, h, _⟩; exact ⟨p, h⟩
    · rintro ⟨p, h⟩
      refine ⟨p, h, ?_⟩
      match p, h with
      | [], h => exact absurd rfl h.ne_nil
      | [x], ⟨_, ha, hb⟩ => simp at ha hb; exact absurd (ha.symm.trans hb) hne
      | _ :: _ :: _, _ => simp
  refine ⟨b, p, q, d, out, net, ps, hb, hp, hq, hd, ho, hn, hps, ?_, ?_, ?_, ?_, ?_, ?_⟩
  · rw [key]
    exact ⟨fun h => (hp1 h).1.ne_nil, fun h => Classical.byContradiction fun hn => h (hp2 hn)⟩
  · rw [key, Ne, hq2, Classical.not_not]
  · rw [key, Ne, hd2, Classical.not_not, reach_iff_walk]
  · rw [key, ho2, ← reach_iff_walk]; exact Iff.rfl
  · rw [key, hn2, ← reach_iff_walk]
    exact ⟨fun ⟨m, h⟩ => ⟨m, h, .inr trivial⟩, fun ⟨m, h, _⟩ => ⟨m, h⟩⟩
  · rw [key]
    constructor
    · intro h hnil
      cases hqq : q with
      | none => exact (hq2.1 hqq) h
      | some r =>
        have := hq1 r hqq
        rw [← hps2, hnil] at this
        cases this
    · intro h
      match ps, h with
      | r :: _, _ => exact ⟨r, ((hps2 r).1 (by simp)).1⟩

example : sampleG.Built ∧ sampleG.has 1 = true ∧ sampleG.has 5 = true ∧ sampleG.has 6 = true ∧
    sampleG.isConnected 1 5 = some true ∧ sampleG.isConnected 1 6 = some false := by
  have h5 := C12_is_connected sampleG_built 1 5
  have h6 := C12_is_connected sampleG_built 1 6
  refine ⟨sampleG_built, by decide, by decide, by decide, ?_, ?_⟩
  · obtain ⟨r, h, hr⟩ := h5
    rw [h, hr.2 ⟨[1, 5], ⟨⟨by decide, trivial⟩, rfl, rfl⟩, by simp⟩]
  · obtain ⟨r, h, hr⟩ := h6
    rw [h]
    congr 1
    rw [Bool.eq_false_iff, Ne, hr]
    rintro ⟨p, hp, _⟩
    have := Reach.closed (R := sampleG.Adj) (fun x => x ∈ [1, 2, 3, 4, 5]) (by simp) (fun b c hb hbc => by
      have key : ∀ b ∈ [1, 2, 3, 4, 5], ∀ c ∈ sampleG.nodesFrom b, c ∈ [1, 2, 3, 4, 5] := by decide
      exact key b hb c (mem_nodesFrom.2 hbc)) (reach_iff_walk.2 ⟨p, hp⟩)
    simp at this

/-! ### C79 -/

/-- **C79**. The hop counts agree: if `n2` can be reached, `degree_of_separation` is one less than the number of nodes of the path that
`breadth_first_search` returns, is the smallest `k` for which `network_size(n1, k)` contains `n2`, and no path that `depth_first_search` or
`all_simple_paths` returns has fewer edges. -/
theorem C79_hop_counts_agree {g : Graph α V O} (hg : g.Built) {n1 n2 : α} (h1 : g.has n1 = true) (h2 : g.has n2 = true)
    (hne : n1 ≠ n2) (ord : Nat → List α → List α) (hord : ∀ t l x, x ∈ ord t l ↔ x ∈ l) {d : Int}
    (hd : g.degreeOfSeparation n1 n2 = some (.ok d)) (hd0 : d ≠ -1) :
    (∃ p, g.breadthFirstSearch n1 n2 = some (.ok p) ∧ (p.length : Int) = d + 1) ∧
    (∀ k : Int, ∃ net, g.networkSize ord n1 (some k) = some (.ok net) ∧ (n2 ∈ net ↔ d ≤ k)) ∧
    (∃ q, g.depthFirstSearch n1 n2 = some (.ok (some q)) ∧ d + 1 ≤ q.length) ∧
    (∃ ps, g.allSimplePaths n1 n2 = some (.ok ps) ∧ ∀ q ∈ ps, d + 1 ≤ (q.length : Int)) := by
  obtain ⟨d', hd', hd1, hd2⟩ := C15_degree_of_separation hg n1 n2 h1 h2
  cases hd.symm.trans hd'
  have hr : Reach g.Adj n1 n2 := Classical.byContradiction fun h => hd0 (hd2.2 h)
  obtain ⟨p, hp, hp1, _⟩ := (C13_breadth_first_search hg n1 n2).1 ⟨h1, h2⟩
  obtain ⟨hpw, hpm⟩ := hp1 (reach_iff_walk.1 hr)
  have hpl : 1 ≤ p.length := by cases p with | nil => exact absurd rfl hpw.ne_nil | cons _ _ => simp
  have hhop : HopDist g.Adj n1 n2 (p.length - 1) := by
    refine ⟨hpw.steps, fun m hm => ?_⟩
    obtain ⟨q, hq, hl⟩ := hm.walk
    have := hpm q hq
    omega
  have hdp := (hd1 _).2 hhop
  have hmin : ∀ q, WalkFT g.Adj n1 n2 q → d + 1 ≤ (q.length : Int) := by
    intro q hq
    have := hpm q hq
    omega
  refine ⟨⟨p, hp, by omega⟩, fun k => ?_, ?_, ?_⟩
  · obtain ⟨net, hn, hn2⟩ := C18_network_size hg ord hord n1 (some k) h1
    refine ⟨net, hn, ?_⟩
    rw [hn2]
    constructor
    · rintro ⟨m, hm, h | h⟩
      · subst h; cases hm; exact absurd rfl hne
      · have h : (m : Int) ≤ k := h
        have := hhop.2 m hm
        omega
    · intro h
      exact ⟨p.length - 1, hhop.1, .inr (by show ((p.length - 1 : Nat) : Int) ≤ k; omega)⟩
  · obtain ⟨q, hq, hq1, hq2⟩ := (C16_depth_first_search hg n1 n2).1 ⟨h1, h2⟩
    cases q with
    | none => exact absurd (reach_iff_walk.1 hr) (hq2.1 rfl)
    | some q => exact ⟨q, hq, hmin q (hq1 q rfl).1⟩
  · obtain ⟨ps, hps, _, hps2⟩ := C20_all_simple_paths hg n1 n2 h1 h2 hne
    exact ⟨ps, hps, fun q hq => hmin q ((hps2 q).1 hq).1⟩

/-- in `sampleG` node 3 is two hops from 1 -/
example : sampleG.Built ∧ sampleG.has 1 = true ∧ sampleG.has 3 = true ∧ sampleG.degreeOfSeparation 1 3 = some (.ok 2) := by
  refine ⟨sampleG_built, by decide, by decide, ?_⟩
  obtain ⟨d, hd, h1, _⟩ := C15_degree_of_separation sampleG_built 1 3 (by decide) (by decide)
  rw [hd, (h1 2).2 ⟨.succ (b := 2) (.succ (b := 1) (.zero 1) (by decide)) (by decide), ?_⟩]; rfl
  intro m hm
  match m, hm with
  | 0, hm => cases hm
  | 1, hm =>
    obtain ⟨b, hb, hm⟩ := hm.head
    cases hm
    exact absurd hb (by decide)
  | m + 2, _ => omega

/-! ### C80 -/

/-- **C80**. The answers about cycles agree: `has_cycles()` is `True` exactly if `topological_sort` raises, exactly if some node is connected to
itself, and exactly if `critical_path` raises `AttributeError`. -/
theorem C80_cycle_answers_agree {g : Graph α V O} (hg : g.Built) {srt : List α → List α} (hs : ∀ l, (srt l).Perm l) (num : O → Option Rat) :
    ∃ r out e, g.hasCycles srt = some (.ok r) ∧ g.topologicalSort srt = some (out, e) ∧
      (r = true ↔ e ≠ none) ∧ (r = true ↔ ∃ n, g.has n = true ∧ g.isConnected n n = some true) ∧
      (r = true ↔ g.criticalPath num srt = some (.error .attributeError)) := by
  obtain ⟨r, hr, hr'⟩ := C24_has_cycles hg hs
  obtain ⟨out, e, ho, _, _, _, he1, he2⟩ := C23_topological_sort hg hs
  obtain ⟨hc1, hc2, hc3⟩ := C26_errors hg hs num
  have key : r = true ↔ ¬ Acyclic g.Adj := by
    rw [hr']
    unfold Acyclic
    simp only [Classical.not_forall, Classical.not_not, reachPlus_iff_walk]
  refine ⟨r, out, e, hr, ho, ?_, ?_, ?_⟩
  · rw [key]
    constructor
    · intro h; rw [he2 h]; simp
    · intro h hA; exact h (he1 hA).1
  · rw [hr']
    constructor
    · rintro ⟨c, p, hp, hl⟩
      obtain ⟨b, hb, hb'⟩ := C12_is_connected hg c c
      refine ⟨c, ?_, by rw [hb, hb'.2 ⟨p, hp, hl⟩]⟩
      obtain ⟨n, h⟩ := reachPlus_iff_walk.2 ⟨p, hp, hl⟩
      obtain ⟨x, hx, _⟩ := h.head
      exact has_iff.2 (hg.inv.finite c x hx).1
    · rintro ⟨n, _, h⟩
      obtain ⟨b, hb, hb'⟩ := C12_is_connected hg n n
      rw [h] at hb; cases hb
      obtain ⟨p, hp⟩ := hb'.1 rfl
      exact ⟨n, p, hp⟩
  · rw [key]
    refine ⟨hc1, fun h hA => ?_⟩
    by_cases hx : ∃ x, g.has x = true ∧ (g.node x).bind num = none
    · rw [hc2 hA hx] at h; cases h
    · obtain ⟨r, h'⟩ := hc3 hA hx
      rw [h'] at h; cases h

/-- one graph with a cycle, one without -/
example : sampleG.Built ∧ ¬ Acyclic sampleG.Adj ∧ (run [E 1 2 1] : Graph Nat Nat Nat).Built ∧ Acyclic (run [E 1 2 1] : Graph Nat Nat Nat).Adj := by
  refine ⟨sampleG_built, fun h => h 1 ⟨2, .succ (b := 3) (.succ (b := 2) (.succ (b := 1) (.zero 1) (by decide)) (by decide)) (by decide)⟩, ⟨_, rfl⟩, ?_⟩
  have step : ∀ a b, (run [E 1 2 1] : Graph Nat Nat Nat).Adj a b → a < b := by
    intro a b h
    have hm := Inv.finite (Graph.Built.inv (⟨_, rfl⟩ : (run [E 1 2 1] : Graph Nat Nat Nat).Built)) a b h
    have key : ∀ a ∈ (run [E 1 2 1] : Graph Nat Nat Nat).nodeList, ∀ b ∈ (run [E 1 2 1] : Graph Nat Nat Nat).nodeList,
      (run [E 1 2 1] : Graph Nat Nat Nat).Adj a b → a < b := by decide
    exact key a hm.1 b hm.2 h
  intro a ⟨n, h⟩
  have : ∀ n a b, Steps (run [E 1 2 1] : Graph Nat Nat Nat).Adj n a b → a + n ≤ b := by
    intro n a b h
    induction h with
    | zero => simp
    | succ _ h2 ih => have := step _ _ h2; omega
  have := this _ _ _ h
  omega

/-! ### C81 -/

/-- **C81**. With non-negative values, `all_pairs_shortest_paths`, `shortest_path` and `shortest_path_bidirectional` give the same distances,
which satisfy the triangle inequality. -/
theorem C81_distances_agree {g : Graph α Rat O} (hg : g.Built) (hw : NonNeg g.edge) {srt : List (α × Rat) → List (α × Rat)}
    (hsrt : ∀ l, (srt l).Perm l) :
    (∀ a b, g.has a = true → g.has b = true → ∃ d p q row, g.shortestPath a b = some (.ok (d, p)) ∧
      g.shortestPathBi srt a b [] = some (.ok (d, q)) ∧ g.allPairs.get? a = some row ∧ row.get? b = some d) ∧
    (∀ a b c d1 d2 d3 p1 p2 p3, g.has b = true → g.shortestPath a b = some (.ok (d1, p1)) → g.shortestPath b c = some (.ok (d2, p2)) →
      g.shortestPath a c = some (.ok (d3, p3)) → d3.le (d1.add d2)) := by
  have hsp : ∀ a b, g.has a = true → g.has b = true → ∃ d p, g.shortestPath a b = some (.ok (d, p)) ∧ IsDist g.edge a b d := by
    intro a b ha hb
    obtain ⟨d, p, h1, _, h3, h4⟩ := (C28_shortest_path hg hw a b []).1 ⟨ha, hb⟩
    refine ⟨d, p, h1, ?_⟩
    have hav : ∀ p' c', AvoidWalk g.edge [] a b p' c' ↔ WalkOf g.edge a b p' c' := by intro p' c'; unfold AvoidWalk; simp
    simp only [hav] at h3 h4
    by_cases h : ∃ q c, WalkOf g.edge a b q c
    · obtain ⟨c, rfl, h5, h6⟩ := h3 h
      exact ⟨⟨p, h5⟩, h6⟩
    · obtain ⟨rfl, _⟩ := h4 h; exact h
  have hnn : NoNegCycle g.edge := fun a p c h => walkCost_nonneg hw h.2.2
  refine ⟨fun a b ha hb => ?_, ?_⟩
  · obtain ⟨d, p, h1, h2⟩ := hsp a b ha hb
    obtain ⟨row, hr, _, h3⟩ := (C33_all_pairs hg hnn).2 a (has_iff.1 ha)
    obtain ⟨d', h4, h5⟩ := h3 b (has_iff.1 hb)
    cases h5.unique h2
    obtain ⟨d'', p', q', h6, h7, _⟩ := (C29_bidirectional_partial hg hw a b [] (by simp) (by simp) hsrt).1 ⟨ha, hb⟩
    rw [h1] at h7; cases h7
    exact ⟨d, p, p', row, h1, h6, hr, h4⟩
  · intro a b c d1 d2 d3 p1 p2 p3 hb h1 h2 h3
    have hh : ∀ x y d p, g.shortestPath x y = some (.ok (d, p)) → g.has x = true ∧ g.has y = true := by
      intro x y d p h
      refine Classical.byContradiction fun hn => ?_
      rw [(C28_shortest_path hg hw x y []).2 hn] at h; cases h
    have hd : ∀ x y d p, g.shortestPath x y = some (.ok (d, p)) → IsDist g.edge x y d := by
      intro x y d p h
      obtain ⟨d', p', h', h''⟩ := hsp x y (hh _ _ _ _ h).1 (hh _ _ _ _ h).2
      rw [h] at h'; cases h'; exact h''
    have i1 := hd _ _ _ _ h1
    have i2 := hd _ _ _ _ h2
    have i3 := hd _ _ _ _ h3
    cases d1 with
    | inf => show Ext.le d3 .inf; cases d3 <;> trivial
    | fin x => cases d2 with
      | inf => show Ext.le d3 .inf; cases d3 <;> trivial
      | fin y =>
        obtain ⟨⟨q1, w1⟩, _⟩ := i1
        obtain ⟨⟨q2, w2⟩, _⟩ := i2
        match q2, w2 with
        | [], w2 => exact absurd rfl w2.ne_nil
        | z :: q2, w2 =>
          have : z = b := by have := w2.1; simpa using this
          subst this
          have := w1.append w2
          cases d3 with
          | inf => exact absurd ⟨_, _, this⟩ i3
          | fin z => exact i3.2 _ _ this

example : spG.Built ∧ NonNeg spG.edge ∧ spG.has 1 = true ∧ spG.has 3 = true ∧ spG.has 4 = true :=
  ⟨⟨_, rfl⟩, nonneg_of_edgeList ⟨_, rfl⟩ (by decide +kernel), by decide, by decide, by decide⟩

/-! ### C82 -/

/-- **C82**. Adding nodes and edges never makes a distance longer; graphs with the same edges have the same distances. -/
theorem C82_more_edges_never_longer {g g' : Graph α Rat O} (hg : g.Built) (hg' : g'.Built) (hw : NonNeg g'.edge)
    (hsub : ∀ a b v, g.edge a b = some v → g'.edge a b = some v) {a b : α} {d d' : Ext} {p p' : List α}
    (h : g.shortestPath a b = some (.ok (d, p))) (h' : g'.shortestPath a b = some (.ok (d', p'))) :
    d'.le d ∧ ((∀ x y, g.edge x y = g'.edge x y) → d' = d) := by
  have hw0 : NonNeg g.edge := fun x y c hc => hw x y c (hsub x y c hc)
  have hsp : ∀ (k : Graph α Rat O), k.Built → NonNeg k.edge → ∀ d p, k.shortestPath a b = some (.ok (d, p)) → IsDist k.edge a b d := by
    intro k hk hkw d p hkp
    have hh : k.has a = true ∧ k.has b = true := by
      refine Classical.byContradiction fun hn => ?_
      rw [(C28_shortest_path hk hkw a b []).2 hn] at hkp; cases hkp
    obtain ⟨d1, p1, h1, _, h3, h4⟩ := (C28_shortest_path hk hkw a b []).1 hh
    rw [hkp] at h1; cases h1
    have hav : ∀ p' c', AvoidWalk k.edge [] a b p' c' ↔ WalkOf k.edge a b p' c' := by intro p' c'; unfold AvoidWalk; simp
    simp only [hav] at h3 h4
    by_cases h : ∃ q c, WalkOf k.edge a b q c
    · obtain ⟨c, rfl, h5, h6⟩ := h3 h
      exact ⟨⟨p, h5⟩, h6⟩
    · obtain ⟨rfl, _⟩ := h4 h; exact h
  have i := hsp g hg hw0 d p h
  have i' := hsp g' hg' hw d' p' h'
  have mono : ∀ q c, walkCost g.edge q = some c → walkCost g'.edge q = some c := by
    intro q
    induction q with
    | nil => intro c h; exact h
    | cons x q ih =>
      intro c h
      cases q with
      | nil => exact h
      | cons y q =>
        simp only [walkCost] at h ⊢
        cases h1 : g.edge x y with
        | none => rw [h1] at h; simp at h
        | some v =>
          cases h2 : walkCost g.edge (y :: q) with
          | none => rw [h1, h2] at h; simp at h
          | some u => rw [h1, h2] at h; rw [hsub x y v h1, ih u h2]; exact h
  refine ⟨?_, fun he => ?_⟩
  · cases d with
    | inf => cases d' <;> trivial
    | fin c =>
      obtain ⟨⟨q, hq⟩, _⟩ := i
      have hq' : WalkOf g'.edge a b q c := ⟨hq.1, hq.2.1, mono q c hq.2.2⟩
      cases d' with
      | inf => exact absurd ⟨_, _, hq'⟩ i'
      | fin c' => exact i'.2 _ _ hq'
  · have : g.edge = g'.edge := by funext x y; exact he x y
    rw [← this] at i'
    exact i'.unique i

example : let g : Graph Nat Rat Nat := run [W 1 2 3, W 2 3 4]; let g' : Graph Nat Rat Nat := run [W 1 2 3, W 2 3 4, W 1 3 5]
    g.Built ∧ g'.Built ∧ NonNeg g'.edge ∧ (∀ e ∈ g.edgeList, g'.edge e.1 e.2.1 = some e.2.2) ∧ g.has 1 = true ∧ g.has 3 = true :=
  ⟨⟨_, rfl⟩, ⟨_, rfl⟩, nonneg_of_edgeList ⟨_, rfl⟩ (by decide +kernel), by decide +kernel, by decide, by decide⟩

/-! ### C83 -/

/-- **C83**. On graphs whose edges run both ways with the same value, distances are symmetric, and two different nodes are in the same component
exactly if they are connected. -/
theorem C83_undirected {g : Graph α Rat O} (hg : g.Built) (hw : NonNeg g.edge) (hsym : ∀ a b, g.edge a b = g.edge b a) :
    (∀ a b d p d' p', g.shortestPath a b = some (.ok (d, p)) → g.shortestPath b a = some (.ok (d', p')) → d = d') ∧
    (∀ pop : Nat → List α → α, (∀ t l, l ≠ [] → pop t l ∈ l) → ∃ r, g.components pop = some r ∧
      ∀ s ∈ r, ∀ x ∈ s, ∀ y, x ≠ y → (y ∈ s ↔ g.isConnected x y = some true)) := by
  have hrev : ∀ q a b c, WalkOf g.edge a b q c → ∃ q', WalkOf g.edge b a q' c := by
    intro q
    induction q with
    | nil => intro a b c h; exact absurd rfl h.ne_nil
    | cons x q ih =>
      intro a b c h
      rcases h.inv with ⟨h1, rfl, rfl⟩ | ⟨z, q', c1, c2, h1, h2, h3, rfl⟩
      · exact ⟨_, WalkOf.single _⟩
      · cases h1
        obtain ⟨q'', h4⟩ := ih z b c2 h3
        have h5 : WalkOf g.edge z x (z :: [x]) (c1 + 0) := WalkOf.cons (hsym x z ▸ h2) (WalkOf.single x)
        have := h4.append h5
        rw [Rat.add_zero, Rat.add_comm] at this
        exact ⟨_, this⟩
  have hsp : ∀ a b d p, g.shortestPath a b = some (.ok (d, p)) → IsDist g.edge a b d := by
    intro a b d p hkp
    have hh : g.has a = true ∧ g.has b = true := by
      refine Classical.byContradiction fun hn => ?_
      rw [(C28_shortest_path hg hw a b []).2 hn] at hkp; cases hkp
    obtain ⟨d1, p1, h1, _, h3, h4⟩ := (C28_shortest_path hg hw a b []).1 hh
    rw [hkp] at h1; cases h1
    have hav : ∀ p' c', AvoidWalk g.edge [] a b p' c' ↔ WalkOf g.edge a b p' c' := by intro p' c'; unfold AvoidWalk; simp
    simp only [hav] at h3 h4
    by_cases h : ∃ q c, WalkOf g.edge a b q c
    · obtain ⟨c, rfl, h5, h6⟩ := h3 h
      exact ⟨⟨p, h5⟩, h6⟩
    · obtain ⟨rfl, _⟩ := h4 h; exact h
  refine ⟨fun a b d p d' p' h h' => ?_, fun pop hpop => ?_⟩
  · have i := hsp a b d p h
    have i' := hsp b a d' p' h'
    refine IsDist.unique i ?_
    cases d' with
    | inf => rintro ⟨q, c, hq⟩; obtain ⟨q', hq'⟩ := hrev q a b c hq; exact i' ⟨_, _, hq'⟩
    | fin c =>
      obtain ⟨⟨q, hq⟩, h2⟩ := i'
      exact ⟨hrev q b a c hq, fun q c hq => by obtain ⟨q', hq'⟩ := hrev q a b c hq; exact h2 _ _ hq'⟩
  · obtain ⟨r, hr, _, _, _, h4⟩ := C19_components hg pop hpop
    refine ⟨r, hr, fun s hs x hx y hne => ?_⟩
    rw [h4 s hs x hx y]
    have hund : Undirected g.Adj = g.Adj := by
      funext a b
      refine propext ⟨fun h => ?_, .inl⟩
      rcases h with h | h
      · exact h
      · unfold Adj at *; rw [hsym]; exact h
    rw [hund]
    obtain ⟨c, hc, hc'⟩ := C12_is_connected hg x y
    rw [hc]
    constructor
    · rintro ⟨n, hn⟩
      cases n with
      | zero => cases hn; exact absurd rfl hne
      | succ n => rw [hc'.2 (reachPlus_iff_walk.1 ⟨n, hn⟩)]
    · intro h
      have h : c = true := by simpa using h
      exact (reachPlus_iff_walk.2 (hc'.1 h)).reach

example : let g : Graph Nat Rat Nat := run [W 1 2 3, W 2 1 3, W 2 3 4, W 3 2 4, W 5 5 1]
    g.Built ∧ NonNeg g.edge ∧ (∀ a ∈ g.nodeList, ∀ b ∈ g.nodeList, g.edge a b = g.edge b a) ∧ g.has 1 = true ∧ g.has 3 = true :=
  ⟨⟨_, rfl⟩, nonneg_of_edgeList ⟨_, rfl⟩ (by decide +kernel), by decide +kernel, by decide, by decide⟩

end GT

import Verif.Props.Dag
import Verif.Sp.Cache
import Verif.Sp.Center
import Verif.Sp.DistMap
import Verif.Sp.Loop
/-
Property theorems C28–C37: shortest paths and distances.

The values of the edges are rational numbers (exact arithmetic); `Ext` is a number or `inf`.
`WalkOf w a b p c`: the node list `p` is a walk from `a` to `b` of total value `c` (Spec/Walks).
`AvoidWalk w av a b p c`: moreover no node of `p` is in `av`.
`SpResult w av a b (d, p)`: either `p` is such a walk, of value `d`, and no such walk is shorter, or there is
no such walk and `(d, p) = (inf, [])`.
-/
namespace GT
open Graph
variable {α V O : Type} [DecidableEq α]

/-- the operation that adds one edge with a rational value, used in the examples -/
def W (a b : Nat) (v : Rat) : Op Nat Rat Nat := .addEdge a b (.scalar v) false

/-- two ways from 1 to 4: `1 → 2 → 4` (value 5) and `1 → 3 → 4` (value 4), a way back, an isolated pair -/
def spG : Graph Nat Rat Nat := run [W 1 2 1, W 2 4 4, W 1 3 2, W 3 4 2, W 4 5 (1/2), W 5 1 1, W 8 9 1]

theorem spG_built : spG.Built := ⟨_, rfl⟩

theorem nonneg_of_edgeList {g : Graph α Rat O} (hg : g.Built)
    (h : (g.edgeList.all (fun e => decide (0 ≤ e.2.2))) = true) : NonNeg g.edge := by
  intro a b c hc
  have := List.all_eq_true.1 h (a, b, c) (hg.inv.mem_edgeList.2 hc)
  simpa using this

theorem noNegCycle_of_nonneg {w : α → α → Option Rat} (h : NonNeg w) : NoNegCycle w :=
  fun _ _ _ hp => walkCost_nonneg h hp.2.2

theorem spG_nonneg : NonNeg spG.edge := nonneg_of_edgeList spG_built (by decide +kernel)

/-- evaluation of `shortest_path` -/
theorem sp_eval {g : Graph α Rat O} {s f : α} {av : List α} {r : Ext × List α} (n : Nat)
    (hs : g.has s = true) (hf : g.has f = true)
    (h : runFuel (dijStep g.outNbr f) n ⟨[⟨0, 0, s, []⟩], Dict.empty.set s 0, av, 1⟩ = some r) :
    g.shortestPath s f av = some (.ok r) := by
  unfold shortestPath
  simp only [hs, hf, Bool.not_true, Bool.false_eq_true, if_false]
  rw [pyWhile_of_runFuel h]

/-- evaluation of `shortest_path_bidirectional` -/
theorem bi_eval {g : Graph α Rat O} {s f : α} {av : List α} {srt : List (α × Rat) → List (α × Rat)}
    {r : Py (Ext × List α)} (n : Nat) (hs : g.has s = true) (hf : g.has f = true)
    (h : runFuel (biStep g.outNbr g.inNbr srt av) n (Side.init s, Side.init f) = some r) :
    g.shortestPathBi srt s f av = some r := by
  unfold shortestPathBi
  simp only [hs, hf, Bool.not_true, Bool.false_eq_true, if_false]
  exact pyWhile_of_runFuel h

/-! ### C28 -/

/-- **C28**. With non-negative edge values `shortest_path(start, end, avoids)` always returns; the result is a
simple walk from `start` to `end` through nodes outside `avoids` together with its total value, no such
walk is shorter, and `(inf, [])` is returned exactly if there is no such walk.  It raises `ValueError`
exactly if `start` or `end` is not a node. -/
theorem C28_shortest_path {g : Graph α Rat O} (hg : g.Built) (hw : NonNeg g.edge) (start fin : α) (avoids : List α) :
    (g.has start = true ∧ g.has fin = true →
      ∃ d p, g.shortestPath start fin avoids = some (.ok (d, p)) ∧ p.Nodup ∧
        ((∃ q c, AvoidWalk g.edge avoids start fin q c) →
          ∃ c, d = .fin c ∧ AvoidWalk g.edge avoids start fin p c ∧
            ∀ q c', AvoidWalk g.edge avoids start fin q c' → c ≤ c') ∧
        ((¬ ∃ q c, AvoidWalk g.edge avoids start fin q c) → d = .inf ∧ p = [])) ∧
    (¬ (g.has start = true ∧ g.has fin = true) →
      g.shortestPath start fin avoids = some (.error .valueError)) := by
  refine ⟨fun ⟨hs, hf⟩ => ?_, shortestPath_error avoids⟩
  obtain ⟨⟨d, p⟩, h1, h2⟩ := shortestPath_spec hg.inv hw (start := start) (fin := fin) avoids hs hf
  refine ⟨d, p, h1, shortestPath_nodup h1, fun hex => ?_, fun hno => ?_⟩
  · rcases h2 with ⟨c, h3, h4, h5⟩ | ⟨_, h4⟩
    · exact ⟨c, h3, h4, h5⟩
    · exact absurd hex h4
  · rcases h2 with ⟨c, h3, h4, h5⟩ | ⟨h3, _⟩
    · exact absurd ⟨_, _, h4⟩ hno
    · cases h3; exact ⟨rfl, rfl⟩

/-- a shortest path, the detour when it is avoided, no path -/
example : spG.Built ∧ NonNeg spG.edge ∧
    spG.shortestPath 1 4 = some (.ok (.fin 4, [1, 3, 4])) ∧
    spG.shortestPath 1 4 [3] = some (.ok (.fin 5, [1, 2, 4])) ∧
    spG.shortestPath 1 4 [2, 3] = some (.ok (.inf, [])) ∧
    spG.shortestPath 1 9 = some (.ok (.inf, [])) :=
  ⟨spG_built, spG_nonneg, sp_eval 20 (by decide) (by decide) (by decide +kernel),
    sp_eval 20 (by decide) (by decide) (by decide +kernel), sp_eval 20 (by decide) (by decide) (by decide +kernel),
    sp_eval 20 (by decide) (by decide) (by decide +kernel)⟩

/-! ### C29 -/

/-- **C29**, for `avoids` that contain neither `start` nor `end`: the bidirectional search always returns, never
raises (except `ValueError` for missing nodes), and gives the same distance as `shortest_path` with a
path of that length.  `srt` is the order in which the edges of a node are visited.
The full claim ranges over all `avoids`; `C29_counterexample` shows that it fails for the others. -/
theorem C29_bidirectional_partial {g : Graph α Rat O} (hg : g.Built) (hw : NonNeg g.edge) (start fin : α)
    (avoids : List α) (hs : start ∉ avoids) (hf : fin ∉ avoids)
    {srt : List (α × Rat) → List (α × Rat)} (hsrt : ∀ l, (srt l).Perm l) :
    (g.has start = true ∧ g.has fin = true →
      ∃ d p q, g.shortestPathBi srt start fin avoids = some (.ok (d, p)) ∧
        g.shortestPath start fin avoids = some (.ok (d, q)) ∧
        SpResult g.edge avoids start fin (d, p)) ∧
    (¬ (g.has start = true ∧ g.has fin = true) →
      g.shortestPathBi srt start fin avoids = some (.error .valueError)) := by
  refine ⟨fun ⟨h1, h2⟩ => ?_, shortestPathBi_error avoids srt⟩
  obtain ⟨⟨d, p⟩, h3, h4⟩ := shortestPathBi_spec hg.inv hw (start := start) (fin := fin) avoids hsrt h1 h2
  obtain ⟨⟨e, q⟩, h5, h6⟩ := shortestPath_spec hg.inv hw (start := start) (fin := fin) avoids h1 h2
  have h7 := h4.spResult hs hf
  have h8 : e = d := h6.dist_unique h7
  subst h8
  exact ⟨e, p, q, h3, h5, h7⟩

/-- **C29** for all `avoids`: the search always returns; its result is never longer than a path that avoids
`avoids`, and it is `(inf, [])` or a walk whose nodes other than `start` and `end` are outside `avoids`,
together with its length. -/
theorem C29_bidirectional_any_avoids {g : Graph α Rat O} (hg : g.Built) (hw : NonNeg g.edge) (start fin : α)
    (avoids : List α) {srt : List (α × Rat) → List (α × Rat)} (hsrt : ∀ l, (srt l).Perm l)
    (h1 : g.has start = true) (h2 : g.has fin = true) :
    ∃ d p, g.shortestPathBi srt start fin avoids = some (.ok (d, p)) ∧
      (∀ q c, AvoidWalk g.edge avoids start fin q c → d.le (.fin c)) ∧
      ((d = .inf ∧ p = []) ∨
        ∃ c, d = .fin c ∧ WalkOf g.edge start fin p c ∧ ∀ x ∈ p, x ∉ avoids ∨ x = start ∨ x = fin) := by
  obtain ⟨⟨d, p⟩, h3, h4, h5⟩ := shortestPathBi_spec hg.inv hw (start := start) (fin := fin) avoids hsrt h1 h2
  refine ⟨d, p, h3, fun q c hq => ?_, ?_⟩
  · have := h4 q c hq
    cases d with
    | inf => exact absurd this id
    | fin x => exact this
  · rcases h5 with h5 | h5
    · cases h5; exact .inl ⟨rfl, rfl⟩
    · exact .inr h5

/-- **C29** fails when `start` is to be avoided: `shortest_path` finds nothing, the bidirectional search
returns a path. -/
theorem C29_counterexample :
    spG.Built ∧ NonNeg spG.edge ∧ spG.shortestPath 1 4 [1] = some (.ok (.inf, [])) ∧
    spG.shortestPathBi id 1 4 [1] = some (.ok (.fin 4, [1, 3, 4])) :=
  ⟨spG_built, spG_nonneg, sp_eval 20 (by decide) (by decide) (by decide +kernel),
    bi_eval 20 (by decide) (by decide) (by decide +kernel)⟩

example : spG.Built ∧ NonNeg spG.edge ∧ (∀ l : List (Nat × Rat), (id l).Perm l) ∧
    spG.shortestPathBi id 1 4 = some (.ok (.fin 4, [1, 3, 4])) ∧
    spG.shortestPathBi id 1 4 [3] = some (.ok (.fin 5, [1, 2, 4])) ∧
    spG.shortestPathBi id 1 9 = some (.ok (.inf, [])) :=
  ⟨spG_built, spG_nonneg, fun _ => .rfl, bi_eval 20 (by decide) (by decide) (by decide +kernel),
    bi_eval 20 (by decide) (by decide) (by decide +kernel), bi_eval 20 (by decide) (by decide) (by decide +kernel)⟩

/-! ### C30 -/

/-- **C30**, for histories of queries without changes of the graph and a hash that separates the sets of
avoided nodes in the history: every memoised query (starting from the empty cache, whatever was asked
before) raises `ValueError` exactly if a node is missing, and otherwise returns the distance that
`shortest_path` returns on the graph, with a path of that length.
(`avoids=None` is `none`; `start`, `end` not in `avoids`, as in C29.)
The full claim also ranges over histories with changes and over the hash of Python's frozensets;
`C30_stale_counterexample` and `C30_collision_counterexample` show that it fails there. -/
theorem C30_memoize_partial {g : Graph α Rat O} (hg : g.Built) (hw : NonNeg g.edge)
    {srt : List (α × Rat) → List (α × Rat)} (hsrt : ∀ l, (srt l).Perm l) (hash : List α → Int)
    (qs : List (α × α × Option (List α)))
    (hhash : ∀ a b, (∃ q ∈ qs, q.2.2 = some a) → (∃ q ∈ qs, q.2.2 = some b) → hash a = hash b → ∀ x, x ∈ a ↔ x ∈ b) :
    ∃ rs, memoRun srt hash g SpCache.empty (queries qs) = some rs ∧ rs.length = qs.length ∧
      ∀ (i : Nat) s f av r, qs[i]? = some (s, f, av) → rs[i]? = some r →
        (¬ (g.has s = true ∧ g.has f = true) → r = .error .valueError) ∧
        (g.has s = true ∧ g.has f = true → s ∉ av.getD [] → f ∉ av.getD [] →
          ∃ d p q, r = .ok (d, p) ∧ g.shortestPath s f (av.getD []) = some (.ok (d, q)) ∧
            SpResult g.edge (av.getD []) s f (d, p)) := by
  obtain ⟨rs, h1, h2, h3⟩ := memoRun_spec hg.inv hw hsrt hhash qs (fun q hq av hav => ⟨q, hq, hav⟩) SpCache.empty
    (cacheOk_empty hash _ g)
  refine ⟨rs, h1, h2, fun i s f av r hi hr => ⟨fun hne => (h3 i _ r hi hr).1 hne, fun hh hs hf => ?_⟩⟩
  obtain ⟨⟨d, p⟩, h4, h5⟩ := (h3 i _ r hi hr).2 hh.1 hh.2
  have h6 := h5.spResult hs hf
  obtain ⟨⟨e, q⟩, h7, h8⟩ := shortestPath_spec hg.inv hw (start := s) (fin := f) (av.getD []) hh.1 hh.2
  have h9 : e = d := h8.dist_unique h6
  subst h9
  exact ⟨e, p, q, h4, h7, h6⟩

/-- **C30** fails if the graph changes: the second query is answered from the cache although a shorter path has
been added. -/
theorem C30_stale_counterexample :
    ∃ g : Graph Nat Rat Nat, g.Built ∧ NonNeg g.edge ∧ NonNeg (run [W 1 2 9, W 1 3 1, W 3 2 1] : Graph Nat Rat Nat).edge ∧
      memoRun id (fun _ => 0) g SpCache.empty [.query 1 2 none, .change (W 1 3 1), .change (W 3 2 1), .query 1 2 none] =
        some [.ok (.fin 9, [1, 2]), .ok (.fin 9, [1, 2])] ∧
      ((g.stepE (W 1 3 1)).1.stepE (W 3 2 1)).1.shortestPath 1 2 = some (.ok (.fin 2, [1, 3, 2])) := by
  refine ⟨run [W 1 2 9], ⟨_, rfl⟩, nonneg_of_edgeList ⟨_, rfl⟩ (by decide +kernel),
    nonneg_of_edgeList ⟨_, rfl⟩ (by decide +kernel), ?_, sp_eval 20 (by decide) (by decide) (by decide +kernel)⟩
  have h1 : (run [W 1 2 9] : Graph Nat Rat Nat).shortestPathBi id 1 2 = some (.ok (.fin 9, [1, 2])) :=
    bi_eval 20 (by decide) (by decide) (by decide +kernel)
  have h2 : (run [W 1 2 9] : Graph Nat Rat Nat).memoSP id (fun _ => 0) SpCache.empty 1 2 none =
      some (.ok ((.fin 9, [1, 2]), ⟨Dict.empty.set (1, 2) (.fin 9, [1, 2]), Dict.empty⟩)) := by
    unfold memoSP
    rw [if_neg (by decide), if_neg (by decide)]
    dsimp only
    unfold memoPlain
    rw [show (SpCache.empty : SpCache Nat).cache.get? (1, 2) = none from rfl]
    dsimp only
    rw [h1]
    dsimp only
    rw [show (run [W 1 2 9] : Graph Nat Rat Nat).updateCache [1, 2] (SpCache.empty : SpCache Nat).cache =
      some (.ok (Dict.empty.set (1, 2) (.fin 9, [1, 2]))) by decide +kernel]
    rfl
  simp only [memoRun, h2]
  rfl

/-- the operation that adds one edge between integers -/
def WI (a b : Int) (v : Rat) : Op Int Rat Nat := .addEdge a b (.scalar v) false

/-- **C30** fails if the hash does not separate the sets of avoided nodes.  In Python `hash(frozenset({-1}))` equals
`hash(frozenset({-2}))`, since `hash(-1) = hash(-2) = -2`: the second query is answered with a path through
the node that is to be avoided. -/
theorem C30_collision_counterexample (hash : List Int → Int) (hcol : hash [-1] = hash [-2]) :
    ∃ g : Graph Int Rat Nat, g.Built ∧ NonNeg g.edge ∧
      memoRun id hash g SpCache.empty [.query 1 2 (some [-1]), .query 1 2 (some [-2])] =
        some [.ok (.fin 4, [1, -2, 2]), .ok (.fin 4, [1, -2, 2])] ∧
      g.shortestPath 1 2 [-2] = some (.ok (.fin 2, [1, -1, 2])) := by
  refine ⟨run [WI 1 (-1) 1, WI (-1) 2 1, WI 1 (-2) 2, WI (-2) 2 2], ⟨_, rfl⟩, nonneg_of_edgeList ⟨_, rfl⟩ (by decide +kernel), ?_,
    sp_eval 20 (by decide) (by decide) (by decide +kernel)⟩
  have h1 : (run [WI 1 (-1) 1, WI (-1) 2 1, WI 1 (-2) 2, WI (-2) 2 2] : Graph Int Rat Nat).shortestPathBi id 1 2 [-1] =
      some (.ok (.fin 4, [1, -2, 2])) := bi_eval 20 (by decide) (by decide) (by decide +kernel)
  generalize hg : (run [WI 1 (-1) 1, WI (-1) 2 1, WI 1 (-2) 2, WI (-2) 2 2] : Graph Int Rat Nat) = g at h1
  have e1 : g.has 1 = true := by rw [← hg]; decide
  have e2 : g.has 2 = true := by rw [← hg]; decide
  have h2 : g.memoSP id hash SpCache.empty 1 2 (some [-1]) =
      some (.ok ((.fin 4, [1, -2, 2]), ⟨Dict.empty, Dict.empty.set (1, 2, hash [-2]) (.fin 4, [1, -2, 2])⟩)) := by
    unfold memoSP
    simp only [e1, e2, Bool.not_true, Bool.false_eq_true, if_false]
    unfold memoAvoid
    rw [show (SpCache.empty : SpCache Int).repeated.get? (1, 2, hash [-1]) = none from rfl]
    dsimp only
    rw [h1, ← hcol]
    rfl
  have h3 : g.memoSP id hash ⟨Dict.empty, Dict.empty.set (1, 2, hash [-2]) (.fin 4, [1, -2, 2])⟩ 1 2 (some [-2]) =
      some (.ok ((.fin 4, [1, -2, 2]), ⟨Dict.empty, Dict.empty.set (1, 2, hash [-2]) (.fin 4, [1, -2, 2])⟩)) := by
    unfold memoSP
    simp only [e1, e2, Bool.not_true, Bool.false_eq_true, if_false]
    unfold memoAvoid
    rw [Dict.get?_set, if_pos rfl]
  simp only [memoRun, h2, h3]
  rfl

/-- the hypotheses of `C30_memoize_partial` are met by a history with repeated queries and an injective hash -/
example : spG.Built ∧ NonNeg spG.edge ∧
    (∀ a b : List Nat, (∃ q ∈ [(1, 4, none), (1, 4, some [3]), (1, 4, some [2]), (3, 4, none), (1, 4, some [3])], q.2.2 = some a) →
      (∃ q ∈ [(1, 4, none), (1, 4, some [3]), (1, 4, some [2]), (3, 4, none), ((1 : Nat), (4 : Nat), some [3])], q.2.2 = some b) →
      (a.foldl (· + ·) 0 : Nat) = (b.foldl (· + ·) 0 : Nat) → ∀ x, x ∈ a ↔ x ∈ b) := by
  refine ⟨spG_built, spG_nonneg, ?_⟩
  intro a b ha hb
  simp at ha hb
  rcases ha with rfl | rfl | rfl <;> rcases hb with rfl | rfl | rfl <;> simp

/-! ### C31 -/

/-- **C31**. `distance_from_path(p)` returns the sum over the consecutive pairs of `p` of the value of the edge if
there is one and of the shortest distance otherwise; `inf` if some leg has no path. -/
theorem C31_distance_from_path {g : Graph α Rat O} (hg : g.Built) (hw : NonNeg g.edge) (p : List α)
    (hp : ∀ x ∈ p, g.has x = true) : ∃ r, g.distanceFromPath p = some (.ok r) ∧ SumLegs g.edge p r :=
  distanceFromPath_spec hg.inv hw hp

/-- on a walk it is the total value of the walk -/
theorem C31_distance_of_walk {g : Graph α Rat O} (hg : g.Built) (hw : NonNeg g.edge) {a b : α} {p : List α} {c : Rat}
    (hp : ∀ x ∈ p, g.has x = true) (hwalk : WalkOf g.edge a b p c) : g.distanceFromPath p = some (.ok (.fin c)) := by
  obtain ⟨r, h1, h2⟩ := distanceFromPath_spec hg.inv hw hp
  rw [h1, h2.unique (SumLegs.of_walkCost hwalk.2.2)]

example : spG.Built ∧ NonNeg spG.edge ∧ (∀ x ∈ [1, 3, 4], spG.has x = true) ∧ WalkOf spG.edge 1 4 [1, 3, 4] 4 ∧
    spG.distanceFromPath [1, 3, 4] = some (.ok (.fin 4)) ∧
    (∀ x ∈ [1, 4, 5], spG.has x = true) ∧ spG.distanceFromPath [1, 4, 5] = some (.ok (.fin (9/2))) := by
  refine ⟨spG_built, spG_nonneg, by decide, ⟨rfl, rfl, by decide +kernel⟩, by decide +kernel, by decide, ?_⟩
  have h : spG.shortestPath 1 4 = some (.ok (.fin 4, [1, 3, 4])) := sp_eval 20 (by decide) (by decide) (by decide +kernel)
  unfold distanceFromPath dfpLoop
  rw [show truthy (spG.edge 1 4) = none by decide +kernel]
  dsimp only
  rw [show truthy ((Dict.empty : Dict (Nat × Nat) Rat).get? (1, 4)) = none from rfl]
  dsimp only
  rw [h]
  decide +kernel

/-! ### C32 -/

/-- **C32**. `adjacency_matrix()` has exactly the nodes as row and column keys; the entry is 0 on the diagonal, the
value of the edge if there is one and `inf` otherwise. -/
theorem C32_adjacency_matrix {g : Graph α Rat O} (hg : g.Built) :
    g.adjMatrix.keys = g.nodeList ∧
    ∀ a, a ∈ g.nodeList → ∃ row, g.adjMatrix.get? a = some row ∧ row.keys = g.nodeList ∧
      ∀ b, b ∈ g.nodeList →
        (a = b → row.get? b = some (.fin 0)) ∧
        (a ≠ b → (∀ c, g.edge a b = some c → row.get? b = some (.fin c)) ∧ (g.edge a b = none → row.get? b = some .inf)) := by
  have hV : g.nodeList.Nodup := hg.inv.nodesWF
  refine ⟨adjMatrix_keys hg.inv, fun a ha => ?_⟩
  unfold adjMatrix
  refine ⟨_, by rw [Dict.comp_get?, if_pos ha], Dict.comp_keys hV _, fun b hb => ⟨fun hab => ?_, fun hab => ⟨fun c hc => ?_, fun hc => ?_⟩⟩⟩
  · rw [Dict.comp_get?, if_pos hb, if_pos hab]
  · rw [Dict.comp_get?, if_pos hb, if_neg hab]; unfold edgeOrInf; rw [hc]
  · rw [Dict.comp_get?, if_pos hb, if_neg hab]; unfold edgeOrInf; rw [hc]

/-- the diagonal is 0 even with a self-loop -/
example : (run [W 1 1 7, W 1 2 3] : Graph Nat Rat Nat).Built ∧
    at2 (run [W 1 1 7, W 1 2 3] : Graph Nat Rat Nat).adjMatrix 1 1 = .fin 0 ∧
    at2 (run [W 1 1 7, W 1 2 3] : Graph Nat Rat Nat).adjMatrix 1 2 = .fin 3 ∧
    at2 (run [W 1 1 7, W 1 2 3] : Graph Nat Rat Nat).adjMatrix 2 1 = .inf :=
  ⟨⟨_, rfl⟩, by decide +kernel, by decide +kernel, by decide +kernel⟩

/-! ### C33 -/

/-- **C33**. If no closed walk has a negative value, `all_pairs_shortest_paths()` has exactly the nodes as row
and column keys and the entry of `(a, b)` is the smallest total value of a walk from `a` to `b`, `inf` if
there is no walk. -/
theorem C33_all_pairs {g : Graph α Rat O} (hg : g.Built) (hc : NoNegCycle g.edge) :
    g.allPairs.keys = g.nodeList ∧
    ∀ a, a ∈ g.nodeList → ∃ row, g.allPairs.get? a = some row ∧ row.keys = g.nodeList ∧
      ∀ b, b ∈ g.nodeList → ∃ d, row.get? b = some d ∧ IsDist g.edge a b d := by
  obtain ⟨⟨F, hF⟩, h2⟩ := allPairs_spec hg.inv hc
  have hV : g.nodeList.Nodup := hg.inv.nodesWF
  refine ⟨by rw [hF]; exact Dict.comp_keys hV _, fun a ha => ⟨Dict.comp g.nodeList (F a), ?_, Dict.comp_keys hV _, fun b hb => ⟨F a b, ?_, ?_⟩⟩⟩
  · rw [hF, Dict.comp_get?, if_pos ha]
  · rw [Dict.comp_get?, if_pos hb]
  · have := h2 a b ha hb
    rw [hF, at2_comp ha hb] at this; exact this

/-- the diagonal is zero -/
theorem C33_diagonal {g : Graph α Rat O} (hg : g.Built) (hc : NoNegCycle g.edge) (a : α) (ha : a ∈ g.nodeList) :
    ∃ row, g.allPairs.get? a = some row ∧ row.get? a = some (.fin 0) := by
  obtain ⟨_, h⟩ := C33_all_pairs hg hc
  obtain ⟨row, h1, _, h2⟩ := h a ha
  obtain ⟨d, h3, h4⟩ := h2 a ha
  have h5 : IsDist g.edge a a (.fin 0) := ⟨⟨[a], WalkOf.single a⟩, fun p c hp => hc a p c hp⟩
  rw [h4.unique h5] at h3
  exact ⟨row, h1, h3⟩

/-- a graph with a negative edge and no negative cycle -/
def negG : Graph Nat Rat Nat := run [W 1 2 4, W 1 3 2, W 3 2 (-1), W 2 4 (-2)]

theorem negG_noNegCycle : NoNegCycle negG.edge := by
  -- all edges go up
  have hup : ∀ a b c, negG.edge a b = some c → a < b ∨ (a = 3 ∧ b = 2) := by
    intro a b c h
    have hg : negG.Built := ⟨_, rfl⟩
    have := hg.inv.mem_edgeList.2 h
    have h2 := List.all_eq_true.1 (show negG.edgeList.all (fun e => decide (e.1 < e.2.1 ∨ (e.1 = 3 ∧ e.2.1 = 2))) = true by decide +kernel) _ this
    simpa using h2
  let f : Nat → Nat := fun x => if x = 2 then 3 else if x = 3 then 2 else x
  have hf : ∀ a b c, negG.edge a b = some c → f a < f b := by
    intro a b c h
    have hg : negG.Built := ⟨_, rfl⟩
    have := hg.inv.mem_edgeList.2 h
    have h2 := List.all_eq_true.1 (show negG.edgeList.all (fun e => decide (f e.1 < f e.2.1)) = true by decide +kernel) _ this
    simpa using h2
  have hmono : ∀ (p : List Nat) a b c, WalkOf negG.edge a b p c → f a ≤ f b ∧ (f a = f b → c = 0) := by
    intro p
    induction p with
    | nil => intro a b c h; exact absurd rfl h.ne_nil
    | cons x p ih =>
      intro a b c h
      rcases h.inv with ⟨h1, h2, h3⟩ | ⟨y, q, c', d', h1, h2, h3, h4⟩
      · subst h2; exact ⟨Nat.le_refl _, fun _ => h3⟩
      · cases h1
        have h5 := hf _ _ _ h2
        have h6 := (ih _ _ _ h3).1
        exact ⟨by omega, fun h7 => by omega⟩
  intro a p c hp
  rw [(hmono p a a c hp).2 rfl]
  exact Rat.le_refl

example : negG.Built ∧ NoNegCycle negG.edge ∧ at2 negG.allPairs 1 2 = .fin 1 ∧ at2 negG.allPairs 1 4 = .fin (-1) ∧
    at2 negG.allPairs 4 1 = .inf := ⟨⟨_, rfl⟩, negG_noNegCycle, by decide +kernel, by decide +kernel, by decide +kernel⟩

/-! ### C34 -/

theorem at2_eq_dist {g : Graph α Rat O} (hg : g.Built) (hc : NoNegCycle g.edge) {D : α → α → Ext}
    (hD : ∀ a b, a ∈ g.nodeList → b ∈ g.nodeList → IsDist g.edge a b (D a b)) {a b : α} (ha : a ∈ g.nodeList)
    (hb : b ∈ g.nodeList) : at2 g.allPairs a b = D a b :=
  ((allPairs_spec hg.inv hc).2 a b ha hb).unique (hD a b ha hb)

theorem at2_map_eq_dist {g : Graph α Rat O} (hg : g.Built) (hc : NoNegCycle g.edge) {D : α → α → Ext}
    (hD : ∀ a b, a ∈ g.nodeList → b ∈ g.nodeList → IsDist g.edge a b (D a b)) {a : α} (ha : a ∈ g.nodeList) :
    g.nodeList.map (at2 g.allPairs a) = g.nodeList.map (D a) :=
  List.map_congr_left (fun b hb => at2_eq_dist hg hc hD ha hb)

/-- **C34**, `minmax`. Let `D a b` be the shortest distance from `a` to `b`.  On a non-empty graph without negative
cycles `minmax()` returns exactly the nodes whose largest distance to a node is smallest. -/
theorem C34_minmax {g : Graph α Rat O} (hg : g.Built) (hc : NoNegCycle g.edge) (hne : g.nodeList ≠ [])
    (D : α → α → Ext) (hD : ∀ a b, a ∈ g.nodeList → b ∈ g.nodeList → IsDist g.edge a b (D a b)) :
    ∃ r, g.minmax = .ok r ∧ r.Nodup ∧ ∀ n, n ∈ r ↔ n ∈ g.nodeList ∧
      ∃ e, IsMaxOf (g.nodeList.map (D n)) e ∧
        ∀ m ∈ g.nodeList, ∀ e', IsMaxOf (g.nodeList.map (D m)) e' → e.le e' := by
  obtain ⟨r, h1, h2, h3⟩ := minmax_spec hg.inv hc hne
  refine ⟨r, h1, h2, fun n => (h3 n).trans ⟨?_, ?_⟩⟩
  · rintro ⟨hn, e, h4, h5⟩
    rw [at2_map_eq_dist hg hc hD hn] at h4
    exact ⟨hn, e, h4, fun m hm e' he' => h5 m hm e' (by rw [at2_map_eq_dist hg hc hD hm]; exact he')⟩
  · rintro ⟨hn, e, h4, h5⟩
    rw [← at2_map_eq_dist hg hc hD hn] at h4
    exact ⟨hn, e, h4, fun m hm e' he' => h5 m hm e' (by rw [← at2_map_eq_dist hg hc hD hm]; exact he')⟩

/-- **C34**, `minsum`: exactly the nodes whose sum of distances to all nodes is smallest. -/
theorem C34_minsum {g : Graph α Rat O} (hg : g.Built) (hc : NoNegCycle g.edge) (hne : g.nodeList ≠ [])
    (D : α → α → Ext) (hD : ∀ a b, a ∈ g.nodeList → b ∈ g.nodeList → IsDist g.edge a b (D a b)) :
    ∃ r, g.minsum = .ok r ∧ r.Nodup ∧ ∀ n, n ∈ r ↔ n ∈ g.nodeList ∧
      ∀ m ∈ g.nodeList, (Ext.sum (g.nodeList.map (D n))).le (Ext.sum (g.nodeList.map (D m))) := by
  obtain ⟨r, h1, h2, h3⟩ := minsum_spec hg.inv hc hne
  refine ⟨r, h1, h2, fun n => (h3 n).trans ⟨?_, ?_⟩⟩
  · rintro ⟨hn, h5⟩
    refine ⟨hn, fun m hm => ?_⟩
    rw [← at2_map_eq_dist hg hc hD hn, ← at2_map_eq_dist hg hc hD hm]; exact h5 m hm
  · rintro ⟨hn, h5⟩
    refine ⟨hn, fun m hm => ?_⟩
    rw [at2_map_eq_dist hg hc hD hn, at2_map_eq_dist hg hc hD hm]; exact h5 m hm

/-- on the empty graph both raise `ValueError` -/
theorem C34_empty {g : Graph α Rat O} (hg : g.Built) (hne : g.nodeList = []) :
    g.minmax = .error .valueError ∧ g.minsum = .error .valueError := minmax_empty hg.inv hne

/-- a path `1 - 2 - 3` with edges in both directions: the middle is the centre -/
def lineG : Graph Nat Rat Nat := run [W 1 2 1, W 2 1 1, W 2 3 1, W 3 2 1]

theorem lineG_nonneg : NonNeg lineG.edge := nonneg_of_edgeList ⟨_, rfl⟩ (by decide +kernel)

example : lineG.Built ∧ NoNegCycle lineG.edge ∧ lineG.nodeList ≠ [] ∧
    (∃ D : Nat → Nat → Ext, ∀ a b, a ∈ lineG.nodeList → b ∈ lineG.nodeList → IsDist lineG.edge a b (D a b)) ∧
    lineG.minmax = .ok [2] ∧ lineG.minsum = .ok [2] :=
  have hb : lineG.Built := ⟨_, rfl⟩
  ⟨hb, noNegCycle_of_nonneg lineG_nonneg, by decide +kernel,
    ⟨at2 lineG.allPairs, (allPairs_spec hb.inv (noNegCycle_of_nonneg lineG_nonneg)).2⟩, by decide +kernel, by decide +kernel⟩

/-! ### C35 -/

/-- **C35**, what holds on every graph without negative cycles in which `-1` (`m1`) is not a node: with `D` the
shortest distances, either every node has an unreachable node and the call raises `KeyError`, or the call
returns every node exactly once, in order of non-decreasing distance from the **last** node (in insertion
order) that reaches all nodes.  `ord` is the iteration order of the sets of nodes at equal distance.
The full claim, that this start node has the smallest total distance, fails (`C35_counterexample`):
the code never updates the best distance found. -/
theorem C35_shortest_tree_partial {g : Graph α Rat O} (hg : g.Built) (hc : NoNegCycle g.edge) {ord : List α → List α}
    (hord : ∀ l, (ord l).Perm l) (m1 : α) (hm1 : g.has m1 = false)
    (D : α → α → Ext) (hD : ∀ a b, a ∈ g.nodeList → b ∈ g.nodeList → IsDist g.edge a b (D a b)) :
    ((∀ n ∈ g.nodeList, ∃ k ∈ g.nodeList, D n k = .inf) ∧ g.shortestTree m1 ord = some (.error .keyError)) ∨
    (∃ s b t p, g.nodeList = s ++ b :: t ∧ (∀ k ∈ g.nodeList, D b k ≠ .inf) ∧
      (∀ n ∈ t, ∃ k ∈ g.nodeList, D n k = .inf) ∧
      g.shortestTree m1 ord = some (.ok p) ∧ p.Perm g.nodeList ∧
      p.Pairwise (fun x y => (D b x).le (D b y))) := by
  rcases shortestTree_spec hg.inv hc hord m1 hm1 with ⟨h1, h2⟩ | ⟨s, b, t, p, h1, h2, h3, h4, h5, h6⟩
  · refine .inl ⟨fun n hn => ?_, h1⟩
    obtain ⟨k, hk, h3⟩ := h2 n hn
    exact ⟨k, hk, by rw [← at2_eq_dist hg hc hD hn hk]; exact h3⟩
  · have hb : b ∈ g.nodeList := by rw [h1]; simp
    refine .inr ⟨s, b, t, p, h1, fun k hk => ?_, fun n hn => ?_, h4, h5, ?_⟩
    · rw [← at2_eq_dist hg hc hD hb hk]; exact h2 k hk
    · obtain ⟨k, hk, h7⟩ := h3 n hn
      exact ⟨k, hk, by rw [← at2_eq_dist hg hc hD (by rw [h1]; simp [hn]) hk]; exact h7⟩
    · refine List.Pairwise.imp_of_mem ?_ h6
      intro x y hx hy hxy
      rw [← at2_eq_dist hg hc hD hb (h5.mem_iff.1 hx), ← at2_eq_dist hg hc hD hb (h5.mem_iff.1 hy)]; exact hxy

/-- evaluation of `shortest_tree_all_pairs` -/
theorem tree_eval {g : Graph α Rat O} {m1 : α} {ord : List α → List α} {row : Dict α Ext} {r : Py (List α)} (n : Nat)
    (h1 : g.allPairs.get? (bestStart m1 g.allPairs) = some row)
    (h2 : runFuel (treeStep ord) n (g.allPairs.keys, invert row, []) = some r) :
    g.shortestTree m1 ord = some r := by
  unfold shortestTree; rw [h1]; exact pyWhile_of_runFuel h2

/-- **C35** fails: on the path `1 - 2 - 3` the tree starts at 3 (total distance 3) although the total distance of
2 is 2. -/
theorem C35_counterexample :
    lineG.Built ∧ NonNeg lineG.edge ∧ lineG.shortestTree 99 id = some (.ok [3, 2, 1]) ∧ lineG.minsum = .ok [2] ∧
    Ext.sum (lineG.nodeList.map (at2 lineG.allPairs 3)) = .fin 3 ∧
    Ext.sum (lineG.nodeList.map (at2 lineG.allPairs 2)) = .fin 2 :=
  ⟨⟨_, rfl⟩, lineG_nonneg, tree_eval (g := lineG) (m1 := 99) (ord := id) (r := .ok [3, 2, 1]) 20
      (row := Dict.comp [1, 2, 3] (fun n => .fin (3 - n))) (by decide +kernel) (by decide +kernel),
    by decide +kernel, by decide +kernel, by decide +kernel⟩

/-- both cases of `C35_shortest_tree_partial` occur -/
example : lineG.Built ∧ NoNegCycle lineG.edge ∧ lineG.has 99 = false ∧
    spG.Built ∧ NoNegCycle spG.edge ∧ spG.has 99 = false ∧ spG.shortestTree 99 id = some (.error .keyError) := by
  refine ⟨⟨_, rfl⟩, noNegCycle_of_nonneg lineG_nonneg, by decide +kernel, spG_built, noNegCycle_of_nonneg spG_nonneg, by decide +kernel, ?_⟩
  unfold shortestTree
  rw [show spG.allPairs.get? (bestStart 99 spG.allPairs) = none by decide +kernel]

/-! ### C36 -/

/-- **C36**, forward.  `distance_map(starts, ends)` always returns; the result maps every start to 0 (with
non-negative values), every other key to the total value of some walk from a start, contains all starts and
every end that can be reached, and without `ends` it contains exactly the nodes that can be reached.
If all edges have the same non-negative value, the values are the shortest distances.
The full claim, that the values are always the shortest distances, fails (`C36_counterexample`). -/
theorem C36_distance_map_partial {g : Graph α Rat O} (hg : g.Built) {ord : List α → List α} (hord : ∀ l, (ord l).Perm l)
    (S : List α) (hS : ∀ x ∈ S, g.has x = true) (T : Option (List α)) (hT : ∀ es, T = some es → ∀ x ∈ es, g.has x = true) :
    ∃ r, g.distanceMap ord (some S) T false = some (.ok r) ∧ r.keys.Nodup ∧
      (NonNeg g.edge → ∀ x ∈ S, r.get? x = some 0) ∧
      (∀ x v, r.get? x = some v → ∃ a ∈ S, ∃ p, WalkOf g.edge a x p v) ∧
      (∀ es, T = some es → ∀ x ∈ es, (∃ a ∈ S, Reach g.Adj a x) → x ∈ r.keys) ∧
      (T = none → ∀ x, x ∈ r.keys ↔ ∃ a ∈ S, Reach g.Adj a x) ∧
      (∀ c, 0 ≤ c → (∀ a b d, g.edge a b = some d → d = c) →
        ∀ x v, r.get? x = some v → ∀ a ∈ S, ∀ p k, WalkOf g.edge a x p k → v ≤ k) := by
  have h := hg.inv
  obtain ⟨r, h1, h2⟩ := dmWalk_spec (w := g.edge) (S0 := S) (fun x y c hx => h.edge_mem hx) (fun x hx => has_iff.1 (hS x hx))
    (nbr := g.outNbr) (fun x y c => h.mem_outNbr) hord T
  have hnS : ((some S).getD []).any (fun s => !g.has s) = false := by
    rw [List.any_eq_false]; intro x hx; simp [hS x hx]
  have hnT : (T.getD []).any (fun s => !g.has s) = false := by
    rw [List.any_eq_false]; intro x hx
    cases T with
    | none => simp at hx
    | some es => simp [hT es rfl x hx]
  refine ⟨r, ?_, h2.wf, fun hw x hx => ?_, fun x v hv => ?_, h2.ends, fun hT x => ⟨fun hx => ?_, h2.exhaustive hT x⟩, h2.uniform⟩
  · unfold distanceMap
    rw [hnS, hnT]
    simpa using h1
  · obtain ⟨v, h3, h4⟩ := h2.starts x hx
    obtain ⟨a, p, _, hp⟩ := h2.walk x v h3
    have := walkCost_nonneg hw hp.2.2
    rw [h3]; congr 1; grind
  · obtain ⟨a, p, ha, hp⟩ := h2.walk x v hv
    exact ⟨a, ha, p, hp⟩
  · obtain ⟨v, hv⟩ := Dict.exists_get?_of_mem_keys hx
    obtain ⟨a, p, ha, hp⟩ := h2.walk x v hv
    exact ⟨a, ha, Steps.of_walkOf hp⟩

/-- **C36**, `reverse=True`: the same for walks to an end. -/
theorem C36_distance_map_reverse_partial {g : Graph α Rat O} (hg : g.Built) {ord : List α → List α} (hord : ∀ l, (ord l).Perm l)
    (S : List α) (hS : ∀ x ∈ S, g.has x = true) (T : Option (List α)) (hT : ∀ es, T = some es → ∀ x ∈ es, g.has x = true) :
    ∃ r, g.distanceMap ord T (some S) true = some (.ok r) ∧ r.keys.Nodup ∧
      (NonNeg g.edge → ∀ x ∈ S, r.get? x = some 0) ∧
      (∀ x v, r.get? x = some v → ∃ a ∈ S, ∃ p, WalkOf g.edge x a p v) ∧
      (∀ es, T = some es → ∀ x ∈ es, (∃ a ∈ S, Reach g.Adj x a) → x ∈ r.keys) ∧
      (T = none → ∀ x, x ∈ r.keys ↔ ∃ a ∈ S, Reach g.Adj x a) ∧
      (∀ c, 0 ≤ c → (∀ a b d, g.edge a b = some d → d = c) →
        ∀ x v, r.get? x = some v → ∀ a ∈ S, ∀ p k, WalkOf g.edge x a p k → v ≤ k) := by
  have h := hg.inv
  obtain ⟨r, h1, h2⟩ := dmWalk_spec (w := fun x y => g.edge y x) (S0 := S) (U := g.nodeList)
    (fun x y c hx => ⟨(h.edge_mem hx).2, (h.edge_mem hx).1⟩) (fun x hx => has_iff.1 (hS x hx))
    (nbr := g.inNbr) (fun x y c => h.mem_inNbr) hord T
  have hnS : ((some S).getD []).any (fun s => !g.has s) = false := by
    rw [List.any_eq_false]; intro x hx; simp [hS x hx]
  have hnT : (T.getD []).any (fun s => !g.has s) = false := by
    rw [List.any_eq_false]; intro x hx
    cases T with
    | none => simp at hx
    | some es => simp [hT es rfl x hx]
  have hfl : ∀ x, (∃ a ∈ S, Reach g.Adj x a) → (∃ a ∈ S, Reach (fun x y => (g.edge y x).isSome = true) a x) :=
    fun x ⟨a, ha, hr⟩ => ⟨a, ha, hr.flip⟩
  refine ⟨r, ?_, h2.wf, fun hw x hx => ?_, fun x v hv => ?_, fun es hes x hx hr => h2.ends es hes x hx (hfl x hr),
    fun hT x => ⟨fun hx => ?_, fun hr => h2.exhaustive hT x (hfl x hr)⟩,
    fun c hc hu x v hv a ha p k hp => h2.uniform c hc (fun a b d hd => hu b a d hd) x v hv a ha p.reverse k hp.reverse⟩
  · unfold distanceMap
    rw [hnS, hnT]
    cases T <;> simpa using h1
  · obtain ⟨v, h3, h4⟩ := h2.starts x hx
    obtain ⟨a, p, _, hp⟩ := h2.walk x v h3
    have := walkCost_nonneg (w := fun x y => g.edge y x) (fun a b c hc => hw b a c hc) hp.2.2
    rw [h3]; congr 1; grind
  · obtain ⟨a, p, ha, hp⟩ := h2.walk x v hv
    exact ⟨a, ha, p.reverse, hp.reverse⟩
  · obtain ⟨v, hv⟩ := Dict.exists_get?_of_mem_keys hx
    obtain ⟨a, p, ha, hp⟩ := h2.walk x v hv
    exact ⟨a, ha, (Steps.of_walkOf hp).flip⟩

/-- the argument checks of `distance_map`: without a set to start the walk from, or with a foreign node in either
collection, it raises `ValueError` -/
theorem C36_errors {g : Graph α Rat O} (ord : List α → List α) (S T : Option (List α)) (rev : Bool)
    (h : (rev = false ∧ S = none) ∨ (rev = true ∧ T = none) ∨ (∃ x ∈ S.getD [], g.has x = false) ∨ (∃ x ∈ T.getD [], g.has x = false)) :
    g.distanceMap ord S T rev = some (.error .valueError) := by
  unfold distanceMap
  split
  · rfl
  · split
    · rfl
    · split
      · rfl
      · split
        · rfl
        · split
          · rfl
          · rename_i h1 h2 h3 h4 h5
            rcases h with ⟨rfl, rfl⟩ | ⟨rfl, rfl⟩ | ⟨x, hx, hx2⟩ | ⟨x, hx, hx2⟩
            · simp at h2
            · simp at h3
            · exact absurd (List.any_eq_true.2 ⟨x, hx, by simp [hx2]⟩) h4
            · exact absurd (List.any_eq_true.2 ⟨x, hx, by simp [hx2]⟩) h5

/-- `1 → 2` costs 10, `1 → 3 → 2` costs 2, `2 → 4` costs 1 -/
def dmG : Graph Nat Rat Nat := run [W 1 2 10, W 1 3 1, W 3 2 1, W 2 4 1]

/-- **C36** fails: the distance of 4 from 1 is 3, the map says 11, because the improvement of 2 is not propagated. -/
theorem C36_counterexample :
    dmG.Built ∧ NonNeg dmG.edge ∧ (∃ r, dmG.distanceMap id (some [1]) none false = some (.ok r) ∧ r.get? 4 = some 11) ∧
    dmG.shortestPath 1 4 = some (.ok (.fin 3, [1, 3, 2, 4])) := by
  refine ⟨⟨_, rfl⟩, nonneg_of_edgeList ⟨_, rfl⟩ (by decide +kernel), ?_, sp_eval 20 (by decide) (by decide) (by decide +kernel)⟩
  refine ⟨((((Dict.empty.set 1 0).set 2 2).set 3 1).set 4 11), ?_, by decide +kernel⟩
  have h : pyWhile (dmStep dmG.outNbr none) ⟨[], [1].foldl (fun d x => d.set x 0) Dict.empty, [1]⟩ =
      some (.ok ((((Dict.empty.set 1 0).set 2 2).set 3 1).set 4 11)) := pyWhile_of_runFuel (n := 20) (by decide +kernel)
  exact h

/-- the hypotheses of C36 hold for `dmG`, and for the line (all edges 1), where the result is exact -/
example : lineG.Built ∧ (∀ x ∈ [1], lineG.has x = true) ∧ (0 : Rat) ≤ 1 ∧ (∀ a b d, lineG.edge a b = some d → d = 1) ∧
    dmG.Built ∧ (∀ x ∈ [1], dmG.has x = true) ∧ (∀ x ∈ [2, 4], dmG.has x = true) := by
  have hb : lineG.Built := ⟨_, rfl⟩
  refine ⟨hb, by decide, by decide +kernel, fun a b d h => ?_, ⟨_, rfl⟩, by decide, by decide⟩
  have h2 := List.all_eq_true.1 (show lineG.edgeList.all (fun e => decide (e.2.2 = 1)) = true by decide +kernel) _ (hb.inv.mem_edgeList.2 h)
  simpa using h2

/-! ### C37 -/

theorem walk_glue {w : α → α → Option Rat} {a b c : α} {p q : List α} {x y : Rat} (h : WalkOf w a b p x)
    (h2 : WalkOf w b c q y) : WalkOf w a c (p ++ q.tail) (x + y) := by
  cases q with
  | nil => exact absurd rfl h2.ne_nil
  | cons z q =>
    have : z = b := by have := h2.1; simpa using this
    subst this
    exact h.append h2

/-- **C37**, `loop(start, mid)` (without `end`): if there is a path from `start` to `mid` and a way back to `start`
that avoids the inner nodes of the outward path, the result is `out ++ back[1:]` where `out` is a simple
shortest path from `start` to `mid` and `back` is a walk from `mid` to `start` that does not touch the inner
nodes of `out`, shortest among those. -/
theorem C37_loop_back_to_start {g : Graph α Rat O} (hg : g.Built) (hw : NonNeg g.edge) (start mid : α)
    (hs : g.has start = true) (hm : g.has mid = true) (hout : ∃ p c, WalkOf g.edge start mid p c) :
    ∃ out c, WalkOf g.edge start mid out c ∧ out.Nodup ∧ (∀ q c', WalkOf g.edge start mid q c' → c ≤ c') ∧
      ((∃ q c', AvoidWalk g.edge (inner out) mid start q c') →
        ∃ back d, g.loop start mid none = some (.ok (out ++ back.tail)) ∧
          AvoidWalk g.edge (inner out) mid start back d ∧
          (∀ q c', AvoidWalk g.edge (inner out) mid start q c' → d ≤ c') ∧
          WalkOf g.edge start start (out ++ back.tail) (c + d)) := by
  obtain ⟨⟨x, out⟩, h1, h2, h3, ⟨⟨y, back⟩, h4, h5⟩, _⟩ := loop_spec hg.inv hw hs hm
  rcases h2 with ⟨c, h6, h7, h8⟩ | ⟨_, h7⟩
  · refine ⟨out, c, h7.1, h3, fun q c' hq => h8 q c' ⟨hq, by simp⟩, fun hex => ?_⟩
    rcases h4 with ⟨d, h9, h10, h11⟩ | ⟨_, h10⟩
    · exact ⟨back, d, h5, h10, h11, walk_glue h7.1 h10.1⟩
    · exact absurd hex h10
  · obtain ⟨p, c, hp⟩ := hout
    exact absurd ⟨p, c, hp, by simp⟩ h7

/-- **C37**, `loop(start, mid, end)` for an `end` that is not on the outward path before `mid`: the way from `mid` to
`end` avoids all earlier nodes of the outward path, and is shortest among those that do.
The full claim includes `end = start`; the call then raises (`C37_end_on_outward_path`). -/
theorem C37_loop_with_end_partial {g : Graph α Rat O} (hg : g.Built) (hw : NonNeg g.edge) (start mid : α)
    (hs : g.has start = true) (hm : g.has mid = true) (hout : ∃ p c, WalkOf g.edge start mid p c) :
    ∃ out c, WalkOf g.edge start mid out c ∧ out.Nodup ∧ (∀ q c', WalkOf g.edge start mid q c' → c ≤ c') ∧
      ∀ fin, g.has fin = true → fin ∉ out.dropLast → (∃ q c', AvoidWalk g.edge out.dropLast mid fin q c') →
        ∃ back d, g.loop start mid (some fin) = some (.ok (out ++ back.tail)) ∧
          AvoidWalk g.edge out.dropLast mid fin back d ∧
          (∀ q c', AvoidWalk g.edge out.dropLast mid fin q c' → d ≤ c') ∧
          WalkOf g.edge start fin (out ++ back.tail) (c + d) := by
  obtain ⟨⟨x, out⟩, h1, h2, h3, _, _, h4⟩ := loop_spec hg.inv hw hs hm
  rcases h2 with ⟨c, h6, h7, h8⟩ | ⟨_, h7⟩
  · refine ⟨out, c, h7.1, h3, fun q c' hq => h8 q c' ⟨hq, by simp⟩, fun fin hf hno hex => ?_⟩
    obtain ⟨⟨y, back⟩, h9, h10⟩ := h4 fin hf hno
    rcases h9 with ⟨d, _, h12, h13⟩ | ⟨_, h12⟩
    · exact ⟨back, d, h10, h12, h13, walk_glue h7.1 h12.1⟩
    · exact absurd hex h12
  · obtain ⟨p, c, hp⟩ := hout
    exact absurd ⟨p, c, hp, by simp⟩ h7

/-- **C37** fails for `end = start` (and for every `end` on the outward path): `ValueError`, although the loop back
to `start` exists. -/
theorem C37_end_on_outward_path {g : Graph α Rat O} (hg : g.Built) (hw : NonNeg g.edge) (start mid : α)
    (hs : g.has start = true) (hm : g.has mid = true) (hne : start ≠ mid) (hout : ∃ p c, WalkOf g.edge start mid p c) :
    g.loop start mid (some start) = some (.error .valueError) := by
  obtain ⟨⟨x, out⟩, h1, h2, h3, _, h4, _⟩ := loop_spec hg.inv hw hs hm
  refine h4 start hs ?_
  rcases h2 with ⟨c, h6, h7, h8⟩ | ⟨_, h7⟩
  · dsimp only
    rcases h7.1.inv with ⟨_, h9, _⟩ | ⟨y, q, c', d', h9, h10, h11, _⟩
    · exact absurd h9 hne
    · dsimp only at h9; rw [h9]
      cases q with
      | nil => exact absurd rfl h11.ne_nil
      | cons z q => simp
  · obtain ⟨p, c, hp⟩ := hout
    exact absurd ⟨p, c, hp, by simp⟩ h7

/-- `loop(1, 4)` on `spG`: there via 3, back via 5 -/
example : spG.Built ∧ NonNeg spG.edge ∧ spG.has 1 = true ∧ spG.has 4 = true ∧ (∃ p c, WalkOf spG.edge 1 4 p c) ∧
    spG.shortestPath 1 4 = some (.ok (.fin 4, [1, 3, 4])) ∧
    (∃ q c', AvoidWalk spG.edge (inner [1, 3, 4]) 4 1 q c') ∧
    5 ∉ [1, 3, 4].dropLast ∧ (∃ q c', AvoidWalk spG.edge [1, 3, 4].dropLast 4 5 q c') :=
  ⟨spG_built, spG_nonneg, by decide, by decide, ⟨[1, 3, 4], 4, rfl, rfl, by decide +kernel⟩,
    sp_eval 20 (by decide) (by decide) (by decide +kernel),
    ⟨[4, 5, 1], 3/2, ⟨rfl, rfl, by decide +kernel⟩, by decide⟩, by decide,
    ⟨[4, 5], 1/2, ⟨rfl, rfl, by decide +kernel⟩, by decide⟩⟩

end GT

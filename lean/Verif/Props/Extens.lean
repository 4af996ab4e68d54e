import Verif.Props.Invariance
import Verif.Props.Checks
import Verif.Props.Scoped
import Verif.Props.FlowInt
/-
Property theorems C101: equal graphs get equal answers.
-/
namespace GT
open Graph
variable {α V O : Type} [DecidableEq α]

omit [DecidableEq α] in
theorem LongestDur.unique {dur : α → Rat} {P : List α → Prop} {m m' : Rat} (h : LongestDur dur P m) (h' : LongestDur dur P m') : m = m' := by
  obtain ⟨⟨p, h1, h2⟩, h3⟩ := h
  obtain ⟨⟨p', h1', h2'⟩, h3'⟩ := h'
  have := h3 p' h1'
  have := h3' p h1
  grind

theorem Ext.sum_perm {l l' : List Ext} (h : l.Perm l') : Ext.sum l = Ext.sum l' := by
  induction h with
  | nil => rfl
  | cons x _ ih => simp [Ext.sum, ih]
  | swap x y l =>
    simp only [Ext.sum]
    cases x <;> cases y <;> cases Ext.sum l <;> simp [Ext.add]; grind
  | trans _ _ h1 h2 => rw [h1, h2]

theorem eqB_content [DecidableEq V] [DecidableEq O] {g g' : Graph α V O} (hg : g.Built) (hg' : g'.Built) (h : g.eqB g' = true) :
    g'.has = g.has ∧ g'.node = g.node ∧ g'.edge = g.edge ∧ g'.Adj = g.Adj := by
  obtain ⟨h1, h2, h3⟩ := (C06_eq_extensional hg hg').1 h
  refine ⟨funext fun n => (h1 n).symm, funext fun n => (h2 n).symm, funext fun a => funext fun b => (h3 a b).symm, ?_⟩
  funext a b; unfold Adj; rw [h3]

/-! ### C101 -/

/-- **C101**, searches: graphs that are equal (`==`), whatever their histories, get the same answers.  `is_connected`, `degree_of_separation`,
`has_path`, `has_cycles` answer the same; `breadth_first_search` finds paths of the same length; `depth_first_search` finds a path in both
or in none; `depth_scan`, `network_size` and `breadth_first_walk` collect the same nodes; `components` gives the same sets;
`all_simple_paths` gives the same paths.  (The orders of sets, `pop` and `ord`, may differ.) -/
theorem C101_searches [DecidableEq V] [DecidableEq O] {g g' : Graph α V O} (hg : g.Built) (hg' : g'.Built) (h : g.eqB g' = true) :
    (∀ a b, g.isConnected a b = g'.isConnected a b) ∧
    (∀ a b, g.degreeOfSeparation a b = g'.degreeOfSeparation a b) ∧
    (∀ p, g.hasPath p = g'.hasPath p) ∧
    (∀ srt srt' : List α → List α, (∀ l, (srt l).Perm l) → (∀ l, (srt' l).Perm l) → g.hasCycles srt = g'.hasCycles srt') ∧
    (∀ a b, g.has a = true → g.has b = true → ∃ p p', g.breadthFirstSearch a b = some (.ok p) ∧ g'.breadthFirstSearch a b = some (.ok p') ∧
      p.length = p'.length) ∧
    (∀ a b, g.has a = true → g.has b = true → ∃ r r', g.depthFirstSearch a b = some (.ok r) ∧ g'.depthFirstSearch a b = some (.ok r') ∧
      (r = none ↔ r' = none)) ∧
    (∀ a crit, g.has a = true → ∃ r r', g.depthScan a crit = some (.ok r) ∧ g'.depthScan a crit = some (.ok r') ∧ ∀ x, x ∈ r ↔ x ∈ r') ∧
    (∀ (ord ord' : Nat → List α → List α), (∀ t l x, x ∈ ord t l ↔ x ∈ l) → (∀ t l x, x ∈ ord' t l ↔ x ∈ l) → ∀ a k, g.has a = true →
      ∃ r r', g.networkSize ord a k = some (.ok r) ∧ g'.networkSize ord' a k = some (.ok r') ∧ ∀ x, x ∈ r ↔ x ∈ r') ∧
    (∀ a rev, g.has a = true → ∃ r r', g.breadthFirstWalk a none rev = some (.ok r) ∧ g'.breadthFirstWalk a none rev = some (.ok r') ∧ r.Perm r') ∧
    (∀ pop pop' : Nat → List α → α, (∀ t l, l ≠ [] → pop t l ∈ l) → (∀ t l, l ≠ [] → pop' t l ∈ l) → ∃ r r', g.components pop = some r ∧
      g'.components pop' = some r' ∧ (∀ s ∈ r, ∃ s' ∈ r', ∀ x, x ∈ s ↔ x ∈ s') ∧ ∀ s' ∈ r', ∃ s ∈ r, ∀ x, x ∈ s ↔ x ∈ s') ∧
    (∀ a b, g.has a = true → g.has b = true → a ≠ b → ∃ ps ps', g.allSimplePaths a b = some (.ok ps) ∧ g'.allSimplePaths a b = some (.ok ps') ∧
      ps.Perm ps') := by
  obtain ⟨e1, _, e3, e4⟩ := eqB_content hg hg' h
  refine ⟨fun a b => isConnected_congr hg' hg (by rw [e4]), fun a b => degree_congr hg' hg (by rw [e1]) (by rw [e4]; simp), fun p => ?_,
    fun srt srt' hs hs' => hasCycles_congr hg' hg hs' hs (by rw [e4]), fun a b ha hb => ?_, fun a b ha hb => ?_, fun a crit ha => ?_,
    fun ord ord' ho ho' a k ha => ?_, fun a rev ha => ?_, fun pop pop' hp hp' => ?_, fun a b ha hb hab => ?_⟩
  · by_cases hp : p = []
    · subst hp; rw [(C10_has_path (g := g) []).2, (C10_has_path (g := g') []).2]
    · obtain ⟨r, h1, h2⟩ := (C10_has_path (g := g) p).1 hp
      obtain ⟨r', h1', h2'⟩ := (C10_has_path (g := g') p).1 hp
      rw [e3] at h2'
      rw [h1, h1', Bool.eq_iff_iff.2 (h2.trans h2'.symm)]
  · obtain ⟨p, h1, h2, h3⟩ := (C13_breadth_first_search hg a b).1 ⟨ha, hb⟩
    obtain ⟨p', h1', h2', h3'⟩ := (C13_breadth_first_search hg' a b).1 (by rw [e1]; exact ⟨ha, hb⟩)
    rw [e4] at h2' h3'
    refine ⟨p, p', h1, h1', ?_⟩
    by_cases hx : ∃ q, WalkFT g.Adj a b q
    · have := (h2 hx).2 _ (h2' hx).1
      have := (h2' hx).2 _ (h2 hx).1
      omega
    · rw [h3 hx, h3' hx]
  · obtain ⟨r, h1, _, h3⟩ := (C16_depth_first_search hg a b).1 ⟨ha, hb⟩
    obtain ⟨r', h1', _, h3'⟩ := (C16_depth_first_search hg' a b).1 (by rw [e1]; exact ⟨ha, hb⟩)
    rw [e4] at h3'
    exact ⟨r, r', h1, h1', h3.trans h3'.symm⟩
  · obtain ⟨r, h1, h2⟩ := C17_depth_scan hg a crit ha
    obtain ⟨r', h1', h2'⟩ := C17_depth_scan hg' a crit (by rw [e1]; exact ha)
    rw [e4] at h2'
    exact ⟨r, r', h1, h1', fun x => (h2 x).trans (h2' x).symm⟩
  · obtain ⟨r, h1, h2⟩ := C18_network_size hg ord ho a k ha
    obtain ⟨r', h1', h2'⟩ := C18_network_size hg' ord' ho' a k (by rw [e1]; exact ha)
    rw [e4] at h2'
    exact ⟨r, r', h1, h1', fun x => (h2 x).trans (h2' x).symm⟩
  · obtain ⟨r, h1, h2, h3, _⟩ := C14_breadth_first_walk hg a rev ha
    obtain ⟨r', h1', h2', h3', _⟩ := C14_breadth_first_walk hg' a rev (by rw [e1]; exact ha)
    have ew : walkRel g' rev = walkRel g rev := by unfold walkRel; rw [e4]
    rw [ew] at h3'
    exact ⟨r, r', h1, h1', (List.perm_ext_iff_of_nodup h2 h2').2 fun x => (h3 x).trans (h3' x).symm⟩
  · obtain ⟨r, h1, h2, _, h4, h5⟩ := C19_components hg pop hp
    obtain ⟨r', h1', h2', _, h4', h5'⟩ := C19_components hg' pop' hp'
    rw [e4] at h5'
    rw [e1] at h4'
    refine ⟨r, r', h1, h1', fun s hs => ?_, fun s' hs' => ?_⟩
    · obtain ⟨x, hx⟩ := List.exists_mem_of_ne_nil s (h2 s hs).1
      obtain ⟨s', hs', hx'⟩ := (h4' x).1 ((h4 x).2 ⟨s, hs, hx⟩)
      exact ⟨s', hs', fun y => (h5 s hs x hx y).trans (h5' s' hs' x hx' y).symm⟩
    · obtain ⟨x, hx'⟩ := List.exists_mem_of_ne_nil s' (h2' s' hs').1
      obtain ⟨s, hs, hx⟩ := (h4 x).1 ((h4' x).2 ⟨s', hs', hx'⟩)
      exact ⟨s, hs, fun y => (h5 s hs x hx y).trans (h5' s' hs' x hx' y).symm⟩
  · obtain ⟨ps, h1, h2, h3⟩ := C20_all_simple_paths hg a b ha hb hab
    obtain ⟨ps', h1', h2', h3'⟩ := C20_all_simple_paths hg' a b (by rw [e1]; exact ha) (by rw [e1]; exact hb) hab
    rw [e4] at h3'
    exact ⟨ps, ps', h1, h1', (List.perm_ext_iff_of_nodup h2 h2').2 fun x => (h3 x).trans (h3' x).symm⟩

/-- **C101**, distances: on equal graphs with non-negative values the distances of `shortest_path` (with the same `avoids`), of
`shortest_path_bidirectional`, of `distance_from_path` and of `all_pairs_shortest_paths` are the same, and `minmax` and `minsum` select the
same nodes. -/
theorem C101_distances [DecidableEq O] {g g' : Graph α Rat O} (hg : g.Built) (hg' : g'.Built) (h : g.eqB g' = true) (hw : NonNeg g.edge) :
    (∀ a b av, g.has a = true → g.has b = true → ∃ d p p', g.shortestPath a b av = some (.ok (d, p)) ∧ g'.shortestPath a b av = some (.ok (d, p'))) ∧
    (∀ (srt srt' : List (α × Rat) → List (α × Rat)), (∀ l, (srt l).Perm l) → (∀ l, (srt' l).Perm l) → ∀ a b, g.has a = true → g.has b = true →
      ∃ d p p', g.shortestPathBi srt a b [] = some (.ok (d, p)) ∧ g'.shortestPathBi srt' a b [] = some (.ok (d, p'))) ∧
    (∀ p, (∀ x ∈ p, g.has x = true) → g.distanceFromPath p = g'.distanceFromPath p) ∧
    (∀ a b, g.has a = true → g.has b = true → ∃ r r' d, g.allPairs.get? a = some r ∧ g'.allPairs.get? a = some r' ∧ r.get? b = some d ∧
      r'.get? b = some d) ∧
    (g.nodeList ≠ [] → ∃ r r', g.minmax = .ok r ∧ g'.minmax = .ok r' ∧ r.Perm r') ∧
    (g.nodeList ≠ [] → ∃ r r', g.minsum = .ok r ∧ g'.minsum = .ok r' ∧ r.Perm r') := by
  obtain ⟨e1, _, e3, e4⟩ := eqB_content hg hg' h
  have hw' : NonNeg g'.edge := by rw [e3]; exact hw
  have hc : NoNegCycle g.edge := fun a p c hp => hp.nonneg hw
  have hc' : NoNegCycle g'.edge := by rw [e3]; exact hc
  have sp : ∀ a b av, g.has a = true → g.has b = true →
      ∃ d p p', g.shortestPath a b av = some (.ok (d, p)) ∧ g'.shortestPath a b av = some (.ok (d, p')) := by
    intro a b av ha hb
    obtain ⟨⟨d, p⟩, h1, h2⟩ := shortestPath_spec hg.inv hw av ha hb
    obtain ⟨⟨d', p'⟩, h1', h2'⟩ := shortestPath_spec hg'.inv hw' (start := a) (fin := b) av (by rw [e1]; exact ha) (by rw [e1]; exact hb)
    rw [e3] at h2'
    refine ⟨d, p, p', h1, ?_⟩
    rw [h1']
    rcases h2 with ⟨x, hx, hx2, hx3⟩ | ⟨hx, hx2⟩ <;> rcases h2' with ⟨y, hy, hy2, hy3⟩ | ⟨hy, hy2⟩
    · have := hx3 _ _ hy2; have := hy3 _ _ hx2
      have e : y = x := by grind
      simp only at hx hy
      rw [hx, hy, e]
    · exact absurd ⟨_, _, hx2⟩ hy2
    · exact absurd ⟨_, _, hy2⟩ hx2
    · cases hx; cases hy; rfl
  have hnl : g.nodeList.Perm g'.nodeList := by
    refine (List.perm_ext_iff_of_nodup (C02_enumerations_exact hg).1.1 (C02_enumerations_exact hg').1.1).2 fun x => ?_
    rw [(C02_enumerations_exact hg).1.2, (C02_enumerations_exact hg').1.2, e1]
  refine ⟨sp, fun srt srt' hs hs' a b ha hb => ?_, fun p hp => ?_, fun a b ha hb => ?_, fun hne => ?_, fun hne => ?_⟩
  · obtain ⟨d, p, q, h1, h2, _⟩ := (C64_bidirectional_agrees hg hw a b hs).1 ⟨ha, hb⟩
    obtain ⟨d', p', q', h1', h2', _⟩ := (C64_bidirectional_agrees hg' hw' a b hs').1 (by rw [e1]; exact ⟨ha, hb⟩)
    obtain ⟨d0, q0, q0', h3, h4⟩ := sp a b [] ha hb
    rw [h3] at h2; rw [h4] at h2'
    cases h2; cases h2'
    exact ⟨_, _, _, h1, h1'⟩
  · obtain ⟨r, h1, h2⟩ := C31_distance_from_path hg hw p hp
    obtain ⟨r', h1', h2'⟩ := C31_distance_from_path hg' hw' p (by rw [e1]; exact hp)
    rw [e3] at h2'
    rw [h1, h1', h2.unique h2']
  · have ha' : a ∈ g.nodeList := has_iff.1 ha
    have hb' : b ∈ g.nodeList := has_iff.1 hb
    obtain ⟨r, h1, _, h2⟩ := (C33_all_pairs hg hc).2 a ha'
    obtain ⟨d, h3, h4⟩ := h2 b hb'
    obtain ⟨r', h1', _, h2'⟩ := (C33_all_pairs hg' hc').2 a (hnl.mem_iff.1 ha')
    obtain ⟨d', h3', h4'⟩ := h2' b (hnl.mem_iff.1 hb')
    rw [e3] at h4'
    exact ⟨r, r', d, h1, h1', h3, by rw [h3', h4'.unique h4]⟩
  all_goals
    have hne' : g'.nodeList ≠ [] := fun h0 => hne (by rw [h0] at hnl; exact hnl.eq_nil)
    have hD : ∀ a b, a ∈ g.nodeList → b ∈ g.nodeList → IsDist g.edge a b (at2 g.allPairs a b) := fun a b ha hb => (allPairs_spec hg.inv hc).2 a b ha hb
    have hD' : ∀ a b, a ∈ g'.nodeList → b ∈ g'.nodeList → IsDist g'.edge a b (at2 g.allPairs a b) := by
      intro a b ha hb; rw [e3]; exact hD a b (hnl.mem_iff.2 ha) (hnl.mem_iff.2 hb)
  · obtain ⟨r, h1, h2, h3⟩ := C34_minmax hg hc hne _ hD
    obtain ⟨r', h1', h2', h3'⟩ := C34_minmax hg' hc' hne' _ hD'
    refine ⟨r, r', h1, h1', (List.perm_ext_iff_of_nodup h2 h2').2 fun x => ?_⟩
    have hm : ∀ n e, IsMaxOf (g'.nodeList.map (at2 g.allPairs n)) e ↔ IsMaxOf (g.nodeList.map (at2 g.allPairs n)) e := by
      intro n e
      unfold IsMaxOf
      simp only [(hnl.map (at2 g.allPairs n)).mem_iff]
    rw [h3, h3']
    simp only [hm, hnl.mem_iff]
  · obtain ⟨r, h1, h2, h3⟩ := C34_minsum hg hc hne _ hD
    obtain ⟨r', h1', h2', h3'⟩ := C34_minsum hg' hc' hne' _ hD'
    refine ⟨r, r', h1, h1', (List.perm_ext_iff_of_nodup h2 h2').2 fun x => ?_⟩
    have hm : ∀ n, Ext.sum (g'.nodeList.map (at2 g.allPairs n)) = Ext.sum (g.nodeList.map (at2 g.allPairs n)) :=
      fun n => (Ext.sum_perm (hnl.map _)).symm
    rw [h3, h3']
    simp only [hm, hnl.mem_iff]

/-- **C101**, projects: on equal acyclic graphs `topological_sort` yields the same nodes, `phase_lines` gives every task the same phase,
`sources` the same nodes, and `critical_path` the same length and the same times of every task. -/
theorem C101_projects [DecidableEq V] [DecidableEq O] {g g' : Graph α V O} (hg : g.Built) (hg' : g'.Built) (h : g.eqB g' = true)
    (hA : Acyclic g.Adj) {srt srt' : List α → List α} (hs : ∀ l, (srt l).Perm l) (hs' : ∀ l, (srt' l).Perm l)
    {ord ord' : Nat → List α → List α} (ho : ∀ t l, (ord t l).Perm l) (ho' : ∀ t l, (ord' t l).Perm l) :
    (∃ out out', g.topologicalSort srt = some (out, none) ∧ g'.topologicalSort srt' = some (out', none) ∧ out.Perm out') ∧
    (∀ n, g.has n = true → ∃ r r', g.sources n = some (.ok r) ∧ g'.sources n = some (.ok r') ∧ r.Perm r') ∧
    ((∃ x, g.has x = true) → ∃ ph ph', g.phaseLines ord = some (.ok ph) ∧ g'.phaseLines ord' = some (.ok ph') ∧ ∀ x, ph.get? x = ph'.get? x) ∧
    (∀ num : O → Option Rat, (∀ x, g.has x = true → ∃ r, (g.node x).bind num = some r ∧ 0 ≤ r) →
      ∃ cpl d d', g.criticalPath num srt = some (.ok (cpl, d)) ∧ g'.criticalPath num srt' = some (.ok (cpl, d')) ∧ ∀ x, d.get? x = d'.get? x) := by
  obtain ⟨e1, e2, e3, e4⟩ := eqB_content hg hg' h
  have hA' : Acyclic g'.Adj := by rw [e4]; exact hA
  refine ⟨?_, fun n hn => ?_, fun hne => ?_, fun num hnum => ?_⟩
  · obtain ⟨out, e, h1, h2, _, _, h3, _⟩ := C23_topological_sort hg hs
    obtain ⟨out', e', h1', h2', _, _, h3', _⟩ := C23_topological_sort hg' hs'
    obtain ⟨rfl, h4⟩ := h3 hA
    obtain ⟨rfl, h4'⟩ := h3' hA'
    rw [e1] at h4'
    exact ⟨out, out', h1, h1', (List.perm_ext_iff_of_nodup h2 h2').2 fun x => (h4 x).trans (h4' x).symm⟩
  · obtain ⟨r, h1, h2, h3⟩ := C22_sources hg n hn (fun c _ => hA c)
    obtain ⟨r', h1', h2', h3'⟩ := C22_sources hg' n (by rw [e1]; exact hn) (fun c _ => hA' c)
    rw [e4] at h3'
    exact ⟨r, r', h1, h1', (List.perm_ext_iff_of_nodup h2 h2').2 fun x => (h3 x).trans (h3' x).symm⟩
  · obtain ⟨ph, h1, h2, h3, _⟩ := C25_phase_lines_dag hg hA hne ho
    obtain ⟨ph', h1', h2', h3', _⟩ := C25_phase_lines_dag hg' hA' (by rw [e1]; exact hne) ho'
    rw [e4, e1] at h3'
    rw [e1] at h2'
    refine ⟨ph, ph', h1, h1', fun x => ?_⟩
    by_cases hx : g.has x = true
    · obtain ⟨n, h5, ⟨a, h6⟩, h7⟩ := h3 x hx
      obtain ⟨n', h5', ⟨a', h6'⟩, h7'⟩ := h3' x hx
      have := h7 _ _ h6'
      have := h7' _ _ h6
      rw [h5, h5', show n = n' by omega]
    · rw [(Dict.get?_eq_none_iff _ _).2 (fun hk => hx ((h2 x).1 hk)), (Dict.get?_eq_none_iff _ _).2 (fun hk => hx ((h2' x).1 hk))]
  · have hdur : ∃ dur : α → Rat, ∀ x, g.has x = true → (g.node x).bind num = some (dur x) ∧ 0 ≤ dur x := by
      refine ⟨fun x => ((g.node x).bind num).getD 0, fun x hx => ?_⟩
      obtain ⟨r, h1, h2⟩ := hnum x hx
      simp only [h1, Option.getD_some]; exact ⟨trivial, h2⟩
    obtain ⟨dur, hdur⟩ := hdur
    obtain ⟨cpl, d, h1, h2, h3, h4, _⟩ := C26_critical_path hg hA hs (fun x hx => (hdur x hx).1) (fun x hx => (hdur x hx).2)
    obtain ⟨cpl', d', h1', h2', h3', h4', _⟩ := C26_critical_path hg' hA' hs' (num := num) (dur := dur) (by rw [e1, e2]; exact fun x hx => (hdur x hx).1)
      (by rw [e1]; exact fun x hx => (hdur x hx).2)
    rw [e4, e1] at h4'
    rw [e4] at h3'
    rw [e1] at h2'
    obtain rfl := h4.unique h4'
    refine ⟨cpl, d, d', h1, h1', fun x => ?_⟩
    by_cases hx : g.has x = true
    · obtain ⟨t, ht⟩ : ∃ t, d.get? x = some t := Dict.exists_get?_of_mem_keys ((h2 x).2 hx)
      obtain ⟨t', ht'⟩ : ∃ t, d'.get? x = some t := Dict.exists_get?_of_mem_keys ((h2' x).2 hx)
      rw [ht, ht']
      obtain ⟨a1, a2, a3, a4, a5, a6, a7⟩ := h3 x t ht
      obtain ⟨b1, b2, b3, b4, b5, b6, b7⟩ := h3' x t' ht'
      have c2 := a2.unique b2
      have c4 := a4.unique b4
      cases t; cases t'
      simp only at *
      congr 2 <;> grind
    · rw [(Dict.get?_eq_none_iff _ _).2 (fun hk => hx ((h2 x).1 hk)), (Dict.get?_eq_none_iff _ _).2 (fun hk => hx ((h2' x).1 hk))]

/-- two equal graphs with different histories -/
def eqG : Graph Nat Rat Nat := run [W 1 2 1, W 1 3 1, W 2 4 1, W 2 5 1, W 3 4 1, W 4 6 1, W 5 6 1]
def eqG' : Graph Nat Rat Nat := run [W 1 2 1, W 1 3 1, W 2 5 1, W 2 4 1, W 3 4 1, W 4 6 1, W 5 6 1]

/-- **C101** is false of `maximum_flow`: of two equal graphs, which differ only in the order in which the edges `2 → 4` and `2 → 5` were added,
it returns 1 for one and 2 for the other. -/
theorem C101_maximum_flow_counterexample : eqG.Built ∧ eqG'.Built ∧ eqG.eqB eqG' = true ∧ NonNeg eqG.edge ∧
    (∃ f, eqG.maximumFlow 1 6 = some (.ok (1, f))) ∧ (∃ f, eqG'.maximumFlow 1 6 = some (.ok (2, f))) := by
  refine ⟨⟨_, rfl⟩, ⟨_, rfl⟩, by decide +kernel, nonneg_of_edgeList ⟨_, rfl⟩ (by decide +kernel), ?_, ?_⟩
  · have : ((mfF 30 eqG 1 6).map (fun r => match r with | .ok (t, _) => decide (t = 1) | .error _ => false)) = some true := by decide +kernel
    cases h : mfF 30 eqG 1 6 with
    | none => rw [h] at this; cases this
    | some r =>
      rw [h] at this
      cases r with
      | error e => cases this
      | ok x =>
        obtain ⟨t, f⟩ := x
        simp at this
        subst this
        exact ⟨f, mfF_ok h⟩
  · have : ((mfF 30 eqG' 1 6).map (fun r => match r with | .ok (t, _) => decide (t = 2) | .error _ => false)) = some true := by decide +kernel
    cases h : mfF 30 eqG' 1 6 with
    | none => rw [h] at this; cases this
    | some r =>
      rw [h] at this
      cases r with
      | error e => cases this
      | ok x =>
        obtain ⟨t, f⟩ := x
        simp at this
        subst this
        exact ⟨f, mfF_ok h⟩

/-- the hypotheses of the theorems are met by these two graphs; they are not the same state -/
example : eqG.Built ∧ eqG'.Built ∧ eqG.eqB eqG' = true ∧ NonNeg eqG.edge ∧ Acyclic eqG.Adj ∧ eqG.nodeList ≠ [] ∧ eqG.edgeList ≠ eqG'.edgeList :=
  ⟨⟨_, rfl⟩, ⟨_, rfl⟩, by decide +kernel, nonneg_of_edgeList ⟨_, rfl⟩ (by decide +kernel),
    acyclic_of_edgeList ⟨_, rfl⟩ id (by decide +kernel), by decide +kernel, by decide +kernel⟩

end GT

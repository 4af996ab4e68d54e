import Verif.Props.Extens
import Verif.Sp.ApspNeg
import Verif.Sp.DijkstraAny
import Verif.Sp.LegsErr
import Verif.Sp.BidirAny
/-
Property theorems C102 - C104: `shortest_path` and `all_pairs_shortest_paths` with arbitrary (also negative) values; `avoids` and deletion;
parts of shortest paths.
-/
namespace GT
open Graph
variable {α V O : Type} [DecidableEq α]

/-! ### C102 -/

/-- **C102**. With arbitrary edge values, negative cycles included, `shortest_path(start, end, avoids)` always returns for nodes of the graph:
a walk from `start` to `end` without repeated nodes, outside `avoids`, together with its total value; `(inf, [])` exactly if there is no such
walk.  Missing nodes raise `ValueError`. -/
theorem C102_shortest_path_any_values {g : Graph α Rat O} (hg : g.Built) (start fin : α) (avoids : List α) :
    (g.has start = true ∧ g.has fin = true → ∃ d p, g.shortestPath start fin avoids = some (.ok (d, p)) ∧ p.Nodup ∧
      ((∃ q c, AvoidWalk g.edge avoids start fin q c) → ∃ c, d = .fin c ∧ AvoidWalk g.edge avoids start fin p c) ∧
      ((¬ ∃ q c, AvoidWalk g.edge avoids start fin q c) → d = .inf ∧ p = [])) ∧
    (¬ (g.has start = true ∧ g.has fin = true) → g.shortestPath start fin avoids = some (.error .valueError)) := by
  refine ⟨fun ⟨hs, hf⟩ => ?_, shortestPath_error avoids⟩
  obtain ⟨d, p, h1, h2, h3⟩ := shortestPath_any hg.inv (start := start) (fin := fin) avoids hs hf
  refine ⟨d, p, h1, h2, fun h => ?_, fun h => ?_⟩
  · rcases h3 with h3 | ⟨_, _, h3⟩
    · exact h3
    · exact absurd h h3
  · rcases h3 with ⟨c, _, h3⟩ | ⟨h3, h4, _⟩
    · exact absurd ⟨p, c, h3⟩ h
    · exact ⟨h3, h4⟩

def negValG : Graph Nat Rat Nat := run [W 1 2 1, W 1 3 2, W 3 2 (-5)]

/-- with a negative value the walk need not be the shortest: `1 → 2` (1) is returned, although `1 → 3 → 2` has the value -3 -/
theorem C102_not_shortest_counterexample : negValG.Built ∧ negValG.shortestPath 1 2 = some (.ok (.fin 1, [1, 2])) ∧ WalkOf negValG.edge 1 2 [1, 3, 2] (-3) :=
  ⟨⟨_, rfl⟩, sp_eval 20 (by decide +kernel) (by decide +kernel) (by decide +kernel), by decide +kernel, by decide +kernel, by decide +kernel⟩

/-- the hypotheses are met by a graph with a negative cycle -/
example : (run [W 1 2 1, W 2 1 (-5), W 2 3 1] : Graph Nat Rat Nat).Built ∧
    (run [W 1 2 1, W 2 1 (-5), W 2 3 1] : Graph Nat Rat Nat).shortestPath 1 3 = some (.ok (.fin 2, [1, 2, 3])) :=
  ⟨⟨_, rfl⟩, sp_eval 20 (by decide +kernel) (by decide +kernel) (by decide +kernel)⟩

/-! ### C103 -/

/-- removing the nodes `av` removes exactly the walks through them -/
theorem avoidWalk_iff {w w' : α → α → Option Rat} {av : List α} (h : ∀ x y, w' x y = if x ∈ av ∨ y ∈ av then none else w x y) {b : α}
    {p : List α} : ∀ {a : α} {c : Rat}, a ∉ av → (AvoidWalk w av a b p c ↔ WalkOf w' a b p c) := by
  induction p with
  | nil => intro a c _; exact ⟨fun hp => absurd rfl hp.1.ne_nil, fun hp => absurd rfl hp.ne_nil⟩
  | cons x p ih =>
    intro a c ha
    constructor
    · rintro ⟨hp, hav⟩
      rcases hp.inv with ⟨h1, h2, h3⟩ | ⟨y, q, d, d', h1, h2, h3, h4⟩
      · rw [h1]; subst h2 h3; exact WalkOf.single _
      · simp only [List.cons.injEq] at h1
        obtain ⟨rfl, rfl⟩ := h1
        have hy : y ∉ av := hav y (List.mem_cons_of_mem _ (List.mem_of_head? h3.1))
        rw [h4]
        refine ((ih hy).1 ⟨h3, fun z hz => hav z (List.mem_cons_of_mem _ hz)⟩).cons ?_
        rw [h, if_neg (by rintro (h5 | h5); exact ha h5; exact hy h5)]; exact h2
    · intro hp
      rcases hp.inv with ⟨h1, h2, h3⟩ | ⟨y, q, d, d', h1, h2, h3, h4⟩
      · rw [h1]; subst h2 h3
        exact ⟨WalkOf.single _, fun z hz => by simp at hz; subst hz; exact ha⟩
      · simp only [List.cons.injEq] at h1
        obtain ⟨rfl, rfl⟩ := h1
        rw [h] at h2
        split at h2
        · cases h2
        · rename_i h5
          have hy : y ∉ av := fun h6 => h5 (.inr h6)
          obtain ⟨h6, h7⟩ := (ih hy).2 h3
          refine ⟨h4 ▸ h6.cons h2, fun z hz => ?_⟩
          rcases List.mem_cons.1 hz with rfl | hz
          · exact ha
          · exact h7 z hz

/-- `for n in av: g.del_node(n)` -/
theorem delNodeAll_spec (av : List α) : ∀ {g : Graph α V O}, g.Built → (av.foldl Graph.delNode g).Built ∧
    (∀ x, (av.foldl Graph.delNode g).has x = true ↔ g.has x = true ∧ x ∉ av) ∧
    ∀ x y, (av.foldl Graph.delNode g).edge x y = if x ∈ av ∨ y ∈ av then none else g.edge x y := by
  induction av with
  | nil => intro g hg; exact ⟨hg, by simp, by simp⟩
  | cons n av ih =>
    intro g hg
    obtain ⟨h1, h2, h3⟩ := ih (hg.delNode n)
    obtain ⟨_, h4, h5, _⟩ := delNode_spec hg.inv n
    refine ⟨h1, fun x => ?_, fun x y => ?_⟩
    · simp only [List.foldl_cons]
      rw [h2]
      have : (g.delNode n).has x = true ↔ g.has x = true ∧ x ≠ n := by
        unfold has Dict.contains
        rw [h4]
        split
        · rename_i e; simp [e]
        · rename_i e; simp [Ne.symm e]
      rw [this]
      simp only [List.mem_cons, not_or, and_assoc]
    · simp only [List.foldl_cons]
      rw [h3, h5]
      simp only [List.mem_cons]
      by_cases hx : x ∈ av
      · simp [hx]
      · by_cases hy : y ∈ av
        · simp [hy]
        · by_cases e1 : n = x
          · simp [e1]
          · by_cases e2 : n = y
            · simp [e2]
            · simp [hx, hy, e1, e2, Ne.symm e1, Ne.symm e2]

omit [DecidableEq α] in
/-- the distances agree if the walks do -/
theorem dist_of_walks {w w' : α → α → Option Rat} {av av' : List α} {a b : α} (h : ∀ p c, AvoidWalk w av a b p c ↔ AvoidWalk w' av' a b p c)
    {r r' : Ext × List α} (hr : SpResult w av a b r) (hr' : SpResult w' av' a b r') : r.1 = r'.1 := by
  rcases hr with ⟨x, hx, hx2, hx3⟩ | ⟨hx, hx2⟩ <;> rcases hr' with ⟨y, hy, hy2, hy3⟩ | ⟨hy, hy2⟩
  · have := hx3 _ _ ((h _ _).2 hy2); have := hy3 _ _ ((h _ _).1 hx2)
    rw [hx, hy]; congr 1; grind
  · exact absurd ⟨_, _, (h _ _).1 hx2⟩ hy2
  · exact absurd ⟨_, _, (h _ _).2 hy2⟩ hx2
  · rw [hx, hy]

omit [DecidableEq α] in
theorem avoidWalk_nil {w : α → α → Option Rat} {a b : α} {p : List α} {c : Rat} : AvoidWalk w [] a b p c ↔ WalkOf w a b p c :=
  ⟨fun h => h.1, fun h => ⟨h, by simp⟩⟩

/-- **C103**, avoiding nodes and deleting them is the same: `shortest_path(a, b, avoids)` has the distance `shortest_path(a, b)` has in the graph
after `del_node(n)` for every `n` in `avoids`; and a path of the one is a path of the other. -/
theorem C103_avoiding_is_deleting {g : Graph α Rat O} (hg : g.Built) (hw : NonNeg g.edge) (avoids : List α) {a b : α} (ha : g.has a = true)
    (hb : g.has b = true) (ha' : a ∉ avoids) (hb' : b ∉ avoids) :
    ∃ d p p', g.shortestPath a b avoids = some (.ok (d, p)) ∧ (avoids.foldl Graph.delNode g).shortestPath a b = some (.ok (d, p')) ∧
      (∀ c, d = .fin c → WalkOf (avoids.foldl Graph.delNode g).edge a b p c ∧ AvoidWalk g.edge avoids a b p' c) := by
  obtain ⟨h1, h2, h3⟩ := delNodeAll_spec avoids hg
  have hw' : NonNeg (avoids.foldl Graph.delNode g).edge := by
    intro x y c hc
    rw [h3] at hc
    split at hc
    · cases hc
    · exact hw _ _ _ hc
  obtain ⟨⟨d, p⟩, h4, h5⟩ := shortestPath_spec hg.inv hw avoids ha hb
  obtain ⟨⟨d', p'⟩, h4', h5'⟩ := shortestPath_spec h1.inv hw' (start := a) (fin := b) [] ((h2 a).2 ⟨ha, ha'⟩) ((h2 b).2 ⟨hb, hb'⟩)
  have key : ∀ p c, AvoidWalk g.edge avoids a b p c ↔ AvoidWalk (avoids.foldl Graph.delNode g).edge [] a b p c :=
    fun p c => (avoidWalk_iff h3 ha').trans avoidWalk_nil.symm
  have e : d = d' := dist_of_walks key h5 h5'
  subst e
  refine ⟨d, p, p', h4, h4', fun c hc => ?_⟩
  rcases h5 with ⟨x, hx, hx2, _⟩ | ⟨hx, _⟩
  · rcases h5' with ⟨y, hy, hy2, _⟩ | ⟨hy, _⟩
    · simp only at hx hy
      rw [hc] at hx hy
      cases hx; cases hy
      exact ⟨avoidWalk_nil.1 ((key _ _).1 hx2), (key _ _).2 hy2⟩
    · cases hy; cases hc
  · cases hx; cases hc

/-- **C103**: likewise for the subgraph of the other nodes. -/
theorem C103_avoiding_is_subgraph {g : Graph α Rat O} (hg : g.Built) (hw : NonNeg g.edge) (avoids ns : List α)
    (hns : ∀ x, x ∈ ns ↔ g.has x = true ∧ x ∉ avoids) {a b : α} (ha : a ∈ ns) (hb : b ∈ ns) :
    ∃ d p p', g.shortestPath a b avoids = some (.ok (d, p)) ∧ (g.subgraph ns).shortestPath a b = some (.ok (d, p')) := by
  obtain ⟨h1, h2, _, h3, _⟩ := C08_subgraph_induced hg ns
  have hw' : NonNeg (g.subgraph ns).edge := fun x y c hc => hw _ _ _ ((h3 x y c).1 hc).2.2
  have h3' : ∀ x y, (g.subgraph ns).edge x y = if x ∈ avoids ∨ y ∈ avoids then none else g.edge x y := by
    intro x y
    apply Option.ext
    intro v
    have := h3 x y v
    rw [this]
    constructor
    · rintro ⟨h4, h5, h6⟩
      rw [if_neg (by rintro (h7 | h7); exact ((hns x).1 h4).2 h7; exact ((hns y).1 h5).2 h7)]; exact h6
    · intro h4
      split at h4
      · cases h4
      · rename_i h5
        obtain ⟨h6, h7⟩ := hg.inv.edge_mem h4
        exact ⟨(hns x).2 ⟨has_iff.2 h6, fun h => h5 (.inl h)⟩, (hns y).2 ⟨has_iff.2 h7, fun h => h5 (.inr h)⟩, h4⟩
  obtain ⟨⟨d, p⟩, h4, h5⟩ := shortestPath_spec hg.inv hw avoids ((hns a).1 ha).1 ((hns b).1 hb).1
  obtain ⟨⟨d', p'⟩, h4', h5'⟩ := shortestPath_spec h1.inv hw' (start := a) (fin := b) [] ((h2 a).2 ha) ((h2 b).2 hb)
  have e : d = d' := dist_of_walks (fun p c => (avoidWalk_iff h3' ((hns a).1 ha).2).trans avoidWalk_nil.symm) h5 h5'
  subst e
  exact ⟨d, p, p', h4, h4'⟩

/-- **C103**, parts of shortest paths are shortest: if `x` comes before `y` on the path `shortest_path(a, b, avoids)` returns, the section from
`x` to `y` has the length that `shortest_path(x, y, avoids)` returns. -/
theorem C103_parts_of_shortest_paths {g : Graph α Rat O} (hg : g.Built) (hw : NonNeg g.edge) {avoids : List α} {a b : α} {d : Rat} {l m r : List α}
    {x y : α} (h : g.shortestPath a b avoids = some (.ok (.fin d, l ++ x :: (m ++ y :: r)))) :
    ∃ c q, walkCost g.edge (x :: (m ++ [y])) = some c ∧ g.shortestPath x y avoids = some (.ok (.fin c, q)) := by
  have hab : g.has a = true ∧ g.has b = true := by
    refine Classical.byContradiction fun h0 => ?_
    rw [shortestPath_error avoids h0] at h; cases h
  obtain ⟨⟨d', p'⟩, h1, h2⟩ := shortestPath_spec hg.inv hw avoids hab.1 hab.2
  rw [h] at h1
  cases h1
  rcases h2 with ⟨d', e, ⟨h3, h4⟩, h5⟩ | ⟨h3, _⟩
  · cases e
    obtain ⟨c1, c2, w1, w2, e1⟩ := h3.split
    rw [← List.cons_append] at w2
    obtain ⟨c3, c4, w3, w4, e2⟩ := w2.split
    have hp := walk_has hg.inv h3 hab.1
    obtain ⟨⟨d2, q⟩, h6, h7⟩ := shortestPath_spec hg.inv hw (start := x) (fin := y) avoids (hp x (by simp)) (hp y (by simp))
    have hsub : AvoidWalk g.edge avoids x y (x :: (m ++ [y])) c3 := by
      refine ⟨by simpa using w3, fun z hz => h4 z ?_⟩
      simp only [List.mem_cons, List.mem_append, List.not_mem_nil, or_false] at hz ⊢
      rcases hz with hz | hz | hz
      · exact .inr (.inl hz)
      · exact .inr (.inr (.inl hz))
      · exact .inr (.inr (.inr (.inl hz)))
    rcases h7 with ⟨c5, e3, h8, h9⟩ | ⟨_, h8⟩
    · have h10 := h9 _ _ hsub
      obtain ⟨q', rfl⟩ : ∃ q', q = x :: q' := by
        have := h8.1.1
        cases q with
        | nil => simp at this
        | cons z q => simp at this; subst this; exact ⟨q, rfl⟩
      have w5 := w1.append h8.1
      have w6 := w5.append w4
      have h11 := h5 _ _ ⟨w6, fun z hz => by
        simp only [List.mem_append] at hz
        rcases hz with ((hz | hz) | hz) | hz
        · exact h4 z (by simp [hz])
        · exact h4 z (by simp only [List.mem_singleton] at hz; simp [hz])
        · exact h8.2 z (List.mem_cons_of_mem _ hz)
        · exact h4 z (by simp [hz])⟩
      have e4 : c5 = c3 := by grind
      simp only at e3
      subst e4
      exact ⟨c5, x :: q', hsub.1.2.2, by rw [h6, e3]⟩
    · exact absurd ⟨_, _, hsub⟩ h8
  · cases h3

/-- the hypotheses are met: the path `1 → 2 → 3 → 4` avoiding 5, with its section from 2 to 4 -/
example : (run [W 1 2 1, W 2 3 1, W 3 4 1, W 1 5 1, W 5 4 1] : Graph Nat Rat Nat).shortestPath 1 4 [5]
    = some (.ok (.fin 3, [1] ++ 2 :: ([3] ++ 4 :: []))) ∧
    (run [W 1 2 1, W 2 3 1, W 3 4 1, W 1 5 1, W 5 4 1] : Graph Nat Rat Nat).shortestPath 1 4 = some (.ok (.fin 2, [1, 5, 4])) ∧
    NonNeg (run [W 1 2 1, W 2 3 1, W 3 4 1, W 1 5 1, W 5 4 1] : Graph Nat Rat Nat).edge :=
  ⟨sp_eval 20 (by decide +kernel) (by decide +kernel) (by decide +kernel), sp_eval 20 (by decide +kernel) (by decide +kernel) (by decide +kernel), nonneg_of_edgeList ⟨_, rfl⟩ (by decide +kernel)⟩

/-! ### C104 -/

theorem matrix_entry {V : List α} {m : Dict α (Dict α Ext)} (h : IsMatrix V m) (hV : V.Nodup) : m.keys = V ∧ ∀ a, a ∈ V → ∃ row, m.get? a = some row ∧ row.keys = V ∧
    ∀ b, b ∈ V → row.get? b = some (at2 m a b) := by
  obtain ⟨F, rfl⟩ := h
  refine ⟨Dict.comp_keys hV _, fun a ha => ⟨Dict.comp V (fun y => F a y), by rw [Dict.comp_get?, if_pos ha], Dict.comp_keys hV _, fun b hb => ?_⟩⟩
  rw [at2_comp ha hb, Dict.comp_get?, if_pos hb]

/-- **C104**. On every graph, with negative values and negative cycles: `all_pairs_shortest_paths` has a row and a column for every node; an entry
`(a, b)` is `inf` exactly if there is no walk from `a` to `b`, otherwise it is the value of a walk from `a` to `b`, and not larger than the
value of any path without repeated nodes. -/
theorem C104_all_pairs_any_values {g : Graph α Rat O} (hg : g.Built) :
    g.allPairs.keys = g.nodeList ∧ ∀ a, a ∈ g.nodeList → ∃ row, g.allPairs.get? a = some row ∧ row.keys = g.nodeList ∧
      ∀ b, b ∈ g.nodeList → ∃ d, row.get? b = some d ∧ (d = .inf ↔ ¬ ∃ p c, WalkOf g.edge a b p c) ∧
        (∀ c, d = .fin c → ∃ p, WalkOf g.edge a b p c) ∧ ∀ p c, WalkOf g.edge a b p c → p.Nodup → d.le (.fin c) := by
  obtain ⟨h1, h2⟩ := allPairs_any hg.inv
  obtain ⟨h3, h4⟩ := matrix_entry h1 hg.inv.nodesWF
  refine ⟨h3, fun a ha => ?_⟩
  obtain ⟨row, h5, h6, h7⟩ := h4 a ha
  refine ⟨row, h5, h6, fun b hb => ⟨_, h7 b hb, ?_, ?_, ?_⟩⟩
  all_goals
    have hle : ∀ p c, WalkOf g.edge a b p c → p.Nodup → (at2 g.allPairs a b).le (.fin c) := by
      intro p c hp hn
      have hp' := hp.noLoops_of_nodup hn
      refine h2.simple a b p c ha hb hp' ?_ ?_ ?_ (walk_nodes hg.inv ha hp')
      all_goals
        rcases hp.ends with ⟨e, _, _⟩ | e
        · rw [e]; simp [inner]
        · rw [e] at hn
          simp only [List.nodup_cons, List.nodup_append, List.mem_append, List.mem_singleton, not_or] at hn
          first
          | exact hn.1.1
          | exact hn.2.1
          | exact fun hx => hn.2.2.2 b hx b rfl rfl
  · constructor
    · intro hd
      rintro ⟨p, c, hp⟩
      obtain ⟨q, hq, hq2⟩ := hp.walkFT.simple
      obtain ⟨c', hc'⟩ := hq.walkOf
      have := hle q c' hc' hq2.1
      rw [hd] at this; exact this
    · intro hno
      cases hd : at2 g.allPairs a b with
      | inf => rfl
      | fin d =>
        obtain ⟨p, hp⟩ := h2.sound a b d ha hb hd
        exact absurd ⟨p, d, hp.of_noLoops⟩ hno
  · intro c hc
    obtain ⟨p, hp⟩ := h2.sound a b c ha hb hc
    exact ⟨p, hp.of_noLoops⟩
  · exact hle

/-- **C104**, negative cycles show on the diagonal, apart from loops: an entry `(a, a)` is negative for some node `a` exactly if there is a
closed walk of negative value along edges between different nodes. -/
theorem C104_negative_cycles {g : Graph α Rat O} (hg : g.Built) :
    (∃ a row d, g.allPairs.get? a = some row ∧ row.get? a = some (.fin d) ∧ d < 0) ↔ ∃ a p c, WalkOf (noLoops g.edge) a a p c ∧ c < 0 := by
  obtain ⟨h1, h2⟩ := allPairs_any hg.inv
  obtain ⟨h3, h4⟩ := matrix_entry h1 hg.inv.nodesWF
  constructor
  · rintro ⟨a, row, d, h5, h6, h7⟩
    have ha : a ∈ g.nodeList := by rw [← h3]; exact Dict.mem_keys_of_get? h5
    obtain ⟨row', h8, _, h9⟩ := h4 a ha
    rw [h5] at h8; cases h8
    rw [h9 a ha] at h6
    obtain ⟨p, hp⟩ := h2.sound a a d ha ha (by simpa using h6)
    exact ⟨a, p, d, hp, h7⟩
  · rintro ⟨a, p, c, hp, hc⟩
    obtain ⟨a, p, c, hp, hc, h5, h6⟩ := negative_simple_cycle p.length (Nat.le_refl _) hp hc
    have ha : a ∈ g.nodeList := by
      rcases hp.inv with ⟨_, _, h7⟩ | ⟨b, q, c', d', _, h7, _⟩
      · rw [h7] at hc; exact absurd hc (by grind)
      · exact (hg.inv.edge_mem (noLoops_some.1 h7).2).1
    have := h2.simple a a p c ha ha hp h5 h5 h6 (walk_nodes hg.inv ha hp)
    obtain ⟨row, h8, _, h9⟩ := h4 a ha
    cases hd : at2 g.allPairs a a with
    | inf => rw [hd] at this; exact absurd this (by simp [Ext.le])
    | fin d =>
      rw [hd] at this
      simp only [Ext.le] at this
      exact ⟨a, row, d, h8, by rw [h9 a ha, hd], by grind⟩

/-- **C104**, a certificate: if no diagonal entry is negative, and no loop has a negative value, every entry is the distance: the smallest value of
a walk. -/
theorem C104_certificate {g : Graph α Rat O} (hg : g.Built) (hloop : ∀ a c, g.edge a a = some c → 0 ≤ c)
    (hdiag : ¬ ∃ a row d, g.allPairs.get? a = some row ∧ row.get? a = some (.fin d) ∧ d < 0) :
    ∀ a row b d, g.allPairs.get? a = some row → row.get? b = some d → IsDist g.edge a b d := by
  intro a row b d h5 h6
  have hc : NoNegCycle g.edge := by
    intro x p c hp
    refine Classical.byContradiction fun h0 => hdiag ((C104_negative_cycles hg).2 ?_)
    obtain ⟨p', c', h7, h8⟩ := hp.drop_loops hloop
    exact ⟨x, p', c', h7, by grind⟩
  obtain ⟨h3, h4⟩ := C33_all_pairs hg hc
  have ha : a ∈ g.nodeList := by rw [← h3]; exact Dict.mem_keys_of_get? h5
  obtain ⟨row', h7, h8, h9⟩ := h4 a ha
  rw [h5] at h7; cases h7
  have hb : b ∈ g.nodeList := by rw [← h8]; exact Dict.mem_keys_of_get? h6
  obtain ⟨d', h10, h11⟩ := h9 b hb
  rw [h6] at h10; cases h10
  exact h11

/-- a negative loop does not show -/
theorem C104_loop_counterexample : (run [W 1 1 (-1)] : Graph Nat Rat Nat).allPairs.items = [(1, ⟨[(1, .fin 0)]⟩)] ∧
    WalkOf (run [W 1 1 (-1)] : Graph Nat Rat Nat).edge 1 1 [1, 1] (-1) :=
  ⟨by decide +kernel, by decide +kernel, by decide +kernel, by decide +kernel⟩

/-- a negative cycle: `1 → 2 → 1` of value -4; a graph with a negative value and no negative cycle -/
example : (∃ p c, WalkOf (noLoops (run [W 1 2 1, W 2 1 (-5), W 2 3 1] : Graph Nat Rat Nat).edge) 1 1 p c ∧ c < 0) ∧
    (negValG.allPairs.items.all fun r => (r.2.get? r.1 == some (.fin 0))) = true :=
  ⟨⟨[1, 2, 1], -4, ⟨by decide +kernel, by decide +kernel, by decide +kernel⟩, by decide +kernel⟩, by decide +kernel⟩

/-! ### C105 -/

/-- **C105**. With arbitrary edge values, whenever `shortest_path_bidirectional(start, end, avoids)` returns, it returns a walk from `start` to `end`, with
no nodes of `avoids` other than `start` and `end`, together with its total value, or `(inf, [])`, and that only if no walk avoids `avoids`; no
exception is raised. If no closed walk has a negative value it returns.  Missing nodes raise `ValueError`. -/
theorem C105_bidirectional_any_values {g : Graph α Rat O} (hg : g.Built) (start fin : α) (avoids : List α)
    {srt : List (α × Rat) → List (α × Rat)} (hsrt : ∀ l, (srt l).Perm l) :
    (g.has start = true → g.has fin = true → ∀ r, g.shortestPathBi srt start fin avoids = some r →
      ∃ d p, r = .ok (d, p) ∧ ((∃ c, d = .fin c ∧ WalkOf g.edge start fin p c ∧ ∀ x ∈ p, x ∉ avoids ∨ x = start ∨ x = fin) ∨
        (d = .inf ∧ p = [] ∧ ¬ ∃ q c, AvoidWalk g.edge avoids start fin q c))) ∧
    (g.has start = true → g.has fin = true → NoNegCycle g.edge → ∃ r, g.shortestPathBi srt start fin avoids = some r) ∧
    (¬ (g.has start = true ∧ g.has fin = true) → g.shortestPathBi srt start fin avoids = some (.error .valueError)) :=
  ⟨fun hs hf => (shortestPathBi_any hg.inv avoids hsrt hs hf).1, fun hs hf => (shortestPathBi_any hg.inv avoids hsrt hs hf).2,
    shortestPathBi_error avoids srt⟩

def loopG : Graph Nat Rat Nat := run [W 1 1 (-1), W 2 1 1]

/-- **C105**: with a negative cycle it may run forever: here `end` cannot be reached, and the search goes round the cycle.  (`shortest_path` returns.) -/
theorem C105_diverges_counterexample : loopG.Built ∧ loopG.has 1 = true ∧ loopG.has 2 = true ∧ loopG.shortestPathBi id 1 2 = none ∧
    loopG.shortestPath 1 2 = some (.ok (.inf, [])) := by
  refine ⟨⟨_, rfl⟩, by decide +kernel, by decide +kernel, ?_, sp_eval 20 (by decide +kernel) (by decide +kernel) (by decide +kernel)⟩
  unfold shortestPathBi
  rw [if_neg (by decide +kernel), if_neg (by decide +kernel)]
  have h1 : biStep loopG.outNbr loopG.inNbr id [] (Side.init 1, Side.init 2) =
      .inl (⟨[⟨-1, 1, [1]⟩], [1], ⟨[(1, -1)]⟩, ⟨[(1, [1])]⟩, [], .inf⟩, ⟨[], [2], ⟨[(2, 0)]⟩, ⟨[(2, [])]⟩, [], .inf⟩) := by decide +kernel
  rw [pyWhile_inl h1]
  refine pyWhile_diverges (fun s => ∃ c p q, s = ((⟨[⟨c, 1, p⟩], [1], ⟨[(1, c)]⟩, ⟨[(1, q)]⟩, [], .inf⟩ : Side Nat),
    (⟨[], [2], ⟨[(2, 0)]⟩, ⟨[(2, [])]⟩, [], .inf⟩ : Side Nat))) ?_ ⟨-1, [1], [1], rfl⟩
  rintro _ ⟨c, p, q, rfl⟩
  have ho : loopG.outNbr 1 = [(1, -1)] := by decide +kernel
  refine ⟨_, ?_, c + -1, 1 :: p, 1 :: p, rfl⟩
  have hlt : (c + -1 : Rat) < c := by grind
  simp [biStep, Side.search, intercept, ho, gtExt, biRelax, overBound, improves, Side.update, Ext.gt, Dict.get?, Dict.set, sadd, insort, hlt, aget, aset]

def negBiG : Graph Nat Rat Nat := run [W 1 2 5, W 2 3 (-10), W 3 4 5, W 1 4 1]

/-- **C105**: with a negative value, even without negative cycles, the walk need not be the shortest: 1 is returned, although `1 → 2 → 3 → 4` has the value 0 -/
theorem C105_not_shortest_counterexample : negBiG.Built ∧ Acyclic negBiG.Adj ∧ negBiG.shortestPathBi id 1 4 = some (.ok (.fin 1, [1, 4])) ∧
    WalkOf negBiG.edge 1 4 [1, 2, 3, 4] 0 :=
  ⟨⟨_, rfl⟩, acyclic_of_edgeList ⟨_, rfl⟩ id (by decide +kernel), bi_eval 20 (by decide +kernel) (by decide +kernel) (by decide +kernel),
    by decide +kernel, by decide +kernel, by decide +kernel⟩

/-- a closed walk in a graph whose edges lead upwards has no edge -/
theorem noNegCycle_of_rank {w : α → α → Option Rat} (f : α → Nat) (h : ∀ a b c, w a b = some c → f a < f b) : NoNegCycle w := by
  have key : ∀ (p : List α) a b c, WalkOf w a b p c → (a = b ∧ c = 0) ∨ f a < f b := by
    intro p
    induction p with
    | nil => intro a b c hp; exact absurd rfl hp.ne_nil
    | cons x p ih =>
      intro a b c hp
      rcases hp.inv with ⟨_, h2, h3⟩ | ⟨y, q, c', d', h1, h2, h3, _⟩
      · exact .inl ⟨h2, h3⟩
      · simp only [List.cons.injEq] at h1
        obtain ⟨rfl, rfl⟩ := h1
        have := h _ _ _ h2
        rcases ih y b d' h3 with ⟨e, _⟩ | h4
        · subst e; exact .inr this
        · exact .inr (by omega)
  intro a p c hp
  rcases key p a a c hp with ⟨_, h⟩ | h
  · rw [h]; exact Rat.le_refl
  · omega

/-- a graph with a negative value and no negative cycle meets the hypothesis -/
example : negBiG.Built ∧ NoNegCycle negBiG.edge ∧ ¬ NonNeg negBiG.edge := by
  refine ⟨⟨_, rfl⟩, noNegCycle_of_rank id (fun a b c h => ?_), fun h => ?_⟩
  · have hall : negBiG.edgeList.all (fun e => decide (e.1 < e.2.1)) = true := by decide +kernel
    exact of_decide_eq_true (List.all_eq_true.1 hall _ ((Built.inv ⟨_, rfl⟩ : negBiG.Inv).mem_edgeList.2 h))
  · exact absurd (h 2 3 (-10) (by decide +kernel)) (by decide +kernel)

/-! ### C31: where the walk stops -/

/-- **C31**, errors and infinities, in the order the path is read. Let the part of the path up to `a` be travelable (sum of its legs is a number). If the
next leg `a → b` has a node that is not in the graph, ValueError is raised. If both are in the graph and `b` cannot be reached from `a`, infinity is
returned at once: what comes after `b` is not looked at, even if it is not in the graph. -/
theorem C31_errors {g : Graph α Rat O} (hg : g.Built) (hw : NonNeg g.edge) {pre rest : List α} {a b : α} {q : Rat}
    (hp : ∀ x ∈ pre, g.has x = true) (hq : SumLegs g.edge (pre ++ [a]) (.fin q)) :
    (¬ (g.has a = true ∧ g.has b = true) → g.distanceFromPath (pre ++ a :: b :: rest) = some (.error .valueError)) ∧
    (g.has a = true → g.has b = true → (¬ ∃ p c, WalkOf g.edge a b p c) → g.distanceFromPath (pre ++ a :: b :: rest) = some (.ok .inf)) :=
  distanceFromPath_stops hg.inv hw hp hq

/-- the leg after `8 → 9` leads to a node that is not there, or to one that cannot be reached (with a missing node after it) -/
example : spG.Built ∧ NonNeg spG.edge ∧ (∀ x ∈ [8], spG.has x = true) ∧ SumLegs spG.edge ([8] ++ [9]) (.fin 1) ∧
    spG.distanceFromPath [8, 9, 99, 4] = some (.error .valueError) ∧ spG.distanceFromPath [8, 9, 1, 99] = some (.ok .inf) := by
  have h : SumLegs spG.edge ([8] ++ [9]) (.fin 1) := SumLegs.of_walkCost (by decide +kernel)
  have h9 : ∀ b c, spG.edge 9 b = some c → False := fun b c hb => by
    have := spG_built.inv.mem_edgeList.2 hb
    have hall : spG.edgeList.all (fun e => decide (e.1 ≠ 9)) = true := by decide +kernel
    exact absurd rfl (of_decide_eq_true (List.all_eq_true.1 hall _ this))
  refine ⟨spG_built, spG_nonneg, by decide, h,
    (C31_errors spG_built spG_nonneg (pre := [8]) (by decide) h).1 (by decide),
    (C31_errors spG_built spG_nonneg (pre := [8]) (by decide) h).2 (by decide) (by decide) ?_⟩
  rintro ⟨p, c, hp⟩
  rcases WalkOf.inv hp with ⟨_, h1, _⟩ | ⟨b, q, c', d', _, h7, _⟩
  · exact absurd h1 (by decide)
  · exact h9 _ _ h7

end GT

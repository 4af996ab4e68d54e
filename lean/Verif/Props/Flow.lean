import Verif.Props.Sp
import Verif.Flow.Partite
import Verif.Flow.Eval
/-
Property theorems C38–C43: partitions, flows, assignments.
-/
namespace GT
open Graph
variable {α V O : Type} [DecidableEq α]

/-! ### C38 -/

/-- the pairs of the directed triangle -/
def triG : Graph Nat Rat Nat := run [W 1 2 1, W 2 3 1, W 3 1 1]
/-- a triangle in both directions -/
def tri2G : Graph Nat Rat Nat := run [W 1 2 1, W 2 1 1, W 2 3 1, W 3 2 1, W 3 1 1, W 1 3 1]
/-- the path `1 - 2 - 3` in both directions -/
def path2G : Graph Nat Rat Nat := run [W 1 2 1, W 2 1 1, W 2 3 1, W 3 2 1]

theorem isPartite_graph {g : Graph α V O} (hg : g.Built) {pop : List α → α} (hpop : ∀ l, l ≠ [] → pop l ∈ l) {n : Nat} (hn : 1 ≤ n)
    (hne : g.nodeList ≠ []) : ∃ r, g.isPartite pop n = some r ∧ PtPost g.Adj n (pop g.nodeList) r := by
  unfold isPartite
  obtain ⟨r, h1, h2⟩ := isPartite_main (A := g.Adj) (U := g.nodeList)
    (fun x y hxy => by obtain ⟨v, hv⟩ := Option.isSome_iff_exists.1 hxy; exact hg.inv.edge_mem hv)
    (fr := g.nodesFrom) (to := g.nodesTo) (fun x y => mem_nodesFrom) (fun x y => hg.inv.mem_nodesTo) hn (hpop g.nodeList hne)
  refine ⟨r, ?_, h2⟩
  split
  · rename_i h; exact absurd h hne
  · exact h1

/-- **C38**, on every non-empty graph, for `n >= 1` and every choice of `set.pop`: `is_partite(g, n)` returns and never raises.
`False` is right for `n <= 2`: no colouring with `n` colours exists.  The classes returned with `True` are `0..n-1` and disjoint.
Missing: `True` says nothing on directed or disconnected graphs, `False` nothing for `n >= 3` (counterexamples below). -/
theorem C38_is_partite_partial {g : Graph α V O} (hg : g.Built) {pop : List α → α} (hpop : ∀ l, l ≠ [] → pop l ∈ l) {n : Nat} (hn : 1 ≤ n)
    (hne : g.nodeList ≠ []) :
    ∃ r, g.isPartite pop n = some (.ok r) ∧
      (r = none → n ≤ 2 → ¬ Colourable g.Adj n) ∧
      (∀ P, r = some P → P.keys = List.range n ∧
        ∀ i j s t x, P.get? i = some s → P.get? j = some t → x ∈ s → x ∈ t → i = j) := by
  obtain ⟨r, h1, h2⟩ := isPartite_graph hg hpop hn hne
  rcases h2 with ⟨P, X, rfl, h⟩ | ⟨rfl, h⟩
  · exact ⟨some P, h1, (fun h => nomatch h), fun P' hP => by cases hP; exact ⟨h.keys, h.unique⟩⟩
  · exact ⟨none, h1, fun _ h2 => h.not_colourable h2, (fun P hP => nomatch hP)⟩

/-- **C38** on graphs with all edges in both directions that are connected: a partition that is returned contains every node exactly
once, and neighbours are in different classes; for `n <= 2` a partition is returned exactly if one exists. -/
theorem C38_is_partite_connected {g : Graph α V O} (hg : g.Built) {pop : List α → α} (hpop : ∀ l, l ≠ [] → pop l ∈ l) {n : Nat} (hn : 1 ≤ n)
    (hne : g.nodeList ≠ []) (hsym : ∀ a b, g.Adj a b → g.Adj b a)
    (hcon : ∀ a b, g.has a = true → g.has b = true → Reach g.Adj a b) :
    ∃ r, g.isPartite pop n = some (.ok r) ∧
      (∀ P, r = some P → P.keys = List.range n ∧
        (∀ x, g.has x = true → ∃ i s, P.get? i = some s ∧ x ∈ s ∧ ∀ j t, P.get? j = some t → x ∈ t → j = i) ∧
        (∀ x y i s, g.Adj x y → P.get? i = some s → x ∈ s → y ∉ s)) ∧
      (n ≤ 2 → (r ≠ none ↔ Colourable g.Adj n)) := by
  obtain ⟨r, h1, h2⟩ := isPartite_graph hg hpop hn hne
  rcases h2 with ⟨P, X, rfl, h⟩ | ⟨rfl, h⟩
  · have hroot := mem_nodeList.1 (hpop g.nodeList hne)
    have hX : ∀ x, g.has x = true → X x := by
      intro x hx
      obtain ⟨k, hk⟩ := hcon _ _ hroot hx
      have : ∀ k a b, Steps g.Adj k a b → X a → X b := by
        intro k a b hs
        induction hs with
        | zero => exact id
        | @succ j a b c _ hbc ih => exact fun ha => h.clo b c (ih ha) hbc (hsym _ _ hbc)
      exact this k _ _ hk h.root
    have hsep : ∀ x y i s, g.Adj x y → P.get? i = some s → x ∈ s → y ∉ s := by
      intro x y i s hxy hs hx hy
      obtain ⟨v, hv⟩ := Option.isSome_iff_exists.1 hxy
      obtain ⟨i1, j1, s1, t1, e1, e2, e3, e4, e5⟩ := h.exp x y (hX x (has_iff.2 (hg.inv.edge_mem hv).1)) (.inl hxy)
      have a1 := h.unique i1 i s1 s x e1 hs e3 hx
      have a2 := h.unique j1 i t1 s y e2 hs e4 hy
      exact e5 (.inr ⟨hxy, hsym _ _ hxy⟩) (a1.trans a2.symm)
    refine ⟨some P, h1, fun P' hP => ?_, fun _ => ⟨fun _ => ?_, fun _ => (fun h => nomatch h)⟩⟩
    · cases hP
      refine ⟨h.keys, fun x hx => ?_, hsep⟩
      obtain ⟨i, s, h3, h4⟩ := h.cov x (hX x hx)
      exact ⟨i, s, h3, h4, fun j t h5 h6 => h.unique j i t s x h5 h3 h6 h4⟩
    · -- the classes are a colouring
      have hcov : ∀ x, ∃ i, i < n ∧ (g.has x = true → ∃ s, P.get? i = some s ∧ x ∈ s) := by
        intro x
        by_cases hx : g.has x = true
        · obtain ⟨i, s, h3, h4⟩ := h.cov x (hX x hx)
          have := Dict.mem_keys_of_get? h3
          rw [h.keys, List.mem_range] at this
          exact ⟨i, this, fun _ => ⟨s, h3, h4⟩⟩
        · exact ⟨0, hn, fun hh => absurd hh hx⟩
      refine ⟨fun x => Classical.choose (hcov x), fun x => (Classical.choose_spec (hcov x)).1, fun x y hxy he => ?_⟩
      obtain ⟨v, hv⟩ := Option.isSome_iff_exists.1 hxy
      have hm := hg.inv.edge_mem hv
      obtain ⟨s, h3, h4⟩ := (Classical.choose_spec (hcov x)).2 (has_iff.2 hm.1)
      obtain ⟨t, h5, h6⟩ := (Classical.choose_spec (hcov y)).2 (has_iff.2 hm.2)
      have he : Classical.choose (hcov x) = Classical.choose (hcov y) := he
      rw [← he, h3] at h5; cases h5
      exact hsep x y _ s hxy h3 h4 h6
  · exact ⟨none, h1, (fun P hP => nomatch hP), fun hn2 => ⟨fun h => absurd rfl h, fun hc => absurd hc (h.not_colourable hn2)⟩⟩

/-- an empty graph has no node to pop, and without colours the first node cannot be painted -/
theorem C38_errors {g : Graph α V O} (pop : List α → α) :
    (∀ n, g.nodeList = [] → g.isPartite pop n = some (.error .keyError)) ∧
    g.isPartite pop 0 = some (.error .keyError) := by
  refine ⟨fun n h => ?_, ?_⟩
  · unfold isPartite; rw [h]
  · unfold isPartite
    split
    · rfl
    · rw [pyWhile_eq]; rfl

/-- evaluation of `is_partite` -/
theorem pt_eval {g : Graph α V O} {pop : List α → α} {n k : Nat} {r} (hne : g.nodeList ≠ [])
    (h : runFuel (ptStep g.bothNbr n) k ⟨[pop g.nodeList], [], Dict.comp (List.range n) (fun _ => []), Dict.empty, 0⟩ = some r) :
    g.isPartite pop n = some r := by
  unfold isPartite
  split
  · rename_i h; exact absurd h hne
  · exact pyWhile_of_runFuel h

/-- the pop of the examples: the first node -/
def popFirst (l : List Nat) : Nat := l.headD 0

theorem popFirst_mem (l : List Nat) (h : l ≠ []) : popFirst l ∈ l := by
  cases l with
  | nil => exact absurd rfl h
  | cons a l => simp [popFirst]

/-- the hypotheses are met by the path `1 - 2 - 3`, which has the partition `{1, 3}, {2}` -/
example : path2G.Built ∧ path2G.nodeList ≠ [] ∧ (∀ a b, path2G.Adj a b → path2G.Adj b a) ∧
    (∀ a b, path2G.has a = true → path2G.has b = true → Reach path2G.Adj a b) ∧
    path2G.isPartite popFirst 2 = some (.ok (some ⟨[(0, [1, 3]), (1, [2])]⟩)) := by
  have hb : path2G.Built := ⟨_, rfl⟩
  refine ⟨hb, by decide, ?_, ?_, pt_eval (k := 20) (by decide +kernel) (by decide +kernel)⟩
  · intro a b h
    have : (a, b) ∈ path2G.edgeList.map (fun e => (e.1, e.2.1)) := by
      obtain ⟨v, hv⟩ := Option.isSome_iff_exists.1 h
      exact List.mem_map.2 ⟨(a, b, v), hb.inv.mem_edgeList.2 hv, rfl⟩
    have key : ∀ p ∈ path2G.edgeList.map (fun e => (e.1, e.2.1)), (path2G.edge p.2 p.1).isSome = true := by decide +kernel
    exact key (a, b) this
  · intro a b ha hb'
    rw [← mem_nodeList] at ha hb'
    have h12 : Steps path2G.Adj 1 1 2 := .succ (.zero _) (by decide +kernel)
    have h21 : Steps path2G.Adj 1 2 1 := .succ (.zero _) (by decide +kernel)
    have h23 : Steps path2G.Adj 1 2 3 := .succ (.zero _) (by decide +kernel)
    have h32 : Steps path2G.Adj 1 3 2 := .succ (.zero _) (by decide +kernel)
    have h13 : Steps path2G.Adj 2 1 3 := .succ h12 (by decide +kernel)
    have h31 : Steps path2G.Adj 2 3 1 := .succ h32 (by decide +kernel)
    have hl : path2G.nodeList = [1, 2, 3] := by decide +kernel
    rw [hl] at ha hb'
    simp only [List.mem_cons, List.not_mem_nil, or_false] at ha hb'
    rcases ha with rfl | rfl | rfl <;> rcases hb' with rfl | rfl | rfl
    · exact ⟨0, .zero _⟩
    · exact ⟨1, h12⟩
    · exact ⟨2, h13⟩
    · exact ⟨1, h21⟩
    · exact ⟨0, .zero _⟩
    · exact ⟨1, h23⟩
    · exact ⟨2, h31⟩
    · exact ⟨1, h32⟩
    · exact ⟨0, .zero _⟩

/-- **C38** fails on directed graphs: a directed triangle is reported bipartite, although no 2-colouring exists. -/
theorem C38_directed_counterexample :
    triG.Built ∧ triG.isPartite popFirst 2 = some (.ok (some ⟨[(0, [1]), (1, [2, 3])]⟩)) ∧ ¬ Colourable triG.Adj 2 := by
  refine ⟨⟨_, rfl⟩, pt_eval (k := 20) (by decide +kernel) (by decide +kernel), ?_⟩
  rintro ⟨f, h1, h2⟩
  have a := h2 1 2 (by decide +kernel)
  have b := h2 2 3 (by decide +kernel)
  have c := h2 3 1 (by decide +kernel)
  have := h1 1; have := h1 2; have := h1 3
  omega

/-- **C38** fails for three classes: a triangle in both directions is reported not 3-partite, although a colouring exists. -/
theorem C38_three_counterexample :
    tri2G.Built ∧ tri2G.isPartite popFirst 3 = some (.ok none) ∧ Colourable tri2G.Adj 3 := by
  have hb : tri2G.Built := ⟨_, rfl⟩
  refine ⟨hb, pt_eval (k := 20) (by decide +kernel) (by decide +kernel), fun x => x % 3, fun x => Nat.mod_lt x (by decide), fun x y h => ?_⟩
  obtain ⟨v, hv⟩ := Option.isSome_iff_exists.1 h
  have : (x, y) ∈ tri2G.edgeList.map (fun e => (e.1, e.2.1)) := List.mem_map.2 ⟨(x, y, v), hb.inv.mem_edgeList.2 hv, rfl⟩
  have key : ∀ p ∈ tri2G.edgeList.map (fun e => (e.1, e.2.1)), p.1 % 3 ≠ p.2 % 3 := by decide +kernel
  exact key (x, y) this

/-- **C38** fails on disconnected graphs: only the component of the popped node is looked at. -/
theorem C38_disconnected_counterexample :
    ∃ g : Graph Nat Rat Nat, g.Built ∧ (∀ a b, g.Adj a b → g.Adj b a) ∧
      (∃ P, g.isPartite popFirst 2 = some (.ok (some P))) ∧ ¬ Colourable g.Adj 2 := by
  let g : Graph Nat Rat Nat := run [W 8 9 1, W 9 8 1, W 1 2 1, W 2 1 1, W 2 3 1, W 3 2 1, W 3 1 1, W 1 3 1]
  have hb : g.Built := ⟨_, rfl⟩
  refine ⟨g, hb, fun a b h => ?_, ⟨⟨[(0, [8]), (1, [9])]⟩, pt_eval (k := 20) (by decide +kernel) (by decide +kernel)⟩, ?_⟩
  · obtain ⟨v, hv⟩ := Option.isSome_iff_exists.1 h
    have : (a, b) ∈ g.edgeList.map (fun e => (e.1, e.2.1)) := List.mem_map.2 ⟨(a, b, v), hb.inv.mem_edgeList.2 hv, rfl⟩
    have key : ∀ p ∈ g.edgeList.map (fun e => (e.1, e.2.1)), (g.edge p.2 p.1).isSome = true := by decide +kernel
    exact key (a, b) this
  · rintro ⟨f, h1, h2⟩
    have a := h2 1 2 (by decide +kernel)
    have b := h2 2 3 (by decide +kernel)
    have c := h2 3 1 (by decide +kernel)
    have := h1 1; have := h1 2; have := h1 3
    omega

/-! ### C39 -/

/-- **C39**, without maximality in general: for non-negative capacities and `start ≠ end` in the graph `maximum_flow` returns
`(total, flows)`; the flows respect the capacities, are conserved at all other nodes and have the value `total`.  Either no flow
has a larger value, or every path from `start` to `end` has an edge without capacity left (a blocking flow).
Missing: a blocking flow need not be maximal (`C39_counterexample`). -/
theorem C39_maximum_flow_partial {g : Graph α Rat O} (hg : g.Built) (hc : NonNeg g.edge) {start fin : α} (hne : start ≠ fin)
    (hs : g.has start = true) (hf : g.has fin = true) :
    ∃ total f, g.maximumFlow start fin = some (.ok (total, f)) ∧
      IsFlow g.nodeList g.edge start fin (fun a b => (f.edge a b).getD 0) total ∧
      (∀ a b v, f.edge a b = some v → 0 < v) ∧
      (IsMaxFlowValue g.nodeList g.edge start fin total ∨ Blocking g.edge start fin (fun a b => (f.edge a b).getD 0)) := by
  obtain ⟨r, hr, total, f, rfl, h1, _, h2, h3, h4, h5, h6⟩ := maximumFlow_main hg.inv hc hne hs hf
  refine ⟨total, f, hr, h2, h3, ?_⟩
  rcases h6 with h6 | h6
  · exact .inl ⟨⟨_, h2⟩, fun F v hF => MfPost.maximal hg.inv hne hs hf h6 hF⟩
  · exact .inr h6

/-- **C39**: the value is maximal whenever it equals all capacity out of `start` or all capacity into `end`; in general it is at
most that, and `0 ≤ total`. -/
theorem C39_value_bounds {g : Graph α Rat O} (hg : g.Built) (hc : NonNeg g.edge) {start fin : α} (hne : start ≠ fin)
    (hs : g.has start = true) (hf : g.has fin = true) {total : Rat} {f : Graph α Rat O}
    (hr : g.maximumFlow start fin = some (.ok (total, f))) :
    0 ≤ total ∧ total ≤ sumL g.nodeList (fun y => capOf g.edge start y) ∧ total ≤ sumL g.nodeList (fun y => capOf g.edge y fin) ∧
    (total = sumL g.nodeList (fun y => capOf g.edge start y) ∨ total = sumL g.nodeList (fun y => capOf g.edge y fin) →
      IsMaxFlowValue g.nodeList g.edge start fin total) := by
  obtain ⟨r, hr', total', f', rfl, h1, _, h2, h3, h4, h5, h6⟩ := maximumFlow_main hg.inv hc hne hs hf
  rw [hr] at hr'; cases hr'
  have l1 := h2.le_out
  have l2 := h2.le_in hg.inv.nodesWF hne (has_iff.1 hs) (has_iff.1 hf)
  refine ⟨?_, l1, l2, ?_⟩
  · have hv := h2.value
    have h0 : sumL g.nodeList (fun y => flowOf f y start) = 0 := sumL_eq_zero (fun y _ => by unfold flowOf; rw [h5]; rfl)
    have h7 := sumL_nonneg (l := g.nodeList) (f := fun y => flowOf f start y) (fun y _ => h2.nonneg start y)
    rw [h0] at hv; grind
  · rintro (he | he)
    · exact ⟨⟨_, h2⟩, fun F v hF => by rw [he]; exact hF.le_out⟩
    · exact ⟨⟨_, h2⟩, fun F v hF => by rw [he]; exact hF.le_in hg.inv.nodesWF hne (has_iff.1 hs) (has_iff.1 hf)⟩

/-- missing nodes raise `ValueError`; so does `start = end`, exactly if an edge with a positive capacity leaves the node and one enters it;
otherwise the flow is 0 -/
theorem C39_errors {g : Graph α Rat O} (hg : g.Built) (hc : NonNeg g.edge) (start fin : α) :
    (¬ (g.has start = true ∧ g.has fin = true) → g.maximumFlow start fin = some (.error .valueError)) ∧
    (g.has start = true → (∃ b c, g.edge start b = some c ∧ 0 < c) → (∃ a c, g.edge a start = some c ∧ 0 < c) →
      g.maximumFlow start start = some (.error .valueError)) ∧
    (g.has start = true → ¬ ((∃ b c, g.edge start b = some c ∧ 0 < c) ∧ ∃ a c, g.edge a start = some c ∧ 0 < c) →
      g.maximumFlow start start = some (.ok (0, Graph.empty))) := by
  have hcap : ∀ {a b : α} {c}, g.edge a b = some c → capOf g.edge a b = c := fun h => by unfold capOf; rw [h]; rfl
  have hcap' : ∀ {a b : α}, 0 < capOf g.edge a b → ∃ c, g.edge a b = some c ∧ 0 < c := fun {a b} h => by
    cases he : g.edge a b with
    | none => unfold capOf at h; rw [he] at h; exact absurd h (by decide)
    | some c => exact ⟨c, rfl, hcap he ▸ h⟩
  obtain ⟨h1, h2, h3⟩ := mfBound_eq hg.inv start start
  refine ⟨maximumFlow_missing, fun hs hb ha => ?_, fun hs hno => ?_⟩
  · rw [maximumFlow_same hg.inv hc hs, if_neg]
    obtain ⟨b, c, hb, hb'⟩ := hb
    obtain ⟨a, d, ha, ha'⟩ := ha
    have h4 := sumL_le_single (l := g.nodeList) (fun y _ => capOf_nonneg hc start y) (hg.inv.edge_mem hb).2
    have h5 := sumL_le_single (l := g.nodeList) (fun y _ => capOf_nonneg hc y start) (hg.inv.edge_mem ha).1
    rw [hcap hb] at h4
    rw [hcap ha] at h5
    rcases h1 with h1 | h1 <;> rw [h1] <;> grind
  · rw [maximumFlow_same hg.inv hc hs, if_pos]
    refine Classical.byContradiction fun h0 => hno ?_
    have h4 := sumL_nonneg (l := g.nodeList) (fun y _ => capOf_nonneg hc start y)
    have h5 := sumL_nonneg (l := g.nodeList) (fun y _ => capOf_nonneg hc y start)
    obtain ⟨y, _, hy⟩ := exists_pos_of_sumL_pos (l := g.nodeList) (f := fun y => capOf g.edge start y) (by
      rcases h1 with h1 | h1 <;> rw [h1] at h0 h2 h3 <;> grind)
    obtain ⟨z, _, hz⟩ := exists_pos_of_sumL_pos (l := g.nodeList) (f := fun y => capOf g.edge y start) (by
      rcases h1 with h1 | h1 <;> rw [h1] at h0 h2 h3 <;> grind)
    exact ⟨⟨y, hcap' hy⟩, z, hcap' hz⟩

/-- the network of the counterexample: `1 → 2` (10), `2 → 3` (10), `3 → 4` (10), `2 → 4` (1), `1 → 3` (1) -/
def flowG : Graph Nat Rat Nat := run [W 1 2 10, W 2 3 10, W 3 4 10, W 2 4 1, W 1 3 1]

theorem flowG_built : flowG.Built := ⟨_, rfl⟩
theorem flowG_nonneg : NonNeg flowG.edge := nonneg_of_edgeList flowG_built (by decide +kernel)

/-- `start = end`: flow could go round `1 → 2 → 1`, and `ValueError` is raised; nothing enters node 1 of `flowG` -/
example : (run [W 1 2 1, W 2 1 3] : Graph Nat Rat Nat).maximumFlow 1 1 = some (.error .valueError) ∧
    (∃ c, flowG.edge 1 2 = some c ∧ 0 < c) ∧ flowG.maximumFlow 1 1 = some (.ok (0, Graph.empty)) := by
  refine ⟨(C39_errors ⟨_, rfl⟩ (nonneg_of_edgeList ⟨_, rfl⟩ (by decide +kernel)) 1 1).2.1 (by decide +kernel) ⟨2, 1, by decide +kernel, by decide +kernel⟩
    ⟨2, 3, by decide +kernel, by decide +kernel⟩, ⟨10, by decide +kernel, by decide +kernel⟩, ?_⟩
  refine (C39_errors flowG_built flowG_nonneg 1 1).2.2 (by decide +kernel) ?_
  rintro ⟨_, a, c, h, _⟩
  have hall : flowG.edgeList.all (fun e => decide (e.2.1 ≠ 1)) = true := by decide +kernel
  exact absurd rfl (of_decide_eq_true (List.all_eq_true.1 hall _ (flowG_built.inv.mem_edgeList.2 h)))

/-- a flow of value 11 through `flowG` -/
def flow11 (a b : Nat) : Rat :=
  if (a, b) = (1, 2) then 10 else if (a, b) = (1, 3) then 1 else if (a, b) = (2, 3) then 9 else if (a, b) = (2, 4) then 1
  else if (a, b) = (3, 4) then 10 else 0

theorem flow11_zero {a b : Nat} (h : (a, b) ∉ [(1, 2), (1, 3), (2, 3), (2, 4), (3, 4)]) : flow11 a b = 0 := by
  simp only [List.mem_cons, List.not_mem_nil, not_or] at h
  unfold flow11
  rw [if_neg h.1, if_neg h.2.1, if_neg h.2.2.1, if_neg h.2.2.2.1, if_neg h.2.2.2.2.1]

theorem flow11_isFlow : IsFlow flowG.nodeList flowG.edge 1 4 flow11 11 := by
  have key : ∀ p ∈ [(1, 2), (1, 3), (2, 3), (2, 4), (3, 4)], 0 ≤ flow11 p.1 p.2 ∧ flow11 p.1 p.2 ≤ capOf flowG.edge p.1 p.2 := by decide +kernel
  refine ⟨fun a b => ?_, fun a b => ?_, by decide +kernel, by decide +kernel⟩
  · by_cases h : (a, b) ∈ [(1, 2), (1, 3), (2, 3), (2, 4), (3, 4)]
    · exact (key _ h).1
    · rw [flow11_zero h]; exact Rat.le_refl
  · by_cases h : (a, b) ∈ [(1, 2), (1, 3), (2, 3), (2, 4), (3, 4)]
    · exact (key _ h).2
    · rw [flow11_zero h]; exact capOf_nonneg flowG_nonneg a b

/-- **C39** fails: `maximum_flow` never takes flow back from an edge; it returns 10 where 11 is possible. -/
theorem C39_counterexample :
    flowG.Built ∧ NonNeg flowG.edge ∧ (∃ f, flowG.maximumFlow 1 4 = some (.ok (10, f))) ∧
    IsFlow flowG.nodeList flowG.edge 1 4 flow11 11 := by
  refine ⟨flowG_built, flowG_nonneg, ?_, flow11_isFlow⟩
  have : ((mfF 30 flowG 1 4).map (fun r => match r with | .ok (t, _) => decide (t = 10) | .error _ => false)) = some true := by decide +kernel
  cases h : mfF 30 flowG 1 4 with
  | none => rw [h] at this; cases this
  | some r =>
    rw [h] at this
    cases r with
    | error e => cases this
    | ok x =>
      obtain ⟨t, f⟩ := x
      simp at this
      subst this
      exact ⟨f, mfF_ok h⟩

/-- an instance that is solved exactly: `1 → 2 → 4` and `1 → 3 → 4` -/
def okG : Graph Nat Rat Nat := run [W 1 2 3, W 2 4 2, W 1 3 1, W 3 4 5]

example : okG.Built ∧ NonNeg okG.edge ∧ okG.has 1 = true ∧ okG.has 4 = true ∧
    (mfF 30 okG 1 4).map (fun r => match r with | .ok (t, f) => decide (t = 3 ∧ f.edge 1 2 = some 2 ∧ f.edge 3 4 = some 1) | .error _ => false) = some true :=
  ⟨⟨_, rfl⟩, nonneg_of_edgeList ⟨_, rfl⟩ (by decide +kernel), by decide, by decide, by decide +kernel⟩

/-! ### C40 -/

/-- **C40**, the part that holds: `maximum_flow_min_cut` returns; the returned pairs are distinct edges of the graph whose capacity
is used up by the flow of `maximum_flow` (and so is every edge the flow uses to leave their start node); they are empty if that
flow is 0.  Missing: the edges need not separate `start` from `end` and their capacities need not add up to the maximum flow
(counterexamples). -/
theorem C40_min_cut_partial {g : Graph α Rat O} (hg : g.Built) (hc : NonNeg g.edge) {start fin : α} (hne : start ≠ fin)
    (hs : g.has start = true) (hf : g.has fin = true) :
    ∃ flow f cut, g.maximumFlow start fin = some (.ok (flow, f)) ∧ g.maxFlowMinCut start fin = some (.ok cut) ∧
      cut.Nodup ∧ (flow = 0 → cut = []) ∧
      ∀ a b, (a, b) ∈ cut → (∃ d, g.edge a b = some d ∧ f.edge a b = some d) ∧
        ∀ y v, f.edge a y = some v → g.edge a y = some v := by
  obtain ⟨flow, f, cut, h1, h2, h3, h4⟩ := maxFlowMinCut_main hg.inv hc hne hs hf
  refine ⟨flow, f, cut, h1, h2, ?_, h3, ?_⟩
  · by_cases h0 : flow = 0
    · rw [h3 h0]; exact List.nodup_nil
    · obtain ⟨walk, _, h5⟩ := h4 h0; exact h5.nodup
  · intro a b hab
    by_cases h0 : flow = 0
    · rw [h3 h0] at hab; cases hab
    · obtain ⟨walk, _, h5⟩ := h4 h0
      obtain ⟨_, h6, h7⟩ := (h5.mem a b).1 hab
      refine ⟨h6, fun y v hy => ?_⟩
      obtain ⟨d, h8, h9⟩ := h7 y (by rw [hy]; rfl)
      rw [hy] at h9; cases h9; exact h8

theorem C40_errors {g : Graph α Rat O} (start fin : α) (h : ¬ (g.has start = true ∧ g.has fin = true)) :
    g.maxFlowMinCut start fin = some (.error .valueError) := by
  unfold maxFlowMinCut
  split
  · rfl
  · split
    · rfl
    · rename_i h1 h2; simp at h1 h2; exact absurd ⟨h1, h2⟩ h

/-- **C40** fails: on `1 → 2 → 3` with capacities 5 both edges are returned; their total capacity is 10, the maximum flow 5. -/
theorem C40_too_large_counterexample :
    (run [W 1 2 5, W 2 3 5] : Graph Nat Rat Nat).maxFlowMinCut 1 3 = some (.ok [(1, 2), (2, 3)]) ∧
    (run [W 1 2 5, W 2 3 5] : Graph Nat Rat Nat).edge 1 2 = some 5 ∧ (run [W 1 2 5, W 2 3 5] : Graph Nat Rat Nat).edge 2 3 = some 5 :=
  ⟨mcF_ok (k := 30) (by decide +kernel), by decide +kernel, by decide +kernel⟩

/-- **C40** fails: on `1 → 2` (10), `2 → 4` (1), `2 → 3` (5), `3 → 4` (1) no edge is returned, and `4` is reached from `1`. -/
theorem C40_no_cut_counterexample :
    (run [W 1 2 10, W 2 4 1, W 2 3 5, W 3 4 1] : Graph Nat Rat Nat).maxFlowMinCut 1 4 = some (.ok []) ∧
    Reach (run [W 1 2 10, W 2 4 1, W 2 3 5, W 3 4 1] : Graph Nat Rat Nat).Adj 1 4 :=
  ⟨mcF_ok (k := 30) (by decide +kernel), ⟨2, .succ (.succ (.zero 1) (by decide +kernel : Graph.Adj _ 1 2)) (by decide +kernel : Graph.Adj _ 2 4)⟩⟩

/-- the hypotheses are met, with a minimum cut: `1 → 2` (3), `2 → 3` (5) -/
example : (run [W 1 2 3, W 2 3 5] : Graph Nat Rat Nat).maxFlowMinCut 1 3 = some (.ok [(1, 2)]) :=
  mcF_ok (k := 30) (by decide +kernel)

/-! ### C41 -/

/-- the order of the numbers used as node ids in the examples -/
def natLt (a b : Nat) : Bool := decide (a < b)

theorem natLt_order : NodeOrder natLt :=
  ⟨fun a b h => by unfold natLt at *; rw [decide_eq_true_eq] at h; rw [decide_eq_false_iff_not]; omega,
   fun a b c h1 h2 => by unfold natLt at *; rw [decide_eq_false_iff_not] at *; omega⟩

/-- **C41**, without minimality: for non-negative costs and capacities on the same links, and stock only at nodes of the graph,
`minimum_cost_flow` terminates.  Either it returns `(total, flows)`: the flows are within the capacities, ship only available supply
to existing demand, meet all demand or ship all supply, and `total` is their cost.  Or it raises `Exception`, after it has
shipped until no node with supply left could reach the demand it was working on.
Missing: `total` need not be minimal, and the exception is raised on feasible instances too (counterexamples). -/
theorem C41_min_cost_flow_partial {nlt : α → α → Bool} (ho : NodeOrder nlt) {costs : Graph α Rat O} (hc : costs.Built)
    (hnn : NonNeg costs.edge) {inventory : Dict α Rat} (hwf : inventory.WF)
    (hin : ∀ n v, inventory.get? n = some v → v ≠ 0 → costs.has n = true) {capacity : Option (Graph α Ext O)}
    (hcap : ∀ c, capacity = some c → c.Built ∧ SameLinks costs.edge c.edge ∧ ∀ a b x, c.edge a b = some x → Ext.le (.fin 0) x) :
    let cap := effCap costs.edge (capacity.map (fun c => c.edge))
    let stock := fun n => (inventory.get? n).getD 0
    (∃ total f, costs.minCostFlow nlt inventory capacity = some (.ok (total, f)) ∧
      IsShipment costs.nodeList costs.edge cap stock (fun a b => (f.edge a b).getD 0) ∧
      ShipDone costs.nodeList stock (fun a b => (f.edge a b).getD 0) ∧
      total = shipCost costs.nodeList costs.edge (fun a b => (f.edge a b).getD 0)) ∨
    (costs.minCostFlow nlt inventory capacity = some (.error .exception) ∧
      ∃ F, IsShipment costs.nodeList costs.edge cap stock F ∧ ShipStuck costs.nodeList costs.edge cap stock F) := by
  obtain ⟨capg, h1, h2⟩ := mcfCapacity_ok hc.inv (capacity := capacity) (fun c h => ⟨(hcap c h).1.inv, (hcap c h).2⟩)
  intro cap stock
  have hcc : capg.edge = cap := h2
  have := minCostFlow_main ho hc.inv hnn hwf hin h1 ?_ ?_
  · rw [hcc] at this
    rcases this with ⟨t, f, a1, _, a2, a3, a4⟩ | ⟨a1, a2⟩
    · exact .inl ⟨t, f, a1, a2, a3, a4⟩
    · exact .inr ⟨a1, a2⟩
  · intro a b hab
    rw [hcc]
    show (effCap _ _ a b).isSome
    cases capacity with
    | none => simp [effCap, hab]
    | some c => show (c.edge a b).isSome; rw [← (hcap c rfl).2.1 a b]; exact hab
  · intro a b x hx
    rw [hcc] at hx
    cases capacity with
    | none =>
      have hx : (costs.edge a b).map (fun _ => Ext.inf) = some x := hx
      cases he : costs.edge a b with
      | none => rw [he] at hx; cases hx
      | some v => rw [he] at hx; cases hx; exact trivial
    | some c => exact (hcap c rfl).2.2 a b x hx

/-- negative costs, negative capacities and capacities on other links than the costs raise `ValueError` -/
theorem C41_errors {nlt : α → α → Bool} {costs : Graph α Rat O} (hc : costs.Built) {inventory : Dict α Rat}
    {capacity : Option (Graph α Ext O)} (hci : ∀ c, capacity = some c → c.Built)
    (h : (∃ a b v, costs.edge a b = some v ∧ v < 0) ∨
      ∃ c, capacity = some c ∧ ((∃ a b, (costs.edge a b).isSome ≠ (c.edge a b).isSome) ∨ ∃ a b q, c.edge a b = some (.fin q) ∧ q < 0)) :
    costs.minCostFlow nlt inventory capacity = some (.error .valueError) := by
  refine minCostFlow_bad hc.inv (fun c h => (hci c h).inv) ?_
  rintro ⟨h1, h2⟩
  rcases h with ⟨a, b, v, h3, h4⟩ | ⟨c, rfl, ⟨a, b, h3⟩ | ⟨a, b, q, h3, h4⟩⟩
  · have := h1 a b v h3; grind
  · exact h3 ((h2 c rfl).1 a b)
  · have : Ext.le (.fin 0) (.fin q) := (h2 c rfl).2 a b _ h3
    have : (0:Rat) ≤ q := this
    grind

/-- two suppliers 1, 2 and two customers 3, 4 -/
def shipG : Graph Nat Rat Nat := run [W 1 3 1, W 2 3 2, W 1 4 1, W 2 4 10]
def shipInv : Dict Nat Rat := ⟨[(1, 1), (2, 1), (3, -1), (4, -1)]⟩
/-- the cheapest shipment: `1 → 4`, `2 → 3` -/
def shipBest (a b : Nat) : Rat := if (a, b) = (1, 4) then 1 else if (a, b) = (2, 3) then 1 else 0

/-- **C41** fails: the demands are served one after the other, each from the nearest supply; 11 is returned where 3 is possible. -/
theorem C41_not_minimal_counterexample :
    shipG.Built ∧ NonNeg shipG.edge ∧ (∃ f, shipG.minCostFlow natLt shipInv none = some (.ok (11, f))) ∧
    IsShipment shipG.nodeList shipG.edge (effCap shipG.edge none) (fun n => (shipInv.get? n).getD 0) shipBest ∧
    (∀ n ∈ shipG.nodeList, netOut shipG.nodeList shipBest n = (shipInv.get? n).getD 0) ∧
    shipCost shipG.nodeList shipG.edge shipBest = 3 := by
  have hb : shipG.Built := ⟨_, rfl⟩
  refine ⟨hb, nonneg_of_edgeList hb (by decide +kernel), ?_, ?_, by decide +kernel, by decide +kernel⟩
  · have : ((mcfF 60 natLt shipG shipInv none).map (fun r => match r with | .ok (t, _) => decide (t = 11) | .error _ => false)) = some true := by decide +kernel
    cases h : mcfF 60 natLt shipG shipInv none with
    | none => rw [h] at this; cases this
    | some r =>
      rw [h] at this
      cases r with
      | error e => cases this
      | ok x =>
        obtain ⟨t, f⟩ := x
        simp at this
        subst this
        exact ⟨f, mcfF_ok h⟩
  · have hz : ∀ a b, shipBest a b ≠ 0 → (a, b) = (1, 4) ∨ (a, b) = (2, 3) := by
      intro a b h
      unfold shipBest at h
      by_cases h1 : (a, b) = (1, 4)
      · exact .inl h1
      · by_cases h2 : (a, b) = (2, 3)
        · exact .inr h2
        · rw [if_neg h1, if_neg h2] at h; exact absurd rfl h
    refine ⟨fun a b => ?_, fun a b h => ?_, fun a b h => ?_, by decide +kernel, by decide +kernel⟩
    · unfold shipBest; split
      · decide
      · split <;> decide
    · rcases hz a b h with h | h <;> cases h <;> decide +kernel
    · rcases hz a b h with h | h <;> cases h <;> exact ⟨.inf, by decide +kernel, trivial⟩

/-- **C41** fails: with only `1 → 3`, `1 → 4`, `2 → 3` the shipment `1 → 4`, `2 → 3` meets all demand, but `Exception` is raised. -/
theorem C41_exception_counterexample :
    (run [W 1 3 1, W 1 4 1, W 2 3 2] : Graph Nat Rat Nat).minCostFlow natLt shipInv none = some (.error .exception) ∧
    (∀ a b, shipBest a b ≠ 0 → ((run [W 1 3 1, W 1 4 1, W 2 3 2] : Graph Nat Rat Nat).edge a b).isSome) ∧
    ∀ n ∈ (run [W 1 3 1, W 1 4 1, W 2 3 2] : Graph Nat Rat Nat).nodeList,
      netOut (run [W 1 3 1, W 1 4 1, W 2 3 2] : Graph Nat Rat Nat).nodeList shipBest n = (shipInv.get? n).getD 0 := by
  refine ⟨?_, ?_, by decide +kernel⟩
  · have : ((mcfF 60 natLt (run [W 1 3 1, W 1 4 1, W 2 3 2] : Graph Nat Rat Nat) shipInv none).map
        (fun r => match r with | .ok _ => false | .error e => decide (e = .exception))) = some true := by decide +kernel
    cases h : mcfF 60 natLt (run [W 1 3 1, W 1 4 1, W 2 3 2] : Graph Nat Rat Nat) shipInv none with
    | none => rw [h] at this; cases this
    | some r =>
      rw [h] at this
      cases r with
      | ok x => cases this
      | error e => simp at this; subst this; exact mcfF_ok h
  · intro a b h
    unfold shipBest at h
    by_cases h1 : (a, b) = (1, 4)
    · cases h1; decide +kernel
    · by_cases h2 : (a, b) = (2, 3)
      · cases h2; decide +kernel
      · rw [if_neg h1, if_neg h2] at h; exact absurd rfl h

/-- the hypotheses are met, with capacities: 2 of 3 units go from 1 to 3 over 2 -/
example :
    let costs : Graph Nat Rat Nat := run [W 1 2 1, W 2 3 4]
    let cap : Graph Nat Ext Nat := run [.addEdge 1 2 (.scalar (Ext.fin 2)) false, .addEdge 2 3 (.scalar (Ext.fin 5)) false]
    costs.Built ∧ cap.Built ∧ NonNeg costs.edge ∧
    (mcfF 60 natLt costs ⟨[(1, 3), (3, -2)]⟩ (some cap)).map (fun r => match r with
      | .ok (t, f) => decide (t = 10 ∧ f.edge 1 2 = some 2 ∧ f.edge 2 3 = some 2) | .error _ => false) = some true :=
  ⟨⟨_, rfl⟩, ⟨_, rfl⟩, nonneg_of_edgeList ⟨_, rfl⟩ (by decide +kernel), by decide +kernel⟩

/-! ### C42 -/

/-- **C42**, without optimality: on a bipartite graph with at least one edge `ap_solver` terminates and returns a one-to-one
assignment along edges.  It is stable: for every edge, its agent or its task is assigned at least as well; for values that are not
negative its total is at least half of every assignment.  With at most as many agents as tasks the graph is not modified, and
edges into existing nodes never are.
(The names of dummy tasks, `fresh`, are new: neither nodes nor names the degree tables know.)
Missing: the total need not be maximal, and with more agents than tasks dummy tasks stay in the graph (counterexamples). -/
theorem C42_ap_solver_partial {nlt : α → α → Bool} (ho : NodeOrder nlt) {fresh : Nat → α} {g : Graph α Rat O} (hg : g.Built)
    (hb : Bipartite g.edge) (hne : g.edgeList ≠ []) (hf : ∀ i, g.has (fresh i) = false ∧ fresh i ∉ g.nodesInDeg 0) :
    ∃ M g', g.apSolver nlt fresh = some (.ok M, g') ∧ IsAssignment g.edge M ∧ Stable g.edge M ∧
      (NonNeg g.edge → ∀ M', IsAssignment g.edge M' → totalValue M' ≤ 2 * totalValue M) ∧
      (∀ a t, g.has t = true → g'.edge a t = g.edge a t) ∧
      ((g.nodesInDeg 0).length ≤ (g.nodesOutDeg 0).length → g' = g) := by
  obtain ⟨M, g', h1, h2, h3, h4, h5, h6⟩ := apSolver_main ho hg.inv hb hne hf
  exact ⟨M, g', h1, h2, h3, fun hw M' hM' => stable_half hw h2 h3 hM', h5, h6⟩

/-- without edges there is no smallest value: `ValueError` -/
theorem C42_empty {nlt : α → α → Bool} {fresh : Nat → α} {g : Graph α Rat O} (h : g.edgeList = []) :
    g.apSolver nlt fresh = some (.error .valueError, g) := apSolver_empty h

/-- agents 1, 2 and tasks 3, 4 -/
def apG : Graph Nat Rat Nat := run [W 1 3 10, W 1 4 9, W 2 3 9, W 2 4 1]
def apFresh (i : Nat) : Nat := 100 + i

theorem apG_bipartite : Bipartite apG.edge := by
  intro a t h
  obtain ⟨v, hv⟩ := Option.isSome_iff_exists.1 h
  have hb : apG.Built := ⟨_, rfl⟩
  have key : ∀ e ∈ apG.edgeList, ∀ f ∈ apG.edgeList, f.2.1 ≠ e.1 ∧ f.1 ≠ e.2.1 := by decide +kernel
  refine ⟨fun x => ?_, fun x => ?_⟩
  · cases hx : apG.edge x a with
    | none => rfl
    | some u => exact absurd rfl (key _ (hb.inv.mem_edgeList.2 hv) _ (hb.inv.mem_edgeList.2 hx)).1
  · cases hx : apG.edge t x with
    | none => rfl
    | some u => exact absurd rfl (key _ (hb.inv.mem_edgeList.2 hv) _ (hb.inv.mem_edgeList.2 hx)).2

/-- **C42** fails: the stable assignment has the value 11, the best one 18. -/
theorem C42_not_optimal_counterexample :
    apG.Built ∧ Bipartite apG.edge ∧ apG.apSolver natLt apFresh = some (.ok [(1, 3, 10), (2, 4, 1)], apG) ∧
    IsAssignment apG.edge [(1, 4, 9), (2, 3, 9)] ∧
    totalValue [((1:Nat), (3:Nat), (10:Rat)), (2, 4, 1)] = 11 ∧ totalValue [((1:Nat), (4:Nat), (9:Rat)), (2, 3, 9)] = 18 := by
  refine ⟨⟨_, rfl⟩, apG_bipartite, ?_, ⟨?_, by decide, by decide⟩, by decide +kernel, by decide +kernel⟩
  · obtain ⟨M, g', h1, _, _, _, _, h6⟩ := C42_ap_solver_partial natLt_order (fresh := apFresh) (g := apG) ⟨_, rfl⟩ apG_bipartite (by decide +kernel)
      (fun i => by
        have k1 : ∀ x ∈ apG.nodeList, x < 100 := by decide +kernel
        have k2 : ∀ x ∈ apG.nodesInDeg 0, x < 100 := by decide +kernel
        refine ⟨?_, fun h => ?_⟩
        · cases h : apG.has (apFresh i) with
          | false => rfl
          | true =>
            have := k1 _ (has_iff.1 h)
            unfold apFresh at this; omega
        · have := k2 _ h
          unfold apFresh at this; omega)
    have hg' : g' = apG := h6 (by decide +kernel)
    subst hg'
    have : (apF 60 natLt apFresh apG).map (fun r => match r.1 with | .ok M => decide (M = [(1, 3, 10), (2, 4, 1)]) | .error _ => false) = some true := by decide +kernel
    cases h : apF 60 natLt apFresh apG with
    | none => rw [h] at this; cases this
    | some r =>
      rw [h] at this
      have h' := apF_ok h
      rw [h1] at h'
      cases h'
      simp at this
      rw [h1, this]
  · intro a t v hm
    simp only [List.mem_cons, List.not_mem_nil, or_false, Prod.mk.injEq] at hm
    rcases hm with ⟨rfl, rfl, rfl⟩ | ⟨rfl, rfl, rfl⟩ <;> decide +kernel

/-- **C42** fails: with two agents and one task the graph keeps the dummy task 100. -/
theorem C42_modified_counterexample :
    ∃ M g', (run [W 1 3 10, W 2 3 9] : Graph Nat Rat Nat).apSolver natLt apFresh = some (.ok M, g') ∧ M = [(1, 3, 10)] ∧
      (run [W 1 3 10, W 2 3 9] : Graph Nat Rat Nat).has 100 = false ∧ g'.has 100 = true := by
  have : (apF 60 natLt apFresh (run [W 1 3 10, W 2 3 9] : Graph Nat Rat Nat)).map
    (fun r => match r.1 with | .ok M => decide (M = [(1, 3, 10)]) && r.2.has 100 | .error _ => false) = some true := by decide +kernel
  cases h : apF 60 natLt apFresh (run [W 1 3 10, W 2 3 9] : Graph Nat Rat Nat) with
  | none => rw [h] at this; cases this
  | some r =>
    rw [h] at this
    obtain ⟨r, g'⟩ := r
    cases r with
    | error e => cases this
    | ok M =>
      simp at this
      exact ⟨M, g', apF_ok h, this.1, by decide +kernel, this.2⟩

/-! ### C43 -/

/-- **C43**, the part that holds in general: if no weapon is a target, all targets of weapons have a value, and every weapon
has a target, then `wtap_solver` terminates; every weapon has exactly one engagement, along an edge; the returned value is the
expected surviving value of the engagements; and moving the last weapon does not improve it.
Missing: with ties the other weapons may be able to improve it (`C43_ties_counterexample`). -/
theorem C43_wtap_solver_partial {nlt : α → α → Bool} (ho : NodeOrder nlt) {g : Graph α Rat O} (hg : g.Built) {weapons : List α}
    {values : Dict α Rat} (h : WtInput g weapons values) (hw0 : weapons ≠ []) :
    ∃ v a, g.wtapSolver nlt weapons values = some (.ok (v, a)) ∧ IsEngagement g.edge weapons a.edgeList ∧
      v = survivors values.items a.edgeList ∧
      ∀ w, weapons.getLast? = some w → ∀ t p, g.edge w t = some p → v ≤ survivors values.items (retarget a.edgeList w t p) := by
  obtain ⟨v, a, h1, _, h2⟩ := wtap_main ho hg.inv h hw0
  exact ⟨v, a, h1, h2⟩

/-- **C43** without ties: for probabilities in [0, 1] and values that are not negative, if moving a single weapon never leaves the
surviving value unchanged, then no reassignment of a single weapon improves the returned value. -/
theorem C43_one_opt {nlt : α → α → Bool} (ho : NodeOrder nlt) {g : Graph α Rat O} (hg : g.Built) {weapons : List α} {values : Dict α Rat}
    (h : WtInput g weapons values) (hw0 : weapons ≠ []) (hnd : weapons.Nodup) (hp : ∀ a t p, g.edge a t = some p → 0 ≤ p ∧ p ≤ 1)
    (hval : ∀ t v, values.get? t = some v → 0 ≤ v) (hnt : NoTies g.edge weapons values.items) :
    ∃ v a, g.wtapSolver nlt weapons values = some (.ok (v, a)) ∧ IsEngagement g.edge weapons a.edgeList ∧
      v = survivors values.items a.edgeList ∧
      ∀ w ∈ weapons, ∀ t p, g.edge w t = some p → v ≤ survivors values.items (retarget a.edgeList w t p) := by
  obtain ⟨v, a, h1, _, h2, h3, _⟩ := wtap_main ho hg.inv h hw0
  exact ⟨v, a, h1, h2, h3, wtap_one_opt ho hg.inv h hw0 hnd hp hval hnt h1⟩

/-- **C43**, the errors: a weapon that is a target raises `ValueError`; so do target values of which some have no probability, if all targets
with a probability have a value.  Otherwise the first weapon that has no target raises `IndexError`, and the first weapon that has a target
without a value raises `KeyError`: weapons after it do not matter. -/
theorem C43_errors {nlt : α → α → Bool} (ho : NodeOrder nlt) {g : Graph α Rat O} (hg : g.Built) {weapons : List α} {values : Dict α Rat} (hv : values.WF) :
    ((∃ w ∈ weapons, w ∈ values.keys) → g.wtapSolver nlt weapons values = some (.error .valueError)) ∧
    ((∀ a t, (g.edge a t).isSome → t ∈ values.keys) → (∃ t ∈ values.keys, ∀ a, g.edge a t = none) →
      g.wtapSolver nlt weapons values = some (.error .valueError)) ∧
    ((∀ x ∈ weapons, x ∉ values.keys) →
      ((∀ a t, (g.edge a t).isSome → t ∈ values.keys) → ∀ t ∈ values.keys, ∃ a, (g.edge a t).isSome) →
      ∀ pre w post, weapons = pre ++ w :: post →
        (∀ x ∈ pre, (∃ t, (g.edge x t).isSome) ∧ ∀ t, (g.edge x t).isSome → t ∈ values.keys) →
        ((∀ t, g.edge w t = none) → g.wtapSolver nlt weapons values = some (.error .indexError)) ∧
        ((∃ t, (g.edge w t).isSome ∧ t ∉ values.keys) → g.wtapSolver nlt weapons values = some (.error .keyError))) := by
  refine ⟨?_, ?_, ?_⟩
  · rintro ⟨w, hw, hk⟩
    unfold wtapSolver
    rw [if_pos (List.any_eq_true.2 ⟨w, hw, (Dict.contains_iff_keys _ _).2 hk⟩)]
  · rintro h1 ⟨t, ht, hn⟩
    unfold wtapSolver
    split
    · rfl
    · rw [if_pos]
      rw [Bool.and_eq_true, List.all_eq_true, List.any_eq_true]
      refine ⟨fun t ht => ?_, t, ht, ?_⟩
      · obtain ⟨⟨a, t', p⟩, he, rfl⟩ := List.mem_map.1 ht
        exact (Dict.contains_iff_keys _ _).2 (h1 a t' (by rw [hg.inv.mem_edgeList.1 he]; rfl))
      · rw [decide_eq_true_eq]
        intro hm
        obtain ⟨⟨a, t', p⟩, he, rfl⟩ := List.mem_map.1 hm
        have := hg.inv.mem_edgeList.1 he
        rw [hn] at this; cases this
  · rintro hdis hcov pre w post rfl hpre
    obtain ⟨h1, h2⟩ := wtap_first_bad (nlt := nlt) ho hg.inv (pre := pre) (w := w) (post := post) hv hdis
      (fun h => hcov (fun a t hat => by obtain ⟨p, hp⟩ := Option.isSome_iff_exists.1 hat; exact h a t p hp))
      (fun x hx t p hp => (hpre x hx).2 t (by rw [hp]; rfl)) (fun x hx => (hpre x hx).1)
    refine ⟨h2, ?_⟩
    rintro ⟨t, ht, hn⟩
    obtain ⟨p, hp⟩ := Option.isSome_iff_exists.1 ht
    exact h1 ⟨t, p, hp, hn⟩

/-- two weapons 10, 11 and two targets 0, 1 -/
def wtG : Graph Nat Rat Nat := run [W 10 0 (1/2), W 10 1 (1/3), W 11 0 (1/4), W 11 1 (2/3)]
def wtV : Dict Nat Rat := ⟨[(0, 3), (1, 5)]⟩

theorem wtInput_of {g : Graph Nat Rat Nat} (hg : g.Built) {weapons : List Nat} {values : Dict Nat Rat} (h0 : values.keys.Nodup)
    (h1 : ∀ w ∈ weapons, w ∉ values.keys) (h2 : ∀ t ∈ values.keys, ∃ e ∈ g.edgeList, e.2.1 = t)
    (h3 : ∀ e ∈ g.edgeList, e.2.1 ∈ values.keys) (h4 : ∀ w ∈ weapons, ∃ e ∈ g.edgeList, e.1 = w) : WtInput g weapons values := by
  refine ⟨h0, h1, fun _ t ht => ?_, fun w _ t p hp => h3 (w, t, p) (hg.inv.mem_edgeList.2 hp), fun w hw => ?_⟩
  · obtain ⟨⟨a, t', p⟩, he, rfl⟩ := h2 t ht
    exact ⟨a, by rw [hg.inv.mem_edgeList.1 he]; rfl⟩
  · obtain ⟨⟨a, t', p⟩, he, rfl⟩ := h4 w hw
    exact ⟨t', by rw [hg.inv.mem_edgeList.1 he]; rfl⟩

theorem wtG_input : WtInput wtG [10, 11] wtV := wtInput_of ⟨_, rfl⟩ (by decide) (by decide +kernel) (by decide +kernel) (by decide +kernel) (by decide +kernel)

theorem wtG_noTies : NoTies wtG.edge [10, 11] wtV.items := by
  intro M hM w t p t' p' hm hp' hne
  have hb : wtG.Built := ⟨_, rfl⟩
  have hperm : (M.map (fun e => e.1)).Perm [10, 11] := perm_of_nodup hM.once (by decide) (fun x => (hM.weapons x).symm)
  have hlen : M.length = 2 := by rw [← List.length_map (fun e => e.1), hperm.length_eq]; rfl
  obtain ⟨x, y, rfl⟩ : ∃ x y, M = [x, y] := by
    cases M with
    | nil => cases hlen
    | cons x M =>
      cases M with
      | nil => cases hlen
      | cons y M =>
        cases M with
        | nil => exact ⟨x, y, rfl⟩
        | cons z M => simp at hlen
  have key : ∀ x ∈ wtG.edgeList, ∀ y ∈ wtG.edgeList, x.1 ≠ y.1 → ∀ e ∈ [x, y], ∀ e' ∈ wtG.edgeList, e'.1 = e.1 → e.2.1 ≠ e'.2.1 →
      survivors wtV.items [x, y] ≠ survivors wtV.items (retarget [x, y] e.1 e'.2.1 e'.2.2) := by decide +kernel
  refine key x (hb.inv.mem_edgeList.2 (hM.edges x.1 x.2.1 x.2.2 (by simp))) y (hb.inv.mem_edgeList.2 (hM.edges y.1 y.2.1 y.2.2 (by simp))) ?_
    (w, t, p) hm (w, t', p') (hb.inv.mem_edgeList.2 hp') rfl hne
  have := hM.once
  simp at this; exact this

/-- evaluation of `wtap_solver` -/
theorem wt_eval {g : Graph Nat Rat Nat} (hg : g.Inv) {weapons : List Nat} {values : Dict Nat Rat} (h : WtInput g weapons values) {k : Nat} {v : Rat}
    {E : List (Nat × Nat × Rat)}
    (hr : (runFuel (wtRound natLt g values weapons) k ⟨Graph.empty, values.values.sum + 1, Dict.empty⟩).map
      (fun r => match r with | .ok (v', a) => decide (v' = v ∧ a.edgeList = E) | .error _ => false) = some true) :
    ∃ a, g.wtapSolver natLt weapons values = some (.ok (v, a)) ∧ a.edgeList = E := by
  rw [wtap_checks hg h]
  cases hk : runFuel (wtRound natLt g values weapons) k ⟨Graph.empty, values.values.sum + 1, Dict.empty⟩ with
  | none => rw [hk] at hr; cases hr
  | some r =>
    rw [hk] at hr
    cases r with
    | error e => cases hr
    | ok x =>
      obtain ⟨v', a⟩ := x
      simp only [Option.map_some, Option.some.injEq, decide_eq_true_eq] at hr
      obtain ⟨rfl, he⟩ := hr
      exact ⟨a, pyWhile_of_runFuel hk, he⟩

/-- the hypotheses are met: 10 engages 0 and 11 engages 1 -/
example : wtG.Built ∧ WtInput wtG [10, 11] wtV ∧ (∀ e ∈ wtG.edgeList, 0 ≤ e.2.2 ∧ e.2.2 ≤ 1) ∧ NoTies wtG.edge [10, 11] wtV.items ∧
    ∃ a, wtG.wtapSolver natLt [10, 11] wtV = some (.ok (19/6, a)) ∧ a.edgeList = [(10, 0, 1/2), (11, 1, 2/3)] :=
  ⟨⟨_, rfl⟩, wtG_input, by decide +kernel, wtG_noTies, wt_eval (Graph.Built.inv ⟨_, rfl⟩) wtG_input (k := 10) (by decide +kernel)⟩

/-- each kind of error occurs: weapon 0 is a target; target 7 has no probability; after weapon 10, weapon 12 has no target; target 1 has
no value -/
example : (∃ w ∈ [10, 0], w ∈ wtV.keys) ∧
    ((∀ e ∈ wtG.edgeList, e.2.1 ∈ (⟨[(0, 3), (1, 5), (7, 1)]⟩ : Dict Nat Rat).keys) ∧ ∀ e ∈ wtG.edgeList, e.2.1 ≠ 7) ∧
    ((∃ e ∈ wtG.edgeList, e.1 = 10) ∧ (∀ e ∈ wtG.edgeList, e.1 ≠ 12)) ∧
    wtG.wtapSolver natLt [10, 12, 11] wtV = some (.error .indexError) ∧
    wtG.wtapSolver natLt [10, 11] ⟨[(0, 3)]⟩ = some (.error .keyError) := by
  refine ⟨by decide +kernel, by decide +kernel, by decide +kernel, ?_, ?_⟩
  · unfold wtapSolver
    rw [if_neg (by decide +kernel), if_neg (by decide +kernel)]
    exact pyWhile_of_runFuel (n := 1) (by decide +kernel)
  · unfold wtapSolver
    rw [if_neg (by decide +kernel), if_neg (by decide +kernel)]
    exact pyWhile_of_runFuel (n := 1) (by decide +kernel)

/-- three weapons 10, 11, 12 and targets 0, 1, 2 -/
def wtTieG : Graph Nat Rat Nat := run [W 10 0 1, W 10 1 (1/4), W 10 2 1, W 11 0 (3/4), W 11 1 (3/4), W 11 2 0, W 12 1 1, W 12 2 (1/4)]
def wtTieV : Dict Nat Rat := ⟨[(0, 1), (1, 4), (2, 1)]⟩

/-- **C43** fails with ties: the returned engagement `10 → 0, 11 → 0, 12 → 1` leaves the value 1, moving weapon 10 to target 2
leaves 1/4. -/
theorem C43_ties_counterexample :
    wtTieG.Built ∧ WtInput wtTieG [10, 11, 12] wtTieV ∧ ∃ a, wtTieG.wtapSolver natLt [10, 11, 12] wtTieV = some (.ok (1, a)) ∧
      wtTieG.edge 10 2 = some 1 ∧ survivors wtTieV.items (retarget a.edgeList 10 2 1) = 1/4 := by
  have hi : WtInput wtTieG [10, 11, 12] wtTieV := wtInput_of ⟨_, rfl⟩ (by decide) (by decide +kernel) (by decide +kernel) (by decide +kernel) (by decide +kernel)
  obtain ⟨a, h1, h2⟩ := wt_eval (Graph.Built.inv ⟨_, rfl⟩) hi (k := 10) (v := 1) (E := [(10, 0, 1), (11, 0, 3/4), (12, 1, 1)]) (by decide +kernel)
  exact ⟨⟨_, rfl⟩, hi, a, h1, by decide +kernel, by rw [h2]; decide +kernel⟩

/-- **C43** fails without weapons: the value returned is the total value plus 1. -/
theorem C43_no_weapons_counterexample :
    ∃ a, wtG.wtapSolver natLt [] wtV = some (.ok (9, a)) ∧ a.edgeList = [] ∧ survivors wtV.items [] = 8 := by
  have hi : WtInput wtG [] wtV := wtInput_of ⟨_, rfl⟩ (by decide) (by decide +kernel) (by decide +kernel) (by decide +kernel) (by decide +kernel)
  obtain ⟨a, h1, h2⟩ := wt_eval (Graph.Built.inv ⟨_, rfl⟩) hi (k := 10) (v := 9) (E := []) (by decide +kernel)
  exact ⟨a, h1, h2, by decide +kernel⟩

/-- a weapon without targets raises `IndexError` -/
theorem C43_unarmed_counterexample :
    wtG.wtapSolver natLt [12] wtV = some (.error .indexError) := by
  unfold wtapSolver
  rw [if_neg (by decide +kernel), ]
  dsimp only
  rw [if_neg (by decide +kernel), pyWhile_eq]
  rfl

end GT

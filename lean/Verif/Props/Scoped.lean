import Verif.Flow.Cut
import Verif.Flow.OneDemand
import Verif.Props.Sp
import Verif.Props.Flow
import Verif.Props.Jam
/-
Property theorems C64 - : what the library guarantees without exception where the general claim (C21 - C53) fails.
-/
namespace GT
open Graph
variable {α V O : Type} [DecidableEq α]

/-! ### C64 -/

/-- **C64**. `g.shortest_path_bidirectional(start, end)` always returns for nodes of the graph, with the distance `shortest_path` returns and
a path of that length; both are the minimum over all walks.  Missing nodes raise `ValueError`. -/
theorem C64_bidirectional_agrees {g : Graph α Rat O} (hg : g.Built) (hw : NonNeg g.edge) (start fin : α)
    {srt : List (α × Rat) → List (α × Rat)} (hsrt : ∀ l, (srt l).Perm l) :
    (g.has start = true ∧ g.has fin = true →
      ∃ d p q, g.shortestPathBi srt start fin [] = some (.ok (d, p)) ∧ g.shortestPath start fin = some (.ok (d, q)) ∧
        ((∃ c, d = .fin c ∧ WalkOf g.edge start fin p c ∧ ∀ p' c', WalkOf g.edge start fin p' c' → c ≤ c') ∨
          (d = .inf ∧ p = [] ∧ ¬ ∃ p' c', WalkOf g.edge start fin p' c'))) ∧
    (¬ (g.has start = true ∧ g.has fin = true) → g.shortestPathBi srt start fin [] = some (.error .valueError)) := by
  obtain ⟨h1, h2⟩ := C29_bidirectional_partial hg hw start fin [] (by simp) (by simp) hsrt
  refine ⟨fun h => ?_, h2⟩
  obtain ⟨d, p, q, h3, h4, h5⟩ := h1 h
  refine ⟨d, p, q, h3, h4, ?_⟩
  have hav : ∀ p' c', AvoidWalk g.edge [] start fin p' c' ↔ WalkOf g.edge start fin p' c' := by
    intro p' c'; unfold AvoidWalk; simp
  unfold SpResult at h5
  simp only [hav] at h5
  rcases h5 with ⟨c, h6, h7, h8⟩ | ⟨h6, h7⟩
  · exact .inl ⟨c, h6, h7, h8⟩
  · cases h6; exact .inr ⟨rfl, rfl, h7⟩

example : spG.Built ∧ NonNeg spG.edge ∧ spG.has 1 = true ∧ spG.has 4 = true ∧ (∃ p c, WalkOf spG.edge 1 4 p c) ∧ spG.has 8 = true ∧
    spG.has 77 = false :=
  ⟨⟨_, rfl⟩, nonneg_of_edgeList ⟨_, rfl⟩ (by decide +kernel), by decide, by decide, ⟨[1, 3, 4], 4, by decide, by decide, by decide +kernel⟩, by decide, by decide⟩

/-! ### C68 -/

/-- **C68**. The flow `maximum_flow` returns is feasible, has the returned value, is not larger than any cut, and leaves no path from start to
end along edges with capacity left unless it is maximal. -/
theorem C68_flow_below_every_cut {g : Graph α Rat O} (hg : g.Built) (hc : NonNeg g.edge) {start fin : α} (hne : start ≠ fin)
    (hs : g.has start = true) (hf : g.has fin = true) :
    ∃ total f, g.maximumFlow start fin = some (.ok (total, f)) ∧
      IsFlow g.nodeList g.edge start fin (fun a b => (f.edge a b).getD 0) total ∧
      (∀ S : α → Bool, S start = true → S fin = false → total ≤ cutCapacity g.nodeList g.edge S) ∧
      (IsMaxFlowValue g.nodeList g.edge start fin total ∨ Blocking g.edge start fin (fun a b => (f.edge a b).getD 0)) := by
  obtain ⟨total, f, h1, h2, _, h4⟩ := C39_maximum_flow_partial hg hc hne hs hf
  exact ⟨total, f, h1, h2, fun S hS hT => h2.le_cut hg.inv.nodesWF (has_iff.1 hs) S hS hT, h4⟩

/-- **C68**: on networks in which, apart from start and end, no node is entered by two edges with capacity, or no node is left by two, the
value is the maximum. -/
theorem C68_maximal_without_merges_or_forks {g : Graph α Rat O} (hg : g.Built) (hc : NonNeg g.edge) {start fin : α} (hne : start ≠ fin)
    (hs : g.has start = true) (hf : g.has fin = true) (hn : NoMerge g.edge start fin ∨ NoFork g.edge start fin) :
    ∃ total f, g.maximumFlow start fin = some (.ok (total, f)) ∧ IsMaxFlowValue g.nodeList g.edge start fin total := by
  obtain ⟨r, hr, total, f, rfl, h1, _, h2, h3, h4, h5, h6⟩ := maximumFlow_main hg.inv hc hne hs hf
  refine ⟨total, f, hr, ?_⟩
  rcases h6 with h6 | h6
  · exact ⟨⟨_, h2⟩, fun F v hF => MfPost.maximal hg.inv hne hs hf h6 hF⟩
  · rcases hn with hn | hn
    · exact h2.max_of_noMerge hg.inv.nodesWF (has_iff.1 hs) h6 (fun a => by unfold flowOf; rw [h5]; rfl) hn
    · exact h2.max_of_noFork hg.inv.nodesWF (has_iff.1 hs) h6 (fun a => by unfold flowOf; rw [h4]; rfl) hn

/-- `okG` has forks and merges only at its ends; in `flowG` node 3 is entered twice -/
example : okG.Built ∧ NonNeg okG.edge ∧ okG.has 1 = true ∧ okG.has 4 = true ∧ NoMerge okG.edge 1 4 := by
  refine ⟨⟨_, rfl⟩, nonneg_of_edgeList ⟨_, rfl⟩ (by decide +kernel), by decide, by decide, ?_⟩
  have key : ∀ e ∈ okG.edgeList, ∀ e' ∈ okG.edgeList, e.2.1 ≠ 4 → e.2.1 = e'.2.1 → e.1 = e'.1 := by decide +kernel
  have hmem : ∀ a b, 0 < capOf okG.edge a b → ∃ v, (a, b, v) ∈ okG.edgeList := by
    intro a b h
    unfold capOf at h
    cases he : okG.edge a b with
    | none => rw [he] at h; exact absurd h (by decide)
    | some v => exact ⟨v, (Graph.Built.inv (⟨_, rfl⟩ : okG.Built)).mem_edgeList.2 he⟩
  intro n _ h4 a b ha hb
  obtain ⟨v, hv⟩ := hmem a n ha
  obtain ⟨w, hw⟩ := hmem b n hb
  exact key _ hv _ hw h4 rfl

/-! ### C69 -/

/-- **C69**. With one node in demand (`inventory[d] < 0`, all others `≥ 0`) and no capacities, `minimum_cost_flow` returns a shipment that meets
the demand or uses all supply at the smallest possible cost, and raises only if there is no such shipment. -/
theorem C69_one_demand_optimal {nlt : α → α → Bool} (ho : NodeOrder nlt) {costs : Graph α Rat O} (hc : costs.Built)
    (hnn : NonNeg costs.edge) {inventory : Dict α Rat} (hwf : inventory.WF)
    (hin : ∀ n v, inventory.get? n = some v → v ≠ 0 → costs.has n = true) {d : α} {q : Rat}
    (hd : inventory.get? d = some q) (hq : q < 0) (hone : ∀ n v, inventory.get? n = some v → n ≠ d → 0 ≤ v) :
    let cap := effCap costs.edge none
    let stock := fun n => (inventory.get? n).getD 0
    (∃ total f, costs.minCostFlow nlt inventory none = some (.ok (total, f)) ∧
      IsShipment costs.nodeList costs.edge cap stock (fun a b => (f.edge a b).getD 0) ∧
      ShipDone costs.nodeList stock (fun a b => (f.edge a b).getD 0) ∧
      total = shipCost costs.nodeList costs.edge (fun a b => (f.edge a b).getD 0) ∧
      ∀ F, IsShipment costs.nodeList costs.edge cap stock F → ShipDone costs.nodeList stock F →
        total ≤ shipCost costs.nodeList costs.edge F) ∨
    (costs.minCostFlow nlt inventory none = some (.error .exception) ∧
      ∀ F, IsShipment costs.nodeList costs.edge cap stock F → ¬ ShipDone costs.nodeList stock F) := by
  refine minCostFlow_one_demand ho hc.inv hnn hwf hin (d := d) ⟨has_iff.1 (hin d q hd (by grind)), ?_, ?_⟩
  · unfold stockOf; rw [hd]; exact hq
  · intro n _ hne
    unfold stockOf
    cases h : inventory.get? n with
    | none => exact Rat.le_refl
    | some v => exact hone n v h hne

/-- two depots at different distances, one customer: the nearer depot (cost 2 by way of 2) ships first; total 3*2 + 2*5 = 16 -/
def oneDemandG : Graph Nat Rat Nat := run [W 1 2 1, W 2 4 1, W 1 4 9, W 3 4 5]
def oneDemandInv : Dict Nat Rat := ⟨[(1, 3), (3, 4), (4, -5)]⟩

example : oneDemandG.Built ∧ NonNeg oneDemandG.edge ∧ oneDemandInv.WF ∧ NodeOrder natLt ∧
    (∀ e ∈ oneDemandInv.items, e.2 ≠ 0 → oneDemandG.has e.1 = true) ∧
    oneDemandInv.get? 4 = some (-5) ∧ (∀ e ∈ oneDemandInv.items, e.1 ≠ 4 → 0 ≤ e.2) ∧
    (mcfF 60 natLt oneDemandG oneDemandInv none).map (fun r => match r with | .ok (t, _) => decide (t = 16) | .error _ => false) = some true :=
  ⟨⟨_, rfl⟩, nonneg_of_edgeList ⟨_, rfl⟩ (by decide +kernel), by unfold Dict.WF; decide +kernel, natLt_order, by decide +kernel, by decide +kernel,
    by decide +kernel, by decide +kernel⟩

/-! ### C77 -/

/-- what one item of a link list says about the pair `(a, b)`: `(a, b)` stands for the value `one`, a bidirectional item for both directions -/
def linkValue (one : V) (a b : α) : Link α V → Option V
  | .node _ => none
  | .pair x y => if x = a ∧ y = b then some one else none
  | .edge x y v => if x = a ∧ y = b then some v else none
  | .edgeBi x y v bi => if (x = a ∧ y = b) ∨ (bi = true ∧ y = a ∧ x = b) then some v else none

/-- the nodes an item mentions -/
def linkNodes : Link α V → List α
  | .node n => [n]
  | .pair x y => [x, y]
  | .edge x y _ => [x, y]
  | .edgeBi x y _ _ => [x, y]

theorem has_addNode_iff (g : Graph α V O) (n x : α) (o : Option O) : (g.addNode n o).has x = true ↔ n = x ∨ g.has x = true := by
  unfold has; rw [addNode_nodes, Dict.contains_iff_keys, Dict.contains_iff_keys, Dict.mem_keys_set]
  constructor <;> rintro (h | h) <;> simp [h]

theorem has_addEdge_iff (g : Graph α V O) (a b x : α) (v : V) : (g.addEdge a b v).has x = true ↔ a = x ∨ b = x ∨ g.has x = true := by
  unfold has; rw [addEdge_nodes, Dict.contains_iff_keys, Dict.contains_iff_keys, mem_keys_withEnds]
  constructor
  · rintro (h | h | h) <;> simp [h]
  · rintro (h | h | h) <;> simp [h]

/-- **C77**. After `g.from_list(links)` the value of `(a, b)` is what the last item that mentions this edge says, or what it was before;
the nodes are the old ones and those mentioned. -/
theorem C77_from_list (one : V) (g : Graph α V O) (l : List (Link α V)) :
    (∀ a b, (g.fromList one l).edge a b = (l.reverse.findSome? (linkValue one a b)).or (g.edge a b)) ∧
    (∀ n, (g.fromList one l).has n = true ↔ g.has n = true ∨ ∃ i ∈ l, n ∈ linkNodes i) := by
  unfold fromList
  induction l generalizing g with
  | nil => exact ⟨fun a b => by simp, fun n => by simp⟩
  | cons i l ih =>
    rw [List.foldl_cons]
    refine ⟨fun a b => ?_, fun n => ?_⟩
    · rw [(ih _).1, List.reverse_cons, List.findSome?_append, Option.or_assoc]
      congr 1
      simp only [List.findSome?_cons, List.findSome?_nil]
      cases i with
      | node n => simp [linkValue, edge_congr (addNode_edges g n none)]
      | pair x y => simp only [linkValue, edge_addEdge]; split <;> simp
      | edge x y v => simp only [linkValue, edge_addEdge]; split <;> simp
      | edgeBi x y v bi =>
        cases bi with
        | false => simp only [linkValue, edge_addEdge]; by_cases h2 : x = a ∧ y = b <;> simp [h2, edge_addEdge]
        | true =>
          simp only [linkValue, if_true, edge_addEdge]
          by_cases h1 : y = a ∧ x = b
          · simp [h1]
          · by_cases h2 : x = a ∧ y = b
            · rw [if_neg h1, if_pos h2, if_pos (.inl h2)]; rfl
            · rw [if_neg h1, if_neg h2, if_neg (by simp; exact ⟨fun h h' => h2 ⟨h, h'⟩, fun h h' => h1 ⟨h, h'⟩⟩)]; rfl
    · rw [(ih _).2]
      cases i with
      | node m => simp only [has_addNode_iff]; simp [linkNodes]; constructor <;> (rintro h; grind)
      | pair x y => simp only [has_addEdge_iff]; simp [linkNodes]; constructor <;> (rintro h; grind)
      | edge x y v => simp only [has_addEdge_iff]; simp [linkNodes]; constructor <;> (rintro h; grind)
      | edgeBi x y v bi =>
        cases bi <;> (simp [has_addEdge_iff, linkNodes]; constructor <;> (rintro h; grind))

example : let g := (W 1 2 (7 : Rat) |> fun o => run [o]).fromList 1 [.pair 1 2, .edge 2 3 5, .node 9, .edgeBi 3 4 6 true, .edge 4 3 8]
    g.edge 1 2 = some 1 ∧ g.edge 2 3 = some 5 ∧ g.edge 3 4 = some 6 ∧ g.edge 4 3 = some 8 ∧ g.has 9 = true ∧ g.edge 2 1 = none := by
  decide +kernel

/-! ### C84 -/

/-- **C84**. The assignment `ap_solver` returns has at least half as many pairs as any other, and if every agent can do every task no assignment has
more pairs: all agents or all tasks are assigned. -/
theorem C84_ap_solver_pairs {nlt : α → α → Bool} (ho : NodeOrder nlt) {fresh : Nat → α} {g : Graph α Rat O} (hg : g.Built)
    (hb : Bipartite g.edge) (hne : g.edgeList ≠ []) (hf : ∀ i, g.has (fresh i) = false ∧ fresh i ∉ g.nodesInDeg 0) :
    ∃ M g', g.apSolver nlt fresh = some (.ok M, g') ∧ IsAssignment g.edge M ∧
      (∀ M', IsAssignment g.edge M' → M'.length ≤ 2 * M.length) ∧
      ((∀ a t x y, (g.edge a x).isSome → (g.edge y t).isSome → (g.edge a t).isSome) →
        ((∀ a x, (g.edge a x).isSome → ∃ t v, (a, t, v) ∈ M) ∨ (∀ t y, (g.edge y t).isSome → ∃ a v, (a, t, v) ∈ M)) ∧
        ∀ M', IsAssignment g.edge M' → M'.length ≤ M.length) := by
  obtain ⟨M, g', h1, h2, h3, _⟩ := C42_ap_solver_partial ho hg hb hne hf
  refine ⟨M, g', h1, h2, fun M' hM' => ?_, fun hall => ?_⟩
  · -- every pair of `M'` shares its agent or its task with `M`
    have key : ∀ e ∈ M', e.1 ∈ M.map (fun e => e.1) ∨ e.2.1 ∈ M.map (fun e => e.2.1) := by
      rintro ⟨a, t, v⟩ he
      rcases h3 a t v (hM'.edges a t v he) with ⟨t', v', h, _⟩ | ⟨a', v', h, _⟩
      · exact .inl (List.mem_map.2 ⟨_, h, rfl⟩)
      · exact .inr (List.mem_map.2 ⟨_, h, rfl⟩)
    have h4 : (M'.filter (fun e => decide (e.1 ∈ M.map (fun e => e.1)))).length ≤ M.length := by
      have := List.Nodup.length_le_of_subset (l₁ := (M'.filter (fun e => decide (e.1 ∈ M.map (fun e => e.1)))).map (fun e => e.1))
        (l₂ := M.map (fun e => e.1)) (hM'.agents.sublist (List.filter_sublist.map _)) (by
          intro x hx
          obtain ⟨e, he, rfl⟩ := List.mem_map.1 hx
          exact of_decide_eq_true (List.mem_filter.1 he).2)
      simpa using this
    have h5 : (M'.filter (fun e => !decide (e.1 ∈ M.map (fun e => e.1)))).length ≤ M.length := by
      have := List.Nodup.length_le_of_subset (l₁ := (M'.filter (fun e => !decide (e.1 ∈ M.map (fun e => e.1)))).map (fun e => e.2.1))
        (l₂ := M.map (fun e => e.2.1)) (hM'.tasks.sublist (List.filter_sublist.map _)) (by
          intro x hx
          obtain ⟨e, he, rfl⟩ := List.mem_map.1 hx
          have he := List.mem_filter.1 he
          rcases key e he.1 with h | h
          · have := he.2; rw [decide_eq_true h] at this; cases this
          · exact h)
      simpa using this
    have h6 := List.length_eq_countP_add_countP (l := M') (fun e => decide (e.1 ∈ M.map (fun e => e.1)))
    rw [List.countP_eq_length_filter, List.countP_eq_length_filter] at h6
    have h7 : (M'.filter (fun e => !decide (e.1 ∈ M.map (fun e => e.1)))) =
        M'.filter (fun e => decide (¬ decide (e.1 ∈ M.map (fun e => e.1)) = true)) := by
      congr 1; funext e; by_cases h : e.1 ∈ M.map (fun e => e.1) <;> simp [h]
    rw [h7] at h5
    omega
  · have hdich : (∀ a x, (g.edge a x).isSome → ∃ t v, (a, t, v) ∈ M) ∨ (∀ t y, (g.edge y t).isSome → ∃ a v, (a, t, v) ∈ M) := by
      refine Classical.byContradiction fun hn => ?_
      rw [not_or] at hn
      obtain ⟨hn1, hn2⟩ := hn
      refine hn1 fun a x hax => Classical.byContradiction fun hna => hn2 fun t y hyt => ?_
      obtain ⟨v, hv⟩ := Option.isSome_iff_exists.1 (hall a t x y hax hyt)
      rcases h3 a t v hv with ⟨t', v', h, _⟩ | ⟨a', v', h, _⟩
      · exact absurd ⟨t', v', h⟩ hna
      · exact ⟨a', v', h⟩
    refine ⟨hdich, fun M' hM' => ?_⟩
    rcases hdich with h | h
    · have := List.Nodup.length_le_of_subset (l₂ := M.map (fun e => e.1)) hM'.agents (by
        intro x hx
        obtain ⟨⟨a, t, v⟩, he, rfl⟩ := List.mem_map.1 hx
        obtain ⟨t', v', h'⟩ := h a t (by rw [hM'.edges a t v he]; rfl)
        exact List.mem_map.2 ⟨_, h', rfl⟩)
      simpa using this
    · have := List.Nodup.length_le_of_subset (l₂ := M.map (fun e => e.2.1)) hM'.tasks (by
        intro x hx
        obtain ⟨⟨a, t, v⟩, he, rfl⟩ := List.mem_map.1 hx
        obtain ⟨t', v', h'⟩ := h t a (by rw [hM'.edges a t v he]; rfl)
        exact List.mem_map.2 ⟨_, h', rfl⟩)
      simpa using this

/-- in `apG` both agents can do both tasks -/
example : apG.Built ∧ Bipartite apG.edge ∧ apG.edgeList ≠ [] ∧ (∀ e ∈ apG.edgeList, ∀ f ∈ apG.edgeList, (apG.edge e.1 f.2.1).isSome) :=
  ⟨⟨_, rfl⟩, apG_bipartite, by decide, by decide⟩

/-! ### C85 -/

/-- **C85**. `maximum_flow(start, end)` is positive exactly if `end` can be reached from `start` along edges with positive capacity; otherwise it is 0
and the returned graph has no edges. -/
theorem C85_positive_flow_iff_reachable {g : Graph α Rat O} (hg : g.Built) (hc : NonNeg g.edge) {start fin : α} (hne : start ≠ fin)
    (hs : g.has start = true) (hf : g.has fin = true) :
    ∃ total f, g.maximumFlow start fin = some (.ok (total, f)) ∧
      (0 < total ↔ Reach (fun a b => ∃ d, g.edge a b = some d ∧ 0 < d) start fin) ∧
      (¬ 0 < total → total = 0 ∧ ∀ a b, f.edge a b = none) := by
  obtain ⟨r, hr, total, f, rfl, h1, hz, h2, h3, h4, h5, h6⟩ := maximumFlow_main hg.inv hc hne hs hf
  have hz' : ¬ 0 < total → total = 0 ∧ ∀ a b, f.edge a b = none := fun hn => hz.resolve_left hn
  refine ⟨total, f, hr, ⟨fun hpos => ?_, fun hreach => Classical.byContradiction fun hn => ?_⟩, hz'⟩
  · refine Classical.byContradiction fun hn => ?_
    have hcl : ∀ a b, Reach (fun a b => ∃ d, g.edge a b = some d ∧ 0 < d) start a → 0 < capOf g.edge a b →
        Reach (fun a b => ∃ d, g.edge a b = some d ∧ 0 < d) start b := by
      intro a b ha hab
      refine ha.tail ?_
      unfold capOf at hab
      cases he : g.edge a b with
      | none => rw [he] at hab; exact absurd hab (by decide)
      | some d => rw [he] at hab; exact ⟨d, rfl, hab⟩
    have hcut := h2.le_cut hg.inv.nodesWF (has_iff.1 hs)
      (fun x => @decide (Reach (fun a b => ∃ d, g.edge a b = some d ∧ 0 < d) start x) (Classical.propDecidable _))
      (by simpa using Reach.refl start) (by simpa using hn)
    have : cutCapacity g.nodeList g.edge
        (fun x => @decide (Reach (fun a b => ∃ d, g.edge a b = some d ∧ 0 < d) start x) (Classical.propDecidable _)) = 0 := by
      unfold cutCapacity
      refine sumL_eq_zero fun x _ => sumL_eq_zero fun y _ => ?_
      split
      · rename_i h
        have hx : Reach (fun a b => ∃ d, g.edge a b = some d ∧ 0 < d) start x := by simpa using h.1
        have hy : ¬ Reach (fun a b => ∃ d, g.edge a b = some d ∧ 0 < d) start y := by simpa using h.2
        have := capOf_nonneg hc x y
        by_cases hp : 0 < capOf g.edge x y
        · exact absurd (hcl x y hx hp) hy
        · grind
      · rfl
    have hcut : total ≤ 0 := this ▸ hcut
    grind
  · obtain ⟨ht, hempty⟩ := hz' hn
    have hF : ∀ a b, flowOf f a b = 0 := fun a b => by unfold flowOf; rw [hempty]; rfl
    rcases h6 with h6 | h6
    · rw [ht] at h6
      -- no capacity leaves `start` or none enters `end`
      have hall : ∀ (k : α → Rat), (∀ y, 0 ≤ k y) → sumL g.nodeList k = 0 → ∀ y ∈ g.nodeList, k y = 0 := by
        intro k hk hsum y hy
        have := sumL_le_single (fun x _ => hk x) hy
        have := hk y
        grind
      obtain ⟨n, hreach⟩ := hreach
      cases n with
      | zero => cases hreach; exact hne rfl
      | succ n =>
        obtain ⟨b, ⟨d, hd, hd0⟩, _⟩ := hreach.head
        cases hreach with
        | succ hst hlast =>
          rename_i x
          obtain ⟨d', hd', hd0'⟩ := hlast
          rcases (mfBound_eq hg.inv start fin).1 with h7 | h7
          · have := hall _ (fun y => capOf_nonneg hc start y) (h7.symm.trans h6.symm) b (hg.inv.dom _ _ _ hd).2
            unfold capOf at this; rw [hd] at this; simp at this; grind
          · have := hall _ (fun y => capOf_nonneg hc y fin) (h7.symm.trans h6.symm) x (hg.inv.dom _ _ _ hd').1
            unfold capOf at this; rw [hd'] at this; simp at this; grind
    · refine h6 (hreach.mono fun a b ⟨d, hd, h0⟩ => ⟨d, hd, ?_⟩)
      rw [hF]; exact h0

example : okG.Built ∧ NonNeg okG.edge ∧ okG.has 1 = true ∧ okG.has 4 = true ∧
    Reach (fun a b => ∃ d, okG.edge a b = some d ∧ 0 < d) 1 4 ∧
    ¬ Reach (fun a b => ∃ d, okG.edge a b = some d ∧ 0 < d) 4 1 := by
  refine ⟨⟨_, rfl⟩, nonneg_of_edgeList ⟨_, rfl⟩ (by decide +kernel), by decide, by decide, ?_, ?_⟩
  · exact (Reach.single (b := 2) ⟨_, rfl, by decide +kernel⟩).tail ⟨_, rfl, by decide +kernel⟩
  · intro h
    have := Reach.closed (fun x => x = 4) rfl (fun b c hb ⟨d, hd, _⟩ => by
      subst hb
      have hm : c ∈ okG.nodesFrom 4 := mem_nodesFrom.2 (by show (okG.edge 4 c).isSome = true; rw [hd]; rfl)
      exact absurd hm (by rw [show okG.nodesFrom 4 = [] by decide]; simp)) h
    exact absurd this (by decide)

end GT

import Verif.Flow.Integral
import Verif.Props.Scoped
import Verif.Props.Round
/-
Property theorems C98, C99: `maximum_flow` with rounded reciprocals; integer data give integer flows.  Also the completeness part of C40.
-/
namespace GT
open Graph
variable {α V O : Type} [DecidableEq α]

/-! ### C40: which edges are returned -/

theorem minCut_members_of {g f : Graph α Rat O} {start fin : α} {cut : List (α × α)} {walk : List α} (hfi : f.Inv)
    (hfs : f.has start = true) (hff : f.has fin = true)
    (hw : f.breadthFirstWalk start (some fin) false = some (.ok walk)) (hp : McPost g f fin walk cut) :
    (∀ a b, (a, b) ∈ cut → FullExit g.edge f.edge a b ∧ ∃ n, HopDist f.Adj start a n ∧ ∀ m, Steps f.Adj m start fin → n ≤ m) ∧
    (∀ a b n, FullExit g.edge f.edge a b → Steps f.Adj n start a → (∀ m, Steps f.Adj m start fin → n < m) → (a, b) ∈ cut) := by
  obtain ⟨full, hfull, hnd, hmem, D, hD, hsort⟩ := bfw_none hfi.finiteFrom (has_iff.1 hfs)
  obtain ⟨walk', hwalk⟩ := bfw_some_total hfi.finiteFrom (has_iff.1 hfs) (some fin)
  obtain ⟨hpre, hin, hout⟩ := bfw_some hfull (by simp) walk' hwalk
  have hbw : f.breadthFirstWalk start (some fin) false = some (.ok walk') := by
    unfold breadthFirstWalk
    rw [if_neg (by simp [hfs])]
    simp [hff, hwalk]
  rw [hw] at hbw; cases hbw
  have hrel : (fun a b => b ∈ f.nodesFrom a) = f.Adj := by
    funext a b; exact propext mem_nodesFrom
  rw [hrel] at hmem hD
  have htight : ∀ a b, FullExit g.edge f.edge a b ↔ SatEdge g f a b ∧ ∀ y, (f.edge a y).isSome → SatEdge g f a y := by
    intro a b
    constructor
    · rintro ⟨h1, h2⟩
      refine ⟨h1, fun y hy => ?_⟩
      obtain ⟨v, hv⟩ := Option.isSome_iff_exists.1 hy
      exact ⟨v, h2 y v hv, hv⟩
    · rintro ⟨h1, h2⟩
      refine ⟨h1, fun y v hv => ?_⟩
      obtain ⟨d, h3, h4⟩ := h2 y (by rw [hv]; rfl)
      rw [hv] at h4; cases h4; exact h3
  obtain ⟨rest, rfl⟩ := hpre
  constructor
  · intro a b hab
    obtain ⟨h1, h2⟩ := (hp.mem a b).1 hab
    refine ⟨(htight a b).2 h2, D a, hD a (List.mem_append_left _ h1), ?_⟩
    intro m hm
    have hfin : fin ∈ walk ++ rest := (hmem fin).2 ⟨m, hm⟩
    have hlast := hin hfin
    have hle : D a ≤ D fin := by
      obtain ⟨init, hinit⟩ := List.getLast?_eq_some_iff.1 hlast
      subst hinit
      rcases List.mem_append.1 h1 with h3 | h3
      · rw [List.append_assoc, List.pairwise_append] at hsort
        exact hsort.2.2 a h3 fin (by simp)
      · simp at h3; subst h3; exact Nat.le_refl _
    have := (hD fin hfin).2 m hm
    omega
  · intro a b n hab hn hlt
    refine (hp.mem a b).2 ⟨?_, (htight a b).1 hab⟩
    have ha : a ∈ walk ++ rest := (hmem a).2 ⟨n, hn⟩
    rcases List.mem_append.1 ha with h3 | h3
    · exact h3
    · exfalso
      by_cases hfin : fin ∈ walk ++ rest
      · have hlast := hin hfin
        rw [List.pairwise_append] at hsort
        have h4 := hsort.2.2 fin (List.mem_of_getLast? hlast) a h3
        have h5 := (hD a ha).2 n hn
        have h6 := hlt _ (hD fin hfin).1
        omega
      · have := hout hfin
        rw [List.append_right_eq_self.1 this.symm] at h3
        cases h3

theorem minCut_members {g f : Graph α Rat O} (hg : g.Inv) (hc : NonNeg g.edge) {start fin : α} (hne : start ≠ fin)
    (hs : g.has start = true) (hf : g.has fin = true) {total : Rat} {cut : List (α × α)} {walk : List α} (hfi : f.Inv)
    (hF : IsFlow g.nodeList g.edge start fin (flowOf f) total) (ht : total ≠ 0)
    (hw : f.breadthFirstWalk start (some fin) false = some (.ok walk)) (hp : McPost g f fin walk cut) :
    (∀ a b, (a, b) ∈ cut → FullExit g.edge f.edge a b ∧ ∃ n, HopDist f.Adj start a n ∧ ∀ m, Steps f.Adj m start fin → n ≤ m) ∧
    (∀ a b n, FullExit g.edge f.edge a b → Steps f.Adj n start a → (∀ m, Steps f.Adj m start fin → n < m) → (a, b) ∈ cut) := by
  obtain ⟨hfs, hff⟩ := mc_has hg hne hs hf hfi hF ht
  exact minCut_members_of hfi hfs hff hw hp

/-- **C40**, exactly which edges: when the flow found is not 0, every returned edge `(a, b)` leaves a node all of whose outgoing flow is
saturated and that the flow graph reaches in at most as many steps as `end`; and every such edge is returned if `a` is reached in
fewer steps than `end`. -/
theorem C40_returned_edges {g : Graph α Rat O} (hg : g.Built) (hc : NonNeg g.edge) {start fin : α} (hne : start ≠ fin)
    (hs : g.has start = true) (hf : g.has fin = true) {total : Rat} {f : Graph α Rat O} {cut : List (α × α)}
    (hmf : g.maximumFlow start fin = some (.ok (total, f))) (ht : total ≠ 0) (hmc : g.maxFlowMinCut start fin = some (.ok cut)) :
    (∀ a b, (a, b) ∈ cut → FullExit g.edge f.edge a b ∧ ∃ n, HopDist f.Adj start a n ∧ ∀ m, Steps f.Adj m start fin → n ≤ m) ∧
    (∀ a b n, FullExit g.edge f.edge a b → Steps f.Adj n start a → (∀ m, Steps f.Adj m start fin → n < m) → (a, b) ∈ cut) := by
  obtain ⟨r, hr, total', f', hrr, hfi, _, hF, _⟩ := maximumFlow_main hg.inv hc hne hs hf
  rw [hmf] at hr; cases hr; cases hrr
  obtain ⟨t2, f2, cut2, h1, h2, _, h3⟩ := maxFlowMinCut_main hg.inv hc hne hs hf
  rw [hmf] at h1; cases h1
  rw [hmc] at h2; cases h2
  obtain ⟨walk, h4, h5⟩ := h3 ht
  exact minCut_members hg.inv hc hne hs hf hfi hF ht h4 h5

/-- the value of a flow is at most the capacity of any set of edges that separates its ends -/
theorem IsFlow.le_separating {V : List α} (hV : V.Nodup) {cap : α → α → Option Rat} (hc : NonNeg cap) {s t : α} (hs : s ∈ V)
    {F : α → α → Rat} {val : Rat} (h : IsFlow V cap s t F val) {E : List (α × α)} (hE : Separates cap s t E) :
    val ≤ sumL E (fun e => capOf cap e.1 e.2) := by
  classical
  let S : α → Bool := fun x => decide (Reach (fun a b => (cap a b).isSome ∧ (a, b) ∉ E) s x)
  have h1 := h.le_cut hV hs S (decide_eq_true ⟨0, .zero s⟩) (decide_eq_false hE)
  refine Rat.le_trans h1 ?_
  unfold cutCapacity
  have h2 : ∀ x ∈ V, ∀ y ∈ V, (if S x = true ∧ S y = false then capOf cap x y else 0) ≤
      sumL E (fun e => if y = e.2 then (if x = e.1 then capOf cap e.1 e.2 else 0) else 0) := by
    intro x _ y _
    have hnn : ∀ e ∈ E, (0 : Rat) ≤ (if y = e.2 then (if x = e.1 then capOf cap e.1 e.2 else 0) else 0) := by
      intro e _
      split
      · split
        · exact capOf_nonneg hc _ _
        · exact Rat.le_refl
      · exact Rat.le_refl
    by_cases hxy : (x, y) ∈ E
    · have := sumL_le_single hnn hxy
      simp only [if_true] at this
      split
      · exact this
      · exact sumL_nonneg hnn
    · split
      · rename_i hS
        have : capOf cap x y = 0 := by
          unfold capOf
          cases he : cap x y with
          | none => rfl
          | some v =>
            exfalso
            obtain ⟨n, hn⟩ := of_decide_eq_true hS.1
            exact of_decide_eq_false hS.2 ⟨n + 1, .succ hn ⟨by rw [he]; rfl, hxy⟩⟩
        rw [this]; exact sumL_nonneg hnn
      · exact sumL_nonneg hnn
  have h3 : sumL V (fun x => sumL V (fun y => if S x = true ∧ S y = false then capOf cap x y else 0)) ≤
      sumL V (fun x => sumL V (fun y => sumL E (fun e => if y = e.2 then (if x = e.1 then capOf cap e.1 e.2 else 0) else 0))) :=
    sumL_le (fun x hx => sumL_le (fun y hy => h2 x hx y hy))
  refine Rat.le_trans h3 ?_
  have h4 : ∀ x, sumL V (fun y => sumL E (fun e => if y = e.2 then (if x = e.1 then capOf cap e.1 e.2 else 0) else 0)) =
      sumL E (fun e => sumL V (fun y => if y = e.2 then (if x = e.1 then capOf cap e.1 e.2 else 0) else 0)) := fun x => sumL_swap _ _ _
  rw [sumL_congr (fun x _ => h4 x), sumL_swap]
  refine sumL_le (fun e _ => ?_)
  have hz : ∀ (z : α) (c : Rat), 0 ≤ c → sumL V (fun y => if y = z then c else 0) ≤ c := by
    intro z c hc0
    by_cases hz : z ∈ V
    · rw [sumL_single hV hz]; exact Rat.le_refl
    · rw [sumL_eq_zero]
      · exact hc0
      · intro y hy; rw [if_neg]; rintro rfl; exact hz hy
  have hce := capOf_nonneg hc e.1 e.2
  have h5 : ∀ x, sumL V (fun y => if y = e.2 then (if x = e.1 then capOf cap e.1 e.2 else 0) else 0) ≤
      (if x = e.1 then capOf cap e.1 e.2 else 0) := by
    intro x
    apply hz
    split
    · exact hce
    · exact Rat.le_refl
  exact Rat.le_trans (sumL_le (fun x _ => h5 x)) (hz e.1 _ hce)

/-- **C40**, a certificate: when edges, such as the returned ones, separate `start` from `end` and their capacities add up to the value of
`maximum_flow`, both answers are right: the flow is a maximum flow and no separating set of edges has less capacity. -/
theorem C40_certificate {g : Graph α Rat O} (hg : g.Built) (hc : NonNeg g.edge) {start fin : α} (hne : start ≠ fin)
    (hs : g.has start = true) (hf : g.has fin = true) {total : Rat} {f : Graph α Rat O} {cut : List (α × α)}
    (hmf : g.maximumFlow start fin = some (.ok (total, f))) (hsep : Separates g.edge start fin cut)
    (hsum : sumL cut (fun e => capOf g.edge e.1 e.2) = total) :
    IsMaxFlowValue g.nodeList g.edge start fin total ∧
    ∀ E, Separates g.edge start fin E → sumL cut (fun e => capOf g.edge e.1 e.2) ≤ sumL E (fun e => capOf g.edge e.1 e.2) := by
  obtain ⟨r, hr, total', f', hrr, hfi, _, hF, _⟩ := maximumFlow_main hg.inv hc hne hs hf
  rw [hmf] at hr; cases hr; cases hrr
  refine ⟨⟨⟨_, hF⟩, fun F v hv => ?_⟩, fun E hE => ?_⟩
  · rw [← hsum]; exact hv.le_separating hg.inv.nodesWF hc (has_iff.1 hs) hsep
  · rw [hsum]; exact hF.le_separating hg.inv.nodesWF hc (has_iff.1 hs) hE

/-- the hypotheses are met: on `1 → 2 → 3` with capacities 5 and 7 the edge `(1, 2)` is returned, separates and carries the flow 5 -/
def neckG : Graph Nat Rat Nat := run [W 1 2 5, W 2 3 7]

example : neckG.Built ∧ NonNeg neckG.edge ∧ neckG.has 1 = true ∧ neckG.has 3 = true ∧
    (∃ f, neckG.maximumFlow 1 3 = some (.ok (5, f))) ∧ neckG.maxFlowMinCut 1 3 = some (.ok [(1, 2)]) ∧
    Separates neckG.edge 1 3 [(1, 2)] ∧ sumL [(1, 2)] (fun e => capOf neckG.edge e.1 e.2) = 5 := by
  have hb : neckG.Built := ⟨_, rfl⟩
  refine ⟨hb, nonneg_of_edgeList hb (by decide +kernel), by decide, by decide, ?_, ?_, ?_, by decide +kernel⟩
  · obtain ⟨r, hr⟩ : ∃ r, mfF 30 neckG 1 3 = some r := Option.isSome_iff_exists.1 (by decide +kernel)
    have : ((mfF 30 neckG 1 3).map (fun r => match r with | .ok (t, _) => decide (t = 5) | .error _ => false)) = some true := by decide +kernel
    rw [hr] at this
    cases r with
    | error e => cases this
    | ok x =>
      obtain ⟨t, f⟩ := x
      have : t = 5 := by simpa using this
      subst this
      exact ⟨f, mfF_ok hr⟩
  · exact mcF_ok (k := 30) (by decide +kernel)
  · rintro ⟨n, hn⟩
    have key : ∀ n x, Steps (fun a b => (neckG.edge a b).isSome ∧ (a, b) ∉ [(1, 2)]) n 1 x → x = 1 := by
      intro n
      induction n with
      | zero => intro x h; cases h; rfl
      | succ n ih =>
        intro x h
        cases h with
        | succ h1 h2 =>
          have := ih _ h1
          subst this
          obtain ⟨v, hv⟩ := Option.isSome_iff_exists.1 h2.1
          have hm := hb.inv.mem_edgeList.2 hv
          have : ∀ e ∈ neckG.edgeList, e.1 = 1 → e.2.1 = 2 := by decide +kernel
          exact absurd (by rw [show x = 2 from this _ hm rfl]; simp) h2.2
    exact absurd (key n 3 hn) (by decide)

/-! ### C98 -/

/-- **C98**. Whatever the rounding of the reciprocals `1 / capacity` and of the path lengths, `maximum_flow` with exact (for instance integer)
non-negative capacities and `start ≠ end` in the graph returns `(total, flows)`: the flows respect the capacities, are conserved at
all other nodes, have the value `total`, and are maximal or leave no path from `start` to `end` with capacity left. -/
theorem C98_maximum_flow_rounded {fl : Rat → Rat} (hfl : Rounding fl) {g : Graph α Rat O} (hg : g.Built) (hc : NonNeg g.edge)
    {start fin : α} (hne : start ≠ fin) (hs : g.has start = true) (hf : g.has fin = true) :
    ∃ total f, g.maximumFlowFl fl start fin = some (.ok (total, f)) ∧
      IsFlow g.nodeList g.edge start fin (fun a b => (f.edge a b).getD 0) total ∧
      (∀ a b v, f.edge a b = some v → 0 < v) ∧
      (IsMaxFlowValue g.nodeList g.edge start fin total ∨ Blocking g.edge start fin (fun a b => (f.edge a b).getD 0)) := by
  obtain ⟨r, hr, total, f, rfl, h1, _, h2, h3, h4, h5, h6⟩ := maximumFlowFl_main hfl hg.inv hc hne hs hf
  refine ⟨total, f, hr, h2, h3, ?_⟩
  rcases h6 with h6 | h6
  · exact .inl ⟨⟨_, h2⟩, fun F v hF => MfPost.maximal hg.inv hne hs hf h6 hF⟩
  · exact .inr h6

/-- **C98**: with rounding, too, the value is the maximum on networks without merges or without forks between the ends. -/
theorem C98_maximal_without_merges_or_forks {fl : Rat → Rat} (hfl : Rounding fl) {g : Graph α Rat O} (hg : g.Built) (hc : NonNeg g.edge)
    {start fin : α} (hne : start ≠ fin) (hs : g.has start = true) (hf : g.has fin = true)
    (hn : NoMerge g.edge start fin ∨ NoFork g.edge start fin) :
    ∃ total f, g.maximumFlowFl fl start fin = some (.ok (total, f)) ∧ IsMaxFlowValue g.nodeList g.edge start fin total := by
  obtain ⟨r, hr, total, f, rfl, h1, _, h2, h3, h4, h5, h6⟩ := maximumFlowFl_main hfl hg.inv hc hne hs hf
  refine ⟨total, f, hr, ?_⟩
  rcases h6 with h6 | h6
  · exact ⟨⟨_, h2⟩, fun F v hF => MfPost.maximal hg.inv hne hs hf h6 hF⟩
  · rcases hn with hn | hn
    · exact h2.max_of_noMerge hg.inv.nodesWF (has_iff.1 hs) h6 (fun a => by unfold flowOf; rw [h5]; rfl) hn
    · exact h2.max_of_noFork hg.inv.nodesWF (has_iff.1 hs) h6 (fun a => by unfold flowOf; rw [h4]; rfl) hn

/-- **C98** for `maximum_flow_min_cut`: with rounding it returns the edges described in C40, with the flow that `maximum_flow` finds. -/
theorem C98_min_cut_rounded {fl : Rat → Rat} (hfl : Rounding fl) {g : Graph α Rat O} (hg : g.Built) (hc : NonNeg g.edge)
    {start fin : α} (hne : start ≠ fin) (hs : g.has start = true) (hf : g.has fin = true) :
    ∃ total f cut, g.maximumFlowFl fl start fin = some (.ok (total, f)) ∧ g.maxFlowMinCutFl fl start fin = some (.ok cut) ∧
      cut.Nodup ∧ (total = 0 → cut = []) ∧
      (∀ a b, (a, b) ∈ cut → FullExit g.edge f.edge a b ∧ ∃ n, HopDist f.Adj start a n ∧ ∀ m, Steps f.Adj m start fin → n ≤ m) ∧
      (total ≠ 0 → ∀ a b n, FullExit g.edge f.edge a b → Steps f.Adj n start a → (∀ m, Steps f.Adj m start fin → n < m) →
        (a, b) ∈ cut) := by
  obtain ⟨r, hr, total, f, rfl, hfi, _, hF, _⟩ := maximumFlowFl_main hfl hg.inv hc hne hs hf
  obtain ⟨t2, f2, cut, h1, h2, h0, h3⟩ := maxFlowMinCutFl_main hfl hg.inv hc hne hs hf
  rw [hr] at h1; cases h1
  by_cases ht : total = 0
  · have := h0 ht
    subst this
    exact ⟨_, _, _, hr, h2, List.nodup_nil, fun _ => rfl, (fun a b h => nomatch h), fun h => absurd ht h⟩
  · obtain ⟨walk, h4, h5⟩ := h3 ht
    obtain ⟨h6, h7⟩ := minCut_members hg.inv hc hne hs hf hfi hF ht h4 h5
    exact ⟨_, _, _, hr, h2, h5.nodup, fun h => absurd h ht, h6, fun _ => h7⟩

/-- **C98**, without rounding this is the function of C39 -/
theorem C98_exact (g : Graph α Rat O) (start fin : α) : g.maximumFlowFl id start fin = g.maximumFlow start fin :=
  maximumFlow_eq_fl g start fin

/-- **C98**, without rounding `maximum_flow_min_cut` is the function of C40 -/
theorem C98_min_cut_exact (g : Graph α Rat O) (start fin : α) : g.maxFlowMinCutFl id start fin = g.maxFlowMinCut start fin := by
  unfold maxFlowMinCutFl maxFlowMinCut
  rw [C98_exact]
  rfl

/-- **C98**, errors: a node that is not in the graph raises `ValueError`, whatever the rounding -/
theorem C98_errors (fl : Rat → Rat) {g : Graph α Rat O} {start fin : α} (h : ¬ (g.has start = true ∧ g.has fin = true)) :
    g.maximumFlowFl fl start fin = some (.error .valueError) ∧ g.maxFlowMinCutFl fl start fin = some (.error .valueError) := by
  unfold maximumFlowFl maxFlowMinCutFl
  cases hs : g.has start with
  | false => exact ⟨rfl, rfl⟩
  | true =>
    cases hf : g.has fin with
    | false => exact ⟨rfl, rfl⟩
    | true => exact absurd ⟨hs, hf⟩ h

example : ¬ (flowG.has 1 = true ∧ flowG.has 77 = true) := by decide

/-- the hypotheses are met, with the rounding to four digits -/
example : Rounding trunc4 ∧ flowG.Built ∧ NonNeg flowG.edge ∧ (1 : Nat) ≠ 4 ∧ flowG.has 1 = true ∧ flowG.has 4 = true :=
  ⟨trunc4_rounding, flowG_built, flowG_nonneg, by decide, by decide, by decide⟩

/-! ### C99 -/

theorem IsInt.sumClosed : SumClosed IsInt :=
  ⟨⟨0, rfl⟩, fun _ _ ⟨a, ha⟩ ⟨b, hb⟩ => ⟨a + b, by rw [ha, hb, Rat.intCast_add]⟩,
    fun _ _ ⟨a, ha⟩ ⟨b, hb⟩ => ⟨a - b, by rw [ha, hb, Rat.intCast_sub]⟩⟩

theorem IsInt.mul {x y : Rat} : IsInt x → IsInt y → IsInt (x * y) :=
  fun ⟨a, ha⟩ ⟨b, hb⟩ => ⟨a * b, by rw [ha, hb, Rat.intCast_mul]⟩

/-- **C99** for `maximum_flow`: integer capacities give integer flows and an integer value, whatever happens to the reciprocals. -/
theorem C99_maximum_flow_integral (fl : Rat → Rat) {g : Graph α Rat O} (hi : ∀ a b v, g.edge a b = some v → IsInt v) {start fin : α}
    {total : Rat} {f : Graph α Rat O} (h : g.maximumFlowFl fl start fin = some (.ok (total, f))) :
    IsInt total ∧ ∀ a b v, f.edge a b = some v → IsInt v :=
  maximumFlowFl_in IsInt.sumClosed hi h

/-- **C99** for `minimum_cost_flow`: integer costs, stocks and capacities (or none) give integer shipments and an integer total cost. -/
theorem C99_minimum_cost_flow_integral {nlt : α → α → Bool} {costs : Graph α Rat O}
    (hi : ∀ a b v, costs.edge a b = some v → IsInt v)
    {inventory : Dict α Rat} (hs : ∀ p ∈ inventory.items, IsInt p.2) {capacity : Option (Graph α Ext O)}
    (hc : ∀ c, capacity = some c → ∀ a b q, c.edge a b = some (.fin q) → IsInt q) {total : Rat} {f : Graph α Rat O}
    (h : costs.minCostFlow nlt inventory capacity = some (.ok (total, f))) :
    IsInt total ∧ ∀ a b v, f.edge a b = some v → IsInt v := by
  unfold minCostFlow at h
  split at h
  · cases h
  · split at h
    · cases h
    · rename_i capg hcap
      dsimp only at h
      split at h
      · cases h
      · cases h
      · rename_i flows hloop
        have hcapg : CapsIn IsInt capg := by
          intro a b x hx q hq
          subst hq
          unfold mcfCapacity at hcap
          split at hcap
          · cases hcap
            exfalso
            have hmem : ∀ e ∈ costs.edgeList.map (fun e => (e.1, e.2.1, Ext.inf)), e.2.2 = Ext.inf := by
              intro e he
              obtain ⟨e', _, rfl⟩ := List.mem_map.1 he
              rfl
            rw [addEdges_edge] at hx
            · rcases hx with hx | ⟨_, hx⟩
              · exact nomatch hmem _ hx
              · cases hx
            · intro a b v w h1 h2
              have := hmem _ h1; have := hmem _ h2
              simp_all
          · rename_i c
            split at hcap
            · cases hcap
            · split at hcap
              · cases hcap; exact hc _ rfl a b q hx
              · cases hcap
        obtain ⟨hflows, hfi⟩ : ValuesIn IsInt flows ∧ flows.Inv := by
          refine mcfLoop_in IsInt.sumClosed hcapg ?_ ?_ ?_ hloop
          · exact ⟨(fun a b v hv => nomatch hv), inv_empty⟩
          · intro a b v hv; cases hv
          · intro p hp
            have hp := (pySort_perm _ _).mem_iff.1 hp
            obtain ⟨q, hq, rfl⟩ := List.mem_map.1 hp
            exact hs q (List.mem_filter.1 hq).1
        split at h
        · cases h
        · rename_i total' hfor
          cases h
          refine ⟨?_, hflows⟩
          have key : ∀ (l : List (α × α × Rat)) acc t, (∀ e ∈ l, IsInt e.2.2) → IsInt acc →
              forE l acc (fun acc e => match costs.edge e.1 e.2.1 with
                | none => .error .typeError
                | some c => .ok (acc + e.2.2 * c)) = .ok t → IsInt t := by
            intro l
            induction l with
            | nil => intro acc t _ ha hl; simp only [forE] at hl; cases hl; exact ha
            | cons e l ih =>
              intro acc t he ha hl
              simp only [forE] at hl
              split at hl
              · cases hl
              · rename_i s' hs'
                split at hs'
                · cases hs'
                · rename_i c hce
                  cases hs'
                  exact ih _ _ (fun x hx => he x (List.mem_cons_of_mem _ hx))
                    (IsInt.sumClosed.add _ _ ha ((he e (by simp)).mul (hi _ _ _ hce))) hl
          exact key _ _ _ (fun e he => hflows _ _ _ (hfi.mem_edgeList.1 he)) ⟨0, rfl⟩ hfor

theorem isInt_of_edgeList {g : Graph Nat Rat Nat} (hb : g.Built) (h : ∀ e ∈ g.edgeList, e.2.2 = (e.2.2.num : Rat)) :
    ∀ a b v, g.edge a b = some v → IsInt v :=
  fun a b v hv => ⟨v.num, h (a, b, v) (hb.inv.mem_edgeList.2 hv)⟩

/-- the hypotheses are met: integer networks on which both functions return -/
example : (∀ a b v, flowG.edge a b = some v → IsInt v) ∧ (∃ total f, flowG.maximumFlowFl id 1 4 = some (.ok (total, f))) ∧
    (∀ a b v, shipG.edge a b = some v → IsInt v) ∧ (∀ p ∈ shipInv.items, IsInt p.2) ∧
    (∃ total f, shipG.minCostFlow natLt shipInv none = some (.ok (total, f))) := by
  refine ⟨isInt_of_edgeList flowG_built (by decide +kernel), ?_, isInt_of_edgeList C41_not_minimal_counterexample.1 (by decide +kernel), ?_, ?_⟩
  · obtain ⟨f, hf⟩ := C39_counterexample.2.2.1
    exact ⟨10, f, by rw [maximumFlow_eq_fl]; exact hf⟩
  · have : ∀ p ∈ shipInv.items, p.2 = (p.2.num : Rat) := by decide +kernel
    exact fun p hp => ⟨p.2.num, this p hp⟩
  · obtain ⟨f, hf⟩ := C41_not_minimal_counterexample.2.2.1
    exact ⟨11, f, hf⟩

end GT

import Verif.Flow.OneDemand
/-
`minimum_cost_flow` with one node in supply, enough supply and no capacities is optimal: every demand is served along a cheapest path.
-/
namespace GT
open Graph
variable {α O : Type} [DecidableEq α]

/-- one node in supply, and it covers all demands -/
def OneSupply (V : List α) (stock : α → Rat) (s : α) : Prop :=
  s ∈ V ∧ 0 < stock s ∧ (∀ n ∈ V, n ≠ s → stock n ≤ 0) ∧ 0 ≤ sumL V stock

section
variable {V : List α} {cost : α → α → Option Rat} {cap : α → α → Option Ext} {stock : α → Rat} {F F' : α → α → Rat} {π : α → Rat} {s : α}

/-- a complete shipment meets all demand -/
theorem os_done (hV : V.Nodup) (h1 : OneSupply V stock s) (h : IsShipment V cost cap stock F) (hd : ShipDone V stock F) :
    ∀ n ∈ V, n ≠ s → netOut V F n = stock n := by
  have hle : ∀ n ∈ V, n ≠ s → stock n ≤ netOut V F n := fun n hn hne => (h.demand n hn (h1.2.2.1 n hn hne)).1
  rcases hd with hd | hd
  · intro n hn hne
    have h2 := h1.2.2.1 n hn hne
    by_cases h3 : stock n = 0
    · have := h.demand n hn h2; grind
    · exact hd n hn (by grind)
  · have hs := hd s h1.1 h1.2.1
    have e1 := netOut_sum V F
    have e2 := h1.2.2.2
    rw [sumL_perm (List.perm_cons_erase h1.1), sumL_cons] at e1 e2
    have e3 : sumL (V.erase s) (fun n => netOut V F n - stock n) ≤ 0 := by rw [sumL_sub]; grind
    intro n hn hne
    have h4 := sumL_le_single (l := V.erase s) (f := fun n => netOut V F n - stock n)
      (fun k hk => by rw [hV.mem_erase_iff] at hk; have := hle k hk.2 hk.1; grind) (x := n) (by rw [hV.mem_erase_iff]; exact ⟨hne, hn⟩)
    have := hle n hn hne
    grind

/-- **optimality** -/
theorem one_supply_opt (hV : V.Nodup) (h1 : OneSupply V stock s) (hp : IsPotential cost π)
    (h : IsShipment V cost cap stock F) (hd : ShipDone V stock F) (ht : Tight cost π F)
    (h' : IsShipment V cost cap stock F') (hd' : ShipDone V stock F') : shipCost V cost F ≤ shipCost V cost F' := by
  rw [shipCost_tight ht]
  refine Rat.le_trans ?_ (shipCost_ge h' hp)
  have a1 := os_done hV h1 h hd
  have a2 := os_done hV h1 h' hd'
  have e1 := netOut_sum V F
  have e2 := netOut_sum V F'
  rw [sumL_perm (List.perm_cons_erase h1.1), sumL_cons] at e1 e2
  have e3 : sumL (V.erase s) (fun n => netOut V F n) = sumL (V.erase s) (fun n => netOut V F' n) := by
    refine sumL_congr (fun n hn => ?_)
    rw [hV.mem_erase_iff] at hn
    rw [a1 n hn.2 hn.1, a2 n hn.2 hn.1]
  have heq : sumL V (fun n => π n * netOut V F n) = sumL V (fun n => π n * netOut V F' n) := by
    refine sumL_congr (fun n hn => ?_)
    by_cases hne : n = s
    · subst hne
      have : netOut V F n = netOut V F' n := by grind
      rw [this]
    · rw [a1 n hn hne, a2 n hn hne]
  rw [heq]; exact Rat.le_refl

/-- if the shipment is stuck, some demand is not reached from the supply -/
theorem os_stuck_unreached (h1 : OneSupply V stock s) (hcap : ∀ a b, (cost a b).isSome → cap a b = some .inf)
    (hst : ShipStuck V cost cap stock F) : ∃ e ∈ V, stock e < 0 ∧ ¬ Reach (fun a b => (cost a b).isSome = true) s e := by
  obtain ⟨⟨s', hsV, hs0, hsl⟩, e, heV, hed, hed0, hno⟩ := hst
  have hss : s' = s := by
    apply Classical.byContradiction
    intro hne
    have := h1.2.2.1 s' hsV hne
    grind
  subst hss
  refine ⟨e, heV, hed0, ?_⟩
  rintro ⟨k, hk⟩
  exact hno s' hsV hs0 hsl ⟨k, hk.mono (fun a b hab => ⟨hab, .inf, hcap a b hab, by simp⟩)⟩

/-- if some demand is not reached, no shipment is complete -/
theorem one_supply_stuck (hV : V.Nodup) (h1 : OneSupply V stock s) {e : α} (heV : e ∈ V) (hed : stock e < 0)
    (hRe : ¬ Reach (fun a b => (cost a b).isSome = true) s e) (h' : IsShipment V cost cap stock F') : ¬ ShipDone V stock F' := by
  classical
  intro hd'
  let R := fun n => Reach (fun a b => (cost a b).isSome = true) s n
  have hRe : ¬ R e := hRe
  let χ := fun n => if R n then (0 : Rat) else 1
  have hχ : 0 ≤ sumL V (fun n => χ n * netOut V F' n) := by
    rw [netOut_potential]
    refine sumL_nonneg (fun a _ => sumL_nonneg (fun b _ => ?_))
    by_cases h0 : F' a b = 0
    · rw [h0]; grind
    · have hab := h'.edges a b h0
      refine Rat.mul_nonneg (h'.nonneg a b) ?_
      show 0 ≤ (if R a then (0 : Rat) else 1) - (if R b then (0 : Rat) else 1)
      by_cases ha : R a
      · have hb : R b := by
          exact Reach.tail ha hab
        rw [if_pos ha, if_pos hb]; grind
      · rw [if_neg ha]; split <;> grind
  have hRs : R s := ⟨0, .zero s⟩
  have hnp : ∀ k ∈ V, 0 ≤ - (χ k * netOut V F' k) := by
    intro k hk
    show 0 ≤ - ((if R k then (0 : Rat) else 1) * _)
    by_cases hkR : R k
    · rw [if_pos hkR]; grind
    · rw [if_neg hkR]
      have hke : k ≠ s := fun h => hkR (h ▸ hRs)
      have := (h'.demand k hk (h1.2.2.1 k hk hke)).2
      grind
  have h3 := sumL_le_single hnp heV
  have h4 : sumL V (fun k => - (χ k * netOut V F' k)) = - sumL V (fun k => χ k * netOut V F' k) := by
    have := sumL_mul V (-1) (fun k => χ k * netOut V F' k)
    have h5 : sumL V (fun k => - (χ k * netOut V F' k)) = sumL V (fun k => -1 * (χ k * netOut V F' k)) := sumL_congr (fun k _ => by grind)
    rw [h5, this]; grind
  have h6 : χ e = 1 := if_neg hRe
  have h7 := os_done hV h1 h' hd' e heV (fun h => hRe (h ▸ hRs))
  rw [h6, h4, h7] at h3
  grind
end

/-- minus the distance from `s`, and a common smaller value for the nodes that are not reached -/
structure DistFrom (V : List α) (cost : α → α → Option Rat) (s : α) (π : α → Rat) : Prop where
  pot : IsPotential cost π
  dist : ∀ n ∈ V, (∃ p c, WalkOf cost s n p c) → (∃ p, WalkOf cost s n p (- π n)) ∧ ∀ p c, WalkOf cost s n p c → - π n ≤ c

theorem os_step {nlt : α → α → Bool} {costs : Graph α Rat O} (hnn : NonNeg costs.edge) {capacity : Graph α Ext O}
    (hcap : ∀ a b, (costs.edge a b).isSome → capacity.edge a b = some .inf) {stock : α → Rat} {s s' : McfSt α O} {o : α} {π : α → Rat}
    (h1 : OneSupply costs.nodeList stock o) (hπ : DistFrom costs.nodeList costs.edge o π) (hi : McfInv nlt costs capacity stock s)
    (hm : McfMove costs.nodeList s s') (ht : Tight costs.edge π (flowOf s.flows)) : Tight costs.edge π (flowOf s'.flows) := by
  obtain ⟨D, dn, E, en, L, q, path, m1, m2, m3, m4, m5, m6, m7, m8, m9, m10, m11⟩ := hm
  have hpe : s.paths.edge = costs.edge := by
    funext a b
    cases hc : costs.edge a b with
    | none =>
      cases hp : s.paths.edge a b with
      | none => rfl
      | some c => rw [hi.psub a b c hp] at hc; cases hc
    | some c =>
      refine hi.pall a b c hc ?_
      rw [(hi.cap a b .inf (hcap a b (by rw [hc]; rfl))).1]
      intro e; cases e
  rw [hpe] at m7 m8
  have hdV := (hi.bmem D dn m1).1
  have heV := (hi.bmem E en m3).1
  have hen : en = o := by
    apply Classical.byContradiction
    intro hne
    have := h1.2.2.1 en heV hne
    have := (hi.left en heV E (.inl m3)).2
    grind
  subst hen
  obtain ⟨⟨p, hp⟩, h2⟩ := hπ.dist dn hdV ⟨_, _, m7⟩
  have hqe : - π dn = q := by
    have := m8 E en m3 m4 p _ hp
    have := h2 _ _ m7
    grind
  have hd0 : π en = 0 := by
    obtain ⟨⟨p, hp⟩, h2⟩ := hπ.dist en heV ⟨_, _, WalkOf.single en⟩
    have := hp.nonneg hnn
    have := h2 _ _ (WalkOf.single en)
    grind
  intro a b hab
  rw [m9] at hab
  by_cases hin : (a, b) ∈ pairs path
  · exact (walk_tight hπ.pot path m7).2 (by rw [hd0]; grind) a b hin
  · rw [if_neg hin] at hab; exact ht a b hab

theorem distFrom_exists {costs : Graph α Rat O} (hc : costs.Inv) (hnn : NonNeg costs.edge) {s : α} (hs : s ∈ costs.nodeList) :
    ∃ π, DistFrom costs.nodeList costs.edge s π := by
  have hncyc : NoNegCycle costs.edge := fun a p c hw => hw.nonneg hnn
  obtain ⟨_, hdist⟩ := allPairs_spec hc hncyc
  let D := fun n => at2 costs.allPairs s n
  let val := fun n => match D n with
    | .fin q => q
    | .inf => (0 : Rat)
  have hval : ∀ n ∈ costs.nodeList, 0 ≤ val n := by
    intro n hn
    have h := hdist s n hs hn
    show 0 ≤ match at2 costs.allPairs s n with | .fin q => q | .inf => (0 : Rat)
    cases hD : at2 costs.allPairs s n with
    | inf => exact Rat.le_refl
    | fin q =>
      rw [hD] at h
      obtain ⟨p, hp⟩ := h.1
      exact hp.nonneg hnn
  let M := sumL costs.nodeList val
  let π := fun n => match D n with
    | .fin q => - q
    | .inf => - M
  have hπf : ∀ n q, D n = .fin q → π n = - q := by
    intro n q h
    show (match D n with | .fin q => - q | .inf => - M) = - q
    rw [h]
  have hπi : ∀ n, D n = .inf → π n = - M := by
    intro n h
    show (match D n with | .fin q => - q | .inf => - M) = - M
    rw [h]
  have hqM : ∀ n ∈ costs.nodeList, ∀ q, D n = .fin q → q ≤ M := by
    intro n hn q hD
    have h1 := sumL_le_single hval hn
    have h2 : val n = match D n with | .fin q => q | .inf => (0 : Rat) := rfl
    rw [hD] at h2; dsimp only at h2; rw [h2] at h1; exact h1
  refine ⟨π, ?_, ?_⟩
  · intro a b c hab
    obtain ⟨ha, hb⟩ := hc.edge_mem hab
    have hc0 := hnn a b c hab
    have h1 := hdist s a hs ha
    have h2 := hdist s b hs hb
    cases hDa : D a with
    | inf =>
      rw [hπi a hDa]
      cases hDb : D b with
      | inf => rw [hπi b hDb]; grind
      | fin q => rw [hπf b q hDb]; have := hqM b hb q hDb; grind
    | fin r =>
      rw [show at2 costs.allPairs s a = .fin r from hDa] at h1
      obtain ⟨p, hp⟩ := h1.1
      have hw := hp.snoc hab
      rw [hπf a r hDa]
      cases hDb : D b with
      | inf =>
        rw [show at2 costs.allPairs s b = .inf from hDb] at h2
        exact absurd ⟨_, _, hw⟩ h2
      | fin q =>
        rw [show at2 costs.allPairs s b = .fin q from hDb] at h2
        rw [hπf b q hDb]
        have := h2.2 _ _ hw
        grind
  · intro n hn hw
    have h1 := hdist s n hs hn
    cases hD : D n with
    | inf =>
      rw [show at2 costs.allPairs s n = .inf from hD] at h1
      exact absurd hw h1
    | fin q =>
      rw [show at2 costs.allPairs s n = .fin q from hD] at h1
      rw [hπf n q hD, Rat.neg_neg]
      exact h1

/-- **one node in supply, no capacities** -/
theorem minCostFlow_one_supply {nlt : α → α → Bool} (ho : NodeOrder nlt) {costs : Graph α Rat O} (hc : costs.Inv) (hnn : NonNeg costs.edge)
    {inventory : Dict α Rat} (hwf : inventory.WF) (hin : ∀ n v, inventory.get? n = some v → v ≠ 0 → costs.has n = true) {o : α}
    (h1 : OneSupply costs.nodeList (stockOf inventory) o) :
    ((∀ n ∈ costs.nodeList, stockOf inventory n < 0 → Reach (fun a b => (costs.edge a b).isSome = true) o n) ∧
      ∃ total f, costs.minCostFlow nlt inventory none = some (.ok (total, f)) ∧
      IsShipment costs.nodeList costs.edge (effCap costs.edge none) (stockOf inventory) (flowOf f) ∧
      (∀ n ∈ costs.nodeList, stockOf inventory n < 0 → netOut costs.nodeList (flowOf f) n = stockOf inventory n) ∧
      total = shipCost costs.nodeList costs.edge (flowOf f) ∧
      ∀ F, IsShipment costs.nodeList costs.edge (effCap costs.edge none) (stockOf inventory) F → ShipDone costs.nodeList (stockOf inventory) F →
        total ≤ shipCost costs.nodeList costs.edge F) ∨
    ((∃ n ∈ costs.nodeList, stockOf inventory n < 0 ∧ ¬ Reach (fun a b => (costs.edge a b).isSome = true) o n) ∧
      costs.minCostFlow nlt inventory none = some (.error .exception) ∧
      ∀ F, IsShipment costs.nodeList costs.edge (effCap costs.edge none) (stockOf inventory) F → ¬ ShipDone costs.nodeList (stockOf inventory) F) := by
  obtain ⟨capg, hcg, hce⟩ := mcfCapacity_ok hc (capacity := none) (by intro c h; cases h)
  have hce : capg.edge = effCap costs.edge none := hce
  obtain ⟨π, hπ⟩ := distFrom_exists hc hnn h1.1
  have hcap : ∀ a b, (costs.edge a b).isSome → capg.edge a b = some .inf := by
    intro a b hab
    obtain ⟨c, hcc⟩ := Option.isSome_iff_exists.1 hab
    rw [hce]; show (costs.edge a b).map (fun _ => Ext.inf) = _; rw [hcc]; rfl
  have := minCostFlow_with (fun f => Tight costs.edge π (flowOf f))
    ho hc hnn hwf hin hcg (fun a b hab => by rw [hcap a b hab]; rfl) (fun a b c hcc => by
      rw [hce] at hcc
      have hcc : (costs.edge a b).map (fun _ => Ext.inf) = some c := hcc
      cases he : costs.edge a b with
      | none => rw [he] at hcc; cases hcc
      | some v => rw [he] at hcc; cases hcc; trivial)
    (fun a b h => absurd rfl h)
    (fun s s' hi hi' hm hx => os_step hnn hcap h1 hπ hi hm hx)
  rw [hce] at this
  rcases this with ⟨t, f, a1, a2, a3, a5, a6, a7⟩ | ⟨a1, F, a2, a3⟩
  · refine .inl ⟨fun n hn hlt => ?_, t, f, a1, a5, fun n hn hlt => ?_, a7, fun F hF hD => ?_⟩
    · apply Classical.byContradiction
      intro hno
      exact one_supply_stuck hc.nodesWF h1 hn hlt hno a5 a6
    · have hne : n ≠ o := by rintro rfl; have := h1.2.1; grind
      exact os_done hc.nodesWF h1 a5 a6 n hn hne
    · rw [a7]
      exact one_supply_opt hc.nodesWF h1 hπ.pot a5 a6 a3 hF hD
  · obtain ⟨e, b1, b2, b3⟩ := os_stuck_unreached h1 (fun a b hab => by rw [← hce]; exact hcap a b hab) a3
    exact .inr ⟨⟨e, b1, b2, b3⟩, a1, fun F' hF' => one_supply_stuck hc.nodesWF h1 b1 b2 b3 hF'⟩

end GT

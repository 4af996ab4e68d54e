import Verif.Flow.MinCost
/-
`minimum_cost_flow` with one node in demand and without capacities is optimal: potentials and complementary slackness.
-/
namespace GT
open Graph
variable {α O : Type} [DecidableEq α]

omit [DecidableEq α] in
theorem sumL_mul {β : Type} (l : List β) (c : Rat) (f : β → Rat) : sumL l (fun x => c * f x) = c * sumL l f := by
  induction l with
  | nil => simp only [sumL_nil]; grind
  | cons a l ih => rw [sumL_cons, sumL_cons, ih]; grind

omit [DecidableEq α] in
/-- the weighted sum of what leaves the nodes is the sum over the flows of the difference of the weights -/
theorem netOut_potential (V : List α) (F : α → α → Rat) (π : α → Rat) :
    sumL V (fun n => π n * netOut V F n) = sumL V (fun a => sumL V (fun b => F a b * (π a - π b))) := by
  have h1 : sumL V (fun n => π n * netOut V F n) =
      sumL V (fun n => sumL V (fun y => π n * F n y)) - sumL V (fun n => sumL V (fun y => π n * F y n)) := by
    rw [← sumL_sub]
    refine sumL_congr (fun n _ => ?_)
    rw [sumL_mul, sumL_mul]; unfold netOut; grind
  rw [h1, sumL_swap V V (fun n y => π n * F y n), ← sumL_sub]
  refine sumL_congr (fun a _ => ?_)
  rw [← sumL_sub]
  exact sumL_congr (fun b _ => by grind)

/-- a potential for the costs -/
def IsPotential (cost : α → α → Option Rat) (π : α → Rat) : Prop :=
  ∀ a b c, cost a b = some c → π a - π b ≤ c

/-- the flow uses tight edges only -/
def Tight (cost : α → α → Option Rat) (π : α → Rat) (F : α → α → Rat) : Prop :=
  ∀ a b, F a b ≠ 0 → cost a b = some (π a - π b)

section
variable {V : List α} {cost : α → α → Option Rat} {cap : α → α → Option Ext} {stock : α → Rat} {F : α → α → Rat} {π : α → Rat}

omit [DecidableEq α] in
theorem shipCost_ge (h : IsShipment V cost cap stock F) (hp : IsPotential cost π) :
    sumL V (fun n => π n * netOut V F n) ≤ shipCost V cost F := by
  rw [netOut_potential]
  refine sumL_le (fun a _ => sumL_le (fun b _ => ?_))
  by_cases h0 : F a b = 0
  · rw [h0]; grind
  · obtain ⟨c, hc⟩ := Option.isSome_iff_exists.1 (h.edges a b h0)
    have h1 := hp a b c hc
    have h2 := h.nonneg a b
    unfold capOf; rw [hc]
    exact Rat.mul_le_mul_of_nonneg_left h1 h2

omit [DecidableEq α] in
theorem shipCost_tight (ht : Tight cost π F) : shipCost V cost F = sumL V (fun n => π n * netOut V F n) := by
  rw [netOut_potential]
  refine sumL_congr (fun a _ => sumL_congr (fun b _ => ?_))
  by_cases h0 : F a b = 0
  · rw [h0]; grind
  · unfold capOf; rw [ht a b h0]; rfl

omit [DecidableEq α] in
theorem netOut_sum (V : List α) (F : α → α → Rat) : sumL V (fun n => netOut V F n) = 0 := by
  have := netOut_potential V F (fun _ => 1)
  have h1 : sumL V (fun n => netOut V F n) = sumL V (fun n => 1 * netOut V F n) := sumL_congr (fun n _ => by grind)
  rw [h1, this]
  exact sumL_eq_zero (fun a _ => sumL_eq_zero (fun b _ => by grind))
end

/-- the exchange argument: of all ways to take the same amount from the stocks, taking from the cheapest first costs least -/
theorem exchange {V : List α} (x y : α → Rat) (π : α → Rat) (θ : Rat)
    (h : ∀ n ∈ V, (x n < y n → θ ≤ π n) ∧ (y n < x n → π n ≤ θ)) (hs : sumL V x = sumL V y) :
    sumL V (fun n => π n * x n) ≤ sumL V (fun n => π n * y n) := by
  have h1 : sumL V (fun n => θ * (y n - x n)) ≤ sumL V (fun n => π n * y n - π n * x n) := by
    refine sumL_le (fun n hn => ?_)
    obtain ⟨h2, h3⟩ := h n hn
    have h4 : π n * y n - π n * x n - θ * (y n - x n) = (π n - θ) * (y n - x n) := by grind
    have h5 : 0 ≤ (π n - θ) * (y n - x n) := by
      by_cases h6 : x n < y n
      · exact Rat.mul_nonneg (by have := h2 h6; grind) (by grind)
      · by_cases h7 : y n < x n
        · have h8 : 0 ≤ (θ - π n) * (x n - y n) := Rat.mul_nonneg (by have := h3 h7; grind) (by grind)
          grind
        · have : y n - x n = 0 := by grind
          rw [this]; grind
    grind
  rw [sumL_mul, sumL_sub, sumL_sub, hs] at h1
  grind

/-- one node in demand -/
def OneDemand (V : List α) (stock : α → Rat) (d : α) : Prop := d ∈ V ∧ stock d < 0 ∧ ∀ n ∈ V, n ≠ d → 0 ≤ stock n

/-- nearer supplies are used up before others are touched -/
def NearestFirst (V : List α) (stock : α → Rat) (π : α → Rat) (F : α → α → Rat) : Prop :=
  ∀ m ∈ V, ∀ n ∈ V, 0 < netOut V F m → netOut V F n < stock n → π m ≤ π n

section
variable {V : List α} {cost : α → α → Option Rat} {cap : α → α → Option Ext} {stock : α → Rat} {F F' : α → α → Rat} {π : α → Rat} {d : α}

/-- what arrives at `d` -/
theorem demand_served (hV : V.Nodup) (h1 : OneDemand V stock d) (F : α → α → Rat) :
    sumL (V.erase d) (fun n => netOut V F n) = - netOut V F d := by
  have := netOut_sum V F
  rw [sumL_perm (List.perm_cons_erase h1.1), sumL_cons] at this
  grind

theorem done_same (hV : V.Nodup) (h1 : OneDemand V stock d) (h : IsShipment V cost cap stock F) (hd : ShipDone V stock F)
    (h' : IsShipment V cost cap stock F') (hd' : ShipDone V stock F') : netOut V F d = netOut V F' d := by
  have e1 := demand_served hV h1 F
  have e2 := demand_served hV h1 F'
  have hall : ∀ F, (∀ n ∈ V, 0 < stock n → netOut V F n = stock n) → IsShipment V cost cap stock F →
      sumL (V.erase d) (fun n => netOut V F n) = sumL (V.erase d) stock := by
    intro F hF hS
    refine sumL_congr (fun n hn => ?_)
    rw [hV.mem_erase_iff] at hn
    have h2 := h1.2.2 n hn.2 hn.1
    by_cases h3 : stock n = 0
    · have := hS.supply n hn.2 h2; grind
    · exact hF n hn.2 (by grind)
  have hle : ∀ F, IsShipment V cost cap stock F → sumL (V.erase d) (fun n => netOut V F n) ≤ sumL (V.erase d) stock := by
    intro F hS
    refine sumL_le (fun n hn => ?_)
    rw [hV.mem_erase_iff] at hn
    exact (hS.supply n hn.2 (h1.2.2 n hn.2 hn.1)).2
  have d1 := (h.demand d h1.1 (by have := h1.2.1; grind)).1
  have d2 := (h'.demand d h1.1 (by have := h1.2.1; grind)).1
  have l1 := hle F h
  have l2 := hle F' h'
  rcases hd with hd | hd <;> rcases hd' with hd' | hd'
  · rw [hd d h1.1 h1.2.1, hd' d h1.1 h1.2.1]
  · have := hd d h1.1 h1.2.1
    have := hall F' hd' h'
    grind
  · have := hd' d h1.1 h1.2.1
    have := hall F hd h
    grind
  · have := hall F hd h
    have := hall F' hd' h'
    grind

/-- **optimality** -/
theorem one_demand_opt (hV : V.Nodup) (h1 : OneDemand V stock d) (hp : IsPotential cost π)
    (h : IsShipment V cost cap stock F) (hd : ShipDone V stock F) (ht : Tight cost π F) (hn : NearestFirst V stock π F)
    (h' : IsShipment V cost cap stock F') (hd' : ShipDone V stock F') : shipCost V cost F ≤ shipCost V cost F' := by
  rw [shipCost_tight ht]
  refine Rat.le_trans ?_ (shipCost_ge h' hp)
  have hsame := done_same hV h1 h hd h' hd'
  have hb : ∀ F, IsShipment V cost cap stock F → ∀ n ∈ V, n ≠ d → 0 ≤ netOut V F n ∧ netOut V F n ≤ stock n :=
    fun F hS n hn hne => hS.supply n hn (h1.2.2 n hn hne)
  -- the threshold
  by_cases hex : ∃ m ∈ V, 0 < netOut V F m
  · have hmax : ∃ m ∈ V, 0 < netOut V F m ∧ ∀ k ∈ V, 0 < netOut V F k → π k ≤ π m := by
      have gen : ∀ l : List α, (∀ x ∈ l, x ∈ V) → (∃ m ∈ l, 0 < netOut V F m) →
          ∃ m ∈ V, 0 < netOut V F m ∧ ∀ k ∈ l, 0 < netOut V F k → π k ≤ π m := by
        intro l
        induction l with
        | nil => rintro _ ⟨m, hm, _⟩; cases hm
        | cons a l ih =>
          intro hl hex
          have ha := hl a (by simp)
          have hl' : ∀ x ∈ l, x ∈ V := fun x hx => hl x (List.mem_cons_of_mem _ hx)
          by_cases hl2 : ∃ m ∈ l, 0 < netOut V F m
          · obtain ⟨m, hm, h2, h3⟩ := ih hl' hl2
            by_cases hcmp : 0 < netOut V F a ∧ π m < π a
            · refine ⟨a, ha, hcmp.1, fun k hk hk0 => ?_⟩
              rcases List.mem_cons.1 hk with rfl | hk
              · exact Rat.le_refl
              · have := h3 k hk hk0; have := hcmp.2; grind
            · refine ⟨m, hm, h2, fun k hk hk0 => ?_⟩
              rcases List.mem_cons.1 hk with rfl | hk
              · apply Classical.byContradiction
                intro hc
                exact hcmp ⟨hk0, by grind⟩
              · exact h3 k hk hk0
          · obtain ⟨m, hm, h2⟩ := hex
            rcases List.mem_cons.1 hm with rfl | hm
            · refine ⟨m, ha, h2, fun k hk hk0 => ?_⟩
              rcases List.mem_cons.1 hk with rfl | hk
              · exact Rat.le_refl
              · exact absurd ⟨k, hk, hk0⟩ hl2
            · exact absurd ⟨m, hm, h2⟩ hl2
      exact gen V (fun _ h => h) hex
    obtain ⟨m, hm, h2, h3⟩ := hmax
    refine exchange _ _ π (π m) (fun n hnV => ?_) (by rw [netOut_sum, netOut_sum])
    by_cases hnd : n = d
    · subst hnd; rw [hsame]; constructor <;> intro h <;> grind
    · have b1 := hb F h n hnV hnd
      have b2 := hb F' h' n hnV hnd
      refine ⟨fun hlt => hn m hm n hnV h2 (by grind), fun hlt => h3 n hnV (by grind)⟩
  · -- nothing is shipped
    have hz : ∀ n ∈ V, n ≠ d → netOut V F n = 0 := by
      intro n hn hne
      have := (hb F h n hn hne).1
      have : ¬ 0 < netOut V F n := fun h => hex ⟨n, hn, h⟩
      grind
    have e1 := demand_served hV h1 F
    have e2 := demand_served hV h1 F'
    rw [sumL_eq_zero (fun n hn => by rw [hV.mem_erase_iff] at hn; exact hz n hn.2 hn.1)] at e1
    have hz' : ∀ n ∈ V, n ≠ d → netOut V F' n = 0 := by
      intro n hn hne
      have h4 := sumL_le_single (l := V.erase d) (f := fun n => netOut V F' n)
        (fun k hk => by rw [hV.mem_erase_iff] at hk; exact (hb F' h' k hk.2 hk.1).1) (x := n) (by rw [hV.mem_erase_iff]; exact ⟨hne, hn⟩)
      have := (hb F' h' n hn hne).1
      grind
    have heq : sumL V (fun n => π n * netOut V F n) = sumL V (fun n => π n * netOut V F' n) := by
      refine sumL_congr (fun n hn => ?_)
      by_cases hnd : n = d
      · subst hnd; rw [hsame]
      · rw [hz n hn hnd, hz' n hn hnd]
    rw [heq]; exact Rat.le_refl

/-- if the nearest-first shipment is stuck, no shipment is complete -/
theorem one_demand_stuck (hV : V.Nodup) (h1 : OneDemand V stock d) (hedge : ∀ a b, (cost a b).isSome → a ∈ V ∧ b ∈ V)
    (hcap : ∀ a b, (cost a b).isSome → cap a b = some .inf)
    (h : IsShipment V cost cap stock F) (hst : ShipStuck V cost cap stock F) (h' : IsShipment V cost cap stock F') : ¬ ShipDone V stock F' := by
  classical
  intro hd'
  obtain ⟨⟨s, hsV, hs0, hsl⟩, e, heV, hed, hed0, hno⟩ := hst
  have hee : e = d := by
    apply Classical.byContradiction
    intro hne
    have := h1.2.2 e heV hne
    grind
  subst hee
  let R := fun n => Reach (fun a b => (cost a b).isSome = true) n e
  have hR : ∀ n ∈ V, 0 < stock n → netOut V F n < stock n → ¬ R n := by
    rintro n hn h2 h3 ⟨k, hk⟩
    refine hno n hn h2 h3 ⟨k, hk.mono (fun a b hab => ⟨hab, .inf, hcap a b hab, by simp⟩)⟩
  let χ := fun n => if R n then (0 : Rat) else 1
  have hχ : ∀ F, IsShipment V cost cap stock F → sumL V (fun n => χ n * netOut V F n) ≤ 0 := by
    intro F hS
    rw [netOut_potential]
    have : sumL V (fun a => sumL V (fun b => F a b * (χ a - χ b))) ≤ sumL V (fun _ => 0) := by
      refine sumL_le (fun a _ => ?_)
      have : sumL V (fun b => F a b * (χ a - χ b)) ≤ sumL V (fun _ => 0) := by
        refine sumL_le (fun b _ => ?_)
        by_cases h0 : F a b = 0
        · rw [h0]; grind
        · have hab := hS.edges a b h0
          have hF := hS.nonneg a b
          have hc : χ a - χ b ≤ 0 := by
            show (if R a then (0 : Rat) else 1) - (if R b then (0 : Rat) else 1) ≤ 0
            by_cases ha : R a
            · rw [if_pos ha]; split <;> grind
            · have hb : ¬ R b := fun ⟨k, hk⟩ => ha ⟨k + 1, Steps.cons hab hk⟩
              rw [if_neg ha, if_neg hb]; grind
          have := Rat.mul_nonneg hF (show 0 ≤ - (χ a - χ b) by grind)
          grind
      rw [sumL_zero] at this; exact this
    rw [sumL_zero] at this; exact this
  have hRe : R e := ⟨0, .zero e⟩
  -- outside of R nothing is shipped
  have hout : ∀ F, IsShipment V cost cap stock F → ∀ n ∈ V, ¬ R n → netOut V F n = 0 := by
    intro F hS n hn hnR
    have hnn : ∀ k ∈ V, 0 ≤ χ k * netOut V F k := by
      intro k hk
      show 0 ≤ (if R k then (0 : Rat) else 1) * _
      by_cases hkR : R k
      · rw [if_pos hkR]; grind
      · rw [if_neg hkR]
        have hke : k ≠ e := fun h => hkR (h ▸ hRe)
        have := (hS.supply k hk (h1.2.2 k hk hke)).1
        grind
    have h3 := sumL_le_single hnn hn
    have h4 := hχ F hS
    have h5 : χ n = 1 := if_neg hnR
    have hne : n ≠ e := fun h => hnR (h ▸ hRe)
    have := (hS.supply n hn (h1.2.2 n hn hne)).1
    rw [h5] at h3
    grind
  have hsR : ¬ R s := hR s hsV hs0 hsl
  rcases hd' with hd' | hd'
  · have hde := hd' e heV hed0
    have e1 := demand_served hV h1 F
    have e2 := demand_served hV h1 F'
    have : sumL (V.erase e) (fun n => netOut V F' n) ≤ sumL (V.erase e) (fun n => netOut V F n) := by
      refine sumL_le (fun n hn => ?_)
      rw [hV.mem_erase_iff] at hn
      by_cases hnR : R n
      · have h2 := h1.2.2 n hn.2 hn.1
        have h3 := (h'.supply n hn.2 h2).2
        have h4 := (h.supply n hn.2 h2)
        by_cases h5 : netOut V F n < stock n
        · by_cases h6 : 0 < stock n
          · exact absurd hnR (hR n hn.2 h6 h5)
          · grind
        · grind
      · rw [hout F h n hn.2 hnR, hout F' h' n hn.2 hnR]; exact Rat.le_refl
    grind
  · have := hd' s hsV hs0
    rw [hout F' h' s hsV hsR] at this
    grind
end

/-! ### the loop -/

omit [DecidableEq α] in
theorem walk_tight {cost : α → α → Option Rat} {π : α → Rat} (hp : IsPotential cost π) {d : α} (path : List α) : ∀ {n : α} {q : Rat},
    WalkOf cost n d path q → π n - π d ≤ q ∧ (q = π n - π d → ∀ a b, (a, b) ∈ pairs path → cost a b = some (π a - π b)) := by
  induction path with
  | nil => intro n q h; cases h.1
  | cons x l ih =>
    intro n q h
    cases l with
    | nil =>
      obtain ⟨h1, h2, h3⟩ := h
      cases h1; cases h2; cases h3
      exact ⟨by grind, fun _ a b hab => by cases hab⟩
    | cons y l =>
      obtain ⟨h1, h2, h3⟩ := h
      cases h1
      simp only [walkCost] at h3
      cases hc : cost x y with
      | none => rw [hc] at h3; cases h3
      | some c =>
        rw [hc] at h3
        cases hr : walkCost cost (y :: l) with
        | none => rw [hr] at h3; cases h3
        | some r =>
          rw [hr] at h3
          simp only [Option.some.injEq] at h3
          have hw : WalkOf cost y d (y :: l) r := ⟨rfl, by simpa using h2, hr⟩
          obtain ⟨i1, i2⟩ := ih hw
          have i3 := hp x y c hc
          refine ⟨by grind, fun he a b hab => ?_⟩
          simp only [pairs, List.mem_cons, Prod.mk.injEq] at hab
          rcases hab with ⟨rfl, rfl⟩ | hab
          · rw [hc]; congr 1; grind
          · exact i2 (by grind) a b hab

/-- distances to `d`, and a common larger value for the nodes that do not reach it -/
structure DistTo (V : List α) (cost : α → α → Option Rat) (d : α) (π : α → Rat) : Prop where
  pot : IsPotential cost π
  dist : ∀ n ∈ V, (∃ p c, WalkOf cost n d p c) → (∃ p, WalkOf cost n d p (π n)) ∧ ∀ p c, WalkOf cost n d p c → π n ≤ c
  far : ∀ n ∈ V, (¬ ∃ p c, WalkOf cost n d p c) → ∀ m ∈ V, π m ≤ π n

theorem od_step {nlt : α → α → Bool} {costs : Graph α Rat O} (hnn : NonNeg costs.edge) {capacity : Graph α Ext O}
    (hcap : ∀ a b, (costs.edge a b).isSome → capacity.edge a b = some .inf) {stock : α → Rat} {s s' : McfSt α O} {d : α} {π : α → Rat}
    (h1 : OneDemand costs.nodeList stock d) (hπ : DistTo costs.nodeList costs.edge d π) (hi : McfInv nlt costs capacity stock s)
    (hi' : McfInv nlt costs capacity stock s') (hm : McfMove costs.nodeList s s')
    (ht : Tight costs.edge π (flowOf s.flows)) (hn : NearestFirst costs.nodeList stock π (flowOf s.flows)) :
    Tight costs.edge π (flowOf s'.flows) ∧ NearestFirst costs.nodeList stock π (flowOf s'.flows) := by
  obtain ⟨D, dn, E, en, L, q, path, m1, m2, m3, m4, m5, m6, m7, m8, m9, m10, m11⟩ := hm
  have hpe : s.paths.edge = costs.edge := by
    funext a b
    cases hc : costs.edge a b with
    | none =>
      cases hp : s.paths.edge a b with
      | none => rfl
      | some c => rw [hi.psub a b c hp] at hc; cases hc
    | some c =>
      refine hi.pall a b c hc ?_
      rw [(hi.cap a b .inf (hcap a b (by rw [hc]; rfl))).1]
      intro e; cases e
  rw [hpe] at m7 m8
  have hdV := (hi.bmem D dn m1).1
  have hdn : dn = d := by
    apply Classical.byContradiction
    intro hne
    have := h1.2.2 dn hdV hne
    have := (hi.left dn hdV D (.inl m1)).2
    grind
  subst hdn
  have heV := (hi.bmem E en m3).1
  have hqe : π en = q := by
    obtain ⟨⟨p, hp⟩, h2⟩ := hπ.dist en heV ⟨_, _, m7⟩
    have := m8 E en m3 m4 p _ hp
    have := h2 _ _ m7
    grind
  have hd0 : π dn = 0 := by
    obtain ⟨⟨p, hp⟩, h2⟩ := hπ.dist dn hdV ⟨_, _, WalkOf.single dn⟩
    have := hp.nonneg hnn
    have := h2 _ _ (WalkOf.single dn)
    grind
  refine ⟨?_, ?_⟩
  · intro a b hab
    rw [m9] at hab
    by_cases hin : (a, b) ∈ pairs path
    · exact (walk_tight hπ.pot path m7).2 (by rw [hqe, hd0]; grind) a b hin
    · rw [if_neg hin] at hab; exact ht a b hab
  · intro m hmV n hnV hm0 hnl
    have hlinks : ∀ a b, (costs.edge a b).isSome → (capacity.edge a b).isSome := fun a b h => by rw [hcap a b h]; rfl
    have hS := hi.shipment hlinks
    have hS' := hi'.shipment hlinks
    have hnd : n ≠ dn := by
      rintro rfl
      have := (hS'.demand n hnV (by have := h1.2.1; grind)).1
      grind
    have hmd : m ≠ dn := by
      rintro rfl
      have := (hS'.demand m hmV (by have := h1.2.1; grind)).2
      grind
    have hnl2 : netOut costs.nodeList (flowOf s.flows) n < stock n := by
      by_cases hne : n = en
      · subst hne; rw [m10] at hnl; grind
      · rw [m11 n hne hnd] at hnl; exact hnl
    by_cases hme : m = en
    · subst hme
      obtain ⟨r, hr⟩ := left_exists s.balance n
      obtain ⟨l1, l2⟩ := hi.left n hnV r hr
      rcases hr with hr | ⟨_, hr⟩
      · have hr0 : 0 < r := by grind
        by_cases hw : ∃ p c, WalkOf costs.edge n dn p c
        · obtain ⟨⟨p, hp⟩, _⟩ := hπ.dist n hnV hw
          rw [hqe]
          exact m8 r n hr hr0 p _ hp
        · exact hπ.far n hnV hw m hmV
      · rw [hr] at l1; grind
    · rw [m11 m hme hmd] at hm0
      exact hn m hmV n hnV hm0 hnl2


theorem distTo_exists {costs : Graph α Rat O} (hc : costs.Inv) (hnn : NonNeg costs.edge) {d : α} (hd : d ∈ costs.nodeList) :
    ∃ π, DistTo costs.nodeList costs.edge d π := by
  have hncyc : NoNegCycle costs.edge := fun a p c hw => hw.nonneg hnn
  obtain ⟨_, hdist⟩ := allPairs_spec hc hncyc
  let D := fun n => at2 costs.allPairs n d
  let val := fun n => match D n with
    | .fin q => q
    | .inf => (0 : Rat)
  have hval : ∀ n ∈ costs.nodeList, 0 ≤ val n := by
    intro n hn
    have h := hdist n d hn hd
    show 0 ≤ match D n with | .fin q => q | .inf => (0 : Rat)
    show 0 ≤ match at2 costs.allPairs n d with | .fin q => q | .inf => (0 : Rat)
    cases hD : at2 costs.allPairs n d with
    | inf => exact Rat.le_refl
    | fin q =>
      rw [hD] at h
      obtain ⟨p, hp⟩ := h.1
      exact hp.nonneg hnn
  let M := sumL costs.nodeList val
  let π := fun n => match D n with
    | .fin q => q
    | .inf => M
  have hπM : ∀ n ∈ costs.nodeList, π n ≤ M := by
    intro n hn
    have h1 := sumL_le_single hval hn
    show (match D n with | .fin q => q | .inf => M) ≤ M
    have h2 : val n = match D n with | .fin q => q | .inf => (0 : Rat) := rfl
    cases hD : D n with
    | inf => exact Rat.le_refl
    | fin q => rw [hD] at h2; dsimp only at h2 ⊢; rw [h2] at h1; exact h1
  have hπf : ∀ n q, D n = .fin q → π n = q := by
    intro n q h
    show (match D n with | .fin q => q | .inf => M) = q
    rw [h]
  have hπi : ∀ n, D n = .inf → π n = M := by
    intro n h
    show (match D n with | .fin q => q | .inf => M) = M
    rw [h]
  refine ⟨π, ?_, ?_, ?_⟩
  · intro a b c hab
    obtain ⟨ha, hb⟩ := hc.edge_mem hab
    have hc0 := hnn a b c hab
    have h2 := hdist b d hb hd
    have h1 := hdist a d ha hd
    cases hDb : D b with
    | inf => rw [hπi b hDb]; have := hπM a ha; grind
    | fin q =>
      rw [show at2 costs.allPairs b d = .fin q from hDb] at h2
      obtain ⟨p, hp⟩ := h2.1
      have hw := WalkOf.cons hab hp
      rw [hπf b q hDb]
      cases hDa : D a with
      | inf =>
        rw [show at2 costs.allPairs a d = .inf from hDa] at h1
        exact absurd ⟨_, _, hw⟩ h1
      | fin r =>
        rw [show at2 costs.allPairs a d = .fin r from hDa] at h1
        rw [hπf a r hDa]
        have := h1.2 _ _ hw
        grind
  · intro n hn hw
    have h1 := hdist n d hn hd
    cases hD : D n with
    | inf =>
      rw [show at2 costs.allPairs n d = .inf from hD] at h1
      exact absurd hw h1
    | fin q =>
      rw [show at2 costs.allPairs n d = .fin q from hD] at h1
      rw [hπf n q hD]
      exact h1
  · intro n hn hw m hm
    have h1 := hdist n d hn hd
    cases hD : D n with
    | inf => rw [hπi n hD]; exact hπM m hm
    | fin q =>
      rw [show at2 costs.allPairs n d = .fin q from hD] at h1
      obtain ⟨p, hp⟩ := h1.1
      exact absurd ⟨p, q, hp⟩ hw

/-- **one node in demand, no capacities** -/
theorem minCostFlow_one_demand {nlt : α → α → Bool} (ho : NodeOrder nlt) {costs : Graph α Rat O} (hc : costs.Inv) (hnn : NonNeg costs.edge)
    {inventory : Dict α Rat} (hwf : inventory.WF) (hin : ∀ n v, inventory.get? n = some v → v ≠ 0 → costs.has n = true) {d : α}
    (h1 : OneDemand costs.nodeList (stockOf inventory) d) :
    (∃ total f, costs.minCostFlow nlt inventory none = some (.ok (total, f)) ∧
      IsShipment costs.nodeList costs.edge (effCap costs.edge none) (stockOf inventory) (flowOf f) ∧
      ShipDone costs.nodeList (stockOf inventory) (flowOf f) ∧ total = shipCost costs.nodeList costs.edge (flowOf f) ∧
      ∀ F, IsShipment costs.nodeList costs.edge (effCap costs.edge none) (stockOf inventory) F → ShipDone costs.nodeList (stockOf inventory) F →
        total ≤ shipCost costs.nodeList costs.edge F) ∨
    (costs.minCostFlow nlt inventory none = some (.error .exception) ∧
      ∀ F, IsShipment costs.nodeList costs.edge (effCap costs.edge none) (stockOf inventory) F → ¬ ShipDone costs.nodeList (stockOf inventory) F) := by
  obtain ⟨capg, hcg, hce⟩ := mcfCapacity_ok hc (capacity := none) (by intro c h; cases h)
  have hce : capg.edge = effCap costs.edge none := hce
  obtain ⟨π, hπ⟩ := distTo_exists hc hnn h1.1
  have hcap : ∀ a b, (costs.edge a b).isSome → capg.edge a b = some .inf := by
    intro a b hab
    obtain ⟨c, hcc⟩ := Option.isSome_iff_exists.1 hab
    rw [hce]; show (costs.edge a b).map (fun _ => Ext.inf) = _; rw [hcc]; rfl
  have := minCostFlow_with (fun f => Tight costs.edge π (flowOf f) ∧ NearestFirst costs.nodeList (stockOf inventory) π (flowOf f))
    ho hc hnn hwf hin hcg (fun a b hab => by rw [hcap a b hab]; rfl) (fun a b c hcc => by
      rw [hce] at hcc
      have hcc : (costs.edge a b).map (fun _ => Ext.inf) = some c := hcc
      cases he : costs.edge a b with
      | none => rw [he] at hcc; cases hcc
      | some v => rw [he] at hcc; cases hcc; trivial)
    ⟨fun a b h => absurd rfl h, fun m _ n _ h => by
      have h0 : netOut costs.nodeList (flowOf (Graph.empty : Graph α Rat O)) m = 0 := by
        unfold netOut
        show sumL costs.nodeList (fun _ => (0 : Rat)) - sumL costs.nodeList (fun _ => (0 : Rat)) = 0
        rw [sumL_zero]; grind
      rw [h0] at h
      exact absurd h (by decide)⟩
    (fun s s' hi hi' hm hx => od_step hnn hcap h1 hπ hi hi' hm hx.1 hx.2)
  rw [hce] at this
  rcases this with ⟨t, f, a1, a2, ⟨a3, a4⟩, a5, a6, a7⟩ | ⟨a1, F, a2, a3⟩
  · refine .inl ⟨t, f, a1, a5, a6, a7, fun F hF hD => ?_⟩
    rw [a7]
    exact one_demand_opt hc.nodesWF h1 hπ.pot a5 a6 a3 a4 hF hD
  · refine .inr ⟨a1, fun F' hF' => ?_⟩
    refine one_demand_stuck hc.nodesWF h1 (fun a b hab => ?_) (fun a b hab => ?_) a2 a3 hF'
    · obtain ⟨c, hcc⟩ := Option.isSome_iff_exists.1 hab
      exact hc.edge_mem hcc
    · rw [← hce]; exact hcap a b hab

end GT

import Verif.Flow.MinCostFl
import Verif.Props.Flow
import Verif.Props.TspRound
import Verif.Flow.OneDemand
/-
Property theorems C134: `minimum_cost_flow` on floats.
-/
namespace GT
open Graph
variable {α O : Type} [DecidableEq α]

/-- **C134**: with any rounding of relative error `ε < 1` (doubles: `2^-53`) `minimum_cost_flow` terminates.  With `n` the number of edges plus the number of entries of the
inventory, there is an exact shipment `F` that respects capacities, supplies and demands up to the factor `(1 + ε)ⁿ`, such that either the returned flows are `F` up to `n`
relative errors, the total is the `sum` of the rounded products, and all demand or all supply is used up to the factor `(1 - ε)ⁿ`, or an `Exception` is raised and `F` is stuck. -/
theorem C134_min_cost_flow_rounded {fl : Rat → Rat} (hfl : Rounding fl) (hodd : ∀ x, fl (-x) = -fl x) {ε : Rat} (h0 : 0 ≤ ε) (h1 : ε < 1) (hε : RelErr fl ε)
    (sumf : List Rat → Rat) {nlt : α → α → Bool} (ho : NodeOrder nlt) {costs : Graph α Rat O} (hc : costs.Built)
    (hnn : NonNeg costs.edge) {inventory : Dict α Rat} (hwf : inventory.WF)
    (hin : ∀ n v, inventory.get? n = some v → v ≠ 0 → costs.has n = true) {capacity : Option (Graph α Ext O)}
    (hcap : ∀ c, capacity = some c → c.Built ∧ SameLinks costs.edge c.edge ∧ ∀ a b x, c.edge a b = some x → Ext.le (.fin 0) x) :
    let cap := effCap costs.edge (capacity.map (fun c => c.edge))
    let stock := fun n => (inventory.get? n).getD 0
    let n := costs.edgeList.length + inventory.items.length
    ∃ F, IsShipmentUpTo ε n costs.nodeList costs.edge cap stock F ∧
    ((∃ f, costs.minCostFlowFl fl sumf nlt inventory capacity =
        some (.ok (sumf (f.edgeList.map (fun e => fl (e.2.2 * (costs.edge e.1 e.2.1).getD 0))), f)) ∧
      (∀ a b v, f.edge a b = some v → (costs.edge a b).isSome) ∧
      (∀ a b, NearTo ε n (F a b) ((f.edge a b).getD 0)) ∧
      ShipDoneUpTo ε n costs.nodeList stock F) ∨
    (costs.minCostFlowFl fl sumf nlt inventory capacity = some (.error .exception) ∧
      ShipStuckUpTo ε n costs.nodeList costs.edge cap stock F)) := by
  obtain ⟨capg, h2, h3⟩ := mcfCapacity_ok hc.inv (capacity := capacity) (fun c h => ⟨(hcap c h).1.inv, (hcap c h).2⟩)
  intro cap stock n
  have hcc : capg.edge = cap := h3
  have := minCostFlowFl_main hfl hodd h0 h1 hε sumf ho hc.inv hnn hwf hin h2 ?_ ?_
  · rw [hcc] at this
    obtain ⟨F, hF, ⟨f, a1, _, a2, a3, a4⟩ | ⟨a1, a2⟩⟩ := this
    · exact ⟨F, hF, .inl ⟨f, a1, a2, a3, a4⟩⟩
    · exact ⟨F, hF, .inr ⟨a1, a2⟩⟩
  · intro a b hab
    rw [hcc]
    show (effCap _ _ a b).isSome
    cases capacity with
    | none => simp [effCap, hab]
    | some c => show (c.edge a b).isSome; rw [← (hcap c rfl).2.1 a b]; exact hab
  · intro a b x hx
    rw [hcc] at hx
    cases capacity with
    | none =>
      have hx : (costs.edge a b).map (fun _ => Ext.inf) = some x := hx
      cases he : costs.edge a b with
      | none => rw [he] at hx; cases hx
      | some v => rw [he] at hx; cases hx; exact trivial
    | some c => exact (hcap c rfl).2.2 a b x hx

/-! ### without rounding -/

theorem pyWhileD_ext {σ ρ : Type} {step step' : σ → Option (σ ⊕ ρ)} (h : ∀ s, step s = step' s) (s : σ) : pyWhileD step s = pyWhileD step' s := by
  rw [show step = step' from funext h]

theorem mcfStepFl_id (nlt : α → α → Bool) (capacity : Graph α Ext O) (s : McfSt α O) : mcfStepFl id nlt capacity s = mcfStep nlt capacity s := by
  have he : ∀ L, mcfEdgeFl id capacity L = mcfEdge capacity L := by
    intro L
    funext s p
    unfold mcfEdgeFl mcfEdge
    have hs : ∀ c : Ext, c.subFl id L = c.subR L := by intro c; cases c <;> rfl
    simp only [hs, allPairsFl_id, id]
    rfl
  unfold mcfStepFl mcfStep
  simp only [he, ← shortestPath_eq_fl, id]
  rfl

/-- **C134**, without rounding it is the function of C41 -/
theorem C134_exact (nlt : α → α → Bool) {costs : Graph α Rat O} (inventory : Dict α Rat) (capacity : Option (Graph α Ext O)) :
    costs.minCostFlowFl id List.sum nlt inventory capacity = costs.minCostFlow nlt inventory capacity := by
  unfold minCostFlowFl minCostFlow
  have hp : ∀ (l : List (α × α × Rat)) (acc : Rat), forE l acc (fun acc e => match costs.edge e.1 e.2.1 with
      | none => .error .typeError
      | some c => .ok (acc + e.2.2 * c)) = match mcfProducts id costs l with
        | .error e => .error e
        | .ok r => .ok (acc + r.sum) := by
    intro l
    induction l with
    | nil => intro acc; simp [forE, mcfProducts, Rat.add_zero]
    | cons e l ih =>
      intro acc
      unfold forE mcfProducts
      cases costs.edge e.1 e.2.1 with
      | none => rfl
      | some c =>
        dsimp only
        rw [ih]
        cases mcfProducts id costs l with
        | error e => rfl
        | ok r => simp only [List.sum_cons, id]; congr 1; grind
  split
  · rfl
  · cases mcfCapacity costs capacity with
    | error e => rfl
    | ok capg =>
      dsimp only
      rw [pyWhileD_ext (mcfStepFl_id nlt capg), allPairsFl_id]
      cases pyWhileD (mcfStep nlt capg) ⟨costs.copy, Graph.empty, Graph.empty,
        pySort (balLt nlt) ((inventory.items.filter (fun p => decide (p.2 ≠ 0))).map (fun p => (p.2, p.1))), costs.copy.allPairs⟩ with
      | none => rfl
      | some r =>
        cases r with
        | error e => rfl
        | ok f =>
          dsimp only
          generalize hq : forE f.edgeList (0 : Rat) _ = q
          have hq' := (hp f.edgeList 0).symm.trans hq
          rw [← hq']
          cases mcfProducts id costs f.edgeList with
          | error e => rfl
          | ok l => simp only [Rat.zero_add]

/-! ### the total -/

/-- **C134**, the total: with the left-to-right `sum` it is the cost of the returned flows up to one relative error per edge and one more. -/
theorem C134_total {fl : Rat → Rat} (hfl : Rounding fl) (hodd : ∀ x, fl (-x) = -fl x) {ε : Rat} (h0 : 0 ≤ ε) (h1 : ε < 1) (hε : RelErr fl ε)
    {nlt : α → α → Bool} (ho : NodeOrder nlt) {costs : Graph α Rat O} (hc : costs.Built)
    (hnn : NonNeg costs.edge) {inventory : Dict α Rat} (hwf : inventory.WF)
    (hin : ∀ n v, inventory.get? n = some v → v ≠ 0 → costs.has n = true) {capacity : Option (Graph α Ext O)}
    (hcap : ∀ c, capacity = some c → c.Built ∧ SameLinks costs.edge c.edge ∧ ∀ a b x, c.edge a b = some x → Ext.le (.fin 0) x)
    {total : Rat} {f : Graph α Rat O} (h : costs.minCostFlowFl fl (flAdd fl) nlt inventory capacity = some (.ok (total, f))) :
    NearTo ε (costs.edgeList.length + 1) (shipCost costs.nodeList costs.edge (fun a b => (f.edge a b).getD 0)) total := by
  obtain ⟨capg, h2, h3⟩ := mcfCapacity_ok hc.inv (capacity := capacity) (fun c h => ⟨(hcap c h).1.inv, (hcap c h).2⟩)
  have h1' : ε ≤ 1 := by grind
  have := minCostFlowFl_main hfl hodd h0 h1 hε (flAdd fl) ho hc.inv hnn hwf hin h2 ?_ ?_
  rotate_left
  · intro a b hab
    rw [h3]
    cases capacity with
    | none => simp [effCap, hab]
    | some c => show (c.edge a b).isSome; rw [← (hcap c rfl).2.1 a b]; exact hab
  · intro a b x hx
    rw [h3] at hx
    cases capacity with
    | none =>
      have hx : (costs.edge a b).map (fun _ => Ext.inf) = some x := hx
      cases he : costs.edge a b with
      | none => rw [he] at hx; cases hx
      | some v => rw [he] at hx; cases hx; exact trivial
    | some c => exact (hcap c rfl).2.2 a b x hx
  obtain ⟨F, hF, ⟨f', a1, a2, a3, a4, a5⟩ | ⟨a1, _⟩⟩ := this
  · rw [a1] at h
    simp only [Option.some.injEq, Except.ok.injEq, Prod.mk.injEq] at h
    obtain ⟨rfl, rfl⟩ := h
    have hpos : ∀ e ∈ f'.edgeList, 0 ≤ e.2.2 * capOf costs.edge e.1 e.2.1 := by
      rintro ⟨a, b, v⟩ he
      have hv := a2.mem_edgeList.1 he
      refine Rat.mul_nonneg ?_ ?_
      · have := (a4 a b).1
        have hfv : flowOf f' a b = v := by unfold flowOf; rw [hv]; rfl
        rw [hfv] at this
        have p1 := (pow_le_one' (x := 1 - ε) (by grind) (by grind) (costs.edgeList.length + inventory.items.length)).1
        have := Rat.mul_nonneg p1 (hF.nonneg a b)
        show 0 ≤ v
        grind
      · show 0 ≤ capOf costs.edge a b
        unfold capOf
        cases hcab : costs.edge a b with
        | none => exact Rat.le_refl
        | some c => exact hnn a b c hcab
    have hsum := sumL_edgeList a2 (V := costs.nodeList) hc.inv.nodesWF (fun a b v hv => by
      obtain ⟨c, hcc⟩ := Option.isSome_iff_exists.1 (a3 a b v hv)
      exact hc.inv.edge_mem hcc) (fun a b => capOf costs.edge a b)
    have hlen : f'.edgeList.length ≤ costs.edgeList.length := by
      have := nodup_length_le (l := f'.edgeList.map (fun e => (e.1, e.2.1))) (m := costs.edgeList.map (fun e => (e.1, e.2.1)))
        a2.edgeList_pairs_nodup (by
          intro x hx
          obtain ⟨e, he, rfl⟩ := List.mem_map.1 hx
          obtain ⟨c, hcc⟩ := Option.isSome_iff_exists.1 (a3 e.1 e.2.1 e.2.2 (a2.mem_edgeList.1 he))
          exact List.mem_map.2 ⟨(e.1, e.2.1, c), hc.inv.mem_edgeList.2 hcc, rfl⟩)
      simpa using this
    show NearTo ε _ (sumL costs.nodeList (fun a => sumL costs.nodeList (fun b => flowOf f' a b * capOf costs.edge a b))) _
    rw [← hsum]
    have hX : 0 ≤ sumL f'.edgeList (fun e => e.2.2 * capOf costs.edge e.1 e.2.1) := sumL_nonneg hpos
    refine NearTo.mono h0 h1' hX (n := f'.edgeList.length + 1) ?_ (by omega)
    -- the products
    have hprod : (1 - ε) * sumL f'.edgeList (fun e => e.2.2 * capOf costs.edge e.1 e.2.1) ≤
          sumL f'.edgeList (fun e => fl (e.2.2 * capOf costs.edge e.1 e.2.1)) ∧
        sumL f'.edgeList (fun e => fl (e.2.2 * capOf costs.edge e.1 e.2.1)) ≤
          (1 + ε) * sumL f'.edgeList (fun e => e.2.2 * capOf costs.edge e.1 e.2.1) := by
      rw [← sumL_mul, ← sumL_mul]
      exact ⟨sumL_le (fun e he => (hε _ (hpos e he)).1), sumL_le (fun e he => (hε _ (hpos e he)).2)⟩
    have hb := (flAdd_bounds h0 h1' hε (f'.edgeList.map (fun e => fl (e.2.2 * capOf costs.edge e.1 e.2.1))) (fun x hx => by
      obtain ⟨e, he, rfl⟩ := List.mem_map.1 hx
      have := hfl.mono 0 _ (hpos e he)
      rwa [hfl.zero] at this) (acc := 0) Rat.le_refl).2
    rw [Rat.zero_add, List.length_map] at hb
    change _ ≤ flAdd fl _ ∧ flAdd fl _ ≤ _ at hb
    have p1 := (pow_le_one' (x := 1 - ε) (by grind) (by grind) f'.edgeList.length).1
    have p2 := one_le_pow' (x := 1 + ε) (by grind) f'.edgeList.length
    have m1 := Rat.mul_le_mul_of_nonneg_left hprod.1 p1
    have m2 := Rat.mul_le_mul_of_nonneg_left hprod.2 (show 0 ≤ (1 + ε) ^ f'.edgeList.length by grind)
    unfold NearTo
    rw [Rat.pow_succ, Rat.pow_succ, Rat.mul_assoc, Rat.mul_assoc]
    exact ⟨Rat.le_trans m1 hb.1, Rat.le_trans hb.2 m2⟩
  · rw [a1] at h; cases h

/-! ### a concrete case -/

/-- two supplies of 0.1 and 0.2, one demand of 0.3 behind an edge with capacity 0.3 -/
def mcfFlG : Graph Nat Rat Nat := run [W 1 3 (double (1/10)), W 2 3 (double (2/10)), W 3 4 (double (3/10))]

def mcfFlInv : Dict Nat Rat := ⟨[(1, double (1/10)), (2, double (2/10)), (4, -double (3/10))]⟩

def mcfFlCap : Graph Nat Ext Nat := run [Op.addEdge 1 3 (.scalar (.fin 1)) false, Op.addEdge 2 3 (.scalar (.fin 1)) false, Op.addEdge 3 4 (.scalar (.fin (double (3/10)))) false]

/-- the hypotheses of `C134_min_cost_flow_rounded` and `C134_total` are met with IEEE doubles -/
example : Rounding double ∧ (∀ x, double (-x) = -double x) ∧ (0 : Rat) ≤ pow2 (-53) ∧ pow2 (-53) < (1 : Rat) ∧ RelErr double (pow2 (-53)) ∧
    mcfFlG.Built ∧ NonNeg mcfFlG.edge ∧ mcfFlInv.WF ∧ (∀ n v, mcfFlInv.get? n = some v → v ≠ 0 → mcfFlG.has n = true) ∧
    mcfFlCap.Built ∧ SameLinks mcfFlG.edge mcfFlCap.edge ∧ (∀ a b x, mcfFlCap.edge a b = some x → Ext.le (.fin 0) x) := by
  have hb : mcfFlG.Built := ⟨_, rfl⟩
  have hb2 : mcfFlCap.Built := ⟨_, rfl⟩
  have hwf : mcfFlInv.WF := by show (mcfFlInv.items.map Prod.fst).Nodup; decide +kernel
  have hel : ∀ e ∈ mcfFlCap.edgeList, (mcfFlG.edge e.1 e.2.1).isSome = true ∧ e.2.2.ltB (.fin 0) = false := by decide +kernel
  have hel2 : ∀ e ∈ mcfFlG.edgeList, (mcfFlCap.edge e.1 e.2.1).isSome = true := by decide +kernel
  refine ⟨double_rounding, double_neg, by decide +kernel, by decide +kernel, double_relErr, hb, nonneg_of_edgeList hb (by decide +kernel),
    hwf, fun n v hv _ => ?_, hb2, fun a b => ?_, fun a b x hx => ?_⟩
  · have hmem := (Dict.get?_eq_some_iff hwf _ _).1 hv
    have : ∀ p ∈ mcfFlInv.items, mcfFlG.has p.1 = true := by decide +kernel
    exact this _ hmem
  · rw [Bool.eq_iff_iff]
    constructor
    · intro h
      obtain ⟨v, hv⟩ := Option.isSome_iff_exists.1 h
      exact hel2 _ (hb.inv.mem_edgeList.2 hv)
    · intro h
      obtain ⟨v, hv⟩ := Option.isSome_iff_exists.1 h
      exact (hel _ (hb2.inv.mem_edgeList.2 hv)).1
  · exact ext_lt_zero.1 (hel _ (hb2.inv.mem_edgeList.2 hx)).2

end GT

import Verif.Flow.OneSupply
import Verif.Props.Scoped
/-
Property theorems C113: `minimum_cost_flow` with one node in supply.
-/
namespace GT
open Graph
variable {α O : Type} [DecidableEq α]

/-- **C113**. With one node in supply (`inventory[s] > 0`, all others `≤ 0`), enough of it (`sum(inventory.values()) ≥ 0`) and no capacities:
if every node in demand can be reached from `s`, `minimum_cost_flow` returns a shipment that meets every demand at the smallest possible cost;
if not, it raises `Exception`, and no shipment meets all demand. -/
theorem C113_one_supply_optimal {nlt : α → α → Bool} (ho : NodeOrder nlt) {costs : Graph α Rat O} (hc : costs.Built)
    (hnn : NonNeg costs.edge) {inventory : Dict α Rat} (hwf : inventory.WF)
    (hin : ∀ n v, inventory.get? n = some v → v ≠ 0 → costs.has n = true) {s : α} {q : Rat}
    (hs : inventory.get? s = some q) (hq : 0 < q) (hone : ∀ n v, inventory.get? n = some v → n ≠ s → v ≤ 0) :
    let cap := effCap costs.edge none
    let stock := fun n => (inventory.get? n).getD 0
    let joined := fun a b => (costs.edge a b).isSome = true
    let AllMet := fun F => ∀ n ∈ costs.nodeList, stock n < 0 → netOut costs.nodeList F n = stock n
    0 ≤ sumL costs.nodeList stock →
    ((∀ n v, inventory.get? n = some v → v < 0 → Reach joined s n) →
      ∃ total f, costs.minCostFlow nlt inventory none = some (.ok (total, f)) ∧
        IsShipment costs.nodeList costs.edge cap stock (fun a b => (f.edge a b).getD 0) ∧ AllMet (fun a b => (f.edge a b).getD 0) ∧
        total = shipCost costs.nodeList costs.edge (fun a b => (f.edge a b).getD 0) ∧
        ∀ F, IsShipment costs.nodeList costs.edge cap stock F → AllMet F → total ≤ shipCost costs.nodeList costs.edge F) ∧
    ((∃ n v, inventory.get? n = some v ∧ v < 0 ∧ ¬ Reach joined s n) →
      costs.minCostFlow nlt inventory none = some (.error .exception) ∧
      ∀ F, IsShipment costs.nodeList costs.edge cap stock F → ¬ AllMet F) := by
  intro cap stock joined AllMet hsum
  have h1 : OneSupply costs.nodeList (stockOf inventory) s := by
    refine ⟨has_iff.1 (hin s q hs (by grind)), ?_, ?_, hsum⟩
    · unfold stockOf; rw [hs]; exact hq
    · intro n _ hne
      unfold stockOf
      cases h : inventory.get? n with
      | none => exact Rat.le_refl
      | some v => exact hone n v h hne
  have hneg : ∀ n, stockOf inventory n < 0 → ∃ v, inventory.get? n = some v ∧ v < 0 := by
    intro n h
    unfold stockOf at h
    cases hv : inventory.get? n with
    | none => rw [hv] at h; exact absurd h (by decide)
    | some v => rw [hv] at h; exact ⟨v, rfl, h⟩
  rcases minCostFlow_one_supply ho hc.inv hnn hwf hin h1 with ⟨r, t, f, a1, a2, a3, a4, a5⟩ | ⟨⟨n, b1, b2, b3⟩, b4, b5⟩
  · refine ⟨fun _ => ⟨t, f, a1, a2, a3, a4, fun F hF hM => a5 F hF (.inl hM)⟩, ?_⟩
    rintro ⟨n, v, c1, c2, c3⟩
    have hst : stockOf inventory n < 0 := by unfold stockOf; rw [c1]; exact c2
    exact absurd (r n (has_iff.1 (hin n v c1 (by grind))) hst) c3
  · refine ⟨fun h => ?_, fun _ => ⟨b4, fun F hF hM => b5 F hF (.inl hM)⟩⟩
    obtain ⟨v, e1, e2⟩ := hneg n b2
    exact absurd (h n v e1 e2) b3

/-- one depot, two customers: 3 units go to 4 by way of 2 (cost 2), 2 units to 3 (cost 5, not 9); total 16 -/
def oneSupplyG : Graph Nat Rat Nat := run [W 1 2 1, W 2 4 1, W 1 4 9, W 1 3 9, W 4 3 3]
def oneSupplyInv : Dict Nat Rat := ⟨[(1, 6), (3, -2), (4, -3)]⟩

example : oneSupplyG.Built ∧ NonNeg oneSupplyG.edge ∧ oneSupplyInv.WF ∧ NodeOrder natLt ∧
    (∀ e ∈ oneSupplyInv.items, e.2 ≠ 0 → oneSupplyG.has e.1 = true) ∧
    oneSupplyInv.get? 1 = some 6 ∧ (∀ e ∈ oneSupplyInv.items, e.1 ≠ 1 → e.2 ≤ 0) ∧
    0 ≤ sumL oneSupplyG.nodeList (fun n => (oneSupplyInv.get? n).getD 0) ∧
    (mcfF 60 natLt oneSupplyG oneSupplyInv none).map (fun r => match r with | .ok (t, _) => decide (t = 16) | .error _ => false) = some true :=
  ⟨⟨_, rfl⟩, nonneg_of_edgeList ⟨_, rfl⟩ (by decide +kernel), by unfold Dict.WF; decide +kernel, natLt_order, by decide +kernel, by decide +kernel,
    by decide +kernel, by decide +kernel, by decide +kernel⟩

/-- if a customer is not reached the exception is raised -/
example : (mcfF 60 natLt (run [W 1 2 1, W 3 4 1] : Graph Nat Rat Nat) ⟨[(1, 6), (2, -2), (4, -3)]⟩ none).map
    (fun r => match r with | .ok _ => false | .error e => decide (e = .exception)) = some true := by decide +kernel

/-- The supply must be enough: with 1 unit for two customers the first one in the order of the nodes gets it, at cost 5,
though serving the other one uses up the supply as well, at cost 1. -/
theorem C113_short_supply_counterexample :
    let g : Graph Nat Rat Nat := run [W 1 2 5, W 1 3 1]
    let inv : Dict Nat Rat := ⟨[(1, 1), (2, -1), (3, -1)]⟩
    let stock := fun n => (inv.get? n).getD 0
    let F : Nat → Nat → Rat := fun a b => if (a, b) = (1, 3) then 1 else 0
    (∃ f, g.minCostFlow natLt inv none = some (.ok (5, f))) ∧
    IsShipment g.nodeList g.edge (effCap g.edge none) stock F ∧ ShipDone g.nodeList stock F ∧ shipCost g.nodeList g.edge F = 1 := by
  intro g inv stock F
  refine ⟨?_, ?_, .inr (by decide +kernel), by decide +kernel⟩
  · have : ((mcfF 60 natLt g inv none).map (fun r => match r with | .ok (t, _) => decide (t = 5) | .error _ => false)) = some true := by decide +kernel
    cases h : mcfF 60 natLt g inv none with
    | none => rw [h] at this; cases this
    | some r =>
      rw [h] at this
      cases r with
      | error e => cases this
      | ok x =>
        obtain ⟨t, f⟩ := x
        simp at this
        subst this
        exact ⟨f, mcfF_ok h⟩
  · have hz : ∀ a b, F a b ≠ 0 → (a, b) = (1, 3) := by
      intro a b h
      apply Classical.byContradiction
      intro hc
      exact h (if_neg hc)
    refine ⟨fun a b => ?_, fun a b h => ?_, fun a b h => ?_, by decide +kernel, by decide +kernel⟩
    · show 0 ≤ if (a, b) = (1, 3) then (1 : Rat) else 0
      split <;> decide
    · cases hz a b h; decide +kernel
    · cases hz a b h; exact ⟨.inf, by decide +kernel, trivial⟩

end GT

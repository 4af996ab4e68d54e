import Verif.Sp.LegsFl
import Verif.Spec.Double
import Verif.Props.Sp
/-
Property theorems C133: `distance_from_path` on floats.
-/
namespace GT
open Graph
variable {α O : Type} [DecidableEq α]

/-- **C133**: with any rounding and non-negative values `distance_from_path` terminates and returns the rounded lengths of the legs (the edge, or the smallest rounded length of
a detour), added from left to right with rounding after every addition; the cache of detours has no effect. -/
theorem C133_distance_from_path_rounded {fl : Rat → Rat} (hfl : Rounding fl) {g : Graph α Rat O} (hg : g.Built) (hw : NonNeg g.edge) {p : List α}
    (hp : ∀ x ∈ p, g.has x = true) : ∃ r, g.distanceFromPathFl fl p = some (.ok r) ∧ FlLegs fl g.edge 0 p r ∧ ∀ r', FlLegs fl g.edge 0 p r' → r' = r := by
  obtain ⟨r, h1, h2⟩ := distanceFromPathFl_spec hfl hg.inv hw hp
  exact ⟨r, h1, h2, fun r' h' => h'.unique h2⟩

/-- **C133** on a walk: the values along it are added from left to right with rounding -/
theorem C133_walk {fl : Rat → Rat} (hfl : Rounding fl) {g : Graph α Rat O} (hg : g.Built) (hw : NonNeg g.edge) {p : List α}
    (hp : ∀ x ∈ p, g.has x = true) {c : Rat} (hc : flCost fl g.edge 0 p = some c) : g.distanceFromPathFl fl p = some (.ok (.fin c)) := by
  obtain ⟨r, h1, _, h3⟩ := C133_distance_from_path_rounded hfl hg hw hp
  have key : ∀ (p : List α) (acc c : Rat), flCost fl g.edge acc p = some c → FlLegs fl g.edge acc p (.fin c) := by
    intro p
    induction p with
    | nil => intro acc c h; simp [flCost] at h
    | cons a l ih =>
      cases l with
      | nil => intro acc c h; simp only [flCost, Option.some.injEq] at h; subst h; rfl
      | cons b l =>
        intro acc c h
        simp only [flCost] at h
        split at h
        · rename_i d hd
          exact .inr ⟨d, .inl ⟨d, hd, rfl⟩, ih _ _ h⟩
        · cases h
  rw [h1, h3 _ (key _ _ _ hc)]

/-- **C133**, accuracy: the result is the exact length of the route (C31) up to one relative error per leg and per node; it is infinite exactly if the exact length is. -/
theorem C133_accuracy {fl : Rat → Rat} (hfl : Rounding fl) {ε : Rat} (h0 : 0 ≤ ε) (h1 : ε ≤ 1) (hε : RelErr fl ε) {g : Graph α Rat O} (hg : g.Built) (hw : NonNeg g.edge)
    {p : List α} (hp : ∀ x ∈ p, g.has x = true) : ∃ e r, g.distanceFromPath p = some (.ok e) ∧ SumLegs g.edge p e ∧ g.distanceFromPathFl fl p = some (.ok r) ∧
      WithinErr ε (g.nodeList.length + (p.length - 1)) e r := by
  obtain ⟨e, h2, h3⟩ := distanceFromPath_spec hg.inv hw hp
  obtain ⟨r, h4, h5⟩ := distanceFromPathFl_spec hfl hg.inv hw hp
  refine ⟨e, r, h2, h3, h4, ?_⟩
  have := flLegs_within hfl h0 h1 hε hg.inv hw p (c := 0) hp Rat.le_refl (Nat.le_refl _)
    (WithinErr.mono h0 h1 (d := .fin 0) (x := .fin 0) (show (0 : Rat) ≤ 0 from Rat.le_refl) .refl (Nat.zero_le _)) h3 h5
  cases e with
  | inf => exact this
  | fin e => simpa [Ext.add, Rat.zero_add] using this

/-- **C133**, without rounding it is the function of C31 -/
theorem C133_exact (g : Graph α Rat O) (p : List α) : g.distanceFromPathFl id p = g.distanceFromPath p := (distanceFromPath_eq_fl g p).symm

/-- edges 0.1, 0.2 and 0.3 -/
def legG : Graph Nat Rat Nat := run [W 1 2 (double (1/10)), W 2 3 (double (2/10)), W 3 4 (double (3/10))]

/-- the well-known sums: `0.1 + 0.2 + 0.3 = 0.6000000000000001` is not the double nearest to the exact sum -/
example : legG.Built ∧ NonNeg legG.edge ∧ (∀ x ∈ [1, 2, 3, 4], legG.has x = true) ∧
    legG.distanceFromPathFl double [1, 2, 3, 4] = some (.ok (.fin (5404319552844596 / 2 ^ 53))) ∧
    legG.distanceFromPathFl double [1, 3, 4] = some (.ok (.fin (5404319552844596 / 2 ^ 53))) ∧
    double (1/10 + 2/10 + 3/10) = 5404319552844595 / 2 ^ 53 := by
  have hb : legG.Built := ⟨_, rfl⟩
  have hw : NonNeg legG.edge := nonneg_of_edgeList hb (by decide +kernel)
  refine ⟨hb, hw, by decide +kernel, C133_walk double_rounding hb hw (by decide +kernel) (by decide +kernel), ?_, by decide +kernel⟩
  obtain ⟨r, h1, h2, h3⟩ := C133_distance_from_path_rounded double_rounding hb hw (p := [1, 3, 4]) (by decide +kernel)
  have hsp : legG.shortestPathFl double 1 3 = some (.ok (.fin (double (double (1/10) + double (2/10))), [1, 2, 3])) := by
    unfold Graph.shortestPathFl
    rw [if_neg (by decide +kernel), if_neg (by decide +kernel)]
    rw [pyWhile_of_runFuel (n := 20) (r := (.fin (double (double (1/10) + double (2/10))), [1, 2, 3])) (by decide +kernel)]
  unfold Graph.distanceFromPathFl Graph.dfpLoopFl
  rw [show truthy (legG.edge 1 3) = none by decide +kernel, show truthy ((Dict.empty : Dict (Nat × Nat) Rat).get? (1, 3)) = none by decide +kernel, hsp]
  dsimp only
  unfold Graph.dfpLoopFl
  rw [show truthy (legG.edge 3 4) = some (double (3/10)) by decide +kernel]
  dsimp only
  unfold Graph.dfpLoopFl
  congr 3
  decide +kernel

end GT

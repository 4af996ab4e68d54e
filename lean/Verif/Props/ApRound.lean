import Verif.Spec.Double
import Verif.Props.Flow
/-
Property theorems C131: `ap_solver` on floats.
-/
namespace GT
open Graph
variable {α O : Type} [DecidableEq α]

/-- `m` is the smallest value of an edge -/
def IsMinValue (w : α → α → Option Rat) (m : Rat) : Prop := (∃ a t, w a t = some m) ∧ ∀ a t v, w a t = some v → m ≤ v

theorem IsMinValue.unique {w : α → α → Option Rat} {m m' : Rat} (h : IsMinValue w m) (h' : IsMinValue w m') : m = m' := by
  obtain ⟨⟨a, t, h1⟩, h2⟩ := h
  obtain ⟨⟨a', t', h3⟩, h4⟩ := h'
  have := h2 _ _ _ h3
  have := h4 _ _ _ h1
  grind

theorem apSolverFl_round {fl : Rat → Rat} (hfl : Rounding fl) {nlt : α → α → Bool} (ho : NodeOrder nlt) {fresh : Nat → α} {g : Graph α Rat O} (hg : g.Built)
    (hb : Bipartite g.edge) {m : Rat} (hm : IsMinValue g.edge m) (hf : ∀ i, g.has (fresh i) = false ∧ fresh i ∉ g.nodesInDeg 0) :
    ∃ M g', g.apSolverFl fl nlt fresh = some (.ok M, g') ∧ IsAssignment g.edge M ∧
      (∀ a t v, g.edge a t = some v → fl (m - 1) < v → (∃ t' v', (a, t', v') ∈ M ∧ v ≤ v') ∨ ∃ a' v', (a', t, v') ∈ M ∧ v ≤ v') ∧
      (∀ a t v, (a, t, v) ∈ M → (if (g.nodesOutDeg 0).length < (g.nodesInDeg 0).length then fl (fl (m - 1) - 1) else fl (m - 1)) < v) ∧
      (∀ a t, g.has t = true → g'.edge a t = g.edge a t) ∧ ((g.nodesInDeg 0).length ≤ (g.nodesOutDeg 0).length → g' = g) := by
  obtain ⟨⟨a, t, h1⟩, h2⟩ := hm
  have hne : g.edgeList ≠ [] := by
    intro h
    have := hg.inv.mem_edgeList.2 h1
    rw [h] at this; cases this
  obtain ⟨M, g', m', e1, e2, e3, e4, e5, e6, _, e7, e8⟩ := apSolverFl_main (fl := fl) ho hg.inv hb hne hf (fun x => by
    have := hfl.mono (fl x - 1) (fl x) (by grind)
    rwa [hfl.idem] at this)
  have : m' = m := IsMinValue.unique ⟨e2, e3⟩ ⟨⟨a, t, h1⟩, h2⟩
  subst this
  exact ⟨M, g', e1, e4, e5, e6, e7, e8⟩

/-- **C131**: with any rounding `ap_solver` terminates without exception and returns a one-to-one assignment along edges; every edge whose value is larger than the rounded `m - 1`
(`m` being the smallest value) is as good for its agent or its task as what they got. -/
theorem C131_ap_solver_rounded {fl : Rat → Rat} (hfl : Rounding fl) {nlt : α → α → Bool} (ho : NodeOrder nlt) {fresh : Nat → α} {g : Graph α Rat O} (hg : g.Built)
    (hb : Bipartite g.edge) {m : Rat} (hm : IsMinValue g.edge m) (hf : ∀ i, g.has (fresh i) = false ∧ fresh i ∉ g.nodesInDeg 0) :
    ∃ M g', g.apSolverFl fl nlt fresh = some (.ok M, g') ∧ IsAssignment g.edge M ∧
      (∀ a t v, g.edge a t = some v → fl (m - 1) < v → (∃ t' v', (a, t', v') ∈ M ∧ v ≤ v') ∨ ∃ a' v', (a', t, v') ∈ M ∧ v ≤ v') ∧
      (∀ a t, g.has t = true → g'.edge a t = g.edge a t) ∧ ((g.nodesInDeg 0).length ≤ (g.nodesOutDeg 0).length → g' = g) := by
  obtain ⟨M, g', h1, h2, h3, _, h4, h5⟩ := apSolverFl_round hfl ho hg hb hm hf
  exact ⟨M, g', h1, h2, h3, h4, h5⟩

/-- subtracting 1 from a double between `-2^53` and `2^53` gives a smaller double -/
theorem double_pred_lt {m : Rat} (h : IsDouble m) (h1 : -(2 : Rat) ^ 53 < m) (h2 : m ≤ (2 : Rat) ^ 53) : double (m - 1) < m := by
  suffices H : ∃ p, double p = p ∧ m - 1 ≤ p ∧ p < m by
    obtain ⟨p, hp, hp1, hp2⟩ := H
    have := double_rounding.mono _ _ hp1
    rw [hp] at this
    grind
  obtain ⟨k, e, hk, rfl⟩ := h
  by_cases he : 0 ≤ e
  · -- an integer
    obtain ⟨n, rfl⟩ := Int.eq_ofNat_of_zero_le he
    have e1 : (k : Rat) * pow2 (n : Int) = ((k * (2 ^ n : Nat) : Int) : Rat) := by
      rw [pow2_nat, Rat.intCast_mul]; rfl
    rw [e1] at h1 h2 ⊢
    generalize k * (2 ^ n : Nat) = z at h1 h2
    refine ⟨((z - 1 : Int) : Rat), double_int ?_, ?_, ?_⟩
    · have a1 : ((-(2 ^ 53) : Int) : Rat) < (z : Rat) := by
        have : ((-(2 ^ 53) : Int) : Rat) = -(2 : Rat) ^ 53 := by decide +kernel
        rw [this]; exact h1
      have a2 : (z : Rat) ≤ (((2 ^ 53) : Int) : Rat) := by
        have : (((2 ^ 53) : Int) : Rat) = (2 : Rat) ^ 53 := by decide +kernel
        rw [this]; exact h2
      have a1 := Rat.intCast_lt_intCast.1 a1
      have a2 := Rat.intCast_le_intCast.1 a2
      omega
    · rw [Rat.intCast_sub]; exact Rat.le_refl
    · exact Rat.intCast_lt_intCast.2 (by omega)
  · -- one unit in the last place less
    have hp := pow2_pos e
    have hle : pow2 e ≤ 1 := by have := pow2_mono (a := e) (b := 0) (by omega); rwa [pow2_zero] at this
    refine ⟨((k - 1 : Int) : Rat) * pow2 e, double_exact ?_, ?_, ?_⟩
    · by_cases hb : (k - 1).natAbs < 2 ^ 53
      · exact ⟨_, _, hb, rfl⟩
      · have : k - 1 = -2 ^ 53 := by omega
        refine ⟨-2 ^ 52, e + 1, by decide, ?_⟩
        rw [this, pow2_succ]
        have : ((-2 ^ 53 : Int) : Rat) = ((-2 ^ 52 : Int) : Rat) * 2 := by decide +kernel
        rw [this]; grind
    · rw [Rat.intCast_sub]
      have : ((1 : Int) : Rat) = 1 := rfl
      grind
    · rw [Rat.intCast_sub]
      have : ((1 : Int) : Rat) = 1 := rfl
      grind

/-- **C131**: with doubles whose smallest is between `-2^53` and `2^53` all of C42 holds: the assignment is stable, and for values that are not negative it is worth at least half of every
other one. -/
theorem C131_doubles {nlt : α → α → Bool} (ho : NodeOrder nlt) {fresh : Nat → α} {g : Graph α Rat O} (hg : g.Built)
    (hb : Bipartite g.edge) {m : Rat} (hm : IsMinValue g.edge m) (hf : ∀ i, g.has (fresh i) = false ∧ fresh i ∉ g.nodesInDeg 0)
    (hd : IsDouble m) (h1 : -(2 : Rat) ^ 53 < m) (h2 : m ≤ (2 : Rat) ^ 53) :
    ∃ M g', g.apSolverFl double nlt fresh = some (.ok M, g') ∧ IsAssignment g.edge M ∧ Stable g.edge M ∧
      (NonNeg g.edge → ∀ M', IsAssignment g.edge M' → totalValue M' ≤ 2 * totalValue M) := by
  obtain ⟨M, g', e1, e2, e3, _⟩ := C131_ap_solver_rounded double_rounding ho hg hb hm hf
  have hs : Stable g.edge M := fun a t v h => e3 a t v h (by
    have := hm.2 a t v h
    have := double_pred_lt hd h1 h2
    grind)
  exact ⟨M, g', e1, e2, hs, fun hw M' hM' => stable_half hw e2 hs hM'⟩

/-- **C131** fails for larger values: where `m - 1` is rounded to `m` (and there are not more agents than tasks) the cheapest edges are never assigned, even if their agents and
tasks are free. -/
theorem C131_cheapest_ignored {fl : Rat → Rat} (hfl : Rounding fl) {nlt : α → α → Bool} (ho : NodeOrder nlt) {fresh : Nat → α} {g : Graph α Rat O} (hg : g.Built)
    (hb : Bipartite g.edge) {m : Rat} (hm : IsMinValue g.edge m) (hf : ∀ i, g.has (fresh i) = false ∧ fresh i ∉ g.nodesInDeg 0)
    (hn : (g.nodesInDeg 0).length ≤ (g.nodesOutDeg 0).length) (hr : fl (m - 1) = m) :
    ∃ M, g.apSolverFl fl nlt fresh = some (.ok M, g) ∧ ∀ a t, (a, t, m) ∉ M := by
  obtain ⟨M, g', h1, h2, h3, h4, h5, h6⟩ := apSolverFl_round hfl ho hg hb hm hf
  rw [h6 hn] at h1
  refine ⟨M, h1, fun a t h => ?_⟩
  have := h4 a t m h
  rw [if_neg (by omega), hr] at this
  grind

/-- one agent, one task, the value `2^54` -/
def bigG : Graph Nat Rat Nat := run [W 1 3 (2 ^ 54)]

theorem bigG_bipartite : Bipartite bigG.edge := by
  intro a t h
  obtain ⟨v, hv⟩ := Option.isSome_iff_exists.1 h
  have hb : bigG.Built := ⟨_, rfl⟩
  have key : ∀ e ∈ bigG.edgeList, ∀ f ∈ bigG.edgeList, f.2.1 ≠ e.1 ∧ f.1 ≠ e.2.1 := by decide +kernel
  refine ⟨fun x => ?_, fun x => ?_⟩
  · cases hx : bigG.edge x a with
    | none => rfl
    | some u => exact absurd rfl (key _ (hb.inv.mem_edgeList.2 hv) _ (hb.inv.mem_edgeList.2 hx)).1
  · cases hx : bigG.edge t x with
    | none => rfl
    | some u => exact absurd rfl (key _ (hb.inv.mem_edgeList.2 hv) _ (hb.inv.mem_edgeList.2 hx)).2

theorem bigG_min : IsMinValue bigG.edge (2 ^ 54) := by
  have hb : bigG.Built := ⟨_, rfl⟩
  refine ⟨⟨1, 3, by decide +kernel⟩, fun a t v h => ?_⟩
  have key : ∀ e ∈ bigG.edgeList, (2 : Rat) ^ 54 ≤ e.2.2 := by decide +kernel
  exact key _ (hb.inv.mem_edgeList.2 h)

theorem freshFor_of_lt {g : Graph Nat Rat Nat} (k1 : ∀ x ∈ g.nodeList, x < 100) (k2 : ∀ x ∈ g.nodesInDeg 0, x < 100) :
    ∀ i, g.has (apFresh i) = false ∧ apFresh i ∉ g.nodesInDeg 0 := by
  intro i
  refine ⟨?_, fun h => ?_⟩
  · cases h : g.has (apFresh i) with
    | false => rfl
    | true =>
      have := k1 _ (has_iff.1 h)
      unfold apFresh at this; omega
  · have := k2 _ h
    unfold apFresh at this; omega

/-- **C131**, the witness: in doubles one agent and one task with the value `2^54` are not assigned to each other; in exact arithmetic they are. -/
theorem C131_big_value_counterexample : bigG.Built ∧ Bipartite bigG.edge ∧ bigG.apSolverFl double natLt apFresh = some (.ok [], bigG) ∧
    IsAssignment bigG.edge [(1, 3, 2 ^ 54)] := by
  have hb : bigG.Built := ⟨_, rfl⟩
  refine ⟨hb, bigG_bipartite, ?_, ⟨?_, by decide, by decide⟩⟩
  · have hf := freshFor_of_lt (g := bigG) (by decide +kernel) (by decide +kernel)
    obtain ⟨M, h1, h2⟩ := C131_cheapest_ignored double_rounding natLt_order hb bigG_bipartite bigG_min hf (by decide +kernel) (by decide +kernel)
    obtain ⟨M', g', h3, h4, _⟩ := C131_ap_solver_rounded double_rounding natLt_order hb bigG_bipartite bigG_min hf
    rw [h1] at h3
    cases h3
    rw [h1]
    cases M with
    | nil => rfl
    | cons e M =>
      obtain ⟨a, t, v⟩ := e
      have he := h4.1 a t v (by simp)
      have key : ∀ e ∈ bigG.edgeList, e = (1, 3, (2 : Rat) ^ 54) := by decide +kernel
      have := key _ (hb.inv.mem_edgeList.2 he)
      simp only [Prod.mk.injEq] at this
      exact absurd (by rw [this.2.2]; simp) (h2 a t)
  · intro a t v hm
    simp only [List.mem_cons, List.not_mem_nil, or_false, Prod.mk.injEq] at hm
    obtain ⟨rfl, rfl, rfl⟩ := hm
    decide +kernel

/-- the hypotheses of `C131_doubles` are met by the graph of C42 -/
example : apG.Built ∧ Bipartite apG.edge ∧ IsMinValue apG.edge 1 ∧ IsDouble 1 := by
  have hb : apG.Built := ⟨_, rfl⟩
  refine ⟨hb, apG_bipartite, ⟨⟨2, 4, by decide +kernel⟩, fun a t v h => ?_⟩, ⟨1, 0, by decide, by decide +kernel⟩⟩
  have key : ∀ e ∈ apG.edgeList, (1 : Rat) ≤ e.2.2 := by decide +kernel
  exact key _ (hb.inv.mem_edgeList.2 h)

end GT

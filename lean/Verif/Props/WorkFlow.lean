import Verif.Flow.WorkFlow
import Verif.Flow.Eval
import Verif.Props.FlowFp
import Verif.Props.CompareMore
import Verif.Props.WtapRound
/-
Property theorems C141: how often the main loops of the flow and assignment algorithms run.  `XUpTo k` is the function `X` whose loop is cut after `k` passes
(Flow/WorkFlow); the result `none` means that it is not over by then.
-/
namespace GT
open Graph
variable {α O : Type} [DecidableEq α]

/-- **C141**: whatever the capacities are, the loop of `maximum_flow` is over after at most one pass per edge and a last one. -/
theorem C141_maximum_flow {g : Graph α Rat O} (hg : g.Built) (hc : NonNeg g.edge) {start fin : α} (hne : start ≠ fin) :
    g.maximumFlowUpTo (g.edgeList.length + 1) start fin = g.maximumFlow start fin := maximumFlowUpTo_eq hg hc hne

/-- **C141**: with float capacities at most two passes per edge and a last one -/
theorem C141_maximum_flow_float {fl : Rat → Rat} {ε : Rat} (hfl : Rounding fl) (he : RelErr fl ε) (hst : Sterbenz fl) (he0 : 0 ≤ ε) (he1 : ε ≤ 1 / 4)
    {sum : List Rat → Rat} (hsum : SumLike sum) {g : Graph α Rat O} (hg : g.Built) (hc : NonNeg g.edge)
    (hfix : ∀ a b d, g.edge a b = some d → fl d = d) {start fin : α} (hne : start ≠ fin) :
    g.maximumFlowFpUpTo (2 * g.edgeList.length + 1) fl sum start fin = g.maximumFlowFp fl sum start fin :=
  maximumFlowFpUpTo_eq hfl he hst he0 he1 hsum hg hc hfix hne

/-- **C141**: the loop of `minimum_cost_flow_using_successive_shortest_path` is over after at most one pass per edge, one per entry of the inventory and a last one. -/
theorem C141_min_cost_flow {nlt : α → α → Bool} (ho : NodeOrder nlt) {costs : Graph α Rat O} (hc : costs.Built) (hnn : NonNeg costs.edge)
    {inventory : Dict α Rat} (hwf : inventory.WF) (hin : ∀ n v, inventory.get? n = some v → v ≠ 0 → costs.has n = true)
    {capacity : Option (Graph α Ext O)} (hcap : ∀ c, capacity = some c → c.Built ∧ SameLinks costs.edge c.edge ∧ ∀ a b x, c.edge a b = some x → Ext.le (.fin 0) x) :
    costs.minCostFlowUpTo (costs.edgeList.length + inventory.items.length + 1) nlt inventory capacity = costs.minCostFlow nlt inventory capacity :=
  minCostFlowUpTo_eq ho hc hnn hwf hin hcap

/-- **C141**: the loop of `ap_solver` is over after at most one pass per agent, one per edge, one per edge to a dummy task and a last one, whatever rounding is used
for the two subtractions (`fl = id`: none). -/
theorem C141_ap_solver (fl : Rat → Rat) {nlt : α → α → Bool} (ho : NodeOrder nlt) {fresh : Nat → α} {g : Graph α Rat O} (hg : g.Built)
    (hb : Bipartite g.edge) (hf : ∀ i, g.has (fresh i) = false ∧ fresh i ∉ g.nodesInDeg 0) :
    let A := (g.nodesInDeg 0).length
    let T := (g.nodesOutDeg 0).length
    g.apSolverUpTo (g.edgeList.length + (A - T) * A + A + 1) fl nlt fresh = g.apSolverFl fl nlt fresh ∧
    g.apSolverUpTo (g.edgeList.length + (A - T) * A + A + 1) id nlt fresh = g.apSolver nlt fresh :=
  ⟨apSolverUpTo_eq fl ho hg.inv hb hf, by rw [← apSolverFl_id]; exact apSolverUpTo_eq id ho hg.inv hb hf⟩

/-- **C141**: the loop of `wtap_solver` runs at most as often as there are ways to engage the weapons (the product of the numbers of targets of the weapons), and
two more times. -/
theorem C141_wtap_solver {nlt : α → α → Bool} (ho : NodeOrder nlt) {g : Graph α Rat O} (hg : g.Built) {weapons : List α} {values : Dict α Rat}
    (h : WtInput g weapons values) (hw0 : weapons ≠ []) (hnd : weapons.Nodup) :
    g.wtapSolverUpTo ((weapons.map (fun w => (g.edgesFrom w).length)).foldr (· * ·) 1 + 2) nlt weapons values = g.wtapSolver nlt weapons values :=
  wtapSolverUpTo_eq ho hg.inv h hw0 hnd (Nat.le_refl _)

/-- **C141**: a cut program that comes to an end gives the answer of the program itself. -/
theorem C141_cut (k : Nat) (g : Graph α Rat O) (start fin : α) {r : Py (Rat × Graph α Rat O)} (h : g.maximumFlowUpTo k start fin = some r) :
    g.maximumFlow start fin = some r := by
  unfold maximumFlowUpTo at h
  unfold maximumFlow
  split at h
  · rename_i h1; rw [if_pos h1]; exact h
  · rename_i h1
    rw [if_neg h1]
    split at h
    · rename_i h2; rw [if_pos h2]; exact h
    · rename_i h2; rw [if_neg h2]; exact pyWhileD_of_runFuel h

/-- **C141**: the same for the other functions. -/
theorem C141_every_cut (k : Nat) (nlt : α → α → Bool) (g : Graph α Rat O) :
    (∀ fl sum start fin r, g.maximumFlowFpUpTo k fl sum start fin = some r → g.maximumFlowFp fl sum start fin = some r) ∧
    (∀ inventory capacity r, g.minCostFlowUpTo k nlt inventory capacity = some r → g.minCostFlow nlt inventory capacity = some r) ∧
    (∀ fl fresh r, g.apSolverUpTo k fl nlt fresh = some r → g.apSolverFl fl nlt fresh = some r) ∧
    (∀ weapons values r, g.wtapSolverUpTo k nlt weapons values = some r → g.wtapSolver nlt weapons values = some r) ∧
    ∀ fl weapons values r, g.wtapSolverFlUpTo k fl nlt weapons values = some r → g.wtapSolverFl fl nlt weapons values = some r := by
  refine ⟨fun fl sum start fin r h => ?_, fun inventory capacity r h => ?_, fun fl fresh r h => ?_, fun weapons values r h => ?_, fun fl weapons values r h => ?_⟩
  · unfold maximumFlowFpUpTo at h
    unfold maximumFlowFp
    split at h
    · rename_i h1; rw [if_pos h1]; exact h
    · rename_i h1
      rw [if_neg h1]
      split at h
      · rename_i h2; rw [if_pos h2]; exact h
      · rename_i h2; rw [if_neg h2]; exact pyWhileD_of_runFuel h
  · unfold minCostFlowUpTo at h
    unfold minCostFlow
    split at h
    · rename_i h1; rw [if_pos h1]; exact h
    · rename_i h1
      rw [if_neg h1]
      cases hcap : mcfCapacity g capacity with
      | error e => rw [hcap] at h; exact h
      | ok c =>
        rw [hcap] at h
        dsimp only at h ⊢
        split at h
        · cases h
        · rename_i h2; rw [pyWhileD_of_runFuel h2]; exact h
        · rename_i h2; rw [pyWhileD_of_runFuel h2]; exact h
  · unfold apSolverUpTo at h
    unfold apSolverFl
    dsimp only at h ⊢
    split at h
    · rename_i h1; rw [h1]; exact h
    · rename_i h1
      rw [h1]
      dsimp only at h ⊢
      split at h
      · cases h
      · rename_i h2; rw [pyWhile_of_runFuel h2]; exact h
      · rename_i h2; rw [pyWhile_of_runFuel h2]; exact h
  · unfold wtapSolverUpTo at h
    unfold wtapSolver
    dsimp only at h ⊢
    split at h
    · rename_i h1; rw [if_pos h1]; exact h
    · rename_i h1
      rw [if_neg h1]
      split at h
      · rename_i h2; rw [if_pos h2]; exact h
      · rename_i h2; rw [if_neg h2]; exact pyWhile_of_runFuel h
  · unfold wtapSolverFlUpTo at h
    unfold wtapSolverFl
    dsimp only at h ⊢
    split at h
    · rename_i h1; rw [if_pos h1]; exact h
    · rename_i h1
      rw [if_neg h1]
      split at h
      · rename_i h2; rw [if_pos h2]; exact h
      · rename_i h2; rw [if_neg h2]; exact pyWhile_of_runFuel h

/-- **C141**: the bound for `wtap_solver` also holds in floating point arithmetic, if the order in which the weapons of a target are multiplied does not matter
(for example if no target can be engaged by more than two weapons). -/
theorem C141_wtap_solver_float {fl : Rat → Rat} (hfl : Rounding fl) {nlt : α → α → Bool} (ho : NodeOrder nlt) {g : Graph α Rat O} (hg : g.Built)
    {weapons : List α} {values : Dict α Rat} (h : WtInput g weapons values) (hw0 : weapons ≠ []) (hnd : weapons.Nodup)
    (hof : OrderFree fl g.edge weapons ∨ TwoPerTarget g.edge weapons) :
    g.wtapSolverFlUpTo ((weapons.map (fun w => (g.edgesFrom w).length)).foldr (· * ·) 1 + 2) fl nlt weapons values = g.wtapSolverFl fl nlt weapons values :=
  wtapSolverFlUpTo_eq hfl ho hg.inv h hw0 hnd (hof.elim id (fun h2 => h2.orderFree hfl)) (Nat.le_refl _)

/-- **C141**: without that hypothesis no number of passes is enough. -/
theorem C141_wtap_float_counterexample (k : Nat) : hangG.Built ∧ WtInput hangG [1, 2, 3] hangV ∧
    hangG.wtapSolverFlUpTo k double natLt [1, 2, 3] hangV = none := by
  obtain ⟨h1, h2, _, h3⟩ := C114_hang_counterexample
  refine ⟨h1, h2, ?_⟩
  cases h : hangG.wtapSolverFlUpTo k double natLt [1, 2, 3] hangV with
  | none => rfl
  | some r =>
    have := (C141_every_cut k natLt hangG).2.2.2.2 _ _ _ _ h
    rw [h3] at this; cases this

theorem runFuelD_of_step {σ ρ : Type} {step step' : σ → Option (σ ⊕ ρ)} (hs : ∀ s r, step' s = some r → step s = some r) :
    ∀ {n : Nat} {s : σ} {r : ρ}, runFuelD step' n s = some r → runFuelD step n s = some r := by
  intro n
  induction n with
  | zero => intro s r h; cases h
  | succ n ih =>
    intro s r h
    unfold runFuelD at h ⊢
    match h1 : step' s with
    | none => rw [h1] at h; cases h
    | some (.inr r') => rw [h1] at h; rw [hs _ _ h1]; exact h
    | some (.inl s') => rw [h1] at h; rw [hs _ _ h1]; exact ih h

/-- one edge -/
def oneEdge : Graph Nat Rat Nat := run [W 1 2 3]

/-- **C141**: with one edge one pass is not enough: the bound for `maximum_flow` cannot be improved. -/
theorem C141_bound_reached : oneEdge.Built ∧ NonNeg oneEdge.edge ∧ oneEdge.edgeList.length = 1 ∧ oneEdge.maximumFlowUpTo 1 1 2 = none ∧
    ∃ f, oneEdge.maximumFlowUpTo 2 1 2 = some (.ok (3, f)) := by
  have hb : oneEdge.Built := ⟨_, rfl⟩
  have hn : NonNeg oneEdge.edge := nonneg_of_edgeList hb (by decide +kernel)
  refine ⟨hb, hn, by decide +kernel, ?_, ?_⟩
  · have h : (match mfStepF 20 oneEdge 1 2 ⟨oneEdge.mfInverted, Graph.empty, Graph.empty, oneEdge.mfBound 1 2, 0⟩ with
      | some (.inl _) => true
      | _ => false) = true := by decide +kernel
    unfold maximumFlowUpTo
    rw [if_neg (by decide +kernel), if_neg (by decide +kernel)]
    unfold runFuelD
    match h2 : mfStepF 20 oneEdge 1 2 ⟨oneEdge.mfInverted, Graph.empty, Graph.empty, oneEdge.mfBound 1 2, 0⟩ with
    | none => rw [h2] at h; cases h
    | some (.inr r) => rw [h2] at h; cases h
    | some (.inl s) => rw [mfStepF_ok _ _ h2]; rfl
  · have h : (match runFuelD (mfStepF 20 oneEdge 1 2) 2 ⟨oneEdge.mfInverted, Graph.empty, Graph.empty, oneEdge.mfBound 1 2, 0⟩ with
      | some (.ok (t, _)) => decide (t = 3)
      | _ => false) = true := by decide +kernel
    unfold maximumFlowUpTo
    rw [if_neg (by decide +kernel), if_neg (by decide +kernel)]
    match h2 : runFuelD (mfStepF 20 oneEdge 1 2) 2 ⟨oneEdge.mfInverted, Graph.empty, Graph.empty, oneEdge.mfBound 1 2, 0⟩ with
    | none => rw [h2] at h; cases h
    | some (.error e) => rw [h2] at h; cases h
    | some (.ok (t, f)) =>
      rw [h2] at h
      have ht : t = 3 := of_decide_eq_true h
      exact ⟨f, by rw [runFuelD_of_step mfStepF_ok h2, ht]⟩

/-- the hypotheses of `C141_maximum_flow_float` are met by Python's `float` and the graph `overG` -/
example : Rounding double ∧ RelErr double (pow2 (-53)) ∧ Sterbenz double ∧ (0 : Rat) ≤ pow2 (-53) ∧ pow2 (-53) ≤ 1 / 4 ∧ SumLike (flTotal double) ∧
    overG.Built ∧ NonNeg overG.edge ∧ (∀ a b d, overG.edge a b = some d → double d = d) ∧ (1 : Nat) ≠ 4 :=
  ⟨double_rounding, double_relErr, double_sterbenz, by decide +kernel, by decide +kernel, flTotal_like double_rounding double_relErr (by decide +kernel),
    ⟨_, rfl⟩, C138_capacity_counterexample.2.1, fun a b d hd => double_exact (C138_capacity_counterexample.2.2.1 a b d hd), by decide⟩

/-- the hypotheses of `C141_min_cost_flow`: one supplier, two customers, no capacities -/
example : NodeOrder natLt ∧ mcfMixG.Built ∧ NonNeg mcfMixG.edge ∧ (⟨[(1, 2), (2, -1), (100, -1)]⟩ : Dict Nat Rat).WF ∧
    (∀ n v, (⟨[(1, 2), (2, -1), (100, -1)]⟩ : Dict Nat Rat).get? n = some v → v ≠ 0 → mcfMixG.has n = true) ∧
    (∀ c, (none : Option (Graph Nat Ext Nat)) = some c → c.Built ∧ SameLinks mcfMixG.edge c.edge ∧ ∀ a b x, c.edge a b = some x → Ext.le (.fin 0) x) := by
  have hb : mcfMixG.Built := ⟨_, rfl⟩
  refine ⟨natLt_order, hb, nonneg_of_edgeList hb (by decide +kernel), by simp [Dict.WF, Dict.keys], fun n v h _ => ?_, by simp⟩
  have h := (Dict.get?_eq_some_iff (by simp [Dict.WF, Dict.keys]) _ _).1 h
  simp at h
  rcases h with ⟨rfl, _⟩ | ⟨rfl, _⟩ | ⟨rfl, _⟩ <;> decide +kernel

/-- the hypotheses of `C141_ap_solver`: three agents, two tasks -/
example : NodeOrder natLt ∧ tiedAp.Built ∧ Bipartite tiedAp.edge ∧ (∀ i, tiedAp.has (tiedFresh i) = false ∧ tiedFresh i ∉ tiedAp.nodesInDeg 0) ∧
    (tiedAp.nodesInDeg 0).length = 3 ∧ (tiedAp.nodesOutDeg 0).length = 2 :=
  ⟨natLt_order, ⟨_, rfl⟩, tiedAp_bipartite, tiedAp_fresh, by decide +kernel, by decide +kernel⟩

/-- the hypotheses of `C141_wtap_solver`: two weapons with two targets each -/
example : NodeOrder natLt ∧ wtG.Built ∧ WtInput wtG [10, 11] wtV ∧ ([10, 11] : List Nat).Nodup ∧
    ([10, 11].map (fun w => (wtG.edgesFrom w).length)).foldr (· * ·) 1 = 4 :=
  ⟨natLt_order, ⟨_, rfl⟩, wtG_input, by decide, by decide +kernel⟩

/-- the hypotheses of `C141_wtap_solver_float` -/
example : Rounding double ∧ NodeOrder natLt ∧ wtG.Built ∧ WtInput wtG [10, 11] wtV ∧ TwoPerTarget wtG.edge [10, 11] := by
  refine ⟨double_rounding, natLt_order, ⟨_, rfl⟩, wtG_input, ?_⟩
  intro t a ha b hb c hc _ _ _
  simp only [List.mem_cons, List.not_mem_nil, or_false] at ha hb hc
  omega

end GT

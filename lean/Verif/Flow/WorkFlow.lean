import Verif.Search.WorkComps
import Verif.Flow.MaxFlowFp
import Verif.Flow.MinCost
import Verif.Flow.Assign
import Verif.Flow.Wtap
import Verif.Flow.WtapFl
/-
How many passes the main loops of `maximum_flow`, `minimum_cost_flow_using_successive_shortest_path`, `ap_solver` and `wtap_solver` take.
-/
namespace GT
variable {α O : Type} [DecidableEq α]
open Graph

/-- `maximum_flow(graph, start, end)` (max_flow.py:5-87), cut after `k` passes of `while unassigned_flow` (line 53) -/
def Graph.maximumFlowUpTo (k : Nat) (g : Graph α Rat O) (start fin : α) : Option (Py (Rat × Graph α Rat O)) :=
  if !g.has start then some (.error .valueError)
  else if !g.has fin then some (.error .valueError)
  else runFuelD (mfStep g start fin) k ⟨g.mfInverted, Graph.empty, Graph.empty, g.mfBound start fin, 0⟩

/-- the same with rounded arithmetic (the model of C138) -/
def Graph.maximumFlowFpUpTo (k : Nat) (fl : Rat → Rat) (sum : List Rat → Rat) (g : Graph α Rat O) (start fin : α) : Option (Py (Rat × Graph α Rat O)) :=
  if !g.has start then some (.error .valueError)
  else if !g.has fin then some (.error .valueError)
  else runFuelD (mfStepFp fl g start fin) k ⟨g.mfInvertedFl fl, Graph.empty, Graph.empty, g.mfBoundFp sum start fin, 0⟩

/-- `minimum_cost_flow_using_successive_shortest_path(costs, inventory, capacity)` (min_cost_flow.py:7-93), cut after `k` passes of `while balance` (line 54) -/
def Graph.minCostFlowUpTo (k : Nat) (nlt : α → α → Bool) (costs : Graph α Rat O) (inventory : Dict α Rat) (capacity : Option (Graph α Ext O)) :
    Option (Py (Rat × Graph α Rat O)) :=
  if costs.edgeList.any (fun e => decide (e.2.2 < 0)) then some (.error .valueError)
  else match mcfCapacity costs capacity with
    | .error e => some (.error e)
    | .ok capacity =>
      let balance := pySort (balLt nlt) ((inventory.items.filter (fun p => decide (p.2 ≠ 0))).map (fun p => (p.2, p.1)))
      let paths := costs.copy
      match runFuelD (mcfStep nlt capacity) k ⟨paths, Graph.empty, Graph.empty, balance, paths.allPairs⟩ with
      | none => none
      | some (.error e) => some (.error e)
      | some (.ok flows) =>
        match forE flows.edgeList (0 : Rat) (fun acc e => match costs.edge e.1 e.2.1 with
          | none => .error .typeError
          | some c => .ok (acc + e.2.2 * c)) with
        | .error e => some (.error e)
        | .ok total => some (.ok (total, flows))

theorem runFuelD_bound {σ ρ : Type} {step : σ → Option (σ ⊕ ρ)} (I : σ → Prop) (m : σ → Nat)
    (hI : ∀ s, I s → (∃ s', step s = some (.inl s') ∧ I s' ∧ m s' < m s) ∨ ∃ r, step s = some (.inr r)) {k : Nat} {s : σ} (hs : I s) (hk : m s < k) :
    runFuelD step k s = pyWhileD step s := by
  refine pyWhileD_bound I m (fun s s' h hst => ?_) (fun _ _ => rfl) k s hs hk
  rcases hI s h with ⟨s2, h1, h2, h3⟩ | ⟨r, h1⟩
  · rw [h1] at hst; cases hst; exact ⟨h2, h3⟩
  · rw [h1] at hst; cases hst

theorem Graph.maximumFlowUpTo_eq {g : Graph α Rat O} (hg : g.Built) (hc : NonNeg g.edge) {start fin : α} (hne : start ≠ fin) :
    g.maximumFlowUpTo (g.edgeList.length + 1) start fin = g.maximumFlow start fin := by
  unfold maximumFlowUpTo maximumFlow
  rw [runFuelD_bound (MfInv g start fin (g.mfBound start fin)) (mfMeasure g) (fun s hI => ?_) (MfInv.init hg.inv hc)
    (Nat.lt_succ_of_le (List.length_filter_le _ _))]
  rcases mfStep_inv hg.inv hc hne hI with ⟨s', h1, h2, h3⟩ | ⟨r, h1, _⟩
  · exact .inl ⟨s', h1, h2, h3⟩
  · exact .inr ⟨r, h1⟩

theorem measureFp_le (fl : Rat → Rat) (g : Graph α Rat O) (s : MfSt α O) : measureFp fl g s ≤ 2 * g.edgeList.length := by
  unfold measureFp
  generalize g.edgeList = l
  induction l with
  | nil => exact Nat.le_refl _
  | cons a l ih =>
    simp only [List.map_cons, List.sum_cons, List.length_cons]
    have : phaseFp fl g s.flow a ≤ 2 := by unfold phaseFp; repeat' split <;> try omega
    exact Nat.le_trans (Nat.add_le_add this ih) (by omega)

theorem Graph.maximumFlowFpUpTo_eq {fl : Rat → Rat} {ε : Rat} (hfl : Rounding fl) (he : RelErr fl ε) (hst : Sterbenz fl) (he0 : 0 ≤ ε) (he1 : ε ≤ 1 / 4)
    {sum : List Rat → Rat} (hsum : SumLike sum) {g : Graph α Rat O} (hg : g.Built) (hc : NonNeg g.edge)
    (hfix : ∀ a b d, g.edge a b = some d → fl d = d) {start fin : α} (hne : start ≠ fin) :
    g.maximumFlowFpUpTo (2 * g.edgeList.length + 1) fl sum start fin = g.maximumFlowFp fl sum start fin := by
  unfold maximumFlowFpUpTo maximumFlowFp
  rw [runFuelD_bound (fun s => ∃ L, MfInvFp fl ε g start fin (g.mfBoundFp sum start fin) L s) (measureFp fl g) (fun s ⟨L, hI⟩ => ?_) ⟨[], MfInvFp.init hsum hg.inv hc⟩
    (Nat.lt_succ_of_le (measureFp_le fl g _))]
  rcases mfStepFp_inv hfl he hst he0 he1 hg.inv hfix hne hI with ⟨s', h1, h2, h3⟩ | ⟨r, h1, _⟩
  · exact .inl ⟨s', h1, h2, h3⟩
  · exact .inr ⟨r, h1⟩

theorem Graph.minCostFlowUpTo_eq {nlt : α → α → Bool} (ho : NodeOrder nlt) {costs : Graph α Rat O} (hc : costs.Built) (hnn : NonNeg costs.edge)
    {inventory : Dict α Rat} (hwf : inventory.WF) (hin : ∀ n v, inventory.get? n = some v → v ≠ 0 → costs.has n = true)
    {capacity : Option (Graph α Ext O)} (hcap : ∀ c, capacity = some c → c.Built ∧ SameLinks costs.edge c.edge ∧ ∀ a b x, c.edge a b = some x → Ext.le (.fin 0) x) :
    costs.minCostFlowUpTo (costs.edgeList.length + inventory.items.length + 1) nlt inventory capacity = costs.minCostFlow nlt inventory capacity := by
  obtain ⟨capg, h1, hcc⟩ := mcfCapacity_ok hc.inv (capacity := capacity) (fun c h => ⟨(hcap c h).1.inv, (hcap c h).2⟩)
  have hlinks : ∀ a b, (costs.edge a b).isSome → (capg.edge a b).isSome := by
    intro a b hab
    rw [hcc]
    cases capacity with
    | none => simp [effCap, hab]
    | some c => show (c.edge a b).isSome; rw [← (hcap c rfl).2.1 a b]; exact hab
  have hcnn : ∀ a b x, capg.edge a b = some x → Ext.le (.fin 0) x := by
    intro a b x hx
    rw [hcc] at hx
    cases capacity with
    | none =>
      have hx : (costs.edge a b).map (fun _ => Ext.inf) = some x := hx
      cases he : costs.edge a b with
      | none => rw [he] at hx; cases hx
      | some v => rw [he] at hx; cases hx; exact trivial
    | some c => exact (hcap c rfl).2.2 a b x hx
  unfold minCostFlowUpTo minCostFlow
  rw [h1]
  dsimp only
  rw [runFuelD_bound (McfInv nlt costs capg (stockOf inventory)) (mcfMeasure costs) (fun s hI => ?_) (McfInv.init ho hc.inv hwf hin hcnn) ?_]
  · rfl
  · refine Nat.lt_succ_of_le (Nat.add_le_add (List.length_filter_le _ _) ?_)
    rw [(pySort_perm (balLt nlt) _).length_eq, List.length_map]
    exact List.length_filter_le _ _
  · rcases mcfStep_inv ho hc.inv hnn hlinks hI with ⟨s', h4, h5, h6, _⟩ | ⟨r, h4, _⟩
    · exact .inl ⟨s', h4, h5, h6⟩
    · exact .inr ⟨r, h4⟩

/-! ### ap_solver -/

/-- `ap_solver(graph)` (assignment_problem.py:8-93), cut after `k` passes of `while unassigned_agents` (line 75); `fl` rounds the two subtractions -/
def Graph.apSolverUpTo (k : Nat) (fl : Rat → Rat) (nlt : α → α → Bool) (fresh : Nat → α) (g : Graph α Rat O) :
    Option (Py (List (α × α × Rat)) × Graph α Rat O) :=
  let agents := g.nodesInDeg 0
  let tasks := g.nodesOutDeg 0
  match ratMin (g.edgeList.map (fun e => e.2.2)) with
  | .error e => some (.error e, g)
  | .ok m =>
    let d := agents.length - tasks.length
    let dummies := (List.range d).map fresh
    let g' := g.addEdges (apDummyEdges agents dummies (fl (m - 1)))
    let vnull := if tasks.length < agents.length then fl (fl (m - 1) - 1) else fl (m - 1)
    match runFuel (apsStep nlt g' vnull) k ⟨agents, tasks ++ dummies, Graph.empty, none⟩ with
    | none => none
    | some (.error e) => some (.error e, g')
    | some (.ok a) => some (.ok ((a.edgeList.filter (fun e => decide (e.1 ∉ dummies))).map (fun e => (e.2.1, e.1, e.2.2))), g')

theorem apTry_agents_le (vnull : Rat) (n : α) : ∀ (l : List (Rat × α)) (s s' : ApSt α O), apTry vnull n l s = .ok s' →
    s'.agents.length ≤ s.agents.length + 1 := by
  intro l
  induction l with
  | nil => intro s s' h; unfold apTry at h; cases h; omega
  | cons x l ih =>
    intro s s' h
    obtain ⟨v, t⟩ := x
    unfold apTry at h
    extract_lets ed s0 at h
    have hs0 : s0.agents = s.agents := rfl
    clear_value s0
    split at h
    · split at h
      · split at h
        · cases h
        · cases h; simp [hs0]
      · split at h
        · cases h; simp [hs0]
        · cases h
    · have := ih _ _ h
      rw [hs0] at this; exact this

theorem apsStep_work {nlt : α → α → Bool} (ho : NodeOrder nlt) {g : Graph α Rat O} (hg : g.Inv) {S T : List α} {vnull : Rat}
    (hS : ∀ n t v, g.edge n t = some v → t ∉ S) (hT : ∀ n t v, g.edge n t = some v → t ∈ T) {s s' : ApSt α O} (hs : ApsInv g.edge S T vnull s)
    (hstep : apsStep nlt g vnull s = .inl s') :
    ApsInv g.edge S T vnull s' ∧ apWork g.edgeList s' + s'.agents.length < apWork g.edgeList s + s.agents.length := by
  have hE : ∀ a t v, (a, t, v) ∈ g.edgeList ↔ g.edge a t = some v := fun _ _ _ => hg.mem_edgeList
  unfold apsStep at hstep
  split at hstep
  · cases hstep
  · rename_i n rest hag
    have hag2 := hs.nd; rw [hag] at hag2
    have hT' : ApTryInv g.edge S T vnull n (apRank nlt g n) { s with agents := rest } := by
      refine ⟨fun x hx hxn hx' => hs.stable x hx ?_, hs.inv, hs.hi, hs.adm, hs.oneT, hs.oneN, hs.nodes, hs.free, hag2, ?_, ?_, apRank_sorted ho g n, ?_, ?_⟩
      · rw [hag, List.mem_cons]; rintro (h | h)
        · exact hxn h
        · exact hx' h
      · intro x hx; exact hs.sub x (by rw [hag]; exact hx)
      · intro x hx; exact hs.idle x (by rw [hag]; exact hx)
      · intro v t h; exact (apRank_mem hg n v t).1 h
      · intro t v h _; exact .inl ((apRank_mem hg n v t).2 h)
    obtain ⟨s1, h1, h2, h3⟩ := apTry_spec hE hS hT _ _ hT'
    have h4 := apTry_agents_le _ _ _ _ _ h1
    rw [h1] at hstep
    cases hstep
    refine ⟨h2, ?_⟩
    have h5 : apWork g.edgeList { s with agents := rest } = apWork g.edgeList s := rfl
    rw [h5] at h3
    rw [hag, List.length_cons]
    dsimp only at h3 h4
    omega

omit [DecidableEq α] in
theorem apDummyEdges_length (agents dummies : List α) (m : Rat) : (apDummyEdges agents dummies m).length = dummies.length * agents.length := by
  unfold apDummyEdges
  induction dummies with
  | nil => simp
  | cons d l ih => rw [List.flatMap_cons, List.length_append, ih, List.length_map, List.length_cons, Nat.add_mul, Nat.one_mul, Nat.add_comm]

theorem Graph.apSolverUpTo_eq (fl : Rat → Rat) {nlt : α → α → Bool} (ho : NodeOrder nlt) {fresh : Nat → α} {g : Graph α Rat O} (hg : g.Inv)
    (hb : Bipartite g.edge) (hf : FreshFor g fresh) :
    g.apSolverUpTo (g.edgeList.length + ((g.nodesInDeg 0).length - (g.nodesOutDeg 0).length) * (g.nodesInDeg 0).length + (g.nodesInDeg 0).length + 1)
      fl nlt fresh = g.apSolverFl fl nlt fresh := by
  unfold apSolverUpTo apSolverFl
  cases hm : ratMin (g.edgeList.map (fun e => e.2.2)) with
  | error e => rfl
  | ok m =>
  dsimp only
  generalize hS : g.nodesInDeg 0 = S
  generalize hT0 : g.nodesOutDeg 0 = T0
  generalize hD : (List.range (S.length - T0.length)).map fresh = D
  generalize (if T0.length < S.length then fl (fl (m - 1) - 1) else fl (m - 1)) = vnull
  generalize hG : g.addEdges (apDummyEdges S D (fl (m - 1))) = g'
  have hfD : ∀ t ∈ D, g.has t = false ∧ t ∉ S := by
    intro t ht
    rw [← hD, List.mem_map] at ht
    obtain ⟨i, _, rfl⟩ := ht
    rw [← hS]; exact hf i
  have hF : Func (apDummyEdges S D (fl (m - 1))) := by
    intro a b v v' h1 h2
    rw [mem_apDummyEdges] at h1 h2
    rw [h1.2.2, h2.2.2]
  have hge : ∀ a t v, g'.edge a t = some v → (t ∈ D ∧ a ∈ S ∧ v = fl (m - 1)) ∨ g.edge a t = some v := by
    intro a t v
    rw [← hG, addEdges_edge hF, mem_apDummyEdges]
    rintro (h | ⟨_, h⟩)
    · exact .inl h
    · exact .inr h
  have hg' : g'.Inv := by rw [← hG]; exact addEdges_inv hg _
  have hSn : S.Nodup := by rw [← hS]; exact hg.nodup_nodesInDeg 0
  have hSin : ∀ a ∈ S, ∀ x, g.edge x a = none := by
    intro a ha x; rw [← hS] at ha; exact hg.nodesInDeg_zero ha x
  have h1 : ∀ n t v, g'.edge n t = some v → t ∉ S := by
    intro n t v h ht
    rcases hge n t v h with h | h
    · exact (hfD t h.1).2 ht
    · rw [hSin t ht] at h; cases h
  have h2 : ∀ n t v, g'.edge n t = some v → t ∈ T0 ++ D := by
    intro n t v h
    rw [List.mem_append]
    rcases hge n t v h with h | h
    · exact .inr h.1
    · left
      rw [← hT0]
      exact hg.mem_nodesOutDeg_zero (hg.dom n t v h).2 (hb n t (by rw [h]; rfl)).2
  have hlen : g'.edgeList.length ≤ g.edgeList.length + (S.length - T0.length) * S.length := by
    have h3 : (apDummyEdges S D (fl (m - 1))).length = (S.length - T0.length) * S.length := by
      rw [apDummyEdges_length, ← hD, List.length_map, List.length_range]
    rw [← h3, ← List.length_append]
    refine List.Nodup.length_le_of_subset hg'.edgeList_nodup ?_
    rintro ⟨a, t, v⟩ h
    rw [List.mem_append]
    rcases hge a t v (hg'.mem_edgeList.1 h) with h | h
    · exact .inr (mem_apDummyEdges.2 h)
    · exact .inl (hg.mem_edgeList.2 h)
  have hinit : ApsInv g'.edge S (T0 ++ D) vnull (⟨S, T0 ++ D, Graph.empty, none⟩ : ApSt α O) := by
    refine ⟨inv_empty, ?_, ?_, ?_, ?_, ?_, fun t ht _ => ht, hSn, fun n hn => hn, fun _ _ _ => rfl, fun n hn hn' => absurd hn hn'⟩
    · intro t n v h; cases h
    · intro t n v h; cases h
    · intro t n n' h; cases h
    · intro t n n' h; cases h
    · intro x h; cases h
  rw [runFuel_eq (runFuel_measure (ApsInv g'.edge S (T0 ++ D) vnull) (fun s => apWork g'.edgeList s + s.agents.length)
    (fun s s' hI hst => apsStep_work ho hg' h1 h2 hI hst) hinit ?_)]
  · rfl
  · have h3 : apWork g'.edgeList (⟨S, T0 ++ D, Graph.empty, none⟩ : ApSt α O) ≤ g'.edgeList.length := List.length_filter_le _ _
    dsimp only
    omega

/-! ### wtap_solver -/

/-- `wtap_solver(probabilities, weapons, target_values)` (assignment_problem.py:96-187), cut after `k` passes of `while True` (line 159) -/
def Graph.wtapSolverUpTo (k : Nat) (nlt : α → α → Bool) (g : Graph α Rat O) (weapons : List α) (values : Dict α Rat) : Option (Py (Rat × Graph α Rat O)) :=
  if weapons.any (fun w => values.contains w) then some (.error .valueError)
  else
    let targets := g.edgeList.map (fun e => e.2.1)
    if targets.all (fun t => values.contains t) && values.keys.any (fun t => decide (t ∉ targets)) then some (.error .valueError)
    else runFuel (wtRound nlt g values weapons) k ⟨Graph.empty, values.values.sum + 1, Dict.empty⟩

theorem flatMap_length_const {β γ : Type} (l : List β) (f : β → List γ) (n : Nat) (h : ∀ x ∈ l, (f x).length = n) : (l.flatMap f).length = l.length * n := by
  induction l with
  | nil => simp
  | cons x l ih =>
    rw [List.flatMap_cons, List.length_append, h x (by simp), ih (fun y hy => h y (List.mem_cons_of_mem _ hy)), List.length_cons, Nat.succ_mul]
    omega

theorem allEng_length (g : Graph α Rat O) (ws : List α) : (allEng g ws).length = (ws.map (fun w => (g.edgesFrom w).length)).foldr (· * ·) 1 := by
  induction ws with
  | nil => rfl
  | cons w ws ih =>
    unfold allEng
    rw [flatMap_length_const _ _ (allEng g ws).length (fun e _ => by rw [List.length_map]), ih]
    rfl

omit [DecidableEq α] in
theorem foldl_sadd_fresh [DecidableEq α] (xs : List α) : ∀ s : List α, (∀ x ∈ xs, x ∉ s) → xs.Nodup → saddAll s xs = s ++ xs := by
  induction xs with
  | nil => intro s _ _; unfold saddAll; simp
  | cons x xs ih =>
    intro s h hnd
    rw [List.nodup_cons] at hnd
    have e : saddAll s (x :: xs) = saddAll (s ++ [x]) xs := by
      unfold saddAll
      rw [List.foldl_cons]
      unfold sadd
      rw [if_neg (h x (by simp))]
    rw [e, ih (s ++ [x]) (fun y hy hm => ?_) hnd.2]
    · simp
    · rcases List.mem_append.1 hm with hm | hm
      · exact h y (List.mem_cons_of_mem _ hy) hm
      · rw [List.mem_singleton] at hm
        exact hnd.1 (hm ▸ hy)

theorem wtMeasure_le (g : Graph α Rat O) (weapons : List α) (values : Dict α Rat) (s : WtSt α O) :
    wtMeasure g weapons values s ≤ (allEng g (saddAll [] weapons)).length + 1 := by
  unfold wtMeasure
  dsimp only
  split
  · have := List.length_filter_le (fun c => decide (c < s.cur)) ((allEng g (saddAll [] weapons)).map (fun M => survivors values.items M))
    rw [List.length_map] at this
    omega
  · rw [List.length_map]; exact Nat.le_refl _

theorem Graph.wtapSolverUpTo_eq {nlt : α → α → Bool} (ho : NodeOrder nlt) {g : Graph α Rat O} (hg : g.Inv) {weapons : List α} {values : Dict α Rat}
    (h : WtInput g weapons values) (hw0 : weapons ≠ []) (hnd : weapons.Nodup) {k : Nat}
    (hk : (weapons.map (fun w => (g.edgesFrom w).length)).foldr (· * ·) 1 + 2 ≤ k) :
    g.wtapSolverUpTo k nlt weapons values = g.wtapSolver nlt weapons values := by
  unfold wtapSolverUpTo wtapSolver
  dsimp only
  split
  · rfl
  split
  · rfl
  refine runFuel_eq (runFuel_measure (WtI g weapons values) (wtMeasure g weapons values)
    (fun s s' hI hstep => wtRound_work ho hg h.wf h.valued h.armed hw0 hI hstep) (WtI.init g weapons values) ?_)
  refine Nat.lt_of_le_of_lt (wtMeasure_le _ _ _ _) ?_
  rw [foldl_sadd_fresh weapons [] (fun _ _ hm => nomatch hm) hnd, List.nil_append, allEng_length]
  omega

/-- the same with rounded arithmetic (the model of `wtapSolverFl`) -/
def Graph.wtapSolverFlUpTo (k : Nat) (fl : Rat → Rat) (nlt : α → α → Bool) (g : Graph α Rat O) (weapons : List α) (values : Dict α Rat) :
    Option (Py (Rat × Graph α Rat O)) :=
  if weapons.any (fun w => values.contains w) then some (.error .valueError)
  else
    let targets := g.edgeList.map (fun e => e.2.1)
    if targets.all (fun t => values.contains t) && values.keys.any (fun t => decide (t ∉ targets)) then some (.error .valueError)
    else runFuel (wtRoundFl fl nlt g values weapons) k ⟨Graph.empty, fl (flSum fl values.values + 1), Dict.empty⟩

theorem wtMeasureFl_le (fl : Rat → Rat) (g : Graph α Rat O) (weapons : List α) (values : Dict α Rat) (s : WtSt α O) :
    wtMeasureFl fl g weapons values s ≤ (allEng g (saddAll [] weapons)).length + 1 := by
  unfold wtMeasureFl
  dsimp only
  split
  · have := List.length_filter_le (fun c => decide (c < s.cur)) ((allEng g (saddAll [] weapons)).map (fun M => flSurvivors fl values.items M))
    rw [List.length_map] at this
    omega
  · rw [List.length_map]; exact Nat.le_refl _

theorem Graph.wtapSolverFlUpTo_eq {fl : Rat → Rat} (hfl : Rounding fl) {nlt : α → α → Bool} (ho : NodeOrder nlt) {g : Graph α Rat O} (hg : g.Inv)
    {weapons : List α} {values : Dict α Rat} (h : WtInput g weapons values) (hw0 : weapons ≠ []) (hnd : weapons.Nodup)
    (hof : OrderFree fl g.edge weapons) {k : Nat} (hk : (weapons.map (fun w => (g.edgesFrom w).length)).foldr (· * ·) 1 + 2 ≤ k) :
    g.wtapSolverFlUpTo k fl nlt weapons values = g.wtapSolverFl fl nlt weapons values := by
  unfold wtapSolverFlUpTo wtapSolverFl
  dsimp only
  split
  · rfl
  split
  · rfl
  refine runFuel_eq (runFuel_measure (WtIFl fl g weapons values) (wtMeasureFl fl g weapons values)
    (fun s s' hI hstep => wtapFl_work hfl ho hg h hw0 hof hI hstep) (wtIFl_start fl g weapons values _) ?_)
  refine Nat.lt_of_le_of_lt (wtMeasureFl_le _ _ _ _ _) ?_
  rw [foldl_sadd_fresh weapons [] (fun _ _ hm => nomatch hm) hnd, List.nil_append, allEng_length]
  omega

end GT

import Verif.Props.Compare
import Verif.Props.Jam
import Verif.Props.Misc
import Verif.Other.HashCmp
import Verif.Other.JamCmp
import Verif.Flow.WtapCmp
import Verif.Flow.MinCostCmp
/-
Property theorems C119–C122: more functions that sort nodes, on nodes that cannot be compared with each other (`1` and `"a"`): `graph_hash` (C119),
`wtap_solver` (C120), `minimum_cost_flow_using_successive_shortest_path` (C121) and `jam_solver` (C122).

`cmp a b`: the comparison `a < b` does not raise.
-/
namespace GT
open Graph
variable {α V O : Type} [DecidableEq α]

/-! ### C119 -/

/-- **C119**, `graph_hash(g)`: it raises `TypeError` exactly if two nodes of the graph cannot be compared, whatever the edges and their values are (the
values are never compared: the tuples differ in the nodes); otherwise it is the hash of C46. -/
theorem C119_graph_hash {C : Type} {cmp : α → α → Bool} (hsym : ∀ a b, cmp a b = cmp b a) (vcmp : V → V → Bool) (H : List Char → C) (nlt : α → α → Bool)
    (str : α → List Char) (estr : α × α × V → List Char) {g : Graph α V O} (hg : g.Built) :
    ((∃ a b, g.has a = true ∧ g.has b = true ∧ a ≠ b ∧ cmp a b = false) → g.graphHashE cmp vcmp H nlt str estr = .error .typeError) ∧
    ((∀ a b, g.has a = true → g.has b = true → a ≠ b → cmp a b = true) →
      g.graphHashE cmp vcmp H nlt str estr = .ok (g.graphHash H nlt str estr)) := by
  obtain ⟨h1, h2⟩ := graphHashE_spec hsym (vcmp := vcmp) (H := H) (nlt := nlt) (str := str) (estr := estr) hg.inv
  exact ⟨h1, fun h => h2 (fun ⟨a, b, ha, hb, hne, hc⟩ => by rw [h a b ha hb hne] at hc; cases hc)⟩

/-- **C119**: a graph with the nodes `1` and `"a"` has no hash, although it has edges and could be compared with another graph by `==` -/
theorem C119_type_error_counterexample {C : Type} (H : List Char → C) (str : Nat → List Char) (estr : Nat × Nat × Rat → List Char) :
    tiedG.Built ∧ tiedG.graphHashE sameKind (fun _ _ => true) H natLt str estr = .error .typeError := by
  have hb : tiedG.Built := ⟨_, rfl⟩
  exact ⟨hb, (C119_graph_hash (fun a b => by unfold sameKind; exact Bool.beq_comm) _ H natLt str estr hb).1
    ⟨1, 100, by decide +kernel, by decide +kernel, by decide, by decide⟩⟩

/-- nodes of one kind, and values that cannot be compared with each other: the graph has a hash -/
example {C : Type} (H : List Char → C) (str : Nat → List Char) (estr : Nat × Nat × Rat → List Char) :
    ∃ g : Graph Nat Rat Nat, g.Built ∧ g.edgeList.length = 2 ∧
      g.graphHashE sameKind (fun _ _ => false) H natLt str estr = .ok (g.graphHash H natLt str estr) := by
  have hb : (run [W 1 2 1, W 2 3 1] : Graph Nat Rat Nat).Built := ⟨_, rfl⟩
  refine ⟨_, hb, by decide +kernel, (C119_graph_hash (fun a b => by unfold sameKind; exact Bool.beq_comm) _ H natLt str estr hb).2 ?_⟩
  have key : ∀ a ∈ (run [W 1 2 1, W 2 3 1] : Graph Nat Rat Nat).nodeList, ∀ b ∈ (run [W 1 2 1, W 2 3 1] : Graph Nat Rat Nat).nodeList,
    sameKind a b = true := by decide +kernel
  exact fun a b ha hb _ => key a (has_iff.1 ha) b (has_iff.1 hb)

/-! ### C120 -/

/-- **C120**, `wtap_solver(g, weapons, values)`, where the targets of a weapon are sorted by `(surviving value, target)`: it does what it does on
comparable nodes (C43), or it raises `TypeError`, and then some weapon has two targets that cannot be compared; it does raise `TypeError` if the
first weapon has two such targets that leave the same surviving value when it alone engages them. -/
theorem C120_wtap_solver {cmp nlt : α → α → Bool} (ho : NodeOrder nlt) {g : Graph α Rat O} (hg : g.Built) {weapons : List α} {values : Dict α Rat}
    (h : WtInput g weapons values) (hw0 : weapons ≠ []) :
    (∃ v a, g.wtapSolver nlt weapons values = some (.ok (v, a)) ∧
      (g.wtapSolverE cmp nlt weapons values = some (.ok (v, a)) ∨ g.wtapSolverE cmp nlt weapons values = some (.error .typeError))) ∧
    (g.wtapSolverE cmp nlt weapons values = some (.error .typeError) →
      ∃ w ∈ weapons, ∃ t t', (g.edge w t).isSome ∧ (g.edge w t').isSome ∧ t ≠ t' ∧ cmp t t' = false) ∧
    (∀ w t t' p p', weapons.head? = some w → g.edge w t = some p → g.edge w t' = some p' → t ≠ t' → cmp t t' = false →
      survivors values.items [(w, t, p)] = survivors values.items [(w, t', p')] → g.wtapSolverE cmp nlt weapons values = some (.error .typeError)) := by
  obtain ⟨v, a, h1, _⟩ := C43_wtap_solver_partial ho hg h hw0
  have hc := wtapSolverE_cut (cmp := cmp) hg.inv h1
  refine ⟨⟨v, a, h1, hc.imp id And.right⟩, fun he => ?_, fun w t t' p p' hw e1 e2 hne hcmp heq => ?_⟩
  · rcases hc with hc | ⟨hc, _⟩
    · rw [hc] at he; cases he
    · exact hc
  · cases weapons with
    | nil => cases hw
    | cons w0 ws => cases hw; exact wtapSolverE_tied hg.inv h e1 e2 hne hcmp heq

/-- the weapon 10 can engage the targets 1 and "a" -/
def wtMixG : Graph Nat Rat Nat := run [W 10 1 (1/2), W 10 100 (1/2)]

theorem wtMix_input (x y : Rat) : WtInput wtMixG [10] ⟨[(1, x), (100, y)]⟩ :=
  wtInput_of ⟨_, rfl⟩ (by simp [Dict.keys]) (by simp [Dict.keys])
    (by have : ∀ t ∈ [1, 100], ∃ e ∈ wtMixG.edgeList, e.2.1 = t := by decide +kernel
        exact this)
    (by have : ∀ e ∈ wtMixG.edgeList, e.2.1 ∈ [1, 100] := by decide +kernel
        exact this)
    (by decide +kernel)

/-- **C120**: targets of the same value and probability, but of different types, raise `TypeError` -/
theorem C120_type_error_counterexample : wtMixG.Built ∧ WtInput wtMixG [10] ⟨[(1, 4), (100, 4)]⟩ ∧
    wtMixG.wtapSolverE sameKind natLt [10] ⟨[(1, 4), (100, 4)]⟩ = some (.error .typeError) := by
  have hb : wtMixG.Built := ⟨_, rfl⟩
  refine ⟨hb, wtMix_input _ _, ?_⟩
  exact (C120_wtap_solver natLt_order hb (wtMix_input 4 4) (by simp)).2.2 10 1 100 (1/2) (1/2) rfl (by decide +kernel) (by decide +kernel) (by decide)
    (by decide) (by decide +kernel)

/-- targets of different types and different values: no exception -/
example : ∃ a, wtMixG.wtapSolverE sameKind natLt [10] ⟨[(1, 4), (100, 6)]⟩ = some (.ok (7, a)) ∧ a.edgeList = [(10, 100, 1/2)] := by
  obtain ⟨a, h1, h2⟩ := wt_eval (g := wtMixG) (Graph.Built.inv ⟨_, rfl⟩) (wtMix_input 4 6) (k := 10) (v := 7) (E := [(10, 100, 1/2)]) (by decide +kernel)
  refine ⟨a, ?_, h2⟩
  rcases wtapSolverE_cut (g := wtMixG) (cmp := sameKind) (Graph.Built.inv ⟨_, rfl⟩) h1 with h | ⟨_, h⟩
  · exact h
  · exfalso
    unfold wtapSolverE at h
    rw [if_neg (by decide +kernel), if_neg (by decide +kernel)] at h
    have key : (runFuel (wtRoundE sameKind natLt wtMixG ⟨[(1, 4), (100, 6)]⟩ [10]) 10
      ⟨Graph.empty, (⟨[(1, 4), (100, 6)]⟩ : Dict Nat Rat).values.sum + 1, Dict.empty⟩).map (fun r => match r with | .ok _ => true | .error _ => false) =
        some true := by decide +kernel
    cases hk : runFuel (wtRoundE sameKind natLt wtMixG ⟨[(1, 4), (100, 6)]⟩ [10]) 10
      ⟨Graph.empty, (⟨[(1, 4), (100, 6)]⟩ : Dict Nat Rat).values.sum + 1, Dict.empty⟩ with
    | none => rw [hk] at key; cases key
    | some r =>
      rw [hk] at key
      rw [pyWhile_of_runFuel hk] at h
      cases h; cases key

/-! ### C121 -/

/-- **C121**, `minimum_cost_flow_using_successive_shortest_path(costs, inventory, capacity)`, where `(stock, node)` and `(distance, stock, node)` are
sorted: it does what it does on comparable nodes (C41), or it raises `TypeError`, and then two nodes that cannot be compared both have supply or both have
demand; it does raise `TypeError` if two such nodes have the same supply, or the same demand. -/
theorem C121_min_cost_flow {cmp nlt : α → α → Bool} (ho : TotalOrder nlt) {costs : Graph α Rat O} (hc : costs.Built)
    (hnn : NonNeg costs.edge) {inventory : Dict α Rat} (hwf : inventory.WF)
    (hin : ∀ n v, inventory.get? n = some v → v ≠ 0 → costs.has n = true) {capacity : Option (Graph α Ext O)}
    (hcap : ∀ c, capacity = some c → c.Built ∧ SameLinks costs.edge c.edge ∧ ∀ a b x, c.edge a b = some x → Ext.le (.fin 0) x) :
    (∃ r, costs.minCostFlow nlt inventory capacity = some r ∧
      (costs.minCostFlowE cmp nlt inventory capacity = some r ∨ costs.minCostFlowE cmp nlt inventory capacity = some (.error .typeError))) ∧
    (costs.minCostFlowE cmp nlt inventory capacity = some (.error .typeError) →
      ∃ n n' v v', inventory.get? n = some v ∧ inventory.get? n' = some v' ∧ n ≠ n' ∧ cmp n n' = false ∧ ((0 < v ∧ 0 < v') ∨ (v < 0 ∧ v' < 0))) ∧
    (∀ n n' v, inventory.get? n = some v → inventory.get? n' = some v → v ≠ 0 → n ≠ n' → cmp n n' = false →
      costs.minCostFlowE cmp nlt inventory capacity = some (.error .typeError)) := by
  have hr : ∃ r, costs.minCostFlow nlt inventory capacity = some r ∧ r ≠ .error .typeError := by
    rcases C41_min_cost_flow_partial ho.node hc hnn hwf hin hcap with ⟨t, f, h, _⟩ | ⟨h, _⟩
    · exact ⟨_, h, by simp⟩
    · exact ⟨_, h, by simp⟩
  obtain ⟨r, hr, hne⟩ := hr
  have hcut := minCostFlowE_cut (cmp := cmp) ho hwf hr
  refine ⟨⟨r, hr, hcut.imp id And.right⟩, fun he => ?_, fun n n' v h1 h2 hv hnn' hcmp => ?_⟩
  · rcases hcut with h | ⟨⟨v, n, v', n', h1, h2, h3, h4, h5⟩, _⟩
    · rw [he] at h; cases h; exact absurd rfl hne
    · exact ⟨n, n', v, v', h1, h2, h3, h4, h5⟩
  · obtain ⟨capg, h3, _⟩ := mcfCapacity_ok hc.inv (capacity := capacity) (fun c h => ⟨(hcap c h).1.inv, (hcap c h).2⟩)
    exact minCostFlowE_tied hc.inv hnn hwf h3 h1 h2 hv hnn' hcmp

/-- 2 and "a" can both be supplied from 1 -/
def mcfMixG : Graph Nat Rat Nat := run [W 1 2 1, W 1 100 1]

/-- **C121**: the demands of 2 and "a" are equal: `TypeError` -/
theorem C121_type_error_counterexample : mcfMixG.Built ∧ NonNeg mcfMixG.edge ∧
    mcfMixG.minCostFlowE sameKind natLt ⟨[(1, 2), (2, -1), (100, -1)]⟩ none = some (.error .typeError) := by
  have hb : mcfMixG.Built := ⟨_, rfl⟩
  have hn : NonNeg mcfMixG.edge := nonneg_of_edgeList hb (by decide +kernel)
  refine ⟨hb, hn, (C121_min_cost_flow natLt_total hb hn (by simp [Dict.WF, Dict.keys]) (fun n v h _ => ?_) (by simp)).2.2 2 100 (-1) (by decide +kernel) (by decide +kernel)
    (by decide +kernel) (by decide) (by decide)⟩
  have h := (Dict.get?_eq_some_iff (by simp [Dict.WF, Dict.keys]) _ _).1 h
  simp at h
  rcases h with h | h | h <;> rw [h.1] <;> decide +kernel

/-- **C121**: different demands: no exception -/
example : ∃ r, mcfMixG.minCostFlow natLt ⟨[(1, 2), (2, 1), (100, -3)]⟩ none = some r ∧
    mcfMixG.minCostFlowE sameKind natLt ⟨[(1, 2), (2, 1), (100, -3)]⟩ none = some r := by
  have hb : mcfMixG.Built := ⟨_, rfl⟩
  have hn : NonNeg mcfMixG.edge := nonneg_of_edgeList hb (by decide +kernel)
  have hwf : (⟨[(1, 2), (2, 1), (100, -3)]⟩ : Dict Nat Rat).WF := by simp [Dict.WF, Dict.keys]
  have := C121_min_cost_flow (cmp := sameKind) natLt_total hb hn (inventory := ⟨[(1, 2), (2, 1), (100, -3)]⟩) hwf (fun n v h _ => by
    have h := (Dict.get?_eq_some_iff hwf _ _).1 h
    simp at h
    rcases h with h | h | h <;> rw [h.1] <;> decide +kernel) (capacity := none) (by simp)
  obtain ⟨⟨r, h1, h2⟩, h3, _⟩ := this
  refine ⟨r, h1, h2.resolve_right (fun h => ?_)⟩
  obtain ⟨n, n', v, v', a1, a2, a3, a4, a5⟩ := h3 h
  have key : ∀ p ∈ [((1 : Nat), (2 : Rat)), (2, 1), (100, -3)], ∀ q ∈ [((1 : Nat), (2 : Rat)), (2, 1), (100, -3)], p.1 ≠ q.1 → sameKind p.1 q.1 = false →
    ¬ ((0 < p.2 ∧ 0 < q.2) ∨ (p.2 < 0 ∧ q.2 < 0)) := by decide +kernel
  exact key (n, v) ((Dict.get?_eq_some_iff hwf _ _).1 a1) (n', v') ((Dict.get?_eq_some_iff hwf _ _).1 a2) a3 a4 a5

/-! ### C122 -/

section
variable {ι : Type} [DecidableEq ι]

/-- `jam_solver` on a load that has tied options at the start -/
theorem jamSolverE_start {cmp : α → α → Bool} {E : JamEnv ι α} (hE : E.Ok) {g : Graph α Rat O} (hg : g.Built) {raw : List (RawLoad ι α)}
    (hids : (raw.map RawLoad.id).Nodup) {timeout : Option Rat} {sync first : Bool} {steps : List (List (ι × α × α))}
    (h : jamSolver E g raw timeout sync first = some (.ok steps)) {r : RawLoad ι α} (hr : r ∈ raw) {y y' : α} {d : Rat}
    (h1 : g.edge r.start y = some d) (h2 : g.edge r.start y' = some d) (hne : y ≠ y') (hcmp : cmp y y' = false)
    (n1 : y ∉ raw.map RawLoad.start) (n2 : y' ∉ raw.map RawLoad.start) (p1 : y ∉ r.proh) (p2 : y' ∉ r.proh) :
    jamSolverE cmp E g raw timeout sync first = some (.error .typeError) := by
  unfold jamSolverE
  unfold jamSolver at h
  cases hc : checkUserInput E g raw with
  | none => rw [hc] at h; cases h
  | some x =>
    rw [hc] at h
    cases x with
    | error e => cases h
    | ok loads =>
      dsimp only at h ⊢
      cases ht : newTimer E.clock timeout with
      | error e => rw [ht] at h; cases h
      | ok t =>
        rw [ht] at h
        dsimp only at h ⊢
        cases hm : distMaps E.setOrd g loads with
        | none => rw [hm] at h; cases h
        | some x =>
          rw [hm] at h
          cases x with
          | error e => cases h
          | ok maps =>
            dsimp only at h ⊢
            cases hs : (jamCfg E g loads maps first).solve E.clock t with
            | none => rw [hs] at h; cases h
            | some z =>
              cases z with
              | error e => rw [hs] at h; cases h
              | ok z =>
                have hloads : loads = raw.map (mkLoad E.setOrd) := by
                  unfold checkUserInput at hc
                  rcases buildLoads_spec E.setOrd raw Dict.empty [] hids (by intro r _ h; cases h) with ⟨_, k2⟩ | ⟨_, dd, ns, k2, k3, _⟩
                  · rw [k2] at hc; cases hc
                  · rw [k2] at hc
                    dsimp only at hc
                    split at hc
                    · cases hc
                    · split at hc
                      · split at hc
                        · cases hc
                        · cases hc
                        · cases hc
                          rw [k3]; simp [Dict.empty]
                      · cases hc
                have hte : t.expired = false := by
                  unfold newTimer at ht
                  cases timeout with
                  | none => cases ht; rfl
                  | some x =>
                    dsimp only at ht
                    split at ht
                    · cases ht
                    · cases ht; rfl
                have hstart : ∀ x, x ∉ raw.map RawLoad.start → x ∉ (jamCfg E g loads maps first).start.map Prod.snd := by
                  intro x hx hx'
                  refine hx ?_
                  have e : (jamCfg E g loads maps first).start.map Prod.snd = raw.map RawLoad.start := by
                    show (loads.map (fun l => (l.id, l.start))).map Prod.snd = _
                    rw [hloads, List.map_map, List.map_map]; rfl
                  rw [e] at hx'; exact hx'
                have hfind : (jamCfg E g loads maps first).load? r.id = some (mkLoad E.setOrd r) := by
                  unfold JamCfg.load?
                  show loads.find? _ = _
                  rw [hloads]
                  clear hstart hte hs h hm ht hc hloads
                  induction raw with
                  | nil => cases hr
                  | cons r0 raw ih =>
                    rw [List.map_cons, List.find?_cons]
                    by_cases he : r0.id = r.id
                    · have : r = r0 := by
                        rcases List.mem_cons.1 hr with h | h
                        · exact h
                        · have := (List.nodup_cons.1 hids).1
                          rw [he] at this
                          exact absurd (List.mem_map.2 ⟨r, h, rfl⟩) this
                      subst this
                      rw [show decide ((mkLoad E.setOrd r).id = r.id) = true by simp [mkLoad]]
                    · rw [show decide ((mkLoad E.setOrd r0).id = r.id) = false by simp [mkLoad, he]]
                      rcases List.mem_cons.1 hr with h | h
                      · subst h; exact absurd rfl he
                      · exact ih (List.nodup_cons.1 hids).2 h (fun hh => n1 (List.mem_cons_of_mem _ hh)) (fun hh => n2 (List.mem_cons_of_mem _ hh))
                rw [solveE_start (cmp := cmp) (c := jamCfg E g loads maps first) E.clock hte (k := r.id) (loc := r.start) (y := y) (y' := y') (d := d)
                  (ld := mkLoad E.setOrd r) ?_ hfind ?_ ?_ hne hcmp hs]
                · show (r.id, r.start) ∈ loads.map (fun l => (l.id, l.start))
                  rw [hloads]
                  exact List.mem_map.2 ⟨mkLoad E.setOrd r, List.mem_map.2 ⟨r, hr, rfl⟩, rfl⟩
                · refine mem_options'.2 ⟨?_, hstart _ n1, fun hp => p1 (((mkLoad_ends hE.setOrd r).2.2 y).1 hp)⟩
                  exact List.mem_map.2 ⟨(y, d), hg.inv.mem_outNbr.2 h1, rfl⟩
                · refine mem_options'.2 ⟨?_, hstart _ n2, fun hp => p2 (((mkLoad_ends hE.setOrd r).2.2 y').1 hp)⟩
                  exact List.mem_map.2 ⟨(y', d), hg.inv.mem_outNbr.2 h2, rfl⟩

/-- **C122**, `jam_solver(graph, loads, timeout, synchronous_moves, return_on_first)`, where the moves of a load are sorted by `(distance, node)`: it does
what it does on comparable nodes (C53), or it raises `TypeError`, and then two connections of the same length, both leaving or both entering one node, have
other ends that cannot be compared; and where a plan would be found it does raise `TypeError` if two such connections leave the start of a load and their
other ends are free and not prohibited for the load. -/
theorem C122_jam_solver {cmp : α → α → Bool} {E : JamEnv ι α} (hE : E.Ok) {g : Graph α Rat O} (hg : g.Built) (hw : NonNeg g.edge)
    {raw : List (RawLoad ι α)} (hids : (raw.map RawLoad.id).Nodup) (hst : (raw.map RawLoad.start).Nodup) (timeout : Option Rat) (sync first : Bool) :
    (∃ r, jamSolver E g raw timeout sync first = some r ∧
      (jamSolverE cmp E g raw timeout sync first = some r ∨
        (jamSolverE cmp E g raw timeout sync first = some (.error .typeError) ∧
          ∃ x y y' d, y ≠ y' ∧ cmp y y' = false ∧ ((g.edge x y = some d ∧ g.edge x y' = some d) ∨ (g.edge y x = some d ∧ g.edge y' x = some d))))) ∧
    (∀ steps, jamSolver E g raw timeout sync first = some (.ok steps) → ∀ r ∈ raw, ∀ y y' d,
      g.edge r.start y = some d → g.edge r.start y' = some d → y ≠ y' → cmp y y' = false →
      y ∉ raw.map RawLoad.start → y' ∉ raw.map RawLoad.start → y ∉ r.proh → y' ∉ r.proh →
      jamSolverE cmp E g raw timeout sync first = some (.error .typeError)) := by
  refine ⟨?_, fun steps h r hr y y' d h1 h2 hne hcmp n1 n2 p1 p2 => jamSolverE_start hE hg hids h hr h1 h2 hne hcmp n1 n2 p1 p2⟩
  obtain ⟨r, h1, _⟩ := C53_jam_solver_partial hg hw hE hids hst timeout sync first
  refine ⟨r, h1, ?_⟩
  rcases jamSolverE_cut (cmp := cmp) h1 with h | ⟨⟨rev, loc, y, y', d, a1, a2, a3, a4⟩, h⟩
  · exact .inl h
  · refine .inr ⟨h, loc, y, y', d, a3, a4, ?_⟩
    cases rev with
    | true =>
      simp only [if_true] at a1 a2
      obtain ⟨e1, m1, q1⟩ := List.mem_map.1 a1
      obtain ⟨e2, m2, q2⟩ := List.mem_map.1 a2
      obtain ⟨x1, v1⟩ := e1
      obtain ⟨x2, v2⟩ := e2
      cases q1; cases q2
      exact .inr ⟨hg.inv.mem_inNbr.1 m1, hg.inv.mem_inNbr.1 m2⟩
    | false =>
      simp only [Bool.false_eq_true, if_false] at a1 a2
      obtain ⟨e1, m1, q1⟩ := List.mem_map.1 a1
      obtain ⟨e2, m2, q2⟩ := List.mem_map.1 a2
      obtain ⟨x1, v1⟩ := e1
      obtain ⟨x2, v2⟩ := e2
      cases q1; cases q2
      exact .inl ⟨hg.inv.mem_outNbr.1 m1, hg.inv.mem_outNbr.1 m2⟩

end

/-- a junction 1 with the exits 2 and "a" -/
def junction : Graph Nat Rat Nat := run [W 1 2 1, W 1 100 1]

/-- **C122**: a plan of one move exists and is found if nodes can be compared; otherwise `TypeError` -/
theorem C122_type_error_counterexample : junction.Built ∧ NonNeg junction.edge ∧
    jamSolver plainEnv junction [⟨"x", 1, some [2], none⟩] none true false = some (.ok [[("x", 1, 2)]]) ∧
    jamSolverE sameKind plainEnv junction [⟨"x", 1, some [2], none⟩] none true false = some (.error .typeError) := by
  have hb : junction.Built := ⟨_, rfl⟩
  have hn : NonNeg junction.edge := nonneg_of_edgeList hb (by decide +kernel)
  have h : jamSolver plainEnv junction [⟨"x", 1, some [2], none⟩] none true false = some (.ok [[("x", 1, 2)]]) := jamSolverF_ok (k := 60) (by decide +kernel)
  exact ⟨hb, hn, h, (C122_jam_solver plainEnv_ok hb hn (by decide) (by decide) none true false).2 _ h ⟨"x", 1, some [2], none⟩ (by simp) 2 100 1 (by decide +kernel)
    (by decide +kernel) (by decide) (by decide) (by decide) (by decide) (by decide) (by decide)⟩

end GT

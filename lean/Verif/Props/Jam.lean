import Verif.Other.JamTopProof
import Verif.Other.JamEval
import Verif.Props.Spatial
import Verif.Props.Flow
/-
Properties of the traffic jam solver: C52, C53, C59.
-/
namespace GT
open Graph
variable {ι α O : Type} [DecidableEq ι] [DecidableEq α]

/-! ### C53 -/

/-- the orders are orders, `set.pop` takes an element of the set -/
structure JamEnv.Ok (E : JamEnv ι α) : Prop where
  setOrd : ∀ l, (E.setOrd l).Perm l
  finOrd : ∀ l, (E.finOrd l).Perm l
  pop : ∀ t l, l ≠ [] → E.pop t l ∈ l

/-- input `jam_solver` refuses with `ValueError` -/
def BadInput (g : Graph α Rat O) (raw : List (RawLoad ι α)) (timeout : Option Rat) : Prop :=
  (∃ r ∈ raw, r.ends = some []) ∨ NodeMissing g raw ∨ (∃ r ∈ raw, r.start ∈ r.proh) ∨ ∃ t, timeout = some t ∧ t < 0

/-- what `is_ap_solvable` says about the ends of the loads -/
def endsAssignable (E : JamEnv ι α) (raw : List (RawLoad ι α)) : Bool :=
  isApSolvable E.pop (raw.map (fun r => (r.id, (mkLoad E.setOrd r).ends)))

/-- the connections of the network -/
def conn (g : Graph α Rat O) (x y : α) : Prop := (g.edge x y).isSome = true

/-- what `jam_solver` may do, with the meaning of every outcome -/
def JamOutcome (E : JamEnv ι α) (g : Graph α Rat O) (raw : List (RawLoad ι α)) (timeout : Option Rat) (sync : Bool) :
    Py (List (List (ι × α × α))) → Prop
  | .ok steps => SolvesExceptEnds (conn g) raw steps.flatten ∧ (∀ step ∈ steps, step ≠ [] ∧ (step.map Prod.fst).Nodup) ∧
      (sync = false → ∀ step ∈ steps, step.length = 1) ∧ (placements (startPlacement raw) steps.flatten).Nodup ∧
      ¬ BadInput g raw timeout
  | .error .noSolution => ∀ moves, ¬ Solves (conn g) raw moves
  | .error .unSolvable => (∀ moves, ¬ Solves (conn g) raw moves) ∨ endsAssignable E raw = false ∨ timeout.isSome = true
  | .error .valueError => BadInput g raw timeout
  | .error _ => False

section
variable {E : JamEnv ι α} {g : Graph α Rat O} {raw : List (RawLoad ι α)}

theorem mkLoad_prohibited (hE : E.Ok) (k : ι) (x : α) : (¬ Prohibited (raw.map (mkLoad E.setOrd)) k x) ↔ MayEnter raw k x := by
  unfold Prohibited MayEnter
  constructor
  · intro h r hr hk hx
    exact h ⟨mkLoad E.setOrd r, List.mem_map.2 ⟨r, hr, rfl⟩, hk, ((mkLoad_ends hE.setOrd r).2.2 x).2 hx⟩
  · rintro h ⟨l, hl, hk, hx⟩
    obtain ⟨r, hr, rfl⟩ := List.mem_map.1 hl
    exact h r hr hk (((mkLoad_ends hE.setOrd r).2.2 x).1 hx)

theorem mkLoad_isEnd (hE : E.Ok) (k : ι) (x : α) : IsEnd (raw.map (mkLoad E.setOrd)) k x ↔ IsEndOf raw k x := by
  unfold IsEnd IsEndOf
  constructor
  · rintro ⟨l, hl, hk, hx⟩
    obtain ⟨r, hr, rfl⟩ := List.mem_map.1 hl
    exact ⟨r, hr, hk, ((mkLoad_ends hE.setOrd r).2.1 x).1 hx⟩
  · rintro ⟨r, hr, hk, hx⟩
    exact ⟨mkLoad E.setOrd r, List.mem_map.2 ⟨r, hr, rfl⟩, hk, ((mkLoad_ends hE.setOrd r).2.1 x).2 hx⟩

omit [DecidableEq α] in
theorem Plan.mono {adj : α → α → Prop} {ok ok' : ι → α → Prop} (h : ∀ k x, ok k x → ok' k x) (moves : List (ι × α × α)) : ∀ {s t},
    Plan adj ok s moves t → Plan adj ok' s moves t := by
  induction moves with
  | nil => intro s t hp; exact hp
  | cons m l ih =>
    obtain ⟨k, a, b⟩ := m
    intro s t hp
    exact ⟨hp.1, hp.2.1, hp.2.2.1, h _ _ hp.2.2.2.1, ih hp.2.2.2.2⟩

omit [DecidableEq α] in
theorem Plan.serial {adj : α → α → Prop} {ok : ι → α → Prop} (moves : List (ι × α × α)) : ∀ {s t},
    Plan adj ok s moves t → SerialPlan s moves := by
  induction moves with
  | nil => intro s t hp; exact ⟨s, rfl⟩
  | cons m l ih =>
    obtain ⟨k, a, b⟩ := m
    intro s t hp
    obtain ⟨t', h⟩ := ih hp.2.2.2.2
    exact ⟨t', hp.1, trivial, hp.2.2.1, trivial, h⟩

/-- **C53**, every outcome of `jam_solver`.  For every network with non-negative distances, all loads with different ids that stand on
different nodes, every timeout and clock, every order of sets: the call comes back; a returned plan moves one load after the other along a
connection from where it is into a free node that is not prohibited for it (or is one of its ends), no load twice in a step, and leads
every load to one of its ends; `NoSolution` means that there is no plan; `UnSolvable` means that there is none, or that
`is_ap_solvable` said so, or that a timeout was given; `ValueError` means bad input; nothing else is raised. -/
theorem C53_jam_solver_partial (hg : g.Built) (hw : NonNeg g.edge) (hE : E.Ok) (hids : (raw.map RawLoad.id).Nodup)
    (hst : (raw.map RawLoad.start).Nodup) (timeout : Option Rat) (sync first : Bool) :
    ∃ r, jamSolver E g raw timeout sync first = some r ∧ JamOutcome E g raw timeout sync r := by
  unfold jamSolver checkUserInput
  rcases buildLoads_spec E.setOrd raw Dict.empty [] hids (by intro r _ h; cases h) with ⟨h1, h2⟩ | ⟨h1, d, ns, h2, h3, h4⟩
  · rw [h2]; exact ⟨_, rfl, .inl h1⟩
  · rw [h2]
    dsimp only
    have hloads : d.items.map Prod.snd = raw.map (mkLoad E.setOrd) := by
      rw [h3]; simp [Dict.empty]
    rw [hloads]
    have hns : ∀ x, x ∈ ns ↔ ∃ r ∈ raw, x = r.start ∨ x ∈ (mkLoad E.setOrd r).ends := by intro x; rw [h4]; simp
    by_cases hm : nodesMissing g ns (raw.map (mkLoad E.setOrd)) = true
    · rw [if_pos hm]
      exact ⟨_, rfl, .inr (.inl ((nodesMissing_iff hE.setOrd hns).1 hm))⟩
    · rw [if_neg hm]
      have hnm : ¬ NodeMissing g raw := fun h => hm ((nodesMissing_iff hE.setOrd hns).2 h)
      have hasg : (raw.map (mkLoad E.setOrd)).map (fun ld => (ld.id, ld.ends)) = raw.map (fun r => (r.id, (mkLoad E.setOrd r).ends)) := by
        rw [List.map_map]; rfl
      rw [hasg]
      have hhasS : ∀ r ∈ raw, g.has r.start = true := by
        intro r hr
        cases hh : g.has r.start with
        | true => rfl
        | false => exact absurd ⟨r, hr, .inl hh⟩ hnm
      have hhasE : ∀ r ∈ raw, ∀ x ∈ r.endSet, g.has x = true := by
        intro r hr x hx
        cases hh : g.has x with
        | true => rfl
        | false => exact absurd ⟨r, hr, .inr ⟨x, hx, hh⟩⟩ hnm
      by_cases ha : isApSolvable E.pop (raw.map (fun r => (r.id, (mkLoad E.setOrd r).ends))) = true
      · rw [if_pos ha]
        obtain ⟨rp, h5, h6⟩ := checkPaths_spec hg (raw.map (mkLoad E.setOrd)) (by
          intro l hl; obtain ⟨r, hr, rfl⟩ := List.mem_map.1 hl; exact hhasS r hr)
        rw [h5]
        rcases h6 with ⟨rfl, h6⟩ | ⟨rfl, l, hl, h6⟩ | ⟨rfl, l, hl, h6, h7⟩
        · dsimp only
          cases ht : newTimer E.clock timeout with
          | error e =>
            dsimp only
            unfold newTimer at ht
            cases timeout with
            | none => cases ht
            | some t =>
              dsimp only at ht
              split at ht
              · rename_i hneg
                cases ht
                exact ⟨_, rfl, .inr (.inr (.inr ⟨t, rfl, hneg⟩))⟩
              · cases ht
          | ok tm =>
            dsimp only
            have htm : tm.expired = false ∧ (timeout = none → tm.limit = .inf) ∧ ¬ ∃ t, timeout = some t ∧ t < 0 := by
              unfold newTimer at ht
              cases timeout with
              | none => cases ht; exact ⟨rfl, fun _ => rfl, by rintro ⟨t, h, _⟩; cases h⟩
              | some t =>
                dsimp only at ht
                split at ht
                · cases ht
                · rename_i hneg
                  cases ht
                  exact ⟨rfl, (fun h => nomatch h), by rintro ⟨t', h, h'⟩; cases h; exact hneg h'⟩
            have hgood : ¬ BadInput g raw timeout := by
              rintro (⟨r, hr, h⟩ | h | ⟨r, hr, h⟩ | h)
              · exact h1 r hr h
              · exact hnm h
              · exact (h6 _ (List.mem_map.2 ⟨r, hr, rfl⟩)).1 (((mkLoad_ends hE.setOrd r).2.2 _).2 h)
              · exact htm.2.2 h
            obtain ⟨maps, h7⟩ := distMaps_ok hg hE.setOrd (raw.map (mkLoad E.setOrd)) (by
              intro l hl x hx
              obtain ⟨r, hr, rfl⟩ := List.mem_map.1 hl
              exact hhasE r hr x (((mkLoad_ends hE.setOrd r).2.1 x).1 hx))
            rw [h7]
            dsimp only
            generalize hc : jamCfg E g (raw.map (mkLoad E.setOrd)) maps first = c
            have hcl : c.loads = raw.map (mkLoad E.setOrd) := by rw [← hc]; rfl
            have hcg : c.graph = g := by rw [← hc]; rfl
            have hco : c.ord = E.finOrd := by rw [← hc]; rfl
            have hidl : (raw.map (mkLoad E.setOrd)).map Load.id = raw.map RawLoad.id := by rw [List.map_map]; rfl
            have hok : JamOk c := by
              refine ⟨by rw [hcg]; exact hg, by rw [hcg]; exact hw, by rw [hcl, hidl]; exact hids, ?_, ?_, ?_, by rw [hco]; exact hE.finOrd⟩
              · rw [hcl, hcg]; intro l hl; obtain ⟨r, hr, rfl⟩ := List.mem_map.1 hl; exact hhasS r hr
              · rw [hcl, hcg]; intro l hl x hx; obtain ⟨r, hr, rfl⟩ := List.mem_map.1 hl
                exact hhasE r hr x (((mkLoad_ends hE.setOrd r).2.1 x).1 hx)
              · rw [hcl]; intro l hl; obtain ⟨r, hr, rfl⟩ := List.mem_map.1 hl; exact (mkLoad_ends hE.setOrd r).1
            have hstart : c.start = startPlacement raw := by
              unfold JamCfg.start startPlacement; rw [hcl, List.map_map]; rfl
            have hdist : Distinct (startPlacement raw) := by
              unfold Distinct startPlacement
              rw [List.map_map, List.map_map]
              exact ⟨hids, hst⟩
            have hfinal : ∀ t, c.IsFinal t ↔ AllAtEnds raw t ∧ (t.map Prod.snd).Nodup := by
              intro t
              unfold JamCfg.IsFinal AllAtEnds
              rw [hcl, hidl, and_assoc]
              refine and_congr_right fun _ => and_congr_left fun _ => ?_
              exact forall_congr' fun p => imp_congr_right fun _ => mkLoad_isEnd hE p.1 p.2
            have hnone : ∀ {t'}, (t'.expired = false → ∀ moves s, c.IsFinal s →
                ¬ Plan (fun x y => (c.graph.edge x y).isSome = true) (fun k x => ¬ Prohibited c.loads k x) c.start moves s) →
                (tm.limit = .inf → tm.expired = false → t'.expired = false) →
                JamOutcome E g raw timeout sync (.error (if (Timer.check E.clock t').1 = true then .unSolvable else .noSolution)) := by
              intro t' hn he
              have hno : t'.expired = false → ∀ moves, ¬ Solves (conn g) raw moves := by
                rintro hx moves ⟨t, hp, hte⟩
                refine hn hx moves t ((hfinal t).2 ⟨hte, (plan_end moves hdist hp).2.2⟩) ?_
                rw [hcg, hstart, hcl]
                exact hp.mono (fun k x h => (mkLoad_prohibited hE k x).2 h)
              rw [(check_spec E.clock t').1]
              cases hx : t'.expired with
              | false => simpa [JamOutcome] using hno hx
              | true =>
                simp only [if_true, JamOutcome]
                refine .inr (.inr ?_)
                cases timeout with
                | some t => rfl
                | none =>
                  have := he (htm.2.1 rfl) htm.1
                  rw [hx] at this; cases this
            obtain ⟨r, t', h8, h9, h10⟩ := solve_spec hok E.clock tm
            rw [h8]
            rcases h10 with ⟨rfl, h10⟩ | ⟨d0, p, e, rfl, h10, h11, h12, hpn, h13⟩
            · dsimp only
              exact ⟨_, rfl, hnone h10 h9⟩
            · dsimp only
              cases p with
              | nil => simp at h11
              | cons s0 l =>
                rw [if_neg (by simp)]
                simp only [List.head?_cons, Option.some.injEq] at h11
                subst h11
                obtain ⟨t, h14, h15, h16, hpl⟩ := ptmLoop_plan l c.start (by rw [hstart]; exact hdist.1) h13
                rw [h12] at h14
                cases h14
                simp only [pathToMoves]
                have hplan : SolvesExceptEnds (conn g) raw (ptmLoop c.start l) := by
                  refine ⟨e, ?_, ((hfinal e).1 h10).1⟩
                  rw [hcg, hstart] at h15
                  rw [hstart]
                  refine h15.mono ?_
                  intro k x hk
                  unfold JamCfg.okEnd at hk
                  rw [hcl] at hk
                  rcases hk with hk | hk
                  · exact .inl ((mkLoad_prohibited hE k x).1 hk)
                  · exact .inr ((mkLoad_isEnd hE k x).1 hk)
                have hnd : (placements (startPlacement raw) (ptmLoop c.start l)).Nodup := by
                  rw [← hstart, hpl]; exact hpn
                cases sync with
                | false =>
                  simp only [Bool.false_eq_true, if_false]
                  refine ⟨_, rfl, ?_, ?_, ?_, ?_, hgood⟩
                  · have : ((ptmLoop c.start l).map (fun m => [m])).flatten = ptmLoop c.start l := by
                      rw [← List.flatMap_def, List.flatMap_singleton']
                    rw [this]; exact hplan
                  · intro step hs; obtain ⟨m, _, rfl⟩ := List.mem_map.1 hs; simp
                  · intro _ step hs; obtain ⟨m, _, rfl⟩ := List.mem_map.1 hs; rfl
                  · have : ((ptmLoop c.start l).map (fun m => [m])).flatten = ptmLoop c.start l := by
                      rw [← List.flatMap_def, List.flatMap_singleton']
                    rw [this]; exact hnd
                | true =>
                  simp only [if_true]
                  have hser : SerialPlan (startPlacement raw) (ptmLoop c.start l) := by
                    obtain ⟨_, hp, _⟩ := hplan; exact hp.serial
                  obtain ⟨r, h17, h18, h19, _⟩ := synchronousMoves_serial hdist hser
                  have hss : (raw.map (mkLoad E.setOrd)).map Load.start = (startPlacement raw).map Prod.snd := by
                    unfold startPlacement; rw [List.map_map, List.map_map]; rfl
                  rw [hss, h17]
                  refine ⟨_, rfl, ?_, h19, (fun h => nomatch h), ?_, hgood⟩
                  · rw [h18]; exact hplan
                  · rw [h18]; exact hnd
        · refine ⟨_, rfl, .inr (.inr (.inl ?_))⟩
          obtain ⟨r, hr, rfl⟩ := List.mem_map.1 hl
          exact ⟨r, hr, ((mkLoad_ends hE.setOrd r).2.2 _).1 h6⟩
        · refine ⟨_, rfl, .inl ?_⟩
          rintro moves ⟨t, hp, hte⟩
          obtain ⟨r, hr, rfl⟩ := List.mem_map.1 hl
          obtain ⟨b, h8, h9⟩ := plan_way moves (s := startPlacement raw) (k := r.id) (a := r.start)
            (by unfold startPlacement; rw [List.map_map]; exact hids) (List.mem_map.2 ⟨r, hr, rfl⟩) hp
          have h10 : Reach (fun x y => (g.edge x y).isSome = true ∧ y ∉ (mkLoad E.setOrd r).prohibited) r.start b :=
            h9.mono (fun x y hxy => ⟨hxy.1, fun hin => hxy.2 r hr rfl (((mkLoad_ends hE.setOrd r).2.2 y).1 hin)⟩)
          obtain ⟨r', hr', hid, hb⟩ := hte.2 _ h8
          have : r' = r := by
            have := hids
            clear h6 h7 h8 h9 h10 hp hb hl
            generalize raw = L at this hr hr'
            induction L with
            | nil => cases hr
            | cons x L ih =>
              rw [List.map_cons, List.nodup_cons] at this
              rcases List.mem_cons.1 hr with e1 | e1
              · rcases List.mem_cons.1 hr' with e2 | e2
                · exact e2.trans e1.symm
                · exact absurd (List.mem_map.2 ⟨r', e2, by rw [← e1]; exact hid⟩) this.1
              · rcases List.mem_cons.1 hr' with e2 | e2
                · exact absurd (List.mem_map.2 ⟨r, e1, by rw [← e2]; exact hid.symm⟩) this.1
                · exact ih this.2 e1 e2
          subst this
          exact h7 ⟨b, ((mkLoad_ends hE.setOrd r').2.1 b).2 hb, (reach_avoids h6 h10).1⟩
      · rw [if_neg ha]
        exact ⟨_, rfl, .inr (.inl (by unfold endsAssignable; simpa using ha))⟩

/-- no end of a load is prohibited for it -/
def EndsAllowed (raw : List (RawLoad ι α)) : Prop := ∀ r ∈ raw, ∀ x ∈ r.endSet, x ∉ r.proh

omit [DecidableEq ι] [DecidableEq α] in
theorem raw_unique {raw : List (RawLoad ι α)} (h : (raw.map RawLoad.id).Nodup) {r r' : RawLoad ι α} (hr : r ∈ raw) (hr' : r' ∈ raw)
    (hid : r'.id = r.id) : r' = r := by
  induction raw with
  | nil => cases hr
  | cons x L ih =>
    rw [List.map_cons, List.nodup_cons] at h
    rcases List.mem_cons.1 hr with e1 | e1
    · rcases List.mem_cons.1 hr' with e2 | e2
      · exact e2.trans e1.symm
      · exact absurd (List.mem_map.2 ⟨r', e2, by rw [← e1]; exact hid⟩) h.1
    · rcases List.mem_cons.1 hr' with e2 | e2
      · exact absurd (List.mem_map.2 ⟨r, e1, by rw [← e2]; exact hid.symm⟩) h.1
      · exact ih h.2 e1 e2

/-- **C53**, soundness, if no end of a load is prohibited for it: the plan never enters a prohibited node. -/
theorem C53_jam_solver_sound (hg : g.Built) (hw : NonNeg g.edge) (hE : E.Ok) (hids : (raw.map RawLoad.id).Nodup)
    (hst : (raw.map RawLoad.start).Nodup) (hends : EndsAllowed raw) {timeout : Option Rat} {sync first : Bool} {steps : List (List (ι × α × α))}
    (h : jamSolver E g raw timeout sync first = some (.ok steps)) : Solves (conn g) raw steps.flatten := by
  obtain ⟨r, h1, h2⟩ := C53_jam_solver_partial hg hw hE hids hst timeout sync first
  rw [h] at h1
  cases h1
  obtain ⟨⟨t, h3, h4⟩, _⟩ := h2
  refine ⟨t, h3.mono ?_, h4⟩
  rintro k x (hk | ⟨r, hr, rfl, hx⟩)
  · exact hk
  · intro r' hr' hid
    rw [raw_unique hids hr hr' hid]
    exact hends r hr x hx

/-- **C53**, completeness, if the ends of any two loads are disjoint or one set contains the other (for instance if every load has one
end): without timeout, a plan is returned whenever there is one. -/
theorem C53_jam_solver_complete (hg : g.Built) (hw : NonNeg g.edge) (hE : E.Ok) (hids : (raw.map RawLoad.id).Nodup)
    (hst : (raw.map RawLoad.start).Nodup)
    (hlam : ∀ r ∈ raw, ∀ r' ∈ raw, (∀ x ∈ r.endSet, x ∉ r'.endSet) ∨ (∀ x ∈ r.endSet, x ∈ r'.endSet) ∨ (∀ x ∈ r'.endSet, x ∈ r.endSet))
    (hin : ¬ BadInput g raw none) {moves : List (ι × α × α)} (hs : Solves (conn g) raw moves) (sync first : Bool) :
    ∃ steps, jamSolver E g raw none sync first = some (.ok steps) := by
  obtain ⟨r, h1, h2⟩ := C53_jam_solver_partial hg hw hE hids hst none sync first
  cases r with
  | ok steps => exact ⟨steps, h1⟩
  | error e =>
    exfalso
    cases e with
    | noSolution => exact h2 moves hs
    | valueError => exact hin h2
    | unSolvable =>
      rcases h2 with h2 | h2 | h2
      · exact h2 moves hs
      · obtain ⟨t, hp, h3, h4⟩ := hs
        have hdist : Distinct (startPlacement raw) := by
          unfold Distinct startPlacement
          rw [List.map_map, List.map_map]
          exact ⟨hids, hst⟩
        obtain ⟨_, hd1, hd2⟩ := plan_end moves hdist hp
        have hasg : Assignable (raw.map (fun r => (r.id, (mkLoad E.setOrd r).ends))) := by
          have hf : ∀ r ∈ raw, ∃ x, (r.id, x) ∈ t ∧ x ∈ r.endSet := by
            intro r hr
            have : r.id ∈ t.map Prod.fst := by rw [h3]; exact List.mem_map.2 ⟨r, hr, rfl⟩
            obtain ⟨⟨k, x⟩, hm, hk⟩ := List.mem_map.1 this
            dsimp only at hk; subst hk
            obtain ⟨r', hr', hid, hx⟩ := h4 _ hm
            rw [raw_unique hids hr hr' hid] at hx
            exact ⟨x, hm, hx⟩
          refine ⟨fun k => (t.find? (fun p => decide (p.1 = k))).map Prod.snd, ?_, ?_⟩
          · intro p hp'
            obtain ⟨r, hr, rfl⟩ := List.mem_map.1 hp'
            obtain ⟨x, hm, hx⟩ := hf r hr
            refine ⟨x, ((mkLoad_ends hE.setOrd r).2.1 x).2 hx, ?_⟩
            dsimp only
            cases hfd : t.find? (fun p => decide (p.1 = r.id)) with
            | none => exact absurd (List.find?_eq_none.1 hfd _ hm) (by simp)
            | some q =>
              obtain ⟨k, y⟩ := q
              have hk : k = r.id := by simpa using List.find?_some hfd
              have hq := List.mem_of_find?_eq_some hfd
              subst hk
              rw [place_unique hd1 hm hq]; rfl
          · intro p hp' q hq hne
            obtain ⟨r, hr, rfl⟩ := List.mem_map.1 hp'
            obtain ⟨r', hr', rfl⟩ := List.mem_map.1 hq
            dsimp only at hne ⊢
            intro heq
            obtain ⟨x, hm, _⟩ := hf r hr
            cases hfd : t.find? (fun p => decide (p.1 = r.id)) with
            | none => exact absurd (List.find?_eq_none.1 hfd _ hm) (by simp)
            | some a =>
              obtain ⟨k, y⟩ := a
              have hk : k = r.id := by simpa using List.find?_some hfd
              have hqa := List.mem_of_find?_eq_some hfd
              rw [hfd] at heq
              cases hfd2 : t.find? (fun p => decide (p.1 = r'.id)) with
              | none => rw [hfd2] at heq; cases heq
              | some b =>
                obtain ⟨k', y'⟩ := b
                have hk' : k' = r'.id := by simpa using List.find?_some hfd2
                have hqb := List.mem_of_find?_eq_some hfd2
                rw [hfd2] at heq
                simp only [Option.map_some, Option.some.injEq] at heq
                subst heq
                exact hne (hk.symm.trans ((place_unique' hd2 hqa hqb).trans hk'))
        have := isApSolvable_complete hE.pop (asg := raw.map (fun r => (r.id, (mkLoad E.setOrd r).ends))) (by rw [List.map_map]; exact hids) (by
          intro p hp'; obtain ⟨r, hr, rfl⟩ := List.mem_map.1 hp'; exact (mkLoad_ends hE.setOrd r).1) (by
          intro p hp' q hq
          obtain ⟨r, hr, rfl⟩ := List.mem_map.1 hp'
          obtain ⟨r', hr', rfl⟩ := List.mem_map.1 hq
          have e1 := (mkLoad_ends hE.setOrd r).2.1
          have e2 := (mkLoad_ends hE.setOrd r').2.1
          dsimp only
          rcases hlam r hr r' hr' with h | h | h
          · exact .inl fun x hx hx' => h x ((e1 x).1 hx) ((e2 x).1 hx')
          · exact .inr (.inl fun x hx => (e2 x).2 (h x ((e1 x).1 hx)))
          · exact .inr (.inr fun x hx => (e1 x).2 (h x ((e2 x).1 hx)))) hasg
        unfold endsAssignable at h2
        rw [this] at h2; cases h2
      · cases h2
    | _ => exact h2

/-- **C53**: `return_on_first` has no effect whatsoever; the search is always exhausted. -/
theorem C53_return_on_first_has_no_effect (E : JamEnv ι α) (g : Graph α Rat O) (raw : List (RawLoad ι α)) (timeout : Option Rat) (sync : Bool) :
    jamSolver E g raw timeout sync true = jamSolver E g raw timeout sync false := by
  have h : ∀ loads maps t, (jamCfg E g loads maps true).solve E.clock t = (jamCfg E g loads maps false).solve E.clock t :=
    fun loads maps t => (solve_first (jamCfg E g loads maps true) false E.clock t).symm
  unfold jamSolver
  simp only [h]

end

/-! ### concrete jams -/

/-- insertion orders; a clock that stands still -/
def plainEnv : JamEnv String Nat := ⟨id, popHead, id, natLt, fun _ => 0⟩

theorem plainEnv_ok : plainEnv.Ok := ⟨fun _ => .refl _, fun _ => .refl _, popHead_mem⟩

/-- a line 1 - 2 - 3 in both directions, with a siding 4 at 2 -/
def siding : Graph Nat Rat Nat := run [W 1 2 1, W 2 1 1, W 2 3 1, W 3 2 1, W 2 4 1, W 4 2 1]

/-- two loads that change places with the help of the siding -/
def swapJam : List (RawLoad String Nat) := [⟨"a", 1, some [3], none⟩, ⟨"b", 3, some [1], none⟩]

/-- the hypotheses of the theorems hold, and the solver finds the plan of six moves in four steps -/
example : siding.Built ∧ NonNeg siding.edge ∧ plainEnv.Ok ∧ (swapJam.map RawLoad.id).Nodup ∧ (swapJam.map RawLoad.start).Nodup ∧
    jamSolver plainEnv siding swapJam none true false =
      some (.ok [[("a", 1, 2)], [("a", 2, 4), ("b", 3, 2)], [("b", 2, 1), ("a", 4, 2)], [("a", 2, 3)]]) :=
  ⟨⟨_, rfl⟩, nonneg_of_edgeList ⟨_, rfl⟩ (by decide +kernel), plainEnv_ok, by decide, by decide, jamSolverF_ok (k := 60) (by decide +kernel)⟩

example : EndsAllowed swapJam := by unfold EndsAllowed; decide

omit [DecidableEq ι] in
theorem free_iff {s : Placement ι α} {b : α} : Free s b ↔ b ∉ s.map Prod.snd := by
  constructor
  · intro h hm
    obtain ⟨⟨j, x⟩, hp, rfl⟩ := List.mem_map.1 hm
    exact h j hp
  · intro h j hj; exact h (List.mem_map.2 ⟨_, hj, rfl⟩)

/-- a check of a plan, for examples -/
def planCheck (adj : α → α → Bool) (ok : ι → α → Bool) : Placement ι α → List (ι × α × α) → Option (Placement ι α)
  | s, [] => some s
  | s, (k, a, b) :: l => if (k, a) ∈ s ∧ adj a b = true ∧ b ∉ s.map Prod.snd ∧ ok k b = true then planCheck adj ok (moveTo k b s) l else none

theorem planCheck_ok {adj : α → α → Bool} {ok : ι → α → Bool} (l : List (ι × α × α)) : ∀ {s t}, planCheck adj ok s l = some t →
    Plan (fun x y => adj x y = true) (fun k x => ok k x = true) s l t := by
  induction l with
  | nil => intro s t h; cases h; rfl
  | cons m l ih =>
    obtain ⟨k, a, b⟩ := m
    intro s t h
    unfold planCheck at h
    split at h
    · rename_i hc
      exact ⟨hc.1, hc.2.1, free_iff.2 hc.2.2.1, hc.2.2.2, ih h⟩
    · cases h

/-- is the plan a solution? -/
def solvesB (g : Graph α Rat O) (raw : List (RawLoad ι α)) (moves : List (ι × α × α)) : Bool :=
  match planCheck (fun x y => (g.edge x y).isSome) (fun k x => raw.all (fun r => decide (r.id ≠ k ∨ x ∉ r.proh))) (startPlacement raw) moves with
  | none => false
  | some t => decide (t.map Prod.fst = raw.map RawLoad.id) && t.all (fun p => raw.any (fun r => decide (r.id = p.1 ∧ p.2 ∈ r.endSet)))

theorem solvesB_ok {g : Graph α Rat O} {raw : List (RawLoad ι α)} {moves : List (ι × α × α)} (h : solvesB g raw moves = true) :
    Solves (conn g) raw moves := by
  unfold solvesB at h
  split at h
  · cases h
  · rename_i t ht
    rw [Bool.and_eq_true] at h
    refine ⟨t, (planCheck_ok moves ht).mono ?_, by simpa using h.1, ?_⟩
    · intro k x hk r hr hid
      have := List.all_eq_true.1 hk r hr
      simp only [decide_eq_true_eq] at this
      rcases this with h | h
      · exact absurd hid h
      · exact h
    · intro p hp
      have := List.all_eq_true.1 h.2 p hp
      rw [List.any_eq_true] at this
      obtain ⟨r, hr, h2⟩ := this
      simp only [decide_eq_true_eq] at h2
      exact ⟨r, hr, h2⟩

/-- the hypotheses of the completeness theorem hold as well -/
example : ¬ BadInput siding swapJam none ∧ Solves (conn siding) swapJam [("b", 3, 2), ("b", 2, 4), ("a", 1, 2), ("a", 2, 3), ("b", 4, 2), ("b", 2, 1)] := by
  refine ⟨?_, solvesB_ok (by decide +kernel)⟩
  unfold BadInput NodeMissing
  rintro (h | h | h | ⟨t, h, _⟩)
  · revert h; decide +kernel
  · revert h; decide +kernel
  · revert h; decide +kernel
  · cases h

/-- **C53** is violated: a prohibited node that is also an end is entered, although the load could go to its other end. -/
theorem C53_prohibited_end_counterexample : ∃ (g : Graph Nat Rat Nat) (raw : List (RawLoad String Nat)) (steps : List (List (String × Nat × Nat))),
    g.Built ∧ NonNeg g.edge ∧ jamSolver plainEnv g raw none true false = some (.ok steps) ∧ ¬ Solves (conn g) raw steps.flatten ∧
    ∃ moves, Solves (conn g) raw moves := by
  refine ⟨run [W 1 2 1, W 1 3 1, W 3 5 1], [⟨"a", 1, some [2, 5], some [2]⟩], [[("a", 1, 2)]], ⟨_, rfl⟩,
    nonneg_of_edgeList ⟨_, rfl⟩ (by decide +kernel), jamSolverF_ok (k := 60) (by decide +kernel), ?_,
    [("a", 1, 3), ("a", 3, 5)], solvesB_ok (by decide +kernel)⟩
  rintro ⟨t, ⟨_, _, _, h, _⟩, _⟩
  exact h ⟨"a", 1, some [2, 5], some [2]⟩ (by simp) rfl (by decide)

/-- **C53** is violated: a jam with a plan is refused (`UnSolvable`), because `is_ap_solvable` is greedy. -/
theorem C53_greedy_ends_counterexample : ∃ (g : Graph Nat Rat Nat) (raw : List (RawLoad String Nat)),
    g.Built ∧ NonNeg g.edge ∧ jamSolver plainEnv g raw none true false = some (.error .unSolvable) ∧ ∃ moves, Solves (conn g) raw moves := by
  refine ⟨run [W 4 1 1, W 4 3 1, W 5 1 1, W 5 2 1, W 6 1 1, W 6 2 1],
    [⟨"a", 4, some [1, 3], none⟩, ⟨"b", 5, some [1, 2], none⟩, ⟨"c", 6, some [1, 2], none⟩], ⟨_, rfl⟩,
    nonneg_of_edgeList ⟨_, rfl⟩ (by decide +kernel), jamSolverF_ok (k := 60) (by decide +kernel),
    [("a", 4, 3), ("b", 5, 1), ("c", 6, 2)], solvesB_ok (by decide +kernel)⟩

/-- **C53** without different start nodes: two loads on one node; the serial plan is found, translating it to synchronous moves raises
`KeyError`. -/
theorem C53_equal_starts_counterexample : ∃ (g : Graph Nat Rat Nat) (raw : List (RawLoad String Nat)) (steps : List (List (String × Nat × Nat))),
    g.Built ∧ NonNeg g.edge ∧ jamSolver plainEnv g raw none false false = some (.ok steps) ∧
    jamSolver plainEnv g raw none true false = some (.error .keyError) := by
  refine ⟨run [W 1 2 1, W 1 3 1], [⟨"a", 1, some [2], none⟩, ⟨"b", 1, some [3], none⟩], [[("a", 1, 2)], [("b", 1, 3)]], ⟨_, rfl⟩,
    nonneg_of_edgeList ⟨_, rfl⟩ (by decide +kernel), jamSolverF_ok (k := 60) (by decide +kernel), jamSolverF_ok (k := 60) (by decide +kernel)⟩

/-! ### C59 -/

/-- the total distance of the moves -/
def movesCost (g : Graph α Rat O) (moves : List (ι × α × α)) : Rat := (moves.map (fun m => (g.edge m.2.1 m.2.2).getD 0)).sum

/-- **C59** is violated: the plan that is returned has distance 6, the best plan 5.  (The search of one direction does not continue from
states the other direction visited, so that a best plan that leaves and enters the visited states again is not recorded.) -/
theorem C59_not_minimum_counterexample : ∃ (g : Graph Nat Rat Nat) (raw : List (RawLoad String Nat)) (steps : List (List (String × Nat × Nat)))
    (better : List (String × Nat × Nat)),
    g.Built ∧ NonNeg g.edge ∧ jamSolver plainEnv g raw none true false = some (.ok steps) ∧ movesCost g steps.flatten = 6 ∧
    Solves (conn g) raw better ∧ movesCost g better = 5 := by
  refine ⟨run [W 4 7 1, W 2 4 1, W 4 3 3, W 7 3 1, W 1 2 1, W 3 8 1, W 1 7 4], [⟨"a", 1, some [8], none⟩],
    [[("a", 1, 2)], [("a", 2, 4)], [("a", 4, 3)], [("a", 3, 8)]], [("a", 1, 2), ("a", 2, 4), ("a", 4, 7), ("a", 7, 3), ("a", 3, 8)], ⟨_, rfl⟩,
    nonneg_of_edgeList ⟨_, rfl⟩ (by decide +kernel), jamSolverF_ok (k := 60) (by decide +kernel), by decide +kernel,
    solvesB_ok (by decide +kernel), by decide +kernel⟩

/-- **C59**, what holds: a returned plan never comes back to a placement it has left (so no part of it is a mere detour back to the same
placement).  Missing, because false: minimum distance. -/
theorem C59_no_repetition_partial {E : JamEnv ι α} {g : Graph α Rat O} {raw : List (RawLoad ι α)} (hg : g.Built) (hw : NonNeg g.edge) (hE : E.Ok) (hids : (raw.map RawLoad.id).Nodup)
    (hst : (raw.map RawLoad.start).Nodup) (timeout : Option Rat) (sync first : Bool) {steps : List (List (ι × α × α))}
    (h : jamSolver E g raw timeout sync first = some (.ok steps)) : (placements (startPlacement raw) steps.flatten).Nodup := by
  obtain ⟨r, h1, h2⟩ := C53_jam_solver_partial hg hw hE hids hst timeout sync first
  rw [h] at h1
  cases h1
  exact h2.2.2.2.1

example : placements (startPlacement [(⟨"a", 1, some [8], none⟩ : RawLoad String Nat)])
    ([[("a", 1, 2)], [("a", 2, 4)], [("a", 4, 3)], [("a", 3, 8)]] : List (List (String × Nat × Nat))).flatten =
    [[("a", 1)], [("a", 2)], [("a", 4)], [("a", 3)], [("a", 8)]] := by decide +kernel

/-! ### C52 -/

/-- **C52**, `path_to_moves`: for a path of states of the same loads, the moves are, pair of consecutive states after pair, exactly the
changes of position, each load at most once per pair; an empty path raises `IndexError`. -/
theorem C52_path_to_moves (s : Placement ι α) (path : List (Placement ι α)) (hnd : (s.map Prod.fst).Nodup)
    (hsame : ∀ t ∈ path, t.map Prod.fst = s.map Prod.fst) :
    pathToMoves ([] : List (Placement ι α)) = .error .indexError ∧
    ∃ parts : List (List (ι × α × α)), pathToMoves (s :: path) = .ok parts.flatten ∧ parts.length = path.length ∧
      ∀ i t t' part, (s :: path)[i]? = some t → (s :: path)[i + 1]? = some t' → parts[i]? = some part →
        (∀ k a b, (k, a, b) ∈ part ↔ (k, a) ∈ t ∧ (k, b) ∈ t' ∧ a ≠ b) ∧ (part.map Prod.fst).Nodup := by
  obtain ⟨parts, h1, h2, h3⟩ := ptmLoop_parts path s
  refine ⟨rfl, parts, by simp only [pathToMoves, h1], h2, ?_⟩
  intro i t t' part ht ht' hp
  have hall : ∀ x ∈ s :: path, x.map Prod.fst = s.map Prod.fst := by
    intro x hx
    rcases List.mem_cons.1 hx with rfl | hx
    · rfl
    · exact hsame x hx
  have e1 := hall t (List.mem_of_getElem? ht)
  have e2 := hall t' (List.mem_of_getElem? ht')
  rw [h3 i t t' part ht ht' hp]
  refine ⟨mem_stateChanges (e1.trans e2.symm) (by rw [e1]; exact hnd), ?_⟩
  exact (stateChanges_loads t t').nodup (by rw [e1]; exact hnd)

example : pathToMoves [[("a", 1), ("b", 3)], [("a", 2), ("b", 3)], [("a", 4), ("b", 2)]] = .ok [("a", 1, 2), ("a", 2, 4), ("b", 3, 2)] := by decide

/-- **C52**, `moves_to_synchronous_moves`: for loads on different nodes and every serial plan (each move starts where the load is and goes
to a node that is free at that moment), the loop ends; the steps, one after the other, are the moves in their order; no step is empty or
moves a load twice; every step but the first begins with a load that moved in the step before.  In particular every move of a step, made
in this order, goes to a node that is free. -/
theorem C52_synchronous_moves {s : Placement ι α} {moves : List (ι × α × α)} (hd : Distinct s) (hp : SerialPlan s moves) :
    ∃ steps, synchronousMoves moves (s.map Prod.snd) = some (.ok steps) ∧ steps.flatten = moves ∧
      (∀ step ∈ steps, step ≠ [] ∧ (step.map Prod.fst).Nodup) ∧ Consec StartsOver steps :=
  synchronousMoves_serial hd hp

example : Distinct [("a", 1), ("b", 3)] ∧ SerialPlan [("a", 1), ("b", 3)] [("a", 1, 2), ("a", 2, 4), ("b", 3, 2)] ∧
    synchronousMoves [("a", 1, 2), ("a", 2, 4), ("b", 3, 2)] [1, 3] = some (.ok [[("a", 1, 2)], [("a", 2, 4), ("b", 3, 2)]]) := by
  refine ⟨by unfold Distinct; decide, ⟨[("a", 4), ("b", 2)], ?_⟩, ?_⟩
  · have := planCheck_ok (adj := fun _ _ => true) (ok := fun _ _ => true) (s := [("a", 1), ("b", 3)]) (t := [("a", 4), ("b", 2)]) [("a", 1, 2), ("a", 2, 4), ("b", 3, 2)] (by decide)
    simpa using this
  · exact pyWhile_of_runFuel (n := 10) (by decide)

/-- **C52**: for moves that are not a serial plan the loop need not end: a load that has to go where another load stays. -/
theorem C52_blocked_move_loops : synchronousMoves [("a", 1, 2)] [1, 2] = none := by
  unfold synchronousMoves
  refine pyWhile_diverges (fun s => s.1 = [1, 2] ∧ s.2.1 = [("a", 1, 2)]) ?_ ⟨rfl, rfl⟩
  rintro ⟨occ, mv, acc⟩ ⟨rfl, rfl⟩
  exact ⟨_, rfl, rfl, rfl⟩

/-- **C52**, `moves_to_synchronous_moves` for any list of moves, in any order: there are three cases.
Either it returns: the steps contain every move exactly once, no step is empty or moves a load twice, and made in this order every move leads from
a location that is occupied to one that is free.
Or it raises `KeyError`: some moves can be made so that a remaining move starts at a location that is not occupied.
Or it does not end: some moves can be made so that there are remaining moves and all of them lead to occupied locations. -/
theorem C52_any_moves (moves : List (ι × α × α)) (starts : List α) :
    (∃ steps occ', synchronousMoves moves starts = some (.ok steps) ∧ steps.flatten.Perm moves ∧
      (∀ step ∈ steps, step ≠ [] ∧ (step.map Prod.fst).Nodup) ∧ OccRun (· ∈ starts) steps.flatten occ') ∨
    (∃ made m rest occ', synchronousMoves moves starts = some (.error .keyError) ∧ moves.Perm (made ++ m :: rest) ∧ OccRun (· ∈ starts) made occ' ∧
      ¬ occ' m.2.1 ∧ ¬ occ' m.2.2) ∨
    (∃ made rest occ', synchronousMoves moves starts = none ∧ moves.Perm (made ++ rest) ∧ rest ≠ [] ∧ OccRun (· ∈ starts) made occ' ∧
      ∀ m ∈ rest, occ' m.2.2) := by
  have h := sync_any moves.length (saddAll [] starts) moves [] (Nat.le_refl _)
  have hs : ∀ x, x ∈ saddAll [] starts ↔ x ∈ starts := fun x => by rw [mem_saddAll]; simp
  unfold synchronousMoves
  cases hr : pyWhile syncStep (saddAll [] starts, moves, []) with
  | none =>
    rw [hr] at h
    obtain ⟨made, rest, o, h1, h2, h3, h4⟩ := h
    exact .inr (.inr ⟨made, rest, o, rfl, h1, h2, occRun_congr hs (fun _ => Iff.rfl) h3, h4⟩)
  | some r =>
    rw [hr] at h
    cases r with
    | error e =>
      obtain ⟨rfl, made, m, rest, o, h1, h2, h3, h4⟩ := h
      exact .inr (.inl ⟨made, m, rest, o, rfl, h1, occRun_congr hs (fun _ => Iff.rfl) h2, h3, h4⟩)
    | ok steps =>
      obtain ⟨new, h1, h2, h3, o, h4⟩ := h
      rw [List.nil_append] at h1
      rw [← h1] at h2 h3 h4
      exact .inl ⟨steps, o, rfl, h2, h3, occRun_congr hs (fun _ => Iff.rfl) h4⟩

/-- the three cases occur; the first with moves that are not in a possible order -/
example : synchronousMoves [("a", 1, 2), ("b", 2, 3)] [1, 2] = some (.ok [[("b", 2, 3)], [("a", 1, 2)]]) ∧
    synchronousMoves [("a", 1, 2)] [5] = some (.error .keyError) ∧ synchronousMoves [("a", 1, 2)] [1, 2] = none :=
  ⟨pyWhile_of_runFuel (n := 10) (by decide), pyWhile_of_runFuel (n := 10) (by decide), C52_blocked_move_loops⟩

/-- **C52**: without a serial plan the moves of one load can change their order: `a` should go from 1 to 2 and on to 3, but 2 is occupied by another
load; the second move is made first. -/
theorem C52_overtaking_counterexample :
    synchronousMoves [("a", 1, 2), ("a", 2, 3)] [1, 2] = some (.ok [[("a", 2, 3)], [("a", 1, 2)]]) := pyWhile_of_runFuel (n := 10) (by decide)

end GT

import Verif.Other.JamTop
import Verif.Spec.Compare
/-
`jam_solver` on nodes that cannot be compared: `sorted((d, e) …)` compares the nodes of edges with equal values.
-/
namespace GT
open Graph
variable {ι α O : Type} [DecidableEq ι] [DecidableEq α]

/-! ### model -/

/-- the options of one load (traffic_scheduling_problem.py:411-413, 483-485); `cmp x y`: the nodes can be compared.  The sort raises `TypeError` if two
options over the same distance cannot be compared. -/
def JamCfg.optionsE (cmp : α → α → Bool) (c : JamCfg ι α O) (rev : Bool) (s : Placement ι α) (proh : List α) (loc : α) : Py (List (Rat × α)) :=
  let l := c.options rev s proh loc
  if ∃ a ∈ l, ∃ b ∈ l, a.2 ≠ b.2 ∧ a.1 = b.1 ∧ cmp a.2 b.2 = false then .error .typeError else .ok l

/-- the options of all loads, in order, up to the first load whose options cannot be sorted; the flag says that there is one -/
def JamCfg.allOptionsE (cmp : α → α → Bool) (c : JamCfg ι α O) (rev : Bool) (s : Placement ι α) : Placement ι α → Py (List (ι × Rat × α) × Bool)
  | [] => .ok ([], false)
  | (k, loc) :: l => match c.load? k with
    | none => .error .keyError
    | some ld => match c.allOptionsE cmp rev s l with
      | .error e => .error e
      | .ok (r, bad) => match c.optionsE cmp rev s ld.prohibited loc with
        | .error _ => .ok ([], true)
        | .ok os => .ok (os.map (fun o => (k, o)) ++ r, bad)

/-- `_find_forward_options` / `_find_reverse_options` (traffic_scheduling_problem.py:401-443, 473-515), where `sorted` can raise: the options of the
loads before are tried first -/
def JamCfg.expandE (cmp : α → α → Bool) (c : JamCfg ι α O) (rev : Bool) (s : JamSt ι α O) : Option (Py (Bool × JamSt ι α O)) :=
  let own := s.side rev
  match own.q with
  | [] => some (.ok (false, s))
  | st :: q =>
    match own.edge.delE st.loads with
    | .error e => some (.error e)
    | .ok edge =>
      match c.allOptionsE cmp rev st.loads st.loads with
      | .error e => some (.error e)
      | .ok (opts, bad) =>
        match c.tryAll rev st opts (s.setSide rev ⟨q, edge, sadd own.visited st.loads⟩) with
        | some (.ok (false, s')) => if bad then some (.error .typeError) else some (.ok (false, s'))
        | r => r

/-- one iteration of `_search` (traffic_scheduling_problem.py:391-399) -/
def JamCfg.searchStepE (cmp : α → α → Bool) (c : JamCfg ι α O) (clock : Nat → Rat) (x : JamSt ι α O × Timer) :
    Option ((JamSt ι α O × Timer) ⊕ Py (JamSt ι α O × Timer)) :=
  let (late, t) := x.2.check clock
  if late then some (.inr (.ok (x.1, t)))
  else match c.expandE cmp false x.1 with
    | none => none
    | some (.error e) => some (.inr (.error e))
    | some (.ok (true, s)) => some (.inr (.ok (s, t)))
    | some (.ok (false, s)) => match c.expandE cmp true s with
      | none => none
      | some (.error e) => some (.inr (.error e))
      | some (.ok (true, s)) => some (.inr (.ok (s, t)))
      | some (.ok (false, s)) => if s.f.q = [] ∧ s.r.q = [] then some (.inr (.ok (s, t))) else some (.inl (s, t))

/-- `solve` (traffic_scheduling_problem.py:368-377); `TypeError` is not caught -/
def JamCfg.solveE (cmp : α → α → Bool) (c : JamCfg ι α O) (clock : Nat → Rat) (t : Timer) :
    Option (Py ((Ext × Option (List (Placement ι α))) × Timer)) :=
  match pyWhileD (c.searchStepE cmp clock) (c.init, t) with
  | none => none
  | some (.error e) => some (.error e)
  | some (.ok (s, t)) => match c.bestPath s.mov with
    | none => none
    | some (.error e) => some (.error e)
    | some (.ok r) => some (.ok (r, t))

/-- `jam_solver(graph, loads, timeout, synchronous_moves, return_on_first)` (traffic_scheduling_problem.py:518-569), where `sorted` can raise -/
def jamSolverE (cmp : α → α → Bool) (E : JamEnv ι α) (g : Graph α Rat O) (raw : List (RawLoad ι α)) (timeout : Option Rat) (sync first : Bool) :
    Option (Py (List (List (ι × α × α)))) :=
  match checkUserInput E g raw with
  | none => none
  | some (.error e) => some (.error e)
  | some (.ok loads) => match newTimer E.clock timeout with
    | .error e => some (.error e)
    | .ok t => match distMaps E.setOrd g loads with
      | none => none
      | some (.error e) => some (.error e)
      | some (.ok maps) => match (jamCfg E g loads maps first).solveE cmp E.clock t with
        | none => none
        | some (.error e) => some (.error e)
        | some (.ok ((_, p), t')) =>
          match p with
          | none => some (.error (if (t'.check E.clock).1 then .unSolvable else .noSolution))
          | some p =>
            if p = [] then some (.error (if (t'.check E.clock).1 then .unSolvable else .noSolution))
            else match pathToMoves p with
              | .error e => some (.error e)
              | .ok moves => if sync then synchronousMoves moves (loads.map Load.start) else some (.ok (moves.map (fun m => [m])))

/-! ### proofs -/

/-- if every iteration is as before or ends the loop with `bad`, the loop does what it did before or ends with `bad` -/
theorem pyWhileD_cut {σ ρ : Type} {step stepE : σ → Option (σ ⊕ ρ)} {bad : ρ} (h : ∀ s, stepE s = step s ∨ stepE s = some (.inr bad)) (s : σ) {r : ρ}
    (hr : pyWhileD step s = some r) : pyWhileD stepE s = some r ∨ pyWhileD stepE s = some bad := by
  refine pyWhileD_inv (step := step) (fun s' => pyWhileD stepE s = pyWhileD stepE s' ∨ pyWhileD stepE s = some bad)
    (fun r => pyWhileD stepE s = some r ∨ pyWhileD stepE s = some bad) ?_ ?_ (.inl rfl) hr
  · rintro s1 s2 (hI | hI) hst
    · rcases h s1 with h1 | h1
      · rw [hst] at h1; left; rw [hI, pyWhileD_eq, h1]
      · right; rw [hI, pyWhileD_eq, h1]
    · exact .inr hI
  · rintro s1 r (hI | hI) hst
    · rcases h s1 with h1 | h1
      · rw [hst] at h1; left; rw [hI, pyWhileD_eq, h1]
      · right; rw [hI, pyWhileD_eq, h1]
    · exact .inr hI

variable {c : JamCfg ι α O} {cmp : α → α → Bool}

/-- two edges of a node with the same value whose other ends cannot be compared -/
def JamTied (cmp : α → α → Bool) (g : Graph α Rat O) : Prop :=
  ∃ rev loc y y' d, (d, y) ∈ (if rev then g.inNbr loc else g.outNbr loc).map (fun e => (e.2, e.1)) ∧
    (d, y') ∈ (if rev = true then g.inNbr loc else g.outNbr loc).map (fun e => (e.2, e.1)) ∧ y ≠ y' ∧ cmp y y' = false

theorem mem_options' {rev : Bool} {s : Placement ι α} {proh : List α} {loc : α} {d : Rat} {y : α} :
    (d, y) ∈ c.options rev s proh loc ↔
      (d, y) ∈ (if rev then c.graph.inNbr loc else c.graph.outNbr loc).map (fun e => (e.2, e.1)) ∧ y ∉ s.map Prod.snd ∧ y ∉ proh := by
  unfold JamCfg.options
  rw [(pySort_perm _ _).mem_iff, List.mem_filterMap, List.mem_map]
  constructor
  · rintro ⟨e, he, h⟩
    split at h
    · rename_i hc
      cases h
      exact ⟨⟨e, he, rfl⟩, hc⟩
    · cases h
  · rintro ⟨⟨e, he, h⟩, hc⟩
    cases h
    exact ⟨e, he, if_pos hc⟩

theorem tryAll_append (rev : Bool) (st : JState ι α) (p q : List (ι × Rat × α)) : ∀ s : JamSt ι α O,
    c.tryAll rev st (p ++ q) s = match c.tryAll rev st p s with
      | some (.ok (false, s')) => c.tryAll rev st q s'
      | r => r := by
  induction p with
  | nil => intro s; rfl
  | cons o p ih =>
    intro s
    rw [List.cons_append, JamCfg.tryAll, JamCfg.tryAll]
    cases c.try_ rev st s o with
    | none => rfl
    | some r => match r with
      | .error e => rfl
      | .ok (true, s') => rfl
      | .ok (false, s') => exact ih s'

/-- either no load has tied options, or the options are those up to the first load that has -/
theorem allOptionsE_cut (rev : Bool) (s : Placement ι α) (l : Placement ι α) :
    (∃ e, c.allOptionsE cmp rev s l = .error e ∧ c.allOptions rev s l = .error e) ∨
    (∃ r, c.allOptionsE cmp rev s l = .ok (r, false) ∧ c.allOptions rev s l = .ok r) ∨
    (JamTied cmp c.graph ∧ ∃ r r', c.allOptionsE cmp rev s l = .ok (r, true) ∧ c.allOptions rev s l = .ok (r ++ r')) := by
  induction l with
  | nil => exact .inr (.inl ⟨[], rfl, rfl⟩)
  | cons p l ih =>
    obtain ⟨k, loc⟩ := p
    unfold JamCfg.allOptionsE JamCfg.allOptions
    cases c.load? k with
    | none => exact .inl ⟨_, rfl, rfl⟩
    | some ld =>
      dsimp only
      have hopt : c.optionsE cmp rev s ld.prohibited loc = .ok (c.options rev s ld.prohibited loc) ∨
          (JamTied cmp c.graph ∧ c.optionsE cmp rev s ld.prohibited loc = .error .typeError) := by
        unfold JamCfg.optionsE
        dsimp only
        split
        · rename_i h
          obtain ⟨⟨d, y⟩, h1, ⟨d', y'⟩, h2, h3, h4, h5⟩ := h
          dsimp only at h3 h4 h5
          subst h4
          exact .inr ⟨⟨rev, loc, y, y', d, (mem_options'.1 h1).1, (mem_options'.1 h2).1, h3, h5⟩, rfl⟩
        · exact .inl rfl
      rcases ih with ⟨e, h1, h2⟩ | ⟨r, h1, h2⟩ | ⟨ht, r, r', h1, h2⟩
      · rw [h1, h2]; exact .inl ⟨_, rfl, rfl⟩
      · rw [h1, h2]
        rcases hopt with h | ⟨ht, h⟩
        · rw [h]; exact .inr (.inl ⟨_, rfl, rfl⟩)
        · rw [h]; exact .inr (.inr ⟨ht, [], _, rfl, rfl⟩)
      · rw [h1, h2]
        rcases hopt with h | ⟨_, h⟩
        · rw [h]; exact .inr (.inr ⟨ht, _, r', rfl, by simp⟩)
        · rw [h]; exact .inr (.inr ⟨ht, [], _, rfl, rfl⟩)

theorem expandE_cut (rev : Bool) (s : JamSt ι α O) :
    c.expandE cmp rev s = c.expand rev s ∨ (JamTied cmp c.graph ∧ c.expandE cmp rev s = some (.error .typeError)) := by
  unfold JamCfg.expandE JamCfg.expand
  dsimp only
  cases (s.side rev).q with
  | nil => exact .inl rfl
  | cons st q =>
    dsimp only
    cases (s.side rev).edge.delE st.loads with
    | error e => exact .inl rfl
    | ok edge =>
      dsimp only
      rcases allOptionsE_cut (c := c) (cmp := cmp) rev st.loads st.loads with ⟨e, h1, h2⟩ | ⟨r, h1, h2⟩ | ⟨ht, r, r', h1, h2⟩
      · rw [h1, h2]; exact .inl rfl
      · rw [h1, h2]
        left
        dsimp only
        generalize c.tryAll rev st r _ = x
        match x with
        | none => rfl
        | some (.error e) => rfl
        | some (.ok (true, s')) => rfl
        | some (.ok (false, s')) => rfl
      · rw [h1, h2]
        dsimp only
        rw [tryAll_append]
        generalize c.tryAll rev st r _ = x
        match x with
        | none => exact .inl rfl
        | some (.error e) => exact .inl rfl
        | some (.ok (true, s')) => exact .inl rfl
        | some (.ok (false, s')) => exact .inr ⟨ht, rfl⟩

theorem searchStepE_cut (clock : Nat → Rat) (x : JamSt ι α O × Timer) :
    c.searchStepE cmp clock x = c.searchStep clock x ∨ (JamTied cmp c.graph ∧ c.searchStepE cmp clock x = some (.inr (.error .typeError))) := by
  unfold JamCfg.searchStepE JamCfg.searchStep
  generalize x.2.check clock = ch
  obtain ⟨late, t⟩ := ch
  dsimp only
  split
  · exact .inl rfl
  · rcases expandE_cut (c := c) (cmp := cmp) false x.1 with h | ⟨ht, h⟩
    · rw [h]
      match c.expand false x.1 with
      | none => exact .inl rfl
      | some (.error e) => exact .inl rfl
      | some (.ok (true, s')) => exact .inl rfl
      | some (.ok (false, s')) =>
        dsimp only
        rcases expandE_cut (c := c) (cmp := cmp) true s' with h | ⟨ht, h⟩
        · rw [h]; exact .inl rfl
        · rw [h]; exact .inr ⟨ht, rfl⟩
    · rw [h]; exact .inr ⟨ht, rfl⟩

theorem solveE_cut (clock : Nat → Rat) (t : Timer) {r : Py ((Ext × Option (List (Placement ι α))) × Timer)} (hr : c.solve clock t = some r) :
    c.solveE cmp clock t = some r ∨ (JamTied cmp c.graph ∧ c.solveE cmp clock t = some (.error .typeError)) := by
  unfold JamCfg.solveE
  unfold JamCfg.solve at hr
  by_cases ht : JamTied cmp c.graph
  · cases hl : pyWhileD (c.searchStep clock) (c.init, t) with
    | none => rw [hl] at hr; cases hr
    | some x =>
      rw [hl] at hr
      rcases pyWhileD_cut (stepE := c.searchStepE cmp clock) (bad := .error .typeError) (fun s => (searchStepE_cut clock s).imp id And.right) _ hl with h | h
      · rw [h]; exact .inl hr
      · rw [h]; exact .inr ⟨ht, rfl⟩
  · have : c.searchStepE cmp clock = c.searchStep clock := by
      funext x
      rcases searchStepE_cut (c := c) (cmp := cmp) clock x with h | ⟨h, _⟩
      · exact h
      · exact absurd h ht
    rw [this]; exact .inl hr

theorem jamSolverE_cut {E : JamEnv ι α} {g : Graph α Rat O} {raw : List (RawLoad ι α)} {timeout : Option Rat} {sync first : Bool}
    {r : Py (List (List (ι × α × α)))} (hr : jamSolver E g raw timeout sync first = some r) :
    jamSolverE cmp E g raw timeout sync first = some r ∨
    (JamTied cmp g ∧ jamSolverE cmp E g raw timeout sync first = some (.error .typeError)) := by
  unfold jamSolverE
  unfold jamSolver at hr
  cases hc : checkUserInput E g raw with
  | none => rw [hc] at hr; cases hr
  | some x =>
    rw [hc] at hr
    cases x with
    | error e => exact .inl hr
    | ok loads =>
      dsimp only at hr ⊢
      cases ht : newTimer E.clock timeout with
      | error e => rw [ht] at hr; exact .inl hr
      | ok t =>
        rw [ht] at hr
        dsimp only at hr ⊢
        cases hm : distMaps E.setOrd g loads with
        | none => rw [hm] at hr; cases hr
        | some x =>
          rw [hm] at hr
          cases x with
          | error e => exact .inl hr
          | ok maps =>
            dsimp only at hr ⊢
            cases hs : (jamCfg E g loads maps first).solve E.clock t with
            | none => rw [hs] at hr; cases hr
            | some y =>
              rw [hs] at hr
              rcases solveE_cut (cmp := cmp) E.clock t hs with h | ⟨htied, h⟩
              · rw [h]; exact .inl hr
              · rw [h]; exact .inr ⟨htied, rfl⟩

/-! ### a tie at the start -/

theorem push_not_stop (rev : Bool) (s : JamSt ι α O) (n : JState ι α) : ∀ s', c.push rev s n ≠ some (.ok (true, s')) := by
  intro s' h
  unfold JamCfg.push at h
  dsimp only at h
  split at h
  · split at h
    · split at h <;> cases h
    · cases h
  · split at h
    · cases h
    · rename_i hn
      rw [if_neg (fun h => hn (.inr h))] at h
      cases h

theorem tryAll_not_stop (rev : Bool) (st : JState ι α) (l : List (ι × Rat × α)) : ∀ (s s' : JamSt ι α O), c.tryAll rev st l s ≠ some (.ok (true, s')) := by
  induction l with
  | nil => intro s s' h; rw [JamCfg.tryAll] at h; cases h
  | cons o l ih =>
    intro s s' h
    rw [JamCfg.tryAll] at h
    cases ht : c.try_ rev st s o with
    | none => rw [ht] at h; cases h
    | some r =>
      rw [ht] at h
      match r, ht with
      | .error e, ht => cases h
      | .ok (true, s2), ht =>
        unfold JamCfg.try_ at ht
        dsimp only at ht
        cases rev <;> simp only [Bool.false_eq_true, if_false, if_true] at ht
        all_goals
          split at ht
          · cases ht
          · exact push_not_stop _ _ _ _ ht
      | .ok (false, s2), ht => exact ih _ _ h

/-- a load with tied options sets the flag -/
theorem allOptionsE_bad (rev : Bool) (s : Placement ι α) (l : Placement ι α) {k : ι} {loc y y' : α} {d : Rat} {ld : Load ι α} (hk : (k, loc) ∈ l)
    (hld : c.load? k = some ld) (h1 : (d, y) ∈ c.options rev s ld.prohibited loc) (h2 : (d, y') ∈ c.options rev s ld.prohibited loc) (hne : y ≠ y')
    (hcmp : cmp y y' = false) {r : List (ι × Rat × α)} {bad : Bool} (h : c.allOptionsE cmp rev s l = .ok (r, bad)) : bad = true := by
  induction l generalizing r bad with
  | nil => cases hk
  | cons p l ih =>
    obtain ⟨k', loc'⟩ := p
    unfold JamCfg.allOptionsE at h
    rcases List.mem_cons.1 hk with hk | hk
    · cases hk
      rw [hld] at h
      dsimp only at h
      have hopt : c.optionsE cmp rev s ld.prohibited loc = .error .typeError := by
        unfold JamCfg.optionsE
        exact if_pos ⟨_, h1, _, h2, hne, rfl, hcmp⟩
      rw [hopt] at h
      cases hrec : c.allOptionsE cmp rev s l with
      | error e => rw [hrec] at h; cases h
      | ok x => rw [hrec] at h; cases h; rfl
    · cases hl : c.load? k' with
      | none => rw [hl] at h; cases h
      | some ld' =>
        rw [hl] at h
        dsimp only at h
        cases hrec : c.allOptionsE cmp rev s l with
        | error e => rw [hrec] at h; cases h
        | ok x =>
          obtain ⟨r0, b0⟩ := x
          rw [hrec] at h
          have := ih hk hrec
          subst this
          dsimp only at h
          split at h
          · cases h; rfl
          · cases h; rfl

/-- a load that has tied options at the start -/
theorem solveE_start (clock : Nat → Rat) {t : Timer} (ht : t.expired = false) {k : ι} {loc y y' : α} {d : Rat} {ld : Load ι α}
    (hk : (k, loc) ∈ c.start) (hld : c.load? k = some ld) (h1 : (d, y) ∈ c.options false c.start ld.prohibited loc)
    (h2 : (d, y') ∈ c.options false c.start ld.prohibited loc) (hne : y ≠ y') (hcmp : cmp y y' = false)
    {p : (Ext × Option (List (Placement ι α))) × Timer} (hr : c.solve clock t = some (.ok p)) : c.solveE cmp clock t = some (.error .typeError) := by
  have hch : (t.check clock).1 = false := by
    unfold Timer.check
    rw [ht]
    simp only [Bool.false_eq_true, if_false]
    split <;> rfl
  have hstepE : c.searchStepE cmp clock (c.init, t) = some (.inr (.error .typeError)) := by
    -- the step of the model without failing comparisons does not fail
    have hstep : ∀ e, c.searchStep clock (c.init, t) ≠ some (.inr (.error e)) ∧ c.searchStep clock (c.init, t) ≠ none := by
      intro e
      constructor
      · intro hx
        unfold JamCfg.solve at hr
        rw [pyWhileD_eq, hx] at hr
        cases hr
      · intro hx
        unfold JamCfg.solve at hr
        rw [pyWhileD_eq, hx] at hr
        cases hr
    have hexp : ∃ s, c.expand false c.init = some (.ok (false, s)) := by
      have h0 := hstep .keyError
      unfold JamCfg.searchStep at hstep h0
      generalize t.check clock = ch at hch hstep h0
      obtain ⟨late, t'⟩ := ch
      dsimp only at hch hstep h0
      subst hch
      simp only [Bool.false_eq_true, if_false] at hstep h0
      cases hx : c.expand false c.init with
      | none => rw [hx] at h0; exact absurd rfl h0.2
      | some x =>
        match x, hx with
        | .error e, hx => have := (hstep e).1; rw [hx] at this; exact absurd rfl this
        | .ok (false, s), _ => exact ⟨s, rfl⟩
        | .ok (true, s), hx =>
          exfalso
          unfold JamCfg.expand at hx
          dsimp only at hx
          split at hx
          · cases hx
          · split at hx
            · cases hx
            · split at hx
              · cases hx
              · exact tryAll_not_stop _ _ _ _ _ hx
    obtain ⟨s, hexp⟩ := hexp
    have hexpE : c.expandE cmp false c.init = some (.error .typeError) := by
      unfold JamCfg.expandE
      unfold JamCfg.expand at hexp
      have hq : (c.init.side false).q = [⟨c.start, 0, .inf⟩] := rfl
      dsimp only at hexp ⊢
      rw [hq] at hexp ⊢
      dsimp only at hexp ⊢
      cases hd : (c.init.side false).edge.delE c.start with
      | error e => rw [hd] at hexp; cases hexp
      | ok edge =>
        rw [hd] at hexp
        dsimp only at hexp ⊢
        rcases allOptionsE_cut (c := c) (cmp := cmp) false c.start c.start with ⟨e, a1, a2⟩ | ⟨r, a1, a2⟩ | ⟨_, r, r', a1, a2⟩
        · rw [a2] at hexp; cases hexp
        · have := allOptionsE_bad false c.start c.start hk hld h1 h2 hne hcmp a1
          cases this
        · rw [a1]
          rw [a2] at hexp
          dsimp only at hexp ⊢
          rw [tryAll_append] at hexp
          generalize hg : c.tryAll false _ r _ = x at hexp ⊢
          match x, hg with
          | none, _ => cases hexp
          | some (.error e), _ => cases hexp
          | some (.ok (true, s')), hg => exact absurd hg (tryAll_not_stop _ _ _ _ _)
          | some (.ok (false, s')), _ => rfl
    unfold JamCfg.searchStepE
    generalize t.check clock = ch at hch
    obtain ⟨late, t'⟩ := ch
    dsimp only at hch ⊢
    subst hch
    simp only [Bool.false_eq_true, if_false]
    rw [hexpE]
  unfold JamCfg.solveE
  rw [pyWhileD_eq, hstepE]

end GT

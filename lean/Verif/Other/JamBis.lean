import Verif.Other.JamTop
import Verif.Other.BnbBis
/-
`jam_solver` with `insort` as a binary search (Bisect), and its equality with the model of Other/Jam: both queues are always sorted.
-/
namespace GT
variable {ι α O : Type} [DecidableEq ι] [DecidableEq α]

/-- what happens to a new state (traffic_scheduling_problem.py:427-443, 499-515), with the binary search -/
def JamCfg.pushB (c : JamCfg ι α O) (rev : Bool) (s : JamSt ι α O) (n : JState ι α) : Option (Py (Bool × JamSt ι α O)) :=
  let own := s.side rev
  let other := s.side (!rev)
  match own.edge.get? n.loads with
  | some ex =>
    if n.lt ex then
      match removeState ex.loads own.q with
      | .error e => some (.error e)
      | .ok q => some (.ok (false, s.setSide rev ⟨insortB JState.lt n q, own.edge.set n.loads n, own.visited⟩))
    else some (.ok (false, s))
  | none =>
    if n.loads ∈ own.visited ∨ n.loads ∈ other.visited then some (.ok (false, s))
    else
      let s' := s.setSide rev ⟨insortB JState.lt n own.q, own.edge.set n.loads n, own.visited⟩
      if n.loads ∈ other.visited then c.match_ s' else some (.ok (false, s'))

/-- one option (traffic_scheduling_problem.py:415-443, 487-515), with the binary search -/
def JamCfg.tryB (c : JamCfg ι α O) (rev : Bool) (st : JState ι α) (s : JamSt ι α O) (o : ι × Rat × α) : Option (Py (Bool × JamSt ι α O)) :=
  let loads := moveTo o.1 o.2.2 st.loads
  let n : JState ι α := ⟨loads, st.dist + o.2.1, c.grad loads⟩
  let a := if rev then loads else st.loads
  let b := if rev then st.loads else loads
  if cheaper s.mov a b o.2.1 then some (.ok (false, s))
  else c.pushB rev { s with mov := s.mov.addEdge a b o.2.1 } n

/-- the loop over the options (traffic_scheduling_problem.py:415-443, 487-515), with the binary search -/
def JamCfg.tryAllB (c : JamCfg ι α O) (rev : Bool) (st : JState ι α) : List (ι × Rat × α) → JamSt ι α O → Option (Py (Bool × JamSt ι α O))
  | [], s => some (.ok (false, s))
  | o :: l, s => match c.tryB rev st s o with
    | none => none
    | some (.error e) => some (.error e)
    | some (.ok (true, s')) => some (.ok (true, s'))
    | some (.ok (false, s')) => JamCfg.tryAllB c rev st l s'

/-- `_find_forward_options` / `_find_reverse_options` (traffic_scheduling_problem.py:401-443, 473-515), with the binary search -/
def JamCfg.expandB (c : JamCfg ι α O) (rev : Bool) (s : JamSt ι α O) : Option (Py (Bool × JamSt ι α O)) :=
  let own := s.side rev
  match own.q with
  | [] => some (.ok (false, s))
  | st :: q =>
    match own.edge.delE st.loads with
    | .error e => some (.error e)
    | .ok edge =>
      match c.allOptions rev st.loads st.loads with
      | .error e => some (.error e)
      | .ok opts => c.tryAllB rev st opts (s.setSide rev ⟨q, edge, sadd own.visited st.loads⟩)

/-- one iteration of `_search` (traffic_scheduling_problem.py:391-399), with the binary search -/
def JamCfg.searchStepB (c : JamCfg ι α O) (clock : Nat → Rat) (x : JamSt ι α O × Timer) :
    Option ((JamSt ι α O × Timer) ⊕ Py (JamSt ι α O × Timer)) :=
  let (late, t) := x.2.check clock
  if late then some (.inr (.ok (x.1, t)))
  else match c.expandB false x.1 with
    | none => none
    | some (.error e) => some (.inr (.error e))
    | some (.ok (true, s)) => some (.inr (.ok (s, t)))
    | some (.ok (false, s)) => match c.expandB true s with
      | none => none
      | some (.error e) => some (.inr (.error e))
      | some (.ok (true, s)) => some (.inr (.ok (s, t)))
      | some (.ok (false, s)) => if s.f.q = [] ∧ s.r.q = [] then some (.inr (.ok (s, t))) else some (.inl (s, t))

/-- `solve` (traffic_scheduling_problem.py:368-377), with the binary search -/
def JamCfg.solveB (c : JamCfg ι α O) (clock : Nat → Rat) (t : Timer) : Option (Py ((Ext × Option (List (Placement ι α))) × Timer)) :=
  match pyWhileD (c.searchStepB clock) (c.init, t) with
  | none => none
  | some (.error e) => some (.error e)
  | some (.ok (s, t)) => match c.bestPath s.mov with
    | none => none
    | some (.error e) => some (.error e)
    | some (.ok r) => some (.ok (r, t))

/-- `jam_solver(graph, loads, timeout, synchronous_moves, return_on_first)` (traffic_scheduling_problem.py:518-569), with the binary search -/
def jamSolverB (E : JamEnv ι α) (g : Graph α Rat O) (raw : List (RawLoad ι α)) (timeout : Option Rat) (sync first : Bool) :
    Option (Py (List (List (ι × α × α)))) :=
  match checkUserInput E g raw with
  | none => none
  | some (.error e) => some (.error e)
  | some (.ok loads) => match newTimer E.clock timeout with
    | .error e => some (.error e)
    | .ok t => match distMaps E.setOrd g loads with
      | none => none
      | some (.error e) => some (.error e)
      | some (.ok maps) => match (jamCfg E g loads maps first).solveB E.clock t with
        | none => none
        | some (.error e) => some (.error e)
        | some (.ok ((_, p), t')) =>
          match p with
          | none => some (.error (if (t'.check E.clock).1 then .unSolvable else .noSolution))
          | some p =>
            if p = [] then some (.error (if (t'.check E.clock).1 then .unSolvable else .noSolution))
            else match pathToMoves p with
              | .error e => some (.error e)
              | .ok moves => if sync then synchronousMoves moves (loads.map Load.start) else some (.ok (moves.map (fun m => [m])))

/-! ### the queues are sorted -/

theorem JState.lt_asymm (a b : JState ι α) (h : a.lt b = true) : b.lt a = false := by
  unfold JState.lt at *
  split at h
  · rename_i hg
    rw [if_pos hg.symm]; simp at h ⊢; grind
  · rename_i hg
    rw [if_neg (fun h => hg h.symm)]
    cases ha : a.grad <;> cases hb : b.grad <;> rw [ha, hb] at h <;> simp [extLt] at h ⊢
    grind

theorem JState.lt_ntrans (a b c : JState ι α) (h1 : b.lt a = false) (h2 : c.lt b = false) : c.lt a = false := by
  unfold JState.lt at *
  cases ha : a.grad <;> cases hb : b.grad <;> cases hc : c.grad <;> simp [ha, hb, hc, extLt] at h1 h2 ⊢ <;> grind

/-- a queue in the order of `State.__lt__` -/
def JQ (q : List (JState ι α)) : Prop := q.Pairwise (fun a b => b.lt a = false)

theorem JQ.insort {n : JState ι α} {q : List (JState ι α)} (h : JQ q) : insortB JState.lt n q = insortR JState.lt n q ∧ JQ (insortR JState.lt n q) := by
  rw [insortR_eq, insortB_eq JState.lt_ntrans JState.lt_asymm n h]
  exact ⟨rfl, insertBehind_pairwise JState.lt_ntrans JState.lt_asymm n h⟩

theorem removeState_sublist {l : Placement ι α} (q : List (JState ι α)) : ∀ {q'}, removeState l q = .ok q' → q'.Sublist q := by
  induction q with
  | nil => intro q' h; cases h
  | cons x q ih =>
    intro q' h
    unfold removeState at h
    split at h
    · cases h; exact List.sublist_cons_self x q
    · split at h
      · cases h
      · rename_i q2 hq2
        cases h
        exact (ih hq2).cons₂ x

/-- both queues are sorted -/
def JamSt.Sorted (s : JamSt ι α O) : Prop := JQ s.f.q ∧ JQ s.r.q

theorem JamSt.Sorted.side {s : JamSt ι α O} (h : s.Sorted) (rev : Bool) : JQ (s.side rev).q := by
  unfold JamSt.side; cases rev
  · exact h.1
  · exact h.2

theorem JamSt.Sorted.set {s : JamSt ι α O} (h : s.Sorted) (rev : Bool) {x : JSide ι α} (hx : JQ x.q) : (s.setSide rev x).Sorted := by
  unfold JamSt.setSide; cases rev
  · exact ⟨hx, h.2⟩
  · exact ⟨h.1, hx⟩

variable {c : JamCfg ι α O}

theorem match_sorted {s s' : JamSt ι α O} {b : Bool} (h : s.Sorted) (hm : c.match_ s = some (.ok (b, s'))) : s'.Sorted := by
  unfold JamCfg.match_ at hm
  split at hm
  · cases hm
  · cases hm
  · cases hm
    exact ⟨h.1.filter _, h.2.filter _⟩

theorem pushB_eq (rev : Bool) {s : JamSt ι α O} (h : s.Sorted) (n : JState ι α) :
    c.pushB rev s n = c.push rev s n ∧ ∀ b s', c.push rev s n = some (.ok (b, s')) → s'.Sorted := by
  unfold JamCfg.pushB JamCfg.push
  dsimp only
  cases (s.side rev).edge.get? n.loads with
  | some ex =>
    dsimp only
    by_cases hl : n.lt ex = true
    · rw [if_pos hl, if_pos hl]
      cases hq : removeState ex.loads (s.side rev).q with
      | error e => exact ⟨rfl, fun b s' hh => by cases hh⟩
      | ok q =>
        obtain ⟨h1, h2⟩ := JQ.insort (n := n) (q := q) ((h.side rev).sublist (removeState_sublist _ hq))
        dsimp only
        rw [h1]
        exact ⟨rfl, fun b s' hh => by cases hh; exact h.set rev h2⟩
    · rw [if_neg hl, if_neg hl]
      exact ⟨rfl, fun b s' hh => by cases hh; exact h⟩
  | none =>
    dsimp only
    by_cases hv : n.loads ∈ (s.side rev).visited ∨ n.loads ∈ (s.side !rev).visited
    · rw [if_pos hv, if_pos hv]
      exact ⟨rfl, fun b s' hh => by cases hh; exact h⟩
    · rw [if_neg hv, if_neg hv]
      obtain ⟨h1, h2⟩ := JQ.insort (n := n) (h.side rev)
      rw [h1]
      refine ⟨rfl, fun b s' hh => ?_⟩
      split at hh
      · exact match_sorted (h.set rev h2) hh
      · cases hh; exact h.set rev h2

theorem tryB_eq (rev : Bool) (st : JState ι α) {s : JamSt ι α O} (h : s.Sorted) (o : ι × Rat × α) :
    c.tryB rev st s o = c.try_ rev st s o ∧ ∀ b s', c.try_ rev st s o = some (.ok (b, s')) → s'.Sorted := by
  unfold JamCfg.tryB JamCfg.try_
  dsimp only
  generalize cheaper s.mov _ _ o.2.1 = ch
  cases ch with
  | true => exact ⟨rfl, fun b s' hh => by cases hh; exact h⟩
  | false =>
    refine pushB_eq rev ?_ _
    exact ⟨h.1, h.2⟩

theorem tryAllB_eq (rev : Bool) (st : JState ι α) (l : List (ι × Rat × α)) : ∀ {s : JamSt ι α O}, s.Sorted →
    c.tryAllB rev st l s = c.tryAll rev st l s ∧ ∀ b s', c.tryAll rev st l s = some (.ok (b, s')) → s'.Sorted := by
  induction l with
  | nil => intro s h; exact ⟨rfl, fun b s' hh => by cases hh; exact h⟩
  | cons o l ih =>
    intro s h
    unfold JamCfg.tryAllB JamCfg.tryAll
    obtain ⟨h1, h2⟩ := tryB_eq (c := c) rev st h o
    rw [h1]
    match hx : c.try_ rev st s o with
    | none => exact ⟨rfl, fun b s' hh => by cases hh⟩
    | some (.error e) => exact ⟨rfl, fun b s' hh => by cases hh⟩
    | some (.ok (true, s1)) => exact ⟨rfl, fun b s' hh => by cases hh; exact h2 _ _ hx⟩
    | some (.ok (false, s1)) => exact ih (h2 _ _ hx)

theorem expandB_eq (rev : Bool) {s : JamSt ι α O} (h : s.Sorted) :
    c.expandB rev s = c.expand rev s ∧ ∀ b s', c.expand rev s = some (.ok (b, s')) → s'.Sorted := by
  unfold JamCfg.expandB JamCfg.expand
  dsimp only
  have hs := h.side rev
  cases hq : (s.side rev).q with
  | nil => exact ⟨rfl, fun b s' hh => by cases hh; exact h⟩
  | cons st q =>
    rw [hq] at hs
    dsimp only
    cases (s.side rev).edge.delE st.loads with
    | error e => exact ⟨rfl, fun b s' hh => by cases hh⟩
    | ok edge =>
      dsimp only
      cases c.allOptions rev st.loads st.loads with
      | error e => exact ⟨rfl, fun b s' hh => by cases hh⟩
      | ok opts => exact tryAllB_eq rev st _ (h.set rev (List.pairwise_cons.1 hs).2)

theorem searchStepB_eq (clock : Nat → Rat) {x : JamSt ι α O × Timer} (h : x.1.Sorted) :
    c.searchStepB clock x = c.searchStep clock x ∧ ∀ y, c.searchStep clock x = some (.inl y) → y.1.Sorted := by
  unfold JamCfg.searchStepB JamCfg.searchStep
  generalize x.2.check clock = ch
  obtain ⟨late, t⟩ := ch
  dsimp only
  cases late with
  | true => exact ⟨rfl, fun y hh => by cases hh⟩
  | false =>
    simp only [Bool.false_eq_true, if_false]
    obtain ⟨h1, h2⟩ := expandB_eq (c := c) false h
    rw [h1]
    match hx : c.expand false x.1 with
    | none => exact ⟨rfl, fun y hh => by cases hh⟩
    | some (.error e) => exact ⟨rfl, fun y hh => by cases hh⟩
    | some (.ok (true, s)) => exact ⟨rfl, fun y hh => by cases hh⟩
    | some (.ok (false, s)) =>
      obtain ⟨h3, h4⟩ := expandB_eq (c := c) true (h2 _ _ hx)
      dsimp only
      rw [h3]
      match hy : c.expand true s with
      | none => exact ⟨rfl, fun y hh => by cases hh⟩
      | some (.error e) => exact ⟨rfl, fun y hh => by cases hh⟩
      | some (.ok (true, s')) => exact ⟨rfl, fun y hh => by cases hh⟩
      | some (.ok (false, s')) =>
        refine ⟨rfl, fun y hh => ?_⟩
        dsimp only at hh
        split at hh
        · cases hh
        · cases hh; exact h4 _ _ hy

theorem init_sorted (c : JamCfg ι α O) : c.init.Sorted := by
  refine ⟨by simp [JQ, JamCfg.init], ?_⟩
  show (c.finals.map (fun l => (⟨l, 0, .inf⟩ : JState ι α))).Pairwise _
  rw [List.pairwise_map]
  refine List.pairwise_of_forall ?_
  intro a b
  simp [JState.lt]

theorem solveB_eq (clock : Nat → Rat) (t : Timer) : c.solveB clock t = c.solve clock t := by
  unfold JamCfg.solveB JamCfg.solve
  rw [pyWhileD_congr (step := c.searchStepB clock) (step' := c.searchStep clock) (fun x => x.1.Sorted) (fun x hx => (searchStepB_eq clock hx).1)
    (fun x y hx h => (searchStepB_eq clock hx).2 y ((searchStepB_eq clock hx).1 ▸ h)) (init_sorted c)]
  rfl

/-- the binary search makes no difference: the queues are always sorted -/
theorem jamSolverB_eq (E : JamEnv ι α) (g : Graph α Rat O) (raw : List (RawLoad ι α)) (timeout : Option Rat) (sync first : Bool) :
    jamSolverB E g raw timeout sync first = jamSolver E g raw timeout sync first := by
  unfold jamSolverB jamSolver
  simp only [solveB_eq]
  rfl

end GT

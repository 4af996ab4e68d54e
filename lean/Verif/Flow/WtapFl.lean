import Verif.Flow.Wtap
import Verif.Spec.Survive
/-
Model of `wtap_solver` (graph/assignment_problem.py:96-228) in floating point arithmetic: `fl` rounds the result of every operation.
With `fl = id` it is the model of Flow/Wtap.
-/
namespace GT
variable {α O : Type} [DecidableEq α]
open Graph

/-- `_damages(probabilities, assignment, target_values)` (assignment_problem.py:203-228), every operation rounded -/
def wtDamagesFl (fl : Rat → Rat) (g a : Graph α Rat O) (values : Dict α Rat) : Py Rat :=
  match forE a.edgeList (Dict.comp values.keys (fun _ => [])) (wtHit g) with
  | .error e => .error e
  | .ok sv => forE sv.items 0 (fun total x => match values.get? x.1 with
    | none => .error .keyError
    | some v => .ok (fl (total + fl (x.2.foldl (fun p p_ => fl (p * fl (1 - p_))) 1 * v))))

/-- the effect of engaging one target (assignment_problem.py:163-171) -/
def wtProbeFl (fl : Rat → Rat) (g : Graph α Rat O) (values : Dict α Rat) (w : α) (s : Graph α Rat O × Dict α Rat) (e : α × α × Rat) :
    Py (Graph α Rat O × Dict α Rat) :=
  match wtEngage g s.1 w e.2.1 with
  | .error er => .error er
  | .ok a => match wtDamagesFl fl g a values with
    | .error er => .error er
    | .ok d => .ok (a, s.2.set e.2.1 d)

/-- one weapon (assignment_problem.py:160-184) -/
def wtWeaponFl (fl : Rat → Rat) (nlt : α → α → Bool) (g : Graph α Rat O) (values : Dict α Rat) (s : WtSt α O) (w : α) : Py (WtSt α O) :=
  match forE (g.edgesFrom w) (s.assign, Dict.empty) (wtProbeFl fl g values w) with
  | .error e => .error e
  | .ok (a, eff) =>
    match pySort (balLt nlt) (eff.items.map (fun p => (p.2, p.1))) with
    | [] => .error .indexError
    | (best, t) :: _ =>
      let nett := fl (s.cur - best)
      let imp := s.imp.set w (if 0 < nett then nett else 0)
      match wtEngage g a w t with
      | .error e => .error e
      | .ok a => match eff.get? t with
        | none => .error .keyError
        | some d => .ok ⟨a, d, imp⟩

/-- `sum(l)`, every addition rounded.  Simplification: since Python 3.12 `sum` of floats carries the rounding errors along; the sum is only
compared with 0, and a sum of non-negative numbers is 0 in both cases iff all are. -/
def flSum (fl : Rat → Rat) (l : List Rat) : Rat := l.foldl (fun s x => fl (s + x)) 0

/-- one iteration of `while True` (assignment_problem.py:159-186) -/
def wtRoundFl (fl : Rat → Rat) (nlt : α → α → Bool) (g : Graph α Rat O) (values : Dict α Rat) (weapons : List α) (s : WtSt α O) :
    WtSt α O ⊕ Py (Rat × Graph α Rat O) :=
  match forE weapons s (wtWeaponFl fl nlt g values) with
  | .error e => .inr (.error e)
  | .ok s => if flSum fl s.imp.values = 0 then .inr (.ok (s.cur, s.assign)) else .inl s

/-- `wtap_solver(probabilities, weapons, target_values)` (assignment_problem.py:96-187), every operation rounded.
`nlt` is the order of the target ids that breaks ties in `sort`. -/
def Graph.wtapSolverFl (fl : Rat → Rat) (nlt : α → α → Bool) (g : Graph α Rat O) (weapons : List α) (values : Dict α Rat) :
    Option (Py (Rat × Graph α Rat O)) :=
  if weapons.any (fun w => values.contains w) then some (.error .valueError)
  else
    let targets := g.edgeList.map (fun e => e.2.1)
    if targets.all (fun t => values.contains t) && values.keys.any (fun t => decide (t ∉ targets)) then some (.error .valueError)
    else pyWhile (wtRoundFl fl nlt g values weapons) ⟨Graph.empty, fl (flSum fl values.values + 1), Dict.empty⟩

/-! ### without rounding it is the exact model -/

omit [DecidableEq α] in
theorem flSum_id (l : List Rat) : flSum id l = l.sum := by
  unfold flSum
  have : ∀ (l : List Rat) (a : Rat), l.foldl (fun s x => id (s + x)) a = a + l.sum := by
    intro l
    induction l with
    | nil => intro a; simp; grind
    | cons x l ih => intro a; rw [List.foldl_cons, ih, List.sum_cons]; simp only [id]; grind
  rw [this]; grind

theorem wtDamagesFl_id (g a : Graph α Rat O) (values : Dict α Rat) : wtDamagesFl id g a values = wtDamages g a values := rfl

theorem wtapSolverFl_id (nlt : α → α → Bool) (g : Graph α Rat O) (weapons : List α) (values : Dict α Rat) :
    g.wtapSolverFl id nlt weapons values = g.wtapSolver nlt weapons values := by
  have h : wtRoundFl id nlt g values weapons = wtRound nlt g values weapons := by
    funext s
    unfold wtRoundFl wtRound
    simp only [flSum_id]
    rfl
  unfold wtapSolverFl wtapSolver
  rw [h, flSum_id]
  rfl

/-! ### the damages -/

theorem forE_foldl {β γ : Type} (l : List β) (f : γ → β → Py γ) (h : γ → β → γ) (hf : ∀ x ∈ l, ∀ acc, f acc x = .ok (h acc x)) (acc : γ) :
    forE l acc f = .ok (l.foldl h acc) := by
  induction l generalizing acc with
  | nil => rfl
  | cons x l ih =>
    unfold forE
    rw [hf x (by simp)]
    exact ih (fun y hy => hf y (List.mem_cons_of_mem _ hy)) _

/-- `_damages` computes the rounded surviving value, in the order of the edges of the assignment -/
theorem wtDamagesFl_spec (fl : Rat → Rat) {g a : Graph α Rat O} {values : Dict α Rat} (hv : values.WF)
    (ha : ∀ w t p, (w, t, p) ∈ a.edgeList → g.edge w t = some p ∧ t ∈ values.keys) :
    wtDamagesFl fl g a values = .ok (flSurvivors fl values.items a.edgeList) := by
  unfold wtDamagesFl
  have hk := Dict.comp_keys hv (fun _ => ([] : List Rat))
  obtain ⟨sv, h1, h2, h3, h4⟩ := wtHit_fold (g := g) a.edgeList (Dict.comp values.keys (fun _ => [])) (fun _ => [])
    (by unfold Dict.WF; rw [hk]; exact hv) (fun k hk' => by rw [hk] at hk'; rw [Dict.comp_get?, if_pos hk']) (fun w t p hm => by rw [hk]; exact ha w t p hm)
  rw [h1]
  dsimp only
  rw [hk] at h3 h4
  have hit : sv.items = values.items.map (fun tv => (tv.1, (a.edgeList.filter (fun e => decide (e.2.1 = tv.1))).map (fun e => e.2.2))) := by
    rw [Dict.items_eq (f := fun k => (a.edgeList.filter (fun e => decide (e.2.1 = k))).map (fun e => e.2.2)) h2 (fun k hk' => by
      rw [h3] at hk'; rw [h4 k hk', List.nil_append]), h3]
    unfold Dict.keys; rw [List.map_map]; rfl
  rw [hit, forE_foldl (h := fun total x => fl (total + fl (flSurvive fl x.2 * ((values.get? x.1).getD 0))))]
  · rw [List.foldl_map]
    unfold flSurvivors
    congr 1
    have : ∀ (l : List (α × Rat)), (∀ tv ∈ l, tv ∈ values.items) → ∀ acc,
        l.foldl (fun total tv => fl (total + fl (flSurvive fl ((a.edgeList.filter (fun e => decide (e.2.1 = tv.1))).map (fun e => e.2.2)) * ((values.get? tv.1).getD 0)))) acc =
        l.foldl (fun total tv => fl (total + fl (flSurvive fl ((a.edgeList.filter (fun e => decide (e.2.1 = tv.1))).map (fun e => e.2.2)) * tv.2))) acc := by
      intro l
      induction l with
      | nil => intro _ _; rfl
      | cons tv l ih =>
        intro hl acc
        rw [List.foldl_cons, List.foldl_cons, (Dict.get?_eq_some_iff hv tv.1 tv.2).2 (hl tv (by simp))]
        exact ih (fun x hx => hl x (List.mem_cons_of_mem _ hx)) _
    exact this _ (fun _ h => h) _
  · intro x hx acc
    obtain ⟨tv, htv, rfl⟩ := List.mem_map.1 hx
    have := (Dict.get?_eq_some_iff hv tv.1 tv.2).2 htv
    dsimp only
    rw [this]
    rfl

theorem WtOk.damagesFl (fl : Rat → Rat) {g a : Graph α Rat O} {weapons : List α} (h : WtOk g weapons a) {values : Dict α Rat} (hv : values.WF)
    (ht : ∀ w ∈ weapons, ∀ t p, g.edge w t = some p → t ∈ values.keys) :
    wtDamagesFl fl g a values = .ok (flSurvivors fl values.items a.edgeList) :=
  wtDamagesFl_spec fl hv (fun w t p hm => by
    have := h.adm w t p (h.inv.mem_edgeList.1 hm)
    exact ⟨this.1, ht w this.2 t p this.1⟩)

/-! ### one weapon -/

/-- the rounded surviving value of the engagements `M`, listed in some order -/
def FlValue (fl : Rat → Rat) (values : Dict α Rat) (M : List (α × α × Rat)) (d : Rat) : Prop :=
  ∃ M', M'.Perm M ∧ d = flSurvivors fl values.items M'

theorem FlValue.perm {fl : Rat → Rat} {values : Dict α Rat} {M M' : List (α × α × Rat)} {d : Rat} (h : FlValue fl values M d) (hp : M.Perm M') :
    FlValue fl values M' d := by
  obtain ⟨L, h1, h2⟩ := h
  exact ⟨L, h1.trans hp, h2⟩

section
variable {fl : Rat → Rat}

/-- the loop over the targets of one weapon -/
theorem wtProbeFl_fold {g a0 : Graph α Rat O} {weapons : List α} {values : Dict α Rat} (hv : values.WF)
    (ht : ∀ w ∈ weapons, ∀ t p, g.edge w t = some p → t ∈ values.keys) (h0 : WtOk g weapons a0) {w : α} (hw : w ∈ weapons)
    (L : List (α × α × Rat)) : ∀ (a : Graph α Rat O) (eff : Dict α Rat), (∀ x t p, (x, t, p) ∈ L → g.edge w t = some p) →
    WtOk g weapons a → (∀ x y, x ≠ w → a.edge x y = a0.edge x y) → eff.WF →
    (∀ t d, eff.get? t = some d → ∃ p, g.edge w t = some p ∧ FlValue fl values (retarget a0.edgeList w t p) d) →
    ∃ a' eff', forE L (a, eff) (wtProbeFl fl g values w) = .ok (a', eff') ∧ WtOk g weapons a' ∧ (∀ x y, x ≠ w → a'.edge x y = a0.edge x y) ∧
      eff'.WF ∧ (∀ t d, eff'.get? t = some d → ∃ p, g.edge w t = some p ∧ FlValue fl values (retarget a0.edgeList w t p) d) ∧
      (∀ x t p, (x, t, p) ∈ L → (eff'.get? t).isSome) ∧ (∀ t, (eff.get? t).isSome → (eff'.get? t).isSome) := by
  induction L with
  | nil => intro a eff _ h1 h2 h3 h4; exact ⟨a, eff, rfl, h1, h2, h3, h4, (fun x t p h => nomatch h), fun t h => h⟩
  | cons e L ih =>
    obtain ⟨x, t, p⟩ := e
    intro a eff hL h1 h2 h3 h4
    have hp := hL x t p (by simp)
    obtain ⟨a1, h5, h6, h7⟩ := wtEngage_spec h1 hp
    have hmv : Moved a0 a1 w t p := by
      intro y z
      rw [h7]
      by_cases hy : y = w
      · rw [if_pos hy, if_pos hy]
      · rw [if_neg hy, if_neg hy]; exact h2 y z hy
    have hok1 : WtOk g weapons a1 := h7.ok h1 hw hp h6
    have hstep : wtProbeFl fl g values w (a, eff) (x, t, p) = .ok (a1, eff.set t (flSurvivors fl values.items a1.edgeList)) := by
      unfold wtProbeFl; dsimp only; rw [h5]; dsimp only; rw [hok1.damagesFl fl hv ht]
    unfold forE
    rw [hstep]
    obtain ⟨a', eff', h8, h9, h10, h11, h12, h13, h14⟩ := ih a1 (eff.set t (flSurvivors fl values.items a1.edgeList))
      (fun x t p hm => hL x t p (List.mem_cons_of_mem _ hm)) hok1
      (fun y z hy => by rw [hmv, if_neg hy]) (h3.set _ _) (fun t' d hd => by
        rw [Dict.get?_set] at hd
        by_cases htt : t = t'
        · rw [if_pos htt] at hd; cases hd; subst htt; exact ⟨p, hp, _, hmv.perm h0.inv h6, rfl⟩
        · rw [if_neg htt] at hd; exact h4 t' d hd)
    refine ⟨a', eff', h8, h9, h10, h11, h12, fun y t' p' hm => ?_, fun t' ht' => h14 t' ?_⟩
    · rcases List.mem_cons.1 hm with hh | hh
      · cases hh; exact h14 t (by rw [Dict.get?_set_self]; rfl)
      · exact h13 y t' p' hh
    · rw [Dict.get?_set]; split
      · rfl
      · exact ht'

/-- one weapon is moved to a target that looks best -/
theorem wtWeaponFl_spec {nlt : α → α → Bool} (ho : NodeOrder nlt) {g : Graph α Rat O} (hg : g.Inv) {weapons : List α} {values : Dict α Rat}
    (hv : values.WF) (ht : ∀ w ∈ weapons, ∀ t p, g.edge w t = some p → t ∈ values.keys) {s : WtSt α O} (h : WtOk g weapons s.assign) {w : α}
    (hw : w ∈ weapons) (hne : ∃ t, (g.edge w t).isSome) :
    ∃ s' t p, wtWeaponFl fl nlt g values s w = .ok s' ∧ WtOk g weapons s'.assign ∧ g.edge w t = some p ∧ Moved s.assign s'.assign w t p ∧
      FlValue fl values s'.assign.edgeList s'.cur ∧
      (∀ t' p', g.edge w t' = some p' → ∃ d, FlValue fl values (retarget s.assign.edgeList w t' p') d ∧ s'.cur ≤ d) ∧
      s'.imp = s.imp.set w (if 0 < fl (s.cur - s'.cur) then fl (s.cur - s'.cur) else 0) := by
  unfold wtWeaponFl
  obtain ⟨a, eff, h1, h2, h3, h4, h5, h6, -⟩ := wtProbeFl_fold (fl := fl) hv ht h hw (g.edgesFrom w) s.assign Dict.empty
    (fun x t p hm => (hg.mem_edgesFrom.1 hm).2) h (fun _ _ _ => rfl) (by simp [Dict.WF, Dict.keys, Dict.empty]) (fun t d hd => by cases hd)
  rw [h1]
  dsimp only
  obtain ⟨t0, ht0⟩ := hne
  obtain ⟨p0, hp0⟩ := Option.isSome_iff_exists.1 ht0
  have hmem : ∀ t p, g.edge w t = some p → ∃ d, eff.get? t = some d ∧ FlValue fl values (retarget s.assign.edgeList w t p) d := by
    intro t p hp
    obtain ⟨d, hd⟩ := Option.isSome_iff_exists.1 (h6 w t p (hg.mem_edgesFrom.2 ⟨rfl, hp⟩))
    obtain ⟨q, hq, hq'⟩ := h5 t d hd
    rw [hp] at hq; cases hq; exact ⟨d, hd, hq'⟩
  have hsm : ∀ d t, (d, t) ∈ pySort (balLt nlt) (eff.items.map (fun p => (p.2, p.1))) ↔ eff.get? t = some d := by
    intro d t
    rw [mem_pySort, Dict.get?_eq_some_iff h4, List.mem_map]
    constructor
    · rintro ⟨⟨x, y⟩, hx, he⟩; cases he; exact hx
    · intro hx; exact ⟨(t, d), hx, rfl⟩
  have hsorted := pySort_pairwise (balLt_trans ho) (balLt_asymm ho) (eff.items.map (fun p => (p.2, p.1)))
  cases hL : pySort (balLt nlt) (eff.items.map (fun p => (p.2, p.1))) with
  | nil =>
    obtain ⟨d, hd, _⟩ := hmem t0 p0 hp0
    have := (hsm _ t0).2 hd
    rw [hL] at this; cases this
  | cons b l =>
    obtain ⟨best, t⟩ := b
    have hb := (hsm best t).1 (by rw [hL]; simp)
    obtain ⟨p, hp, hbp⟩ := h5 t best hb
    obtain ⟨a1, h7, h8, h9⟩ := wtEngage_spec h2 hp
    have hmv : Moved s.assign a1 w t p := by
      intro y z
      rw [h9]
      by_cases hy : y = w
      · rw [if_pos hy, if_pos hy]
      · rw [if_neg hy, if_neg hy]; exact h3 y z hy
    dsimp only
    rw [h7]
    dsimp only
    rw [hb]
    refine ⟨_, t, p, rfl, hmv.ok h hw hp h8, hp, hmv, ?_, ?_, rfl⟩
    · show FlValue fl values _ best
      exact hbp.perm (hmv.perm h.inv h8).symm
    · intro t' p' hp'
      obtain ⟨d, hd, hd2⟩ := hmem t' p' hp'
      refine ⟨d, hd2, ?_⟩
      show best ≤ _
      have := (hsm _ t').2 hd
      rw [hL] at this hsorted
      rcases List.mem_cons.1 this with hh | hh
      · cases hh; exact Rat.le_refl
      · exact balLt_head hsorted hh

/-! ### rounds -/

/-- all weapons are engaged and the value is known -/
def WtFullFl (fl : Rat → Rat) (weapons : List α) (values : Dict α Rat) (s : WtSt α O) : Prop :=
  (∀ w ∈ weapons, ∃ t, (s.assign.edge w t).isSome) ∧ FlValue fl values s.assign.edgeList s.cur

theorem WtOk.once {g a : Graph α Rat O} {weapons : List α} (h : WtOk g weapons a) : (a.edgeList.map (fun e => e.1)).Nodup := by
  refine List.pairwise_map.2 (List.Pairwise.imp_of_mem ?_ h.inv.edgeList_nodup)
  rintro ⟨w, t, p⟩ ⟨w', t', p'⟩ h1 h2 hne hh
  apply hne
  have e1 := h.inv.mem_edgeList.1 h1
  have e2 := h.inv.mem_edgeList.1 h2
  have hh : w = w' := hh
  subst hh
  have := h.one w t t' (by rw [e1]; rfl) (by rw [e2]; rfl)
  subst this
  rw [e1] at e2; cases e2; rfl

/-- if the order does not matter there is only one value -/
theorem WtOk.flValue {g a : Graph α Rat O} {weapons : List α} (h : WtOk g weapons a) (hf : OrderFree fl g.edge weapons) {values : Dict α Rat}
    {M : List (α × α × Rat)} (hp : M.Perm a.edgeList) {d : Rat} (hd : FlValue fl values M d) : d = flSurvivors fl values.items a.edgeList := by
  obtain ⟨M', h1, rfl⟩ := hd
  refine (hf.survivors (h1.trans hp).symm h.once ?_).symm
  intro w t p hm
  have := h.adm w t p (h.inv.mem_edgeList.1 hm)
  exact ⟨this.2, this.1⟩

/-- one weapon, when all are engaged -/
theorem wtFullFl_step {g : Graph α Rat O} {weapons : List α} (hof : OrderFree fl g.edge weapons) {values : Dict α Rat} {s s' : WtSt α O}
    (h : WtOk g weapons s.assign) (hf : WtFullFl fl weapons values s) {w : α} (hw : w ∈ weapons)
    (hb : ∀ t' p', g.edge w t' = some p' → ∃ d, FlValue fl values (retarget s.assign.edgeList w t' p') d ∧ s'.cur ≤ d) :
    s'.cur ≤ s.cur := by
  obtain ⟨t0, ht0⟩ := hf.1 w hw
  obtain ⟨p0, hp0⟩ := Option.isSome_iff_exists.1 ht0
  obtain ⟨d, hd, hle⟩ := hb t0 p0 (h.adm w t0 p0 hp0).1
  rw [h.flValue hof ((h.moved_self hp0).perm h.inv h.inv).symm hd] at hle
  rw [h.flValue hof (.refl _) hf.2]; exact hle

/-- one pass over a list of weapons -/
theorem wtPassFl (hfl : Rounding fl) {nlt : α → α → Bool} (ho : NodeOrder nlt) {g : Graph α Rat O} (hg : g.Inv) {weapons : List α} {values : Dict α Rat}
    (hv : values.WF) (ht : ∀ w ∈ weapons, ∀ t p, g.edge w t = some p → t ∈ values.keys)
    (hne : ∀ w ∈ weapons, ∃ t, (g.edge w t).isSome) (ws : List α) : ∀ (s : WtSt α O), (∀ w ∈ ws, w ∈ weapons) → WtOk g weapons s.assign →
    s.imp.WF → ∃ s', forE ws s (wtWeaponFl fl nlt g values) = .ok s' ∧ WtOk g weapons s'.assign ∧ s'.imp.WF ∧
      (∀ x, ((∃ t, (s.assign.edge x t).isSome) ∨ x ∈ ws) → ∃ t, (s'.assign.edge x t).isSome) ∧
      (ws ≠ [] → FlValue fl values s'.assign.edgeList s'.cur) ∧
      (∀ k, (s'.imp.get? k).isSome → k ∈ ws ∨ (s.imp.get? k).isSome) ∧
      (∀ k, k ∉ ws → s'.imp.get? k = s.imp.get? k) ∧
      (OrderFree fl g.edge weapons → WtFullFl fl weapons values s → s'.cur ≤ s.cur) ∧
      (∀ k ∈ ws, ∃ x, s'.imp.get? k = some x ∧ (OrderFree fl g.edge weapons → WtFullFl fl weapons values s → x ≠ 0 → s'.cur < s.cur)) ∧
      (∀ w, ws.getLast? = some w → ∀ t p, g.edge w t = some p → ∃ d, FlValue fl values (retarget s'.assign.edgeList w t p) d ∧ s'.cur ≤ d) := by
  have hpos : ∀ x, 0 < fl x → 0 < x := by
    intro x hx
    apply Classical.byContradiction
    intro hn
    have := hfl.mono x 0 (by grind)
    rw [hfl.zero] at this
    grind
  induction ws with
  | nil =>
    intro s _ h1 h2
    refine ⟨s, rfl, h1, h2, fun x hx => ?_, fun h => absurd rfl h, fun k hk => .inr hk, fun _ _ => rfl, fun _ _ => Rat.le_refl,
      (fun k hk => nomatch hk), (fun w hw => nomatch hw)⟩
    rcases hx with hx | hx
    · exact hx
    · cases hx
  | cons w ws ih =>
    intro s hws h1 h2
    have hw := hws w (by simp)
    obtain ⟨s1, t, p, e1, e2, e3, e4, e5, e6, e7⟩ := wtWeaponFl_spec (fl := fl) ho hg hv ht h1 hw (hne w hw)
    unfold forE
    rw [e1]
    obtain ⟨s', f1, f2, f3, f4, f5, f6, f7, f8, f9, f10⟩ := ih s1 (fun x hx => hws x (List.mem_cons_of_mem _ hx)) e2 (by rw [e7]; exact h2.set _ _)
    have hset : ∀ k, s1.imp.get? k = if w = k then some (if 0 < fl (s.cur - s1.cur) then fl (s.cur - s1.cur) else 0) else s.imp.get? k := by
      intro k; rw [e7, Dict.get?_set]
    have hfull : OrderFree fl g.edge weapons → WtFullFl fl weapons values s → WtFullFl fl weapons values s1 ∧ s1.cur ≤ s.cur := by
      intro hof hf
      refine ⟨⟨fun x hx => ?_, e5⟩, wtFullFl_step hof h1 hf hw e6⟩
      by_cases hxw : x = w
      · exact ⟨t, by rw [e4, if_pos hxw, if_pos rfl]; rfl⟩
      · obtain ⟨y, hy⟩ := hf.1 x hx
        exact ⟨y, by rw [e4, if_neg hxw]; exact hy⟩
    refine ⟨s', f1, f2, f3, ?_, ?_, ?_, ?_, ?_, ?_, ?_⟩
    · intro x hx
      refine f4 x ?_
      by_cases hxw : x = w
      · exact .inl ⟨t, by rw [e4, if_pos hxw, if_pos rfl]; rfl⟩
      · rcases hx with ⟨y, hy⟩ | hx
        · exact .inl ⟨y, by rw [e4, if_neg hxw]; exact hy⟩
        · rcases List.mem_cons.1 hx with hh | hh
          · exact absurd hh hxw
          · exact .inr hh
    · intro _
      cases ws with
      | nil => unfold forE at f1; cases f1; exact e5
      | cons y ys => exact f5 (by simp)
    · intro k hk
      rcases f6 k hk with hh | hh
      · exact .inl (List.mem_cons_of_mem _ hh)
      · rw [hset] at hh
        by_cases hwk : w = k
        · exact .inl (by rw [hwk]; simp)
        · rw [if_neg hwk] at hh; exact .inr hh
    · intro k hk
      rw [List.mem_cons, not_or] at hk
      rw [f7 k hk.2, hset, if_neg (fun hh => hk.1 hh.symm)]
    · intro hof hf
      have := hfull hof hf
      have h3 := f8 hof this.1
      grind
    · intro k hk
      by_cases hkws : k ∈ ws
      · obtain ⟨x, x1, x3⟩ := f9 k hkws
        refine ⟨x, x1, fun hof hf hx => ?_⟩
        have := hfull hof hf
        have h3 := x3 hof this.1 hx
        grind
      · have hkw : k = w := by
          rcases List.mem_cons.1 hk with hh | hh
          · exact hh
          · exact absurd hh hkws
        subst hkw
        rw [f7 k hkws, hset, if_pos rfl]
        refine ⟨_, rfl, fun hof hf hx => ?_⟩
        have := hfull hof hf
        have h3 := f8 hof this.1
        split at hx
        · rename_i hlt
          have := hpos _ hlt
          grind
        · exact absurd rfl hx
    · intro x hx t' p' hp'
      cases ws with
      | nil =>
        unfold forE at f1; cases f1
        simp at hx; subst hx
        obtain ⟨d, hd, hle⟩ := e6 t' p' hp'
        refine ⟨d, hd.perm ?_, hle⟩
        refine List.Perm.symm ?_
        have := e4.perm h1.inv e2.inv
        refine (retarget_perm this w t' p').trans ?_
        unfold retarget
        rw [List.filter_cons_of_neg (by simp), List.filter_filter]
        simp
      | cons y ys =>
        refine f10 x ?_ t' p' hp'
        rw [List.getLast?_cons_cons] at hx; exact hx

/-! ### the result, whenever there is one -/

/-- the state at the start of a round -/
def WtIFl (fl : Rat → Rat) (g : Graph α Rat O) (weapons : List α) (values : Dict α Rat) (s : WtSt α O) : Prop :=
  WtOk g weapons s.assign ∧ s.imp.WF ∧ (∀ k, (s.imp.get? k).isSome → k ∈ weapons)

/-- what a result tells -/
def WtPostFl (fl : Rat → Rat) (g : Graph α Rat O) (weapons : List α) (values : Dict α Rat) (r : Py (Rat × Graph α Rat O)) : Prop :=
  ∃ v a, r = .ok (v, a) ∧ WtOk g weapons a ∧ IsEngagement g.edge weapons a.edgeList ∧ FlValue fl values a.edgeList v ∧
    ∀ w, weapons.getLast? = some w → ∀ t p, g.edge w t = some p → ∃ d, FlValue fl values (retarget a.edgeList w t p) d ∧ v ≤ d

theorem wtapFl_exit (hfl : Rounding fl) {nlt : α → α → Bool} (ho : NodeOrder nlt) {g : Graph α Rat O} (hg : g.Inv) {weapons : List α} {values : Dict α Rat}
    (hv : values.WF) (ht : ∀ w ∈ weapons, ∀ t p, g.edge w t = some p → t ∈ values.keys)
    (hne : ∀ w ∈ weapons, ∃ t, (g.edge w t).isSome) (hw0 : weapons ≠ []) {s : WtSt α O} (hi : WtIFl fl g weapons values s) {r}
    (hstep : wtRoundFl fl nlt g values weapons s = .inr r) : WtPostFl fl g weapons values r := by
  obtain ⟨i1, i2, i3⟩ := hi
  obtain ⟨s1, f1, f2, f3, f4, f5, f6, f7, f8, f9, f10⟩ := wtPassFl hfl ho hg hv ht hne weapons s (fun _ h => h) i1 i2
  unfold wtRoundFl at hstep
  rw [f1] at hstep
  dsimp only at hstep
  split at hstep
  · cases hstep
    exact ⟨_, _, rfl, f2, f2.engagement (fun w hw => f4 w (.inr hw)), f5 hw0, f10⟩
  · cases hstep

theorem wtapFl_cont (hfl : Rounding fl) {nlt : α → α → Bool} (ho : NodeOrder nlt) {g : Graph α Rat O} (hg : g.Inv) {weapons : List α} {values : Dict α Rat}
    (hv : values.WF) (ht : ∀ w ∈ weapons, ∀ t p, g.edge w t = some p → t ∈ values.keys)
    (hne : ∀ w ∈ weapons, ∃ t, (g.edge w t).isSome) (hw0 : weapons ≠ []) {s s' : WtSt α O} (hi : WtIFl fl g weapons values s)
    (hstep : wtRoundFl fl nlt g values weapons s = .inl s') :
    WtIFl fl g weapons values s' ∧ WtFullFl fl weapons values s' ∧ (OrderFree fl g.edge weapons → WtFullFl fl weapons values s → s'.cur < s.cur) := by
  obtain ⟨i1, i2, i3⟩ := hi
  obtain ⟨s1, f1, f2, f3, f4, f5, f6, f7, f8, f9, f10⟩ := wtPassFl hfl ho hg hv ht hne weapons s (fun _ h => h) i1 i2
  unfold wtRoundFl at hstep
  rw [f1] at hstep
  dsimp only at hstep
  split at hstep
  · cases hstep
  rename_i hsum
  have hstep := Sum.inl.inj hstep
  subst hstep
  have hk : ∀ k, (s1.imp.get? k).isSome → k ∈ weapons := by
    intro k hk
    rcases f6 k hk with h | h
    · exact h
    · exact i3 k h
  refine ⟨⟨f2, f3, hk⟩, ⟨fun w hw => f4 w (.inr hw), f5 hw0⟩, fun hof hfs => ?_⟩
  apply Classical.byContradiction
  intro hno
  apply hsum
  have hz : ∀ x ∈ s1.imp.values, x = 0 := by
    intro x hx
    obtain ⟨⟨k, x'⟩, hkm, rfl⟩ := List.mem_map.1 hx
    have hk' := (Dict.get?_eq_some_iff f3 k x').2 hkm
    obtain ⟨y, y1, y3⟩ := f9 k (hk k (by rw [hk']; rfl))
    rw [hk'] at y1; cases y1
    apply Classical.byContradiction
    intro hx0
    exact hno (y3 hof hfs hx0)
  unfold flSum
  have : ∀ l : List Rat, (∀ x ∈ l, x = 0) → l.foldl (fun s x => fl (s + x)) 0 = 0 := by
    intro l
    induction l with
    | nil => intro _; rfl
    | cons x l ih =>
      intro hl
      rw [List.foldl_cons, hl x (by simp), Rat.add_zero, hfl.zero]
      exact ih (fun y hy => hl y (List.mem_cons_of_mem _ hy))
  exact this _ hz

/-! ### termination -/

/-- the value of a full assignment is one of finitely many -/
theorem WtFullFl.candidate {g : Graph α Rat O} (hg : g.Inv) {weapons : List α} (hof : OrderFree fl g.edge weapons) {values : Dict α Rat} {s : WtSt α O}
    (h : WtOk g weapons s.assign) (hf : WtFullFl fl weapons values s) :
    s.cur ∈ (allEng g (saddAll [] weapons)).map (fun M => flSurvivors fl values.items M) := by
  have hch : ∀ w, ∃ tp : α × Rat, w ∈ weapons → s.assign.edge w tp.1 = some tp.2 := by
    intro w
    by_cases hw : w ∈ weapons
    · obtain ⟨t, ht⟩ := hf.1 w hw
      obtain ⟨p, hp⟩ := Option.isSome_iff_exists.1 ht
      exact ⟨(t, p), fun _ => hp⟩
    · exact ⟨(w, 0), fun hh => absurd hh hw⟩
  let f : α → α × Rat := fun w => Classical.choose (hch w)
  have hfs : ∀ w ∈ weapons, s.assign.edge w (f w).1 = some (f w).2 := fun w hw => Classical.choose_spec (hch w) hw
  have hmem : ∀ w, w ∈ saddAll [] weapons ↔ w ∈ weapons := fun w => by rw [mem_saddAll]; simp
  refine List.mem_map.2 ⟨_, mem_allEng hg (f := f) (saddAll [] weapons) (fun w hw => (h.adm _ _ _ (hfs w ((hmem w).1 hw))).1), ?_⟩
  rw [h.flValue hof (.refl _) hf.2]
  refine (h.flValue hof (M := (saddAll [] weapons).map (fun w => (w, (f w).1, (f w).2))) (perm_of_nodup ?_ h.inv.edgeList_nodup ?_) ⟨_, .refl _, rfl⟩)
  · exact List.pairwise_map.2 ((nodup_saddAll List.nodup_nil : (saddAll [] weapons).Nodup).imp (fun hne hh => hne (Prod.mk.inj hh).1))
  · rintro ⟨w, t, p⟩
    rw [List.mem_map, h.inv.mem_edgeList]
    constructor
    · rintro ⟨x, hx, he⟩
      have hw := hfs x ((hmem x).1 hx)
      cases he; exact hw
    · intro he
      have hw := (h.adm w t p he).2
      refine ⟨w, (hmem w).2 hw, ?_⟩
      have h1 := hfs w hw
      have := h.one w t (f w).1 (by rw [he]; rfl) (by rw [h1]; rfl)
      rw [← this] at h1 ⊢
      rw [he] at h1; rw [Option.some.inj h1]

open Classical in
/-- the number of values that are still smaller -/
noncomputable def wtMeasureFl (fl : Rat → Rat) (g : Graph α Rat O) (weapons : List α) (values : Dict α Rat) (s : WtSt α O) : Nat :=
  let C := (allEng g (saddAll [] weapons)).map (fun M => flSurvivors fl values.items M)
  if WtFullFl fl weapons values s then (C.filter (fun c => decide (c < s.cur))).length else C.length + 1

theorem wtapSolverFl_checks (fl : Rat → Rat) {nlt : α → α → Bool} {g : Graph α Rat O} (hg : g.Inv) {weapons : List α} {values : Dict α Rat}
    (h : WtInput g weapons values) : g.wtapSolverFl fl nlt weapons values =
      pyWhile (wtRoundFl fl nlt g values weapons) ⟨Graph.empty, fl (flSum fl values.values + 1), Dict.empty⟩ := by
  unfold wtapSolverFl
  rw [if_neg, if_neg]
  · rw [Bool.and_eq_true, List.all_eq_true, List.any_eq_true]
    rintro ⟨h1, t, ht, h2⟩
    simp only [decide_eq_true_eq] at h2
    obtain ⟨a, ha⟩ := h.covered (fun a t p hp => (Dict.contains_iff_keys _ _).1 (h1 t (List.mem_map.2 ⟨(a, t, p), hg.mem_edgeList.2 hp, rfl⟩))) t ht
    obtain ⟨p, hp⟩ := Option.isSome_iff_exists.1 ha
    exact h2 (List.mem_map.2 ⟨(a, t, p), hg.mem_edgeList.2 hp, rfl⟩)
  · rw [List.any_eq_true]
    rintro ⟨w, hw, h1⟩
    exact h.disjoint w hw ((Dict.contains_iff_keys _ _).1 h1)

theorem wtIFl_start (fl : Rat → Rat) (g : Graph α Rat O) (weapons : List α) (values : Dict α Rat) (c : Rat) :
    WtIFl fl g weapons values (⟨Graph.empty, c, Dict.empty⟩ : WtSt α O) :=
  ⟨⟨inv_empty, (fun w t p h => nomatch h), (fun w t t' h => nomatch h)⟩, by simp [Dict.WF, Dict.keys, Dict.empty], (fun k hk => nomatch hk)⟩

/-- whatever the rounding: if `wtap_solver` comes to an end, it returns an engagement of all weapons -/
theorem wtapFl_partial (hfl : Rounding fl) {nlt : α → α → Bool} (ho : NodeOrder nlt) {g : Graph α Rat O} (hg : g.Inv) {weapons : List α} {values : Dict α Rat}
    (h : WtInput g weapons values) (hw0 : weapons ≠ []) {r} (hr : g.wtapSolverFl fl nlt weapons values = some r) : WtPostFl fl g weapons values r := by
  rw [wtapSolverFl_checks fl hg h] at hr
  exact pyWhile_inv (WtIFl fl g weapons values) (WtPostFl fl g weapons values)
    (fun s s' hi hs => (wtapFl_cont hfl ho hg h.wf h.valued h.armed hw0 hi hs).1)
    (fun s r hi hs => wtapFl_exit hfl ho hg h.wf h.valued h.armed hw0 hi hs) (wtIFl_start fl g weapons values _) hr

/-- if the order of multiplication does not matter, a round that is not the last one leaves fewer smaller values -/
theorem wtapFl_work (hfl : Rounding fl) {nlt : α → α → Bool} (ho : NodeOrder nlt) {g : Graph α Rat O} (hg : g.Inv) {weapons : List α} {values : Dict α Rat}
    (h : WtInput g weapons values) (hw0 : weapons ≠ []) (hof : OrderFree fl g.edge weapons) {s s1 : WtSt α O} (hi : WtIFl fl g weapons values s)
    (hstep : wtRoundFl fl nlt g values weapons s = .inl s1) :
    WtIFl fl g weapons values s1 ∧ wtMeasureFl fl g weapons values s1 < wtMeasureFl fl g weapons values s := by
  obtain ⟨c1, hfull, c3⟩ := wtapFl_cont hfl ho hg h.wf h.valued h.armed hw0 hi hstep
  refine ⟨c1, ?_⟩
  unfold wtMeasureFl
  dsimp only
  rw [if_pos hfull]
  by_cases hfs : WtFullFl fl weapons values s
  · rw [if_pos hfs]
    have hlt := c3 hof hfs
    refine filter_length_lt (y := s1.cur) (fun x _ hx => ?_) (hfull.candidate hg hof c1.1) (by simpa using hlt) (by simp [Rat.lt_irrefl])
    simp only [decide_eq_true_eq] at hx ⊢
    grind
  · rw [if_neg hfs]
    have := List.length_filter_le (fun c => decide (c < s1.cur)) ((allEng g (saddAll [] weapons)).map (fun M => flSurvivors fl values.items M))
    omega

/-- if the order of multiplication does not matter, it comes to an end -/
theorem wtapFl_total (hfl : Rounding fl) {nlt : α → α → Bool} (ho : NodeOrder nlt) {g : Graph α Rat O} (hg : g.Inv) {weapons : List α} {values : Dict α Rat}
    (h : WtInput g weapons values) (hw0 : weapons ≠ []) (hof : OrderFree fl g.edge weapons) :
    ∃ r, g.wtapSolverFl fl nlt weapons values = some r ∧ WtPostFl fl g weapons values r := by
  rw [wtapSolverFl_checks fl hg h]
  refine pyWhile_total (WtIFl fl g weapons values) (WtPostFl fl g weapons values) (wtMeasureFl fl g weapons values) ?_
    (fun s r hi hs => wtapFl_exit hfl ho hg h.wf h.valued h.armed hw0 hi hs) (wtIFl_start fl g weapons values _)
  exact fun s s1 hi hstep => wtapFl_work hfl ho hg h hw0 hof hi hstep
end

end GT

import Verif.Flow.Wtap
import Verif.Sp.BidirCmp
/-
`wtap_solver` on targets that cannot be compared: `damage_and_targets.sort()` compares the targets with equal damages.
-/
namespace GT
variable {α O : Type} [DecidableEq α]
open Graph

/-! ### model -/

/-- one weapon (assignment_problem.py:160-184), where the sort can raise; `cmp t t'`: the targets can be compared -/
def wtWeaponE (cmp nlt : α → α → Bool) (g : Graph α Rat O) (values : Dict α Rat) (s : WtSt α O) (w : α) : Py (WtSt α O) :=
  match forE (g.edgesFrom w) (s.assign, Dict.empty) (wtProbe g values w) with
  | .error e => .error e
  | .ok (a, eff) =>
    let l := eff.items.map (fun p => (p.2, p.1))
    if ∃ x ∈ l, ∃ y ∈ l, x.1 = y.1 ∧ x.2 ≠ y.2 ∧ cmp x.2 y.2 = false then .error .typeError
    else match pySort (balLt nlt) l with
    | [] => .error .indexError
    | (best, t) :: _ =>
      let nett := s.cur - best
      let imp := s.imp.set w (if 0 < nett then nett else 0)
      match wtEngage g a w t with
      | .error e => .error e
      | .ok a => match eff.get? t with
        | none => .error .keyError
        | some d => .ok ⟨a, d, imp⟩

/-- one iteration of `while True` (assignment_problem.py:159-186) -/
def wtRoundE (cmp nlt : α → α → Bool) (g : Graph α Rat O) (values : Dict α Rat) (weapons : List α) (s : WtSt α O) :
    WtSt α O ⊕ Py (Rat × Graph α Rat O) :=
  match forE weapons s (wtWeaponE cmp nlt g values) with
  | .error e => .inr (.error e)
  | .ok s => if s.imp.values.sum = 0 then .inr (.ok (s.cur, s.assign)) else .inl s

/-- `wtap_solver(probabilities, weapons, target_values)` (assignment_problem.py:96-187), where the sort can raise -/
def Graph.wtapSolverE (cmp nlt : α → α → Bool) (g : Graph α Rat O) (weapons : List α) (values : Dict α Rat) : Option (Py (Rat × Graph α Rat O)) :=
  if weapons.any (fun w => values.contains w) then some (.error .valueError)
  else
    let targets := g.edgeList.map (fun e => e.2.1)
    if targets.all (fun t => values.contains t) && values.keys.any (fun t => decide (t ∉ targets)) then some (.error .valueError)
    else pyWhile (wtRoundE cmp nlt g values weapons) ⟨Graph.empty, values.values.sum + 1, Dict.empty⟩

/-! ### proofs -/

/-- a weapon with two targets that cannot be compared -/
def WtTied (cmp : α → α → Bool) (w : α → α → Option Rat) (weapons : List α) : Prop :=
  ∃ x ∈ weapons, ∃ t t', (w x t).isSome ∧ (w x t').isSome ∧ t ≠ t' ∧ cmp t t' = false

theorem wtProbe_keys {g : Graph α Rat O} {values : Dict α Rat} {w : α} (L : List (α × α × Rat)) : ∀ (s s' : Graph α Rat O × Dict α Rat),
    forE L s (wtProbe g values w) = .ok s' → ∀ t, (s'.2.get? t).isSome → (s.2.get? t).isSome ∨ t ∈ L.map (fun e => e.2.1) := by
  induction L with
  | nil => intro s s' h t ht; cases h; exact .inl ht
  | cons e L ih =>
    intro s s' h t ht
    rw [forE] at h
    cases hp : wtProbe g values w s e with
    | error er => rw [hp] at h; cases h
    | ok s1 =>
      rw [hp] at h
      rcases ih s1 s' h t ht with h1 | h1
      · unfold wtProbe at hp
        split at hp
        · cases hp
        · split at hp
          · cases hp
          · cases hp
            dsimp only at h1
            rw [Dict.get?_set] at h1
            split at h1
            · rename_i h2; subst h2; exact .inr (by simp)
            · exact .inl h1
      · exact .inr (by rw [List.map_cons]; exact List.mem_cons_of_mem _ h1)

theorem wtProbe_wf {g : Graph α Rat O} {values : Dict α Rat} {w : α} (L : List (α × α × Rat)) : ∀ (s s' : Graph α Rat O × Dict α Rat),
    forE L s (wtProbe g values w) = .ok s' → s.2.WF → s'.2.WF := by
  induction L with
  | nil => intro s s' h hw; cases h; exact hw
  | cons e L ih =>
    intro s s' h hw
    rw [forE] at h
    cases hp : wtProbe g values w s e with
    | error er => rw [hp] at h; cases h
    | ok s1 =>
      rw [hp] at h
      refine ih s1 s' h ?_
      unfold wtProbe at hp
      split at hp
      · cases hp
      · split at hp
        · cases hp
        · cases hp; exact hw.set _ _

theorem wtWeaponE_cut {cmp nlt : α → α → Bool} {g : Graph α Rat O} (hg : g.Inv) {values : Dict α Rat} (s : WtSt α O) (w : α) :
    wtWeaponE cmp nlt g values s w = wtWeapon nlt g values s w ∨
    ((∃ t t', (g.edge w t).isSome ∧ (g.edge w t').isSome ∧ t ≠ t' ∧ cmp t t' = false) ∧ wtWeaponE cmp nlt g values s w = .error .typeError) := by
  unfold wtWeaponE wtWeapon
  cases hf : forE (g.edgesFrom w) (s.assign, Dict.empty) (wtProbe g values w) with
  | error e => exact .inl rfl
  | ok x =>
    obtain ⟨a, eff⟩ := x
    dsimp only
    split
    · rename_i hx
      obtain ⟨⟨d, t⟩, h1, ⟨d', t'⟩, h2, _, h4, h5⟩ := hx
      have hwf : eff.WF := wtProbe_wf _ _ _ hf (by simp [Dict.WF, Dict.keys, Dict.empty])
      have key : ∀ d t, (d, t) ∈ eff.items.map (fun p => (p.2, p.1)) → (g.edge w t).isSome := by
        intro d t h
        obtain ⟨⟨t0, d0⟩, h6, h7⟩ := List.mem_map.1 h
        cases h7
        have := (Dict.get?_eq_some_iff hwf _ _).2 h6
        rcases wtProbe_keys _ _ _ hf t0 (by show (eff.get? t0).isSome = true; rw [this]; rfl) with h8 | h8
        · cases h8
        · obtain ⟨⟨x, y, p⟩, h9, h10⟩ := List.mem_map.1 h8
          cases h10
          have := hg.mem_edgesFrom.1 h9
          show (g.edge w y).isSome = true
          rw [this.2]; rfl
      exact .inr ⟨⟨t, t', key _ _ h1, key _ _ h2, h4, h5⟩, rfl⟩
    · exact .inl rfl

theorem wtRoundE_cut {cmp nlt : α → α → Bool} {g : Graph α Rat O} (hg : g.Inv) {values : Dict α Rat} (weapons : List α) (s : WtSt α O) :
    wtRoundE cmp nlt g values weapons s = wtRound nlt g values weapons s ∨
    (WtTied cmp g.edge weapons ∧ wtRoundE cmp nlt g values weapons s = .inr (.error .typeError)) := by
  have key : ∀ (l : List α) (s : WtSt α O), (∀ w ∈ l, w ∈ weapons) →
      forE l s (wtWeaponE cmp nlt g values) = forE l s (wtWeapon nlt g values) ∨
      (WtTied cmp g.edge weapons ∧ forE l s (wtWeaponE cmp nlt g values) = .error .typeError) := by
    intro l
    induction l with
    | nil => intro s _; exact .inl rfl
    | cons w l ih =>
      intro s hl
      rw [forE, forE]
      rcases wtWeaponE_cut (cmp := cmp) (nlt := nlt) hg (values := values) s w with h | ⟨⟨t, t', h1, h2, h3, h4⟩, h⟩
      · rw [h]
        cases wtWeapon nlt g values s w with
        | error e => exact .inl rfl
        | ok s1 => exact ih s1 (fun x hx => hl x (List.mem_cons_of_mem _ hx))
      · rw [h]; exact .inr ⟨⟨w, hl w (by simp), t, t', h1, h2, h3, h4⟩, rfl⟩
  unfold wtRoundE wtRound
  rcases key weapons s (fun _ h => h) with h | ⟨ht, h⟩
  · rw [h]; exact .inl rfl
  · rw [h]; exact .inr ⟨ht, rfl⟩

theorem wtapSolverE_cut {cmp nlt : α → α → Bool} {g : Graph α Rat O} (hg : g.Inv) {weapons : List α} {values : Dict α Rat}
    {r : Py (Rat × Graph α Rat O)} (hr : g.wtapSolver nlt weapons values = some r) :
    g.wtapSolverE cmp nlt weapons values = some r ∨
    (WtTied cmp g.edge weapons ∧ g.wtapSolverE cmp nlt weapons values = some (.error .typeError)) := by
  unfold wtapSolverE
  unfold wtapSolver at hr
  split
  · rename_i h; rw [if_pos h] at hr; exact .inl hr
  · rename_i h
    rw [if_neg h] at hr
    dsimp only at hr ⊢
    split
    · rename_i h2; rw [if_pos h2] at hr; exact .inl hr
    · rename_i h2
      rw [if_neg h2] at hr
      by_cases ht : WtTied cmp g.edge weapons
      · rcases pyWhile_cut (stepE := wtRoundE cmp nlt g values weapons) (bad := .error .typeError)
          (fun s => (wtRoundE_cut hg weapons s).imp id And.right) hr with h' | h'
        · exact .inl h'
        · exact .inr ⟨ht, h'⟩
      · have : wtRoundE cmp nlt g values weapons = wtRound nlt g values weapons := by
          funext s
          rcases wtRoundE_cut (cmp := cmp) (nlt := nlt) hg (values := values) weapons s with h | ⟨h, _⟩
          · exact h
          · exact absurd h ht
        rw [this]; exact .inl hr

/-- the first weapon has two targets with the same effect that cannot be compared -/
theorem wtapSolverE_tied {cmp nlt : α → α → Bool} {g : Graph α Rat O} (hg : g.Inv) {w : α} {ws : List α} {values : Dict α Rat}
    (h : WtInput g (w :: ws) values) {t t' : α} {p p' : Rat} (h1 : g.edge w t = some p) (h2 : g.edge w t' = some p') (hne : t ≠ t')
    (hcmp : cmp t t' = false) (heq : survivors values.items [(w, t, p)] = survivors values.items [(w, t', p')]) :
    g.wtapSolverE cmp nlt (w :: ws) values = some (.error .typeError) := by
  have hchk := wtap_checks (nlt := nlt) hg h
  have hok : WtOk g (w :: ws) (Graph.empty : Graph α Rat O) := ⟨inv_empty, fun _ _ _ h => (nomatch h), fun _ _ _ h => (nomatch h)⟩
  obtain ⟨a, eff, e1, e2, e3, e4, e5, e6, -⟩ := wtProbe_fold h.wf h.valued hok (w := w) (by simp) (g.edgesFrom w) Graph.empty Dict.empty
    (fun x t p hm => (hg.mem_edgesFrom.1 hm).2) hok (fun _ _ _ => rfl) (by simp [Dict.WF, Dict.keys, Dict.empty]) (fun t d hd => by cases hd)
  have hmem : ∀ t p, g.edge w t = some p → (survivors values.items [(w, t, p)], t) ∈ eff.items.map (fun p => (p.2, p.1)) := by
    intro t p hp
    obtain ⟨d, hd⟩ := Option.isSome_iff_exists.1 (e6 w t p (hg.mem_edgesFrom.2 ⟨rfl, hp⟩))
    obtain ⟨q, hq, hq'⟩ := e5 t d hd
    rw [hp] at hq; cases hq
    have : retarget (Graph.empty : Graph α Rat O).edgeList w t p = [(w, t, p)] := rfl
    rw [this] at hq'
    exact List.mem_map.2 ⟨(t, d), (Dict.get?_eq_some_iff e4 _ _).1 hd, by rw [hq']⟩
  have hw : wtWeaponE cmp nlt g values (⟨Graph.empty, values.values.sum + 1, Dict.empty⟩ : WtSt α O) w = .error .typeError := by
    unfold wtWeaponE
    dsimp only
    rw [e1]
    dsimp only
    rw [if_pos]
    exact ⟨_, hmem t p h1, _, hmem t' p' h2, heq, hne, hcmp⟩
  unfold wtapSolverE
  unfold wtapSolver at hchk
  split
  · rename_i hx
    exfalso
    obtain ⟨x, hx1, hx2⟩ := List.any_eq_true.1 hx
    exact h.disjoint x hx1 ((Dict.contains_iff_keys _ _).1 hx2)
  · dsimp only
    split
    · rename_i hx
      exfalso
      rw [Bool.and_eq_true, List.all_eq_true, List.any_eq_true] at hx
      obtain ⟨h3, x, hx1, hx2⟩ := hx
      simp only [decide_eq_true_eq] at hx2
      obtain ⟨a, ha⟩ := h.covered (fun a t p hp => (Dict.contains_iff_keys _ _).1 (h3 t (List.mem_map.2 ⟨(a, t, p), hg.mem_edgeList.2 hp, rfl⟩))) x hx1
      obtain ⟨q, hq⟩ := Option.isSome_iff_exists.1 ha
      exact hx2 (List.mem_map.2 ⟨(a, x, q), hg.mem_edgeList.2 hq, rfl⟩)
    · refine pyWhile_inr ?_
      unfold wtRoundE
      rw [forE, hw]

end GT

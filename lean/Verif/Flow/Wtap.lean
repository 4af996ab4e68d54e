import Verif.Flow.Assign
import Verif.DictComp
/-
Model of `wtap_solver` (graph/assignment_problem.py:96-228).
-/
namespace GT
variable {α O : Type} [DecidableEq α]
open Graph

/-- `_get_current_engagement(d, assignment)` (assignment_problem.py:190-200) -/
def wtEngaged (a : Graph α Rat O) (d : α) : Option α :=
  if a.has d then
    match a.edgesFrom d with
    | [] => none
    | (_, t, _) :: _ => some t
  else none

/-- one edge in the first loop of `_damages` (assignment_problem.py:215-219).
Simplification: a missing probability raises at once (Python raises at `1 - p_`); no assignment has one. -/
def wtHit (g : Graph α Rat O) (sv : Dict α (List Rat)) (e : α × α × Rat) : Py (Dict α (List Rat)) :=
  match g.edge e.1 e.2.1 with
  | none => .error .typeError
  | some p => match sv.get? e.2.1 with
    | none => .error .keyError
    | some l => .ok (sv.set e.2.1 (l ++ [p]))

/-- `_damages(probabilities, assignment, target_values)` (assignment_problem.py:203-228) -/
def wtDamages (g a : Graph α Rat O) (values : Dict α Rat) : Py Rat :=
  match forE a.edgeList (Dict.comp values.keys (fun _ => [])) (wtHit g) with
  | .error e => .error e
  | .ok sv => forE sv.items 0 (fun total x => match values.get? x.1 with
    | none => .error .keyError
    | some v => .ok (total + x.2.foldl (fun p p_ => p * (1 - p_)) 1 * v))

/-- drop the current engagement of `w` unless it is `t`, engage `t` (assignment_problem.py:164-168 and 179-183) -/
def wtEngage (g a : Graph α Rat O) (w t : α) : Py (Graph α Rat O) :=
  if wtEngaged a w = some t then .ok a
  else
    let a1 := match wtEngaged a w with
      | none => a
      | some c => if a.has w then a.delEdge w c else a
    match g.edge w t with
    | none => .error .assertionError
    | some p => .ok (a1.addEdge w t p)

/-- the effect of engaging one target (assignment_problem.py:163-171) -/
def wtProbe (g : Graph α Rat O) (values : Dict α Rat) (w : α) (s : Graph α Rat O × Dict α Rat) (e : α × α × Rat) :
    Py (Graph α Rat O × Dict α Rat) :=
  match wtEngage g s.1 w e.2.1 with
  | .error er => .error er
  | .ok a => match wtDamages g a values with
    | .error er => .error er
    | .ok d => .ok (a, s.2.set e.2.1 d)

/-- the locals of the main loop -/
structure WtSt (α O : Type) where
  assign : Graph α Rat O
  cur : Rat
  imp : Dict α Rat

/-- one weapon (assignment_problem.py:160-184) -/
def wtWeapon (nlt : α → α → Bool) (g : Graph α Rat O) (values : Dict α Rat) (s : WtSt α O) (w : α) : Py (WtSt α O) :=
  match forE (g.edgesFrom w) (s.assign, Dict.empty) (wtProbe g values w) with
  | .error e => .error e
  | .ok (a, eff) =>
    match pySort (balLt nlt) (eff.items.map (fun p => (p.2, p.1))) with
    | [] => .error .indexError
    | (best, t) :: _ =>
      let nett := s.cur - best
      let imp := s.imp.set w (if 0 < nett then nett else 0)
      match wtEngage g a w t with
      | .error e => .error e
      | .ok a => match eff.get? t with
        | none => .error .keyError
        | some d => .ok ⟨a, d, imp⟩

/-- one iteration of `while True` (assignment_problem.py:159-186) -/
def wtRound (nlt : α → α → Bool) (g : Graph α Rat O) (values : Dict α Rat) (weapons : List α) (s : WtSt α O) :
    WtSt α O ⊕ Py (Rat × Graph α Rat O) :=
  match forE weapons s (wtWeapon nlt g values) with
  | .error e => .inr (.error e)
  | .ok s => if s.imp.values.sum = 0 then .inr (.ok (s.cur, s.assign)) else .inl s

/-- `wtap_solver(probabilities, weapons, target_values)` (assignment_problem.py:96-187).
`nlt` is the order of the target ids that breaks ties in `sort`.  Simplifications: exact rationals; the type assertions hold by
typing. -/
def Graph.wtapSolver (nlt : α → α → Bool) (g : Graph α Rat O) (weapons : List α) (values : Dict α Rat) : Option (Py (Rat × Graph α Rat O)) :=
  if weapons.any (fun w => values.contains w) then some (.error .valueError)
  else
    let targets := g.edgeList.map (fun e => e.2.1)
    -- `targetset > target_prob_set`: a proper superset
    if targets.all (fun t => values.contains t) && values.keys.any (fun t => decide (t ∉ targets)) then some (.error .valueError)
    else pyWhile (wtRound nlt g values weapons) ⟨Graph.empty, values.values.sum + 1, Dict.empty⟩

/-! ### products and survivors -/

section
variable {β : Type}
omit [DecidableEq α]

theorem prodL_perm {l m : List β} (h : l.Perm m) (f : β → Rat) : prodL l f = prodL m f := by
  unfold prodL
  induction h with
  | nil => rfl
  | cons a _ ih => simp only [List.foldr_cons]; rw [ih]
  | swap a b l => simp only [List.foldr_cons]; grind
  | trans _ _ h1 h2 => rw [h1, h2]

theorem foldl_prod (l : List Rat) (acc : Rat) : l.foldl (fun p p_ => p * (1 - p_)) acc = acc * prodL l (fun p => 1 - p) := by
  induction l generalizing acc with
  | nil => simp only [List.foldl_nil, prodL, List.foldr_nil]; grind
  | cons a l ih => rw [List.foldl_cons, ih]; simp only [prodL, List.foldr_cons]; grind

theorem prodL_map {γ : Type} (l : List γ) (g : γ → β) (f : β → Rat) : prodL (l.map g) f = prodL l (fun x => f (g x)) := by
  unfold prodL; rw [List.foldr_map]
end

theorem survivors_perm {values : List (α × Rat)} {M M' : List (α × α × Rat)} (h : M.Perm M') : survivors values M = survivors values M' := by
  unfold survivors
  refine sumL_congr (fun tv _ => ?_)
  rw [prodL_perm (h.filter _)]

theorem Dict.items_eq {K V : Type} [DecidableEq K] {d : Dict K V} (hd : d.WF) {f : K → V} (h : ∀ k ∈ d.keys, d.get? k = some (f k)) :
    d.items = d.keys.map (fun k => (k, f k)) := by
  unfold Dict.keys
  rw [List.map_map]
  conv => lhs; rw [← List.map_id d.items]
  refine List.map_congr_left (fun p hp => ?_)
  have h1 := (Dict.get?_eq_some_iff hd p.1 p.2).2 hp
  have h2 := h p.1 (Dict.mem_keys_of_get? h1)
  rw [h1] at h2
  have : p.2 = f p.1 := Option.some.inj h2
  show p = (p.1, f p.1)
  rw [← this]

theorem wtHit_fold {g : Graph α Rat O} (M : List (α × α × Rat)) : ∀ (sv : Dict α (List Rat)) (L : α → List Rat), sv.WF →
    (∀ k ∈ sv.keys, sv.get? k = some (L k)) → (∀ w t p, (w, t, p) ∈ M → g.edge w t = some p ∧ t ∈ sv.keys) →
    ∃ sv', forE M sv (wtHit g) = .ok sv' ∧ sv'.WF ∧ sv'.keys = sv.keys ∧
      ∀ k ∈ sv.keys, sv'.get? k = some (L k ++ (M.filter (fun e => decide (e.2.1 = k))).map (fun e => e.2.2)) := by
  induction M with
  | nil => intro sv L h1 h2 _; exact ⟨sv, rfl, h1, rfl, by simpa using h2⟩
  | cons e M ih =>
    obtain ⟨w, t, p⟩ := e
    intro sv L h1 h2 h3
    obtain ⟨hp, ht⟩ := h3 w t p (by simp)
    have hstep : wtHit g sv (w, t, p) = .ok (sv.set t (L t ++ [p])) := by
      unfold wtHit; dsimp only; rw [hp]; dsimp only; rw [h2 t ht]
    have hk : (sv.set t (L t ++ [p])).keys = sv.keys := Dict.keys_set_of_mem _ ht
    unfold forE
    rw [hstep]
    obtain ⟨sv', h4, h5, h6, h7⟩ := ih (sv.set t (L t ++ [p])) (fun k => if t = k then L t ++ [p] else L k) (h1.set _ _)
      (fun k hk' => by
        rw [hk] at hk'
        rw [Dict.get?_set]
        by_cases htk : t = k
        · rw [if_pos htk, if_pos htk]
        · rw [if_neg htk, if_neg htk]; exact h2 k hk')
      (fun w t p hm => by rw [hk]; exact h3 w t p (List.mem_cons_of_mem _ hm))
    rw [hk] at h6 h7
    refine ⟨sv', h4, h5, h6, fun k hkk => ?_⟩
    rw [h7 k hkk]
    by_cases htk : t = k
    · subst htk; simp
    · rw [if_neg htk, List.filter_cons_of_neg (by simpa using htk)]

theorem forE_sum {β : Type} (l : List β) (f : Rat → β → Py Rat) (h : β → Rat) (hf : ∀ x ∈ l, ∀ acc, f acc x = .ok (acc + h x)) (acc : Rat) :
    forE l acc f = .ok (acc + sumL l h) := by
  induction l generalizing acc with
  | nil => unfold forE; rw [sumL_nil]; congr 1; grind
  | cons x l ih =>
    unfold forE
    rw [hf x (by simp)]
    dsimp only
    rw [ih (fun y hy => hf y (List.mem_cons_of_mem _ hy)), sumL_cons]
    congr 1; grind

/-- `_damages` computes the surviving value -/
theorem wtDamages_spec {g a : Graph α Rat O} {values : Dict α Rat} (hv : values.WF)
    (ha : ∀ w t p, (w, t, p) ∈ a.edgeList → g.edge w t = some p ∧ t ∈ values.keys) :
    wtDamages g a values = .ok (survivors values.items a.edgeList) := by
  unfold wtDamages
  have hk := Dict.comp_keys hv (fun _ => ([] : List Rat))
  obtain ⟨sv, h1, h2, h3, h4⟩ := wtHit_fold (g := g) a.edgeList (Dict.comp values.keys (fun _ => [])) (fun _ => [])
    (by unfold Dict.WF; rw [hk]; exact hv) (fun k hk' => by rw [hk] at hk'; rw [Dict.comp_get?, if_pos hk']) (fun w t p hm => by rw [hk]; exact ha w t p hm)
  rw [h1]
  dsimp only
  rw [hk] at h3 h4
  have hit : sv.items = values.items.map (fun tv => (tv.1, (a.edgeList.filter (fun e => decide (e.2.1 = tv.1))).map (fun e => e.2.2))) := by
    rw [Dict.items_eq (f := fun k => (a.edgeList.filter (fun e => decide (e.2.1 = k))).map (fun e => e.2.2)) h2 (fun k hk' => by
      rw [h3] at hk'; rw [h4 k hk', List.nil_append]), h3]
    unfold Dict.keys; rw [List.map_map]; rfl
  rw [hit]
  rw [forE_sum (h := fun x => ((values.get? x.1).getD 0) * prodL x.2 (fun p => 1 - p))]
  · rw [sumL_map]
    unfold survivors
    congr 1
    rw [sumL_congr (g := fun tv => tv.2 * prodL (a.edgeList.filter (fun e => decide (e.2.1 = tv.1))) (fun e => 1 - e.2.2))]
    · grind
    · intro tv htv
      have := (Dict.get?_eq_some_iff hv tv.1 tv.2).2 htv
      rw [this, prodL_map]; rfl
  · intro x hx acc
    obtain ⟨tv, htv, rfl⟩ := List.mem_map.1 hx
    have := (Dict.get?_eq_some_iff hv tv.1 tv.2).2 htv
    dsimp only
    rw [this, foldl_prod]
    dsimp only
    congr 1
    show _ = acc + tv.2 * _
    grind

/-! ### one weapon -/

theorem perm_of_nodup {β : Type} [DecidableEq β] {l m : List β} (hl : l.Nodup) (hm : m.Nodup) (h : ∀ x, x ∈ l ↔ x ∈ m) : l.Perm m := by
  induction l generalizing m with
  | nil =>
    cases m with
    | nil => exact .refl _
    | cons a m => exact absurd ((h a).2 (by simp)) (by simp)
  | cons a l ih =>
    rw [List.nodup_cons] at hl
    have ham : a ∈ m := (h a).1 (by simp)
    have h1 := List.perm_cons_erase ham
    have hnd := (h1.nodup_iff.1 hm)
    rw [List.nodup_cons] at hnd
    refine (List.Perm.cons a (ih hl.2 hnd.2 (fun x => ?_))).trans h1.symm
    have h2 := h x
    rw [h1.mem_iff, List.mem_cons, List.mem_cons] at h2
    constructor
    · intro hx
      rcases h2.1 (.inr hx) with h3 | h3
      · subst h3; exact absurd hx hl.1
      · exact h3
    · intro hx
      rcases h2.2 (.inr hx) with h3 | h3
      · subst h3; exact absurd hx hnd.1
      · exact h3

/-- an assignment of some of the weapons -/
structure WtOk (g : Graph α Rat O) (weapons : List α) (a : Graph α Rat O) : Prop where
  inv : a.Inv
  adm : ∀ w t p, a.edge w t = some p → g.edge w t = some p ∧ w ∈ weapons
  one : ∀ w t t', (a.edge w t).isSome → (a.edge w t').isSome → t = t'

theorem wtEngaged_spec {g a : Graph α Rat O} {weapons : List α} (h : WtOk g weapons a) (w : α) :
    (∃ t, (a.edge w t).isSome ∧ wtEngaged a w = some t) ∨ ((∀ t, a.edge w t = none) ∧ wtEngaged a w = none) := by
  unfold wtEngaged
  cases hf : a.edgesFrom w with
  | nil =>
    right
    refine ⟨fun t => ?_, by split <;> rfl⟩
    cases ht : a.edge w t with
    | none => rfl
    | some p =>
      have := (h.inv.mem_edgesFrom (n := w) (a := w) (b := t) (v := p)).2 ⟨rfl, ht⟩
      rw [hf] at this; cases this
  | cons e es =>
    left
    obtain ⟨x, t, p⟩ := e
    have := (h.inv.mem_edgesFrom (n := w) (a := x) (b := t) (v := p)).1 (by rw [hf]; simp)
    refine ⟨t, by rw [this.2]; rfl, ?_⟩
    rw [if_pos (has_iff.2 (h.inv.edge_mem this.2).1)]

/-- row `w` of `a` replaced by the single engagement of `t` -/
def Moved (a a' : Graph α Rat O) (w t : α) (p : Rat) : Prop :=
  ∀ x y, a'.edge x y = if x = w then (if y = t then some p else none) else a.edge x y

theorem Moved.ok {g a a' : Graph α Rat O} {weapons : List α} (h : WtOk g weapons a) {w t : α} {p : Rat} (hw : w ∈ weapons)
    (hp : g.edge w t = some p) (hi : a'.Inv) (hm : Moved a a' w t p) : WtOk g weapons a' := by
  refine ⟨hi, fun x y q hq => ?_, fun x y y' h1 h2 => ?_⟩
  · rw [hm] at hq
    by_cases hx : x = w
    · subst hx; rw [if_pos rfl] at hq
      by_cases hy : y = t
      · subst hy; rw [if_pos rfl] at hq; cases hq; exact ⟨hp, hw⟩
      · rw [if_neg hy] at hq; cases hq
    · rw [if_neg hx] at hq; exact h.adm x y q hq
  · rw [hm] at h1 h2
    by_cases hx : x = w
    · subst hx; rw [if_pos rfl] at h1 h2
      by_cases hy : y = t
      · by_cases hy' : y' = t
        · rw [hy, hy']
        · rw [if_neg hy'] at h2; cases h2
      · rw [if_neg hy] at h1; cases h1
    · rw [if_neg hx] at h1 h2; exact h.one x y y' h1 h2

theorem Moved.perm {a a' : Graph α Rat O} (h : a.Inv) (h' : a'.Inv) {w t : α} {p : Rat} (hm : Moved a a' w t p) :
    a'.edgeList.Perm (retarget a.edgeList w t p) := by
  refine perm_of_nodup h'.edgeList_nodup ?_ ?_
  · unfold retarget
    rw [List.nodup_cons]
    exact ⟨by simp, h.edgeList_nodup.sublist List.filter_sublist⟩
  · rintro ⟨x, y, q⟩
    unfold retarget
    rw [h'.mem_edgeList, hm, List.mem_cons, List.mem_filter, h.mem_edgeList]
    simp only [Prod.mk.injEq, decide_eq_true_eq]
    by_cases hx : x = w
    · rw [if_pos hx]
      by_cases hy : y = t
      · rw [if_pos hy]
        constructor
        · intro hq; cases hq; exact .inl ⟨hx, hy, rfl⟩
        · rintro (⟨_, _, rfl⟩ | ⟨_, h2⟩)
          · rfl
          · exact absurd hx h2
      · rw [if_neg hy]
        constructor
        · intro hq; cases hq
        · rintro (⟨_, h2, _⟩ | ⟨_, h2⟩)
          · exact absurd h2 hy
          · exact absurd hx h2
    · rw [if_neg hx]
      constructor
      · intro hq; exact .inr ⟨hq, hx⟩
      · rintro (⟨h2, _⟩ | ⟨h2, _⟩)
        · exact absurd h2 hx
        · exact h2

theorem wtEngage_spec {g a : Graph α Rat O} {weapons : List α} (h : WtOk g weapons a) {w t : α} {p : Rat}
    (hp : g.edge w t = some p) : ∃ a', wtEngage g a w t = .ok a' ∧ a'.Inv ∧ Moved a a' w t p := by
  unfold wtEngage
  rcases wtEngaged_spec h w with ⟨c, hc, he⟩ | ⟨hno, he⟩
  · rw [he]
    by_cases hct : c = t
    · subst hct
      rw [if_pos rfl]
      refine ⟨a, rfl, h.inv, fun x y => ?_⟩
      by_cases hx : x = w
      · subst hx; rw [if_pos rfl]
        by_cases hy : y = c
        · subst hy; rw [if_pos rfl]
          obtain ⟨q, hq⟩ := Option.isSome_iff_exists.1 hc
          rw [hq]; have := (h.adm x y q hq).1; rw [hp] at this; exact this.symm
        · rw [if_neg hy]
          cases hxy : a.edge x y with
          | none => rfl
          | some q => exact absurd (h.one x y c (by rw [hxy]; rfl) hc) hy
      · rw [if_neg hx]
    · rw [if_neg (fun hh => hct (Option.some.inj hh))]
      obtain ⟨q, hq⟩ := Option.isSome_iff_exists.1 hc
      dsimp only
      rw [if_pos (has_iff.2 (h.inv.edge_mem hq).1), hp]
      refine ⟨_, rfl, (h.inv.delEdge w c).addEdge w t p, fun x y => ?_⟩
      rw [edge_addEdge, edge_delEdge h.inv]
      by_cases hx : x = w
      · subst hx; rw [if_pos rfl]
        by_cases hy : y = t
        · subst hy; simp
        · rw [if_neg hy, if_neg (fun hh => hy hh.2.symm)]
          by_cases hyc : y = c
          · subst hyc; simp
          · rw [if_neg (fun hh => hyc hh.2.symm)]
            cases hxy : a.edge x y with
            | none => rfl
            | some q => exact absurd (h.one x y c (by rw [hxy]; rfl) hc) hyc
      · rw [if_neg hx, if_neg (fun hh => hx hh.1.symm), if_neg (fun hh => hx hh.1.symm)]
  · rw [he, if_neg (fun hh => nomatch hh)]
    dsimp only
    rw [hp]
    refine ⟨_, rfl, h.inv.addEdge w t p, fun x y => ?_⟩
    rw [edge_addEdge]
    by_cases hx : x = w
    · subst hx; rw [if_pos rfl]
      by_cases hy : y = t
      · subst hy; simp
      · rw [if_neg hy, if_neg (fun hh => hy hh.2.symm)]; exact hno y
    · rw [if_neg hx, if_neg (fun hh => hx hh.1.symm)]

theorem WtOk.damages {g a : Graph α Rat O} {weapons : List α} (h : WtOk g weapons a) {values : Dict α Rat} (hv : values.WF)
    (ht : ∀ w ∈ weapons, ∀ t p, g.edge w t = some p → t ∈ values.keys) :
    wtDamages g a values = .ok (survivors values.items a.edgeList) :=
  wtDamages_spec hv (fun w t p hm => by
    have := h.adm w t p (h.inv.mem_edgeList.1 hm)
    exact ⟨this.1, ht w this.2 t p this.1⟩)

/-- the loop over the targets of one weapon -/
theorem wtProbe_fold {g a0 : Graph α Rat O} {weapons : List α} {values : Dict α Rat} (hv : values.WF)
    (ht : ∀ w ∈ weapons, ∀ t p, g.edge w t = some p → t ∈ values.keys) (h0 : WtOk g weapons a0) {w : α} (hw : w ∈ weapons)
    (L : List (α × α × Rat)) : ∀ (a : Graph α Rat O) (eff : Dict α Rat), (∀ x t p, (x, t, p) ∈ L → g.edge w t = some p) →
    WtOk g weapons a → (∀ x y, x ≠ w → a.edge x y = a0.edge x y) → eff.WF →
    (∀ t d, eff.get? t = some d → ∃ p, g.edge w t = some p ∧ d = survivors values.items (retarget a0.edgeList w t p)) →
    ∃ a' eff', forE L (a, eff) (wtProbe g values w) = .ok (a', eff') ∧ WtOk g weapons a' ∧ (∀ x y, x ≠ w → a'.edge x y = a0.edge x y) ∧
      eff'.WF ∧ (∀ t d, eff'.get? t = some d → ∃ p, g.edge w t = some p ∧ d = survivors values.items (retarget a0.edgeList w t p)) ∧
      (∀ x t p, (x, t, p) ∈ L → (eff'.get? t).isSome) ∧ (∀ t, (eff.get? t).isSome → (eff'.get? t).isSome) := by
  induction L with
  | nil => intro a eff _ h1 h2 h3 h4; exact ⟨a, eff, rfl, h1, h2, h3, h4, (fun x t p h => nomatch h), fun t h => h⟩
  | cons e L ih =>
    obtain ⟨x, t, p⟩ := e
    intro a eff hL h1 h2 h3 h4
    have hp := hL x t p (by simp)
    obtain ⟨a1, h5, h6, h7⟩ := wtEngage_spec h1 hp
    have hmv : Moved a0 a1 w t p := by
      intro y z
      rw [h7]
      by_cases hy : y = w
      · rw [if_pos hy, if_pos hy]
      · rw [if_neg hy, if_neg hy]; exact h2 y z hy
    have hok1 : WtOk g weapons a1 := h7.ok h1 hw hp h6
    have hstep : wtProbe g values w (a, eff) (x, t, p) = .ok (a1, eff.set t (survivors values.items (retarget a0.edgeList w t p))) := by
      unfold wtProbe; dsimp only; rw [h5]; dsimp only; rw [hok1.damages hv ht, survivors_perm (hmv.perm h0.inv h6)]
    unfold forE
    rw [hstep]
    obtain ⟨a', eff', h8, h9, h10, h11, h12, h13, h14⟩ := ih a1 (eff.set t (survivors values.items (retarget a0.edgeList w t p)))
      (fun x t p hm => hL x t p (List.mem_cons_of_mem _ hm)) hok1
      (fun y z hy => by rw [hmv, if_neg hy]) (h3.set _ _) (fun t' d hd => by
        rw [Dict.get?_set] at hd
        by_cases htt : t = t'
        · rw [if_pos htt] at hd; cases hd; subst htt; exact ⟨p, hp, rfl⟩
        · rw [if_neg htt] at hd; exact h4 t' d hd)
    refine ⟨a', eff', h8, h9, h10, h11, h12, fun y t' p' hm => ?_, fun t' ht' => h14 t' ?_⟩
    · rcases List.mem_cons.1 hm with hh | hh
      · cases hh; exact h14 t (by rw [Dict.get?_set_self]; rfl)
      · exact h13 y t' p' hh
    · rw [Dict.get?_set]; split
      · rfl
      · exact ht'

/-- one weapon is moved to a best target -/
theorem wtWeapon_spec {nlt : α → α → Bool} (ho : NodeOrder nlt) {g : Graph α Rat O} (hg : g.Inv) {weapons : List α} {values : Dict α Rat}
    (hv : values.WF) (ht : ∀ w ∈ weapons, ∀ t p, g.edge w t = some p → t ∈ values.keys) {s : WtSt α O} (h : WtOk g weapons s.assign) {w : α}
    (hw : w ∈ weapons) (hne : ∃ t, (g.edge w t).isSome) :
    ∃ s' t p, wtWeapon nlt g values s w = .ok s' ∧ WtOk g weapons s'.assign ∧ g.edge w t = some p ∧ Moved s.assign s'.assign w t p ∧
      s'.cur = survivors values.items s'.assign.edgeList ∧
      (∀ t' p', g.edge w t' = some p' → s'.cur ≤ survivors values.items (retarget s.assign.edgeList w t' p')) ∧
      s'.imp = s.imp.set w (if 0 < s.cur - s'.cur then s.cur - s'.cur else 0) := by
  unfold wtWeapon
  obtain ⟨a, eff, h1, h2, h3, h4, h5, h6, -⟩ := wtProbe_fold hv ht h hw (g.edgesFrom w) s.assign Dict.empty
    (fun x t p hm => (hg.mem_edgesFrom.1 hm).2) h (fun _ _ _ => rfl) (by simp [Dict.WF, Dict.keys, Dict.empty]) (fun t d hd => by cases hd)
  rw [h1]
  dsimp only
  obtain ⟨t0, ht0⟩ := hne
  obtain ⟨p0, hp0⟩ := Option.isSome_iff_exists.1 ht0
  have hmem : ∀ t p, g.edge w t = some p → eff.get? t = some (survivors values.items (retarget s.assign.edgeList w t p)) := by
    intro t p hp
    obtain ⟨d, hd⟩ := Option.isSome_iff_exists.1 (h6 w t p (hg.mem_edgesFrom.2 ⟨rfl, hp⟩))
    obtain ⟨q, hq, hq'⟩ := h5 t d hd
    rw [hp] at hq; cases hq; rw [hd, hq']
  have hsm : ∀ d t, (d, t) ∈ pySort (balLt nlt) (eff.items.map (fun p => (p.2, p.1))) ↔ eff.get? t = some d := by
    intro d t
    rw [mem_pySort, Dict.get?_eq_some_iff h4, List.mem_map]
    constructor
    · rintro ⟨⟨x, y⟩, hx, he⟩; cases he; exact hx
    · intro hx; exact ⟨(t, d), hx, rfl⟩
  have hsorted := pySort_pairwise (balLt_trans ho) (balLt_asymm ho) (eff.items.map (fun p => (p.2, p.1)))
  cases hL : pySort (balLt nlt) (eff.items.map (fun p => (p.2, p.1))) with
  | nil =>
    have := (hsm _ t0).2 (hmem t0 p0 hp0)
    rw [hL] at this; cases this
  | cons b l =>
    obtain ⟨best, t⟩ := b
    have hb := (hsm best t).1 (by rw [hL]; simp)
    obtain ⟨p, hp, hbp⟩ := h5 t best hb
    obtain ⟨a1, h7, h8, h9⟩ := wtEngage_spec h2 hp
    have hmv : Moved s.assign a1 w t p := by
      intro y z
      rw [h9]
      by_cases hy : y = w
      · rw [if_pos hy, if_pos hy]
      · rw [if_neg hy, if_neg hy]; exact h3 y z hy
    dsimp only
    rw [h7]
    dsimp only
    rw [hb]
    refine ⟨_, t, p, rfl, hmv.ok h hw hp h8, hp, hmv, ?_, ?_, rfl⟩
    · show best = _
      rw [hbp]; exact (survivors_perm (hmv.perm h.inv h8)).symm
    · intro t' p' hp'
      show best ≤ _
      have := (hsm _ t').2 (hmem t' p' hp')
      rw [hL] at this hsorted
      rcases List.mem_cons.1 this with hh | hh
      · cases hh; exact Rat.le_refl
      · exact balLt_head hsorted hh

/-! ### rounds -/

/-- all weapons are engaged and the value is known -/
def WtFull (weapons : List α) (values : Dict α Rat) (s : WtSt α O) : Prop :=
  (∀ w ∈ weapons, ∃ t, (s.assign.edge w t).isSome) ∧ s.cur = survivors values.items s.assign.edgeList

/-- moving a single weapon to another of its targets always changes the surviving value -/
def NoTies (prob : α → α → Option Rat) (weapons : List α) (values : List (α × Rat)) : Prop :=
  ∀ M, IsEngagement prob weapons M → ∀ w t p t' p', (w, t, p) ∈ M → prob w t' = some p' → t ≠ t' →
    survivors values M ≠ survivors values (retarget M w t' p')

theorem WtOk.engagement {g a : Graph α Rat O} {weapons : List α} (h : WtOk g weapons a)
    (hf : ∀ w ∈ weapons, ∃ t, (a.edge w t).isSome) : IsEngagement g.edge weapons a.edgeList := by
  refine ⟨fun w t p hm => (h.adm w t p (h.inv.mem_edgeList.1 hm)).1, fun w => ?_, ?_⟩
  · rw [List.mem_map]
    constructor
    · intro hw
      obtain ⟨t, ht⟩ := hf w hw
      obtain ⟨p, hp⟩ := Option.isSome_iff_exists.1 ht
      exact ⟨(w, t, p), h.inv.mem_edgeList.2 hp, rfl⟩
    · rintro ⟨⟨x, t, p⟩, hm, rfl⟩
      exact (h.adm x t p (h.inv.mem_edgeList.1 hm)).2
  · refine List.pairwise_map.2 (List.Pairwise.imp_of_mem ?_ h.inv.edgeList_nodup)
    rintro ⟨w, t, p⟩ ⟨w', t', p'⟩ h1 h2 hne hh
    apply hne
    have e1 := h.inv.mem_edgeList.1 h1
    have e2 := h.inv.mem_edgeList.1 h2
    have hh : w = w' := hh
    subst hh
    have := h.one w t t' (by rw [e1]; rfl) (by rw [e2]; rfl)
    subst this
    rw [e1] at e2; cases e2; rfl

theorem WtOk.moved_self {g a : Graph α Rat O} {weapons : List α} (h : WtOk g weapons a) {w t : α} {p : Rat} (hp : a.edge w t = some p) :
    Moved a a w t p := by
  intro x y
  by_cases hx : x = w
  · subst hx; rw [if_pos rfl]
    by_cases hy : y = t
    · subst hy; rw [if_pos rfl]; exact hp
    · rw [if_neg hy]
      cases hxy : a.edge x y with
      | none => rfl
      | some q => exact absurd (h.one x y t (by rw [hxy]; rfl) (by rw [hp]; rfl)) hy
  · rw [if_neg hx]

theorem edgeList_perm {a a' : Graph α Rat O} (h : a.Inv) (h' : a'.Inv) (he : ∀ x y, a'.edge x y = a.edge x y) : a'.edgeList.Perm a.edgeList :=
  perm_of_nodup h'.edgeList_nodup h.edgeList_nodup (fun ⟨x, y, q⟩ => by rw [h'.mem_edgeList, h.mem_edgeList, he])

theorem retarget_perm {M M' : List (α × α × Rat)} (h : M.Perm M') (w t : α) (p : Rat) : (retarget M w t p).Perm (retarget M' w t p) :=
  (h.filter _).cons _

/-- one weapon, when all are engaged -/
theorem wtFull_step {g : Graph α Rat O} {weapons : List α} {values : Dict α Rat} {s s' : WtSt α O}
    (h : WtOk g weapons s.assign) (hf : WtFull weapons values s) {w t : α} {p : Rat} (hw : w ∈ weapons)
    (hm : Moved s.assign s'.assign w t p) (hc : s'.cur = survivors values.items s'.assign.edgeList)
    (hb : ∀ t' p', g.edge w t' = some p' → s'.cur ≤ survivors values.items (retarget s.assign.edgeList w t' p')) :
    WtFull weapons values s' ∧ s'.cur ≤ s.cur := by
  refine ⟨⟨fun x hx => ?_, hc⟩, ?_⟩
  · by_cases hxw : x = w
    · exact ⟨t, by rw [hm, if_pos hxw, if_pos rfl]; rfl⟩
    · obtain ⟨y, hy⟩ := hf.1 x hx
      exact ⟨y, by rw [hm, if_neg hxw]; exact hy⟩
  · obtain ⟨t0, ht0⟩ := hf.1 w hw
    obtain ⟨p0, hp0⟩ := Option.isSome_iff_exists.1 ht0
    have := hb t0 p0 (h.adm w t0 p0 hp0).1
    rw [← survivors_perm ((h.moved_self hp0).perm h.inv h.inv), ← hf.2] at this
    exact this

/-- one pass over a list of weapons -/
theorem wtPass {nlt : α → α → Bool} (ho : NodeOrder nlt) {g : Graph α Rat O} (hg : g.Inv) {weapons : List α} {values : Dict α Rat}
    (hv : values.WF) (ht : ∀ w ∈ weapons, ∀ t p, g.edge w t = some p → t ∈ values.keys)
    (hne : ∀ w ∈ weapons, ∃ t, (g.edge w t).isSome) (ws : List α) : ∀ (s : WtSt α O), (∀ w ∈ ws, w ∈ weapons) → WtOk g weapons s.assign →
    s.imp.WF → ∃ s', forE ws s (wtWeapon nlt g values) = .ok s' ∧ WtOk g weapons s'.assign ∧ s'.imp.WF ∧
      (∀ x, ((∃ t, (s.assign.edge x t).isSome) ∨ x ∈ ws) → ∃ t, (s'.assign.edge x t).isSome) ∧
      (ws ≠ [] → s'.cur = survivors values.items s'.assign.edgeList) ∧
      (∀ k, (s'.imp.get? k).isSome → k ∈ ws ∨ (s.imp.get? k).isSome) ∧
      (∀ k, k ∉ ws → s'.imp.get? k = s.imp.get? k) ∧
      (WtFull weapons values s → s'.cur ≤ s.cur) ∧
      (∀ k ∈ ws, ∃ x, s'.imp.get? k = some x ∧ 0 ≤ x ∧ (WtFull weapons values s → x ≠ 0 → s'.cur < s.cur)) ∧
      (∀ w, ws.getLast? = some w → ∀ t p, g.edge w t = some p → s'.cur ≤ survivors values.items (retarget s'.assign.edgeList w t p)) ∧
      (WtFull weapons values s → NoTies g.edge weapons values.items → ws.Nodup → (∀ k ∈ ws, s'.imp.get? k = some 0) →
        s'.cur = s.cur ∧ (∀ x y, s'.assign.edge x y = s.assign.edge x y) ∧
        ∀ w ∈ ws, ∀ t p, g.edge w t = some p → s.cur ≤ survivors values.items (retarget s.assign.edgeList w t p)) := by
  induction ws with
  | nil =>
    intro s _ h1 h2
    refine ⟨s, rfl, h1, h2, fun x hx => ?_, fun h => absurd rfl h, fun k hk => .inr hk, fun _ _ => rfl, fun _ => Rat.le_refl,
      (fun k hk => nomatch hk), (fun w hw => nomatch hw), fun _ _ _ _ => ⟨rfl, fun _ _ => rfl, (fun w hw => nomatch hw)⟩⟩
    rcases hx with hx | hx
    · exact hx
    · cases hx
  | cons w ws ih =>
    intro s hws h1 h2
    have hw := hws w (by simp)
    obtain ⟨s1, t, p, e1, e2, e3, e4, e5, e6, e7⟩ := wtWeapon_spec ho hg hv ht h1 hw (hne w hw)
    unfold forE
    rw [e1]
    obtain ⟨s', f1, f2, f3, f4, f5, f6, f7, f8, f9, f10, f11⟩ := ih s1 (fun x hx => hws x (List.mem_cons_of_mem _ hx)) e2 (by rw [e7]; exact h2.set _ _)
    have hset : ∀ k, s1.imp.get? k = if w = k then some (if 0 < s.cur - s1.cur then s.cur - s1.cur else 0) else s.imp.get? k := by
      intro k; rw [e7, Dict.get?_set]
    have hfull : WtFull weapons values s → WtFull weapons values s1 ∧ s1.cur ≤ s.cur := fun hf => wtFull_step h1 hf hw e4 e5 e6
    refine ⟨s', f1, f2, f3, ?_, ?_, ?_, ?_, ?_, ?_, ?_, ?_⟩
    · intro x hx
      refine f4 x ?_
      by_cases hxw : x = w
      · exact .inl ⟨t, by rw [e4, if_pos hxw, if_pos rfl]; rfl⟩
      · rcases hx with ⟨y, hy⟩ | hx
        · exact .inl ⟨y, by rw [e4, if_neg hxw]; exact hy⟩
        · rcases List.mem_cons.1 hx with hh | hh
          · exact absurd hh hxw
          · exact .inr hh
    · intro _
      cases ws with
      | nil => unfold forE at f1; cases f1; exact e5
      | cons y ys => exact f5 (by simp)
    · intro k hk
      rcases f6 k hk with hh | hh
      · exact .inl (List.mem_cons_of_mem _ hh)
      · rw [hset] at hh
        by_cases hwk : w = k
        · exact .inl (by rw [hwk]; simp)
        · rw [if_neg hwk] at hh; exact .inr hh
    · intro k hk
      rw [List.mem_cons, not_or] at hk
      rw [f7 k hk.2, hset, if_neg (fun hh => hk.1 hh.symm)]
    · intro hf
      have := hfull hf
      have h3 := f8 this.1
      grind
    · intro k hk
      by_cases hkws : k ∈ ws
      · obtain ⟨x, x1, x2, x3⟩ := f9 k hkws
        refine ⟨x, x1, x2, fun hf hx => ?_⟩
        have := hfull hf
        have h3 := x3 this.1 hx
        grind
      · have hkw : k = w := by
          rcases List.mem_cons.1 hk with hh | hh
          · exact hh
          · exact absurd hh hkws
        subst hkw
        rw [f7 k hkws, hset, if_pos rfl]
        refine ⟨_, rfl, ?_, fun hf hx => ?_⟩
        · split <;> grind
        · have := hfull hf
          have h3 := f8 this.1
          split at hx
          · grind
          · exact absurd rfl hx
    · intro x hx t' p' hp'
      cases ws with
      | nil =>
        unfold forE at f1; cases f1
        simp at hx; subst hx
        have hq := e6 t' p' hp'
        have hpm : (retarget s1.assign.edgeList w t' p').Perm (retarget s.assign.edgeList w t' p') := by
          have := e4.perm h1.inv e2.inv
          refine (retarget_perm this w t' p').trans ?_
          unfold retarget
          rw [List.filter_cons_of_neg (by simp), List.filter_filter]
          simp
        rw [survivors_perm hpm]; exact hq
      | cons y ys =>
        refine f10 x ?_ t' p' hp'
        rw [List.getLast?_cons_cons] at hx; exact hx
    · intro hf hnt hnd hz
      rw [List.nodup_cons] at hnd
      have hst := hfull hf
      obtain ⟨g1, g2, g3⟩ := f11 hst.1 hnt hnd.2 (fun k hk => hz k (List.mem_cons_of_mem _ hk))
      have hw0 := hz w (by simp)
      rw [f7 w hnd.1, hset, if_pos rfl, Option.some.injEq] at hw0
      have hcur : s1.cur = s.cur := by split at hw0 <;> grind
      -- the weapon did not move
      have hsame : ∀ x y, s1.assign.edge x y = s.assign.edge x y := by
        obtain ⟨t0, ht0⟩ := hf.1 w hw
        obtain ⟨p0, hp0⟩ := Option.isSome_iff_exists.1 ht0
        by_cases htt : t0 = t
        · subst htt
          have hpp := (h1.adm w t0 p0 hp0).1
          rw [e3] at hpp; cases hpp
          intro x y
          rw [e4, h1.moved_self hp0 x y]
          by_cases hx : x = w
          · rw [if_pos hx, if_pos hx]
          · rw [if_neg hx, if_neg hx]
        · exfalso
          refine hnt s.assign.edgeList (h1.engagement hf.1) w t0 p0 t p (h1.inv.mem_edgeList.2 hp0) e3 htt ?_
          rw [← hf.2, ← hcur, e5, survivors_perm (e4.perm h1.inv e2.inv)]
      refine ⟨g1.trans hcur, fun x y => (g2 x y).trans (hsame x y), fun x hx t' p' hp' => ?_⟩
      rcases List.mem_cons.1 hx with hh | hh
      · subst hh; rw [← hcur]; exact e6 t' p' hp'
      · have := g3 x hh t' p' hp'
        rw [hcur, survivors_perm (retarget_perm (edgeList_perm h1.inv e2.inv hsame) x t' p')] at this
        exact this

/-! ### termination -/

/-- all ways to engage the weapons of the list -/
def allEng (g : Graph α Rat O) : List α → List (List (α × α × Rat))
  | [] => [[]]
  | w :: ws => (g.edgesFrom w).flatMap (fun e => (allEng g ws).map (fun M => e :: M))

theorem mem_allEng {g : Graph α Rat O} (hg : g.Inv) {f : α → α × Rat} (ws : List α) (h : ∀ w ∈ ws, g.edge w (f w).1 = some (f w).2) :
    ws.map (fun w => (w, (f w).1, (f w).2)) ∈ allEng g ws := by
  induction ws with
  | nil => simp [allEng]
  | cons w ws ih =>
    unfold allEng
    rw [List.mem_flatMap]
    exact ⟨(w, (f w).1, (f w).2), hg.mem_edgesFrom.2 ⟨rfl, h w (by simp)⟩,
      List.mem_map.2 ⟨_, ih (fun x hx => h x (List.mem_cons_of_mem _ hx)), rfl⟩⟩

/-- the value of a full assignment is one of finitely many -/
theorem WtFull.candidate {g : Graph α Rat O} (hg : g.Inv) {weapons : List α} {values : Dict α Rat} {s : WtSt α O}
    (h : WtOk g weapons s.assign) (hf : WtFull weapons values s) :
    s.cur ∈ (allEng g (saddAll [] weapons)).map (fun M => survivors values.items M) := by
  rw [hf.2]
  have hch : ∀ w, ∃ tp : α × Rat, w ∈ weapons → s.assign.edge w tp.1 = some tp.2 := by
    intro w
    by_cases hw : w ∈ weapons
    · obtain ⟨t, ht⟩ := hf.1 w hw
      obtain ⟨p, hp⟩ := Option.isSome_iff_exists.1 ht
      exact ⟨(t, p), fun _ => hp⟩
    · exact ⟨(w, 0), fun hh => absurd hh hw⟩
  let f : α → α × Rat := fun w => Classical.choose (hch w)
  have hfs : ∀ w ∈ weapons, s.assign.edge w (f w).1 = some (f w).2 := fun w hw => Classical.choose_spec (hch w) hw
  have hmem : ∀ w, w ∈ saddAll [] weapons ↔ w ∈ weapons := fun w => by rw [mem_saddAll]; simp
  refine List.mem_map.2 ⟨_, mem_allEng hg (f := f) (saddAll [] weapons) (fun w hw => (h.adm _ _ _ (hfs w ((hmem w).1 hw))).1), ?_⟩
  refine survivors_perm (perm_of_nodup ?_ h.inv.edgeList_nodup ?_)
  · exact List.pairwise_map.2 ((nodup_saddAll List.nodup_nil : (saddAll [] weapons).Nodup).imp (fun hne hh => hne (Prod.mk.inj hh).1))
  · rintro ⟨w, t, p⟩
    rw [List.mem_map, h.inv.mem_edgeList]
    constructor
    · rintro ⟨x, hx, he⟩
      have hw := hfs x ((hmem x).1 hx)
      cases he; exact hw
    · intro he
      have hw := (h.adm w t p he).2
      refine ⟨w, (hmem w).2 hw, ?_⟩
      have h1 := hfs w hw
      have := h.one w t (f w).1 (by rw [he]; rfl) (by rw [h1]; rfl)
      rw [← this] at h1 ⊢
      rw [he] at h1; rw [Option.some.inj h1]

/-- the state at the start of a round -/
def WtI (g : Graph α Rat O) (weapons : List α) (values : Dict α Rat) (s : WtSt α O) : Prop :=
  WtOk g weapons s.assign ∧ s.imp.WF ∧ (∀ k, (s.imp.get? k).isSome → k ∈ weapons) ∧
  ((s.cur = values.values.sum + 1 ∧ ∀ x y, s.assign.edge x y = none) ∨ WtFull weapons values s)

open Classical in
/-- the number of values that are still smaller -/
noncomputable def wtMeasure (g : Graph α Rat O) (weapons : List α) (values : Dict α Rat) (s : WtSt α O) : Nat :=
  let C := (allEng g (saddAll [] weapons)).map (fun M => survivors values.items M)
  if WtFull weapons values s then (C.filter (fun c => decide (c < s.cur))).length else C.length + 1

/-- the last round -/
def WtPost (nlt : α → α → Bool) (g : Graph α Rat O) (weapons : List α) (values : Dict α Rat) (r : Py (Rat × Graph α Rat O)) : Prop :=
  ∃ s0 s1, WtI g weapons values s0 ∧ forE weapons s0 (wtWeapon nlt g values) = .ok s1 ∧ s1.imp.values.sum = 0 ∧ r = .ok (s1.cur, s1.assign)

theorem sum_pos_of_nonneg {l : List Rat} (h : ∀ x ∈ l, 0 ≤ x) (hs : l.sum = 0) : ∀ x ∈ l, x = 0 := by
  have h0 : ∀ m : List Rat, (∀ x ∈ m, 0 ≤ x) → 0 ≤ m.sum := by
    intro m hm
    induction m with
    | nil => exact Rat.le_refl
    | cons a m ih =>
      have h1 := hm a (by simp)
      have h2 := ih (fun x hx => hm x (List.mem_cons_of_mem _ hx))
      rw [List.sum_cons]; grind
  induction l with
  | nil => intro x hx; cases hx
  | cons a l ih =>
    have h1 := h a (by simp)
    have h2 := h0 l (fun x hx => h x (List.mem_cons_of_mem _ hx))
    rw [List.sum_cons] at hs
    intro x hx
    rcases List.mem_cons.1 hx with rfl | hx
    · grind
    · exact ih (fun x hx => h x (List.mem_cons_of_mem _ hx)) (by grind) x hx

theorem sum_zero_of_all {l : List Rat} (h : ∀ x ∈ l, x = 0) : l.sum = 0 := by
  induction l with
  | nil => rfl
  | cons a l ih => rw [List.sum_cons, h a (by simp), ih (fun x hx => h x (List.mem_cons_of_mem _ hx))]; grind

theorem wtRound_work {nlt : α → α → Bool} (ho : NodeOrder nlt) {g : Graph α Rat O} (hg : g.Inv) {weapons : List α} {values : Dict α Rat}
    (hv : values.WF) (ht : ∀ w ∈ weapons, ∀ t p, g.edge w t = some p → t ∈ values.keys)
    (hne : ∀ w ∈ weapons, ∃ t, (g.edge w t).isSome) (hw0 : weapons ≠ []) {s s' : WtSt α O} (hI : WtI g weapons values s)
    (hstep : wtRound nlt g values weapons s = .inl s') : WtI g weapons values s' ∧ wtMeasure g weapons values s' < wtMeasure g weapons values s := by
  obtain ⟨i1, i2, i3, i4⟩ := hI
  obtain ⟨s1, f1, f2, f3, f4, f5, f6, f7, f8, f9, f10, f11⟩ := wtPass ho hg hv ht hne weapons s (fun _ h => h) i1 i2
  unfold wtRound at hstep
  rw [f1] at hstep
  dsimp only at hstep
  split at hstep
  · cases hstep
  rename_i hsum
  have hstep := Sum.inl.inj hstep
  subst hstep
  have hfull : WtFull weapons values s1 := ⟨fun w hw => f4 w (.inr hw), f5 hw0⟩
  refine ⟨⟨f2, f3, fun k hk => ?_, .inr hfull⟩, ?_⟩
  · rcases f6 k hk with h | h
    · exact h
    · exact i3 k h
  · unfold wtMeasure
    dsimp only
    rw [if_pos hfull]
    by_cases hfs : WtFull weapons values s
    · rw [if_pos hfs]
      -- some weapon improved the value
      have hlt : s1.cur < s.cur := by
        apply Classical.byContradiction
        intro hno
        apply hsum
        refine sum_zero_of_all (fun x hx => ?_)
        obtain ⟨⟨k, x'⟩, hk, rfl⟩ := List.mem_map.1 hx
        have hk' := (Dict.get?_eq_some_iff f3 k x').2 hk
        have hkw : k ∈ weapons := by
          rcases f6 k (by rw [hk']; rfl) with h | h
          · exact h
          · exact i3 k h
        obtain ⟨y, y1, y2, y3⟩ := f9 k hkw
        rw [hk'] at y1; cases y1
        apply Classical.byContradiction
        intro hx0
        exact hno (y3 hfs hx0)
      refine filter_length_lt (y := s1.cur) (fun x _ hx => ?_) (hfull.candidate hg f2) (by simpa using hlt) (by simp [Rat.lt_irrefl])
      simp only [decide_eq_true_eq] at hx ⊢
      grind
    · rw [if_neg hfs]
      have := List.length_filter_le (fun c => decide (c < s1.cur)) ((allEng g (saddAll [] weapons)).map (fun M => survivors values.items M))
      omega

theorem WtI.init (g : Graph α Rat O) (weapons : List α) (values : Dict α Rat) :
    WtI g weapons values (⟨Graph.empty, values.values.sum + 1, Dict.empty⟩ : WtSt α O) := by
  refine ⟨⟨inv_empty, (fun w t p h => nomatch h), (fun w t t' h => nomatch h)⟩, by simp [Dict.WF, Dict.keys, Dict.empty],
      (fun k hk => nomatch hk), .inl ⟨rfl, fun _ _ => rfl⟩⟩

theorem wtapLoop {nlt : α → α → Bool} (ho : NodeOrder nlt) {g : Graph α Rat O} (hg : g.Inv) {weapons : List α} {values : Dict α Rat}
    (hv : values.WF) (ht : ∀ w ∈ weapons, ∀ t p, g.edge w t = some p → t ∈ values.keys)
    (hne : ∀ w ∈ weapons, ∃ t, (g.edge w t).isSome) (hw0 : weapons ≠ []) :
    ∃ r, pyWhile (wtRound nlt g values weapons) (⟨Graph.empty, values.values.sum + 1, Dict.empty⟩ : WtSt α O) = some r ∧
      WtPost nlt g weapons values r := by
  refine pyWhile_total (WtI g weapons values) (WtPost nlt g weapons values) (wtMeasure g weapons values) ?_ ?_ ?_
  · exact fun s s' hI hstep => wtRound_work ho hg hv ht hne hw0 hI hstep
  · rintro s r ⟨i1, i2, i3, i4⟩ hstep
    obtain ⟨s1, f1, _⟩ := wtPass ho hg hv ht hne weapons s (fun _ h => h) i1 i2
    unfold wtRound at hstep
    rw [f1] at hstep
    dsimp only at hstep
    split at hstep
    · rename_i hsum
      cases hstep
      exact ⟨s, s1, ⟨i1, i2, i3, i4⟩, f1, hsum, rfl⟩
    · cases hstep
  · exact WtI.init g weapons values

/-- the input passes the checks, and every weapon can engage a target that has a value -/
structure WtInput (g : Graph α Rat O) (weapons : List α) (values : Dict α Rat) : Prop where
  wf : values.WF
  disjoint : ∀ w ∈ weapons, w ∉ values.keys
  covered : (∀ a t p, g.edge a t = some p → t ∈ values.keys) → ∀ t ∈ values.keys, ∃ a, (g.edge a t).isSome
  valued : ∀ w ∈ weapons, ∀ t p, g.edge w t = some p → t ∈ values.keys
  armed : ∀ w ∈ weapons, ∃ t, (g.edge w t).isSome

theorem wtap_checks {nlt : α → α → Bool} {g : Graph α Rat O} (hg : g.Inv) {weapons : List α} {values : Dict α Rat} (h : WtInput g weapons values) :
    g.wtapSolver nlt weapons values = pyWhile (wtRound nlt g values weapons) ⟨Graph.empty, values.values.sum + 1, Dict.empty⟩ := by
  unfold wtapSolver
  rw [if_neg, if_neg]
  · rw [Bool.and_eq_true, List.all_eq_true, List.any_eq_true]
    rintro ⟨h1, t, ht, h2⟩
    simp only [decide_eq_true_eq] at h2
    obtain ⟨a, ha⟩ := h.covered (fun a t p hp => (Dict.contains_iff_keys _ _).1 (h1 t (List.mem_map.2 ⟨(a, t, p), hg.mem_edgeList.2 hp, rfl⟩))) t ht
    obtain ⟨p, hp⟩ := Option.isSome_iff_exists.1 ha
    exact h2 (List.mem_map.2 ⟨(a, t, p), hg.mem_edgeList.2 hp, rfl⟩)
  · rw [List.any_eq_true]
    rintro ⟨w, hw, h1⟩
    exact h.disjoint w hw ((Dict.contains_iff_keys _ _).1 h1)

/-- `wtap_solver` terminates with an engagement of all weapons and its surviving value; the last weapon cannot improve it -/
theorem wtap_main {nlt : α → α → Bool} (ho : NodeOrder nlt) {g : Graph α Rat O} (hg : g.Inv) {weapons : List α} {values : Dict α Rat}
    (h : WtInput g weapons values) (hw0 : weapons ≠ []) :
    ∃ v a, g.wtapSolver nlt weapons values = some (.ok (v, a)) ∧ a.Inv ∧ IsEngagement g.edge weapons a.edgeList ∧
      v = survivors values.items a.edgeList ∧
      ∀ w, weapons.getLast? = some w → ∀ t p, g.edge w t = some p → v ≤ survivors values.items (retarget a.edgeList w t p) := by
  rw [wtap_checks hg h]
  obtain ⟨r, hr, s0, s1, ⟨i1, i2, i3, i4⟩, e1, e2, rfl⟩ := wtapLoop ho hg h.wf h.valued h.armed hw0
  obtain ⟨s1', f1, f2, f3, f4, f5, f6, f7, f8, f9, f10, f11⟩ := wtPass ho hg h.wf h.valued h.armed weapons s0 (fun _ h => h) i1 i2
  rw [e1] at f1; cases f1
  exact ⟨_, _, hr, f2.inv, f2.engagement (fun w hw => f4 w (.inr hw)), f5 hw0, f10⟩

theorem prodL_unit {β : Type} {l : List β} {f : β → Rat} (h : ∀ x ∈ l, 0 ≤ f x ∧ f x ≤ 1) : 0 ≤ prodL l f ∧ prodL l f ≤ 1 := by
  unfold prodL
  induction l with
  | nil => exact ⟨(by decide : (0:Rat) ≤ 1), Rat.le_refl⟩
  | cons a l ih =>
    have h1 := h a (by simp)
    have h2 := ih (fun x hx => h x (List.mem_cons_of_mem _ hx))
    rw [List.foldr_cons]
    refine ⟨Rat.mul_nonneg h1.1 h2.1, ?_⟩
    have := Rat.mul_le_mul_of_nonneg_right h1.2 h2.1
    grind

theorem survivors_le {values : List (α × Rat)} (hv : ∀ tv ∈ values, 0 ≤ tv.2) {M : List (α × α × Rat)}
    (hM : ∀ e ∈ M, 0 ≤ e.2.2 ∧ e.2.2 ≤ 1) : survivors values M ≤ sumL values (fun tv => tv.2) := by
  refine sumL_le (fun tv htv => ?_)
  have h1 := hv tv htv
  have h2 := prodL_unit (l := M.filter (fun e => decide (e.2.1 = tv.1))) (f := fun e => 1 - e.2.2) (fun e he => by
    have := hM e (List.mem_filter.1 he).1
    grind)
  have := Rat.mul_le_mul_of_nonneg_left h2.2 h1
  grind

/-- without ties no single weapon can improve the value -/
theorem wtap_one_opt {nlt : α → α → Bool} (ho : NodeOrder nlt) {g : Graph α Rat O} (hg : g.Inv) {weapons : List α} {values : Dict α Rat}
    (h : WtInput g weapons values) (hw0 : weapons ≠ []) (hnd : weapons.Nodup) (hp : ∀ a t p, g.edge a t = some p → 0 ≤ p ∧ p ≤ 1)
    (hval : ∀ t v, values.get? t = some v → 0 ≤ v) (hnt : NoTies g.edge weapons values.items) {v : Rat} {a : Graph α Rat O}
    (hr : g.wtapSolver nlt weapons values = some (.ok (v, a))) :
    ∀ w ∈ weapons, ∀ t p, g.edge w t = some p → v ≤ survivors values.items (retarget a.edgeList w t p) := by
  rw [wtap_checks hg h] at hr
  obtain ⟨r, hr', s0, s1, ⟨i1, i2, i3, i4⟩, e1, e2, rfl⟩ := wtapLoop ho hg h.wf h.valued h.armed hw0
  obtain ⟨s1', f1, f2, f3, f4, f5, f6, f7, f8, f9, f10, f11⟩ := wtPass ho hg h.wf h.valued h.armed weapons s0 (fun _ h => h) i1 i2
  rw [e1] at f1; cases f1
  rw [hr] at hr'; cases hr'
  have hz : ∀ k ∈ weapons, s1.imp.get? k = some 0 := by
    intro k hk
    obtain ⟨x, x1, x2, _⟩ := f9 k hk
    have : x = 0 := by
      refine sum_pos_of_nonneg ?_ e2 x (List.mem_map.2 ⟨(k, x), (Dict.get?_eq_some_iff f3 k x).1 x1, rfl⟩)
      intro y hy
      obtain ⟨⟨k', y'⟩, hk', rfl⟩ := List.mem_map.1 hy
      have h1 := (Dict.get?_eq_some_iff f3 k' y').2 hk'
      have hkw : k' ∈ weapons := by
        rcases f6 k' (by rw [h1]; rfl) with h | h
        · exact h
        · exact i3 k' h
      obtain ⟨z, z1, z2, _⟩ := f9 k' hkw
      rw [h1] at z1; cases z1; exact z2
    rw [x1, this]
  rcases i4 with ⟨hc, hemp⟩ | hfull
  · -- the first round improves
    exfalso
    cases hws : weapons with
    | nil => exact hw0 hws
    | cons w ws =>
      have hww : w ∈ weapons := by rw [hws]; simp
      obtain ⟨s2, t, p, g1, g2, g3, g4, g5, g6, g7⟩ := wtWeapon_spec ho hg h.wf h.valued i1 hww (h.armed w hww)
      obtain ⟨s1', k1, k2, k3, k4, k5, k6, k7, _⟩ := wtPass ho hg h.wf h.valued h.armed ws s2 (fun x hx => by rw [hws]; exact List.mem_cons_of_mem _ hx)
        g2 (by rw [g7]; exact i2.set _ _)
      have hss : s1' = s1 := by
        have he := e1
        rw [hws] at he
        unfold forE at he
        rw [g1] at he
        dsimp only at he
        rw [k1] at he
        exact Except.ok.inj he
      subst hss
      rw [hws, List.nodup_cons] at hnd
      have := hz w hww
      rw [k7 w hnd.1, g7, Dict.get?_set_self, Option.some.injEq] at this
      have hle := survivors_le (values := values.items) (M := s2.assign.edgeList) (fun tv htv => hval tv.1 tv.2 ((Dict.get?_eq_some_iff h.wf _ _).2 htv))
        (fun e he => hp e.1 e.2.1 e.2.2 (g2.adm _ _ _ (g2.inv.mem_edgeList.1 he)).1)
      have hsum : values.values.sum = sumL values.items (fun tv => tv.2) := rfl
      rw [← g5, ← hsum] at hle
      rw [hc] at this
      split at this <;> grind
  · obtain ⟨h1, h2, h3⟩ := f11 hfull hnt hnd hz
    intro w hw t p hpp
    rw [h1, survivors_perm (retarget_perm (edgeList_perm i1.inv f2.inv h2) w t p)]
    exact h3 w hw t p hpp

/-! ### the errors -/

theorem wtHit_missing {g : Graph α Rat O} (M : List (α × α × Rat)) : ∀ sv : Dict α (List Rat), (∀ w t p, (w, t, p) ∈ M → g.edge w t = some p) →
    (∃ e ∈ M, e.2.1 ∉ sv.keys) → forE M sv (wtHit g) = .error .keyError := by
  induction M with
  | nil => rintro sv _ ⟨e, he, _⟩; cases he
  | cons e M ih =>
    obtain ⟨w, t, p⟩ := e
    rintro sv h1 ⟨e, he, hn⟩
    unfold forE wtHit
    dsimp only
    rw [h1 w t p (by simp)]
    dsimp only
    cases hs : sv.get? t with
    | none => rfl
    | some l =>
      dsimp only
      have hk := Dict.mem_keys_of_get? hs
      refine ih _ (fun w t p hm => h1 w t p (List.mem_cons_of_mem _ hm)) ?_
      rw [Dict.keys_set_of_mem _ hk]
      rcases List.mem_cons.1 he with rfl | he
      · exact absurd hk hn
      · exact ⟨e, he, hn⟩

theorem WtOk.damages_missing {g a : Graph α Rat O} {weapons : List α} (h : WtOk g weapons a) {values : Dict α Rat} (hv : values.WF)
    {w t : α} {p : Rat} (he : a.edge w t = some p) (ht : t ∉ values.keys) : wtDamages g a values = .error .keyError := by
  unfold wtDamages
  rw [wtHit_missing a.edgeList _ (fun w t p hm => (h.adm w t p (h.inv.mem_edgeList.1 hm)).1)
    ⟨(w, t, p), h.inv.mem_edgeList.2 he, by rw [Dict.comp_keys hv]; exact ht⟩]

/-- the computation of the damages succeeds or raises `KeyError` -/
theorem WtOk.damages_cases {g a : Graph α Rat O} {weapons : List α} (h : WtOk g weapons a) {values : Dict α Rat} (hv : values.WF) :
    (∃ d, wtDamages g a values = .ok d) ∨ wtDamages g a values = .error .keyError := by
  by_cases hk : ∀ w t p, (w, t, p) ∈ a.edgeList → t ∈ values.keys
  · exact .inl ⟨_, wtDamages_spec hv (fun w t p hm => ⟨(h.adm w t p (h.inv.mem_edgeList.1 hm)).1, hk w t p hm⟩)⟩
  · simp only [Classical.not_forall] at hk
    obtain ⟨w, t, p, hm, ht⟩ := hk
    exact .inr (h.damages_missing hv (h.inv.mem_edgeList.1 hm) ht)

theorem wtProbe_missing {g : Graph α Rat O} {weapons : List α} {values : Dict α Rat} (hv : values.WF) {w : α} (hw : w ∈ weapons)
    (L : List (α × α × Rat)) : ∀ (a : Graph α Rat O) (eff : Dict α Rat), (∀ x t p, (x, t, p) ∈ L → g.edge w t = some p) →
    WtOk g weapons a → (∃ e ∈ L, e.2.1 ∉ values.keys) → forE L (a, eff) (wtProbe g values w) = .error .keyError := by
  induction L with
  | nil => rintro a eff _ _ ⟨e, he, _⟩; cases he
  | cons e L ih =>
    obtain ⟨x, t, p⟩ := e
    rintro a eff hL h1 ⟨e, he, hn⟩
    have hp := hL x t p (by simp)
    obtain ⟨a1, h5, h6, h7⟩ := wtEngage_spec h1 hp
    have hok1 : WtOk g weapons a1 := h7.ok h1 hw hp h6
    unfold forE wtProbe
    dsimp only
    rw [h5]
    dsimp only
    rcases hok1.damages_cases hv with ⟨d, hd⟩ | hd
    · rw [hd]
      dsimp only
      refine ih _ _ (fun x t p hm => hL x t p (List.mem_cons_of_mem _ hm)) hok1 ?_
      rcases List.mem_cons.1 he with rfl | he
      · rw [hok1.damages_missing hv (w := w) (t := t) (p := p) (by rw [h7, if_pos rfl, if_pos rfl]) hn] at hd; cases hd
      · exact ⟨e, he, hn⟩
    · rw [hd]

theorem forE_append {β γ : Type} (l m : List β) (f : γ → β → Py γ) : ∀ s, forE (l ++ m) s f = match forE l s f with
    | .error e => .error e
    | .ok s' => forE m s' f := by
  induction l with
  | nil => intro s; rfl
  | cons x l ih =>
    intro s
    rw [List.cons_append]
    have e1 : forE (x :: (l ++ m)) s f = match f s x with | .error e => .error e | .ok s' => forE (l ++ m) s' f := rfl
    have e2 : forE (x :: l) s f = match f s x with | .error e => .error e | .ok s' => forE l s' f := rfl
    rw [e1, e2]
    cases f s x with
    | error e => rfl
    | ok s' => exact ih s'

/-- the first weapon without targets, or with a target without a value, raises -/
theorem wtap_first_bad {nlt : α → α → Bool} (ho : NodeOrder nlt) {g : Graph α Rat O} (hg : g.Inv) {pre post : List α} {w : α} {values : Dict α Rat}
    (hv : values.WF) (hdis : ∀ x ∈ pre ++ w :: post, x ∉ values.keys)
    (hcov : (∀ a t p, g.edge a t = some p → t ∈ values.keys) → ∀ t ∈ values.keys, ∃ a, (g.edge a t).isSome)
    (hval : ∀ x ∈ pre, ∀ t p, g.edge x t = some p → t ∈ values.keys) (harm : ∀ x ∈ pre, ∃ t, (g.edge x t).isSome) :
    ((∃ t p, g.edge w t = some p ∧ t ∉ values.keys) → g.wtapSolver nlt (pre ++ w :: post) values = some (.error .keyError)) ∧
    ((∀ t, g.edge w t = none) → g.wtapSolver nlt (pre ++ w :: post) values = some (.error .indexError)) := by
  have hck : g.wtapSolver nlt (pre ++ w :: post) values =
      pyWhile (wtRound nlt g values (pre ++ w :: post)) ⟨Graph.empty, values.values.sum + 1, Dict.empty⟩ := by
    unfold wtapSolver
    rw [if_neg, if_neg]
    · rw [Bool.and_eq_true, List.all_eq_true, List.any_eq_true]
      rintro ⟨h1, t, ht, h2⟩
      simp only [decide_eq_true_eq] at h2
      obtain ⟨a, ha⟩ := hcov (fun a t p hp => (Dict.contains_iff_keys _ _).1 (h1 t (List.mem_map.2 ⟨(a, t, p), hg.mem_edgeList.2 hp, rfl⟩))) t ht
      obtain ⟨p, hp⟩ := Option.isSome_iff_exists.1 ha
      exact h2 (List.mem_map.2 ⟨(a, t, p), hg.mem_edgeList.2 hp, rfl⟩)
    · rw [List.any_eq_true]
      rintro ⟨w, hw, h1⟩
      exact hdis w hw ((Dict.contains_iff_keys _ _).1 h1)
  have hno : ∀ x y, (Graph.empty : Graph α Rat O).edge x y = none := fun _ _ => rfl
  have h0 : WtOk g pre (Graph.empty : Graph α Rat O) := by
    refine ⟨inv_empty, ?_, ?_⟩
    · intro w t p h; rw [hno] at h; cases h
    · intro w t t' h; rw [hno] at h; cases h
  obtain ⟨s, e1, e2, -⟩ := wtPass ho hg hv hval harm pre ⟨Graph.empty, values.values.sum + 1, Dict.empty⟩ (fun _ h => h) h0
    (by simp [Dict.WF, Dict.keys, Dict.empty])
  have e3 : WtOk g (pre ++ [w]) s.assign :=
    ⟨e2.inv, fun x y q hq => ⟨(e2.adm x y q hq).1, List.mem_append_left _ (e2.adm x y q hq).2⟩, e2.one⟩
  have hround : ∀ er, wtWeapon nlt g values s w = .error er → g.wtapSolver nlt (pre ++ w :: post) values = some (.error er) := by
    intro er her
    rw [hck]
    apply pyWhile_of_runFuel (n := 1)
    have : wtRound nlt g values (pre ++ w :: post) ⟨Graph.empty, values.values.sum + 1, Dict.empty⟩ = .inr (.error er) := by
      unfold wtRound
      rw [forE_append, e1]
      dsimp only
      unfold forE
      rw [her]
    simp only [runFuel, this]
  constructor
  · rintro ⟨t, p, hp, ht⟩
    refine hround _ ?_
    unfold wtWeapon
    rw [wtProbe_missing hv (weapons := pre ++ [w]) (by simp) (g.edgesFrom w) s.assign Dict.empty
      (fun x t p hm => (hg.mem_edgesFrom.1 hm).2) e3 ⟨(w, t, p), hg.mem_edgesFrom.2 ⟨rfl, hp⟩, ht⟩]
  · intro hn
    refine hround _ ?_
    have : g.edgesFrom w = [] := by
      refine List.eq_nil_iff_forall_not_mem.2 ?_
      rintro ⟨x, t, p⟩ hm
      have := (hg.mem_edgesFrom.1 hm).2
      rw [hn] at this; cases this
    unfold wtWeapon
    rw [this]
    rfl

end GT

import Verif.Dag.Cpm2
import Verif.Sp.FlInt
/-
Model of `critical_path` (graph/critical_path.py:65-125) in rounded arithmetic: `a + b` is `fl (a + b)`, `a - b` is `fl (a - b)`.
With `fl = id` it is the model of Dag/Cpm.lean (`criticalPath_eq_fl`).
-/
namespace GT
variable {α V O : Type} [DecidableEq α]
open Graph

/-- `slack` (critical_path.py:43-45) -/
def Task.slackFl (fl : Rat → Rat) (t : Task) : Rat := fl (t.latestFinish - t.earliestFinish)

/-- the forward pass (critical_path.py:101-113).  `num o` is the numeric value of a node object, `none`
if it is not an `int`/`float`. -/
def cpForwardFl (fl : Rat → Rat) (num : O → Option Rat) (g : Graph α V O) : List α → Dict α Task × Rat → Py (Dict α Task × Rat)
  | [], s => .ok s
  | x :: l, (d, cpl) =>
    match lookupAll d (g.nodesTo x) with
    | .error e => .error e
    | .ok preds =>
      match (g.node x).bind num with
      | none => .error .valueError
      | some dur =>
        let es := maxOr 0 (preds.map Task.earliestFinish)
        let t : Task := ⟨dur, es, fl (es + dur), 0, 0⟩
        cpForwardFl fl num g l (d.set x t, if cpl < t.earliestFinish then t.earliestFinish else cpl)

/-- the backward pass (critical_path.py:115-120) -/
def cpBackwardFl (fl : Rat → Rat) (g : Graph α V O) (cpl : Rat) : List α → Dict α Task → Py (Dict α Task)
  | [], d => .ok d
  | x :: l, d =>
    match lookupAll d (g.nodesFrom x) with
    | .error e => .error e
    | .ok succs =>
      match d.get? x with
      | none => .error .keyError
      | some t =>
        let lf := minOr cpl (succs.map Task.latestStart)
        cpBackwardFl fl g cpl l (d.set x { t with latestFinish := lf, latestStart := fl (lf - t.duration) })

/-- `critical_path(graph)` (critical_path.py:65-125) -/
def Graph.criticalPathFl (fl : Rat → Rat) (num : O → Option Rat) (srt : List α → List α) (g : Graph α V O) :
    Option (Py (Rat × Dict α Task)) :=
  match g.topoList srt with
  | none => none
  | some (.error e) => some (.error e)
  | some (.ok order) =>
    match cpForwardFl fl num g order (.empty, 0) with
    | .error e => some (.error e)
    | .ok (d, cpl) =>
      match cpBackwardFl fl g cpl order.reverse d with
      | .error e => some (.error e)
      | .ok d => some (.ok (cpl, d))

/-- the two passes of `critical_path` over an order of the tasks (critical_path.py:98-122) -/
def Graph.cpPassesFl (fl : Rat → Rat) (num : O → Option Rat) (g : Graph α V O) (order : List α) : Option (Py (Rat × Dict α Task)) :=
  match cpForwardFl fl num g order (.empty, 0) with
  | .error e => some (.error e)
  | .ok (d, cpl) =>
    match cpBackwardFl fl g cpl order.reverse d with
    | .error e => some (.error e)
    | .ok d => some (.ok (cpl, d))

/-! ### the equations of the schedule -/

section
variable {fl : Rat → Rat}

/-- the forward equations of one task -/
structure FwdEqFl (fl : Rat → Rat) (g : Graph α V O) (num : O → Option Rat) (d : Dict α Task) (x : α) (t : Task) : Prop where
  dur : (g.node x).bind num = some t.duration
  ef : t.earliestFinish = fl (t.earliestStart + t.duration)
  ge : ∀ a, g.Adj a x → ∃ ta, d.get? a = some ta ∧ ta.earliestFinish ≤ t.earliestStart
  att : t.earliestStart = 0 ∧ (∀ a, ¬ g.Adj a x) ∨
    ∃ a ta, g.Adj a x ∧ d.get? a = some ta ∧ ta.earliestFinish = t.earliestStart

structure FwdInvFl (fl : Rat → Rat) (g : Graph α V O) (num : O → Option Rat) (l1 : List α) (d : Dict α Task) (cpl : Rat) : Prop where
  wf : d.WF
  keys : ∀ x, x ∈ d.keys ↔ x ∈ l1
  eqs : ∀ x t, d.get? x = some t → FwdEqFl fl g num d x t
  cge : 0 ≤ cpl ∧ ∀ x t, d.get? x = some t → t.earliestFinish ≤ cpl
  catt : cpl = 0 ∨ ∃ x t, d.get? x = some t ∧ t.earliestFinish = cpl

theorem FwdEqFl.mono {g : Graph α V O} {num : O → Option Rat} {d d' : Dict α Task} {x : α} {t : Task}
    (h : FwdEqFl fl g num d x t) (hd : ∀ a ta, d.get? a = some ta → d'.get? a = some ta) : FwdEqFl fl g num d' x t := by
  refine ⟨h.dur, h.ef, fun a ha => ?_, ?_⟩
  · obtain ⟨ta, h1, h2⟩ := h.ge a ha; exact ⟨ta, hd a ta h1, h2⟩
  · rcases h.att with h1 | ⟨a, ta, h1, h2, h3⟩
    · exact .inl h1
    · exact .inr ⟨a, ta, h1, hd a ta h2, h3⟩

theorem cpForwardFl_spec {g : Graph α V O} (hg : g.Inv) (num : O → Option Rat) (l2 : List α) :
    ∀ l1 d cpl, (l1 ++ l2).Nodup → AfterPreds g.Adj (l1 ++ l2) → FwdInvFl fl g num l1 d cpl →
      ((∀ x ∈ l2, ((g.node x).bind num).isSome) → ∃ d' cpl', cpForwardFl fl num g l2 (d, cpl) = .ok (d', cpl') ∧
        FwdInvFl fl g num (l1 ++ l2) d' cpl') ∧
      ((¬ ∀ x ∈ l2, ((g.node x).bind num).isSome) → cpForwardFl fl num g l2 (d, cpl) = .error .valueError) := by
  induction l2 with
  | nil => intro l1 d cpl _ _ h; exact ⟨fun _ => ⟨d, cpl, rfl, by simpa using h⟩, fun hh => absurd (by simp) hh⟩
  | cons x l2 ih =>
    intro l1 d cpl hn hap hI
    have hxl1 : x ∉ l1 := by
      rw [List.nodup_append] at hn; intro hx; exact hn.2.2 x hx x (by simp) rfl
    have hxd : x ∉ d.keys := fun hx => hxl1 ((hI.keys x).1 hx)
    obtain ⟨preds, hp1, hp2⟩ := lookupAll_ok (d := d) (l := g.nodesTo x) (by
      intro a ha
      exact (hI.keys a).2 (hap l1 x l2 rfl a (hg.mem_nodesTo.1 ha)))
    cases hdur : (g.node x).bind num with
    | none =>
      refine ⟨fun hh => ?_, fun _ => ?_⟩
      · have := hh x (by simp); rw [hdur] at this; cases this
      · simp only [cpForwardFl, hp1, hdur]
    | some dur =>
      simp only [cpForwardFl, hp1, hdur]
      generalize hes : maxOr 0 (preds.map Task.earliestFinish) = es
      obtain ⟨hm1, hm2, hm3⟩ := maxOr_spec 0 (preds.map Task.earliestFinish)
      rw [hes] at hm1 hm2 hm3
      let t : Task := ⟨dur, es, fl (es + dur), 0, 0⟩
      have hext : ∀ a ta, d.get? a = some ta → (d.set x t).get? a = some ta := by
        intro a ta ha
        rw [Dict.get?_set_ne]; exact ha
        rintro rfl; exact hxd (Dict.mem_keys_of_get? ha)
      have hstep : FwdInvFl fl g num (l1 ++ [x]) (d.set x t) (if cpl < t.earliestFinish then t.earliestFinish else cpl) := by
        constructor
        · exact hI.wf.set _ _
        · intro y; rw [Dict.mem_keys_set, hI.keys]; simp; exact or_comm
        · intro y ty hy
          by_cases hyx : x = y
          · subst hyx
            simp only [Dict.get?_set_self, Option.some.injEq] at hy
            subst hy
            refine ⟨hdur, rfl, ?_, ?_⟩
            · intro a ha
              obtain ⟨ta, hta⟩ := Dict.exists_get?_of_mem_keys ((hI.keys a).2 (hap l1 x l2 rfl a ha))
              refine ⟨ta, hext a ta hta, hm1 _ ?_⟩
              exact List.mem_map.2 ⟨ta, (hp2 ta).2 ⟨a, hg.mem_nodesTo.2 ha, hta⟩, rfl⟩
            · by_cases hne : preds = []
              · left
                refine ⟨hm2 (by simp [hne]), fun a ha => ?_⟩
                obtain ⟨ta, hta⟩ := Dict.exists_get?_of_mem_keys ((hI.keys a).2 (hap l1 x l2 rfl a ha))
                have := (hp2 ta).2 ⟨a, hg.mem_nodesTo.2 ha, hta⟩
                rw [hne] at this; cases this
              · right
                obtain ⟨ta, h1, h2⟩ := List.mem_map.1 (hm3 (by simpa using hne))
                obtain ⟨a, h3, h4⟩ := (hp2 ta).1 h1
                exact ⟨a, ta, hg.mem_nodesTo.1 h3, hext a ta h4, h2⟩
          · rw [Dict.get?_set_ne _ _ hyx] at hy
            exact (hI.eqs y ty hy).mono hext
        · have h1 := hI.cge.1
          refine ⟨by split <;> grind, fun y ty hy => ?_⟩
          by_cases hyx : x = y
          · subst hyx
            simp only [Dict.get?_set_self, Option.some.injEq] at hy
            subst hy
            split <;> grind
          · rw [Dict.get?_set_ne _ _ hyx] at hy
            have := hI.cge.2 y ty hy
            split <;> grind
        · split
          · exact .inr ⟨x, t, by simp, rfl⟩
          · rcases hI.catt with h1 | ⟨y, ty, h1, h2⟩
            · exact .inl h1
            · exact .inr ⟨y, ty, hext y ty h1, h2⟩
      obtain ⟨h1, h2⟩ := ih (l1 ++ [x]) (d.set x t) _ (by simpa using hn) (by simpa using hap) hstep
      constructor
      · intro hh
        obtain ⟨d', cpl', h3, h4⟩ := h1 (fun y hy => hh y (List.mem_cons_of_mem _ hy))
        exact ⟨d', cpl', h3, by simpa using h4⟩
      · intro hh
        apply h2
        intro h3; apply hh
        intro y hy
        rcases List.mem_cons.1 hy with rfl | hy
        · rw [hdur]; rfl
        · exact h3 y hy

/-- the backward equations of one task -/
structure BwdEqFl (fl : Rat → Rat) (g : Graph α V O) (d : Dict α Task) (cpl : Rat) (x : α) (t : Task) : Prop where
  ls : t.latestStart = fl (t.latestFinish - t.duration)
  le : ∀ b, g.Adj x b → ∃ tb, d.get? b = some tb ∧ t.latestFinish ≤ tb.latestStart
  att : t.latestFinish = cpl ∧ (∀ b, ¬ g.Adj x b) ∨
    ∃ b tb, g.Adj x b ∧ d.get? b = some tb ∧ tb.latestStart = t.latestFinish

structure BwdInvFl (fl : Rat → Rat) (g : Graph α V O) (d0 : Dict α Task) (cpl : Rat) (done : List α) (d : Dict α Task) : Prop where
  wf : d.WF
  keys : ∀ x, x ∈ d.keys ↔ x ∈ d0.keys
  fwd : ∀ x t, d.get? x = some t → ∃ t0, d0.get? x = some t0 ∧ t0.sameFwd t
  eqs : ∀ x ∈ done, ∃ t, d.get? x = some t ∧ BwdEqFl fl g d cpl x t

/-- the list starts with nodes whose successors come earlier -/
theorem cpBackwardFl_spec {g : Graph α V O} (d0 : Dict α Task) (cpl : Rat) (l2 : List α) :
    ∀ done d, (done ++ l2).Nodup →
      (∀ m1 x m2, done ++ l2 = m1 ++ x :: m2 → ∀ b, g.Adj x b → b ∈ m1) →
      (∀ x ∈ done ++ l2, x ∈ d0.keys) →
      BwdInvFl fl g d0 cpl done d → ∃ d', cpBackwardFl fl g cpl l2 d = .ok d' ∧ BwdInvFl fl g d0 cpl (done ++ l2) d' := by
  induction l2 with
  | nil => intro done d _ _ _ h; exact ⟨d, rfl, by simpa using h⟩
  | cons x l2 ih =>
    intro done d hn hap hk hI
    have hxd : x ∉ done := by
      rw [List.nodup_append] at hn; intro hx; exact hn.2.2 x hx x (by simp) rfl
    obtain ⟨succs, hp1, hp2⟩ := lookupAll_ok (d := d) (l := g.nodesFrom x) (by
      intro b hb
      have := hap done x l2 rfl b (mem_nodesFrom.1 hb)
      exact (hI.keys b).2 (hk b (List.mem_append_left _ this)))
    obtain ⟨t, ht⟩ := Dict.exists_get?_of_mem_keys ((hI.keys x).2 (hk x (by simp)))
    simp only [cpBackwardFl, hp1, ht]
    generalize hlf : minOr cpl (succs.map Task.latestStart) = lf
    obtain ⟨hm1, hm2, hm3⟩ := minOr_spec cpl (succs.map Task.latestStart)
    rw [hlf] at hm1 hm2 hm3
    have hne : ∀ b, g.Adj x b → x ≠ b := by
      rintro b hb rfl; exact hxd (hap done x l2 rfl x hb)
    have hstep : BwdInvFl fl g d0 cpl (done ++ [x])
        (d.set x { t with latestFinish := lf, latestStart := fl (lf - t.duration) }) := by
      constructor
      · exact hI.wf.set _ _
      · intro y; rw [Dict.mem_keys_set, hI.keys]
        constructor
        · rintro (rfl | h1)
          · exact hk y (by simp)
          · exact h1
        · intro h1; exact .inr h1
      · intro y ty hy
        by_cases hyx : x = y
        · subst hyx
          simp only [Dict.get?_set_self, Option.some.injEq] at hy
          subst hy
          obtain ⟨t0, h1, h2⟩ := hI.fwd x t ht
          exact ⟨t0, h1, h2⟩
        · rw [Dict.get?_set_ne _ _ hyx] at hy; exact hI.fwd y ty hy
      · intro y hy
        rcases List.mem_append.1 hy with hy | hy
        · obtain ⟨ty, h1, h2⟩ := hI.eqs y hy
          have hyx : x ≠ y := by rintro rfl; exact hxd hy
          have hsucc : ∀ b, g.Adj y b → x ≠ b := by
            rintro b hb rfl
            obtain ⟨m1, m2, hm⟩ := List.append_of_mem hy
            have := hap m1 y (m2 ++ x :: l2) (by rw [hm]; simp) x hb
            exact hxd (by rw [hm]; exact List.mem_append_left _ this)
          refine ⟨ty, by rw [Dict.get?_set_ne _ _ hyx]; exact h1, h2.ls, ?_, ?_⟩
          · intro b hb
            obtain ⟨tb, h3, h4⟩ := h2.le b hb
            exact ⟨tb, by rw [Dict.get?_set_ne _ _ (hsucc b hb)]; exact h3, h4⟩
          · rcases h2.att with h3 | ⟨b, tb, h3, h4, h5⟩
            · exact .inl h3
            · exact .inr ⟨b, tb, h3, by rw [Dict.get?_set_ne _ _ (hsucc b h3)]; exact h4, h5⟩
        · have : y = x := by simpa using hy
          subst this
          refine ⟨_, Dict.get?_set_self _ _ _, rfl, ?_, ?_⟩
          · intro b hb
            obtain ⟨tb, htb⟩ := Dict.exists_get?_of_mem_keys ((hI.keys b).2
              (hk b (List.mem_append_left _ (hap done y l2 rfl b hb))))
            refine ⟨tb, by rw [Dict.get?_set_ne _ _ (hne b hb)]; exact htb, hm1 _ ?_⟩
            exact List.mem_map.2 ⟨tb, (hp2 tb).2 ⟨b, mem_nodesFrom.2 hb, htb⟩, rfl⟩
          · by_cases hse : succs = []
            · left
              refine ⟨hm2 (by simp [hse]), fun b hb => ?_⟩
              obtain ⟨tb, htb⟩ := Dict.exists_get?_of_mem_keys ((hI.keys b).2
                (hk b (List.mem_append_left _ (hap done y l2 rfl b hb))))
              have := (hp2 tb).2 ⟨b, mem_nodesFrom.2 hb, htb⟩
              rw [hse] at this; cases this
            · right
              obtain ⟨tb, h1, h2⟩ := List.mem_map.1 (hm3 (by simpa using hse))
              obtain ⟨b, h3, h4⟩ := (hp2 tb).1 h1
              have h3 := mem_nodesFrom.1 h3
              exact ⟨b, tb, h3, by rw [Dict.get?_set_ne _ _ (hne b h3)]; exact h4, h2⟩
    obtain ⟨d', h1, h2⟩ := ih (done ++ [x]) _ (by simpa using hn)
      (by intro m1 y m2 he; exact hap m1 y m2 (by simpa using he)) (by simpa using hk) hstep
    exact ⟨d', h1, by simpa using h2⟩

/-- all equations of the schedule -/
structure CpmEqsFl (fl : Rat → Rat) (g : Graph α V O) (num : O → Option Rat) (d : Dict α Task) (cpl : Rat) : Prop where
  wf : d.WF
  keys : ∀ x, x ∈ d.keys ↔ g.has x = true
  fwd : ∀ x t, d.get? x = some t → FwdEqFl fl g num d x t
  bwd : ∀ x t, d.get? x = some t → BwdEqFl fl g d cpl x t
  cge : 0 ≤ cpl ∧ ∀ x t, d.get? x = some t → t.earliestFinish ≤ cpl
  catt : cpl = 0 ∨ ∃ x t, d.get? x = some t ∧ t.earliestFinish = cpl

theorem cpPassesFl_eqs {g : Graph α V O} (hg : g.Inv) {out : List α} (h2 : out.Nodup) (h3 : ∀ x, x ∈ out ↔ g.has x = true)
    (h4 : AfterPreds g.Adj out) (num : O → Option Rat) (hA : Acyclic g.Adj) :
    ((∀ x, g.has x = true → ((g.node x).bind num).isSome) →
      ∃ cpl d, g.cpPassesFl fl num out = some (.ok (cpl, d)) ∧ CpmEqsFl fl g num d cpl) ∧
    ((¬ ∀ x, g.has x = true → ((g.node x).bind num).isSome) →
      g.cpPassesFl fl num out = some (.error .valueError)) := by
  have h0 : FwdInvFl fl g num [] (.empty : Dict α Task) 0 :=
    ⟨by simp, by simp [Dict.empty, Dict.keys], by simp, ⟨Rat.le_refl, by simp⟩, .inl rfl⟩
  obtain ⟨hf1, hf2⟩ := cpForwardFl_spec hg num out [] .empty 0 (by simpa using h2) (by simpa using h4) h0
  unfold cpPassesFl
  constructor
  · intro hh
    obtain ⟨d, cpl, h5, h6⟩ := hf1 (fun x hx => hh x ((h3 x).1 hx))
    simp only [h5]
    simp only [List.nil_append] at h6
    have hrev : ∀ m1 x m2, out.reverse = m1 ++ x :: m2 → ∀ b, g.Adj x b → b ∈ m1 := by
      intro m1 x m2 he b hb
      have he' : out = m2.reverse ++ x :: m1.reverse := by
        have := congrArg List.reverse he
        simpa using this
      have hbo : b ∈ out := (h3 b).2 (has_iff.2 (hg.finite x b hb).2)
      obtain ⟨l1, l2, hl⟩ := List.append_of_mem hbo
      have hxl : x ∈ l1 := h4 l1 b l2 hl x hb
      -- b is not in m2.reverse ++ [x]
      apply Classical.byContradiction
      intro hbm
      have hb2 : b ∈ m2.reverse ++ x :: m1.reverse := he' ▸ hbo
      have hb3 : b ∈ m2.reverse ∨ b = x := by simp at hb2 ⊢; grind
      rcases hb3 with hb3 | hb3
      · obtain ⟨k1, k2, hk⟩ := List.append_of_mem hb3
        have := h4 k1 b (k2 ++ x :: m1.reverse) (by rw [he', hk]; simp) x hb
        rw [he', List.nodup_append] at h2
        exact h2.2.2 x (by rw [hk]; exact List.mem_append_left _ this) x (by simp) rfl
      · subst hb3
        exact hA b ⟨0, .succ (.zero b) hb⟩
    have hb0 : BwdInvFl fl g d cpl [] d :=
      ⟨h6.wf, fun _ => Iff.rfl, fun x t ht => ⟨t, ht, rfl, rfl, rfl⟩, by simp⟩
    obtain ⟨d', h7, h8⟩ := cpBackwardFl_spec d cpl out.reverse [] d (by simpa [nodup_reverse] using h2)
      (by simpa using hrev) (by intro x hx; exact (h6.keys x).2 (by simpa using hx)) hb0
    rw [h7]
    simp only [List.nil_append] at h8
    refine ⟨cpl, d', rfl, ?_⟩
    -- transport the forward equations
    have hback : ∀ x t0, d.get? x = some t0 → ∃ t, d'.get? x = some t ∧ t0.sameFwd t := by
      intro x t0 hx
      obtain ⟨t, ht⟩ := Dict.exists_get?_of_mem_keys ((h8.keys x).2 (Dict.mem_keys_of_get? hx))
      obtain ⟨t1, h9, h10⟩ := h8.fwd x t ht
      rw [hx] at h9
      exact ⟨t, ht, (Option.some.inj h9).symm ▸ h10⟩
    constructor
    · exact h8.wf
    · intro x; rw [h8.keys, h6.keys, h3]
    · intro x t ht
      obtain ⟨t0, h9, h10⟩ := h8.fwd x t ht
      have e := h6.eqs x t0 h9
      refine ⟨by rw [h10.1]; exact e.dur, by rw [h10.1, h10.2.1, h10.2.2]; exact e.ef, ?_, ?_⟩
      · intro a ha
        obtain ⟨ta, h11, h12⟩ := e.ge a ha
        obtain ⟨ta', h13, h14⟩ := hback a ta h11
        exact ⟨ta', h13, by rw [h14.2.2, h10.2.1]; exact h12⟩
      · rcases e.att with h11 | ⟨a, ta, h11, h12, h13⟩
        · exact .inl ⟨by rw [h10.2.1]; exact h11.1, h11.2⟩
        · obtain ⟨ta', h14, h15⟩ := hback a ta h12
          exact .inr ⟨a, ta', h11, h14, by rw [h15.2.2, h10.2.1]; exact h13⟩
    · intro x t ht
      have hx : x ∈ out.reverse := by
        have := (h8.keys x).1 (Dict.mem_keys_of_get? ht)
        simpa using (h6.keys x).1 this
      obtain ⟨t', h9, h10⟩ := h8.eqs x hx
      rw [ht] at h9
      exact (Option.some.inj h9).symm ▸ h10
    · refine ⟨h6.cge.1, fun x t ht => ?_⟩
      obtain ⟨t0, h9, h10⟩ := h8.fwd x t ht
      rw [h10.2.2]; exact h6.cge.2 x t0 h9
    · rcases h6.catt with h9 | ⟨x, t0, h9, h10⟩
      · exact .inl h9
      · obtain ⟨t, h11, h12⟩ := hback x t0 h9
        exact .inr ⟨x, t, h11, by rw [h12.2.2]; exact h10⟩
  · intro hh
    simp only [hf2 (fun h5 => hh (fun x hx => h5 x ((h3 x).2 hx)))]


theorem criticalPathFl_eqs {g : Graph α V O} (hg : g.Inv) {srt : List α → List α} (hs : ∀ l, (srt l).Perm l)
    (num : O → Option Rat) (hA : Acyclic g.Adj) :
    ((∀ x, g.has x = true → ((g.node x).bind num).isSome) →
      ∃ cpl d, g.criticalPathFl fl num srt = some (.ok (cpl, d)) ∧ CpmEqsFl fl g num d cpl) ∧
    ((¬ ∀ x, g.has x = true → ((g.node x).bind num).isSome) →
      g.criticalPathFl fl num srt = some (.error .valueError)) := by
  obtain ⟨out, h1, h2, h3, h4⟩ := (topoList_spec hg hs).1 hA
  have e : g.criticalPathFl fl num srt = g.cpPassesFl fl num out := by unfold criticalPathFl; rw [h1]; rfl
  rw [e]
  exact cpPassesFl_eqs hg h2 h3 h4 num hA

/-! ### chains -/

omit [DecidableEq α] in
theorem flDur_snoc (fl : Rat → Rat) (dur : α → Rat) (p : List α) (acc : Rat) (x : α) :
    flDur fl dur acc (p ++ [x]) = fl (flDur fl dur acc p + dur x) := by
  induction p generalizing acc with
  | nil => rfl
  | cons y p ih => exact ih _

variable {g : Graph α V O} {num : O → Option Rat} {d : Dict α Task} {cpl : Rat}

theorem CpmEqsFl.dur_eq (h : CpmEqsFl fl g num d cpl) {x : α} {t : Task} (ht : d.get? x = some t) :
    g.dur num x = t.duration := by unfold Graph.dur; rw [(h.fwd x t ht).dur]; rfl

theorem CpmEqsFl.es_att (hA : Acyclic g.Adj) (hg : g.Inv) (h : CpmEqsFl fl g num d cpl) :
    ∀ x t, d.get? x = some t → ∃ p, Consec g.Adj (p ++ [x]) ∧ flDur fl (g.dur num) 0 p = t.earliestStart := by
  have hA' : Acyclic (Flip g.Adj) := by
    rintro a ⟨n, hn⟩; exact hA a ⟨n, hn.flip⟩
  obtain ⟨rank, hr, _, _⟩ := hA'.rank (U := g.nodeList) (fun a b hab => ⟨(hg.finite b a hab).2, (hg.finite b a hab).1⟩)
  have : ∀ n x t, rank x = n → d.get? x = some t →
      ∃ p, Consec g.Adj (p ++ [x]) ∧ flDur fl (g.dur num) 0 p = t.earliestStart := by
    intro n
    induction n using Nat.strongRecOn with
    | _ n ih =>
      intro x t hx ht
      rcases (h.fwd x t ht).att with ⟨h1, _⟩ | ⟨a, ta, h1, h2, h3⟩
      · exact ⟨[], trivial, by rw [h1]; rfl⟩
      · obtain ⟨p, h4, h5⟩ := ih (rank a) (hx ▸ hr x a h1) a ta rfl h2
        refine ⟨p ++ [a], Consec.snoc h4 (by simp) h1, ?_⟩
        rw [flDur_snoc, h5, ← h3, (h.fwd a ta h2).ef, ← h.dur_eq h2]
  intro x t ht
  exact this _ x t rfl ht

theorem Rounding.nonneg (hfl : Rounding fl) {x : Rat} (h : 0 ≤ x) : 0 ≤ fl x := by
  have := hfl.mono 0 x h; rwa [hfl.zero] at this

/-- what is finished or started is a rounded number -/
theorem CpmEqsFl.es_fix (hfl : Rounding fl) (h : CpmEqsFl fl g num d cpl) {x : α} {t : Task} (ht : d.get? x = some t) :
    fl t.earliestStart = t.earliestStart := by
  rcases (h.fwd x t ht).att with ⟨h1, _⟩ | ⟨a, ta, h1, h2, h3⟩
  · rw [h1, hfl.zero]
  · rw [← h3, (h.fwd a ta h2).ef, hfl.idem]

theorem CpmEqsFl.cpl_fix (hfl : Rounding fl) (h : CpmEqsFl fl g num d cpl) : fl cpl = cpl := by
  rcases h.catt with h1 | ⟨x, t, h1, h2⟩
  · rw [h1, hfl.zero]
  · rw [← h2, (h.fwd x t h1).ef, hfl.idem]

theorem CpmEqsFl.lf_fix (hfl : Rounding fl) (h : CpmEqsFl fl g num d cpl) {x : α} {t : Task} (ht : d.get? x = some t) :
    fl t.latestFinish = t.latestFinish := by
  rcases (h.bwd x t ht).att with ⟨h1, _⟩ | ⟨b, tb, h1, h2, h3⟩
  · rw [h1, h.cpl_fix hfl]
  · rw [← h3, (h.bwd b tb h2).ls, hfl.idem]

theorem CpmEqsFl.es_nonneg (hfl : Rounding fl) (hA : Acyclic g.Adj) (hg : g.Inv) (h : CpmEqsFl fl g num d cpl)
    (hd : ∀ x, g.has x = true → 0 ≤ g.dur num x) {x : α} {t : Task} (ht : d.get? x = some t) :
    0 ≤ t.earliestStart := by
  have hA' : Acyclic (Flip g.Adj) := by
    rintro a ⟨n, hn⟩; exact hA a ⟨n, hn.flip⟩
  obtain ⟨rank, hr, _, _⟩ := hA'.rank (U := g.nodeList) (fun a b hab => ⟨(hg.finite b a hab).2, (hg.finite b a hab).1⟩)
  have : ∀ n x t, rank x = n → d.get? x = some t → 0 ≤ t.earliestStart := by
    intro n
    induction n using Nat.strongRecOn with
    | _ n ih =>
      intro x t hx ht
      rcases (h.fwd x t ht).att with ⟨h1, _⟩ | ⟨a, ta, h1, h2, h3⟩
      · rw [h1]; exact Rat.le_refl
      · have h4 := ih (rank a) (hx ▸ hr x a h1) a ta rfl h2
        have h5 := (h.fwd a ta h2).ef
        have h6 := hd a (has_iff.2 (hg.finite a x h1).1)
        rw [h.dur_eq h2] at h6
        rw [← h3, h5]
        exact hfl.nonneg (by grind)
  exact this _ x t rfl ht

theorem CpmEqsFl.es_ub (hfl : Rounding fl) (hA : Acyclic g.Adj) (hg : g.Inv) (h : CpmEqsFl fl g num d cpl)
    (hd : ∀ x, g.has x = true → 0 ≤ g.dur num x) (p : List α) :
    ∀ x t, d.get? x = some t → Consec g.Adj (p ++ [x]) → flDur fl (g.dur num) 0 p ≤ t.earliestStart := by
  generalize hn : p.length = n
  induction n generalizing p with
  | zero =>
    intro x t ht _
    have : p = [] := List.length_eq_zero_iff.1 hn
    subst this
    exact h.es_nonneg hfl hA hg hd ht
  | succ n ih =>
    intro x t ht hc
    have hp : p ≠ [] := by rintro rfl; simp at hn
    obtain ⟨q, a, rfl⟩ : ∃ q a, p = q ++ [a] := ⟨_, _, (List.dropLast_concat_getLast hp).symm⟩
    obtain ⟨h1, h2⟩ := consec_snoc_split hc
    obtain ⟨ta, h3, h4⟩ := (h.fwd x t ht).ge a h2
    have h5 := ih q (by simpa using hn) a ta h3 h1
    rw [flDur_snoc]
    refine Rat.le_trans ?_ h4
    rw [(h.fwd a ta h3).ef, ← h.dur_eq h3]
    exact hfl.mono _ _ (by grind)

theorem CpmEqsFl.lf_att (hA : Acyclic g.Adj) (hg : g.Inv) (h : CpmEqsFl fl g num d cpl) :
    ∀ x t, d.get? x = some t → ∃ p, Consec g.Adj (x :: p) ∧ flBack fl (g.dur num) cpl p = t.latestFinish := by
  obtain ⟨rank, hr, _, _⟩ := hA.rank hg.finite
  have : ∀ n x t, rank x = n → d.get? x = some t →
      ∃ p, Consec g.Adj (x :: p) ∧ flBack fl (g.dur num) cpl p = t.latestFinish := by
    intro n
    induction n using Nat.strongRecOn with
    | _ n ih =>
      intro x t hx ht
      rcases (h.bwd x t ht).att with ⟨h1, _⟩ | ⟨b, tb, h1, h2, h3⟩
      · exact ⟨[], trivial, h1.symm⟩
      · obtain ⟨p, h4, h5⟩ := ih (rank b) (hx ▸ hr x b h1) b tb rfl h2
        refine ⟨b :: p, ⟨h1, h4⟩, ?_⟩
        rw [flBack, h5, h.dur_eq h2, ← h3, (h.bwd b tb h2).ls]
  intro x t ht
  exact this _ x t rfl ht

theorem CpmEqsFl.lf_le (hfl : Rounding fl) (hA : Acyclic g.Adj) (hg : g.Inv) (h : CpmEqsFl fl g num d cpl)
    (hd : ∀ x, g.has x = true → 0 ≤ g.dur num x) :
    ∀ x t, d.get? x = some t → t.latestFinish ≤ cpl := by
  obtain ⟨rank, hr, _, _⟩ := hA.rank hg.finite
  have : ∀ n x t, rank x = n → d.get? x = some t → t.latestFinish ≤ cpl := by
    intro n
    induction n using Nat.strongRecOn with
    | _ n ih =>
      intro x t hx ht
      rcases (h.bwd x t ht).att with ⟨h1, _⟩ | ⟨b, tb, h1, h2, h3⟩
      · rw [h1]; exact Rat.le_refl
      · have h4 := ih (rank b) (hx ▸ hr x b h1) b tb rfl h2
        have h6 := hd b (has_iff.2 (hg.finite x b h1).2)
        rw [h.dur_eq h2] at h6
        rw [← h3, (h.bwd b tb h2).ls]
        have h7 := hfl.mono (tb.latestFinish - tb.duration) tb.latestFinish (by grind)
        rw [h.lf_fix hfl h2] at h7
        exact Rat.le_trans h7 h4
  intro x t ht
  exact this _ x t rfl ht

theorem CpmEqsFl.lf_ub (hfl : Rounding fl) (hA : Acyclic g.Adj) (hg : g.Inv) (h : CpmEqsFl fl g num d cpl)
    (hd : ∀ x, g.has x = true → 0 ≤ g.dur num x) (p : List α) :
    ∀ x t, d.get? x = some t → Consec g.Adj (x :: p) → t.latestFinish ≤ flBack fl (g.dur num) cpl p := by
  induction p with
  | nil => intro x t ht _; exact h.lf_le hfl hA hg hd x t ht
  | cons b p ih =>
    intro x t ht hc
    obtain ⟨tb, h3, h4⟩ := (h.bwd x t ht).le b hc.1
    have h5 := ih b tb h3 hc.2
    refine Rat.le_trans h4 ?_
    rw [flBack, (h.bwd b tb h3).ls, ← h.dur_eq h3]
    exact hfl.mono _ _ (by grind)

/-- the length of the project is the largest computed length of a chain -/
theorem CpmEqsFl.cpl_longest (hfl : Rounding fl) (hA : Acyclic g.Adj) (hg : g.Inv) (h : CpmEqsFl fl g num d cpl)
    (hd : ∀ x, g.has x = true → 0 ≤ g.dur num x) :
    (∃ p, (Consec g.Adj p ∧ ∀ x ∈ p, g.has x = true) ∧ flDur fl (g.dur num) 0 p = cpl) ∧
    ∀ p, (Consec g.Adj p ∧ ∀ x ∈ p, g.has x = true) → flDur fl (g.dur num) 0 p ≤ cpl := by
  constructor
  · rcases h.catt with h1 | ⟨x, t, h1, h2⟩
    · exact ⟨[], ⟨trivial, by simp⟩, h1.symm⟩
    · obtain ⟨p, h3, h4⟩ := h.es_att hA hg x t h1
      refine ⟨p ++ [x], ⟨h3, ?_⟩, ?_⟩
      · intro y hy
        cases p with
        | nil =>
          have : y = x := by simpa using hy
          subst this; exact (h.keys y).1 (Dict.mem_keys_of_get? h1)
        | cons z p => exact has_iff.2 (h3.of_mem hg.finite (by simp) y hy)
      · rw [flDur_snoc, h4, h.dur_eq h1, ← h2, (h.fwd x t h1).ef]
  · rintro p ⟨h1, h2⟩
    by_cases hp : p = []
    · subst hp; exact h.cge.1
    · obtain ⟨q, a, rfl⟩ : ∃ q a, p = q ++ [a] := ⟨_, _, (List.dropLast_concat_getLast hp).symm⟩
      obtain ⟨t, ht⟩ := Dict.exists_get?_of_mem_keys ((h.keys a).2 (h2 a (by simp)))
      have h3 := h.es_ub hfl hA hg hd q a t ht h1
      rw [flDur_snoc, h.dur_eq ht]
      refine Rat.le_trans ?_ (h.cge.2 a t ht)
      rw [(h.fwd a t ht).ef]
      exact hfl.mono _ _ (by grind)

/-- some task has no slack -/
theorem CpmEqsFl.zero_slack (hfl : Rounding fl) (hA : Acyclic g.Adj) (hg : g.Inv) (h : CpmEqsFl fl g num d cpl)
    (hd : ∀ x, g.has x = true → 0 ≤ g.dur num x) (hne : ∃ x, g.has x = true) :
    ∃ x t, d.get? x = some t ∧ t.earliestFinish = cpl ∧ t.latestFinish = cpl := by
  have hgrow : ∀ x t, d.get? x = some t → t.earliestStart ≤ t.earliestFinish := by
    intro x t ht
    have h1 := hd x ((h.keys x).1 (Dict.mem_keys_of_get? ht))
    rw [h.dur_eq ht] at h1
    have h2 := hfl.mono t.earliestStart (t.earliestStart + t.duration) (by grind)
    rw [h.es_fix hfl ht] at h2
    rw [(h.fwd x t ht).ef]; exact h2
  obtain ⟨rank, hr, _, _⟩ := hA.rank hg.finite
  have key : ∀ n x t, rank x = n → d.get? x = some t → t.earliestFinish = cpl →
      ∃ x t, d.get? x = some t ∧ t.earliestFinish = cpl ∧ t.latestFinish = cpl := by
    intro n
    induction n using Nat.strongRecOn with
    | _ n ih =>
      intro x t hx ht hc
      rcases (h.bwd x t ht).att with ⟨h1, _⟩ | ⟨b, tb, h1, h2, _⟩
      · exact ⟨x, t, ht, hc, h1⟩
      · refine ih (rank b) (hx ▸ hr x b h1) b tb rfl h2 ?_
        obtain ⟨tx, h3, h4⟩ := (h.fwd b tb h2).ge x h1
        rw [ht] at h3
        have h3 := Option.some.inj h3
        subst h3
        have h5 := hgrow b tb h2
        have h6 := h.cge.2 b tb h2
        grind
  rcases h.catt with h1 | ⟨x, t, h1, h2⟩
  · obtain ⟨x, hx⟩ := hne
    obtain ⟨t, ht⟩ := Dict.exists_get?_of_mem_keys ((h.keys x).2 hx)
    refine key _ x t rfl ht ?_
    have h2 := h.cge.2 x t ht
    have h3 := h.es_nonneg hfl hA hg hd ht
    have h4 := hgrow x t ht
    grind
  · exact key _ x t rfl h1 h2

end

/-- the rounded total of `m` tasks is their total up to `m` relative errors -/
theorem flDur_bounds {fl : Rat → Rat} {ε : Rat} (h0 : 0 ≤ ε) (h1 : ε ≤ 1) (hε : RelErr fl ε) {dur : α → Rat}
    (p : List α) (hp : ∀ x ∈ p, 0 ≤ dur x) : ∀ {acc : Rat}, 0 ≤ acc →
      (1 - ε) ^ p.length * (acc + totalDur dur p) ≤ flDur fl dur acc p ∧
      flDur fl dur acc p ≤ (1 + ε) ^ p.length * (acc + totalDur dur p) := by
  induction p with
  | nil =>
    intro acc ha
    simp only [List.length_nil, Rat.pow_zero, flDur, totalDur, List.map_nil, List.sum_nil]
    constructor <;> grind
  | cons a l ih =>
    intro acc ha
    have hc1 := hp a (by simp)
    have hc2 : 0 ≤ totalDur dur l := by
      have : ∀ l : List α, (∀ x ∈ l, 0 ≤ dur x) → 0 ≤ totalDur dur l := by
        intro l
        induction l with
        | nil => intro _; exact Rat.le_refl
        | cons b l ih =>
          intro h
          have h2 := ih (fun x hx => h x (List.mem_cons_of_mem _ hx))
          have h3 := h b (by simp)
          rw [totalDur_cons]; grind
      exact this l (fun x hx => hp x (List.mem_cons_of_mem _ hx))
    obtain ⟨e1, e2⟩ := hε (acc + dur a) (by grind)
    have hpos : 0 ≤ (1 - ε) * (acc + dur a) := Rat.mul_nonneg (by grind) (by grind)
    obtain ⟨b1, b2⟩ := ih (fun x hx => hp x (List.mem_cons_of_mem _ hx)) (acc := fl (acc + dur a)) (by grind)
    rw [List.length_cons, Rat.pow_succ, Rat.pow_succ, flDur, totalDur_cons]
    generalize totalDur dur l = c2 at *
    generalize l.length = m at *
    have p1 : 0 ≤ (1 - ε) ^ m := Rat.pow_nonneg (by grind)
    have p2 : 0 ≤ (1 + ε) ^ m := Rat.pow_nonneg (by grind)
    have k0 : 0 ≤ ε * c2 := Rat.mul_nonneg h0 hc2
    have k1 : (1 - ε) * (acc + (dur a + c2)) ≤ fl (acc + dur a) + c2 := by grind
    have k2 : fl (acc + dur a) + c2 ≤ (1 + ε) * (acc + (dur a + c2)) := by grind
    have m1 := Rat.mul_le_mul_of_nonneg_left k1 p1
    have m2 := Rat.mul_le_mul_of_nonneg_left k2 p2
    constructor
    · rw [Rat.mul_assoc]; grind
    · rw [Rat.mul_assoc]; grind

/-! ### when rounding has no effect -/

theorem lookupAll_mem {β : Type} {d : Dict α β} {l : List α} {ts : List β} (h : lookupAll d l = .ok ts) :
    ∀ t ∈ ts, ∃ x, d.get? x = some t := by
  induction l generalizing ts with
  | nil => simp only [lookupAll] at h; cases h; simp
  | cons x l ih =>
    simp only [lookupAll] at h
    split at h
    · cases h
    · rename_i t ht
      split at h
      · cases h
      · rename_i ts' hts
        cases h
        intro t' ht'
        rcases List.mem_cons.1 ht' with rfl | ht'
        · exact ⟨x, ht⟩
        · exact ih hts t' ht'

theorem maxOr_mem (b : Rat) (l : List Rat) : maxOr b l = b ∨ maxOr b l ∈ l := by
  by_cases h : l = []
  · left; exact (maxOr_spec b l).2.1 h
  · right; exact (maxOr_spec b l).2.2 h

theorem minOr_mem (b : Rat) (l : List Rat) : minOr b l = b ∨ minOr b l ∈ l := by
  by_cases h : l = []
  · left; exact (minOr_spec b l).2.1 h
  · right; exact (minOr_spec b l).2.2 h

/-- without rounding this is the model of Dag/Cpm.lean -/
theorem criticalPath_eq_fl (num : O → Option Rat) (srt : List α → List α) (g : Graph α V O) :
    g.criticalPathFl id num srt = g.criticalPath num srt := by
  have hf : ∀ l s, cpForwardFl id num g l s = cpForward num g l s := by
    intro l
    induction l with
    | nil => intro s; rfl
    | cons x l ih => rintro ⟨d, cpl⟩; simp only [cpForwardFl, cpForward, ih, id]; rfl
  have hb : ∀ cpl l d, cpBackwardFl id g cpl l d = cpBackward g cpl l d := by
    intro cpl l
    induction l with
    | nil => intro d; rfl
    | cons x l ih => intro d; simp only [cpBackwardFl, cpBackward, ih, id]; rfl
  unfold criticalPathFl criticalPath
  simp only [hf, hb]
  rfl

/-- an integer between `-a` and `b` -/
def IntBetween (a b : Nat) (x : Rat) : Prop := ∃ z : Int, x = (z : Rat) ∧ -(a : Int) ≤ z ∧ z ≤ b

theorem IntUpTo.mono {a b : Nat} {x : Rat} (h : IntUpTo a x) (hab : a ≤ b) : IntUpTo b x := by
  obtain ⟨z, h1, h2⟩ := h; exact ⟨z, h1, by omega⟩

theorem IntBetween.mono {a b a' b' : Nat} {x : Rat} (h : IntBetween a b x) (ha : a ≤ a') (hb : b ≤ b') : IntBetween a' b' x := by
  obtain ⟨z, h1, h2, h3⟩ := h; exact ⟨z, h1, by omega, by omega⟩

theorem IntUpTo.between {b : Nat} {x : Rat} (h : IntUpTo b x) : IntBetween 0 b x := by
  obtain ⟨z, h1, h2⟩ := h; exact ⟨z, by rw [h1, Rat.intCast_natCast], by omega, by omega⟩

theorem IntUpTo.add {a b : Nat} {x y : Rat} (h : IntUpTo a x) (h' : IntUpTo b y) : IntUpTo (a + b) (x + y) := by
  obtain ⟨z, h1, h2⟩ := h
  obtain ⟨w, h3, h4⟩ := h'
  exact ⟨z + w, by rw [h1, h3, Rat.natCast_add], by omega⟩

theorem IntBetween.sub {a b M : Nat} {x y : Rat} (h : IntBetween a b x) (h' : IntUpTo M y) : IntBetween (a + M) b (x - y) := by
  obtain ⟨z, h1, h2, h3⟩ := h
  obtain ⟨w, h4, h5⟩ := h'
  exact ⟨z - (w : Int), by rw [h1, h4, ← Rat.intCast_natCast, ← Rat.intCast_sub], by omega, by omega⟩

/-- `fl` leaves the integers between `-N` and `N` as they are -/
def ExactBetween (fl : Rat → Rat) (N : Nat) : Prop := ∀ x, IntBetween N N x → fl x = x

theorem double_exactBetween : ExactBetween double (2 ^ 53) := by
  rintro x ⟨z, rfl, h1, h2⟩
  exact double_int (by omega)

theorem cpForwardFl_int {fl : Rat → Rat} {num : O → Option Rat} {g : Graph α V O} {M N : Nat} (hfl : ExactBetween fl N)
    (hd : ∀ x v, (g.node x).bind num = some v → IntUpTo M v) (l : List α) : ∀ k d cpl, (k + l.length) * M ≤ N →
    (∀ x t, d.get? x = some t → IntUpTo (k * M) t.earliestFinish ∧ IntUpTo M t.duration ∧ t.latestStart = 0) →
    IntUpTo (k * M) cpl →
    cpForwardFl fl num g l (d, cpl) = cpForward num g l (d, cpl) ∧
    ∀ d' cpl', cpForward num g l (d, cpl) = .ok (d', cpl') → IntUpTo N cpl' ∧
      ∀ x t, d'.get? x = some t → IntUpTo M t.duration ∧ t.latestStart = 0 := by
  induction l with
  | nil =>
    intro k d cpl hk hD hc
    refine ⟨rfl, ?_⟩
    intro d' cpl' h
    simp only [cpForward] at h
    cases h
    exact ⟨hc.mono (by simpa using hk), fun x t ht => (hD x t ht).2⟩
  | cons x l ih =>
    intro k d cpl hk hD hc
    simp only [cpForwardFl, cpForward]
    cases hp : lookupAll d (g.nodesTo x) with
    | error e => exact ⟨rfl, by intro _ _ h; cases h⟩
    | ok preds =>
      cases hdur : (g.node x).bind num with
      | none => exact ⟨rfl, by intro _ _ h; cases h⟩
      | some dur =>
        have hdu := hd x dur hdur
        have hes : IntUpTo (k * M) (maxOr 0 (preds.map Task.earliestFinish)) := by
          rcases maxOr_mem 0 (preds.map Task.earliestFinish) with h | h
          · rw [h]; exact ⟨0, rfl, Nat.zero_le _⟩
          · obtain ⟨t, h1, h2⟩ := List.mem_map.1 h
            obtain ⟨y, hy⟩ := lookupAll_mem hp t h1
            rw [← h2]; exact (hD y t hy).1
        have hef : IntUpTo ((k + 1) * M) (maxOr 0 (preds.map Task.earliestFinish) + dur) := by
          have := hes.add hdu
          rwa [Nat.succ_mul]
        have hkl : (k + 1) * M ≤ N := Nat.le_trans (Nat.mul_le_mul_right M (by simp only [List.length_cons]; omega)) hk
        have e : fl (maxOr 0 (preds.map Task.earliestFinish) + dur) = maxOr 0 (preds.map Task.earliestFinish) + dur :=
          hfl _ (hef.between.mono (by omega) hkl)
        simp only [e]
        refine ih (k + 1) _ _ (by simp only [List.length_cons] at hk; rwa [Nat.add_right_comm]) ?_ ?_
        · intro y t ht
          by_cases hyx : x = y
          · subst hyx
            simp only [Dict.get?_set_self, Option.some.injEq] at ht
            subst ht
            exact ⟨hef, hdu, rfl⟩
          · rw [Dict.get?_set_ne _ _ hyx] at ht
            have := hD y t ht
            exact ⟨this.1.mono (Nat.mul_le_mul_right M (by omega)), this.2⟩
        · split
          · exact hef
          · exact hc.mono (Nat.mul_le_mul_right M (by omega))

theorem cpBackwardFl_int {fl : Rat → Rat} {g : Graph α V O} {M N : Nat} (hfl : ExactBetween fl N) {cpl : Rat} (hc : IntUpTo N cpl)
    (l : List α) : ∀ k d, (k + l.length) * M ≤ N →
    (∀ x t, d.get? x = some t → IntUpTo M t.duration ∧ IntBetween (k * M) N t.latestStart) →
    cpBackwardFl fl g cpl l d = cpBackward g cpl l d := by
  induction l with
  | nil => intro k d _ _; rfl
  | cons x l ih =>
    intro k d hk hD
    simp only [cpBackwardFl, cpBackward]
    cases hp : lookupAll d (g.nodesFrom x) with
    | error e => rfl
    | ok succs =>
      cases ht : d.get? x with
      | none => rfl
      | some t =>
        have hlf : IntBetween (k * M) N (minOr cpl (succs.map Task.latestStart)) := by
          rcases minOr_mem cpl (succs.map Task.latestStart) with h | h
          · rw [h]; exact hc.between.mono (by omega) (Nat.le_refl _)
          · obtain ⟨t', h1, h2⟩ := List.mem_map.1 h
            obtain ⟨y, hy⟩ := lookupAll_mem hp t' h1
            rw [← h2]; exact (hD y t' hy).2
        have hls : IntBetween ((k + 1) * M) N (minOr cpl (succs.map Task.latestStart) - t.duration) := by
          have := hlf.sub (hD x t ht).1
          rwa [Nat.succ_mul]
        have hkl : (k + 1) * M ≤ N := Nat.le_trans (Nat.mul_le_mul_right M (by simp only [List.length_cons]; omega)) hk
        have e : fl (minOr cpl (succs.map Task.latestStart) - t.duration) = minOr cpl (succs.map Task.latestStart) - t.duration :=
          hfl _ (hls.mono hkl (Nat.le_refl _))
        simp only [e]
        refine ih (k + 1) _ (by simp only [List.length_cons] at hk; rwa [Nat.add_right_comm]) ?_
        intro y t' ht'
        by_cases hyx : x = y
        · subst hyx
          simp only [Dict.get?_set_self, Option.some.injEq] at ht'
          subst ht'
          exact ⟨(hD x t ht).1, hls⟩
        · rw [Dict.get?_set_ne _ _ hyx] at ht'
          exact ⟨(hD y t' ht').1, (hD y t' ht').2.mono (Nat.mul_le_mul_right M (by omega)) (Nat.le_refl _)⟩

/-- integer durations: rounding has no effect -/
theorem criticalPathFl_int {fl : Rat → Rat} {num : O → Option Rat} {g : Graph α V O} (hg : g.Inv) {M N : Nat} (hfl : ExactBetween fl N)
    (hd : ∀ x v, (g.node x).bind num = some v → IntUpTo M v) (hN : g.nodeList.length * M ≤ N) {srt : List α → List α}
    (hs : ∀ l, (srt l).Perm l) : g.criticalPathFl fl num srt = g.criticalPath num srt := by
  by_cases hA : Acyclic g.Adj
  · obtain ⟨out, h1, h2, h3, _⟩ := (topoList_spec hg hs).1 hA
    have hlen : out.length ≤ g.nodeList.length := nodup_length_le h2 (fun x hx => has_iff.1 ((h3 x).1 hx))
    have hlen' : out.length * M ≤ N := Nat.le_trans (Nat.mul_le_mul_right M hlen) hN
    obtain ⟨hf1, hf2⟩ := cpForwardFl_int hfl hd out 0 .empty 0 (by simpa using hlen') (by simp) ⟨0, rfl, Nat.zero_le _⟩
    unfold criticalPathFl criticalPath
    simp only [h1, hf1]
    cases hf : cpForward num g out (.empty, 0) with
    | error e => rfl
    | ok s =>
      obtain ⟨d, cpl⟩ := s
      obtain ⟨hc, hD⟩ := hf2 d cpl hf
      have := cpBackwardFl_int (g := g) (M := M) hfl hc out.reverse 0 d (by simpa using hlen') (by
        intro x t ht
        obtain ⟨a, b⟩ := hD x t ht
        exact ⟨a, 0, by rw [b]; rfl, by omega, by omega⟩)
      simp only [this]
      rfl
  · unfold criticalPathFl criticalPath
    rw [(topoList_spec hg hs).2 hA]

end GT

import Verif.Dag.Phase
/-
Model of `critical_path` (graph/critical_path.py:65-125) and its correctness proof.
-/
namespace GT
variable {α V O : Type} [DecidableEq α]
open Graph

/-- `Task` (critical_path.py:6-62).  `task_id` is the key under which the task is stored.
Simplification: the initial values `inf` of `earliest_finish`/`latest_finish` are represented by 0;
`earliest_finish` is assigned before the task is stored and `latest_finish` of every task is
assigned by the backward pass before it is read. -/
structure Task where
  duration : Rat
  earliestStart : Rat
  earliestFinish : Rat
  latestStart : Rat
  latestFinish : Rat
  deriving DecidableEq, Repr

/-- `slack` (critical_path.py:43-45) -/
def Task.slack (t : Task) : Rat := t.latestFinish - t.earliestFinish

/-- `[d[t] for t in l]` -/
def lookupAll {β : Type} (d : Dict α β) : List α → Py (List β)
  | [] => .ok []
  | x :: l => match d.get? x with
    | none => .error .keyError
    | some t => match lookupAll d l with
      | .error e => .error e
      | .ok ts => .ok (t :: ts)

/-- `max(l) if l else default` -/
def maxOr (default : Rat) : List Rat → Rat
  | [] => default
  | x :: l => l.foldl (fun a b => if a < b then b else a) x

/-- `min(l) if l else default` -/
def minOr (default : Rat) : List Rat → Rat
  | [] => default
  | x :: l => l.foldl (fun a b => if b < a then b else a) x

/-- the forward pass (critical_path.py:101-113).  `num o` is the numeric value of a node object, `none`
if it is not an `int`/`float`. -/
def cpForward (num : O → Option Rat) (g : Graph α V O) : List α → Dict α Task × Rat → Py (Dict α Task × Rat)
  | [], s => .ok s
  | x :: l, (d, cpl) =>
    match lookupAll d (g.nodesTo x) with
    | .error e => .error e
    | .ok preds =>
      match (g.node x).bind num with
      | none => .error .valueError
      | some dur =>
        let es := maxOr 0 (preds.map Task.earliestFinish)
        let t : Task := ⟨dur, es, es + dur, 0, 0⟩
        cpForward num g l (d.set x t, if cpl < t.earliestFinish then t.earliestFinish else cpl)

/-- the backward pass (critical_path.py:115-120) -/
def cpBackward (g : Graph α V O) (cpl : Rat) : List α → Dict α Task → Py (Dict α Task)
  | [], d => .ok d
  | x :: l, d =>
    match lookupAll d (g.nodesFrom x) with
    | .error e => .error e
    | .ok succs =>
      match d.get? x with
      | none => .error .keyError
      | some t =>
        let lf := minOr cpl (succs.map Task.latestStart)
        cpBackward g cpl l (d.set x { t with latestFinish := lf, latestStart := lf - t.duration })

/-- `critical_path(graph)` (critical_path.py:65-125) -/
def Graph.criticalPath (num : O → Option Rat) (srt : List α → List α) (g : Graph α V O) :
    Option (Py (Rat × Dict α Task)) :=
  match g.topoList srt with
  | none => none
  | some (.error e) => some (.error e)
  | some (.ok order) =>
    match cpForward num g order (.empty, 0) with
    | .error e => some (.error e)
    | .ok (d, cpl) =>
      match cpBackward g cpl order.reverse d with
      | .error e => some (.error e)
      | .ok d => some (.ok (cpl, d))

/-! ### lemmas -/

theorem lookupAll_ok {β : Type} {d : Dict α β} {l : List α} (h : ∀ x ∈ l, x ∈ d.keys) :
    ∃ ts, lookupAll d l = .ok ts ∧ (∀ t, t ∈ ts ↔ ∃ x ∈ l, d.get? x = some t) := by
  induction l with
  | nil => exact ⟨[], rfl, by simp⟩
  | cons x l ih =>
    obtain ⟨ts, h1, h2⟩ := ih (fun y hy => h y (List.mem_cons_of_mem _ hy))
    obtain ⟨t, ht⟩ := Dict.exists_get?_of_mem_keys (h x (by simp))
    refine ⟨t :: ts, by simp only [lookupAll, ht, h1], ?_⟩
    intro t'
    simp only [List.mem_cons, h2]
    constructor
    · rintro (rfl | ⟨y, hy, h3⟩)
      · exact ⟨x, .inl rfl, ht⟩
      · exact ⟨y, .inr hy, h3⟩
    · rintro ⟨y, rfl | hy, h3⟩
      · rw [ht] at h3; exact .inl (Option.some.inj h3).symm
      · exact .inr ⟨y, hy, h3⟩

theorem foldl_max_spec (l : List Rat) (x : Rat) :
    let m := l.foldl (fun a b => if a < b then b else a) x
    x ≤ m ∧ (∀ y ∈ l, y ≤ m) ∧ (m = x ∨ m ∈ l) := by
  induction l generalizing x with
  | nil => simp
  | cons y l ih =>
    simp only [List.foldl_cons]
    have := ih (if x < y then y else x)
    revert this
    generalize l.foldl (fun a b => if a < b then b else a) (if x < y then y else x) = m
    intro h
    obtain ⟨h1, h2, h3⟩ := h
    refine ⟨by split at h1 <;> grind, ?_, ?_⟩
    · intro z hz
      rcases List.mem_cons.1 hz with rfl | hz
      · split at h1 <;> grind
      · exact h2 z hz
    · rcases h3 with h3 | h3
      · split at h3 <;> simp [h3]
      · simp [h3]

theorem foldl_min_spec (l : List Rat) (x : Rat) :
    let m := l.foldl (fun a b => if b < a then b else a) x
    m ≤ x ∧ (∀ y ∈ l, m ≤ y) ∧ (m = x ∨ m ∈ l) := by
  induction l generalizing x with
  | nil => simp
  | cons y l ih =>
    simp only [List.foldl_cons]
    have := ih (if y < x then y else x)
    revert this
    generalize l.foldl (fun a b => if b < a then b else a) (if y < x then y else x) = m
    intro h
    obtain ⟨h1, h2, h3⟩ := h
    refine ⟨by split at h1 <;> grind, ?_, ?_⟩
    · intro z hz
      rcases List.mem_cons.1 hz with rfl | hz
      · split at h1 <;> grind
      · exact h2 z hz
    · rcases h3 with h3 | h3
      · split at h3 <;> simp [h3]
      · simp [h3]

theorem maxOr_spec (c : Rat) (l : List Rat) :
    (∀ y ∈ l, y ≤ maxOr c l) ∧ (l = [] → maxOr c l = c) ∧ (l ≠ [] → maxOr c l ∈ l) := by
  cases l with
  | nil => simp [maxOr]
  | cons x l =>
    obtain ⟨h1, h2, h3⟩ := foldl_max_spec l x
    refine ⟨?_, by simp, fun _ => ?_⟩
    · intro y hy
      rcases List.mem_cons.1 hy with rfl | hy
      · exact h1
      · exact h2 y hy
    · unfold maxOr
      rcases h3 with h3 | h3
      · show List.foldl _ x l ∈ _
        rw [h3]; simp
      · exact List.mem_cons_of_mem _ h3

theorem minOr_spec (c : Rat) (l : List Rat) :
    (∀ y ∈ l, minOr c l ≤ y) ∧ (l = [] → minOr c l = c) ∧ (l ≠ [] → minOr c l ∈ l) := by
  cases l with
  | nil => simp [minOr]
  | cons x l =>
    obtain ⟨h1, h2, h3⟩ := foldl_min_spec l x
    refine ⟨?_, by simp, fun _ => ?_⟩
    · intro y hy
      rcases List.mem_cons.1 hy with rfl | hy
      · exact h1
      · exact h2 y hy
    · unfold minOr
      rcases h3 with h3 | h3
      · show List.foldl _ x l ∈ _
        rw [h3]; simp
      · exact List.mem_cons_of_mem _ h3

/-- the forward equations of one task -/
structure FwdEq (g : Graph α V O) (num : O → Option Rat) (d : Dict α Task) (x : α) (t : Task) : Prop where
  dur : (g.node x).bind num = some t.duration
  ef : t.earliestFinish = t.earliestStart + t.duration
  ge : ∀ a, g.Adj a x → ∃ ta, d.get? a = some ta ∧ ta.earliestFinish ≤ t.earliestStart
  att : t.earliestStart = 0 ∧ (∀ a, ¬ g.Adj a x) ∨
    ∃ a ta, g.Adj a x ∧ d.get? a = some ta ∧ ta.earliestFinish = t.earliestStart

structure FwdInv (g : Graph α V O) (num : O → Option Rat) (l1 : List α) (d : Dict α Task) (cpl : Rat) : Prop where
  wf : d.WF
  keys : ∀ x, x ∈ d.keys ↔ x ∈ l1
  eqs : ∀ x t, d.get? x = some t → FwdEq g num d x t
  cge : 0 ≤ cpl ∧ ∀ x t, d.get? x = some t → t.earliestFinish ≤ cpl
  catt : cpl = 0 ∨ ∃ x t, d.get? x = some t ∧ t.earliestFinish = cpl

theorem FwdEq.mono {g : Graph α V O} {num : O → Option Rat} {d d' : Dict α Task} {x : α} {t : Task}
    (h : FwdEq g num d x t) (hd : ∀ a ta, d.get? a = some ta → d'.get? a = some ta) : FwdEq g num d' x t := by
  refine ⟨h.dur, h.ef, fun a ha => ?_, ?_⟩
  · obtain ⟨ta, h1, h2⟩ := h.ge a ha; exact ⟨ta, hd a ta h1, h2⟩
  · rcases h.att with h1 | ⟨a, ta, h1, h2, h3⟩
    · exact .inl h1
    · exact .inr ⟨a, ta, h1, hd a ta h2, h3⟩

theorem cpForward_spec {g : Graph α V O} (hg : g.Inv) (num : O → Option Rat) (l2 : List α) :
    ∀ l1 d cpl, (l1 ++ l2).Nodup → AfterPreds g.Adj (l1 ++ l2) → FwdInv g num l1 d cpl →
      ((∀ x ∈ l2, ((g.node x).bind num).isSome) → ∃ d' cpl', cpForward num g l2 (d, cpl) = .ok (d', cpl') ∧
        FwdInv g num (l1 ++ l2) d' cpl') ∧
      ((¬ ∀ x ∈ l2, ((g.node x).bind num).isSome) → cpForward num g l2 (d, cpl) = .error .valueError) := by
  induction l2 with
  | nil => intro l1 d cpl _ _ h; exact ⟨fun _ => ⟨d, cpl, rfl, by simpa using h⟩, fun hh => absurd (by simp) hh⟩
  | cons x l2 ih =>
    intro l1 d cpl hn hap hI
    have hxl1 : x ∉ l1 := by
      rw [List.nodup_append] at hn; intro hx; exact hn.2.2 x hx x (by simp) rfl
    have hxd : x ∉ d.keys := fun hx => hxl1 ((hI.keys x).1 hx)
    obtain ⟨preds, hp1, hp2⟩ := lookupAll_ok (d := d) (l := g.nodesTo x) (by
      intro a ha
      exact (hI.keys a).2 (hap l1 x l2 rfl a (hg.mem_nodesTo.1 ha)))
    cases hdur : (g.node x).bind num with
    | none =>
      refine ⟨fun hh => ?_, fun _ => ?_⟩
      · have := hh x (by simp); rw [hdur] at this; cases this
      · simp only [cpForward, hp1, hdur]
    | some dur =>
      simp only [cpForward, hp1, hdur]
      generalize hes : maxOr 0 (preds.map Task.earliestFinish) = es
      obtain ⟨hm1, hm2, hm3⟩ := maxOr_spec 0 (preds.map Task.earliestFinish)
      rw [hes] at hm1 hm2 hm3
      let t : Task := ⟨dur, es, es + dur, 0, 0⟩
      have hext : ∀ a ta, d.get? a = some ta → (d.set x t).get? a = some ta := by
        intro a ta ha
        rw [Dict.get?_set_ne]; exact ha
        rintro rfl; exact hxd (Dict.mem_keys_of_get? ha)
      have hstep : FwdInv g num (l1 ++ [x]) (d.set x t) (if cpl < t.earliestFinish then t.earliestFinish else cpl) := by
        constructor
        · exact hI.wf.set _ _
        · intro y; rw [Dict.mem_keys_set, hI.keys]; simp; exact or_comm
        · intro y ty hy
          by_cases hyx : x = y
          · subst hyx
            simp only [Dict.get?_set_self, Option.some.injEq] at hy
            subst hy
            refine ⟨hdur, rfl, ?_, ?_⟩
            · intro a ha
              obtain ⟨ta, hta⟩ := Dict.exists_get?_of_mem_keys ((hI.keys a).2 (hap l1 x l2 rfl a ha))
              refine ⟨ta, hext a ta hta, hm1 _ ?_⟩
              exact List.mem_map.2 ⟨ta, (hp2 ta).2 ⟨a, hg.mem_nodesTo.2 ha, hta⟩, rfl⟩
            · by_cases hne : preds = []
              · left
                refine ⟨hm2 (by simp [hne]), fun a ha => ?_⟩
                obtain ⟨ta, hta⟩ := Dict.exists_get?_of_mem_keys ((hI.keys a).2 (hap l1 x l2 rfl a ha))
                have := (hp2 ta).2 ⟨a, hg.mem_nodesTo.2 ha, hta⟩
                rw [hne] at this; cases this
              · right
                obtain ⟨ta, h1, h2⟩ := List.mem_map.1 (hm3 (by simpa using hne))
                obtain ⟨a, h3, h4⟩ := (hp2 ta).1 h1
                exact ⟨a, ta, hg.mem_nodesTo.1 h3, hext a ta h4, h2⟩
          · rw [Dict.get?_set_ne _ _ hyx] at hy
            exact (hI.eqs y ty hy).mono hext
        · have h1 := hI.cge.1
          refine ⟨by split <;> grind, fun y ty hy => ?_⟩
          by_cases hyx : x = y
          · subst hyx
            simp only [Dict.get?_set_self, Option.some.injEq] at hy
            subst hy
            split <;> grind
          · rw [Dict.get?_set_ne _ _ hyx] at hy
            have := hI.cge.2 y ty hy
            split <;> grind
        · split
          · exact .inr ⟨x, t, by simp, rfl⟩
          · rcases hI.catt with h1 | ⟨y, ty, h1, h2⟩
            · exact .inl h1
            · exact .inr ⟨y, ty, hext y ty h1, h2⟩
      obtain ⟨h1, h2⟩ := ih (l1 ++ [x]) (d.set x t) _ (by simpa using hn) (by simpa using hap) hstep
      constructor
      · intro hh
        obtain ⟨d', cpl', h3, h4⟩ := h1 (fun y hy => hh y (List.mem_cons_of_mem _ hy))
        exact ⟨d', cpl', h3, by simpa using h4⟩
      · intro hh
        apply h2
        intro h3; apply hh
        intro y hy
        rcases List.mem_cons.1 hy with rfl | hy
        · rw [hdur]; rfl
        · exact h3 y hy

/-- the backward equations of one task -/
structure BwdEq (g : Graph α V O) (d : Dict α Task) (cpl : Rat) (x : α) (t : Task) : Prop where
  ls : t.latestStart = t.latestFinish - t.duration
  le : ∀ b, g.Adj x b → ∃ tb, d.get? b = some tb ∧ t.latestFinish ≤ tb.latestStart
  att : t.latestFinish = cpl ∧ (∀ b, ¬ g.Adj x b) ∨
    ∃ b tb, g.Adj x b ∧ d.get? b = some tb ∧ tb.latestStart = t.latestFinish

/-- the part of a task written by the forward pass -/
def Task.sameFwd (t t' : Task) : Prop :=
  t'.duration = t.duration ∧ t'.earliestStart = t.earliestStart ∧ t'.earliestFinish = t.earliestFinish

structure BwdInv (g : Graph α V O) (d0 : Dict α Task) (cpl : Rat) (done : List α) (d : Dict α Task) : Prop where
  wf : d.WF
  keys : ∀ x, x ∈ d.keys ↔ x ∈ d0.keys
  fwd : ∀ x t, d.get? x = some t → ∃ t0, d0.get? x = some t0 ∧ t0.sameFwd t
  eqs : ∀ x ∈ done, ∃ t, d.get? x = some t ∧ BwdEq g d cpl x t

/-- the list starts with nodes whose successors come earlier -/
theorem cpBackward_spec {g : Graph α V O} (d0 : Dict α Task) (cpl : Rat) (l2 : List α) :
    ∀ done d, (done ++ l2).Nodup →
      (∀ m1 x m2, done ++ l2 = m1 ++ x :: m2 → ∀ b, g.Adj x b → b ∈ m1) →
      (∀ x ∈ done ++ l2, x ∈ d0.keys) →
      BwdInv g d0 cpl done d → ∃ d', cpBackward g cpl l2 d = .ok d' ∧ BwdInv g d0 cpl (done ++ l2) d' := by
  induction l2 with
  | nil => intro done d _ _ _ h; exact ⟨d, rfl, by simpa using h⟩
  | cons x l2 ih =>
    intro done d hn hap hk hI
    have hxd : x ∉ done := by
      rw [List.nodup_append] at hn; intro hx; exact hn.2.2 x hx x (by simp) rfl
    obtain ⟨succs, hp1, hp2⟩ := lookupAll_ok (d := d) (l := g.nodesFrom x) (by
      intro b hb
      have := hap done x l2 rfl b (mem_nodesFrom.1 hb)
      exact (hI.keys b).2 (hk b (List.mem_append_left _ this)))
    obtain ⟨t, ht⟩ := Dict.exists_get?_of_mem_keys ((hI.keys x).2 (hk x (by simp)))
    simp only [cpBackward, hp1, ht]
    generalize hlf : minOr cpl (succs.map Task.latestStart) = lf
    obtain ⟨hm1, hm2, hm3⟩ := minOr_spec cpl (succs.map Task.latestStart)
    rw [hlf] at hm1 hm2 hm3
    have hne : ∀ b, g.Adj x b → x ≠ b := by
      rintro b hb rfl; exact hxd (hap done x l2 rfl x hb)
    have hstep : BwdInv g d0 cpl (done ++ [x])
        (d.set x { t with latestFinish := lf, latestStart := lf - t.duration }) := by
      constructor
      · exact hI.wf.set _ _
      · intro y; rw [Dict.mem_keys_set, hI.keys]
        constructor
        · rintro (rfl | h1)
          · exact hk y (by simp)
          · exact h1
        · intro h1; exact .inr h1
      · intro y ty hy
        by_cases hyx : x = y
        · subst hyx
          simp only [Dict.get?_set_self, Option.some.injEq] at hy
          subst hy
          obtain ⟨t0, h1, h2⟩ := hI.fwd x t ht
          exact ⟨t0, h1, h2⟩
        · rw [Dict.get?_set_ne _ _ hyx] at hy; exact hI.fwd y ty hy
      · intro y hy
        rcases List.mem_append.1 hy with hy | hy
        · obtain ⟨ty, h1, h2⟩ := hI.eqs y hy
          have hyx : x ≠ y := by rintro rfl; exact hxd hy
          have hsucc : ∀ b, g.Adj y b → x ≠ b := by
            rintro b hb rfl
            obtain ⟨m1, m2, hm⟩ := List.append_of_mem hy
            have := hap m1 y (m2 ++ x :: l2) (by rw [hm]; simp) x hb
            exact hxd (by rw [hm]; exact List.mem_append_left _ this)
          refine ⟨ty, by rw [Dict.get?_set_ne _ _ hyx]; exact h1, h2.ls, ?_, ?_⟩
          · intro b hb
            obtain ⟨tb, h3, h4⟩ := h2.le b hb
            exact ⟨tb, by rw [Dict.get?_set_ne _ _ (hsucc b hb)]; exact h3, h4⟩
          · rcases h2.att with h3 | ⟨b, tb, h3, h4, h5⟩
            · exact .inl h3
            · exact .inr ⟨b, tb, h3, by rw [Dict.get?_set_ne _ _ (hsucc b h3)]; exact h4, h5⟩
        · have : y = x := by simpa using hy
          subst this
          refine ⟨_, Dict.get?_set_self _ _ _, rfl, ?_, ?_⟩
          · intro b hb
            obtain ⟨tb, htb⟩ := Dict.exists_get?_of_mem_keys ((hI.keys b).2
              (hk b (List.mem_append_left _ (hap done y l2 rfl b hb))))
            refine ⟨tb, by rw [Dict.get?_set_ne _ _ (hne b hb)]; exact htb, hm1 _ ?_⟩
            exact List.mem_map.2 ⟨tb, (hp2 tb).2 ⟨b, mem_nodesFrom.2 hb, htb⟩, rfl⟩
          · by_cases hse : succs = []
            · left
              refine ⟨hm2 (by simp [hse]), fun b hb => ?_⟩
              obtain ⟨tb, htb⟩ := Dict.exists_get?_of_mem_keys ((hI.keys b).2
                (hk b (List.mem_append_left _ (hap done y l2 rfl b hb))))
              have := (hp2 tb).2 ⟨b, mem_nodesFrom.2 hb, htb⟩
              rw [hse] at this; cases this
            · right
              obtain ⟨tb, h1, h2⟩ := List.mem_map.1 (hm3 (by simpa using hse))
              obtain ⟨b, h3, h4⟩ := (hp2 tb).1 h1
              have h3 := mem_nodesFrom.1 h3
              exact ⟨b, tb, h3, by rw [Dict.get?_set_ne _ _ (hne b h3)]; exact h4, h2⟩
    obtain ⟨d', h1, h2⟩ := ih (done ++ [x]) _ (by simpa using hn)
      (by intro m1 y m2 he; exact hap m1 y m2 (by simpa using he)) (by simpa using hk) hstep
    exact ⟨d', h1, by simpa using h2⟩

/-- all equations of the schedule -/
structure CpmEqs (g : Graph α V O) (num : O → Option Rat) (d : Dict α Task) (cpl : Rat) : Prop where
  wf : d.WF
  keys : ∀ x, x ∈ d.keys ↔ g.has x = true
  fwd : ∀ x t, d.get? x = some t → FwdEq g num d x t
  bwd : ∀ x t, d.get? x = some t → BwdEq g d cpl x t
  cge : 0 ≤ cpl ∧ ∀ x t, d.get? x = some t → t.earliestFinish ≤ cpl
  catt : cpl = 0 ∨ ∃ x t, d.get? x = some t ∧ t.earliestFinish = cpl

/-- the two passes of `critical_path` over an order of the tasks (critical_path.py:98-122) -/
def Graph.cpPasses (num : O → Option Rat) (g : Graph α V O) (order : List α) : Option (Py (Rat × Dict α Task)) :=
  match cpForward num g order (.empty, 0) with
  | .error e => some (.error e)
  | .ok (d, cpl) =>
    match cpBackward g cpl order.reverse d with
    | .error e => some (.error e)
    | .ok d => some (.ok (cpl, d))

theorem cpPasses_eqs {g : Graph α V O} (hg : g.Inv) {out : List α} (h2 : out.Nodup) (h3 : ∀ x, x ∈ out ↔ g.has x = true)
    (h4 : AfterPreds g.Adj out) (num : O → Option Rat) (hA : Acyclic g.Adj) :
    ((∀ x, g.has x = true → ((g.node x).bind num).isSome) →
      ∃ cpl d, g.cpPasses num out = some (.ok (cpl, d)) ∧ CpmEqs g num d cpl) ∧
    ((¬ ∀ x, g.has x = true → ((g.node x).bind num).isSome) →
      g.cpPasses num out = some (.error .valueError)) := by
  have h0 : FwdInv g num [] (.empty : Dict α Task) 0 :=
    ⟨by simp, by simp [Dict.empty, Dict.keys], by simp, ⟨Rat.le_refl, by simp⟩, .inl rfl⟩
  obtain ⟨hf1, hf2⟩ := cpForward_spec hg num out [] .empty 0 (by simpa using h2) (by simpa using h4) h0
  unfold cpPasses
  constructor
  · intro hh
    obtain ⟨d, cpl, h5, h6⟩ := hf1 (fun x hx => hh x ((h3 x).1 hx))
    simp only [h5]
    simp only [List.nil_append] at h6
    have hrev : ∀ m1 x m2, out.reverse = m1 ++ x :: m2 → ∀ b, g.Adj x b → b ∈ m1 := by
      intro m1 x m2 he b hb
      have he' : out = m2.reverse ++ x :: m1.reverse := by
        have := congrArg List.reverse he
        simpa using this
      have hbo : b ∈ out := (h3 b).2 (has_iff.2 (hg.finite x b hb).2)
      obtain ⟨l1, l2, hl⟩ := List.append_of_mem hbo
      have hxl : x ∈ l1 := h4 l1 b l2 hl x hb
      -- b is not in m2.reverse ++ [x]
      apply Classical.byContradiction
      intro hbm
      have hb2 : b ∈ m2.reverse ++ x :: m1.reverse := he' ▸ hbo
      have hb3 : b ∈ m2.reverse ∨ b = x := by simp at hb2 ⊢; grind
      rcases hb3 with hb3 | hb3
      · obtain ⟨k1, k2, hk⟩ := List.append_of_mem hb3
        have := h4 k1 b (k2 ++ x :: m1.reverse) (by rw [he', hk]; simp) x hb
        rw [he', List.nodup_append] at h2
        exact h2.2.2 x (by rw [hk]; exact List.mem_append_left _ this) x (by simp) rfl
      · subst hb3
        exact hA b ⟨0, .succ (.zero b) hb⟩
    have hb0 : BwdInv g d cpl [] d :=
      ⟨h6.wf, fun _ => Iff.rfl, fun x t ht => ⟨t, ht, rfl, rfl, rfl⟩, by simp⟩
    obtain ⟨d', h7, h8⟩ := cpBackward_spec d cpl out.reverse [] d (by simpa [nodup_reverse] using h2)
      (by simpa using hrev) (by intro x hx; exact (h6.keys x).2 (by simpa using hx)) hb0
    rw [h7]
    simp only [List.nil_append] at h8
    refine ⟨cpl, d', rfl, ?_⟩
    -- transport the forward equations
    have hback : ∀ x t0, d.get? x = some t0 → ∃ t, d'.get? x = some t ∧ t0.sameFwd t := by
      intro x t0 hx
      obtain ⟨t, ht⟩ := Dict.exists_get?_of_mem_keys ((h8.keys x).2 (Dict.mem_keys_of_get? hx))
      obtain ⟨t1, h9, h10⟩ := h8.fwd x t ht
      rw [hx] at h9
      exact ⟨t, ht, (Option.some.inj h9).symm ▸ h10⟩
    constructor
    · exact h8.wf
    · intro x; rw [h8.keys, h6.keys, h3]
    · intro x t ht
      obtain ⟨t0, h9, h10⟩ := h8.fwd x t ht
      have e := h6.eqs x t0 h9
      refine ⟨by rw [h10.1]; exact e.dur, by rw [h10.1, h10.2.1, h10.2.2]; exact e.ef, ?_, ?_⟩
      · intro a ha
        obtain ⟨ta, h11, h12⟩ := e.ge a ha
        obtain ⟨ta', h13, h14⟩ := hback a ta h11
        exact ⟨ta', h13, by rw [h14.2.2, h10.2.1]; exact h12⟩
      · rcases e.att with h11 | ⟨a, ta, h11, h12, h13⟩
        · exact .inl ⟨by rw [h10.2.1]; exact h11.1, h11.2⟩
        · obtain ⟨ta', h14, h15⟩ := hback a ta h12
          exact .inr ⟨a, ta', h11, h14, by rw [h15.2.2, h10.2.1]; exact h13⟩
    · intro x t ht
      have hx : x ∈ out.reverse := by
        have := (h8.keys x).1 (Dict.mem_keys_of_get? ht)
        simpa using (h6.keys x).1 this
      obtain ⟨t', h9, h10⟩ := h8.eqs x hx
      rw [ht] at h9
      exact (Option.some.inj h9).symm ▸ h10
    · refine ⟨h6.cge.1, fun x t ht => ?_⟩
      obtain ⟨t0, h9, h10⟩ := h8.fwd x t ht
      rw [h10.2.2]; exact h6.cge.2 x t0 h9
    · rcases h6.catt with h9 | ⟨x, t0, h9, h10⟩
      · exact .inl h9
      · obtain ⟨t, h11, h12⟩ := hback x t0 h9
        exact .inr ⟨x, t, h11, by rw [h12.2.2]; exact h10⟩
  · intro hh
    simp only [hf2 (fun h5 => hh (fun x hx => h5 x ((h3 x).2 hx)))]

theorem criticalPath_eqs {g : Graph α V O} (hg : g.Inv) {srt : List α → List α} (hs : ∀ l, (srt l).Perm l)
    (num : O → Option Rat) (hA : Acyclic g.Adj) :
    ((∀ x, g.has x = true → ((g.node x).bind num).isSome) →
      ∃ cpl d, g.criticalPath num srt = some (.ok (cpl, d)) ∧ CpmEqs g num d cpl) ∧
    ((¬ ∀ x, g.has x = true → ((g.node x).bind num).isSome) →
      g.criticalPath num srt = some (.error .valueError)) := by
  obtain ⟨out, h1, h2, h3, h4⟩ := (topoList_spec hg hs).1 hA
  have e : g.criticalPath num srt = g.cpPasses num out := by unfold criticalPath; rw [h1]; rfl
  rw [e]
  exact cpPasses_eqs hg h2 h3 h4 num hA

end GT

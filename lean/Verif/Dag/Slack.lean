import Verif.Dag.Cpm2
/-
Model of `critical_path_minimize_for_slack` (graph/critical_path.py:128-197) and its safety proof.
-/
namespace GT
variable {α V O : Type} [DecidableEq α]
open Graph

/-- `sum(t.slack for t in schedule.values())` (critical_path.py:144, 170, 190) -/
def slackSum (d : Dict α Task) : Rat := (d.items.map (fun p => p.2.slack)).sum

/-- the type of `critical_path`, a parameter of the model of the heuristic -/
abbrev CP (α V O : Type) := Graph α V O → Option (Py (Rat × Dict α Task))

/-- the inner loop of part 1 (critical_path.py:155-179): candidates `n2` are tested against the
current graph one by one.  `one` is the default edge value of `add_edge`.  The list `new_edges` is
never read and is not modelled.  The last component is `stop`. -/
def slackInner (cp : CP α V O) (one : V) (phases : Dict α Nat) (cpl : Rat) (n1 : α) :
    List α → Graph α V O × Rat → Option (Py (Graph α V O × Rat × Bool))
  | [], (ng, slack) => some (.ok (ng, slack, false))
  | n2 :: l, (ng, slack) =>
    if n2 = n1 then slackInner cp one phases cpl n1 l (ng, slack)
    else match phases.get? n2, phases.get? n1 with
      | some p2, some p1 =>
        if p2 ≥ p1 ∧ ng.edge n2 n1 = none ∧ ng.edge n1 n2 = none then
          let ng' := ng.addEdge n1 n2 one
          match cp ng' with
          | none => none
          | some (.error e) => some (.error e)
          | some (.ok (cpl2, schedule2)) =>
            if cpl2 ≠ cpl then slackInner cp one phases cpl n1 l (ng'.delEdge n1 n2, slack)
            else
              let slack2 := slackSum schedule2
              if slack2 < slack ∧ cpl = cpl2 then
                if slack2 = 0 then some (.ok (ng', slack2, true))
                else slackInner cp one phases cpl n1 l (ng', slack2)
              else slackInner cp one phases cpl n1 l (ng'.delEdge n1 n2, slack)
        else slackInner cp one phases cpl n1 l (ng, slack)
      | _, _ => some (.error .keyError)

/-- the outer loop of part 1 (critical_path.py:149-179) -/
def slackOuter (cp : CP α V O) (one : V) (phases : Dict α Nat) (cpl : Rat) (ids : List α) :
    List α → Graph α V O × Rat → Option (Py (Graph α V O × Rat))
  | [], s => some (.ok s)
  | n1 :: l, s =>
    match slackInner cp one phases cpl n1 ids s with
    | none => none
    | some (.error e) => some (.error e)
    | some (.ok (ng, slack, stop)) =>
      if stop then some (.ok (ng, slack)) else slackOuter cp one phases cpl ids l (ng, slack)

/-- part 2 (critical_path.py:182-195), over the snapshot `new_graph.edges()` -/
def slackPurge (cp : CP α V O) (one : V) (g : Graph α V O) (cpl slack : Rat) :
    List (α × α × V) → Graph α V O → Option (Py (Graph α V O))
  | [], ng => some (.ok ng)
  | (n1, n2, _) :: l, ng =>
    if (g.edge n1 n2).isSome then slackPurge cp one g cpl slack l ng
    else
      let ng' := ng.delEdge n1 n2
      match cp ng' with
      | none => none
      | some (.error e) => some (.error e)
      | some (.ok (cpl2, schedule2)) =>
        if cpl2 = cpl ∧ slackSum schedule2 = slack then slackPurge cp one g cpl slack l ng'
        else slackPurge cp one g cpl slack l (ng'.addEdge n1 n2 one)

/-- `critical_path_minimize_for_slack(graph)` (critical_path.py:128-197).  `bySlack` and `byDur` are the
two sorts of the tasks with positive slack (ids with their task); theorems assume only that they
permute. -/
def Graph.minimizeSlack (cp : CP α V O) (one : V) (ord : Nat → List α → List α)
    (bySlack byDur : List (α × Task) → List (α × Task)) (g : Graph α V O) : Option (Py (Graph α V O)) :=
  match cp g with
  | none => none
  | some (.error e) => some (.error e)
  | some (.ok (cpl, schedule)) =>
    match g.phaseLines ord with
    | none => none
    | some (.error e) => some (.error e)
    | some (.ok phases) =>
      let slackNodes := bySlack (schedule.items.filter (fun p => decide (p.2.slack > 0)))
      let ids := slackNodes.map Prod.fst
      match slackOuter cp one phases cpl ids ((byDur slackNodes).map Prod.fst) (g.copy, slackSum schedule) with
      | none => none
      | some (.error e) => some (.error e)
      | some (.ok (ng, slack)) => slackPurge cp one g cpl slack ng.edgeList ng

/-! ### `critical_path` depends only on the content of the graph -/

theorem sum_perm {l m : List Rat} (h : l.Perm m) : l.sum = m.sum := by
  induction h with
  | nil => rfl
  | cons x _ ih => simp [ih]
  | swap x y l => simp only [List.sum_cons]; grind
  | trans _ _ ih1 ih2 => exact ih1.trans ih2

theorem slackSum_congr {d d' : Dict α Task} (h : d.WF) (h' : d'.WF) (he : ∀ x, d.get? x = d'.get? x) :
    slackSum d = slackSum d' := by
  unfold slackSum
  apply sum_perm
  apply List.Perm.map
  rw [List.perm_ext_iff_of_nodup (nodup_of_nodup_map Prod.fst h) (nodup_of_nodup_map Prod.fst h')]
  rintro ⟨x, t⟩
  rw [← Dict.get?_eq_some_iff h, ← Dict.get?_eq_some_iff h', he]

/-- same nodes with the same objects, same edges with the same values -/
def Graph.Same (g h : Graph α V O) : Prop :=
  (∀ x, g.nodes.get? x = h.nodes.get? x) ∧ ∀ a b, g.edge a b = h.edge a b

theorem Same.adj {g h : Graph α V O} (hs : g.Same h) : g.Adj = h.Adj := by
  funext a b; unfold Graph.Adj; rw [hs.2]

theorem CpmEqs.same {g h : Graph α V O} (hs : g.Same h) {num : O → Option Rat} {d : Dict α Task} {cpl : Rat}
    (e : CpmEqs g num d cpl) : CpmEqs h num d cpl := by
  have hA := Same.adj hs
  have hn : ∀ x, g.node x = h.node x := fun x => by unfold Graph.node; rw [hs.1]
  have hh : ∀ x, g.has x = h.has x := fun x => by unfold Graph.has Dict.contains; rw [hs.1]
  refine ⟨e.wf, fun x => by rw [← hh]; exact e.keys x, fun x t ht => ?_, fun x t ht => ?_, e.cge, e.catt⟩
  · have f := e.fwd x t ht
    exact ⟨by rw [← hn]; exact f.dur, f.ef, by rw [← hA]; exact f.ge, by rw [← hA]; exact f.att⟩
  · have f := e.bwd x t ht
    exact ⟨f.ls, by rw [← hA]; exact f.le, by rw [← hA]; exact f.att⟩

/-- the schedule equations have at most one solution -/
theorem CpmEqs.unique {g : Graph α V O} (hg : g.Inv) (hA : Acyclic g.Adj) {num : O → Option Rat}
    {d d' : Dict α Task} {cpl cpl' : Rat} (e : CpmEqs g num d cpl) (e' : CpmEqs g num d' cpl') :
    cpl = cpl' ∧ ∀ x, d.get? x = d'.get? x := by
  have hA' : Acyclic (Flip g.Adj) := by
    rintro a ⟨n, hn⟩; exact hA a ⟨n, hn.flip⟩
  obtain ⟨rank, hr, _, _⟩ := hA'.rank (U := g.nodeList) (fun a b hab => ⟨(hg.finite b a hab).2, (hg.finite b a hab).1⟩)
  have hdur : ∀ x t t', d.get? x = some t → d'.get? x = some t' → t.duration = t'.duration := by
    intro x t t' h1 h2
    have h3 := (e.fwd x t h1).dur
    rw [(e'.fwd x t' h2).dur] at h3
    exact (Option.some.inj h3).symm
  have hes : ∀ n x t t', rank x = n → d.get? x = some t → d'.get? x = some t' →
      t.earliestStart = t'.earliestStart := by
    intro n
    induction n using Nat.strongRecOn with
    | _ n ih =>
      intro x t t' hx h1 h2
      have f := e.fwd x t h1
      have f' := e'.fwd x t' h2
      have hpred : ∀ a ta ta', g.Adj a x → d.get? a = some ta → d'.get? a = some ta' →
          ta.earliestFinish = ta'.earliestFinish := by
        intro a ta ta' ha h3 h4
        rw [(e.fwd a ta h3).ef, (e'.fwd a ta' h4).ef, ih (rank a) (hx ▸ hr x a ha) a ta ta' rfl h3 h4,
          hdur a ta ta' h3 h4]
      rcases f.att with ⟨h3, h4⟩ | ⟨a, ta, h3, h4, h5⟩
      · rcases f'.att with ⟨h6, _⟩ | ⟨a, ta, h6, _⟩
        · rw [h3, h6]
        · exact absurd h6 (h4 a)
      · rcases f'.att with ⟨_, h7⟩ | ⟨b, tb, h6, h7, h8⟩
        · exact absurd h3 (h7 a)
        · obtain ⟨ta', h9, h10⟩ := f'.ge a h3
          obtain ⟨tb', h11, h12⟩ := f.ge b h6
          have h13 := hpred a ta ta' h3 h4 h9
          have h14 := hpred b tb' tb h6 h11 h7
          grind
  have hef : ∀ x t t', d.get? x = some t → d'.get? x = some t' →
      t.earliestFinish = t'.earliestFinish := by
    intro x t t' h1 h2
    rw [(e.fwd x t h1).ef, (e'.fwd x t' h2).ef, hes _ x t t' rfl h1 h2, hdur x t t' h1 h2]
  have hk : ∀ x, x ∈ d.keys ↔ x ∈ d'.keys := fun x => by rw [e.keys, e'.keys]
  have hc : cpl = cpl' := by
    have h1 : cpl ≤ cpl' := by
      rcases e.catt with h | ⟨x, t, h1, h2⟩
      · rw [h]; exact e'.cge.1
      · obtain ⟨t', ht'⟩ := Dict.exists_get?_of_mem_keys ((hk x).1 (Dict.mem_keys_of_get? h1))
        have := e'.cge.2 x t' ht'
        rw [← hef x t t' h1 ht', h2] at this; exact this
    have h2 : cpl' ≤ cpl := by
      rcases e'.catt with h | ⟨x, t, h1, h2⟩
      · rw [h]; exact e.cge.1
      · obtain ⟨t', ht'⟩ := Dict.exists_get?_of_mem_keys ((hk x).2 (Dict.mem_keys_of_get? h1))
        have := e.cge.2 x t' ht'
        rw [hef x t' t ht' h1, h2] at this; exact this
    grind
  obtain ⟨rank2, hr2, _, _⟩ := hA.rank hg.finite
  have hlf : ∀ n x t t', rank2 x = n → d.get? x = some t → d'.get? x = some t' →
      t.latestFinish = t'.latestFinish := by
    intro n
    induction n using Nat.strongRecOn with
    | _ n ih =>
      intro x t t' hx h1 h2
      have f := e.bwd x t h1
      have f' := e'.bwd x t' h2
      have hsucc : ∀ a ta ta', g.Adj x a → d.get? a = some ta → d'.get? a = some ta' →
          ta.latestStart = ta'.latestStart := by
        intro a ta ta' ha h3 h4
        rw [(e.bwd a ta h3).ls, (e'.bwd a ta' h4).ls, ih (rank2 a) (hx ▸ hr2 x a ha) a ta ta' rfl h3 h4,
          hdur a ta ta' h3 h4]
      rcases f.att with ⟨h3, h4⟩ | ⟨a, ta, h3, h4, h5⟩
      · rcases f'.att with ⟨h6, _⟩ | ⟨a, ta, h6, _⟩
        · rw [h3, h6, hc]
        · exact absurd h6 (h4 a)
      · rcases f'.att with ⟨_, h7⟩ | ⟨b, tb, h6, h7, h8⟩
        · exact absurd h3 (h7 a)
        · obtain ⟨ta', h9, h10⟩ := f'.le a h3
          obtain ⟨tb', h11, h12⟩ := f.le b h6
          have h13 := hsucc a ta ta' h3 h4 h9
          have h14 := hsucc b tb' tb h6 h11 h7
          grind
  refine ⟨hc, fun x => ?_⟩
  cases h1 : d.get? x with
  | none =>
    have : x ∉ d'.keys := by rw [← hk, ← Dict.get?_eq_none_iff]; exact h1
    exact ((Dict.get?_eq_none_iff _ _).2 this).symm
  | some t =>
    obtain ⟨t', ht'⟩ := Dict.exists_get?_of_mem_keys ((hk x).1 (Dict.mem_keys_of_get? h1))
    rw [ht']
    have a1 := hdur x t t' h1 ht'
    have a2 := hes _ x t t' rfl h1 ht'
    have a3 := hef x t t' h1 ht'
    have a4 := hlf _ x t t' rfl h1 ht'
    have a5 := (e.bwd x t h1).ls
    have a6 := (e'.bwd x t' ht').ls
    congr 1
    cases t; cases t'
    simp only [Task.mk.injEq] at *
    refine ⟨a1, a2, a3, ?_, a4⟩
    rw [a5, a6, a4, a1]

/-- the real `critical_path` as the parameter -/
def realCP (num : O → Option Rat) (srt : List α → List α) : CP α V O := fun g => g.criticalPath num srt

/-- critical path length and total slack of a graph -/
def HasCP (num : O → Option Rat) (g : Graph α V O) (cpl slack : Rat) : Prop :=
  ∃ d, CpmEqs g num d cpl ∧ slackSum d = slack

theorem HasCP.same {g h : Graph α V O} (hs : g.Same h) {num : O → Option Rat} {c s : Rat}
    (hc : HasCP num g c s) : HasCP num h c s := by
  obtain ⟨d, h1, h2⟩ := hc; exact ⟨d, h1.same hs, h2⟩

theorem HasCP.unique {g : Graph α V O} (hg : g.Inv) (hA : Acyclic g.Adj) {num : O → Option Rat}
    {c s c' s' : Rat} (h : HasCP num g c s) (h' : HasCP num g c' s') : c = c' ∧ s = s' := by
  obtain ⟨d, h1, rfl⟩ := h
  obtain ⟨d', h3, rfl⟩ := h'
  obtain ⟨h5, h6⟩ := h1.unique hg hA h3
  exact ⟨h5, slackSum_congr h1.wf h3.wf h6⟩

theorem realCP_cases {g : Graph α V O} (hg : g.Inv) {srt : List α → List α} (hs : ∀ l, (srt l).Perm l)
    {num : O → Option Rat} (hnum : ∀ x, g.has x = true → ((g.node x).bind num).isSome) :
    (¬ Acyclic g.Adj ∧ realCP num srt g = some (.error .attributeError)) ∨
    (Acyclic g.Adj ∧ ∃ cpl d, realCP num srt g = some (.ok (cpl, d)) ∧ CpmEqs g num d cpl) := by
  by_cases hA : Acyclic g.Adj
  · obtain ⟨cpl, d, h1, h2⟩ := (criticalPath_eqs hg hs num hA).1 hnum
    exact .inr ⟨hA, cpl, d, h1, h2⟩
  · refine .inl ⟨hA, ?_⟩
    unfold realCP criticalPath
    rw [(topoList_spec hg hs).2 hA]

/-- what holds of the working graph throughout -/
structure Extends (num : O → Option Rat) (one : V) (g ng : Graph α V O) (cpl slack : Rat) : Prop where
  inv : ng.Inv
  nodes : ∀ x, ng.nodes.get? x = g.nodes.get? x
  keep : ∀ a b v, g.edge a b = some v → ng.edge a b = some v
  new : ∀ a b v, ng.edge a b = some v → g.edge a b = some v ∨ v = one
  acyc : Acyclic ng.Adj
  cp : HasCP num ng cpl slack

theorem del_add_same {ng : Graph α V O} (h : ng.Inv) {a b : α} {v : V} (ha : ng.has a = true) (hb : ng.has b = true)
    (he : ng.edge a b = none) : ((ng.addEdge a b v).delEdge a b).Same ng := by
  constructor
  · intro x
    rw [delEdge_nodes, addEdge_nodes_get?]
    have hx : ∀ y, ng.has y = true → some (ng.node y) = ng.nodes.get? y := by
      intro y hy
      unfold Graph.has Dict.contains at hy; unfold Graph.node
      cases h : ng.nodes.get? y with
      | none => rw [h] at hy; cases hy
      | some o => rfl
    split
    · rename_i h1
      rcases h1 with rfl | rfl
      · exact hx x ha
      · exact hx x hb
    · rfl
  · intro x y
    rw [edge_delEdge (h.addEdge a b v), edge_addEdge]
    by_cases hxy : a = x ∧ b = y
    · obtain ⟨rfl, rfl⟩ := hxy; simp [he]
    · simp [hxy]

theorem slackInner_spec {g : Graph α V O} {srt : List α → List α} (hs : ∀ l, (srt l).Perm l)
    {num : O → Option Rat} (hnum : ∀ x, g.has x = true → ((g.node x).bind num).isSome) (one : V)
    {phases : Dict α Nat} (hph : ∀ x, g.has x = true → x ∈ phases.keys) {cpl s0 : Rat} {n1 : α}
    (hn1 : g.has n1 = true) (l : List α) (hl : ∀ x ∈ l, g.has x = true) :
    ∀ ng slack, Extends num one g ng cpl slack → slack ≤ s0 →
      slackInner (realCP num srt) one phases cpl n1 l (ng, slack) = some (.error .attributeError) ∨
      ∃ ng' slack' stop, slackInner (realCP num srt) one phases cpl n1 l (ng, slack) = some (.ok (ng', slack', stop)) ∧
        Extends num one g ng' cpl slack' ∧ slack' ≤ s0 := by
  induction l with
  | nil => intro ng slack h hle; exact .inr ⟨ng, slack, false, rfl, h, hle⟩
  | cons n2 l ih =>
    intro ng slack h hle
    have ih := ih (fun x hx => hl x (List.mem_cons_of_mem _ hx))
    unfold slackInner
    by_cases h12 : n2 = n1
    · rw [if_pos h12]; exact ih ng slack h hle
    · rw [if_neg h12]
      obtain ⟨p2, hp2⟩ := Dict.exists_get?_of_mem_keys (hph n2 (hl n2 (by simp)))
      obtain ⟨p1, hp1⟩ := Dict.exists_get?_of_mem_keys (hph n1 hn1)
      simp only [hp1, hp2]
      split
      · rename_i hcond
        obtain ⟨_, _, hno⟩ := hcond
        have hhas : ∀ x, ng.has x = g.has x := fun x => by unfold Graph.has Dict.contains; rw [h.nodes]
        have hsame := del_add_same h.inv (v := one) ((hhas n1).trans hn1) ((hhas n2).trans (hl n2 (by simp))) hno
        have hi' := h.inv.addEdge n1 n2 one
        have hnodes' : ∀ x, (ng.addEdge n1 n2 one).nodes.get? x = g.nodes.get? x := by
          intro x; rw [← delEdge_nodes (ng.addEdge n1 n2 one) n1 n2, hsame.1, h.nodes]
        have hback : Extends num one g ((ng.addEdge n1 n2 one).delEdge n1 n2) cpl slack := by
          refine ⟨hi'.delEdge n1 n2, fun x => by rw [hsame.1, h.nodes], fun a b v hv => by rw [hsame.2]; exact h.keep a b v hv,
            fun a b v hv => by rw [hsame.2] at hv; exact h.new a b v hv, by rw [Same.adj hsame]; exact h.acyc, ?_⟩
          exact h.cp.same ⟨fun x => (hsame.1 x).symm, fun a b => (hsame.2 a b).symm⟩
        have hnum' : ∀ x, (ng.addEdge n1 n2 one).has x = true →
            (((ng.addEdge n1 n2 one).node x).bind num).isSome := by
          intro x hx
          unfold Graph.node
          unfold Graph.has Dict.contains at hx
          rw [hnodes'] at hx ⊢
          exact hnum x hx
        rcases realCP_cases hi' hs hnum' with ⟨_, h3⟩ | ⟨hA', cpl2, d2, h3, h4⟩
        · simp only [h3]; exact .inl trivial
        · simp only [h3]
          by_cases hc : cpl2 = cpl
          · subst hc
            simp only [ne_eq, not_true_eq_false, if_false, and_true]
            by_cases hsl : slackSum d2 < slack
            · rw [if_pos hsl]
              have hnew : Extends num one g (ng.addEdge n1 n2 one) cpl2 (slackSum d2) := by
                refine ⟨hi', hnodes', ?_, ?_, hA', d2, h4, rfl⟩
                · intro a b v hv
                  rw [edge_addEdge]
                  split
                  · rename_i hab
                    obtain ⟨rfl, rfl⟩ := hab
                    rw [h.keep _ _ _ hv] at hno; cases hno
                  · exact h.keep a b v hv
                · intro a b v hv
                  rw [edge_addEdge] at hv
                  split at hv
                  · exact .inr (Option.some.inj hv).symm
                  · exact h.new a b v hv
              have hle2 : slackSum d2 ≤ s0 := by grind
              split
              · exact .inr ⟨_, _, true, rfl, hnew, hle2⟩
              · exact ih _ _ hnew hle2
            · rw [if_neg hsl]; exact ih _ _ hback hle
          · simp only [ne_eq, hc, not_false_eq_true, if_true]
            exact ih _ _ hback hle
      · exact ih ng slack h hle

theorem slackOuter_spec {g : Graph α V O} {srt : List α → List α} (hs : ∀ l, (srt l).Perm l)
    {num : O → Option Rat} (hnum : ∀ x, g.has x = true → ((g.node x).bind num).isSome) (one : V)
    {phases : Dict α Nat} (hph : ∀ x, g.has x = true → x ∈ phases.keys) {cpl s0 : Rat}
    (ids : List α) (hids : ∀ x ∈ ids, g.has x = true) (l : List α) (hl : ∀ x ∈ l, g.has x = true) :
    ∀ ng slack, Extends num one g ng cpl slack → slack ≤ s0 →
      slackOuter (realCP num srt) one phases cpl ids l (ng, slack) = some (.error .attributeError) ∨
      ∃ ng' slack', slackOuter (realCP num srt) one phases cpl ids l (ng, slack) = some (.ok (ng', slack')) ∧
        Extends num one g ng' cpl slack' ∧ slack' ≤ s0 := by
  induction l with
  | nil => intro ng slack h hle; exact .inr ⟨ng, slack, rfl, h, hle⟩
  | cons n1 l ih =>
    intro ng slack h hle
    unfold slackOuter
    rcases slackInner_spec hs hnum one hph (hl n1 (by simp)) ids hids ng slack h hle with h1 | ⟨ng', slack', stop, h1, h2, h3⟩
    · simp only [h1]; exact .inl trivial
    · simp only [h1]
      cases stop with
      | true => exact .inr ⟨ng', slack', rfl, h2, h3⟩
      | false => exact ih (fun x hx => hl x (List.mem_cons_of_mem _ hx)) ng' slack' h2 h3

theorem acyclic_mono {R S : α → α → Prop} (h : ∀ a b, R a b → S a b) (hA : Acyclic S) : Acyclic R := by
  rintro a ⟨n, hn⟩; exact hA a ⟨n, hn.mono h⟩

theorem slackPurge_spec {g : Graph α V O} {srt : List α → List α} (hs : ∀ l, (srt l).Perm l)
    {num : O → Option Rat} (hnum : ∀ x, g.has x = true → ((g.node x).bind num).isSome) (one : V)
    {cpl slack : Rat} (l : List (α × α × V)) (hl : (l.map (fun e => (e.1, e.2.1))).Nodup) :
    ∀ ng, Extends num one g ng cpl slack → (∀ a b v, (a, b, v) ∈ l → ng.edge a b = some v) →
      ∃ ng', slackPurge (realCP num srt) one g cpl slack l ng = some (.ok ng') ∧
        Extends num one g ng' cpl slack := by
  induction l with
  | nil => intro ng h _; exact ⟨ng, rfl, h⟩
  | cons e l ih =>
    obtain ⟨n1, n2, w⟩ := e
    intro ng h hm
    simp only [List.map_cons, List.nodup_cons] at hl
    have ih := ih hl.2
    have hm' : ∀ a b v, (a, b, v) ∈ l → ¬ (n1 = a ∧ n2 = b) := by
      rintro a b v hv ⟨rfl, rfl⟩
      exact hl.1 (List.mem_map.2 ⟨_, hv, rfl⟩)
    unfold slackPurge
    split
    · exact ih ng h (fun a b v hv => hm a b v (List.mem_cons_of_mem _ hv))
    · rename_i hge
      have hge : g.edge n1 n2 = none := by simpa using hge
      have hw : ng.edge n1 n2 = some w := hm n1 n2 w (by simp)
      have hw1 : w = one := by
        rcases h.new n1 n2 w hw with h1 | h1
        · rw [hge] at h1; cases h1
        · exact h1
      have hi' := h.inv.delEdge n1 n2
      have hedge := edge_delEdge h.inv n1 n2
      have hacyc : Acyclic (ng.delEdge n1 n2).Adj := by
        refine acyclic_mono (fun a b hab => ?_) h.acyc
        unfold Graph.Adj at *
        rw [hedge] at hab; split at hab
        · cases hab
        · exact hab
      have hnodes' : ∀ x, (ng.delEdge n1 n2).nodes.get? x = g.nodes.get? x := by
        intro x; rw [delEdge_nodes, h.nodes]
      have hnum' : ∀ x, (ng.delEdge n1 n2).has x = true → (((ng.delEdge n1 n2).node x).bind num).isSome := by
        intro x hx
        unfold Graph.node
        unfold Graph.has Dict.contains at hx
        rw [hnodes'] at hx ⊢
        exact hnum x hx
      rcases realCP_cases hi' hs hnum' with ⟨h2, _⟩ | ⟨_, cpl2, d2, h3, h4⟩
      · exact absurd hacyc h2
      · simp only [h3]
        split
        · rename_i hc
          obtain ⟨rfl, rfl⟩ := hc
          apply ih
          · refine ⟨hi', hnodes', ?_, ?_, hacyc, d2, h4, rfl⟩
            · intro a b v hv
              rw [hedge, if_neg]
              · exact h.keep a b v hv
              · rintro ⟨rfl, rfl⟩; rw [hge] at hv; cases hv
            · intro a b v hv
              rw [hedge] at hv; split at hv
              · cases hv
              · exact h.new a b v hv
          · intro a b v hv
            rw [hedge, if_neg (hm' a b v hv)]
            exact hm a b v (List.mem_cons_of_mem _ hv)
        · have hsame : ((ng.delEdge n1 n2).addEdge n1 n2 one).Same ng := by
            obtain ⟨hk1, hk2⟩ := h.inv.dom n1 n2 w hw
            constructor
            · intro x
              rw [addEdge_nodes_get?]
              unfold Graph.node
              rw [delEdge_nodes]
              split
              · rename_i hx
                rcases hx with rfl | rfl
                · obtain ⟨o, ho⟩ := Dict.exists_get?_of_mem_keys hk1; rw [ho]; rfl
                · obtain ⟨o, ho⟩ := Dict.exists_get?_of_mem_keys hk2; rw [ho]; rfl
              · rfl
            · intro x y
              rw [edge_addEdge, hedge]
              by_cases hxy : n1 = x ∧ n2 = y
              · obtain ⟨rfl, rfl⟩ := hxy; simp [hw, hw1]
              · simp [hxy]
          apply ih
          · refine ⟨hi'.addEdge _ _ _, fun x => by rw [hsame.1, h.nodes],
              fun a b v hv => by rw [hsame.2]; exact h.keep a b v hv,
              fun a b v hv => by rw [hsame.2] at hv; exact h.new a b v hv, by rw [Same.adj hsame]; exact h.acyc, ?_⟩
            exact h.cp.same ⟨fun x => (hsame.1 x).symm, fun a b => (hsame.2 a b).symm⟩
          · intro a b v hv
            rw [hsame.2]; exact hm a b v (List.mem_cons_of_mem _ hv)

theorem not_behind_of_acyclic {R : α → α → Prop} (hA : Acyclic R) (x : α) : ¬ BehindCycle R x :=
  fun ⟨c, hc, _⟩ => hA c hc

/-- safety of the heuristic on non-empty DAGs with numeric durations -/
theorem minimizeSlack_spec {g : Graph α V O} (hg : g.Inv) (hA : Acyclic g.Adj) (hne : ∃ x, g.has x = true)
    {srt : List α → List α} (hs : ∀ l, (srt l).Perm l) {ord : Nat → List α → List α}
    (ho : ∀ t l, (ord t l).Perm l) {bySlack byDur : List (α × Task) → List (α × Task)}
    (h1 : ∀ l, (bySlack l).Perm l) (h2 : ∀ l, (byDur l).Perm l)
    {num : O → Option Rat} (hnum : ∀ x, g.has x = true → ((g.node x).bind num).isSome) (one : V) :
    ∃ cpl s0 r, HasCP num g cpl s0 ∧ g.minimizeSlack (realCP num srt) one ord bySlack byDur = some r ∧
      (r = .error .attributeError ∨ ∃ ng s1, r = .ok ng ∧ Extends num one g ng cpl s1 ∧ s1 ≤ s0) := by
  rcases realCP_cases hg hs hnum with ⟨h3, _⟩ | ⟨_, cpl, d, h3, h4⟩
  · exact absurd hA h3
  · obtain ⟨r, hr1, _, hr2⟩ := phaseLines_spec hg ho
    have hsrc : ∃ a, g.IsSource a := by
      obtain ⟨x, hx⟩ := hne
      obtain ⟨a, ha, ⟨m, hm⟩⟩ := source_of_not_behind hg.finite (not_behind_of_acyclic hA x)
      refine ⟨a, ?_, ha⟩
      cases m with
      | zero => cases hm; exact hx
      | succ m => obtain ⟨b, hb, _⟩ := hm.head; exact has_iff.2 (hg.finite a b hb).1
    obtain ⟨ph, rfl, hph, _⟩ := hr2 hsrc (fun _ x _ _ => not_behind_of_acyclic hA x)
    have hcopy : Extends num one g g.copy cpl (slackSum d) := by
      refine ⟨(copy_built g).inv, hg.copy_nodes, fun a b v hv => by rw [hg.copy_edge]; exact hv,
        fun a b v hv => by rw [hg.copy_edge] at hv; exact .inl hv, ?_, ?_⟩
      · refine acyclic_mono (fun a b hab => ?_) hA
        unfold Graph.Adj at *; rw [hg.copy_edge] at hab; exact hab
      · refine ⟨d, h4.same ⟨fun x => (hg.copy_nodes x).symm, fun a b => (hg.copy_edge a b).symm⟩, rfl⟩
    have hmem : ∀ x ∈ (bySlack (d.items.filter (fun p => decide (p.2.slack > 0)))).map Prod.fst, g.has x = true := by
      intro x hx
      obtain ⟨p, hp, rfl⟩ := List.mem_map.1 hx
      rw [(h1 _).mem_iff] at hp
      have := (List.mem_filter.1 hp).1
      exact (h4.keys p.1).1 (List.mem_map.2 ⟨p, this, rfl⟩)
    have hmem2 : ∀ x ∈ (byDur (bySlack (d.items.filter (fun p => decide (p.2.slack > 0))))).map Prod.fst,
        g.has x = true := by
      intro x hx
      obtain ⟨p, hp, rfl⟩ := List.mem_map.1 hx
      rw [(h2 _).mem_iff] at hp
      exact hmem _ (List.mem_map.2 ⟨p, hp, rfl⟩)
    unfold minimizeSlack
    simp only [h3, hr1]
    rcases slackOuter_spec hs hnum one (fun x hx => (hph x).2 hx) _ hmem _ hmem2 g.copy (slackSum d) hcopy
      Rat.le_refl with h5 | ⟨ng, slack, h5, h6, h7⟩
    · exact ⟨cpl, slackSum d, _, ⟨d, h4, rfl⟩, by simp only [h5], .inl rfl⟩
    · obtain ⟨ng', h8, h9⟩ := slackPurge_spec hs hnum one ng.edgeList h6.inv.edgeList_pairs_nodup ng h6
        (fun a b v hv => h6.inv.mem_edgeList.1 hv)
      exact ⟨cpl, slackSum d, _, ⟨d, h4, rfl⟩, by simp only [h5, h8], .inr ⟨ng', slack, rfl, h9, h7⟩⟩

end GT

import Verif.Dag.SlackMin
import Verif.Props.Dag
/-
Property theorems C86, C87: dependencies between the tasks of a project.
-/
namespace GT
open Graph
variable {α V O : Type} [DecidableEq α]

/-! ### C86 -/

/-- **C86**. With non-negative durations every dependency that `critical_path_minimize_for_slack` adds to a project is needed: without it the
critical path has the same length but the total slack is larger. -/
theorem C86_no_superfluous_dependency {g : Graph α V O} (hg : g.Built) (hA : Acyclic g.Adj)
    (hne : ∃ x, g.has x = true) {srt : List α → List α} (hs : ∀ l, (srt l).Perm l)
    {ord : Nat → List α → List α} (ho : ∀ t l, (ord t l).Perm l)
    {bySlack byDur : List (α × Task) → List (α × Task)} (hp1 : ∀ l, (bySlack l).Perm l)
    (hp2 : ∀ l, (byDur l).Perm l) {num : O → Option Rat}
    (hnum : ∀ x, g.has x = true → ∃ r, (g.node x).bind num = some r ∧ 0 ≤ r) (one : V) {ng : Graph α V O}
    (hr : g.minimizeSlack (realCP num srt) one ord bySlack byDur = some (.ok ng)) (a b : α)
    (hng : (ng.edge a b).isSome) (hg0 : g.edge a b = none) :
    ∃ cpl d d', ng.criticalPath num srt = some (.ok (cpl, d)) ∧ (ng.delEdge a b).criticalPath num srt = some (.ok (cpl, d')) ∧
      (d.items.map (fun p => p.2.slack)).sum < (d'.items.map (fun p => p.2.slack)).sum := by
  have hnum1 : ∀ x, g.has x = true → ((g.node x).bind num).isSome := fun x hx => by
    obtain ⟨r, h1, _⟩ := hnum x hx; rw [h1]; rfl
  have hpos : ∀ x r, (g.node x).bind num = some r → 0 ≤ r := by
    intro x r h
    have hx : g.has x = true := by
      unfold Graph.has Dict.contains; unfold Graph.node at h
      cases h1 : g.nodes.get? x with
      | none => rw [h1] at h; cases h
      | some o => rfl
    obtain ⟨r', h1, h2⟩ := hnum x hx
    rw [h1] at h; cases h; exact h2
  obtain ⟨cpl, slack, h1, h2⟩ := minimizeSlack_needed hg.inv hA hne hs ho hp1 hp2 hnum1 hpos one hr
  obtain ⟨s, h3, h4⟩ := h2 a b hg0 hng
  have hnum2 : ∀ x, ng.has x = true → ((ng.node x).bind num).isSome := fun x hx => by
    unfold Graph.node; rw [h1.nodes]; apply hnum1
    unfold Graph.has Dict.contains at *; rw [← h1.nodes]; exact hx
  have hi := h1.inv.delEdge a b
  have hA' : Acyclic (ng.delEdge a b).Adj := acyclic_mono (fun x y hxy => by
    unfold Graph.Adj at *
    rw [edge_delEdge h1.inv] at hxy; split at hxy
    · cases hxy
    · exact hxy) h1.acyc
  obtain ⟨c1, d, e1, e2⟩ := (criticalPath_eqs h1.inv hs num h1.acyc).1 hnum2
  obtain ⟨c2, d', e3, e4⟩ := (criticalPath_eqs hi hs num hA').1 (fun x hx => by
    unfold Graph.node; rw [delEdge_nodes]; apply hnum2
    unfold Graph.has Dict.contains at *; rw [delEdge_nodes] at hx; exact hx)
  obtain ⟨f1, f2⟩ := HasCP.unique h1.inv h1.acyc h1.cp ⟨d, e2, rfl⟩
  obtain ⟨f3, f4⟩ := HasCP.unique hi hA' h3 ⟨d', e4, rfl⟩
  refine ⟨cpl, d, d', by rw [f1]; exact e1, by rw [f3]; exact e3, ?_⟩
  have : slackSum d < slackSum d' := by rw [← f2, ← f4]; exact h4
  exact this

/-- the docstring's project meets the hypotheses of **C86**: the call adds `8 → 6` -/
example : (∃ x, project.has x = true) ∧ Acyclic project.Adj ∧
    (∀ x, project.has x = true → ∃ r, (project.node x).bind natNum = some r ∧ 0 ≤ r) ∧
    ∃ ng, project.minimizeSlack (realCP natNum natSrt) 0 (fun _ l => l) bySlackDesc byDurDesc = some (.ok ng) ∧
      (ng.edge 8 6).isSome ∧ project.edge 8 6 = none := by
  have hb : project.Built := ⟨_, rfl⟩
  refine ⟨⟨1, by decide +kernel⟩, acyclic_of_edgeList hb projectRank (by decide +kernel), fun x hx => ?_, ?_⟩
  · have := (numeric_of_nodeList (g := project) (num := natNum) (dur := project.dur natNum) (by decide +kernel))
    exact ⟨_, this.1 x hx, this.2 x hx⟩
  · have h3 : (match minFuel 20 natNum natSrt 0 (fun _ l => l) bySlackDesc byDurDesc project with
      | some (.ok ng) => decide (ng.edge 8 6 = some 0)
      | _ => false) = true := by decide +kernel
    split at h3
    · rename_i ng h4
      exact ⟨ng, minFuel_sound h4, by have : ng.edge 8 6 = some 0 := by simpa using h3
                                      rw [this]; rfl, by decide +kernel⟩
    · cases h3

/-! ### C87 -/

/-- **C87**. More dependencies between the same tasks (with non-negative durations) never shorten the project; if its length does not change, no
task starts earlier, none may finish later, and the total slack does not grow. -/
theorem C87_more_dependencies {g g' : Graph α V O} (hg : g.Built) (hg' : g'.Built) (hnodes : ∀ x, g.has x = g'.has x ∧ g.node x = g'.node x)
    (hsub : ∀ a b, (g.edge a b).isSome → (g'.edge a b).isSome) {srt : List α → List α} (hs : ∀ l, (srt l).Perm l)
    {num : O → Option Rat} (hnum : ∀ x, g.has x = true → ∃ r, (g.node x).bind num = some r ∧ 0 ≤ r)
    {cpl' : Rat} {d' : Dict α Task} (h' : g'.criticalPath num srt = some (.ok (cpl', d'))) :
    ∃ cpl d, g.criticalPath num srt = some (.ok (cpl, d)) ∧ cpl ≤ cpl' ∧
      (∀ x t t', d.get? x = some t → d'.get? x = some t' → t.earliestStart ≤ t'.earliestStart) ∧
      (cpl = cpl' → (∀ x t t', d.get? x = some t → d'.get? x = some t' → t'.latestFinish ≤ t.latestFinish) ∧
        (d'.items.map (fun p => p.2.slack)).sum ≤ (d.items.map (fun p => p.2.slack)).sum) := by
  have hn : ∀ x, g.nodes.get? x = g'.nodes.get? x := by
    intro x
    obtain ⟨h1, h2⟩ := hnodes x
    unfold Graph.has Dict.contains at h1
    unfold Graph.node at h2
    cases h3 : g.nodes.get? x <;> cases h4 : g'.nodes.get? x <;> rw [h3, h4] at h1 h2 <;> first | rfl | cases h1 | skip
    exact congrArg some h2
  have hpos : ∀ x r, (g.node x).bind num = some r → 0 ≤ r := by
    intro x r h
    have hx : g.has x = true := by
      unfold Graph.has Dict.contains; unfold Graph.node at h
      cases h1 : g.nodes.get? x with
      | none => rw [h1] at h; cases h
      | some o => rfl
    obtain ⟨r', h1, h2⟩ := hnum x hx
    rw [h1] at h; cases h; exact h2
  have hnum1 : ∀ x, g.has x = true → ((g.node x).bind num).isSome := fun x hx => by
    obtain ⟨r, h1, _⟩ := hnum x hx; rw [h1]; rfl
  have hnum2 : ∀ x, g'.has x = true → ((g'.node x).bind num).isSome := fun x hx => by
    rw [← (hnodes x).2]; apply hnum1; rw [(hnodes x).1]; exact hx
  rcases realCP_cases hg'.inv hs hnum2 with ⟨_, h1⟩ | ⟨hA', c, e, h1, h2⟩
  · unfold realCP at h1; rw [h'] at h1; cases h1
  · unfold realCP at h1; rw [h'] at h1; cases h1
    obtain ⟨cpl, d, e1, e2⟩ := (criticalPath_eqs hg.inv hs num (acyclic_mono hsub hA')).1 hnum1
    obtain ⟨m1, m2, m3⟩ := e2.mono hg.inv hg'.inv hA' hn hsub h2 (fun x t ht => hpos x _ (e2.fwd x t ht).dur)
    exact ⟨cpl, d, e1, m1, m2, m3⟩

/-- the docstring's project with one more dependency, `8 → 6` -/
def project2 : Graph Nat Nat Nat := run [T 1 10, T 2 20, T 3 5, T 4 10, T 5 20, T 6 15, T 7 5, T 8 15,
  E 1 2 0, E 2 3 0, E 3 4 0, E 4 5 0, E 1 6 0, E 6 7 0, E 7 5 0, E 1 8 0, E 8 5 0, E 8 6 0]

theorem adj_of_edgeList {g g' : Graph α V O} (hg : g.Built)
    (h : (g.edgeList.all (fun e => (g'.edge e.1 e.2.1).isSome)) = true) (a b : α) (hab : (g.edge a b).isSome) : (g'.edge a b).isSome := by
  obtain ⟨v, hv⟩ := Option.isSome_iff_exists.1 hab
  exact List.all_eq_true.1 h _ (hg.inv.mem_edgeList.2 hv)

/-- the docstring's project, without and with the dependency `8 → 6`, meets the hypotheses of **C87** -/
example : project.Built ∧ project2.Built ∧
    (∀ x, project.has x = project2.has x ∧ project.node x = project2.node x) ∧
    (∀ a b, (project.edge a b).isSome → (project2.edge a b).isSome) ∧
    (∀ x, project.has x = true → ∃ r, (project.node x).bind natNum = some r ∧ 0 ≤ r) ∧
    ∃ d', project2.criticalPath natNum natSrt = some (.ok (65, d')) := by
  have hb : project.Built := ⟨_, rfl⟩
  have hn : project.nodes = project2.nodes := by decide +kernel
  refine ⟨hb, ⟨_, rfl⟩, fun x => by unfold Graph.has Graph.node; rw [hn]; exact ⟨rfl, rfl⟩, ?_, fun x hx => ?_, ?_⟩
  · exact adj_of_edgeList hb (by decide +kernel)
  · have := (numeric_of_nodeList (g := project) (num := natNum) (dur := project.dur natNum) (by decide +kernel))
    exact ⟨_, this.1 x hx, this.2 x hx⟩
  · have h3 : (match cpFuel 20 natNum natSrt project2 with
      | some (.ok (c, _)) => decide (c = 65)
      | _ => false) = true := by decide +kernel
    split at h3
    · rename_i c d h4
      simp at h3; subst h3
      exact ⟨d, cpFuel_sound h4⟩
    · cases h3

end GT

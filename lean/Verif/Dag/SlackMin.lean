import Verif.Dag.Slack
/-
`critical_path_minimize_for_slack` (graph/critical_path.py:128-197): the dependencies that part 2 leaves in place are all needed.
-/
namespace GT
variable {α V O : Type} [DecidableEq α]
open Graph

theorem CpmEqs.es_nonneg' {g : Graph α V O} (hg : g.Inv) (hA : Acyclic g.Adj) {num : O → Option Rat} {d : Dict α Task} {cpl : Rat}
    (e : CpmEqs g num d cpl) (hd : ∀ x t, d.get? x = some t → 0 ≤ t.duration) :
    ∀ x t, d.get? x = some t → 0 ≤ t.earliestStart := by
  have hA' : Acyclic (Flip g.Adj) := by
    rintro a ⟨n, hn⟩; exact hA a ⟨n, hn.flip⟩
  obtain ⟨rank, hr, _, _⟩ := hA'.rank (U := g.nodeList) (fun a b hab => ⟨(hg.finite b a hab).2, (hg.finite b a hab).1⟩)
  have key : ∀ n x t, rank x = n → d.get? x = some t → 0 ≤ t.earliestStart := by
    intro n
    induction n using Nat.strongRecOn with
    | _ n ih =>
      intro x t hx h1
      rcases (e.fwd x t h1).att with ⟨h3, _⟩ | ⟨a, ta, h3, h4, h5⟩
      · rw [h3]; exact Rat.le_refl
      · have h6 := ih (rank a) (hx ▸ hr x a h3) a ta rfl h4
        have h7 := (e.fwd a ta h4).ef
        have h8 := hd a ta h4
        grind
  exact fun x t h => key _ x t rfl h

theorem CpmEqs.lf_le' {g : Graph α V O} (hg : g.Inv) (hA : Acyclic g.Adj) {num : O → Option Rat} {d : Dict α Task} {cpl : Rat}
    (e : CpmEqs g num d cpl) (hd : ∀ x t, d.get? x = some t → 0 ≤ t.duration) :
    ∀ x t, d.get? x = some t → t.latestFinish ≤ cpl := by
  obtain ⟨rank, hr, _, _⟩ := hA.rank hg.finite
  have key : ∀ n x t, rank x = n → d.get? x = some t → t.latestFinish ≤ cpl := by
    intro n
    induction n using Nat.strongRecOn with
    | _ n ih =>
      intro x t hx h1
      rcases (e.bwd x t h1).att with ⟨h3, _⟩ | ⟨a, ta, h3, h4, h5⟩
      · rw [h3]; exact Rat.le_refl
      · have h6 := ih (rank a) (hx ▸ hr x a h3) a ta rfl h4
        have h7 := (e.bwd a ta h4).ls
        have h8 := hd a ta h4
        grind
  exact fun x t h => key _ x t rfl h

theorem sum_le_sum {β : Type} {l : List β} {f h : β → Rat} (hl : ∀ x ∈ l, f x ≤ h x) : (l.map f).sum ≤ (l.map h).sum := by
  induction l with
  | nil => exact Rat.le_refl
  | cons x l ih =>
    have h1 := hl x (by simp)
    have h2 := ih (fun y hy => hl y (List.mem_cons_of_mem _ hy))
    simp only [List.map_cons, List.sum_cons]
    grind

/-- the slack of a task by its name -/
def slackAt (d : Dict α Task) (x : α) : Rat := match d.get? x with | some t => t.slack | none => 0

theorem slackSum_keys {d : Dict α Task} (h : d.WF) : slackSum d = (d.keys.map (slackAt d)).sum := by
  unfold slackSum Dict.keys
  rw [List.map_map]
  congr 1
  apply List.map_congr_left
  rintro ⟨x, t⟩ hx
  simp only [Function.comp, slackAt, (Dict.get?_eq_some_iff h x t).2 hx]

/-- more dependencies: no shorter project, and if it is not longer, no more slack -/
theorem CpmEqs.mono {g1 g2 : Graph α V O} (hg1 : g1.Inv) (hg2 : g2.Inv) (hA2 : Acyclic g2.Adj)
    (hn : ∀ x, g1.nodes.get? x = g2.nodes.get? x) (hsub : ∀ a b, g1.Adj a b → g2.Adj a b)
    {num : O → Option Rat} {d1 d2 : Dict α Task} {c1 c2 : Rat} (e1 : CpmEqs g1 num d1 c1) (e2 : CpmEqs g2 num d2 c2)
    (hd : ∀ x t, d1.get? x = some t → 0 ≤ t.duration) :
    c1 ≤ c2 ∧ (∀ x t t', d1.get? x = some t → d2.get? x = some t' → t.earliestStart ≤ t'.earliestStart) ∧
      (c1 = c2 → (∀ x t t', d1.get? x = some t → d2.get? x = some t' → t'.latestFinish ≤ t.latestFinish) ∧
        slackSum d2 ≤ slackSum d1) := by
  have hA1 : Acyclic g1.Adj := acyclic_mono hsub hA2
  have hh : ∀ x, g1.has x = g2.has x := fun x => by unfold Graph.has Dict.contains; rw [hn]
  have hk : ∀ x, x ∈ d1.keys ↔ x ∈ d2.keys := fun x => by rw [e1.keys, e2.keys, hh]
  have hdur : ∀ x t t', d1.get? x = some t → d2.get? x = some t' → t.duration = t'.duration := by
    intro x t t' h1 h2
    have h3 := (e1.fwd x t h1).dur
    have h4 := (e2.fwd x t' h2).dur
    unfold Graph.node at h3 h4
    rw [hn, h4] at h3
    exact (Option.some.inj h3).symm
  have hd2 : ∀ x t, d2.get? x = some t → 0 ≤ t.duration := by
    intro x t h
    obtain ⟨t', ht'⟩ := Dict.exists_get?_of_mem_keys ((hk x).2 (Dict.mem_keys_of_get? h))
    rw [← hdur x t' t ht' h]; exact hd x t' ht'
  have hA' : Acyclic (Flip g1.Adj) := by
    rintro a ⟨n, hn⟩; exact hA1 a ⟨n, hn.flip⟩
  obtain ⟨rank, hr, _, _⟩ := hA'.rank (U := g1.nodeList) (fun a b hab => ⟨(hg1.finite b a hab).2, (hg1.finite b a hab).1⟩)
  have hes : ∀ n x t t', rank x = n → d1.get? x = some t → d2.get? x = some t' → t.earliestStart ≤ t'.earliestStart := by
    intro n
    induction n using Nat.strongRecOn with
    | _ n ih =>
      intro x t t' hx h1 h2
      rcases (e1.fwd x t h1).att with ⟨h3, _⟩ | ⟨a, ta, h3, h4, h5⟩
      · rw [h3]; exact e2.es_nonneg' hg2 hA2 hd2 x t' h2
      · obtain ⟨ta', h6, h7⟩ := (e2.fwd x t' h2).ge a (hsub a x h3)
        have h8 := ih (rank a) (hx ▸ hr x a h3) a ta ta' rfl h4 h6
        have h9 := hdur a ta ta' h4 h6
        have h10 := (e1.fwd a ta h4).ef
        have h11 := (e2.fwd a ta' h6).ef
        grind
  have hef : ∀ x t t', d1.get? x = some t → d2.get? x = some t' → t.earliestFinish ≤ t'.earliestFinish := by
    intro x t t' h1 h2
    have h8 := hes _ x t t' rfl h1 h2
    have h9 := hdur x t t' h1 h2
    have h10 := (e1.fwd x t h1).ef
    have h11 := (e2.fwd x t' h2).ef
    grind
  refine ⟨?_, fun x t t' => hes _ x t t' rfl, fun hc => ?_⟩
  · rcases e1.catt with h | ⟨x, t, h1, h2⟩
    · rw [h]; exact e2.cge.1
    · obtain ⟨t', ht'⟩ := Dict.exists_get?_of_mem_keys ((hk x).1 (Dict.mem_keys_of_get? h1))
      have h3 := e2.cge.2 x t' ht'
      have h4 := hef x t t' h1 ht'
      grind
  · subst hc
    obtain ⟨rank2, hr2, _, _⟩ := hA1.rank hg1.finite
    have hlf : ∀ n x t t', rank2 x = n → d1.get? x = some t → d2.get? x = some t' → t'.latestFinish ≤ t.latestFinish := by
      intro n
      induction n using Nat.strongRecOn with
      | _ n ih =>
        intro x t t' hx h1 h2
        rcases (e1.bwd x t h1).att with ⟨h3, _⟩ | ⟨a, ta, h3, h4, h5⟩
        · rw [h3]; exact e2.lf_le' hg2 hA2 hd2 x t' h2
        · obtain ⟨ta', h6, h7⟩ := (e2.bwd x t' h2).le a (hsub x a h3)
          have h8 := ih (rank2 a) (hx ▸ hr2 x a h3) a ta ta' rfl h4 h6
          have h9 := hdur a ta ta' h4 h6
          have h10 := (e1.bwd a ta h4).ls
          have h11 := (e2.bwd a ta' h6).ls
          grind
    refine ⟨fun x t t' => hlf _ x t t' rfl, ?_⟩
    rw [slackSum_keys e1.wf, slackSum_keys e2.wf]
    have hp : d2.keys.Perm d1.keys := (List.perm_ext_iff_of_nodup e2.wf e1.wf).2 (fun x => (hk x).symm)
    rw [sum_perm (hp.map (slackAt d2))]
    apply sum_le_sum
    intro x hx
    obtain ⟨t, ht⟩ := Dict.exists_get?_of_mem_keys hx
    obtain ⟨t', ht'⟩ := Dict.exists_get?_of_mem_keys ((hk x).1 hx)
    unfold slackAt
    rw [ht, ht']
    have h1 := hef x t t' ht ht'
    have h2 := hlf _ x t t' rfl ht ht'
    show t'.latestFinish - t'.earliestFinish ≤ t.latestFinish - t.earliestFinish
    grind

theorem HasCP.mono {g1 g2 : Graph α V O} (hg1 : g1.Inv) (hg2 : g2.Inv) (hA2 : Acyclic g2.Adj)
    (hn : ∀ x, g1.nodes.get? x = g2.nodes.get? x) (hsub : ∀ a b, g1.Adj a b → g2.Adj a b)
    {num : O → Option Rat} (hpos : ∀ x r, (g1.node x).bind num = some r → 0 ≤ r)
    {c1 s1 c2 s2 : Rat} (e1 : HasCP num g1 c1 s1) (e2 : HasCP num g2 c2 s2) : c1 ≤ c2 ∧ (c1 = c2 → s2 ≤ s1) := by
  obtain ⟨d1, h1, rfl⟩ := e1
  obtain ⟨d2, h2, rfl⟩ := e2
  have := h1.mono hg1 hg2 hA2 hn hsub h2 (fun x t ht => hpos x _ (h1.fwd x t ht).dur)
  exact ⟨this.1, fun h => (this.2.2 h).2⟩

theorem hasCP_exists {g : Graph α V O} (hg : g.Inv) (hA : Acyclic g.Adj) {num : O → Option Rat}
    (hnum : ∀ x, g.has x = true → ((g.node x).bind num).isSome) : ∃ c s, HasCP num g c s := by
  obtain ⟨cpl, d, _, h⟩ := (criticalPath_eqs hg (srt := fun l => l) (fun l => List.Perm.refl l) num hA).1 hnum
  exact ⟨cpl, _, d, h, rfl⟩

/-- without the dependency `a → b` the project has the same length but more slack -/
def SlackNeeded (num : O → Option Rat) (ng : Graph α V O) (cpl slack : Rat) (a b : α) : Prop :=
  ∃ s, HasCP num (ng.delEdge a b) cpl s ∧ slack < s

theorem slackPurge_needed {g : Graph α V O} (hg : g.Inv) {srt : List α → List α} (hs : ∀ l, (srt l).Perm l)
    {num : O → Option Rat} (hnum : ∀ x, g.has x = true → ((g.node x).bind num).isSome)
    (hpos : ∀ x r, (g.node x).bind num = some r → 0 ≤ r) (one : V)
    {cpl slack s0 : Rat} (hcp : HasCP num g cpl s0) (l : List (α × α × V)) (hl : (l.map (fun e => (e.1, e.2.1))).Nodup) :
    ∀ ng, Extends num one g ng cpl slack → (∀ a b v, (a, b, v) ∈ l → ng.edge a b = some v) →
      (∀ a b, g.edge a b = none → (ng.edge a b).isSome → (∀ v, (a, b, v) ∉ l) → SlackNeeded num ng cpl slack a b) →
      ∀ ng', slackPurge (realCP num srt) one g cpl slack l ng = some (.ok ng') →
        ∀ a b, g.edge a b = none → (ng'.edge a b).isSome → SlackNeeded num ng' cpl slack a b := by
  -- a graph between `g` and `ng` has the same length
  have between : ∀ (ng h : Graph α V O), Extends num one g ng cpl slack → h.Inv →
      (∀ x, h.nodes.get? x = g.nodes.get? x) → (∀ a b, g.Adj a b → h.Adj a b) → (∀ a b, h.Adj a b → ng.Adj a b) →
      ∃ s, HasCP num h cpl s ∧ slack ≤ s := by
    intro ng h he hi hn h1 h2
    have hA : Acyclic h.Adj := acyclic_mono h2 he.acyc
    have hnode : ∀ x, h.node x = g.node x := fun x => by unfold Graph.node; rw [hn]
    obtain ⟨c, s, hc⟩ := hasCP_exists hi hA (num := num) (fun x hx => by
      rw [hnode]; apply hnum; unfold Graph.has Dict.contains at *; rw [← hn]; exact hx)
    have m1 := HasCP.mono hg hi hA (fun x => (hn x).symm) h1 hpos hcp hc
    have m2 := HasCP.mono hi he.inv he.acyc (fun x => by rw [hn, he.nodes]) h2 (fun x r => by rw [hnode]; exact hpos x r) hc he.cp
    have : c = cpl := by have := m1.1; have := m2.1; grind
    subst this
    exact ⟨s, hc, m2.2 rfl⟩
  induction l with
  | nil =>
    intro ng h _ hN ng' hr a b h1 h2
    cases hr
    exact hN a b h1 h2 (fun v hv => nomatch hv)
  | cons e l ih =>
    obtain ⟨n1, n2, w⟩ := e
    intro ng h hm hN ng' hr
    simp only [List.map_cons, List.nodup_cons] at hl
    have ih := ih hl.2
    have hm' : ∀ a b v, (a, b, v) ∈ l → ¬ (n1 = a ∧ n2 = b) := by
      rintro a b v hv ⟨rfl, rfl⟩
      exact hl.1 (List.mem_map.2 ⟨_, hv, rfl⟩)
    unfold slackPurge at hr
    by_cases hge : (g.edge n1 n2).isSome
    · rw [if_pos hge] at hr
      refine ih ng h (fun a b v hv => hm a b v (List.mem_cons_of_mem _ hv)) (fun a b h1 h2 h3 => ?_) ng' hr
      refine hN a b h1 h2 (fun v hv => ?_)
      rcases List.mem_cons.1 hv with h4 | h4
      · cases h4; rw [h1] at hge; cases hge
      · exact h3 v h4
    · rw [if_neg hge] at hr
      have hge : g.edge n1 n2 = none := by simpa using hge
      have hw : ng.edge n1 n2 = some w := hm n1 n2 w (by simp)
      have hw1 : w = one := by
        rcases h.new n1 n2 w hw with h1 | h1
        · rw [hge] at h1; cases h1
        · exact h1
      have hi' := h.inv.delEdge n1 n2
      have hedge := edge_delEdge h.inv n1 n2
      have hsubng : ∀ a b, (ng.delEdge n1 n2).Adj a b → ng.Adj a b := by
        intro a b hab
        unfold Graph.Adj at *
        rw [hedge] at hab; split at hab
        · cases hab
        · exact hab
      have hsubg : ∀ a b, g.Adj a b → (ng.delEdge n1 n2).Adj a b := by
        intro a b hab
        unfold Graph.Adj at *
        obtain ⟨v, hv⟩ := Option.isSome_iff_exists.1 hab
        rw [hedge, if_neg, h.keep a b v hv]
        · rfl
        · rintro ⟨rfl, rfl⟩; rw [hge] at hv; cases hv
      have hacyc : Acyclic (ng.delEdge n1 n2).Adj := acyclic_mono hsubng h.acyc
      have hnodes' : ∀ x, (ng.delEdge n1 n2).nodes.get? x = g.nodes.get? x := by
        intro x; rw [delEdge_nodes, h.nodes]
      have hnum' : ∀ x, (ng.delEdge n1 n2).has x = true → (((ng.delEdge n1 n2).node x).bind num).isSome := by
        intro x hx
        unfold Graph.node
        unfold Graph.has Dict.contains at hx
        rw [hnodes'] at hx ⊢
        exact hnum x hx
      rcases realCP_cases hi' hs hnum' with ⟨h2, _⟩ | ⟨_, cpl2, d2, h3, h4⟩
      · exact absurd hacyc h2
      · simp only [h3] at hr
        by_cases hc : cpl2 = cpl ∧ slackSum d2 = slack
        · rw [if_pos hc] at hr
          obtain ⟨rfl, rfl⟩ := hc
          have hext : Extends num one g (ng.delEdge n1 n2) cpl2 (slackSum d2) := by
            refine ⟨hi', hnodes', ?_, ?_, hacyc, d2, h4, rfl⟩
            · intro a b v hv
              rw [hedge, if_neg]
              · exact h.keep a b v hv
              · rintro ⟨rfl, rfl⟩; rw [hge] at hv; cases hv
            · intro a b v hv
              rw [hedge] at hv; split at hv
              · cases hv
              · exact h.new a b v hv
          refine ih _ hext ?_ ?_ ng' hr
          · intro a b v hv
            rw [hedge, if_neg (hm' a b v hv)]
            exact hm a b v (List.mem_cons_of_mem _ hv)
          · intro a b k1 k2 k3
            rw [hedge] at k2
            split at k2
            · cases k2
            · rename_i hab
              obtain ⟨s, q1, q2⟩ := hN a b k1 k2 (fun v hv => by
                rcases List.mem_cons.1 hv with h5 | h5
                · cases h5; exact hab ⟨rfl, rfl⟩
                · exact k3 v h5)
              have hiab := hi'.delEdge a b
              have eab := edge_delEdge hi' a b
              obtain ⟨s', q3, _⟩ := between _ ((ng.delEdge n1 n2).delEdge a b) hext hiab
                (fun x => by rw [delEdge_nodes, hnodes'])
                (fun x y hxy => by
                  have := hsubg x y hxy
                  unfold Graph.Adj at *
                  rw [eab, if_neg]
                  · exact this
                  · rintro ⟨rfl, rfl⟩; rw [k1] at hxy; cases hxy)
                (fun x y hxy => by
                  unfold Graph.Adj at *
                  rw [eab] at hxy; split at hxy
                  · cases hxy
                  · exact hxy)
              have e2 := edge_delEdge h.inv a b
              have m := HasCP.mono hiab (h.inv.delEdge a b) (acyclic_mono (fun x y hxy => by
                  unfold Graph.Adj at *
                  rw [e2] at hxy; split at hxy
                  · cases hxy
                  · exact hxy) h.acyc)
                (fun x => by simp only [delEdge_nodes])
                (fun x y hxy => by
                  unfold Graph.Adj at *
                  rw [eab, hedge] at hxy
                  rw [e2]
                  split at hxy
                  · cases hxy
                  · rename_i h6
                    rw [if_neg h6]
                    split at hxy
                    · cases hxy
                    · exact hxy)
                (fun x r => by
                  unfold Graph.node; rw [delEdge_nodes, hnodes']; exact hpos x r) q3 q1
              have := m.2 rfl
              exact ⟨s', q3, by grind⟩
        · rw [if_neg hc] at hr
          have hsame : ((ng.delEdge n1 n2).addEdge n1 n2 one).Same ng := by
            obtain ⟨hk1, hk2⟩ := h.inv.dom n1 n2 w hw
            constructor
            · intro x
              rw [addEdge_nodes_get?]
              unfold Graph.node
              rw [delEdge_nodes]
              split
              · rename_i hx
                rcases hx with rfl | rfl
                · obtain ⟨o, ho⟩ := Dict.exists_get?_of_mem_keys hk1; rw [ho]; rfl
                · obtain ⟨o, ho⟩ := Dict.exists_get?_of_mem_keys hk2; rw [ho]; rfl
              · rfl
            · intro x y
              rw [edge_addEdge, hedge]
              by_cases hxy : n1 = x ∧ n2 = y
              · obtain ⟨rfl, rfl⟩ := hxy; simp [hw, hw1]
              · simp [hxy]
          have hia := hi'.addEdge n1 n2 one
          have hsd : ∀ a b, (ng.delEdge a b).Same (((ng.delEdge n1 n2).addEdge n1 n2 one).delEdge a b) := by
            intro a b
            refine ⟨fun x => by rw [delEdge_nodes, delEdge_nodes, hsame.1], fun x y => ?_⟩
            rw [edge_delEdge h.inv, edge_delEdge hia, hsame.2]
          refine ih _ ?_ ?_ ?_ ng' hr
          · refine ⟨hia, fun x => by rw [hsame.1, h.nodes],
              fun a b v hv => by rw [hsame.2]; exact h.keep a b v hv,
              fun a b v hv => by rw [hsame.2] at hv; exact h.new a b v hv, by rw [Same.adj hsame]; exact h.acyc, ?_⟩
            exact h.cp.same ⟨fun x => (hsame.1 x).symm, fun a b => (hsame.2 a b).symm⟩
          · intro a b v hv
            rw [hsame.2]; exact hm a b v (List.mem_cons_of_mem _ hv)
          · intro a b k1 k2 k3
            rw [hsame.2] at k2
            by_cases hab : n1 = a ∧ n2 = b
            · obtain ⟨rfl, rfl⟩ := hab
              obtain ⟨s, q1, q2⟩ := between ng _ h hi' hnodes' hsubg hsubng
              obtain ⟨q3, q4⟩ := HasCP.unique hi' hacyc q1 ⟨d2, h4, rfl⟩
              refine ⟨s, q1.same (hsd _ _), ?_⟩
              have : slackSum d2 ≠ slack := fun h7 => hc ⟨q3.symm, h7⟩
              grind
            · obtain ⟨s, q1, q2⟩ := hN a b k1 k2 (fun v hv => by
                rcases List.mem_cons.1 hv with h5 | h5
                · cases h5; exact hab ⟨rfl, rfl⟩
                · exact k3 v h5)
              exact ⟨s, q1.same (hsd _ _), q2⟩

/-- every dependency that the heuristic adds is needed -/
theorem minimizeSlack_needed {g : Graph α V O} (hg : g.Inv) (hA : Acyclic g.Adj) (hne : ∃ x, g.has x = true)
    {srt : List α → List α} (hs : ∀ l, (srt l).Perm l) {ord : Nat → List α → List α}
    (ho : ∀ t l, (ord t l).Perm l) {bySlack byDur : List (α × Task) → List (α × Task)}
    (h1 : ∀ l, (bySlack l).Perm l) (h2 : ∀ l, (byDur l).Perm l)
    {num : O → Option Rat} (hnum : ∀ x, g.has x = true → ((g.node x).bind num).isSome)
    (hpos : ∀ x r, (g.node x).bind num = some r → 0 ≤ r) (one : V) {ng : Graph α V O}
    (hr : g.minimizeSlack (realCP num srt) one ord bySlack byDur = some (.ok ng)) :
    ∃ cpl slack, Extends num one g ng cpl slack ∧
      ∀ a b, g.edge a b = none → (ng.edge a b).isSome → SlackNeeded num ng cpl slack a b := by
  rcases realCP_cases hg hs hnum with ⟨h3, _⟩ | ⟨_, cpl, d, h3, h4⟩
  · exact absurd hA h3
  · obtain ⟨r, hr1, _, hr2⟩ := phaseLines_spec hg ho
    have hsrc : ∃ a, g.IsSource a := by
      obtain ⟨x, hx⟩ := hne
      obtain ⟨a, ha, ⟨m, hm⟩⟩ := source_of_not_behind hg.finite (not_behind_of_acyclic hA x)
      refine ⟨a, ?_, ha⟩
      cases m with
      | zero => cases hm; exact hx
      | succ m => obtain ⟨b, hb, _⟩ := hm.head; exact has_iff.2 (hg.finite a b hb).1
    obtain ⟨ph, rfl, hph, _⟩ := hr2 hsrc (fun _ x _ _ => not_behind_of_acyclic hA x)
    have hcopy : Extends num one g g.copy cpl (slackSum d) := by
      refine ⟨(copy_built g).inv, hg.copy_nodes, fun a b v hv => by rw [hg.copy_edge]; exact hv,
        fun a b v hv => by rw [hg.copy_edge] at hv; exact .inl hv, ?_, ?_⟩
      · refine acyclic_mono (fun a b hab => ?_) hA
        unfold Graph.Adj at *; rw [hg.copy_edge] at hab; exact hab
      · refine ⟨d, h4.same ⟨fun x => (hg.copy_nodes x).symm, fun a b => (hg.copy_edge a b).symm⟩, rfl⟩
    have hmem : ∀ x ∈ (bySlack (d.items.filter (fun p => decide (p.2.slack > 0)))).map Prod.fst, g.has x = true := by
      intro x hx
      obtain ⟨p, hp, rfl⟩ := List.mem_map.1 hx
      rw [(h1 _).mem_iff] at hp
      have := (List.mem_filter.1 hp).1
      exact (h4.keys p.1).1 (List.mem_map.2 ⟨p, this, rfl⟩)
    have hmem2 : ∀ x ∈ (byDur (bySlack (d.items.filter (fun p => decide (p.2.slack > 0))))).map Prod.fst,
        g.has x = true := by
      intro x hx
      obtain ⟨p, hp, rfl⟩ := List.mem_map.1 hx
      rw [(h2 _).mem_iff] at hp
      exact hmem _ (List.mem_map.2 ⟨p, hp, rfl⟩)
    unfold minimizeSlack at hr
    simp only [h3, hr1] at hr
    rcases slackOuter_spec hs hnum one (fun x hx => (hph x).2 hx) _ hmem _ hmem2 g.copy (slackSum d) hcopy
      Rat.le_refl with h5 | ⟨ng0, slack, h5, h6, h7⟩
    · simp only [h5] at hr; cases hr
    · simp only [h5] at hr
      have hall : ∀ a b v, (a, b, v) ∈ ng0.edgeList → ng0.edge a b = some v := fun a b v hv => h6.inv.mem_edgeList.1 hv
      obtain ⟨ng', h8, h9⟩ := slackPurge_spec hs hnum one ng0.edgeList h6.inv.edgeList_pairs_nodup ng0 h6 hall
      rw [h8] at hr
      cases hr
      refine ⟨cpl, slack, h9, slackPurge_needed hg hs hnum hpos one ⟨d, h4, rfl⟩ ng0.edgeList h6.inv.edgeList_pairs_nodup ng0 h6 hall
        (fun a b _ k2 k3 => ?_) ng h8⟩
      obtain ⟨v, hv⟩ := Option.isSome_iff_exists.1 k2
      exact absurd (h6.inv.mem_edgeList.2 hv) (k3 v)

end GT

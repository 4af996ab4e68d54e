import Verif.Props.Search
import Verif.Dag.SlackCex
/-
Property theorems C23–C27: topological sort, cycles, phase lines, critical path.

`srt` is the sort of the ready nodes by an arbitrary key, `ord` the iteration order of a Python set;
the theorems hold for all of them (they only have to permute their argument).
-/
namespace GT
open Graph
variable {α V O : Type} [DecidableEq α]

/-! ### C23 -/

/-- **C23**. The generator `topological_sort(g, key)` ends after yielding a list `out` of distinct nodes,
each after all its predecessors: exactly the nodes that are not on or behind a cycle.  On a DAG these are
all nodes and it ends normally; otherwise it ends with `AttributeError`. -/
theorem C23_topological_sort {g : Graph α V O} (hg : g.Built) {srt : List α → List α}
    (hs : ∀ l, (srt l).Perm l) :
    ∃ out e, g.topologicalSort srt = some (out, e) ∧ out.Nodup ∧
      (∀ l1 x l2, out = l1 ++ x :: l2 → ∀ a, g.Adj a x → a ∈ l1) ∧
      (∀ x, x ∈ out ↔ g.has x = true ∧ ¬ ∃ c, ReachPlus g.Adj c c ∧ Reach g.Adj c x) ∧
      (Acyclic g.Adj → e = none ∧ ∀ x, x ∈ out ↔ g.has x = true) ∧
      (¬ Acyclic g.Adj → e = some .attributeError) := by
  obtain ⟨out, e, h1, h2, h3, h4, h5, h6⟩ := topo_spec hg.inv hs
  refine ⟨out, e, h1, h2, h4, h3, fun hA => ?_, fun hA => ?_⟩
  · have h7 : ∀ x, x ∈ out ↔ g.has x = true := fun x => by
      rw [h3]; exact ⟨fun h => h.1, fun h => ⟨h, fun ⟨c, hc, _⟩ => hA c hc⟩⟩
    exact ⟨h5 (fun x hx => (h7 x).2 hx), h7⟩
  · have := (topoList_spec hg.inv hs).2 hA
    unfold topoList at this
    rw [h1] at this
    cases e with
    | none => simp at this
    | some e => simp at this; rw [this]

/-- the sort used by Python without a key, for integer nodes -/
def natSrt : List Nat → List Nat := pySort (fun a b => decide (a < b))

theorem natSrt_perm (l : List Nat) : (natSrt l).Perm l := pySort_perm _ _

/-- both cases occur: the diamond is sorted, the graph with a cycle is sorted up to the cycle -/
example : diamond.Built ∧ Acyclic diamond.Adj ∧ sampleG.Built ∧ ¬ Acyclic sampleG.Adj ∧
    diamond.topologicalSort natSrt = some ([1, 2, 3, 4], none) ∧
    sampleG.topologicalSort natSrt = some ([7, 6], some .attributeError) := by
  refine ⟨⟨_, rfl⟩, diamond_acyclic, ⟨_, rfl⟩, fun h => h 1 ⟨2, ?_⟩,
    pyWhile_of_runFuel (n := 20) (by decide +kernel), pyWhile_of_runFuel (n := 20) (by decide +kernel)⟩
  exact .succ (.succ (.succ (.zero 1) (b := 1) (c := 2) (by unfold Adj; decide)) (c := 3) (by unfold Adj; decide))
    (by unfold Adj; decide)

/-! ### C24 -/

/-- **C24**. `has_cycles(g)` returns, and returns `True` exactly if the graph has a directed cycle. -/
theorem C24_has_cycles {g : Graph α V O} (hg : g.Built) {srt : List α → List α}
    (hs : ∀ l, (srt l).Perm l) :
    ∃ r, g.hasCycles srt = some (.ok r) ∧ (r = true ↔ ∃ c p, WalkFT g.Adj c c p ∧ 2 ≤ p.length) := by
  obtain ⟨r, h1, h2⟩ := hasCycles_spec hg.inv hs
  refine ⟨r, h1, h2.trans ?_⟩
  constructor
  · rintro ⟨c, hc⟩; exact ⟨c, reachPlus_iff_walk.1 hc⟩
  · rintro ⟨c, hc⟩; exact ⟨c, reachPlus_iff_walk.2 hc⟩

/-- a graph with a cycle and one without, both reachable -/
example : sampleG.Built ∧ (∃ c p, WalkFT sampleG.Adj c c p ∧ 2 ≤ p.length) ∧ diamond.Built ∧
    ¬ (∃ c p, WalkFT diamond.Adj c c p ∧ 2 ≤ p.length) := by
  refine ⟨⟨_, rfl⟩, ⟨1, [1, 2, 3, 1], ⟨⟨?_, ?_, ?_, trivial⟩, rfl, rfl⟩, by decide⟩, ⟨_, rfl⟩, ?_⟩
  · unfold Adj; decide
  · unfold Adj; decide
  · unfold Adj; decide
  · rintro ⟨c, hc⟩; exact diamond_acyclic c (reachPlus_iff_walk.2 hc)

/-! ### C25 -/

/-- **C25** (non-empty DAGs: full claim). `phase_lines(g)` maps exactly the nodes, each to the number of
edges of the longest chain that ends in it; so every edge leads to a strictly later phase. -/
theorem C25_phase_lines_dag {g : Graph α V O} (hg : g.Built) (hA : Acyclic g.Adj)
    (hne : ∃ x, g.has x = true) {ord : Nat → List α → List α} (ho : ∀ t l, (ord t l).Perm l) :
    ∃ ph, g.phaseLines ord = some (.ok ph) ∧ (∀ x, x ∈ ph.keys ↔ g.has x = true) ∧
      (∀ x, g.has x = true → ∃ n, ph.get? x = some n ∧ (∃ a, Steps g.Adj n a x) ∧
        ∀ m a, Steps g.Adj m a x → m ≤ n) ∧
      (∀ a b, g.Adj a b → ∃ m n, ph.get? a = some m ∧ ph.get? b = some n ∧ m < n) := by
  have h := hg.inv
  obtain ⟨r, h1, _, h3⟩ := phaseLines_spec h ho
  have hsrc : ∃ a, g.IsSource a := by
    obtain ⟨x, hx⟩ := hne
    obtain ⟨a, ha, ⟨m, hm⟩⟩ := source_of_not_behind h.finite (not_behind_of_acyclic hA x)
    refine ⟨a, ?_, ha⟩
    cases m with
    | zero => cases hm; exact hx
    | succ m => obtain ⟨b, hb, _⟩ := hm.head; exact has_iff.2 (h.finite a b hb).1
  obtain ⟨ph, rfl, h4, h5, _⟩ := h3 hsrc (fun _ x _ _ => not_behind_of_acyclic hA x)
  refine ⟨ph, h1, h4, fun x hx => h5 x hx (not_behind_of_acyclic hA x), fun a b hab => ?_⟩
  have hf := h.finite a b hab
  obtain ⟨m, hm, ⟨a0, ha0⟩, _⟩ := h5 a (has_iff.2 hf.1) (not_behind_of_acyclic hA a)
  obtain ⟨n, hn, _, hn2⟩ := h5 b (has_iff.2 hf.2) (not_behind_of_acyclic hA b)
  exact ⟨m, n, hm, hn, hn2 _ _ (.succ ha0 hab)⟩

/-- **C25** (all graphs; partial). `phase_lines` always returns or raises `AttributeError`.  It raises
exactly if there is no source at all or a source reaches a node on or behind a cycle.
Missing from the claim: a cycle that no source reaches is not reported (see the counterexample); its nodes
get the value `len(nodes) + 1`. -/
theorem C25_phase_lines_partial {g : Graph α V O} (hg : g.Built) {ord : Nat → List α → List α}
    (ho : ∀ t l, (ord t l).Perm l) :
    ∃ r, g.phaseLines ord = some r ∧
      (((¬ ∃ a, g.IsSource a) ∨ (∃ a x, g.IsSource a ∧ Reach g.Adj a x ∧ BehindCycle g.Adj x)) →
        r = .error .attributeError) ∧
      ((∃ a, g.IsSource a) → (∀ a x, g.IsSource a → Reach g.Adj a x → ¬ BehindCycle g.Adj x) →
        ∃ ph, r = .ok ph ∧ (∀ x, x ∈ ph.keys ↔ g.has x = true) ∧
          (∀ x, g.has x = true → ¬ BehindCycle g.Adj x → ∃ n, ph.get? x = some n ∧
            (∃ a, Steps g.Adj n a x) ∧ ∀ m a, Steps g.Adj m a x → m ≤ n) ∧
          (∀ x, g.has x = true → BehindCycle g.Adj x → ph.get? x = some (g.nodeList.length + 1))) :=
  phaseLines_spec hg.inv ho

/-- a cycle `1 → 2 → 1` beside the edge `3 → 4` -/
def hiddenCycle : Graph Nat Nat Nat := run [E 1 2 1, E 2 1 1, E 3 4 1]

/-- **C25** violated: the graph has a cycle, but `phase_lines` returns normally. -/
theorem C25_hidden_cycle_counterexample : hiddenCycle.Built ∧ ¬ Acyclic hiddenCycle.Adj ∧
    ∃ ph, hiddenCycle.phaseLines (fun _ l => l) = some (.ok ph) ∧ ph.items = [(1, 5), (2, 5), (3, 0), (4, 1)] := by
  refine ⟨⟨_, rfl⟩, fun h => h 1 ⟨1, ?_⟩, ?_⟩
  · exact .succ (.succ (.zero 1) (b := 1) (c := 2) (by unfold Adj; decide)) (by unfold Adj; decide)
  · have : (runFuel (phaseStep (fun _ l => l)) 20 (⟨hiddenCycle.copy, hiddenCycle.copy.nodesInDeg 0,
        phaseInit hiddenCycle.nodeList, 0⟩ : PhaseSt Nat Nat Nat)) =
        some (.ok ⟨[(1, 5), (2, 5), (3, 0), (4, 1)]⟩) := by decide +kernel
    refine ⟨_, ?_, rfl⟩
    unfold phaseLines
    simp only [show ¬ hiddenCycle.copy.nodesInDeg 0 = [] by decide +kernel, if_false]
    exact pyWhile_of_runFuel this

/-- **C25**: on the empty graph `phase_lines` raises `AttributeError`. -/
theorem C25_empty_graph (ord : Nat → List α → List α) :
    (empty : Graph α V O).phaseLines ord = some (.error .attributeError) := by
  unfold phaseLines
  rw [if_pos (by rfl)]

/-- the hypotheses of the DAG theorem are met by the diamond, those of the error case by `sampleG` -/
example : diamond.Built ∧ Acyclic diamond.Adj ∧ diamond.has 1 = true ∧
    (∃ a x, (run [E 0 1 1, E 1 2 1, E 2 1 1] : Graph Nat Nat Nat).IsSource a ∧
      Reach (run [E 0 1 1, E 1 2 1, E 2 1 1] : Graph Nat Nat Nat).Adj a x ∧
      BehindCycle (run [E 0 1 1, E 1 2 1, E 2 1 1] : Graph Nat Nat Nat).Adj x) := by
  refine ⟨⟨_, rfl⟩, diamond_acyclic, by decide, 0, 1, ⟨by decide, ?_⟩, Reach.single (by unfold Adj; decide), 1,
    ⟨1, ?_⟩, .refl _⟩
  · intro a ha
    obtain ⟨v, hv⟩ := Option.isSome_iff_exists.1 ha
    have := (Built.inv ⟨_, rfl⟩ : (run [E 0 1 1, E 1 2 1, E 2 1 1] : Graph Nat Nat Nat).Inv).mem_edgeList.2 hv
    rw [show (run [E 0 1 1, E 1 2 1, E 2 1 1] : Graph Nat Nat Nat).edgeList = [(0, 1, 1), (1, 2, 1), (2, 1, 1)] by decide] at this
    simp at this
  · exact .succ (.succ (.zero 1) (b := 1) (c := 2) (by unfold Adj; decide)) (by unfold Adj; decide)

/-! ### C26 -/

/-- **C26**. On a DAG whose node objects are non-negative numbers, `critical_path(g)` returns `(cpl, d)`:
* `d` has one task per node, carrying the node's duration;
* `earliest_start` is the largest total duration of a chain of tasks that must precede the task, and
  `cpl - latest_finish` the largest total duration of a chain that must follow it;
* `cpl` is the largest total duration of any chain;
* finish = start + duration in both schedules, and both respect every dependency;
* the earliest schedule starts every task no later, and the latest schedule no earlier, than any feasible
  schedule that is as short as possible; no feasible schedule is shorter than `cpl`;
* `slack` is never negative, and zero for some task unless the graph is empty. -/
theorem C26_critical_path {g : Graph α V O} (hg : g.Built) (hA : Acyclic g.Adj) {srt : List α → List α}
    (hs : ∀ l, (srt l).Perm l) {num : O → Option Rat} {dur : α → Rat}
    (hdur : ∀ x, g.has x = true → (g.node x).bind num = some (dur x)) (hpos : ∀ x, g.has x = true → 0 ≤ dur x) :
    ∃ cpl d, g.criticalPath num srt = some (.ok (cpl, d)) ∧ (∀ x, x ∈ d.keys ↔ g.has x = true) ∧
      (∀ x t, d.get? x = some t →
        t.duration = dur x ∧
        LongestDur dur (fun p => Consec g.Adj (p ++ [x])) t.earliestStart ∧
        t.earliestFinish = t.earliestStart + dur x ∧
        LongestDur dur (fun p => Consec g.Adj (x :: p)) (cpl - t.latestFinish) ∧
        t.latestStart = t.latestFinish - dur x ∧
        t.slack = t.latestFinish - t.earliestFinish ∧ 0 ≤ t.slack) ∧
      LongestDur dur (fun p => Consec g.Adj p ∧ ∀ x ∈ p, g.has x = true) cpl ∧
      (∀ a b ta tb, g.Adj a b → d.get? a = some ta → d.get? b = some tb →
        ta.earliestFinish ≤ tb.earliestStart ∧ ta.latestFinish ≤ tb.latestStart) ∧
      ((∃ x, g.has x = true) → ∃ x t, d.get? x = some t ∧ t.slack = 0) ∧
      (∀ start, FeasibleSchedule (fun x => g.has x = true) g.Adj dur start →
        (∀ x t, d.get? x = some t → t.earliestStart ≤ start x) ∧
        (∀ T, 0 ≤ T → (∀ x, g.has x = true → start x + dur x ≤ T) → cpl ≤ T) ∧
        ((∀ x, g.has x = true → start x + dur x ≤ cpl) →
          ∀ x t, d.get? x = some t → start x ≤ t.latestStart)) := by
  have h := hg.inv
  obtain ⟨cpl, d, h1, h2⟩ := (criticalPath_eqs h hs num hA).1 (fun x hx => by rw [hdur x hx]; rfl)
  have hde : ∀ x, g.has x = true → g.dur num x = dur x := fun x hx => by
    unfold Graph.dur; rw [hdur x hx]; rfl
  have hd : ∀ x, g.has x = true → 0 ≤ g.dur num x := fun x hx => by rw [hde x hx]; exact hpos x hx
  have hkey : ∀ x t, d.get? x = some t → g.has x = true := fun x t ht => (h2.keys x).1 (Dict.mem_keys_of_get? ht)
  have htot : ∀ p : List α, (∀ x ∈ p, g.has x = true) → totalDur (g.dur num) p = totalDur dur p := by
    intro p hp
    unfold totalDur
    congr 1
    exact List.map_congr_left (fun x hx => hde x (hp x hx))
  have hmem : ∀ p, Consec g.Adj p → (∃ x ∈ p, g.has x = true) → ∀ y ∈ p, g.has y = true := by
    intro p
    induction p with
    | nil => intro _ _ y hy; cases hy
    | cons a p ih =>
      intro hc ⟨x, hx, hx2⟩ y hy
      cases p with
      | nil =>
        simp only [List.mem_singleton] at hx hy
        subst hx; subst hy; exact hx2
      | cons b p =>
        have hab := h.finite a b hc.1
        rcases List.mem_cons.1 hy with rfl | hy
        · exact has_iff.2 hab.1
        · exact ih hc.2 ⟨b, by simp, has_iff.2 hab.2⟩ y hy
  refine ⟨cpl, d, h1, h2.keys, fun x t ht => ⟨?_, ?_, ?_, ?_, ?_, rfl, h2.slack_nonneg hA h ht⟩, ?_, ?_, ?_, ?_⟩
  · rw [← h2.dur_eq ht, hde x (hkey x t ht)]
  · have hm : ∀ p, Consec g.Adj (p ++ [x]) → totalDur (g.dur num) p = totalDur dur p := fun p hp =>
      htot p (fun y hy => hmem _ hp ⟨x, by simp, hkey x t ht⟩ y (by simp [hy]))
    constructor
    · obtain ⟨p, h3, h4⟩ := h2.es_att hA h x t ht
      exact ⟨p, h3, by rw [← hm p h3]; exact h4⟩
    · intro p hp; rw [← hm p hp]; exact h2.es_ub hA h hd p x t ht hp
  · rw [(h2.fwd x t ht).ef, ← h2.dur_eq ht, hde x (hkey x t ht)]
  · have hm : ∀ p, Consec g.Adj (x :: p) → totalDur (g.dur num) p = totalDur dur p := fun p hp =>
      htot p (fun y hy => hmem _ hp ⟨x, by simp, hkey x t ht⟩ y (by simp [hy]))
    constructor
    · obtain ⟨p, h3, h4⟩ := h2.lf_att hA h x t ht
      exact ⟨p, h3, by rw [← hm p h3]; exact h4⟩
    · intro p hp; rw [← hm p hp]; exact h2.lf_ub hA h hd p x t ht hp
  · rw [(h2.bwd x t ht).ls, ← h2.dur_eq ht, hde x (hkey x t ht)]
  · obtain ⟨⟨p, h3, h4⟩, h5⟩ := h2.cpl_longest hA h hd
    exact ⟨⟨p, h3, by rw [← htot p h3.2]; exact h4⟩, fun p hp => by rw [← htot p hp.2]; exact h5 p hp⟩
  · intro a b ta tb hab ha hb
    obtain ⟨ta', h3, h4⟩ := (h2.fwd b tb hb).ge a hab
    rw [ha] at h3; cases h3
    obtain ⟨tb', h5, h6⟩ := (h2.bwd a ta ha).le b hab
    rw [hb] at h5; cases h5
    exact ⟨h4, h6⟩
  · exact h2.zero_slack hA h hd
  · intro start hf
    have hf' : FeasibleSchedule (fun x => g.has x = true) g.Adj (g.dur num) start :=
      ⟨hf.nonneg, fun a b hab => by rw [hde a (has_iff.2 (h.finite a b hab).1)]; exact hf.prec a b hab⟩
    refine ⟨fun x t ht => h2.es_le_start hA h hf' ht, fun T h0 hT => ?_, fun hT x t ht => ?_⟩
    · exact h2.cpl_le_makespan hA h hf' h0 (fun x hx => by rw [hde x hx]; exact hT x hx)
    · exact h2.start_le_ls hA h hf' (fun x hx => by rw [hde x hx]; exact hT x hx) ht

/-- **C26** (errors). On a cyclic graph `critical_path` raises `AttributeError`; on a DAG with a node whose
object is not a number it raises `ValueError`; otherwise it returns. -/
theorem C26_errors {g : Graph α V O} (hg : g.Built) {srt : List α → List α}
    (hs : ∀ l, (srt l).Perm l) (num : O → Option Rat) :
    (¬ Acyclic g.Adj → g.criticalPath num srt = some (.error .attributeError)) ∧
    (Acyclic g.Adj → (∃ x, g.has x = true ∧ (g.node x).bind num = none) →
      g.criticalPath num srt = some (.error .valueError)) ∧
    (Acyclic g.Adj → (¬ ∃ x, g.has x = true ∧ (g.node x).bind num = none) →
      ∃ r, g.criticalPath num srt = some (.ok r)) := by
  have h := hg.inv
  refine ⟨fun hA => ?_, fun hA hx => ?_, fun hA hx => ?_⟩
  · unfold criticalPath; rw [(topoList_spec h hs).2 hA]
  · refine (criticalPath_eqs h hs num hA).2 (fun hall => ?_)
    obtain ⟨x, hx, hn⟩ := hx
    have := hall x hx
    rw [hn] at this; cases this
  · obtain ⟨cpl, d, h1, _⟩ := (criticalPath_eqs h hs num hA).1 (fun x hx' => by
      rw [Option.isSome_iff_ne_none]; intro hn; exact hx ⟨x, hx', hn⟩)
    exact ⟨_, h1⟩

/-- the operation that adds a task with its duration -/
def T (n d : Nat) : Op Nat Nat Nat := .addNode n (some d)

def natNum (o : Nat) : Option Rat := some (o : Rat)

/-- the project of the docstring (critical_path.py:80-97) with tasks A..H numbered 1..8 -/
def project : Graph Nat Nat Nat := run [T 1 10, T 2 20, T 3 5, T 4 10, T 5 20, T 6 15, T 7 5, T 8 15,
  E 1 2 0, E 2 3 0, E 3 4 0, E 4 5 0, E 1 6 0, E 6 7 0, E 7 5 0, E 1 8 0, E 8 5 0]

/-- a rank for the project -/
def projectRank (n : Nat) : Nat := match n with
  | 1 => 0 | 2 => 1 | 3 => 2 | 4 => 3 | 5 => 4 | 6 => 1 | 7 => 2 | _ => 1

theorem acyclic_of_edgeList {g : Graph α V O} (hg : g.Built) (f : α → Nat)
    (h : (g.edgeList.all (fun e => decide (f e.1 < f e.2.1))) = true) : Acyclic g.Adj := by
  apply acyclic_of_rank f
  intro a b hab
  obtain ⟨v, hv⟩ := Option.isSome_iff_exists.1 hab
  have := hg.inv.mem_edgeList.2 hv
  simpa using (List.all_eq_true.1 h) _ this

theorem numeric_of_nodeList {g : Graph α V O} {num : O → Option Rat} {dur : α → Rat}
    (h : (g.nodeList.all (fun x => decide ((g.node x).bind num = some (dur x)) && decide (0 ≤ dur x))) = true) :
    (∀ x, g.has x = true → (g.node x).bind num = some (dur x)) ∧ (∀ x, g.has x = true → 0 ≤ dur x) := by
  have := List.all_eq_true.1 h
  constructor <;> intro x hx <;> have := this x (has_iff.1 hx) <;> simp at this
  · exact this.1
  · exact this.2

/-- the docstring's project meets the hypotheses of **C26** -/
example : project.Built ∧ Acyclic project.Adj ∧
    (∀ x, project.has x = true → (project.node x).bind natNum = some (project.dur natNum x)) ∧
    (∀ x, project.has x = true → 0 ≤ project.dur natNum x) ∧
    (∃ d, project.criticalPath natNum natSrt = some (.ok (65, d)) ∧ (d.get? 8).map Task.slack = some 20) := by
  have hb : project.Built := ⟨_, rfl⟩
  have hA := acyclic_of_edgeList hb projectRank (by decide +kernel)
  obtain ⟨h1, h2⟩ := numeric_of_nodeList (g := project) (num := natNum) (dur := project.dur natNum) (by decide +kernel)
  refine ⟨hb, hA, h1, h2, ?_⟩
  have h3 : (match cpFuel 20 natNum natSrt project with
    | some (.ok (c, d)) => decide (c = 65) && decide ((d.get? 8).map Task.slack = some 20)
    | _ => false) = true := by decide +kernel
  split at h3
  · rename_i c d h4
    simp at h3
    obtain ⟨rfl, h3⟩ := h3
    exact ⟨d, cpFuel_sound h4, by simpa using h3⟩
  · cases h3

/-! ### C27 -/

/-- **C27** (partial). On a non-empty DAG with numeric durations `critical_path_minimize_for_slack(g)`
always ends; if it returns a graph, that graph has the same nodes and objects, all edges of `g` with their
values, otherwise only edges with the default value, is acyclic, has the same critical path length and no
larger total slack.
Missing from the claim: it may instead raise `AttributeError` (see the counterexample). -/
theorem C27_minimize_for_slack_partial {g : Graph α V O} (hg : g.Built) (hA : Acyclic g.Adj)
    (hne : ∃ x, g.has x = true) {srt : List α → List α} (hs : ∀ l, (srt l).Perm l)
    {ord : Nat → List α → List α} (ho : ∀ t l, (ord t l).Perm l)
    {bySlack byDur : List (α × Task) → List (α × Task)} (hp1 : ∀ l, (bySlack l).Perm l)
    (hp2 : ∀ l, (byDur l).Perm l) {num : O → Option Rat}
    (hnum : ∀ x, g.has x = true → ((g.node x).bind num).isSome) (one : V) :
    ∃ r, g.minimizeSlack (realCP num srt) one ord bySlack byDur = some r ∧
      (r = .error .attributeError ∨
       ∃ ng cpl d d', r = .ok ng ∧
        (∀ x, ng.has x = g.has x ∧ ng.node x = g.node x) ∧
        (∀ a b v, g.edge a b = some v → ng.edge a b = some v) ∧
        (∀ a b v, ng.edge a b = some v → g.edge a b = some v ∨ v = one) ∧
        Acyclic ng.Adj ∧
        g.criticalPath num srt = some (.ok (cpl, d)) ∧ ng.criticalPath num srt = some (.ok (cpl, d')) ∧
        (d'.items.map (fun p => p.2.slack)).sum ≤ (d.items.map (fun p => p.2.slack)).sum) := by
  have h := hg.inv
  obtain ⟨cpl, s0, r, h1, h2, h3⟩ := minimizeSlack_spec h hA hne hs ho hp1 hp2 hnum one
  refine ⟨r, h2, ?_⟩
  rcases h3 with h3 | ⟨ng, s1, rfl, h4, h5⟩
  · exact .inl h3
  · refine .inr ?_
    have hx : ∀ x, ng.has x = g.has x ∧ ng.node x = g.node x := fun x => by
      unfold Graph.has Graph.node Dict.contains; rw [h4.nodes]; exact ⟨rfl, rfl⟩
    obtain ⟨c1, d, e1, e2⟩ := (criticalPath_eqs h hs num hA).1 hnum
    obtain ⟨c2, d', e3, e4⟩ := (criticalPath_eqs h4.inv hs num h4.acyc).1
      (fun x hx' => by rw [(hx x).2]; exact hnum x (by rw [← (hx x).1]; exact hx'))
    obtain ⟨f1, f2⟩ := HasCP.unique h hA h1 ⟨d, e2, rfl⟩
    obtain ⟨f3, f4⟩ := HasCP.unique h4.inv h4.acyc h4.cp ⟨d', e4, rfl⟩
    rw [← f1] at e1
    rw [← f3] at e3
    refine ⟨ng, cpl, d, d', rfl, hx, h4.keep, h4.new, h4.acyc, e1, e3, ?_⟩
    rw [f2, f4] at h5
    exact h5

def bySlackDesc : List (Nat × Task) → List (Nat × Task) := pySort (fun a b => decide (b.2.slack < a.2.slack))
def byDurDesc : List (Nat × Task) → List (Nat × Task) := pySort (fun a b => decide (b.2.duration < a.2.duration))

/-- a project of eight tasks: `0 → 1`, `2 → 3`, `2 → 4 → 5`, `2 → 6`, `0 → 7` -/
def slackTrap : Graph Nat Nat Nat := run [T 0 50, T 1 50, T 2 1, T 3 99, T 4 5, T 5 80, T 6 4, T 7 1,
  E 0 1 1, E 2 3 1, E 2 4 1, E 4 5 1, E 2 6 1, E 0 7 1]

/-- **C27** violated: the heuristic inserts `4 → 6` and `6 → 7`, then tries `7 → 4`, which closes a cycle
over two inserted edges, and the call ends with `AttributeError`. -/
theorem C27_attribute_error_counterexample : slackTrap.Built ∧ Acyclic slackTrap.Adj ∧
    (∀ x, slackTrap.has x = true → ((slackTrap.node x).bind natNum).isSome) ∧
    slackTrap.minimizeSlack (realCP natNum natSrt) 1 (fun _ l => l) bySlackDesc byDurDesc =
      some (.error .attributeError) := by
  have hb : slackTrap.Built := ⟨_, rfl⟩
  refine ⟨hb, acyclic_of_edgeList hb (fun x => if x = 0 ∨ x = 2 then 0 else if x = 5 then 2 else 1) (by decide +kernel),
    fun x hx => ?_, ?_⟩
  · have := (numeric_of_nodeList (g := slackTrap) (num := natNum) (dur := slackTrap.dur natNum) (by decide +kernel)).1 x hx
    rw [this]; rfl
  · apply minFuel_sound (n := 20)
    decide +kernel

/-- the docstring's project meets the hypotheses of **C27**, and there the call succeeds with an added edge -/
example : (∃ x, project.has x = true) ∧
    (∀ l, (bySlackDesc l).Perm l) ∧ (∀ l, (byDurDesc l).Perm l) ∧
    (∀ x, project.has x = true → ((project.node x).bind natNum).isSome) ∧
    ∃ ng, project.minimizeSlack (realCP natNum natSrt) 0 (fun _ l => l) bySlackDesc byDurDesc = some (.ok ng) ∧
      ng.edge 8 6 = some 0 := by
  refine ⟨⟨1, by decide +kernel⟩, pySort_perm _, pySort_perm _, fun x hx => ?_, ?_⟩
  · have := (numeric_of_nodeList (g := project) (num := natNum) (dur := project.dur natNum) (by decide +kernel)).1 x hx
    rw [this]; rfl
  · have h3 : (match minFuel 20 natNum natSrt 0 (fun _ l => l) bySlackDesc byDurDesc project with
      | some (.ok ng) => decide (ng.edge 8 6 = some 0)
      | _ => false) = true := by decide +kernel
    split at h3
    · rename_i ng h4
      exact ⟨ng, minFuel_sound h4, by simpa using h3⟩
    · cases h3

end GT

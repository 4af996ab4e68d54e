import Verif.Props.Tsp
import Verif.Other.Rail
/-
Property theorems C56, C58: rail scheduling (graph/transshipment_problem.py).

`route start jobs` (Spec/Rail): the places visited when the jobs are performed in that order.
`SumLegs w p d` (Spec/Dist): `d` is the sum of the legs of `p`, a leg being the edge or the shortest detour.
-/
namespace GT
open Graph
variable {α V O : Type} [DecidableEq α]

/-! ### C56 -/

/-- **C56**, `schedule`, when the start and the jobs' ends are in the network and at least one order of the jobs can be travelled: it
terminates and returns the jobs, each exactly as often as given; if no edge is longer than a detour, no order of the jobs is travelled
in a shorter distance.
The full claim also covers jobs that cannot be travelled: `schedule` then never returns (`C56_impossible_jobs_loop`); and
`find_perfect_circuit` (`C56_perfect_circuit_never_found`). -/
theorem C56_schedule_partial {g : Graph α Rat O} (hg : g.Built) (hw : NonNeg g.edge) (start : α) (jobs : List (α × α))
    (hs : g.has start = true) (hj : ∀ j ∈ jobs, g.has j.1 = true ∧ g.has j.2 = true)
    (hfin : ∃ order q, order.Perm jobs ∧ SumLegs g.edge (route start order) (.fin q)) :
    ∃ r, railSchedule g start jobs = some (.ok r) ∧ r.Perm jobs ∧
      (EdgesShortest g.edge → ∃ d, SumLegs g.edge (route start r) (.fin d) ∧
        ∀ order e, order.Perm jobs → SumLegs g.edge (route start order) e → (Ext.fin d).le e) := by
  obtain ⟨r, best, d, h1, h2, h3, h4, h5, m, l, h6, h7, h8⟩ := railSchedule_spec hg.inv hw hs hj hfin
  refine ⟨r, h1, h2, fun hes => ?_⟩
  have hhas : ∀ (p : List (α × α)), p.Perm jobs → ∀ x ∈ route start p, g.has x = true := by
    intro p hp x hx
    rcases mem_route hx with rfl | ⟨j, hjp, rfl | rfl⟩
    · exact hs
    · exact (hj j (hp.mem_iff.1 hjp)).1
    · exact (hj j (hp.mem_iff.1 hjp)).2
  obtain ⟨y, hy⟩ := sumLegs_exists hg.inv hw (hhas r h2)
  have hle : y.le (.fin d) := by
    rw [h7] at hy
    rw [h6] at h4
    exact SumLegs.sublist hg.inv hw hes h8 start _ _ (by rw [← h6]; exact hhas best h3) h4 hy
  cases y with
  | inf => exact hle.elim
  | fin y => exact ⟨y, hy, fun p e hp he => Ext.le_trans hle (h5 p e hp he)⟩

theorem edgesShortest_unit {w : α → α → Option Rat} (h : ∀ a b c, w a b = some c → c = 1 ∧ a ≠ b) : EdgesShortest w := by
  intro a b c hc p d hp
  obtain ⟨rfl, hne⟩ := h _ _ _ hc
  rcases hp.inv with ⟨_, h2, _⟩ | ⟨x, q, c', d', _, h2, h3, h4⟩
  · exact absurd h2 hne
  · have := (h _ _ _ h2).1
    have := h3.nonneg (fun a b c hc => by rw [(h a b c hc).1]; grind)
    grind

/-- the network `A, B, C` of the docstring of `path_from_schedule`: unit tracks between all places -/
def abcG : Graph Nat Rat Nat := matG 3 (fun _ _ => 1)

theorem abcG_unit : ∀ a b c, abcG.edge a b = some c → c = 1 ∧ a ≠ b := by
  intro a b c h
  have hl : (abcG.edgeList.all (fun e => decide (e.2.2 = 1 ∧ e.1 ≠ e.2.1))) = true := by decide +kernel
  have hb : abcG.Built := ⟨_, rfl⟩
  simpa using List.all_eq_true.1 hl (a, b, c) (hb.inv.mem_edgeList.2 h)

theorem railSchedule_eval {g : Graph α Rat O} {start : α} {jobs : List (α × α)} {sp : List α} (hne : jobs ≠ [])
    (h1 : permLoop g start (perms jobs) .inf [] = some (.ok sp)) (h2 : ((jobsFromPath sp).foldl planJobs (jobs, [])).1 = []) :
    railSchedule g start jobs = some (.ok ((jobsFromPath sp).foldl planJobs (jobs, [])).2) := by
  unfold railSchedule
  rw [pyWhileD_eq]
  have : schedStep g start (jobs, []) = some (.inl ((jobsFromPath sp).foldl planJobs (jobs, []))) := by
    unfold schedStep
    rw [if_neg hne, findPerfectCircuit_eq]
    dsimp only
    rw [if_neg (by simp), h1]
  rw [this]
  dsimp only
  rw [pyWhileD_eq]
  unfold schedStep
  rw [if_pos h2]

/-- the hypotheses are met by the docstring's example: the trips `A→B, A→C, B→A, C→A`; the schedule takes 4 legs -/
example : abcG.Built ∧ NonNeg abcG.edge ∧ EdgesShortest abcG.edge ∧ abcG.has 0 = true ∧
    (∃ order q, order.Perm [(0, 1), (0, 2), (1, 0), (2, 0)] ∧ SumLegs abcG.edge (route 0 order) (.fin q)) ∧
    railSchedule abcG 0 [(0, 1), (0, 2), (1, 0), (2, 0)] = some (.ok [(0, 1), (1, 0), (0, 2), (2, 0)]) := by
  refine ⟨⟨_, rfl⟩, fun a b c h => by rw [(abcG_unit a b c h).1]; grind, edgesShortest_unit abcG_unit, by decide +kernel, ?_, ?_⟩
  · refine ⟨[(0, 1), (1, 0), (0, 2), (2, 0)], 4, ?_, SumLegs.of_walkCost (by decide +kernel)⟩
    decide +kernel
  · rw [railSchedule_eval (sp := [0, 1, 0, 2, 0]) (by simp) (by decide +kernel) (by decide +kernel)]
    decide +kernel

/-- **C56** is violated for jobs that cannot be performed: if no order of the (one or more) jobs can be travelled, `schedule` never
returns. -/
theorem C56_impossible_jobs_loop {g : Graph α Rat O} (hg : g.Built) (hw : NonNeg g.edge) (start : α) (jobs : List (α × α))
    (hs : g.has start = true) (hj : ∀ j ∈ jobs, g.has j.1 = true ∧ g.has j.2 = true) (hne : jobs ≠ [])
    (hinf : ∀ order, order.Perm jobs → SumLegs g.edge (route start order) .inf) : railSchedule g start jobs = none :=
  railSchedule_diverges hg.inv hw hs hj hne hinf

/-- a concrete case: the track `1 → 2` and the job `2 → 1` -/
theorem C56_loops_counterexample : ∃ g : Graph Nat Rat Nat, g.Built ∧ NonNeg g.edge ∧ g.has 1 = true ∧ g.has 2 = true ∧
    railSchedule g 1 [(2, 1)] = none := by
  have hb : (run [W 1 2 1] : Graph Nat Rat Nat).Built := ⟨_, rfl⟩
  have hw : NonNeg (run [W 1 2 1] : Graph Nat Rat Nat).edge := nonneg_of_edgeList hb (by decide +kernel)
  have h1 : (run [W 1 2 1] : Graph Nat Rat Nat).has 1 = true := by decide +kernel
  have h2 : (run [W 1 2 1] : Graph Nat Rat Nat).has 2 = true := by decide +kernel
  refine ⟨_, hb, hw, h1, h2, ?_⟩
  refine C56_impossible_jobs_loop hb hw 1 _ h1 (by simp [h1, h2]) (by simp) ?_
  intro order ho
  have : order = [(2, 1)] := List.perm_singleton.1 ho
  subst this
  have hne : ∀ b, (run [W 1 2 1] : Graph Nat Rat Nat).edge 2 b = none := by
    intro b
    cases h : (run [W 1 2 1] : Graph Nat Rat Nat).edge 2 b with
    | none => rfl
    | some c =>
      have hl : ((run [W 1 2 1] : Graph Nat Rat Nat).edgeList.all (fun e => decide (e.1 ≠ 2))) = true := by decide +kernel
      have := List.all_eq_true.1 hl (2, b, c) (hb.inv.mem_edgeList.2 h)
      simp at this
  have hleg : LegDist (run [W 1 2 1] : Graph Nat Rat Nat).edge 2 1 .inf := by
    refine .inr ⟨hne 1, ?_⟩
    rintro ⟨p, c, hp⟩
    rcases hp.inv with ⟨_, h2, _⟩ | ⟨x, q, c', d', _, h3, _, _⟩
    · exact absurd h2 (by decide)
    · rw [hne] at h3; cases h3
  exact ⟨.fin 1, .inf, .inl ⟨1, by decide +kernel, rfl⟩, ⟨.inf, .fin 0, hleg, rfl, rfl⟩, rfl⟩

/-- **C56** is violated by `find_perfect_circuit`: it returns `[]` for every network, start and job list, whether or not there is a
perfect circuit (the internal graph stays empty because `g.edge(A, B)` never raises `KeyError`) -/
theorem C56_perfect_circuit_never_found (graph : Graph α Rat O) (start : α) (jobs : List (α × α)) :
    findPerfectCircuit graph start jobs = some (.ok []) := findPerfectCircuit_eq graph start jobs

/-- a concrete case: the jobs `0 → 1`, `1 → 0` form a perfect circuit -/
theorem C56_circuit_counterexample : ∃ (g : Graph Nat Rat Nat) (start : Nat) (jobs : List (Nat × Nat)) (c : List Nat), g.Built ∧
    PerfectCircuit start jobs c ∧ findPerfectCircuit g start jobs = some (.ok []) :=
  ⟨abcG, 0, [(0, 1), (1, 0)], [0, 1, 0], ⟨_, rfl⟩, ⟨by decide, ⟨by simp [Consec], rfl, rfl⟩⟩, findPerfectCircuit_eq _ _ _⟩

/-! ### C58 -/

/-- **C58**, one job of `find`: unknown ends raise `ValueError`; otherwise there is a shortest path `p` from the job's start to its end
(`[]` if there is none), and the result depends on the accessible part `s` of `p`: `IndexError` if it is empty, `ValueError` if it is not
a path of the network, otherwise the sub-job goes from the first to the last node of `s`. -/
theorem C58_find_job {g : Graph α Rat O} (hg : g.Built) (hw : NonNeg g.edge) (stops : List α) (a b : α) :
    ((g.has a = false ∨ g.has b = false) → findJob g stops (a, b) = some (.error .valueError)) ∧
    (g.has a = true → g.has b = true → ∃ d p, SpResult g.edge [] a b (d, p) ∧
      (p.filter (fun x => decide (x ∈ stops)) = [] → findJob g stops (a, b) = some (.error .indexError)) ∧
      (¬ Consec (fun x y => (g.edge x y).isSome) (p.filter (fun x => decide (x ∈ stops))) →
        findJob g stops (a, b) = some (.error .valueError)) ∧
      (∀ x y, (p.filter (fun x => decide (x ∈ stops))).head? = some x → (p.filter (fun x => decide (x ∈ stops))).getLast? = some y →
        Consec (fun x y => (g.edge x y).isSome) (p.filter (fun x => decide (x ∈ stops))) →
        findJob g stops (a, b) = some (.ok (x, y)))) := by
  refine ⟨?_, ?_⟩
  · intro h
    unfold findJob
    cases ha : g.has a with
    | false => simp [ha]
    | true =>
      rcases h with h | h
      · rw [ha] at h; cases h
      · simp [ha, h]
  · intro ha hb
    obtain ⟨⟨d, p⟩, h1, h2⟩ := shortestPath_spec hg.inv hw (start := a) (fin := b) [] ha hb
    refine ⟨d, p, h2, ?_⟩
    unfold findJob
    simp only [ha, hb, Bool.not_true, Bool.false_eq_true, if_false, h1]
    generalize p.filter (fun x => decide (x ∈ stops)) = s
    cases s with
    | nil => exact ⟨fun _ => rfl, fun h => absurd trivial h, (fun x y h => nomatch h)⟩
    | cons v l =>
      refine ⟨(fun h => nomatch h), ?_, ?_⟩
      · intro h
        simp only [hasPath]
        cases hgo : hasPath.go g v l with
        | true => exact absurd ((hasPath_go g v l).1 hgo) h
        | false => rfl
      · intro x y hx hy hc
        simp only [hasPath]
        rw [(hasPath_go g v l).2 hc]
        dsimp only
        rw [hx, hy]

/-- **C58**: `find` works job by job, in order -/
theorem C58_find_each (g : Graph α Rat O) (stops : List α) (jobs r : List (α × α)) :
    findJobs g stops jobs = some (.ok r) ↔ r.length = jobs.length ∧
      ∀ (i : Nat) j s, jobs[i]? = some j → r[i]? = some s → findJob g stops j = some (.ok s) := by
  induction jobs generalizing r with
  | nil =>
    simp only [findJobs, Option.some.injEq, Except.ok.injEq, List.length_nil]
    constructor
    · rintro rfl; simp
    · rintro ⟨h, _⟩; exact (List.eq_nil_of_length_eq_zero h).symm
  | cons j l ih =>
    unfold findJobs
    constructor
    · intro h
      split at h
      · cases h
      · cases h
      · rename_i sj h1
        split at h
        · cases h
        · cases h
        · rename_i r' h2
          simp only [Option.some.injEq, Except.ok.injEq] at h
          subst h
          obtain ⟨h3, h4⟩ := (ih r').1 h2
          refine ⟨by simp [h3], ?_⟩
          intro i j' s hj hs
          cases i with
          | zero => simp at hj hs; subst hj hs; exact h1
          | succ i => exact h4 i j' s (by simpa using hj) (by simpa using hs)
    · rintro ⟨h, h2⟩
      cases r with
      | nil => simp at h
      | cons s r =>
        rw [h2 0 j s rfl rfl]
        dsimp only
        rw [(ih r).2 ⟨by simpa using h, fun i j' s' hj hs => h2 (i + 1) j' s' (by simpa using hj) (by simpa using hs)⟩]

theorem findJob_has {g : Graph α Rat O} (hg : g.Built) (hw : NonNeg g.edge) {stops : List α} {j s : α × α}
    (h : findJob g stops j = some (.ok s)) : g.has s.1 = true ∧ g.has s.2 = true := by
  unfold findJob at h
  by_cases ha : g.has j.1 = true
  · by_cases hb : g.has j.2 = true
    · obtain ⟨⟨d, p⟩, h1, h2⟩ := shortestPath_spec hg.inv hw (start := j.1) (fin := j.2) [] ha hb
      simp only [ha, hb, Bool.not_true, Bool.false_eq_true, if_false, h1] at h
      have hp : ∀ x ∈ p, g.has x = true := by
        rcases h2 with ⟨c, _, h3, _⟩ | ⟨h3, _⟩
        · exact walk_has hg.inv h3.1 ha
        · simp only [Prod.mk.injEq] at h3; rw [h3.2]; simp
      split at h
      · cases h
      · cases h
      · split at h
        · rename_i x y h3 h4
          simp only [Option.some.injEq, Except.ok.injEq] at h
          subst h
          exact ⟨hp x (List.mem_filter.1 (List.mem_of_mem_head? h3)).1, hp y (List.mem_filter.1 (List.mem_of_mem_getLast? h4)).1⟩
        · cases h
    · simp [ha, hb] at h
  · simp [ha] at h

/-- **C58**: a scheduled train serves exactly the accessible sections of the jobs, and only its schedule changes -/
theorem C58_train_schedule {t t' : Train α O} {jobs sub r : List (α × α)} (hg : t.net.Built) (hw : NonNeg t.net.edge)
    (hs : t.net.has t.location = true) (hsub : findJobs t.net t.access jobs = some (.ok sub))
    (h : t.schedule jobs = some (.ok (t', r))) : r.Perm sub ∧ t' = { t with plan := r } := by
  have hj : ∀ j ∈ sub, t.net.has j.1 = true ∧ t.net.has j.2 = true := by
    obtain ⟨hl, hi⟩ := (C58_find_each t.net t.access jobs sub).1 hsub
    intro j hj
    obtain ⟨i, hi2, hi3⟩ := List.getElem_of_mem hj
    have hi4 : i < jobs.length := by omega
    exact findJob_has hg hw (hi i jobs[i] j (by simp) (by rw [← hi3]; simp))
  unfold Train.schedule at h
  rw [hsub] at h
  dsimp only at h
  by_cases hfin : ∃ p q, p.Perm sub ∧ SumLegs t.net.edge (route t.location p) (.fin q)
  · obtain ⟨r', h1, h2, _⟩ := C56_schedule_partial hg hw t.location sub hs hj hfin
    rw [h1] at h
    simp only [Option.some.injEq, Except.ok.injEq, Prod.mk.injEq] at h
    obtain ⟨rfl, rfl⟩ := h
    exact ⟨h2, rfl⟩
  · exfalso
    have hhas : ∀ (p : List (α × α)), p.Perm sub → ∀ x ∈ route t.location p, t.net.has x = true := by
      intro p hp x hx
      rcases mem_route hx with rfl | ⟨j, hjp, rfl | rfl⟩
      · exact hs
      · exact (hj j (hp.mem_iff.1 hjp)).1
      · exact (hj j (hp.mem_iff.1 hjp)).2
    rw [railSchedule_diverges hg.inv hw hs hj (by
      rintro rfl; exact hfin ⟨[], 0, .refl _, rfl⟩) (by
      intro p hp
      obtain ⟨y, hy⟩ := sumLegs_exists hg.inv hw (hhas p hp)
      cases y with
      | inf => exact hy
      | fin y => exact absurd ⟨p, y, hp, hy⟩ hfin)] at h
    cases h

/-- **C58**: `schedule_rail_system` schedules train by train, in order: it ends normally iff every train can be scheduled, and then every
train has its own plan; the trains are planned independently, so every train serves its sections of all jobs. -/
theorem C58_rail_system (jobs : List (α × α)) (trains after : List (Train α O)) :
    scheduleRailSystem jobs trains = some (after, .ok ()) ↔ after.length = trains.length ∧
      ∀ (i : Nat) t t', trains[i]? = some t → after[i]? = some t' → ∃ r, t.schedule jobs = some (.ok (t', r)) := by
  induction trains generalizing after with
  | nil =>
    simp only [scheduleRailSystem, Option.some.injEq, Prod.mk.injEq, and_true, List.length_nil]
    constructor
    · rintro rfl; simp
    · rintro ⟨h, _⟩; exact (List.eq_nil_of_length_eq_zero h).symm
  | cons t l ih =>
    unfold scheduleRailSystem
    constructor
    · intro h
      split at h
      · cases h
      · cases h
      · rename_i t' r h1
        split at h
        · cases h
        · rename_i r' e h2
          simp only [Option.some.injEq, Prod.mk.injEq] at h
          obtain ⟨rfl, rfl⟩ := h
          obtain ⟨h3, h4⟩ := (ih r').1 h2
          refine ⟨by simp [h3], ?_⟩
          intro i x y hx hy
          cases i with
          | zero => simp at hx hy; subst hx hy; exact ⟨r, h1⟩
          | succ i => exact h4 i x y (by simpa using hx) (by simpa using hy)
    · rintro ⟨h, h2⟩
      cases after with
      | nil => simp at h
      | cons t' r =>
        obtain ⟨p, hp⟩ := h2 0 t t' rfl rfl
        rw [hp]
        dsimp only
        rw [(ih r).2 ⟨by simpa using h, fun i x y hx hy => h2 (i + 1) x y (by simpa using hx) (by simpa using hy)⟩]

/-- **C58**: if it raises, the trains before the first one that cannot be scheduled have their new plans, that one and the later ones are unchanged. -/
theorem C58_rail_system_error (jobs : List (α × α)) (trains after : List (Train α O)) (e : Err) :
    scheduleRailSystem jobs trains = some (after, .error e) ↔
      ∃ done t rest done', trains = done ++ t :: rest ∧ after = done' ++ t :: rest ∧
        scheduleRailSystem jobs done = some (done', .ok ()) ∧ t.schedule jobs = some (.error e) := by
  induction trains generalizing after with
  | nil =>
    constructor
    · intro h; cases h
    · rintro ⟨d, t, r, d', h, _⟩; simp at h
  | cons t l ih =>
    conv => lhs; unfold scheduleRailSystem
    constructor
    · intro h
      split at h
      · cases h
      · rename_i e' h1
        simp only [Option.some.injEq, Prod.mk.injEq, Except.error.injEq] at h
        obtain ⟨rfl, rfl⟩ := h
        exact ⟨[], t, l, [], rfl, rfl, rfl, h1⟩
      · rename_i t' r h1
        split at h
        · cases h
        · rename_i r' e' h2
          simp only [Option.some.injEq, Prod.mk.injEq] at h
          obtain ⟨rfl, rfl⟩ := h
          obtain ⟨d, x, rest, d', h3, h4, h5, h6⟩ := (ih r').1 h2
          refine ⟨t :: d, x, rest, t' :: d', by rw [h3]; rfl, by rw [h4]; rfl, ?_, h6⟩
          unfold scheduleRailSystem
          rw [h1]; dsimp only; rw [h5]
    · rintro ⟨d, x, rest, d', h3, h4, h5, h6⟩
      cases d with
      | nil =>
        simp only [List.nil_append, List.cons.injEq] at h3
        obtain ⟨rfl, rfl⟩ := h3
        cases h5
        rw [h6, h4]; rfl
      | cons y d =>
        simp only [List.cons_append, List.cons.injEq] at h3
        obtain ⟨rfl, rfl⟩ := h3
        unfold scheduleRailSystem at h5
        split at h5
        · cases h5
        · cases h5
        · rename_i t' r h1
          split at h5
          · cases h5
          · rename_i r' e' h2
            simp only [Option.some.injEq, Prod.mk.injEq] at h5
            obtain ⟨rfl, rfl⟩ := h5
            rw [(ih (r' ++ x :: rest)).2 ⟨d, x, rest, r', rfl, rfl, h2, h6⟩, h4]; rfl

/-- two parallel tracks from 1 to 4, the train may use 2 and 3 only -/
def railG : Graph Nat Rat Nat := run [W 1 2 1, W 2 3 1, W 3 4 1, W 1 4 9]

theorem railG_findJob : findJob railG [2, 3] (1, 4) = some (.ok (2, 3)) := by
  have hsp : railG.shortestPath 1 4 = some (.ok (.fin 3, [1, 2, 3, 4])) := by
    unfold shortestPath
    rw [if_neg (by decide +kernel), if_neg (by decide +kernel), pyWhile_of_runFuel (n := 8) (r := (.fin 3, [1, 2, 3, 4])) (by decide +kernel)]
  unfold findJob
  simp only [show railG.has 1 = true by decide +kernel, show railG.has 4 = true by decide +kernel, Bool.not_true, Bool.false_eq_true, if_false, hsp]
  decide +kernel

/-- a train without access to the route of the job cannot be scheduled; the train before it is, the train after it is not -/
example (t : Train Nat Nat) (ht : (Train.mk railG 2 [2, 3] []).schedule [(1, 4)] = some (.ok (t, [(2, 3)]))) :
    scheduleRailSystem [(1, 4)] [Train.mk railG 2 [2, 3] [], Train.mk railG 2 [] [], Train.mk railG 2 [2, 3] []] =
      some ([t, Train.mk railG 2 [] [], Train.mk railG 2 [2, 3] []], .error .indexError) := by
  have hsp : railG.shortestPath 1 4 = some (.ok (.fin 3, [1, 2, 3, 4])) := by
    unfold shortestPath
    rw [if_neg (by decide +kernel), if_neg (by decide +kernel), pyWhile_of_runFuel (n := 8) (r := (.fin 3, [1, 2, 3, 4])) (by decide +kernel)]
  have hf : findJob railG [] (1, 4) = some (.error .indexError) := by
    unfold findJob
    simp only [show railG.has 1 = true by decide +kernel, show railG.has 4 = true by decide +kernel, Bool.not_true, Bool.false_eq_true, if_false, hsp]
    decide +kernel
  have hs : (Train.mk railG 2 [] []).schedule [(1, 4)] = some (.error .indexError) := by
    simp only [Train.schedule, findJobs, hf]
  simp only [scheduleRailSystem, ht, hs]

/-- the hypotheses are met: a train at 2 with access to 2 and 3; its part of the job `1 → 4` is `2 → 3` -/
example : railG.Built ∧ NonNeg railG.edge ∧ railG.has 2 = true ∧ newTrain railG 2 [2, 3] = .ok ⟨railG, 2, [2, 3], []⟩ ∧
    findJobs railG [2, 3] [(1, 4)] = some (.ok [(2, 3)]) ∧
    (Train.mk railG 2 [2, 3] []).schedule [(1, 4)] = some (.ok (⟨railG, 2, [2, 3], [(2, 3)]⟩, [(2, 3)])) ∧
    scheduleRailSystem [(1, 4)] [Train.mk railG 2 [2, 3] [], Train.mk railG 2 [2, 3] []] =
      some ([⟨railG, 2, [2, 3], [(2, 3)]⟩, ⟨railG, 2, [2, 3], [(2, 3)]⟩], .ok ()) := by
  have hf : findJobs railG [2, 3] [(1, 4)] = some (.ok [(2, 3)]) := by simp only [findJobs, railG_findJob]
  have hb : railG.Built := ⟨_, rfl⟩
  have hsch : (Train.mk railG 2 [2, 3] []).schedule [(1, 4)] = some (.ok (⟨railG, 2, [2, 3], [(2, 3)]⟩, [(2, 3)])) := by
    unfold Train.schedule
    dsimp only
    rw [hf]
    dsimp only
    rw [railSchedule_eval (sp := [2, 3]) (by simp) (by decide +kernel) (by decide +kernel)]
    rfl
  refine ⟨hb, nonneg_of_edgeList hb (by decide +kernel), by decide +kernel, ?_, hf, hsch, ?_⟩
  · unfold newTrain
    rw [if_neg (by decide +kernel), if_neg (by decide +kernel)]
  · simp only [scheduleRailSystem, hsch]

end GT

import Verif.Sp.Legs
import Verif.Sp.Apsp
import Verif.Search.Bfs
import Verif.Other.TspOpt
import Verif.Spec.Rail
/-
Model of graph/transshipment_problem.py: `find`, `schedule`, `jobs_from_path`, `path_from_schedule`,
`find_perfect_circuit` and `Train.schedule`, and proofs.
-/
namespace GT
open Graph
variable {α V O : Type} [DecidableEq α]

/-- `jobs_from_path` (transshipment_problem.py:202-204) -/
def jobsFromPath : List α → List (α × α)
  | a :: b :: l => (a, b) :: jobsFromPath (b :: l)
  | _ => []

/-- the body of the loop of `path_from_schedule` (transshipment_problem.py:216-219) -/
def pfsStep (path : List α) (j : α × α) : List α :=
  (if path.getLast? = some j.1 then path else path ++ [j.1]) ++ [j.2]

/-- `path_from_schedule` (transshipment_problem.py:207-220) -/
def pathFromSchedule (jobs : List (α × α)) (start : α) : List α := jobs.foldl pfsStep [start]

/-- the `try/except KeyError` of `find_perfect_circuit` (transshipment_problem.py:232-236).  `g.edge(A, B)` is
`edge(A, B, default=None)` (base.py:111-122): it returns `None` for a missing edge and never raises, which is the value
`.ok (g.edge A B)` here; the `except` branch (never taken, see `circuitGraph_eq`) is the `.error` branch; there an infinite
`d` would be stored as an edge value, which this model has no room for. -/
def circuitGraph (graph : Graph α Rat O) : List (α × α) → Graph α Rat O → Option (Py (Graph α Rat O))
  | [], g => some (.ok g)
  | (a, b) :: l, g =>
    match (Except.ok (g.edge a b) : Py (Option Rat)) with
    | .ok _ => circuitGraph graph l g
    | .error .keyError =>
      match graph.shortestPath a b with
      | none => none
      | some (.error e) => some (.error e)
      | some (.ok (.fin d, _)) => circuitGraph graph l (g.addEdge a b d)
      | some (.ok (.inf, _)) => some (.error .valueError)
    | .error e => some (.error e)

/-- the loop over `new_starts` (transshipment_problem.py:239-243) -/
def circuitLoop (g : Graph α Rat O) (start : α) : List α → Option (Py (List α))
  | [] => some (.ok [])
  | a :: l =>
    if g.has a then
      match g.breadthFirstSearch a start with
      | none => none
      | some (.error e) => some (.error e)
      | some (.ok p) => if p ≠ [] then some (.ok (start :: p)) else circuitLoop g start l
    else circuitLoop g start l

/-- `find_perfect_circuit` (transshipment_problem.py:223-244) -/
def findPerfectCircuit (graph : Graph α Rat O) (start : α) (jobs : List (α × α)) : Option (Py (List α)) :=
  match circuitGraph graph jobs Graph.empty with
  | none => none
  | some (.error e) => some (.error e)
  | some (.ok g) => circuitLoop g start ((jobs.filter (fun j => decide (j.1 = start))).map Prod.snd)

/-- `distance < shortest_distance` for numbers or `inf` -/
def extLt : Ext → Ext → Bool
  | .fin a, .fin b => decide (a < b)
  | .fin _, .inf => true
  | .inf, _ => false

/-- the loop over the permutations (transshipment_problem.py:187-192) -/
def permLoop (g : Graph α Rat O) (start : α) : List (List (α × α)) → Ext → List α → Option (Py (List α))
  | [], _, sp => some (.ok sp)
  | perm :: l, sd, sp =>
    match g.distanceFromPath (pathFromSchedule perm start) with
    | none => none
    | some (.error e) => some (.error e)
    | some (.ok d) => if extLt d sd then permLoop g start l d (pathFromSchedule perm start) else permLoop g start l sd sp

/-- the loop `for job in job_sequence` (transshipment_problem.py:195-198); the state is `(jobs_to_plan, new_schedule)` -/
def planJobs (s : List (α × α) × List (α × α)) (job : α × α) : List (α × α) × List (α × α) :=
  if job ∈ s.1 then (s.1.erase job, s.2 ++ [job]) else s

/-- one iteration of `while jobs_to_plan` (transshipment_problem.py:181-198) -/
def schedStep (g : Graph α Rat O) (start : α) (s : List (α × α) × List (α × α)) :
    Option ((List (α × α) × List (α × α)) ⊕ Py (List (α × α))) :=
  if s.1 = [] then some (.inr (.ok s.2))
  else match findPerfectCircuit g start s.1 with
    | none => none
    | some (.error e) => some (.inr (.error e))
    | some (.ok cp) =>
      if cp ≠ [] then some (.inl ((jobsFromPath cp).foldl planJobs s))
      else match permLoop g start (perms s.1) .inf [] with
        | none => none
        | some (.error e) => some (.inr (.error e))
        | some (.ok sp) => some (.inl ((jobsFromPath sp).foldl planJobs s))

/-- `schedule` (transshipment_problem.py:169-199) -/
def railSchedule (g : Graph α Rat O) (start : α) (jobs : List (α × α)) : Option (Py (List (α × α))) :=
  pyWhileD (schedStep g start) (jobs, [])

/-- `find` (transshipment_problem.py:142-166) for one job: the part of the shortest path that lies in `stops` must be a path of
the network; the sub-job goes from its first to its last node.  (`has_path([])` raises `IndexError`, base.py:446.) -/
def findJob (g : Graph α Rat O) (stops : List α) (j : α × α) : Option (Py (α × α)) :=
  if !g.has j.1 then some (.error .valueError)
  else if !g.has j.2 then some (.error .valueError)
  else match g.shortestPath j.1 j.2 with
    | none => none
    | some (.error e) => some (.error e)
    | some (.ok (_, path)) =>
      match g.hasPath (path.filter (fun p => decide (p ∈ stops))) with
      | .error e => some (.error e)
      | .ok false => some (.error .valueError)
      | .ok true =>
        match (path.filter (fun p => decide (p ∈ stops))).head?, (path.filter (fun p => decide (p ∈ stops))).getLast? with
        | some a, some b => some (.ok (a, b))
        | _, _ => some (.error .indexError)

/-- `find` (transshipment_problem.py:142-166) -/
def findJobs (g : Graph α Rat O) (stops : List α) : List (α × α) → Option (Py (List (α × α)))
  | [] => some (.ok [])
  | j :: l => match findJob g stops j with
    | none => none
    | some (.error e) => some (.error e)
    | some (.ok sj) => match findJobs g stops l with
      | none => none
      | some (.error e) => some (.error e)
      | some (.ok r) => some (.ok (sj :: r))

/-- a `Train` (transshipment_problem.py:92-107): network, location, access nodes, schedule -/
structure Train (α O : Type) where
  net : Graph α Rat O
  location : α
  access : List α
  plan : List (α × α)

/-- `Train(rail_network, start_location, access)` (transshipment_problem.py:93-107) -/
def newTrain (net : Graph α Rat O) (start : α) (access : List α) : Py (Train α O) :=
  if start ∉ net.nodeList then .error .assertionError
  else if !(access.all (fun n => net.has n)) then .error .assertionError
  else .ok ⟨net, start, access, []⟩

/-- `train.schedule(jobs)` (transshipment_problem.py:109-121) with a job list -/
def Train.schedule (t : Train α O) (jobs : List (α × α)) : Option (Py (Train α O × List (α × α))) :=
  match findJobs t.net t.access jobs with
  | none => none
  | some (.error e) => some (.error e)
  | some (.ok nj) => match railSchedule t.net t.location nj with
    | none => none
    | some (.error e) => some (.error e)
    | some (.ok r) => some (.ok ({ t with plan := r }, r))

/-- `schedule_rail_system(rail_network, trains, jobs)` (transshipment_problem.py:124-139): the trains after the call, and how it ends.
`Train.schedule` assigns the new schedule last (transshipment_problem.py:120), so a train whose scheduling raises is unchanged. -/
def scheduleRailSystem (jobs : List (α × α)) : List (Train α O) → Option (List (Train α O) × Py Unit)
  | [] => some ([], .ok ())
  | t :: l => match t.schedule jobs with
    | none => none
    | some (.error e) => some (t :: l, .error e)
    | some (.ok (t', _)) => match scheduleRailSystem jobs l with
      | none => none
      | some (r, e) => some (t' :: r, e)

/-! ### proofs -/

theorem circuitGraph_eq (graph : Graph α Rat O) (jobs : List (α × α)) (g : Graph α Rat O) :
    circuitGraph graph jobs g = some (.ok g) := by
  induction jobs with
  | nil => rfl
  | cons j l ih => obtain ⟨a, b⟩ := j; simp only [circuitGraph]; exact ih

theorem circuitLoop_empty (start : α) (l : List α) : circuitLoop (Graph.empty : Graph α Rat O) start l = some (.ok []) := by
  induction l with
  | nil => rfl
  | cons a l ih => unfold circuitLoop; rw [if_neg (by simp [Graph.has, Graph.empty, Dict.contains, Dict.get?, Dict.empty, aget])]; exact ih

theorem findPerfectCircuit_eq (graph : Graph α Rat O) (start : α) (jobs : List (α × α)) :
    findPerfectCircuit graph start jobs = some (.ok []) := by
  unfold findPerfectCircuit
  rw [circuitGraph_eq]
  exact circuitLoop_empty _ _

/-! the path of a schedule -/

theorem pfs_append (jobs : List (α × α)) : ∀ (pre : List α) (cur : α),
    jobs.foldl pfsStep (pre ++ [cur]) = pre ++ route cur jobs := by
  induction jobs with
  | nil => intro pre cur; rfl
  | cons j l ih =>
    intro pre cur
    obtain ⟨a, b⟩ := j
    simp only [List.foldl_cons, pfsStep, route, List.getLast?_append, List.getLast?_singleton, Option.some_or, Option.some.injEq]
    by_cases h : a = cur
    · rw [if_pos h.symm, if_pos h, ih]; simp
    · rw [if_neg (fun e => h e.symm), if_neg h, ih]; simp

theorem pathFromSchedule_eq (jobs : List (α × α)) (start : α) : pathFromSchedule jobs start = route start jobs :=
  pfs_append jobs [] start

theorem route_head (cur : α) (jobs : List (α × α)) : ∃ l, route cur jobs = cur :: l := by
  cases jobs with
  | nil => exact ⟨_, rfl⟩
  | cons j l => obtain ⟨a, b⟩ := j; unfold route; split <;> exact ⟨_, rfl⟩

theorem mem_route {cur : α} {jobs : List (α × α)} {x : α} (h : x ∈ route cur jobs) :
    x = cur ∨ ∃ j ∈ jobs, x = j.1 ∨ x = j.2 := by
  induction jobs generalizing cur with
  | nil => simp [route] at h; exact .inl h
  | cons j l ih =>
    obtain ⟨a, b⟩ := j
    have key : x ∈ route b l → ∃ j ∈ (a, b) :: l, x = j.1 ∨ x = j.2 := by
      intro hx
      rcases ih hx with h | ⟨j, hj, h⟩
      · exact ⟨(a, b), by simp, .inr h⟩
      · exact ⟨j, List.mem_cons_of_mem _ hj, h⟩
    unfold route at h
    split at h
    · rcases List.mem_cons.1 h with h | h
      · exact .inl h
      · exact .inr (key h)
    · rcases List.mem_cons.1 h with h | h
      · exact .inl h
      · rcases List.mem_cons.1 h with h | h
        · exact .inr ⟨(a, b), by simp, .inl h⟩
        · exact .inr (key h)

theorem jobs_sublist_route (jobs : List (α × α)) : ∀ cur, jobs.Sublist (jobsFromPath (route cur jobs)) := by
  induction jobs with
  | nil => intro cur; exact List.nil_sublist _
  | cons j l ih =>
    intro cur
    obtain ⟨a, b⟩ := j
    obtain ⟨m, hm⟩ := route_head b l
    have := ih b
    rw [hm] at this
    unfold route
    split
    · rename_i h; subst h; rw [hm]; simp only [jobsFromPath]; exact this.cons₂ _
    · rw [hm]; simp only [jobsFromPath]; exact (this.cons₂ _).cons _

/-! the planning loop -/

theorem planJobs_perm (ps : List (α × α)) : ∀ s : List (α × α) × List (α × α),
    ((ps.foldl planJobs s).2 ++ (ps.foldl planJobs s).1).Perm (s.2 ++ s.1) := by
  induction ps with
  | nil => intro s; exact .refl _
  | cons p ps ih =>
    intro s
    refine (ih _).trans ?_
    unfold planJobs
    split
    · rename_i h
      rw [List.append_assoc]
      exact (List.Perm.refl _).append (List.perm_cons_erase h).symm
    · exact .refl _

theorem planJobs_count (ps : List (α × α)) (x : α × α) : ∀ s : List (α × α) × List (α × α),
    (ps.foldl planJobs s).1.count x = s.1.count x - ps.count x := by
  induction ps with
  | nil => intro s; simp
  | cons p ps ih =>
    intro s
    rw [List.foldl_cons, ih, List.count_cons]
    unfold planJobs
    by_cases h : p ∈ s.1
    · rw [if_pos h, List.count_erase]
      by_cases hx : p = x
      · subst hx; simp; omega
      · simp [hx]
    · rw [if_neg h]
      by_cases hx : p = x
      · subst hx; rw [List.count_eq_zero_of_not_mem h]; simp
      · simp [hx]

theorem planJobs_all {ps todo done : List (α × α)} (h : ∀ x, todo.count x ≤ ps.count x) :
    (ps.foldl planJobs (todo, done)).1 = [] := by
  apply List.eq_nil_iff_forall_not_mem.2
  intro x hx
  have h1 := List.count_pos_iff.2 hx
  rw [planJobs_count] at h1
  have := h x
  dsimp only at h1
  omega

/-- what is planned from a path is travelled in a part of the path -/
theorem planJobs_route (l : List α) : ∀ (cur : α) (s : List (α × α) × List (α × α)), ∃ new,
    ((jobsFromPath (cur :: l)).foldl planJobs s).2 = s.2 ++ new ∧ ∃ m, route cur new = cur :: m ∧ m.Sublist l := by
  induction l with
  | nil => intro cur s; exact ⟨[], by simp [jobsFromPath], [], rfl, .refl _⟩
  | cons b l ih =>
    intro cur s
    simp only [jobsFromPath, List.foldl_cons]
    obtain ⟨new, h1, m, h2, h3⟩ := ih b (planJobs s (cur, b))
    by_cases h : (cur, b) ∈ s.1
    · refine ⟨(cur, b) :: new, ?_, b :: m, ?_, h3.cons₂ _⟩
      · rw [h1]; unfold planJobs; rw [if_pos h]; simp
      · simp only [route, if_true]; rw [h2]
    · refine ⟨new, ?_, ?_⟩
      · rw [h1]; unfold planJobs; rw [if_neg h]
      · cases new with
        | nil => exact ⟨[], rfl, List.nil_sublist _⟩
        | cons j rest =>
          obtain ⟨a, c⟩ := j
          simp only [route] at h2 ⊢
          by_cases hab : a = b
          · rw [if_pos hab] at h2
            have h4 : route c rest = m := by simpa using h2
            by_cases hac : a = cur
            · rw [if_pos hac]; exact ⟨_, rfl, by rw [h4]; exact h3.cons _⟩
            · rw [if_neg hac]; exact ⟨_, rfl, by rw [h4, hab]; exact h3.cons₂ _⟩
          · rw [if_neg hab] at h2
            have h4 : a :: route c rest = m := by simpa using h2
            by_cases hac : a = cur
            · rw [if_pos hac]
              exact ⟨_, rfl, ((List.sublist_cons_self a _).trans (h4 ▸ h3)).cons _⟩
            · rw [if_neg hac]; exact ⟨_, rfl, by rw [h4]; exact h3.cons _⟩

/-! lengths -/

theorem Ext.add_le_add {a b c d : Ext} (h : a.le b) (h2 : c.le d) : (a.add c).le (b.add d) := by
  cases a <;> cases b <;> cases c <;> cases d <;> simp_all [Ext.le, Ext.add] <;> grind

theorem LegDist.nonneg {w : α → α → Option Rat} (hw : NonNeg w) {a b : α} {d : Ext} (h : LegDist w a b d) : (Ext.fin 0).le d := by
  cases d with
  | inf => trivial
  | fin d =>
    rcases h with ⟨c, h1, h2⟩ | ⟨_, h1⟩
    · cases h2; exact hw _ _ _ h1
    · obtain ⟨p, hp⟩ := h1.1; exact hp.nonneg hw

theorem SumLegs.nonneg {w : α → α → Option Rat} (hw : NonNeg w) {p : List α} {d : Ext} (h : SumLegs w p d) : (Ext.fin 0).le d := by
  induction p generalizing d with
  | nil => simp only [SumLegs] at h; rw [h]; exact Ext.le_refl _
  | cons a l ih =>
    cases l with
    | nil => simp only [SumLegs] at h; rw [h]; exact Ext.le_refl _
    | cons b l =>
      obtain ⟨x, y, h1, h2, rfl⟩ := h
      have := Ext.add_le_add (LegDist.nonneg hw h1) (ih h2)
      rwa [show (Ext.fin 0).add (Ext.fin 0) = Ext.fin 0 by simp [Ext.add]; grind] at this

theorem LegDist.isDist {w : α → α → Option Rat} (hs : EdgesShortest w) {a b : α} {d : Ext} (h : LegDist w a b d) : IsDist w a b d := by
  rcases h with ⟨c, h1, rfl⟩ | ⟨_, h1⟩
  · refine ⟨⟨[a, b], rfl, rfl, ?_⟩, hs _ _ _ h1⟩
    simp [walkCost, h1]; grind
  · exact h1

theorem LegDist.triangle {w : α → α → Option Rat} (hs : EdgesShortest w) {a b c : α} {d e f : Ext}
    (h1 : LegDist w a b d) (h2 : LegDist w b c e) (h3 : LegDist w a c f) : f.le (d.add e) := by
  have h1 := h1.isDist hs; have h2 := h2.isDist hs; have h3 := h3.isDist hs
  cases d with
  | inf => cases f <;> trivial
  | fin d => cases e with
    | inf => cases f <;> trivial
    | fin e =>
      obtain ⟨p, hp⟩ := h1.1
      obtain ⟨q, hq⟩ := h2.1
      cases q with
      | nil => exact absurd rfl hq.ne_nil
      | cons z q =>
        have hz : z = b := by have := hq.1; simpa using this
        subst hz
        have hpq := hp.append hq
        cases f with
        | inf => exact absurd ⟨_, _, hpq⟩ h3
        | fin f => exact h3.2 _ _ hpq

theorem SumLegs.skip {w : α → α → Option Rat} (hw : NonNeg w) (hs : EdgesShortest w) {a b : α} {l : List α} {x y : Ext}
    (h : SumLegs w (a :: b :: l) x) (h2 : SumLegs w (a :: l) y) : y.le x := by
  cases l with
  | nil => simp only [SumLegs] at h2; rw [h2]; exact h.nonneg hw
  | cons c l =>
    obtain ⟨d, e, h3, ⟨d', e', h4, h5, rfl⟩, rfl⟩ := h
    obtain ⟨f, e2, h6, h7, rfl⟩ := h2
    rw [h5.unique h7, ← Ext.add_assoc]
    exact Ext.add_le_add (h3.triangle hs h4 h6) (Ext.le_refl _)

theorem SumLegs.sublist {g : Graph α Rat O} (hg : g.Inv) (hw : NonNeg g.edge) (hs : EdgesShortest g.edge) {m l : List α}
    (hsub : m.Sublist l) : ∀ (a : α) (x y : Ext), (∀ z ∈ a :: l, g.has z = true) → SumLegs g.edge (a :: l) x →
    SumLegs g.edge (a :: m) y → y.le x := by
  induction hsub with
  | slnil => intro a x y _ h1 h2; rw [h1.unique h2]; exact Ext.le_refl _
  | cons b hsub ih =>
    rename_i m l
    intro a x y hh h1 h2
    obtain ⟨z, hz⟩ := sumLegs_exists hg hw (p := a :: l) (fun x hx => hh x (by
      rcases List.mem_cons.1 hx with h | h
      · exact h ▸ List.mem_cons_self
      · exact List.mem_cons_of_mem _ (List.mem_cons_of_mem _ h)))
    refine Ext.le_trans (ih a z y (fun x hx => hh x (by
      rcases List.mem_cons.1 hx with h | h
      · exact h ▸ List.mem_cons_self
      · exact List.mem_cons_of_mem _ (List.mem_cons_of_mem _ h))) hz h2) (h1.skip hw hs hz)
  | cons_cons b hsub ih =>
    intro a x y hh h1 h2
    obtain ⟨d, e, h3, h4, rfl⟩ := h1
    obtain ⟨d', e', h3', h4', rfl⟩ := h2
    rw [h3'.unique h3]
    exact Ext.add_le_add (Ext.le_refl _) (ih b e e' (fun x hx => hh x (List.mem_cons_of_mem _ hx)) h4 h4')

/-! the loop over the permutations -/

theorem extLt_iff {a b : Ext} : extLt a b = true ↔ ¬ b.le a := by
  cases a <;> cases b <;> simp [extLt, Ext.le] <;> grind

/-- the permutation loop: it returns the start value, or a route that is strictly shorter than the start value and at most as long as
every tried route -/
theorem permLoop_spec {g : Graph α Rat O} (hg : g.Inv) (hw : NonNeg g.edge) {start : α} (hs : g.has start = true)
    (L : List (List (α × α))) : ∀ (sd : Ext) (sp : List α), (∀ p ∈ L, ∀ j ∈ p, g.has j.1 = true ∧ g.has j.2 = true) →
    ∃ sp', permLoop g start L sd sp = some (.ok sp') ∧
      ((sp' = sp ∧ ∀ p ∈ L, ∀ d, SumLegs g.edge (route start p) d → sd.le d) ∨
       (∃ p ∈ L, ∃ d, sp' = route start p ∧ SumLegs g.edge sp' d ∧ ¬ sd.le d ∧
          ∀ q ∈ L, ∀ e, SumLegs g.edge (route start q) e → d.le e)) := by
  induction L with
  | nil => intro sd sp _; exact ⟨sp, rfl, .inl ⟨rfl, by simp⟩⟩
  | cons p L ih =>
    intro sd sp hL
    have hL' := fun q hq => hL q (List.mem_cons_of_mem _ hq)
    obtain ⟨d, h1, h2⟩ := distanceFromPath_spec hg hw (p := route start p) (by
      intro x hx
      rcases mem_route hx with rfl | ⟨j, hj, rfl | rfl⟩
      · exact hs
      · exact (hL p (by simp) j hj).1
      · exact (hL p (by simp) j hj).2)
    unfold permLoop
    rw [pathFromSchedule_eq, h1]
    dsimp only
    by_cases hlt : extLt d sd = true
    · rw [if_pos hlt]
      have hlt' := extLt_iff.1 hlt
      have hle : d.le sd := (Ext.le_total d sd).resolve_right hlt'
      obtain ⟨sp', h3, h4⟩ := ih d (route start p) hL'
      refine ⟨sp', h3, .inr ?_⟩
      rcases h4 with ⟨rfl, h4⟩ | ⟨q, hq, e, h5, h6, h7, h8⟩
      · refine ⟨p, by simp, d, rfl, h2, hlt', ?_⟩
        intro q hq e he
        rcases List.mem_cons.1 hq with rfl | hq
        · rw [h2.unique he]; exact Ext.le_refl _
        · exact h4 q hq e he
      · refine ⟨q, List.mem_cons_of_mem _ hq, e, h5, h6, fun h => h7 (Ext.le_trans hle h), ?_⟩
        intro q' hq' e' he'
        rcases List.mem_cons.1 hq' with rfl | hq'
        · rw [← h2.unique he']; exact (Ext.le_total e d).resolve_right h7
        · exact h8 q' hq' e' he'
    · rw [if_neg hlt]
      have hle : sd.le d := by
        cases Ext.le_total sd d with
        | inl h => exact h
        | inr h => exact Classical.byContradiction fun h' => hlt (extLt_iff.2 h')
      obtain ⟨sp', h3, h4⟩ := ih sd sp hL'
      refine ⟨sp', h3, ?_⟩
      rcases h4 with ⟨rfl, h4⟩ | ⟨q, hq, e, h5, h6, h7, h8⟩
      · refine .inl ⟨rfl, fun q hq e he => ?_⟩
        rcases List.mem_cons.1 hq with rfl | hq
        · rw [← h2.unique he]; exact hle
        · exact h4 q hq e he
      · refine .inr ⟨q, List.mem_cons_of_mem _ hq, e, h5, h6, h7, ?_⟩
        intro q' hq' e' he'
        rcases List.mem_cons.1 hq' with rfl | hq'
        · rw [← h2.unique he']
          have : e.le sd := (Ext.le_total e sd).resolve_right h7
          exact Ext.le_trans this hle
        · exact h8 q' hq' e' he'

/-! the schedule -/

theorem railSchedule_nil (g : Graph α Rat O) (start : α) : railSchedule g start [] = some (.ok []) := by
  unfold railSchedule
  rw [pyWhileD_eq]
  rfl

theorem railSchedule_spec {g : Graph α Rat O} (hg : g.Inv) (hw : NonNeg g.edge) {start : α} {jobs : List (α × α)}
    (hs : g.has start = true) (hj : ∀ j ∈ jobs, g.has j.1 = true ∧ g.has j.2 = true)
    (hfin : ∃ p q, p.Perm jobs ∧ SumLegs g.edge (route start p) (.fin q)) :
    ∃ r best d, railSchedule g start jobs = some (.ok r) ∧ r.Perm jobs ∧ best.Perm jobs ∧
      SumLegs g.edge (route start best) (.fin d) ∧ (∀ p e, p.Perm jobs → SumLegs g.edge (route start p) e → (Ext.fin d).le e) ∧
      ∃ m l, route start best = start :: l ∧ route start r = start :: m ∧ m.Sublist l := by
  have hall : ∀ p ∈ perms jobs, ∀ j ∈ p, g.has j.1 = true ∧ g.has j.2 = true := fun p hp j hjp =>
    hj j ((mem_perms.1 hp).mem_iff.1 hjp)
  obtain ⟨sp, h1, h2⟩ := permLoop_spec hg hw hs (perms jobs) .inf [] hall
  obtain ⟨p0, q0, hp0, hq0⟩ := hfin
  rcases h2 with ⟨_, h2⟩ | ⟨best, hb, d, h3, h4, h5, h6⟩
  · exact (h2 p0 (mem_perms.2 hp0) _ hq0).elim
  · subst h3
    have hb := mem_perms.1 hb
    cases d with
    | inf => exact absurd trivial h5
    | fin d =>
      have hcount : ∀ x, jobs.count x ≤ (jobsFromPath (route start best)).count x := by
        intro x
        rw [← hb.count_eq]
        exact (jobs_sublist_route best start).count_le x
      have hnil := planJobs_all (done := []) hcount
      have hperm := planJobs_perm (jobsFromPath (route start best)) (jobs, [])
      rw [hnil] at hperm
      obtain ⟨l, hl⟩ := route_head start best
      obtain ⟨new, h7, m, h8, h9⟩ := planJobs_route l start (jobs, [])
      rw [← hl] at h7
      simp only [List.nil_append] at h7
      refine ⟨((jobsFromPath (route start best)).foldl planJobs (jobs, [])).2, best, d, ?_, by simpa using hperm, hb, h4, ?_, m, l, hl, ?_, h9⟩
      · by_cases hjn : jobs = []
        · subst hjn
          rw [railSchedule_nil]
          have := hperm.length_eq
          congr 2
          exact (List.eq_nil_of_length_eq_zero (by simpa using this)).symm
        · unfold railSchedule
          rw [pyWhileD_eq]
          have : schedStep g start (jobs, []) = some (.inl ((jobsFromPath (route start best)).foldl planJobs (jobs, []))) := by
            unfold schedStep
            rw [if_neg hjn, findPerfectCircuit_eq]
            dsimp only
            rw [if_neg (by simp), h1]
          rw [this]
          dsimp only
          rw [pyWhileD_eq]
          unfold schedStep
          rw [if_pos hnil]
      · exact fun p e hp he => h6 p (mem_perms.2 hp) e he
      · rw [h7]; exact h8

theorem railSchedule_diverges {g : Graph α Rat O} (hg : g.Inv) (hw : NonNeg g.edge) {start : α} {jobs : List (α × α)}
    (hs : g.has start = true) (hj : ∀ j ∈ jobs, g.has j.1 = true ∧ g.has j.2 = true) (hne : jobs ≠ [])
    (hinf : ∀ p, p.Perm jobs → SumLegs g.edge (route start p) .inf) : railSchedule g start jobs = none := by
  unfold railSchedule
  refine pyWhileD_diverges (fun s => s = (jobs, [])) ?_ rfl
  rintro s rfl
  refine .inr ⟨_, ?_, rfl⟩
  have hall : ∀ p ∈ perms jobs, ∀ j ∈ p, g.has j.1 = true ∧ g.has j.2 = true := fun p hp j hjp =>
    hj j ((mem_perms.1 hp).mem_iff.1 hjp)
  obtain ⟨sp, h1, h2⟩ := permLoop_spec hg hw hs (perms jobs) .inf [] hall
  have hsp : sp = [] := by
    rcases h2 with ⟨h2, _⟩ | ⟨best, hb, d, h3, h4, h5, h6⟩
    · exact h2
    · subst h3
      rw [h4.unique (hinf best (mem_perms.1 hb))] at h5
      exact absurd trivial h5
  unfold schedStep
  rw [if_neg hne, findPerfectCircuit_eq]
  dsimp only
  rw [if_neg (by simp), h1, hsp]
  rfl

end GT

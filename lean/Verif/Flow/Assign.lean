import Verif.Spec.Assign
import Verif.Flow.MinCost
import Verif.Dag.Work
/-
Model of `ap_solver` (graph/assignment_problem.py:8-93).
-/
namespace GT
variable {α V O : Type} [DecidableEq α]
open Graph

/-- the locals of the loop: `unassigned_agents`, `unassigned_tasks`, `assignments` and the variable `e`, which keeps its value
between iterations -/
structure ApSt (α O : Type) where
  agents : List α
  tasks : List α
  assign : Graph α Rat O
  e : Option α

/-- the loop over the ranked opportunities of agent `n` (assignment_problem.py:79-91) -/
def apTry (vnull : Rat) (n : α) : List (Rat × α) → ApSt α O → Py (ApSt α O)
  | [], s => .ok s
  | (v, t) :: l, s =>
    let ed : Option α × Rat := match s.assign.edgesFrom t with
      | [] => (s.e, vnull)
      | (_, e, d) :: _ => (some e, d)
    let s := { s with e := ed.1 }
    if ed.2 < v then
      if s.assign.has t then
        match s.e with
        | none => .error .unboundLocal
        | some e => .ok { s with agents := s.agents ++ [e], assign := (s.assign.delEdge t e).addEdge t n v }
      else if t ∈ s.tasks then .ok { s with tasks := s.tasks.erase t, assign := s.assign.addEdge t n v }
      else .error .keyError
    else apTry vnull n l s

/-- the opportunities of agent `n`, best first (assignment_problem.py:77-78) -/
def apRank (nlt : α → α → Bool) (g : Graph α Rat O) (n : α) : List (Rat × α) :=
  pySort (fun a b => balLt nlt b a) ((g.edgesFrom n).map (fun e => (e.2.2, e.2.1)))

/-- one iteration of `while unassigned_agents` (assignment_problem.py:75-91) -/
def apsStep (nlt : α → α → Bool) (g : Graph α Rat O) (vnull : Rat) (s : ApSt α O) : ApSt α O ⊕ Py (Graph α Rat O) :=
  match s.agents with
  | [] => .inr (.ok s.assign)
  | n :: rest =>
    match apTry vnull n (apRank nlt g n) { s with agents := rest } with
    | .error e => .inr (.error e)
    | .ok s => .inl s

/-- the edges that are added for the dummy tasks (assignment_problem.py:63-68) -/
def apDummyEdges (agents dummies : List α) (vnull : Rat) : List (α × α × Rat) :=
  dummies.flatMap (fun t => agents.map (fun a => (a, t, vnull)))

/-- `ap_solver(graph)` (assignment_problem.py:8-93); the second component is the graph after the call.
`fresh` are the names of the dummy tasks (`uuid4().hex`), `nlt` the order of the node ids that breaks ties in `sort`.
Simplification: exact rationals. -/
def Graph.apSolver (nlt : α → α → Bool) (fresh : Nat → α) (g : Graph α Rat O) : Option (Py (List (α × α × Rat)) × Graph α Rat O) :=
  let agents := g.nodesInDeg 0
  let tasks := g.nodesOutDeg 0
  match ratMin (g.edgeList.map (fun e => e.2.2)) with
  | .error e => some (.error e, g)
  | .ok m =>
    let k := agents.length - tasks.length
    let dummies := (List.range k).map fresh
    let g' := g.addEdges (apDummyEdges agents dummies (m - 1))
    let vnull := if tasks.length < agents.length then m - 1 - 1 else m - 1
    match pyWhile (apsStep nlt g' vnull) ⟨agents, tasks ++ dummies, Graph.empty, none⟩ with
    | none => none
    | some (.error e) => some (.error e, g')
    | some (.ok a) => some (.ok ((a.edgeList.filter (fun e => decide (e.1 ∉ dummies))).map (fun e => (e.2.1, e.1, e.2.2))), g')

/-- `ap_solver(graph)` on floats: the two subtractions (assignment_problem.py:57, 69) are rounded by `fl`; everything else only compares. -/
def Graph.apSolverFl (fl : Rat → Rat) (nlt : α → α → Bool) (fresh : Nat → α) (g : Graph α Rat O) : Option (Py (List (α × α × Rat)) × Graph α Rat O) :=
  let agents := g.nodesInDeg 0
  let tasks := g.nodesOutDeg 0
  match ratMin (g.edgeList.map (fun e => e.2.2)) with
  | .error e => some (.error e, g)
  | .ok m =>
    let k := agents.length - tasks.length
    let dummies := (List.range k).map fresh
    let g' := g.addEdges (apDummyEdges agents dummies (fl (m - 1)))
    let vnull := if tasks.length < agents.length then fl (fl (m - 1) - 1) else fl (m - 1)
    match pyWhile (apsStep nlt g' vnull) ⟨agents, tasks ++ dummies, Graph.empty, none⟩ with
    | none => none
    | some (.error e) => some (.error e, g')
    | some (.ok a) => some (.ok ((a.edgeList.filter (fun e => decide (e.1 ∉ dummies))).map (fun e => (e.2.1, e.1, e.2.2))), g')

theorem Graph.apSolverFl_id (nlt : α → α → Bool) (fresh : Nat → α) (g : Graph α Rat O) : g.apSolverFl id nlt fresh = g.apSolver nlt fresh := rfl

/-! ### the loop -/

/-- the state of the loop: `w` the values, `S` the agents, `T` the tasks -/
structure ApsInv (w : α → α → Option Rat) (S T : List α) (vnull : Rat) (s : ApSt α O) : Prop where
  inv : s.assign.Inv
  hi : ∀ t n v, s.assign.edge t n = some v → vnull < v
  adm : ∀ t n v, s.assign.edge t n = some v → w n t = some v ∧ n ∈ S
  oneT : ∀ t n n', (s.assign.edge t n).isSome → (s.assign.edge t n').isSome → n = n'
  oneN : ∀ t t' n, (s.assign.edge t n).isSome → (s.assign.edge t' n).isSome → t = t'
  nodes : ∀ x, s.assign.has x = true → x ∈ S ∨ ∃ n, (s.assign.edge x n).isSome
  free : ∀ t, t ∈ T → (∀ n, s.assign.edge t n = none) → t ∈ s.tasks
  nd : s.agents.Nodup
  sub : ∀ n ∈ s.agents, n ∈ S
  idle : ∀ n ∈ s.agents, ∀ t, s.assign.edge t n = none
  /-- an agent that is not waiting prefers no task that would take it -/
  stable : ∀ n ∈ S, n ∉ s.agents → ∀ t v, w n t = some v → vnull < v →
    (∃ t' v', s.assign.edge t' n = some v' ∧ v ≤ v') ∨ (∃ n' v', s.assign.edge t n' = some v' ∧ v ≤ v')

/-- the number of edges that would still improve their task -/
def apWork (E : List (α × α × Rat)) (s : ApSt α O) : Nat :=
  (E.filter (fun e => (s.assign.edgesFrom e.2.1).all (fun x => decide (x.2.2 < e.2.2)))).length

def apMeasure (E : List (α × α × Rat)) (s : ApSt α O) : Nat × Nat := (apWork E s, s.agents.length)

/-- what is known while agent `n` looks for a task; `l` are the opportunities left, those before are closed -/
structure ApTryInv (w : α → α → Option Rat) (S T : List α) (vnull : Rat) (n : α) (l : List (Rat × α)) (s : ApSt α O) : Prop where
  base : ∀ n0 ∈ S, n0 ≠ n → n0 ∉ s.agents → ∀ t v, w n0 t = some v → vnull < v →
    (∃ t' v', s.assign.edge t' n0 = some v' ∧ v ≤ v') ∨ (∃ n' v', s.assign.edge t n' = some v' ∧ v ≤ v')
  inv : s.assign.Inv
  hi : ∀ t n v, s.assign.edge t n = some v → vnull < v
  adm : ∀ t n v, s.assign.edge t n = some v → w n t = some v ∧ n ∈ S
  oneT : ∀ t n n', (s.assign.edge t n).isSome → (s.assign.edge t n').isSome → n = n'
  oneN : ∀ t t' n, (s.assign.edge t n).isSome → (s.assign.edge t' n).isSome → t = t'
  nodes : ∀ x, s.assign.has x = true → x ∈ S ∨ ∃ n, (s.assign.edge x n).isSome
  free : ∀ t, t ∈ T → (∀ n, s.assign.edge t n = none) → t ∈ s.tasks
  nd : (n :: s.agents).Nodup
  sub : ∀ x ∈ n :: s.agents, x ∈ S
  idle : ∀ x ∈ n :: s.agents, ∀ t, s.assign.edge t x = none
  rank : l.Pairwise (fun a b => b.1 ≤ a.1)
  real : ∀ v t, (v, t) ∈ l → w n t = some v
  closed : ∀ t v, w n t = some v → vnull < v → (v, t) ∈ l ∨ ∃ n' v', s.assign.edge t n' = some v' ∧ v ≤ v'

theorem apWork_mem {s : ApSt α O} (h : s.assign.Inv) {t : α} {v : Rat} :
    (s.assign.edgesFrom t).all (fun x => decide (x.2.2 < v)) = true ↔ ∀ n d, s.assign.edge t n = some d → d < v := by
  rw [List.all_eq_true]
  constructor
  · intro h1 n d hn
    simpa using h1 (t, n, d) (h.mem_edgesFrom.2 ⟨rfl, hn⟩)
  · rintro h1 ⟨a, n, d⟩ hx
    simpa using h1 n d (h.mem_edgesFrom.1 hx).2

/-- agent `n` takes task `t` -/
theorem apTake {w : α → α → Option Rat} {S T : List α} {vnull : Rat} {E : List (α × α × Rat)}
    (hE : ∀ a t v, (a, t, v) ∈ E ↔ w a t = some v)
    {n t : α} {v : Rat} {l : List (Rat × α)} {s s' : ApSt α O} (h : ApTryInv w S T vnull n ((v, t) :: l) s) {ex : List α}
    (hex : ∀ x, x ∈ ex ↔ (s.assign.edge t x).isSome) (hexnd : ex.Nodup)
    (hlt : ∀ x d, s.assign.edge t x = some d → d < v) (hvv : vnull < v) (hinv : s'.assign.Inv)
    (hedge : ∀ a b, s'.assign.edge a b = if a = t then (if b = n then some v else none) else s.assign.edge a b)
    (hag : s'.agents = s.agents ++ ex) (htk : ∀ x, x ≠ t → x ∈ s.tasks → x ∈ s'.tasks)
    (hnod : ∀ x, s'.assign.has x = true → s.assign.has x = true ∨ x = t ∨ x = n) :
    ApsInv w S T vnull s' ∧ apWork E s' < apWork E s := by
  have hw : w n t = some v := h.real v t (by simp)
  have hnS : n ∈ S := h.sub n (by simp)
  have hidn : ∀ a, s.assign.edge a n = none := h.idle n (by simp)
  have hexn : n ∉ ex := by rw [hex, hidn]; simp
  have hexS : ∀ x ∈ ex, x ∈ S := by
    intro x hx
    obtain ⟨d, hd⟩ := Option.isSome_iff_exists.1 ((hex x).1 hx)
    exact (h.adm t x d hd).2
  have hnd := List.nodup_cons.1 h.nd
  refine ⟨⟨hinv, ?_, ?_, ?_, ?_, ?_, ?_, ?_, ?_, ?_, ?_⟩, ?_⟩
  · intro a b x hx
    rw [hedge] at hx
    by_cases ha : a = t
    · rw [if_pos ha] at hx
      by_cases hb : b = n
      · rw [if_pos hb] at hx; cases hx; exact hvv
      · rw [if_neg hb] at hx; cases hx
    · rw [if_neg ha] at hx; exact h.hi a b x hx
  · intro a b x hx
    rw [hedge] at hx
    by_cases ha : a = t
    · subst ha; rw [if_pos rfl] at hx
      by_cases hb : b = n
      · subst hb; rw [if_pos rfl] at hx; cases hx; exact ⟨hw, hnS⟩
      · rw [if_neg hb] at hx; cases hx
    · rw [if_neg ha] at hx; exact h.adm a b x hx
  · intro a b b' h1 h2
    rw [hedge] at h1 h2
    by_cases ha : a = t
    · subst ha; rw [if_pos rfl] at h1 h2
      by_cases hb : b = n
      · by_cases hb' : b' = n
        · rw [hb, hb']
        · rw [if_neg hb'] at h2; cases h2
      · rw [if_neg hb] at h1; cases h1
    · rw [if_neg ha] at h1 h2; exact h.oneT a b b' h1 h2
  · intro a a' b h1 h2
    rw [hedge] at h1 h2
    by_cases hb : b = n
    · subst hb
      by_cases ha : a = t
      · by_cases ha' : a' = t
        · rw [ha, ha']
        · rw [if_neg ha', hidn] at h2; cases h2
      · rw [if_neg ha, hidn] at h1; cases h1
    · by_cases ha : a = t
      · rw [if_pos ha, if_neg hb] at h1; cases h1
      · by_cases ha' : a' = t
        · rw [if_pos ha', if_neg hb] at h2; cases h2
        · rw [if_neg ha] at h1; rw [if_neg ha'] at h2; exact h.oneN a a' b h1 h2
  · intro x hx
    by_cases hxt : x = t
    · exact .inr ⟨n, by rw [hedge, if_pos hxt, if_pos rfl]; rfl⟩
    · rcases hnod x hx with h1 | h1 | h1
      · rcases h.nodes x h1 with h2 | ⟨m, h2⟩
        · exact .inl h2
        · exact .inr ⟨m, by rw [hedge, if_neg hxt]; exact h2⟩
      · exact absurd h1 hxt
      · exact .inl (h1 ▸ hnS)
  · intro a ha hno
    have hat : a ≠ t := by
      intro hh; have := hno n; rw [hedge, if_pos hh, if_pos rfl] at this; cases this
    refine htk a hat (h.free a ha (fun b => ?_))
    have := hno b; rw [hedge, if_neg hat] at this; exact this
  · rw [hag, List.nodup_append]
    refine ⟨hnd.2, hexnd, fun x hx y hy hxy => ?_⟩
    subst hxy
    have := (hex x).1 hy
    rw [h.idle x (List.mem_cons_of_mem _ hx)] at this; cases this
  · intro x hx
    rw [hag, List.mem_append] at hx
    rcases hx with hx | hx
    · exact h.sub x (List.mem_cons_of_mem _ hx)
    · exact hexS x hx
  · intro x hx a
    rw [hag, List.mem_append] at hx
    rw [hedge]
    by_cases ha : a = t
    · rw [if_pos ha]
      refine if_neg (fun hxn => ?_)
      subst hxn
      rcases hx with hx | hx
      · exact hnd.1 hx
      · exact hexn hx
    · rw [if_neg ha]
      rcases hx with hx | hx
      · exact h.idle x (List.mem_cons_of_mem _ hx) a
      · cases hxa : s.assign.edge a x with
        | none => rfl
        | some y => exact absurd (h.oneN a t x (by rw [hxa]; rfl) ((hex x).1 hx)) ha
  · intro x hx hx' a u hwu huv
    rw [hag, List.mem_append] at hx'
    -- a task that was taken with at least `u` still is
    have hkeep : (∃ n' v', s.assign.edge a n' = some v' ∧ u ≤ v') → ∃ n' v', s'.assign.edge a n' = some v' ∧ u ≤ v' := by
      rintro ⟨n', v', h1, h2⟩
      by_cases ha : a = t
      · subst ha
        refine ⟨n, v, by rw [hedge, if_pos rfl, if_pos rfl], ?_⟩
        have := hlt n' v' h1; grind
      · exact ⟨n', v', by rw [hedge, if_neg ha]; exact h1, h2⟩
    by_cases hxn : x = n
    · subst hxn
      rcases h.closed a u hwu huv with h1 | h1
      · left
        refine ⟨t, v, by rw [hedge, if_pos rfl, if_pos rfl], ?_⟩
        rcases List.mem_cons.1 h1 with h2 | h2
        · cases h2; exact Rat.le_refl
        · exact (List.pairwise_cons.1 h.rank).1 _ h2
      · exact .inr (hkeep h1)
    · rcases h.base x hx hxn (fun hh => hx' (.inl hh)) a u hwu huv with ⟨t', v', h1, h2⟩ | h1
      · left
        refine ⟨t', v', ?_, h2⟩
        rw [hedge]
        by_cases ht' : t' = t
        · subst ht'
          exact absurd ((hex x).2 (by rw [h1]; rfl)) (fun hh => hx' (.inr hh))
        · rw [if_neg ht']; exact h1
      · exact .inr (hkeep h1)
  · unfold apWork
    refine filter_length_lt (fun e he h1 => ?_) (y := (n, t, v)) ((hE _ _ _).2 hw) ?_ ?_
    · rw [apWork_mem hinv] at h1
      rw [apWork_mem h.inv]
      intro m d hm
      by_cases ha : e.2.1 = t
      · have h2 := h1 n v (by rw [hedge, if_pos ha, if_pos rfl])
        rw [ha] at hm
        have := hlt m d hm; grind
      · exact h1 m d (by rw [hedge, if_neg ha]; exact hm)
    · rw [apWork_mem h.inv]; exact hlt
    · rw [← Bool.not_eq_true, apWork_mem hinv]
      intro hh
      have := hh n v (by rw [hedge, if_pos rfl, if_pos rfl])
      grind

theorem apTry_spec {w : α → α → Option Rat} {S T : List α} {vnull : Rat} {E : List (α × α × Rat)}
    (hE : ∀ a t v, (a, t, v) ∈ E ↔ w a t = some v)
    (hS : ∀ n t v, w n t = some v → t ∉ S) (hT : ∀ n t v, w n t = some v → t ∈ T)
    {n : α} : ∀ (l : List (Rat × α)) (s : ApSt α O), ApTryInv w S T vnull n l s →
    ∃ s', apTry vnull n l s = .ok s' ∧ ApsInv w S T vnull s' ∧
      (apWork E s' < apWork E s ∨ (apWork E s' = apWork E s ∧ s'.agents.length ≤ s.agents.length)) := by
  intro l
  induction l with
  | nil =>
    intro s h
    refine ⟨s, rfl, ⟨h.inv, h.hi, h.adm, h.oneT, h.oneN, h.nodes, h.free, (List.nodup_cons.1 h.nd).2, fun x hx => h.sub x (List.mem_cons_of_mem _ hx),
      fun x hx => h.idle x (List.mem_cons_of_mem _ hx), ?_⟩, .inr ⟨rfl, Nat.le_refl _⟩⟩
    intro x hx hx' t v hw hvv
    by_cases hxn : x = n
    · subst hxn
      rcases h.closed t v hw hvv with h' | h'
      · cases h'
      · exact .inr h'
    · exact h.base x hx hxn hx' t v hw hvv
  | cons p l ih =>
    obtain ⟨v, t⟩ := p
    intro s h
    have hw : w n t = some v := h.real v t (by simp)
    have hnS : n ∈ S := h.sub n (by simp)
    have htS := hS n t v hw
    unfold apTry
    -- who has the task now
    have hcur : (∃ e d, s.assign.edge t e = some d ∧ (match s.assign.edgesFrom t with
          | [] => (s.e, vnull) | (_, e, d) :: _ => (some e, d)) = (some e, d)) ∨
        ((∀ x, s.assign.edge t x = none) ∧ s.assign.has t = false ∧ (match s.assign.edgesFrom t with
          | [] => (s.e, vnull) | (_, e, d) :: _ => (some e, d)) = (s.e, vnull)) := by
      cases hf : s.assign.edgesFrom t with
      | nil =>
        right
        have hno : ∀ x, s.assign.edge t x = none := by
          intro x
          cases hx : s.assign.edge t x with
          | none => rfl
          | some d =>
            have := (h.inv.mem_edgesFrom (n := t) (a := t) (b := x) (v := d)).2 ⟨rfl, hx⟩
            rw [hf] at this; cases this
        refine ⟨hno, ?_, rfl⟩
        rw [← Bool.not_eq_true]
        intro hh
        rcases h.nodes t hh with h' | ⟨x, h'⟩
        · exact htS h'
        · rw [hno x] at h'; cases h'
      | cons x xs =>
        left
        obtain ⟨a, e, d⟩ := x
        have := (h.inv.mem_edgesFrom (n := t) (a := a) (b := e) (v := d)).1 (by rw [hf]; simp)
        exact ⟨e, d, this.2, rfl⟩
    dsimp only
    rcases hcur with ⟨e, d, hed, hm⟩ | ⟨hno, hhas, hm⟩
    · rw [hm]
      dsimp only
      by_cases hdv : d < v
      · rw [if_pos hdv]
        have hh : s.assign.has t = true := by
          rw [has_iff]; exact (h.inv.edge_mem hed).1
        rw [if_pos hh]
        have hen : e ≠ n := by
          intro hh'; subst hh'; rw [h.idle e (by simp)] at hed; cases hed
        have hedge : ∀ a b, ((s.assign.delEdge t e).addEdge t n v).edge a b =
            if a = t then (if b = n then some v else none) else s.assign.edge a b := by
          intro a b
          rw [edge_addEdge, edge_delEdge h.inv]
          by_cases ha : a = t
          · subst ha
            by_cases hb : b = n
            · subst hb; simp
            · rw [if_neg (fun hh => hb hh.2.symm), if_pos rfl, if_neg hb]
              by_cases hbe : b = e
              · subst hbe; simp
              · rw [if_neg (fun hh => hbe hh.2.symm)]
                cases hx : s.assign.edge a b with
                | none => rfl
                | some y => exact absurd (h.oneT a b e (by rw [hx]; rfl) (by rw [hed]; rfl)) hbe
          · rw [if_neg (fun hh => ha hh.1.symm), if_neg (fun hh => ha hh.1.symm), if_neg ha]
        have := apTake hE h (ex := [e])
          (s' := ⟨s.agents ++ [e], s.tasks, (s.assign.delEdge t e).addEdge t n v, some e⟩)
          (fun x => by
            rw [List.mem_singleton]
            constructor
            · rintro rfl; rw [hed]; rfl
            · intro hx; exact h.oneT t x e hx (by rw [hed]; rfl)) (by simp)
          (fun x d' hx => by
            have := h.oneT t x e (by rw [hx]; rfl) (by rw [hed]; rfl)
            subst this; rw [hed] at hx; cases hx; exact hdv) (by have := h.hi t e d hed; grind)
          ((h.inv.delEdge t e).addEdge t n v) hedge rfl (fun x _ hx => hx)
          (fun x hx => by
            have hx : (((s.assign.delEdge t e).addEdge t n v).nodes.get? x).isSome = true := hx
            rw [addEdge_nodes_get?, delEdge_nodes] at hx
            by_cases hxx : x = t ∨ x = n
            · exact .inr hxx
            · rw [if_neg hxx] at hx
              exact .inl hx)
        exact ⟨_, rfl, this.1, .inl this.2⟩
      · rw [if_neg hdv]
        refine ih { s with e := some e } ⟨h.base, h.inv, h.hi, h.adm, h.oneT, h.oneN, h.nodes, h.free, h.nd, h.sub, h.idle,
          (List.pairwise_cons.1 h.rank).2, fun v t hx => h.real v t (List.mem_cons_of_mem _ hx), fun a u hu huv => ?_⟩
        rcases h.closed a u hu huv with h1 | h1
        · rcases List.mem_cons.1 h1 with h2 | h2
          · cases h2; exact .inr ⟨e, d, hed, by grind⟩
          · exact .inl h2
        · exact .inr h1
    · rw [hm]
      dsimp only
      by_cases hvv : vnull < v
      · rw [if_pos hvv, hhas, if_neg (by simp), if_pos (h.free t (hT n t v hw) hno)]
        have := apTake hE h (ex := [])
            (s' := ⟨s.agents, s.tasks.erase t, s.assign.addEdge t n v, s.e⟩)
            (fun x => by rw [hno]; simp) (by simp)
            (fun x d' hx => by rw [hno] at hx; cases hx) hvv
            (h.inv.addEdge t n v) (fun a b => by
              show (s.assign.addEdge t n v).edge a b = _
              rw [edge_addEdge]
              by_cases ha : a = t
              · subst ha
                rw [if_pos rfl]
                by_cases hb : b = n
                · subst hb; simp
                · rw [if_neg hb, if_neg (fun hh => hb hh.2.symm)]; exact hno b
              · rw [if_neg ha, if_neg (fun hh => ha hh.1.symm)]) (by simp) (fun x hxt hx => (List.mem_erase_of_ne hxt).2 hx)
            (fun x hx => by
              have hx : ((s.assign.addEdge t n v).nodes.get? x).isSome = true := hx
              rw [addEdge_nodes_get?] at hx
              by_cases hxx : x = t ∨ x = n
              · exact .inr hxx
              · rw [if_neg hxx] at hx
                exact .inl hx)
        exact ⟨_, rfl, this.1, .inl this.2⟩
      · rw [if_neg hvv]
        refine ih s ⟨h.base, h.inv, h.hi, h.adm, h.oneT, h.oneN, h.nodes, h.free, h.nd, h.sub, h.idle,
          (List.pairwise_cons.1 h.rank).2, fun v t hx => h.real v t (List.mem_cons_of_mem _ hx), fun a u hu huv => ?_⟩
        rcases h.closed a u hu huv with h1 | h1
        · rcases List.mem_cons.1 h1 with h2 | h2
          · cases h2; exact absurd huv hvv
          · exact .inl h2
        · exact .inr h1

theorem apRank_mem {nlt : α → α → Bool} {g : Graph α Rat O} (hg : g.Inv) (n : α) (v : Rat) (t : α) :
    (v, t) ∈ apRank nlt g n ↔ g.edge n t = some v := by
  unfold apRank
  rw [mem_pySort, List.mem_map]
  constructor
  · rintro ⟨⟨a, b, c⟩, h1, h2⟩
    cases h2
    exact (hg.mem_edgesFrom.1 h1).2
  · intro h; exact ⟨(n, t, v), hg.mem_edgesFrom.2 ⟨rfl, h⟩, rfl⟩

theorem apRank_sorted {nlt : α → α → Bool} (ho : NodeOrder nlt) (g : Graph α Rat O) (n : α) :
    (apRank nlt g n).Pairwise (fun a b => b.1 ≤ a.1) := by
  unfold apRank
  refine List.Pairwise.imp ?_ (pySort_pairwise (lt := fun a b => balLt nlt b a) (fun a b c h1 h2 => ?_)
    (fun a b h => balLt_asymm ho _ _ h) _)
  · intro a b hab
    simp only [balLt, Bool.or_eq_false_iff, decide_eq_false_iff_not] at hab
    grind
  · exact balLt_trans ho _ _ _ h2 h1

def ApPost (w : α → α → Option Rat) (S T : List α) (vnull : Rat) (r : Py (Graph α Rat O)) : Prop :=
  ∃ s : ApSt α O, s.agents = [] ∧ r = .ok s.assign ∧ ApsInv w S T vnull s

theorem apLoop {nlt : α → α → Bool} (ho : NodeOrder nlt) {g : Graph α Rat O} (hg : g.Inv) {S T : List α} (hSn : S.Nodup) {vnull : Rat}
    (hS : ∀ n t v, g.edge n t = some v → t ∉ S) (hT : ∀ n t v, g.edge n t = some v → t ∈ T) :
    ∃ r, pyWhile (apsStep nlt g vnull) ⟨S, T, Graph.empty, none⟩ = some r ∧ ApPost (O := O) g.edge S T vnull r := by
  have hE : ∀ a t v, (a, t, v) ∈ g.edgeList ↔ g.edge a t = some v := fun _ _ _ => hg.mem_edgeList
  refine pyWhile_totalW (ApsInv g.edge S T vnull) _ lexNat lexNat_wf (apMeasure g.edgeList) ?_ ?_ ?_
  · intro s s' hs hstep
    unfold apsStep at hstep
    split at hstep
    · cases hstep
    · rename_i n rest hag
      have hag2 := hs.nd; rw [hag] at hag2
      have hT : ApTryInv g.edge S T vnull n (apRank nlt g n) { s with agents := rest } := by
        refine ⟨fun x hx hxn hx' => hs.stable x hx ?_, hs.inv, hs.hi, hs.adm, hs.oneT, hs.oneN, hs.nodes, hs.free, hag2, ?_, ?_, apRank_sorted ho g n, ?_, ?_⟩
        · rw [hag, List.mem_cons]; rintro (h | h)
          · exact hxn h
          · exact hx' h
        · intro x hx; exact hs.sub x (by rw [hag]; exact hx)
        · intro x hx; exact hs.idle x (by rw [hag]; exact hx)
        · intro v t h; exact (apRank_mem hg n v t).1 h
        · intro t v h _; exact .inl ((apRank_mem hg n v t).2 h)
      obtain ⟨s1, h1, h2, h3⟩ := apTry_spec hE hS ‹_› _ _ hT
      rw [h1] at hstep
      cases hstep
      refine ⟨h2, ?_⟩
      rcases h3 with h3 | ⟨h3, h4⟩
      · exact Prod.Lex.left _ _ h3
      · unfold apMeasure
        have : apWork g.edgeList { s with agents := rest } = apWork g.edgeList s := rfl
        rw [h3, this]
        refine Prod.Lex.right _ ?_
        rw [hag]; simp at h4 ⊢; omega
  · intro s r hs hstep
    unfold apsStep at hstep
    split at hstep
    · rename_i hag; cases hstep; exact ⟨s, hag, rfl, hs⟩
    · rename_i n rest hag
      have hag2 := hs.nd; rw [hag] at hag2
      have hT : ApTryInv g.edge S T vnull n (apRank nlt g n) { s with agents := rest } := by
        refine ⟨fun x hx hxn hx' => hs.stable x hx ?_, hs.inv, hs.hi, hs.adm, hs.oneT, hs.oneN, hs.nodes, hs.free, hag2, ?_, ?_, apRank_sorted ho g n, ?_, ?_⟩
        · rw [hag, List.mem_cons]; rintro (h | h)
          · exact hxn h
          · exact hx' h
        · intro x hx; exact hs.sub x (by rw [hag]; exact hx)
        · intro x hx; exact hs.idle x (by rw [hag]; exact hx)
        · intro v t h; exact (apRank_mem hg n v t).1 h
        · intro t v h _; exact .inl ((apRank_mem hg n v t).2 h)
      obtain ⟨s1, h1, h2, h3⟩ := apTry_spec hE hS ‹_› _ _ hT
      rw [h1] at hstep; cases hstep
  · refine ⟨inv_empty, ?_, ?_, ?_, ?_, ?_, fun t ht _ => ht, hSn, fun n hn => hn, fun _ _ _ => rfl, fun n hn hn' => absurd hn hn'⟩
    · intro t n v h; cases h
    · intro t n v h; cases h
    · intro t n n' h; cases h
    · intro t n n' h; cases h
    · intro x h; cases h

/-! ### the solver -/

theorem Graph.Inv.nodesInDeg_zero {g : Graph α V O} (hi : g.Inv) {n : α} (h : n ∈ g.nodesInDeg 0) (a : α) : g.edge a n = none := by
  unfold nodesInDeg at h; rw [mem_degFilter hi.inWF] at h
  cases he : g.edge a n with
  | none => rfl
  | some v =>
    rw [hi.inD n (hi.dom a n v he).2, Option.some.injEq] at h
    have : a ∈ g.nodesTo n := hi.mem_nodesTo.2 (by rw [he]; rfl)
    have := List.length_pos_of_mem this
    omega

theorem Graph.Inv.mem_nodesInDeg_zero {g : Graph α V O} (hi : g.Inv) {n : α} (hn : n ∈ g.nodes.keys) (h : ∀ a, g.edge a n = none) :
    n ∈ g.nodesInDeg 0 := by
  unfold nodesInDeg; rw [mem_degFilter hi.inWF, hi.inD n hn, Option.some.injEq]
  cases hx : g.nodesTo n with
  | nil => rfl
  | cons a l =>
    have := hi.mem_nodesTo.1 (show a ∈ g.nodesTo n by rw [hx]; simp)
    rw [h a] at this; cases this

theorem Graph.Inv.mem_nodesOutDeg_zero {g : Graph α V O} (hi : g.Inv) {n : α} (hn : n ∈ g.nodes.keys) (h : ∀ a, g.edge n a = none) :
    n ∈ g.nodesOutDeg 0 := by
  unfold nodesOutDeg; rw [mem_degFilter hi.outWF, hi.outD n hn, Option.some.injEq]
  cases hx : g.nodesFrom n with
  | nil => rfl
  | cons a l =>
    have := mem_nodesFrom.1 (show a ∈ g.nodesFrom n by rw [hx]; simp)
    rw [h a] at this; cases this

omit [DecidableEq α] in
theorem mem_apDummyEdges {agents dummies : List α} {m v : Rat} {a t : α} :
    (a, t, v) ∈ apDummyEdges agents dummies m ↔ t ∈ dummies ∧ a ∈ agents ∧ v = m := by
  unfold apDummyEdges
  simp only [List.mem_flatMap, List.mem_map, Prod.mk.injEq]
  constructor
  · rintro ⟨t', h1, a', h2, rfl, rfl, rfl⟩; exact ⟨h1, h2, rfl⟩
  · rintro ⟨h1, h2, rfl⟩; exact ⟨t, h1, a, h2, rfl, rfl, rfl⟩

/-- the generated names do not occur in the graph -/
def FreshFor (g : Graph α V O) (fresh : Nat → α) : Prop := ∀ i, g.has (fresh i) = false ∧ fresh i ∉ g.nodesInDeg 0

/-- `ap_solver` on a bipartite graph with at least one edge -/
theorem apSolverFl_main {fl : Rat → Rat} {nlt : α → α → Bool} (ho : NodeOrder nlt) {fresh : Nat → α} {g : Graph α Rat O} (hg : g.Inv)
    (hb : Bipartite g.edge) (hne : g.edgeList ≠ []) (hf : FreshFor g fresh) (hdec : ∀ x, fl (fl x - 1) ≤ fl x) :
    ∃ M g' m, g.apSolverFl fl nlt fresh = some (.ok M, g') ∧ (∃ a t, g.edge a t = some m) ∧ (∀ a t v, g.edge a t = some v → m ≤ v) ∧
      IsAssignment g.edge M ∧
      (∀ a t v, g.edge a t = some v → fl (m - 1) < v → (∃ t' v', (a, t', v') ∈ M ∧ v ≤ v') ∨ ∃ a' v', (a', t, v') ∈ M ∧ v ≤ v') ∧
      (∀ a t v, (a, t, v) ∈ M → (if (g.nodesOutDeg 0).length < (g.nodesInDeg 0).length then fl (fl (m - 1) - 1) else fl (m - 1)) < v) ∧ g'.Inv ∧
      (∀ a t, g.has t = true → g'.edge a t = g.edge a t) ∧
      ((g.nodesInDeg 0).length ≤ (g.nodesOutDeg 0).length → g' = g) := by
  unfold apSolverFl
  obtain ⟨m, hm, hmm, hmin⟩ := ratMin_spec (l := g.edgeList.map (fun e => e.2.2)) (by simpa using hne)
  have hmin : ∀ a t v, g.edge a t = some v → m ≤ v := fun a t v h =>
    hmin v (List.mem_map.2 ⟨(a, t, v), hg.mem_edgeList.2 h, rfl⟩)
  have hmem : ∃ a t, g.edge a t = some m := by
    obtain ⟨⟨a, t, v⟩, h1, h2⟩ := List.mem_map.1 hmm
    have h2 : v = m := h2
    subst h2
    exact ⟨a, t, hg.mem_edgeList.1 h1⟩
  dsimp only
  rw [hm]
  dsimp only
  generalize hS : g.nodesInDeg 0 = S
  generalize hT0 : g.nodesOutDeg 0 = T0
  generalize hD : (List.range (S.length - T0.length)).map fresh = D
  generalize hvn : (if T0.length < S.length then fl (fl (m - 1) - 1) else fl (m - 1)) = vnull
  generalize hG : g.addEdges (apDummyEdges S D (fl (m - 1))) = g'
  have hfD : ∀ t ∈ D, g.has t = false ∧ t ∉ S := by
    intro t ht
    rw [← hD, List.mem_map] at ht
    obtain ⟨i, _, rfl⟩ := ht
    rw [← hS]; exact hf i
  have hnoD : ∀ a t, t ∈ D → g.edge a t = none := by
    intro a t ht
    cases he : g.edge a t with
    | none => rfl
    | some v =>
      have := (hg.edge_mem he).2
      rw [← has_iff, (hfD t ht).1] at this; cases this
  have hF : Func (apDummyEdges S D (fl (m - 1))) := by
    intro a b v v' h1 h2
    rw [mem_apDummyEdges] at h1 h2
    rw [h1.2.2, h2.2.2]
  have hge : ∀ a t v, g'.edge a t = some v ↔ (t ∈ D ∧ a ∈ S ∧ v = fl (m - 1)) ∨ g.edge a t = some v := by
    intro a t v
    rw [← hG, addEdges_edge hF, mem_apDummyEdges]
    constructor
    · rintro (h | ⟨_, h⟩)
      · exact .inl h
      · exact .inr h
    · rintro (h | h)
      · exact .inl h
      · refine .inr ⟨fun w hw => ?_, h⟩
        rw [mem_apDummyEdges] at hw
        rw [hnoD a t hw.1] at h; cases h
  have hg' : g'.Inv := by rw [← hG]; exact addEdges_inv hg _
  have hSn : S.Nodup := by rw [← hS]; exact hg.nodup_nodesInDeg 0
  have hSin : ∀ a ∈ S, ∀ x, g.edge x a = none := by
    intro a ha x; rw [← hS] at ha; exact hg.nodesInDeg_zero ha x
  have h1 : ∀ n t v, g'.edge n t = some v → t ∉ S := by
    intro n t v h ht
    rcases (hge n t v).1 h with h | h
    · exact (hfD t h.1).2 ht
    · rw [hSin t ht] at h; cases h
  have h2 : ∀ n t v, g'.edge n t = some v → t ∈ T0 ++ D := by
    intro n t v h
    rw [List.mem_append]
    rcases (hge n t v).1 h with h | h
    · exact .inr h.1
    · left
      rw [← hT0]
      exact hg.mem_nodesOutDeg_zero (hg.dom n t v h).2 (hb n t (by rw [h]; rfl)).2
  have hDne : ∀ t, t ∈ D → T0.length < S.length := by
    intro t ht
    rw [← hD, List.mem_map] at ht
    obtain ⟨i, hi, _⟩ := ht
    rw [List.mem_range] at hi; omega
  have hvd : vnull ≤ fl (m - 1) := by
    rw [← hvn]; split
    · exact hdec _
    · exact Rat.le_refl
  obtain ⟨r, hr, s, hag, rfl, hs⟩ := apLoop ho hg' hSn h1 h2
  rw [hr]
  dsimp only
  refine ⟨_, g', m, rfl, hmem, hmin, ⟨?_, ?_, ?_⟩, ?_, ?_, hg', ?_, ?_⟩
  · intro a t v h
    simp only [List.mem_map, List.mem_filter, decide_eq_true_eq, Prod.mk.injEq] at h
    obtain ⟨⟨t', a', v'⟩, ⟨h1, h2⟩, rfl, rfl, rfl⟩ := h
    have := (hs.adm t' a' v' (hs.inv.mem_edgeList.1 h1)).1
    rcases (hge _ _ _).1 this with h | h
    · exact absurd h.1 h2
    · exact h
  · rw [List.map_map]
    have hp := (hs.inv.edgeList_nodup.sublist (List.filter_sublist (p := fun e => decide (e.1 ∉ D))))
    refine List.pairwise_map.2 (List.Pairwise.imp_of_mem ?_ hp)
    rintro ⟨t, a, v⟩ ⟨t', a', v'⟩ h1 h2 hne hh
    apply hne
    have e1 := hs.inv.mem_edgeList.1 (List.mem_filter.1 h1).1
    have e2 := hs.inv.mem_edgeList.1 (List.mem_filter.1 h2).1
    have hh : a = a' := hh
    subst hh
    have := hs.oneN t t' a (by rw [e1]; rfl) (by rw [e2]; rfl)
    subst this
    rw [e1] at e2; cases e2; rfl
  · rw [List.map_map]
    have hp := (hs.inv.edgeList_nodup.sublist (List.filter_sublist (p := fun e => decide (e.1 ∉ D))))
    refine List.pairwise_map.2 (List.Pairwise.imp_of_mem ?_ hp)
    rintro ⟨t, a, v⟩ ⟨t', a', v'⟩ h1 h2 hne hh
    apply hne
    have e1 := hs.inv.mem_edgeList.1 (List.mem_filter.1 h1).1
    have e2 := hs.inv.mem_edgeList.1 (List.mem_filter.1 h2).1
    have hh : t = t' := hh
    subst hh
    have := hs.oneT t a a' (by rw [e1]; rfl) (by rw [e2]; rfl)
    subst this
    rw [e1] at e2; cases e2; rfl
  · intro a t v hat hvv
    have hM : ∀ t' a' v', s.assign.edge t' a' = some v' → v ≤ v' → (a', t', v') ∈
        (s.assign.edgeList.filter (fun e => decide (e.1 ∉ D))).map (fun e => (e.2.1, e.1, e.2.2)) := by
      intro t' a' v' he hle
      refine List.mem_map.2 ⟨(t', a', v'), List.mem_filter.2 ⟨hs.inv.mem_edgeList.2 he, ?_⟩, rfl⟩
      simp only [decide_eq_true_eq]
      intro hD'
      rcases (hge a' t' v').1 (hs.adm t' a' v' he).1 with h | h
      · have := h.2.2; grind
      · rw [hnoD a' t' hD'] at h; cases h
    have haS : a ∈ S := by
      rw [← hS]
      exact hg.mem_nodesInDeg_zero (hg.dom a t v hat).1 (hb a t (by rw [hat]; rfl)).1
    rcases hs.stable a haS (by rw [hag]; simp) t v ((hge a t v).2 (.inr hat)) (by grind) with ⟨t', v', h, h'⟩ | ⟨n', v', h, h'⟩
    · exact .inl ⟨t', v', hM _ _ _ h h', h'⟩
    · exact .inr ⟨n', v', hM _ _ _ h h', h'⟩
  · intro a t v h
    rw [hvn]
    simp only [List.mem_map, List.mem_filter, Prod.mk.injEq] at h
    obtain ⟨⟨t', a', v'⟩, ⟨h1, _⟩, _, _, rfl⟩ := h
    exact hs.hi _ _ _ (hs.inv.mem_edgeList.1 h1)
  · intro a t ht
    refine Option.ext fun v => ?_
    rw [hge]
    constructor
    · rintro (h | h)
      · rw [(hfD t h.1).1] at ht; cases ht
      · exact h
    · exact .inr
  · intro hle
    have : D = [] := by rw [← hD]; simp; omega
    rw [← hG, this]; rfl

/-- `ap_solver` on a bipartite graph with at least one edge -/
theorem apSolver_main {nlt : α → α → Bool} (ho : NodeOrder nlt) {fresh : Nat → α} {g : Graph α Rat O} (hg : g.Inv)
    (hb : Bipartite g.edge) (hne : g.edgeList ≠ []) (hf : FreshFor g fresh) :
    ∃ M g', g.apSolver nlt fresh = some (.ok M, g') ∧ IsAssignment g.edge M ∧ Stable g.edge M ∧ g'.Inv ∧
      (∀ a t, g.has t = true → g'.edge a t = g.edge a t) ∧
      ((g.nodesInDeg 0).length ≤ (g.nodesOutDeg 0).length → g' = g) := by
  obtain ⟨M, g', m, h1, _, hm, h2, h3, _, h4⟩ := apSolverFl_main (fl := id) ho hg hb hne hf (fun x => by show x - 1 ≤ x; grind)
  refine ⟨M, g', h1, h2, fun a t v h => h3 a t v h ?_, h4⟩
  have := hm a t v h
  show m - 1 < v
  grind

/-- without edges `min` fails -/
theorem apSolver_empty {nlt : α → α → Bool} {fresh : Nat → α} {g : Graph α Rat O} (h : g.edgeList = []) :
    g.apSolver nlt fresh = some (.error .valueError, g) := by
  unfold apSolver; rw [h]; rfl

/-! ### a stable assignment is worth at least half of every assignment -/

/-- the value an agent or task gets in `M` -/
def gets (M : List (α × α × Rat)) (key : α × α × Rat → α) (x : α) : Rat := sumL M (fun e => if key e = x then e.2.2 else 0)

theorem sum_gets_le {M M' : List (α × α × Rat)} (hpos : ∀ e ∈ M, 0 ≤ e.2.2) (key : α × α × Rat → α) (hnd : (M'.map key).Nodup) :
    sumL M' (fun e => gets M key (key e)) ≤ sumL M (fun e => e.2.2) := by
  unfold gets
  rw [sumL_swap]
  refine sumL_le (fun e he => ?_)
  rw [← sumL_map M' key (fun x => if key e = x then e.2.2 else 0)]
  by_cases hk : key e ∈ M'.map key
  · rw [sumL_congr (g := fun y => if y = key e then e.2.2 else 0) (fun x _ => by
      by_cases hx : key e = x
      · rw [if_pos hx, if_pos hx.symm]
      · rw [if_neg hx, if_neg (fun hh => hx hh.symm)]), sumL_single hnd hk]
    exact Rat.le_refl
  · rw [sumL_eq_zero]
    · exact hpos e he
    · intro x hx
      exact if_neg (fun hh : key e = x => hk (hh ▸ hx))

theorem le_gets {M : List (α × α × Rat)} (hpos : ∀ e ∈ M, 0 ≤ e.2.2) (key : α × α × Rat → α) {e : α × α × Rat} (he : e ∈ M) :
    e.2.2 ≤ gets M key (key e) := by
  have := sumL_le_single (l := M) (f := fun x => if key x = key e then x.2.2 else 0) (fun x hx => by
    split
    · exact hpos x hx
    · exact Rat.le_refl) he
  rw [if_pos rfl] at this
  exact this

theorem stable_half {w : α → α → Option Rat} (hw : NonNeg w) {M M' : List (α × α × Rat)} (hM : IsAssignment w M) (hs : Stable w M)
    (hM' : IsAssignment w M') : totalValue M' ≤ 2 * totalValue M := by
  have hpos : ∀ e ∈ M, 0 ≤ e.2.2 := fun e he => hw _ _ _ (hM.edges e.1 e.2.1 e.2.2 he)
  have hg0 : ∀ key x, 0 ≤ gets M key x := fun key x => sumL_nonneg (fun e he => by
    split
    · exact hpos e he
    · exact Rat.le_refl)
  have h1 : totalValue M' ≤ sumL M' (fun e => gets M (fun e => e.1) e.1 + gets M (fun e => e.2.1) e.2.1) := by
    refine sumL_le (fun e he => ?_)
    rcases hs e.1 e.2.1 e.2.2 (hM'.edges _ _ _ he) with ⟨t', v', h, h'⟩ | ⟨a', v', h, h'⟩
    · have h2 := le_gets hpos (fun e => e.1) h
      have h3 := hg0 (fun e => e.2.1) e.2.1
      dsimp only at h2 h3 ⊢; grind
    · have h2 := le_gets hpos (fun e => e.2.1) h
      have h3 := hg0 (fun e => e.1) e.1
      dsimp only at h2 h3 ⊢; grind
  rw [sumL_add] at h1
  have h2 := sum_gets_le hpos (fun e => e.1) hM'.agents
  have h3 := sum_gets_le hpos (fun e => e.2.1) hM'.tasks
  unfold totalValue at *
  grind

end GT

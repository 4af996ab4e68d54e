import Verif.Flow.Assign
import Verif.Sp.BidirCmp
/-
`ap_solver` on tasks that cannot be compared: `value_and_task_for_n.sort(reverse=True)` compares the tasks with equal values.
-/
namespace GT
open Graph
variable {α O : Type} [DecidableEq α]

/-! ### model -/

/-- the opportunities of agent `n`, best first (assignment_problem.py:77-78); `cmp t t'`: the tasks can be compared.  The sort raises `TypeError` if two
tasks with equal values cannot be compared. -/
def apRankE (cmp nlt : α → α → Bool) (g : Graph α Rat O) (n : α) : Py (List (Rat × α)) :=
  let l := (g.edgesFrom n).map (fun e => (e.2.2, e.2.1))
  if ∃ a ∈ l, ∃ b ∈ l, a.2 ≠ b.2 ∧ a.1 = b.1 ∧ cmp a.2 b.2 = false then .error .typeError
  else .ok (apRank nlt g n)

/-- one iteration of `while unassigned_agents` (assignment_problem.py:75-91), where the sort can raise -/
def apsStepE (cmp nlt : α → α → Bool) (g : Graph α Rat O) (vnull : Rat) (s : ApSt α O) : ApSt α O ⊕ Py (Graph α Rat O) :=
  match s.agents with
  | [] => .inr (.ok s.assign)
  | n :: rest =>
    match apRankE cmp nlt g n with
    | .error e => .inr (.error e)
    | .ok l =>
      match apTry vnull n l { s with agents := rest } with
      | .error e => .inr (.error e)
      | .ok s => .inl s

/-- `ap_solver(graph)` (assignment_problem.py:8-93), where the sort can raise; the second component is the graph after the call -/
def Graph.apSolverE (cmp nlt : α → α → Bool) (fresh : Nat → α) (g : Graph α Rat O) : Option (Py (List (α × α × Rat)) × Graph α Rat O) :=
  let agents := g.nodesInDeg 0
  let tasks := g.nodesOutDeg 0
  match ratMin (g.edgeList.map (fun e => e.2.2)) with
  | .error e => some (.error e, g)
  | .ok m =>
    let k := agents.length - tasks.length
    let dummies := (List.range k).map fresh
    let g' := g.addEdges (apDummyEdges agents dummies (m - 1))
    let vnull := if tasks.length < agents.length then m - 1 - 1 else m - 1
    match pyWhile (apsStepE cmp nlt g' vnull) ⟨agents, tasks ++ dummies, Graph.empty, none⟩ with
    | none => none
    | some (.error e) => some (.error e, g')
    | some (.ok a) => some (.ok ((a.edgeList.filter (fun e => decide (e.1 ∉ dummies))).map (fun e => (e.2.1, e.1, e.2.2))), g')

/-! ### proofs -/

/-- agent `n` has two tasks with the same value that cannot be compared -/
def ApTied (cmp : α → α → Bool) (w : α → α → Option Rat) (n : α) : Prop :=
  ∃ t t' v, w n t = some v ∧ w n t' = some v ∧ t ≠ t' ∧ cmp t t' = false

theorem apRankE_cases (cmp nlt : α → α → Bool) {g : Graph α Rat O} (hg : g.Inv) (n : α) :
    (ApTied cmp g.edge n ∧ apRankE cmp nlt g n = .error .typeError) ∨ (¬ ApTied cmp g.edge n ∧ apRankE cmp nlt g n = .ok (apRank nlt g n)) := by
  have hmem : ∀ t v, (v, t) ∈ (g.edgesFrom n).map (fun e => (e.2.2, e.2.1)) ↔ g.edge n t = some v := by
    intro t v
    rw [← apRank_mem (nlt := nlt) hg n v t]
    unfold apRank
    rw [(pySort_perm _ _).mem_iff]
  have hiff : (∃ a ∈ (g.edgesFrom n).map (fun e => (e.2.2, e.2.1)), ∃ b ∈ (g.edgesFrom n).map (fun e => (e.2.2, e.2.1)),
      a.2 ≠ b.2 ∧ a.1 = b.1 ∧ cmp a.2 b.2 = false) ↔ ApTied cmp g.edge n := by
    constructor
    · rintro ⟨⟨v, t⟩, ha, ⟨v', t'⟩, hb, h1, h2, h3⟩
      dsimp only at h1 h2 h3
      subst h2
      exact ⟨t, t', v, (hmem t v).1 ha, (hmem t' v).1 hb, h1, h3⟩
    · rintro ⟨t, t', v, h1, h2, h3, h4⟩
      exact ⟨(v, t), (hmem t v).2 h1, (v, t'), (hmem t' v).2 h2, h3, rfl, h4⟩
  unfold apRankE
  by_cases h : ApTied cmp g.edge n
  · exact .inl ⟨h, if_pos (hiff.2 h)⟩
  · exact .inr ⟨h, if_neg (fun hh => h (hiff.1 hh))⟩

theorem apsStepE_cases (cmp nlt : α → α → Bool) {g : Graph α Rat O} (hg : g.Inv) (vnull : Rat) (s : ApSt α O) :
    apsStepE cmp nlt g vnull s = apsStep nlt g vnull s ∨
    ((∃ n, ApTied cmp g.edge n) ∧ apsStepE cmp nlt g vnull s = .inr (.error .typeError)) := by
  unfold apsStepE apsStep
  cases s.agents with
  | nil => exact .inl rfl
  | cons n rest =>
    dsimp only
    rcases apRankE_cases cmp nlt hg n with ⟨h1, h2⟩ | ⟨h1, h2⟩
    · rw [h2]; exact .inr ⟨⟨n, h1⟩, rfl⟩
    · rw [h2]; exact .inl rfl

/-- agents are only added to the queue -/
theorem apTry_agents (vnull : Rat) (n : α) (l : List (Rat × α)) : ∀ (s s' : ApSt α O), apTry vnull n l s = .ok s' → ∀ x ∈ s.agents, x ∈ s'.agents := by
  induction l with
  | nil => intro s s' h x hx; cases h; exact hx
  | cons e l ih =>
    obtain ⟨v, t⟩ := e
    intro s s' h x hx
    unfold apTry at h
    dsimp only at h
    have key : ∀ ed : Option α × Rat, (if ed.2 < v then
        if s.assign.has t then
          match ed.1 with
          | none => .error .unboundLocal
          | some e => .ok { s with e := ed.1, agents := s.agents ++ [e], assign := (s.assign.delEdge t e).addEdge t n v }
        else if t ∈ s.tasks then .ok { s with e := ed.1, tasks := s.tasks.erase t, assign := s.assign.addEdge t n v }
        else .error .keyError
      else apTry vnull n l { s with e := ed.1 } : Py (ApSt α O)) = .ok s' → x ∈ s'.agents := by
      intro ed h
      split at h
      · split at h
        · split at h
          · cases h
          · cases h; exact List.mem_append_left _ hx
        · split at h
          · cases h; exact hx
          · cases h
      · exact ih _ s' h x hx
    cases hE : s.assign.edgesFrom t with
    | nil => rw [hE] at h; exact key _ h
    | cons y ys => rw [hE] at h; exact key _ h

/-- the loop raises if a waiting agent has tied tasks and nothing else goes wrong -/
theorem apsRunE {cmp nlt : α → α → Bool} {g : Graph α Rat O} (hg : g.Inv) {vnull : Rat} {s : ApSt α O} {a : Graph α Rat O}
    (hr : pyWhile (apsStep nlt g vnull) s = some (.ok a)) :
    ((∃ n ∈ s.agents, ApTied cmp g.edge n) → pyWhile (apsStepE cmp nlt g vnull) s = some (.error .typeError)) ∧
    ((∀ n, ¬ ApTied cmp g.edge n) → pyWhile (apsStepE cmp nlt g vnull) s = some (.ok a)) := by
  refine ⟨fun ⟨n, hn, ht⟩ => ?_, fun hno => ?_⟩
  · rcases pyWhile_cut (bad := .error .typeError) (fun s => (apsStepE_cases cmp nlt hg vnull s).imp id And.right) hr with h | h
    · exfalso
      refine pyWhile_inv (step := apsStepE cmp nlt g vnull) (fun s => n ∈ s.agents) (fun r => ∀ a, r ≠ .ok a) ?_ ?_ hn h a rfl
      · intro s s' hs hst
        unfold apsStepE at hst
        split at hst
        · cases hst
        · rename_i m rest hag
          rcases apRankE_cases cmp nlt hg m with ⟨h1, h2⟩ | ⟨h1, h2⟩
          · rw [h2] at hst; cases hst
          · rw [h2] at hst
            dsimp only at hst
            split at hst
            · cases hst
            · rename_i s1 hs1
              cases hst
              rw [hag] at hs
              rcases List.mem_cons.1 hs with rfl | hs
              · exact absurd ht h1
              · exact apTry_agents _ _ _ _ _ hs1 n hs
      · intro s r hs hst
        unfold apsStepE at hst
        split at hst
        · rename_i hag; rw [hag] at hs; cases hs
        · rename_i m rest hag
          rcases apRankE_cases cmp nlt hg m with ⟨h1, h2⟩ | ⟨h1, h2⟩
          · rw [h2] at hst; cases hst; intro a h; cases h
          · rw [h2] at hst
            dsimp only at hst
            split at hst
            · cases hst; intro a h; cases h
            · cases hst
    · exact h
  · have : apsStepE cmp nlt g vnull = apsStep nlt g vnull := by
      funext s
      rcases apsStepE_cases cmp nlt hg vnull s with h | ⟨⟨n, hn⟩, _⟩
      · exact h
      · exact absurd hn (hno n)
    rw [this]; exact hr

/-- `ap_solver` raises `TypeError` exactly if an agent has two tasks with the same value that cannot be compared -/
theorem apSolverE_main {cmp nlt : α → α → Bool} (ho : NodeOrder nlt) {fresh : Nat → α} {g : Graph α Rat O} (hg : g.Inv)
    (hb : Bipartite g.edge) (hne : g.edgeList ≠ []) (hf : FreshFor g fresh) (hcf : ∀ i j, cmp (fresh i) (fresh j) = true) :
    ∃ M g', g.apSolver nlt fresh = some (.ok M, g') ∧
      ((∃ n, ApTied cmp g.edge n) → g.apSolverE cmp nlt fresh = some (.error .typeError, g')) ∧
      ((∀ n, ¬ ApTied cmp g.edge n) → g.apSolverE cmp nlt fresh = some (.ok M, g')) := by
  obtain ⟨M, g1, h1, _⟩ := apSolver_main ho hg hb hne hf
  refine ⟨M, g1, h1, ?_⟩
  unfold apSolver at h1
  unfold apSolverE
  obtain ⟨m, hm, hmm, hmin⟩ := ratMin_spec (l := g.edgeList.map (fun e => e.2.2)) (by simpa using hne)
  have hmin : ∀ a t v, g.edge a t = some v → m ≤ v := fun a t v h =>
    hmin v (List.mem_map.2 ⟨(a, t, v), hg.mem_edgeList.2 h, rfl⟩)
  dsimp only at h1 ⊢
  rw [hm] at h1 ⊢
  dsimp only at h1 ⊢
  generalize hD : (List.range ((g.nodesInDeg 0).length - (g.nodesOutDeg 0).length)).map fresh = D at h1 ⊢
  have hfD : ∀ t ∈ D, ∃ i, t = fresh i := by
    intro t ht
    rw [← hD, List.mem_map] at ht
    obtain ⟨i, _, rfl⟩ := ht
    exact ⟨i, rfl⟩
  have hnoD : ∀ a t, t ∈ D → g.edge a t = none := by
    intro a t ht
    cases he : g.edge a t with
    | none => rfl
    | some v =>
      obtain ⟨i, rfl⟩ := hfD t ht
      have := (hg.edge_mem he).2
      rw [← has_iff, (hf i).1] at this; cases this
  have hF : Func (apDummyEdges (g.nodesInDeg 0) D (m - 1)) := by
    intro a b v v' h1 h2
    rw [mem_apDummyEdges] at h1 h2
    rw [h1.2.2, h2.2.2]
  have hge : ∀ a t v, (g.addEdges (apDummyEdges (g.nodesInDeg 0) D (m - 1))).edge a t = some v ↔
      (t ∈ D ∧ a ∈ g.nodesInDeg 0 ∧ v = m - 1) ∨ g.edge a t = some v := by
    intro a t v
    rw [addEdges_edge hF, mem_apDummyEdges]
    constructor
    · rintro (h | ⟨_, h⟩)
      · exact .inl h
      · exact .inr h
    · rintro (h | h)
      · exact .inl h
      · refine .inr ⟨fun w hw => ?_, h⟩
        rw [mem_apDummyEdges] at hw
        rw [hnoD a t hw.1] at h; cases h
  have hg' := addEdges_inv hg (apDummyEdges (g.nodesInDeg 0) D (m - 1))
  generalize g.addEdges (apDummyEdges (g.nodesInDeg 0) D (m - 1)) = g' at h1 hge hg' ⊢
  have hti : ∀ n, ApTied cmp g'.edge n ↔ ApTied cmp g.edge n := by
    intro n
    constructor
    · rintro ⟨t, t', v, h1, h2, h3, h4⟩
      rcases (hge n t v).1 h1 with ⟨a1, _, a2⟩ | a1
      · rcases (hge n t' v).1 h2 with ⟨b1, _, _⟩ | b1
        · obtain ⟨i, rfl⟩ := hfD t a1
          obtain ⟨j, rfl⟩ := hfD t' b1
          rw [hcf] at h4; cases h4
        · have := hmin _ _ _ b1; grind
      · rcases (hge n t' v).1 h2 with ⟨b1, _, b2⟩ | b1
        · have := hmin _ _ _ a1; grind
        · exact ⟨t, t', v, a1, b1, h3, h4⟩
    · rintro ⟨t, t', v, h1, h2, h3, h4⟩
      exact ⟨t, t', v, (hge n t v).2 (.inr h1), (hge n t' v).2 (.inr h2), h3, h4⟩
  split at h1
  · cases h1
  · cases h1
  · rename_i a hr
    cases h1
    obtain ⟨k1, k2⟩ := apsRunE (cmp := cmp) hg' hr
    refine ⟨fun ⟨n, hn⟩ => ?_, fun hno => ?_⟩
    · rw [k1 ⟨n, ?_, (hti n).2 hn⟩]
      obtain ⟨t, _, v, he, _⟩ := hn
      refine hg.mem_nodesInDeg_zero (hg.edge_mem he).1 (fun a => ?_)
      cases h2 : g.edge a n with
      | none => rfl
      | some v' => have := (hb n t (by rw [he]; rfl)).1 a; rw [h2] at this; cases this
    · rw [k2 (fun n hn => hno n ((hti n).1 hn))]

end GT

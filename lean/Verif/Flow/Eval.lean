import Verif.Flow.MinCut
import Verif.Flow.MinCost
import Verif.Flow.Wtap
/-
Bounded evaluation of the models of `Flow/*`, for concrete examples only: a value computed with bounded loops is the value
of the model.
-/
namespace GT
variable {α O : Type} [DecidableEq α]
open Graph

theorem pyWhileD_of_runFuel' {σ ρ : Type} {step step' : σ → Option (σ ⊕ ρ)} (hs : ∀ s r, step' s = some r → step s = some r)
    {n : Nat} {s : σ} {r : ρ} (h : runFuelD step' n s = some r) : pyWhileD step s = some r := by
  induction n generalizing s with
  | zero => simp [runFuelD] at h
  | succ n ih =>
    unfold runFuelD at h
    rw [pyWhileD_eq]
    cases hst : step' s with
    | none => rw [hst] at h; cases h
    | some o =>
      rw [hs s o hst]
      cases o with
      | inl s' => rw [hst] at h; exact ih h
      | inr r' => rw [hst] at h; exact h

/-- `shortest_path` with a bounded loop -/
def spF (k : Nat) (g : Graph α Rat O) (start fin : α) : Option (Py (Ext × List α)) :=
  if !g.has start then some (.error .valueError)
  else if !g.has fin then some (.error .valueError)
  else match runFuel (dijStep g.outNbr fin) k ⟨[⟨0, 0, start, []⟩], Dict.empty.set start 0, [], 1⟩ with
    | none => none
    | some r => some (.ok r)

theorem spF_ok {k : Nat} {g : Graph α Rat O} {start fin : α} {r : Py (Ext × List α)} (h : spF k g start fin = some r) :
    g.shortestPath start fin = some r := by
  unfold spF at h
  unfold shortestPath
  split at h
  · rename_i h1; rw [if_pos h1]; exact h
  · rename_i h1; rw [if_neg h1]
    split at h
    · rename_i h2; rw [if_pos h2]; exact h
    · rename_i h2; rw [if_neg h2]
      split at h
      · cases h
      · rename_i r' hr; rw [pyWhile_of_runFuel hr]; exact h

def mfStepF (k : Nat) (g : Graph α Rat O) (start fin : α) (s : MfSt α O) : Option (MfSt α O ⊕ Py (Rat × Graph α Rat O)) :=
  if s.unassigned = 0 then some (.inr (.ok (s.total, s.flow)))
  else match spF k s.inv start fin with
    | none => none
    | some (.error e) => some (.inr (.error e))
    | some (.ok (.inf, _)) => some (.inr (.ok (s.total, s.flow)))
    | some (.ok (.fin _, path)) => match g.edgesPath path with
      | .error e => some (.inr (.error e))
      | .ok es => match ratMin (es.map (mfLeft s.capg)) with
        | .error e => some (.inr (.error e))
        | .ok pf => match forE es (s.flow, s.capg, s.inv) (mfRecord g pf) with
          | .error e => some (.inr (.error e))
          | .ok (flow, capg, inv) => some (.inl ⟨inv, capg, flow, s.unassigned - pf, s.total + pf⟩)

theorem mfStepF_ok {k : Nat} {g : Graph α Rat O} {start fin : α} (s : MfSt α O) (r) (h : mfStepF k g start fin s = some r) :
    mfStep g start fin s = some r := by
  unfold mfStepF at h
  unfold mfStep
  by_cases hu : s.unassigned = 0
  · rw [if_pos hu] at h ⊢; exact h
  · rw [if_neg hu] at h ⊢
    cases hsp : spF k s.inv start fin with
    | none => rw [hsp] at h; cases h
    | some x => rw [hsp] at h; rw [spF_ok hsp]; exact h

def mfF (k : Nat) (g : Graph α Rat O) (start fin : α) : Option (Py (Rat × Graph α Rat O)) :=
  if !g.has start then some (.error .valueError)
  else if !g.has fin then some (.error .valueError)
  else runFuelD (mfStepF k g start fin) k ⟨g.mfInverted, Graph.empty, Graph.empty, g.mfBound start fin, 0⟩

theorem mfF_ok {k : Nat} {g : Graph α Rat O} {start fin : α} {r} (h : mfF k g start fin = some r) : g.maximumFlow start fin = some r := by
  unfold mfF at h
  unfold maximumFlow
  split at h
  · rename_i h1; rw [if_pos h1]; exact h
  · rename_i h1; rw [if_neg h1]
    split at h
    · rename_i h2; rw [if_pos h2]; exact h
    · rename_i h2; rw [if_neg h2]
      exact pyWhileD_of_runFuel' mfStepF_ok h

def bfwF (k : Nat) (g : Graph α Rat O) (start fin : α) : Option (Py (List α)) :=
  if !g.has start then some (.error .valueError)
  else if !g.has fin then some (.error .valueError)
  else match runFuel (bfwStep g.nodesFrom (some fin)) k (Dict.empty.set start none, [start], []) with
    | none => none
    | some out => some (.ok out)

theorem bfwF_ok {k : Nat} {g : Graph α Rat O} {start fin : α} {r} (h : bfwF k g start fin = some r) :
    g.breadthFirstWalk start (some fin) false = some r := by
  unfold bfwF at h
  unfold breadthFirstWalk
  dsimp only
  by_cases h1 : (!g.has start) = true
  · rw [if_pos h1] at h ⊢; exact h
  · rw [if_neg h1] at h ⊢
    by_cases h2 : (!g.has fin) = true
    · rw [if_pos h2] at h ⊢; exact h
    · rw [if_neg h2] at h ⊢
      rw [if_neg (by simp)]
      split at h
      · cases h
      · rename_i r' hr; rw [pyWhile_of_runFuel hr]; exact h

def mcF (k : Nat) (g : Graph α Rat O) (start fin : α) : Option (Py (List (α × α))) :=
  if !g.has start then some (.error .valueError)
  else if !g.has fin then some (.error .valueError)
  else match mfF k g start fin with
    | none => none
    | some (.error e) => some (.error e)
    | some (.ok (flow, mfg)) =>
      if flow = 0 then some (.ok [])
      else match bfwF k mfg start fin with
        | none => none
        | some (.error e) => some (.error e)
        | some (.ok walk) =>
          match forE walk ((Graph.empty : Graph α Rat O).fromList 1 mfg.toList, [])
              (fun s n1 => forE (mfg.nodesFrom n1) s (mcEdge g mfg n1)) with
          | .error e => some (.error e)
          | .ok (work, cut) =>
            let nodes := work.nodesOutDeg 0
            if fin ∈ nodes then some (.ok (cut.filter (fun p => decide (p.1 ∈ nodes ∧ p.1 ≠ fin))))
            else some (.error .keyError)

theorem mcF_ok {k : Nat} {g : Graph α Rat O} {start fin : α} {r} (h : mcF k g start fin = some r) : g.maxFlowMinCut start fin = some r := by
  unfold mcF at h
  unfold maxFlowMinCut
  split at h
  · rename_i h1; rw [if_pos h1]; exact h
  · rename_i h1; rw [if_neg h1]
    split at h
    · rename_i h2; rw [if_pos h2]; exact h
    · rename_i h2; rw [if_neg h2]
      cases hm : mfF k g start fin with
      | none => rw [hm] at h; cases h
      | some x =>
        rw [hm] at h; rw [mfF_ok hm]
        cases x with
        | error e => exact h
        | ok y =>
          obtain ⟨flow, mfg⟩ := y
          dsimp only at h ⊢
          by_cases hf : flow = 0
          · rw [if_pos hf] at h ⊢; exact h
          · rw [if_neg hf] at h ⊢
            cases hb : bfwF k mfg start fin with
            | none => rw [hb] at h; cases h
            | some z => rw [hb] at h; rw [bfwF_ok hb]; exact h

def mcfStepF (k : Nat) (nlt : α → α → Bool) (capacity : Graph α Ext O) (s : McfSt α O) : Option (McfSt α O ⊕ Py (Graph α Rat O)) :=
  match s.balance with
  | [] => some (.inr (.ok s.flows))
  | (D, dn) :: bal =>
    if 0 < D then some (.inr (.ok s.flows))
    else match mcfSites s.distances dn bal with
      | .error e => some (.inr (.error e))
      | .ok sites => match pySort (siteLt nlt) sites with
        | [] => some (.inr (.ok s.flows))
        | (dist, E, en) :: _ =>
          let bal := bal.erase (E, en)
          if E < 0 then some (.inr (.ok s.flows))
          else if dist = .inf then some (.inr (.error .exception))
          else match spF k s.paths en dn with
            | none => none
            | some (.error e) => some (.inr (.error e))
            | some (.ok (_, path)) => match mcfLimit capacity s.caps (pairs path) with
              | .error e => some (.inr (.error e))
              | .ok lim =>
                let L := mcfL E D lim
                match forE (pairs path) s (mcfEdge capacity L) with
                | .error e => some (.inr (.error e))
                | .ok s =>
                  let bal := if 0 < E - L then insSorted (balLt nlt) (E - L, en) bal else bal
                  let bal := if D + L < 0 then insSorted (balLt nlt) (D + L, dn) bal else bal
                  some (.inl { s with balance := bal })

theorem mcfStepF_ok {k : Nat} {nlt : α → α → Bool} {capacity : Graph α Ext O} (s : McfSt α O) (r) (h : mcfStepF k nlt capacity s = some r) :
    mcfStep nlt capacity s = some r := by
  unfold mcfStepF at h
  unfold mcfStep
  split at h
  · rename_i h1; rw [h1]; exact h
  · rename_i D dn bal h1
    rw [h1]
    dsimp only
    by_cases h2 : 0 < D
    · rw [if_pos h2] at h ⊢; exact h
    · rw [if_neg h2] at h ⊢
      cases h3 : mcfSites s.distances dn bal with
      | error e => rw [h3] at h; exact h
      | ok sites =>
        rw [h3] at h
        dsimp only at h ⊢
        cases h4 : pySort (siteLt nlt) sites with
        | nil => rw [h4] at h; exact h
        | cons x xs =>
          rw [h4] at h
          obtain ⟨dist, E, en⟩ := x
          dsimp only at h ⊢
          by_cases h5 : E < 0
          · rw [if_pos h5] at h ⊢; exact h
          · rw [if_neg h5] at h ⊢
            by_cases h6 : dist = .inf
            · rw [if_pos h6] at h ⊢; exact h
            · rw [if_neg h6] at h ⊢
              cases h7 : spF k s.paths en dn with
              | none => rw [h7] at h; cases h
              | some y => rw [h7] at h; rw [spF_ok h7]; exact h

def mcfF (k : Nat) (nlt : α → α → Bool) (costs : Graph α Rat O) (inventory : Dict α Rat) (capacity : Option (Graph α Ext O)) :
    Option (Py (Rat × Graph α Rat O)) :=
  if costs.edgeList.any (fun e => decide (e.2.2 < 0)) then some (.error .valueError)
  else match mcfCapacity costs capacity with
    | .error e => some (.error e)
    | .ok capacity =>
      let balance := pySort (balLt nlt) ((inventory.items.filter (fun p => decide (p.2 ≠ 0))).map (fun p => (p.2, p.1)))
      let paths := costs.copy
      match runFuelD (mcfStepF k nlt capacity) k ⟨paths, Graph.empty, Graph.empty, balance, paths.allPairs⟩ with
      | none => none
      | some (.error e) => some (.error e)
      | some (.ok flows) =>
        match forE flows.edgeList (0 : Rat) (fun acc e => match costs.edge e.1 e.2.1 with
          | none => .error .typeError
          | some c => .ok (acc + e.2.2 * c)) with
        | .error e => some (.error e)
        | .ok total => some (.ok (total, flows))

theorem mcfF_ok {k : Nat} {nlt : α → α → Bool} {costs : Graph α Rat O} {inventory : Dict α Rat} {capacity : Option (Graph α Ext O)} {r}
    (h : mcfF k nlt costs inventory capacity = some r) : costs.minCostFlow nlt inventory capacity = some r := by
  unfold mcfF at h
  unfold minCostFlow
  split at h
  · rename_i h1; rw [if_pos h1]; exact h
  · rename_i h1; rw [if_neg h1]
    cases h2 : mcfCapacity costs capacity with
    | error e => rw [h2] at h; exact h
    | ok capg =>
      rw [h2] at h
      dsimp only at h ⊢
      split at h
      · cases h
      · rename_i e h3; rw [pyWhileD_of_runFuel' mcfStepF_ok h3]; exact h
      · rename_i f h3; rw [pyWhileD_of_runFuel' mcfStepF_ok h3]; exact h

/-- `ap_solver` with a bounded loop -/
def apF (k : Nat) (nlt : α → α → Bool) (fresh : Nat → α) (g : Graph α Rat O) : Option (Py (List (α × α × Rat)) × Graph α Rat O) :=
  let agents := g.nodesInDeg 0
  let tasks := g.nodesOutDeg 0
  match ratMin (g.edgeList.map (fun e => e.2.2)) with
  | .error e => some (.error e, g)
  | .ok m =>
    let k' := agents.length - tasks.length
    let dummies := (List.range k').map fresh
    let g' := g.addEdges (apDummyEdges agents dummies (m - 1))
    let vnull := if tasks.length < agents.length then m - 1 - 1 else m - 1
    match runFuel (apsStep nlt g' vnull) k ⟨agents, tasks ++ dummies, Graph.empty, none⟩ with
    | none => none
    | some (.error e) => some (.error e, g')
    | some (.ok a) => some (.ok ((a.edgeList.filter (fun e => decide (e.1 ∉ dummies))).map (fun e => (e.2.1, e.1, e.2.2))), g')

theorem apF_ok {k : Nat} {nlt : α → α → Bool} {fresh : Nat → α} {g : Graph α Rat O} {r} (h : apF k nlt fresh g = some r) :
    g.apSolver nlt fresh = some r := by
  unfold apF at h
  unfold apSolver
  dsimp only at h ⊢
  split at h
  · rename_i h1; rw [h1]; exact h
  · rename_i m h1; rw [h1]
    dsimp only
    split at h
    · cases h
    · rename_i e h2; rw [pyWhile_of_runFuel h2]; exact h
    · rename_i e h2; rw [pyWhile_of_runFuel h2]; exact h

end GT

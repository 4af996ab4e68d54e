import Verif.Search.WorkBound
import Verif.Dag.Phase
import Verif.Sp.BidirAny
/-
How many passes the `while` loops of `phase_lines` and `components` take.
-/
namespace GT
variable {α V O : Type} [DecidableEq α]
open Graph

/-- `phase_lines(graph)` (dag.py:5-89), cut after `k` passes of `while q` (line 66) -/
def Graph.phaseLinesUpTo (k : Nat) (ord : Nat → List α → List α) (g : Graph α V O) : Option (Py (Dict α Nat)) :=
  let g2 := g.copy
  let q := g2.nodesInDeg 0
  if q = [] then some (.error .attributeError)
  else runFuel (phaseStep ord) k ⟨g2, q, phaseInit g.nodeList, 0⟩

/-- one pass of the outer loop of `components` (base.py:507-520), the inner loop (line 515) cut after `k` passes -/
def compOuterUpTo (k : Nat) (succ pred : α → List α) (pop : Nat → List α → α) :
    Nat × List α × List (List α) → Option ((Nat × List α × List (List α)) ⊕ List (List α))
  | (t, nodes, sets) =>
    if nodes.isEmpty then some (.inr sets)
    else
      let n := pop t nodes
      let nodes := nodes.filter (fun x => x ≠ n)
      match runFuel (compInner succ pred pop) k (t + 1, saddAll (saddAll [] (succ n)) (pred n), [n]) with
      | none => none
      | some (t, comp) => some (.inl (t, nodes.filter (fun x => x ∉ comp), sets ++ [comp]))

/-- `components(graph)` (base.py:497-521), each of its two loops (lines 507, 515) cut after `k` passes -/
def Graph.componentsUpTo (k : Nat) (g : Graph α V O) (pop : Nat → List α → α) : Option (List (List α)) :=
  runFuelD (compOuterUpTo k g.nodesFrom g.nodesTo pop) k (0, g.nodeList, [])

theorem Graph.phaseLinesUpTo_eq {g : Graph α V O} (hg : g.Built) {ord : Nat → List α → List α} (ho : ∀ t l, (ord t l).Perm l) :
    g.phaseLinesUpTo (g.nodeList.length + 1) ord = g.phaseLines ord := by
  have hr := Remaining.copy hg.inv
  unfold phaseLinesUpTo phaseLines
  by_cases hq : g.copy.nodesInDeg 0 = []
  · simp [hq]
  · simp only [hq, if_false]
    refine runFuel_eq (runFuel_bound (fun m s => ∃ out, PhaseInv g s out ∧ s.q.Nodup ∧ unvis g.nodeList out = m) ?_ _ _ _
      ⟨[], PhaseInv.init hr (fun _ => has_iff.symm) rfl, hr.inv.nodup_nodesInDeg 0, rfl⟩ (by rw [unvis_nil]; omega))
    rintro m s s' ⟨out, hI, hnd, rfl⟩ hst
    have hqe : s.q ≠ [] := by
      intro h0
      unfold phaseStep at hst
      rw [if_pos h0] at hst; cases hst
    rcases phase_round ho hI hqe hnd with ⟨_, h2⟩ | ⟨s2, out', h1, h2, h3, h4⟩
    · rw [h2] at hst; cases hst
    · rw [h1] at hst; cases hst
      exact ⟨_, h4, out', h2, h3, rfl⟩

theorem filter_saddAll_out (P : α → Bool) : ∀ (m l : List α), (∀ y ∈ m, P y = false) → (saddAll l m).filter P = l.filter P
  | [], l, _ => rfl
  | a :: m, l, hm => by
    have h6 := hm a (by simp)
    have := filter_saddAll_out P m (sadd l a) (fun y hy => hm y (by simp [hy]))
    simp only [saddAll, List.foldl_cons] at *
    rw [this]
    unfold sadd; split
    · rfl
    · simp [List.filter_append, h6]

theorem compInner_passes {succ pred : α → List α} {U : List α} (hsU : ∀ a, ∀ b ∈ succ a, b ∈ U) (hpU : ∀ a, ∀ b ∈ pred a, b ∈ U)
    {pop : Nat → List α → α} (hpop : ∀ t l, l ≠ [] → pop t l ∈ l) {n : α} (hU : U.Nodup) (hn : n ∈ U) (t : Nat) {k : Nat} (hk : U.length < k) :
    ∃ r, runFuel (compInner succ pred pop) k (t, saddAll (saddAll [] (succ n)) (pred n), [n]) = some r := by
  refine runFuel_measure (fun s => ∀ y ∈ s.2.1, y ∈ U)
    (fun s => unvis U s.2.2 + (s.2.1.filter (fun y => decide (y ∈ s.2.2))).length) ?_ ?_ ?_
  · rintro ⟨t, nn, comp⟩ ⟨t', nn', comp'⟩ hI hst
    simp only [compInner] at hst
    by_cases hne : nn.isEmpty = true
    · rw [if_pos hne] at hst; cases hst
    · rw [if_neg hne] at hst
      have hm : pop t nn ∈ nn := hpop t nn (by simpa using hne)
      generalize pop t nn = x at *
      simp only [Sum.inl.injEq, Prod.mk.injEq] at hst
      obtain ⟨rfl, rfl, rfl⟩ := hst
      dsimp only at hI ⊢
      refine ⟨fun y hy => ?_, ?_⟩
      · simp only [mem_saddAll, List.mem_filter] at hy
        rcases hy with (hy | hy) | hy
        · exact hI y hy.1
        · exact hsU _ y hy.1
        · exact hpU _ y hy.1
      · rw [filter_saddAll_out _ _ _ (fun y hy => by simp only [List.mem_filter, decide_eq_true_eq] at hy; simpa using hy.2),
          filter_saddAll_out _ _ _ (fun y hy => by simp only [List.mem_filter, decide_eq_true_eq] at hy; simpa using hy.2), List.filter_filter]
        by_cases hx : x ∈ comp
        · have hs : sadd comp x = comp := by simp [sadd, hx]
          rw [hs]
          have := filterLen_lt (P := fun y => decide (y ∈ comp) && decide (y ≠ x)) (Q := fun y => decide (y ∈ comp)) nn
            (fun y _ hy => by simp at hy; simp [hy.1]) x hm (by simp) (by simp [hx])
          omega
        · have h1 : unvis U (sadd comp x) < unvis U comp := unvis_lt (x := x) (fun y hy => by simp [hy]) (hI x hm) hx (by simp)
          have h2 := filterLen_le (P := fun y => decide (y ∈ sadd comp x) && decide (y ≠ x)) (Q := fun y => decide (y ∈ comp)) nn
            (fun y _ hy => by simp only [Bool.and_eq_true, decide_eq_true_eq, mem_sadd] at hy ⊢; grind)
          omega
  · intro y hy
    simp only [mem_saddAll, List.not_mem_nil, false_or] at hy
    rcases hy with hy | hy
    · exact hsU _ y hy
    · exact hpU _ y hy
  · have h1 := unvis_single hU hn
    have h2 : ((saddAll (saddAll [] (succ n)) (pred n)).filter (fun y => decide (y ∈ [n]))).length ≤ 1 := by
      have hnd : ((saddAll (saddAll [] (succ n)) (pred n)).filter (fun y => decide (y ∈ [n]))).Nodup := (nodup_saddAll (nodup_saddAll (by simp))).filter _
      exact List.Nodup.length_le_of_subset hnd (l₂ := [n]) (fun y hy => by simp at hy ⊢; exact hy.2)
    dsimp only
    omega

theorem pyWhileD_bound {σ ρ : Type} {step step' : σ → Option (σ ⊕ ρ)} (I : σ → Prop) (m : σ → Nat)
    (hI : ∀ s s', I s → step s = some (.inl s') → I s' ∧ m s' < m s) (he : ∀ s, I s → step' s = step s) :
    ∀ (k : Nat) (s : σ), I s → m s < k → runFuelD step' k s = pyWhileD step s := by
  intro k
  induction k with
  | zero => intro s _ h; omega
  | succ k ih =>
    intro s hs hk
    unfold runFuelD
    rw [he s hs, pyWhileD_eq]
    match h : step s with
    | none => rfl
    | some (.inr r) => rfl
    | some (.inl s') =>
      obtain ⟨h1, h2⟩ := hI s s' hs h
      exact ih s' h1 (by omega)

theorem Graph.componentsUpTo_eq {g : Graph α V O} (hg : g.Built) {pop : Nat → List α → α} (hpop : ∀ t l, l ≠ [] → pop t l ∈ l) :
    g.componentsUpTo (g.nodeList.length + 1) pop = g.components pop := by
  have hsU : ∀ a, ∀ b ∈ g.nodesFrom a, b ∈ g.nodeList := fun a b h => (hg.inv.finite a b (mem_nodesFrom.1 h)).2
  have hpU : ∀ a, ∀ b ∈ g.nodesTo a, b ∈ g.nodeList := fun a b h => (hg.inv.finite b a (hg.inv.mem_nodesTo.1 h)).1
  unfold componentsUpTo components
  refine pyWhileD_bound (fun s => ∀ y ∈ s.2.1, y ∈ g.nodeList) (fun s => s.2.1.length) ?_ ?_ _ _ (fun y hy => hy) (Nat.lt_succ_self _)
  · rintro ⟨t, nodes, sets⟩ ⟨t', nodes', sets'⟩ hI hst
    simp only [compOuter] at hst
    by_cases hne : nodes.isEmpty = true
    · rw [if_pos hne] at hst; cases hst
    · rw [if_neg hne] at hst
      have hm : pop t nodes ∈ nodes := hpop t nodes (by simpa using hne)
      generalize pop t nodes = n at *
      split at hst
      · cases hst
      · cases hst
        dsimp only at hI ⊢
        refine ⟨fun y hy => hI y ?_, ?_⟩
        · simp only [List.mem_filter] at hy; exact hy.1.1
        · refine Nat.lt_of_le_of_lt (List.length_filter_le _ _) ?_
          have := filterLen_lt (P := fun y => decide (y ≠ n)) (Q := fun _ => true) nodes (fun y _ _ => rfl) n hm (by simp) rfl
          exact Nat.lt_of_lt_of_le this (List.length_filter_le _ _)
  · rintro ⟨t, nodes, sets⟩ hI
    simp only [compOuter, compOuterUpTo]
    by_cases hne : nodes.isEmpty = true
    · rw [if_pos hne, if_pos hne]
    · rw [if_neg hne, if_neg hne]
      have hm : pop t nodes ∈ nodes := hpop t nodes (by simpa using hne)
      rw [runFuel_eq (compInner_passes hsU hpU hpop hg.inv.nodesWF (hI _ hm) (t + 1) (Nat.lt_succ_self _))]
      rfl

end GT

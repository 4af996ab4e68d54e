import Verif.Search.Util
import Verif.Graph.Inv
/-
Model of `BasicGraph.is_connected` (graph/base.py:338-354) and its correctness proof.
-/
namespace GT
variable {α V O : Type} [DecidableEq α]

/-- the `for c in …` loop (base.py:347-353): `none` = `return True`, otherwise the new queue -/
def connScan (n2 : α) (visited : List α) : List α → List α → Option (List α)
  | [], q => some q
  | c :: cs, q =>
    if c = n2 then none
    else if c ∈ visited then connScan n2 visited cs q
    else connScan n2 visited cs (q ++ [c])

/-- one iteration of `while q` (base.py:343-353); the state is `(q, visited)` -/
def connStep (succ : α → List α) (n2 : α) : List α × List α → (List α × List α) ⊕ Bool
  | ([], _) => .inr false
  | (n :: q, visited) =>
    let visited := sadd visited n
    match connScan n2 visited (succ n) q with
    | none => .inr true
    | some q => .inl (q, visited)

namespace Graph
/-- `is_connected(n1, n2)` (base.py:338-354).  `self._edges.get(n, {})` is `nodesFrom`. -/
def isConnected (g : Graph α V O) (n1 n2 : α) : Option Bool :=
  if g.edges.contains n1 then pyWhile (connStep g.nodesFrom n2) ([n1], []) else some false
end Graph

theorem connScan_eq (n2 : α) (visited cs q : List α) :
    connScan n2 visited cs q = if n2 ∈ cs then none else some (q ++ cs.filter (fun c => c ∉ visited)) := by
  induction cs generalizing q with
  | nil => simp [connScan]
  | cons c cs ih =>
    unfold connScan
    by_cases h : c = n2
    · simp [h]
    · have h' : ¬ n2 = c := fun e => h e.symm
      by_cases hv : c ∈ visited
      · simp [h, h', hv, ih]
      · simp [h, h', hv, ih]

/-- the loop of `is_connected` decides `ReachPlus` -/
theorem conn_total {succ : α → List α} {U : List α} (hU : FiniteOn (fun a b => b ∈ succ a) U)
    {n1 : α} (h1 : n1 ∈ U) (n2 : α) :
    ∃ r, pyWhile (connStep succ n2) ([n1], []) = some r ∧
      (r = true ↔ ReachPlus (fun a b => b ∈ succ a) n1 n2) := by
  let R : α → α → Prop := fun a b => b ∈ succ a
  let I : List α × List α → Prop := fun s =>
    (∀ x ∈ s.1, Reach R n1 x ∧ x ∈ U) ∧ (n1 ∈ s.1 ∨ n1 ∈ s.2) ∧
    (∀ x ∈ s.2, n2 ∉ succ x ∧ ∀ c ∈ succ x, c ∈ s.1 ∨ c ∈ s.2)
  apply pyWhile_totalW (step := connStep succ n2) I (fun r => r = true ↔ ReachPlus R n1 n2) lexNat lexNat_wf
    (fun s => (unvis U s.2, (s.1.filter (fun x => decide (x ∈ s.2))).length))
  · rintro ⟨q, vis⟩ ⟨q', vis'⟩ ⟨hq, hs, hv⟩ hst
    cases q with
    | nil => simp [connStep] at hst
    | cons n q =>
      simp only [connStep, connScan_eq] at hst
      by_cases h2 : n2 ∈ succ n
      · rw [if_pos h2] at hst; simp at hst
      · rw [if_neg h2] at hst
        simp only [Sum.inl.injEq, Prod.mk.injEq] at hst
        obtain ⟨rfl, rfl⟩ := hst
        obtain ⟨hn, hnU⟩ := hq n (by simp)
        refine ⟨⟨?_, ?_, ?_⟩, ?_⟩
        · intro x hx
          simp only [List.mem_append, List.mem_filter, mem_sadd, not_or, decide_eq_true_eq] at hx
          rcases hx with hx | hx
          · exact hq x (List.mem_cons_of_mem _ hx)
          · exact ⟨hn.tail hx.1, (hU n x hx.1).2⟩
        · simp only [List.mem_append, mem_sadd]
          simp only [List.mem_cons] at hs
          grind
        · intro x hx
          simp only [mem_sadd] at hx
          simp only [List.mem_append, List.mem_filter, mem_sadd, not_or, decide_eq_true_eq]
          by_cases hxn : x = n
          · subst hxn; exact ⟨h2, fun c hc => by by_cases h : c = x <;> by_cases h' : c ∈ vis <;> simp [h, h', hc]⟩
          · have := hv x (hx.resolve_left hxn)
            refine ⟨this.1, fun c hc => ?_⟩
            have := this.2 c hc
            simp only [List.mem_cons] at this
            grind
        · by_cases hnv : n ∈ vis
          · have hsv : sadd vis n = vis := by simp [sadd, hnv]
            rw [hsv]
            refine lexNat_right (Nat.le_refl _) ?_
            have : ((succ n).filter (fun c => decide (c ∉ vis))).filter (fun x => decide (x ∈ vis)) = [] := by
              rw [List.filter_eq_nil_iff]
              intro a ha; simp only [List.mem_filter, decide_eq_true_eq] at ha; simp [ha.2]
            simp only [List.filter_append, this, List.append_nil, List.filter_cons, hnv, decide_true, if_true,
              List.length_cons]
            omega
          · refine lexNat_left (unvis_lt (x := n) ?_ hnU hnv ?_)
            · intro x hx; simp [hx]
            · simp
  · rintro ⟨q, vis⟩ r ⟨hq, hs, hv⟩ hst
    cases q with
    | nil =>
      simp only [connStep, Sum.inr.injEq] at hst
      subst hst
      simp only [Bool.false_eq_true, false_iff]
      rintro ⟨n, hn⟩
      cases hn with
      | succ h h2 =>
        have : n1 ∈ vis := by simpa using hs
        have := Reach.closed (fun x => x ∈ vis) this (fun b c hb hc => by simpa using (hv b hb).2 c hc) ⟨_, h⟩
        exact (hv _ this).1 h2
    | cons n q =>
      simp only [connStep, connScan_eq] at hst
      by_cases h2 : n2 ∈ succ n
      · rw [if_pos h2] at hst; simp at hst; subst hst
        simp only [true_iff]
        exact (hq n (by simp)).1.plus_tail h2
      · rw [if_neg h2] at hst; simp at hst
  · exact ⟨by simp [h1, Reach.refl], by simp, by simp⟩

end GT

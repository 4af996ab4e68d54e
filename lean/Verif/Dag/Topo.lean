import Verif.Dag.Work
/-
Model of `topological_sort` (graph/topological_sort.py:4-36) and `has_cycles`
(graph/cycle.py:31-46) with their correctness proofs.
-/
namespace GT
variable {α V O : Type} [DecidableEq α]
open Graph

/-- one round of `while zero_in_degree` (topological_sort.py:27-33) and the exit (35-36).
State: working graph, current sources, nodes yielded so far.  Result: nodes yielded, and the
exception that ends the generator, if any.  `srt` is `sorted(…, key=key)`. -/
def topoStep (srt : List α → List α) : Graph α V O × List α × List α →
    (Graph α V O × List α × List α) ⊕ (List α × Option Err)
  | (g2, zero, out) =>
    if zero ≠ [] then
      let g2 := g2.delNodes zero
      .inl (g2, srt (g2.nodesInDeg 0), out ++ zero)
    else if g2.nodeList ≠ [] then .inr (out, some .attributeError)
    else .inr (out, none)

/-- `topological_sort(graph, key)` (topological_sort.py:4-36) as the generator's full run: the nodes
yielded and the exception raised at the end, if any.  Simplifications: the `isinstance` check holds
by typing; `sorted(l, key=key)` is an arbitrary function `srt` (theorems assume it permutes its
argument), so a key that cannot be compared is not modelled here (see Dag/TopoCmp). -/
def Graph.topologicalSort (srt : List α → List α) (g : Graph α V O) : Option (List α × Option Err) :=
  let g2 := g.copy
  pyWhile (topoStep srt) (g2, srt (g2.nodesInDeg 0), [])

/-- `list(topological_sort(graph))` -/
def Graph.topoList (srt : List α → List α) (g : Graph α V O) : Option (Py (List α)) :=
  match g.topologicalSort srt with
  | none => none
  | some (out, none) => some (.ok out)
  | some (_, some e) => some (.error e)

/-- `has_cycles(graph)` (cycle.py:31-46) -/
def Graph.hasCycles (srt : List α → List α) (g : Graph α V O) : Option (Py Bool) :=
  if g.edgeList.any (fun e => e.1 == e.2.1) then some (.ok true)
  else match g.topoList srt with
    | none => none
    | some (.ok _) => some (.ok false)
    | some (.error .attributeError) => some (.ok true)
    | some (.error e) => some (.error e)

/-- every element of the list comes after all its predecessors -/
def AfterPreds (R : α → α → Prop) (out : List α) : Prop :=
  ∀ l1 x l2, out = l1 ++ x :: l2 → ∀ a, R a x → a ∈ l1

omit [DecidableEq α] in
theorem AfterPreds.append {R : α → α → Prop} {out zero : List α} (h : AfterPreds R out)
    (hz : ∀ x ∈ zero, ∀ a, R a x → a ∈ out) : AfterPreds R (out ++ zero) := by
  intro l1 x l2 he a ha
  rw [List.append_eq_append_iff] at he
  rcases he with ⟨m, h1, h2⟩ | ⟨m, h1, h2⟩
  · subst h1
    have : x ∈ zero := by rw [h2]; simp
    exact List.mem_append_left _ (hz x this a ha)
  · cases m with
    | nil =>
      simp at h1 h2; subst h1
      exact hz x (by rw [← h2]; simp) a ha
    | cons y m =>
      simp only [List.cons_append, List.cons.injEq] at h2
      obtain ⟨rfl, h2⟩ := h2
      exact h l1 x m h1 a ha

omit [DecidableEq α] in
theorem AfterPreds.anc {R : α → α → Prop} {out : List α} (h : AfterPreds R out) :
    ∀ n l1 x l2, l1.length = n → out = l1 ++ x :: l2 → ∀ c, ReachPlus R c x → c ∈ l1 := by
  intro n
  induction n using Nat.strongRecOn with
  | _ n ih =>
    rintro l1 x l2 hl he c ⟨k, hk⟩
    cases hk with
    | succ hk hb =>
      rename_i b
      have hbm := h l1 x l2 he b hb
      obtain ⟨m1, m2, hm⟩ := List.append_of_mem hbm
      cases k with
      | zero => cases hk; exact hbm
      | succ k =>
        have := ih m1.length (by rw [← hl, hm]; simp) m1 b (m2 ++ x :: l2) rfl
          (by rw [he, hm]; simp) c ⟨k, hk⟩
        rw [hm]; exact List.mem_append_left _ this

omit [DecidableEq α] in
theorem AfterPreds.not_behind {R : α → α → Prop} {out : List α} (h : AfterPreds R out)
    (hn : out.Nodup) {x : α} (hx : x ∈ out) : ¬ ∃ c, ReachPlus R c c ∧ Reach R c x := by
  rintro ⟨c, hc, ⟨k, hk⟩⟩
  have hco : c ∈ out := by
    cases k with
    | zero => cases hk; exact hx
    | succ k =>
      obtain ⟨l1, l2, he⟩ := List.append_of_mem hx
      rw [he]; exact List.mem_append_left _ (h.anc _ l1 x l2 rfl he c ⟨k, hk⟩)
  obtain ⟨l1, l2, he⟩ := List.append_of_mem hco
  have := h.anc _ l1 c l2 rfl he c hc
  rw [he, List.nodup_append] at hn
  exact hn.2.2 c this c (by simp) rfl

omit [DecidableEq α] in
/-- if every member of a set has a predecessor in the set, each member is behind a cycle -/
theorem behind_cycle {R : α → α → Prop} {U : List α} (hU : FiniteOn R U) (S : α → Prop)
    (hS : ∀ x, S x → ∃ a, R a x ∧ S a) {x : α} (hx : S x) : ∃ c, ReachPlus R c c ∧ Reach R c x := by
  apply Classical.byContradiction
  intro hno
  let R' : α → α → Prop := fun b a => R a b ∧ Reach R b x
  have hmono : ∀ {m a b}, Steps R' m b a → Reach R a b := by
    intro m a b h
    induction h with
    | zero => exact .refl _
    | succ _ h2 ih => exact Reach.head h2.1 ih
  have hA : Acyclic R' := by
    rintro c ⟨m, hm⟩
    obtain ⟨b, hb, hm'⟩ := hm.head
    apply hno
    exact ⟨c, (hmono hm').plus_tail hb.1, hb.2⟩
  have hU' : FiniteOn R' U := fun a b h => ⟨(hU b a h.1).2, (hU b a h.1).1⟩
  obtain ⟨rank, hr, _, _⟩ := hA.rank hU'
  have : ∀ n y, rank y = n → S y → Reach R y x → False := by
    intro n
    induction n using Nat.strongRecOn with
    | _ n ih =>
      intro y hy hSy hyx
      obtain ⟨a, ha, hSa⟩ := hS y hSy
      exact ih (rank a) (by rw [← hy]; exact hr y a ⟨ha, hyx⟩) a rfl hSa (Reach.head ha hyx)
  exact this _ x rfl hx (.refl _)

/-- the full specification of the generator's run, on any working copy of the graph -/
theorem topoRun_spec {g w : Graph α V O} (h : g.Inv) (hw : Remaining g w []) {srt : List α → List α} (hs : ∀ l, (srt l).Perm l) :
    ∃ out e, pyWhile (topoStep srt) (w, srt (w.nodesInDeg 0), []) = some (out, e) ∧ out.Nodup ∧
      (∀ x, x ∈ out ↔ g.has x = true ∧ ¬ ∃ c, ReachPlus g.Adj c c ∧ Reach g.Adj c x) ∧
      AfterPreds g.Adj out ∧
      ((∀ x, g.has x = true → x ∈ out) → e = none) ∧
      ((¬ ∀ x, g.has x = true → x ∈ out) → e = some .attributeError) := by
  let I : Graph α V O × List α × List α → Prop := fun s =>
    Remaining g s.1 s.2.2 ∧ s.2.2.Nodup ∧ (∀ x ∈ s.2.2, g.has x = true) ∧ AfterPreds g.Adj s.2.2 ∧
    s.2.1.Perm (s.1.nodesInDeg 0)
  let Q : List α × Option Err → Prop := fun r =>
    r.1.Nodup ∧ (∀ x, x ∈ r.1 ↔ g.has x = true ∧ ¬ ∃ c, ReachPlus g.Adj c c ∧ Reach g.Adj c x) ∧
      AfterPreds g.Adj r.1 ∧
      ((∀ x, g.has x = true → x ∈ r.1) → r.2 = none) ∧
      ((¬ ∀ x, g.has x = true → x ∈ r.1) → r.2 = some .attributeError)
  have key : ∃ r, pyWhile (topoStep srt) (w, srt (w.nodesInDeg 0), []) = some r ∧ Q r := by
    apply pyWhile_total I Q (fun s => unvis g.nodeList s.2.2)
    · rintro ⟨g2, zero, out⟩ ⟨g2', zero', out'⟩ ⟨hr, hn, hsub, hap, hz⟩ hst
      simp only [topoStep] at hst
      by_cases hz0 : zero = []
      · simp only [hz0, ne_eq, not_true_eq_false, if_false] at hst
        split at hst <;> simp at hst
      · rw [if_pos (by simpa using hz0)] at hst
        simp only [Sum.inl.injEq, Prod.mk.injEq] at hst
        obtain ⟨rfl, rfl, rfl⟩ := hst
        have hmem : ∀ x, x ∈ zero ↔ g.has x = true ∧ x ∉ out ∧ ∀ a, g.Adj a x → a ∈ out :=
          fun x => by rw [hz.mem_iff, hr.mem_sources]
        refine ⟨⟨hr.delNodes zero, ?_, ?_, ?_, hs _⟩, ?_⟩
        · rw [List.nodup_append]
          refine ⟨hn, hz.nodup_iff.2 (hr.inv.nodup_nodesInDeg 0), ?_⟩
          rintro a ha b hb rfl
          exact ((hmem a).1 hb).2.1 ha
        · intro x hx
          rcases List.mem_append.1 hx with hx | hx
          · exact hsub x hx
          · exact ((hmem x).1 hx).1
        · exact hap.append (fun x hx a ha => ((hmem x).1 hx).2.2 a ha)
        · obtain ⟨x, hx⟩ := List.exists_mem_of_ne_nil _ hz0
          exact unvis_lt (fun y hy => List.mem_append_left _ hy) (has_iff.1 ((hmem x).1 hx).1)
            ((hmem x).1 hx).2.1 (List.mem_append_right _ hx)
    · rintro ⟨g2, zero, out⟩ r ⟨hr, hn, hsub, hap, hz⟩ hst
      simp only [topoStep] at hst
      by_cases hz0 : zero = []
      · subst hz0
        simp only [ne_eq, not_true_eq_false, if_false] at hst
        have hall : (∀ x, g.has x = true → x ∈ out) ↔ g2.nodeList = [] := by
          constructor
          · intro hall
            cases hl : g2.nodeList with
            | nil => rfl
            | cons y l =>
              have : g2.has y = true := has_iff.2 (by rw [hl]; simp)
              rw [hr.has] at this
              exact absurd (hall y this.1) this.2
          · intro hl x hx
            apply Classical.byContradiction
            intro hxo
            have := has_iff.1 ((hr.has x).2 ⟨hx, hxo⟩)
            rw [hl] at this; cases this
        have hleft : ∀ x, (g.has x = true ∧ x ∉ out) → ∃ a, g.Adj a x ∧ g.has a = true ∧ a ∉ out := by
          intro x hx
          have h1 : x ∉ g2.nodesInDeg 0 := by rw [← hz.mem_iff]; simp
          rw [hr.mem_sources] at h1
          apply Classical.byContradiction
          intro hno
          apply h1
          refine ⟨hx.1, hx.2, fun a ha => ?_⟩
          apply Classical.byContradiction
          intro hao
          exact hno ⟨a, ha, has_iff.2 (h.finite a x ha).1, hao⟩
        have hmain : ∀ x, x ∈ out ↔ g.has x = true ∧ ¬ ∃ c, ReachPlus g.Adj c c ∧ Reach g.Adj c x := by
          intro x
          constructor
          · intro hx; exact ⟨hsub x hx, hap.not_behind hn hx⟩
          · rintro ⟨h1, h2⟩
            apply Classical.byContradiction
            intro hxo
            exact h2 (behind_cycle h.finite (fun y => g.has y = true ∧ y ∉ out) hleft ⟨h1, hxo⟩)
        by_cases hl : g2.nodeList = []
        · simp only [hl, not_true_eq_false, if_false, Sum.inr.injEq] at hst
          subst hst
          exact ⟨hn, hmain, hap, fun _ => rfl, fun hh => absurd (hall.2 hl) hh⟩
        · rw [if_pos hl] at hst
          simp only [Sum.inr.injEq] at hst
          subst hst
          exact ⟨hn, hmain, hap, fun hh => absurd (hall.1 hh) hl, fun _ => rfl⟩
      · rw [if_pos (by simpa using hz0)] at hst; simp at hst
    · refine ⟨hw, by simp, by simp, ?_, hs _⟩
      intro l1 x l2 he; simp at he
  obtain ⟨⟨out, e⟩, h1, h2, h3, h4, h5, h6⟩ := key
  exact ⟨out, e, h1, h2, h3, h4, h5, h6⟩

/-- the full specification of the generator's run -/
theorem topo_spec {g : Graph α V O} (h : g.Inv) {srt : List α → List α} (hs : ∀ l, (srt l).Perm l) :
    ∃ out e, g.topologicalSort srt = some (out, e) ∧ out.Nodup ∧
      (∀ x, x ∈ out ↔ g.has x = true ∧ ¬ ∃ c, ReachPlus g.Adj c c ∧ Reach g.Adj c x) ∧
      AfterPreds g.Adj out ∧
      ((∀ x, g.has x = true → x ∈ out) → e = none) ∧
      ((¬ ∀ x, g.has x = true → x ∈ out) → e = some .attributeError) :=
  topoRun_spec h (Remaining.copy h) hs

theorem topoList_spec {g : Graph α V O} (h : g.Inv) {srt : List α → List α} (hs : ∀ l, (srt l).Perm l) :
    (Acyclic g.Adj → ∃ out, g.topoList srt = some (.ok out) ∧ out.Nodup ∧
      (∀ x, x ∈ out ↔ g.has x = true) ∧ AfterPreds g.Adj out) ∧
    (¬ Acyclic g.Adj → g.topoList srt = some (.error .attributeError)) := by
  obtain ⟨out, e, h1, h2, h3, h4, h5, h5'⟩ := topo_spec h hs
  constructor
  · intro hA
    have h6 : ∀ x, x ∈ out ↔ g.has x = true := by
      intro x; rw [h3]; exact ⟨fun h => h.1, fun h => ⟨h, fun ⟨c, hc, _⟩ => hA c hc⟩⟩
    have h5 := h5 (fun x hx => (h6 x).2 hx)
    subst h5
    exact ⟨out, by unfold topoList; rw [h1], h2, h6, h4⟩
  · intro hA
    have : ∃ c, ReachPlus g.Adj c c := by
      apply Classical.byContradiction
      intro hno; exact hA (fun a ha => hno ⟨a, ha⟩)
    obtain ⟨c, hc⟩ := this
    have hcn : g.has c = true := by
      obtain ⟨m, hm⟩ := hc
      obtain ⟨b, hb, _⟩ := hm.head
      exact has_iff.2 (h.finite c b hb).1
    have h5 := h5' ?_
    · subst h5; unfold topoList; rw [h1]
    · intro hall
      exact ((h3 c).1 (hall c hcn)).2 ⟨c, hc, .refl _⟩

theorem hasCycles_spec {g : Graph α V O} (h : g.Inv) {srt : List α → List α} (hs : ∀ l, (srt l).Perm l) :
    ∃ r, g.hasCycles srt = some (.ok r) ∧ (r = true ↔ ∃ c, ReachPlus g.Adj c c) := by
  unfold hasCycles
  split
  · rename_i hc
    refine ⟨true, rfl, ?_⟩
    simp only [true_iff]
    rw [List.any_eq_true] at hc
    obtain ⟨⟨a, b, v⟩, h1, h2⟩ := hc
    simp at h2; subst h2
    rw [h.mem_edgeList] at h1
    exact ⟨a, 0, .succ (.zero a) (by unfold Adj; rw [h1]; rfl)⟩
  · obtain ⟨h1, h2⟩ := topoList_spec h hs
    by_cases hA : Acyclic g.Adj
    · obtain ⟨out, h3, _⟩ := h1 hA
      rw [h3]
      refine ⟨false, rfl, ?_⟩
      simp only [Bool.false_eq_true, false_iff]
      rintro ⟨c, hc⟩; exact hA c hc
    · rw [h2 hA]
      refine ⟨true, rfl, ?_⟩
      simp only [true_iff]
      apply Classical.byContradiction
      intro hno; exact hA (fun a ha => hno ⟨a, ha⟩)

end GT

import Verif.Sp.DijkstraFl
import Verif.Spec.Double
import Verif.Spec.Flow
/-
`shortest_path` in rounded arithmetic, on integer values: the rounding has no effect as long as no sum leaves the range in which integers
are represented.
-/
namespace GT
variable {α V O : Type} [DecidableEq α]
open Graph

/-- two loops whose bodies agree on the states that occur -/
theorem pyWhile_congr {σ ρ : Type} {step step' : σ → σ ⊕ ρ} (I : σ → Prop) (h : ∀ s, I s → step s = step' s)
    (hI : ∀ s s', I s → step s = .inl s' → I s') {s : σ} (hs : I s) : pyWhile step s = pyWhile step' s := by
  have one : ∀ (st st' : σ → σ ⊕ ρ), (∀ s, I s → st s = st' s) → (∀ s s', I s → st s = .inl s' → I s') →
      ∀ s r, pyWhile st s = some r → I s → pyWhile st' s = some r := by
    intro st st' h hI s r hr
    refine pyWhile.partial_correctness st (fun s r => I s → pyWhile st' s = some r) ?_ s r hr
    intro f ih s r hr hs
    rw [h s hs] at hr
    split at hr
    · rename_i s' hs'
      rw [pyWhile_inl hs']
      exact ih s' r hr (hI s s' hs ((h s hs).trans hs'))
    · rename_i r' hs'
      rw [pyWhile_inr hs']; exact hr
  cases h1 : pyWhile step s with
  | some r => exact (one step step' h hI s r h1 hs).symm
  | none =>
    cases h2 : pyWhile step' s with
    | none => rfl
    | some r =>
      have := one step' step (fun s hs => (h s hs).symm) (fun s s' hs h' => hI s s' hs ((h s hs).trans h')) s r h2 hs
      rw [h1] at this; cases this

/-- `x` is an integer between 0 and `b` -/
def IntUpTo (b : Nat) (x : Rat) : Prop := ∃ z : Nat, x = (z : Rat) ∧ z ≤ b

/-- `fl` leaves the integers between 0 and `N` as they are -/
def ExactUpTo (fl : Rat → Rat) (N : Nat) : Prop := ∀ x, IntUpTo N x → fl x = x

theorem double_exactUpTo : ExactUpTo double (2 ^ 53) := by
  rintro x ⟨z, rfl, hz⟩
  have := double_int (z := (z : Int)) (by simpa using hz)
  rwa [Rat.intCast_natCast] at this

/-- what the states of the search look like on integer values up to `M` -/
structure IntSt (nodes : List α) (M : Nat) (s : DijSt α) : Prop where
  cost : ∀ e ∈ s.q, IntUpTo (e.path.length * M) e.cost
  nodup : ∀ e ∈ s.q, e.path.Nodup
  sub : ∀ e ∈ s.q, ∀ x ∈ e.path, x ∈ s.visited
  mem : ∀ e ∈ s.q, e.node ∈ nodes ∧ ∀ x ∈ e.path, x ∈ nodes

theorem dijRelaxFl_eq_int {fl : Rat → Rat} {cost : Rat} {path visited : List α} (l : List (α × Rat))
    (h : ∀ p ∈ l, fl (cost + p.2) = cost + p.2) (s : List (Ent α) × Dict α Rat × Nat) :
    dijRelaxFl fl cost path visited l s = dijRelax cost path visited l s := by
  induction l generalizing s with
  | nil => rfl
  | cons p l ih =>
    obtain ⟨v2, dist⟩ := p
    obtain ⟨q, mins, i⟩ := s
    have h1 := h (v2, dist) (by simp)
    have ih := fun s => ih (fun p hp => h p (List.mem_cons_of_mem _ hp)) s
    simp only at h1
    simp only [dijRelaxFl, dijRelax, h1, ih]
    rfl

theorem dijRelax_mem {cost : Rat} {path visited : List α} (l : List (α × Rat)) :
    ∀ (s : List (Ent α) × Dict α Rat × Nat), ∀ e ∈ (dijRelax cost path visited l s).1,
      e ∈ s.1 ∨ ∃ d, (e.node, d) ∈ l ∧ e.cost = cost + d ∧ e.path = path := by
  induction l with
  | nil => intro s e he; exact .inl he
  | cons p l ih =>
    obtain ⟨v2, dist⟩ := p
    rintro ⟨q, mins, i⟩ e he
    have push : ∀ m' i', e ∈ (dijRelax cost path visited l (⟨cost + dist, i, v2, path⟩ :: q, m', i')).1 →
        e ∈ q ∨ ∃ d, (e.node, d) ∈ (v2, dist) :: l ∧ e.cost = cost + d ∧ e.path = path := by
      intro m' i' he
      rcases ih _ e he with h | ⟨d, h1, h2, h3⟩
      · rcases List.mem_cons.1 h with rfl | h
        · exact .inr ⟨dist, by simp, rfl, rfl⟩
        · exact .inl h
      · exact .inr ⟨d, List.mem_cons_of_mem _ h1, h2, h3⟩
    have skip : e ∈ (dijRelax cost path visited l (q, mins, i)).1 →
        e ∈ q ∨ ∃ d, (e.node, d) ∈ (v2, dist) :: l ∧ e.cost = cost + d ∧ e.path = path := by
      intro he
      rcases ih _ e he with h | ⟨d, h1, h2, h3⟩
      · exact .inl h
      · exact .inr ⟨d, List.mem_cons_of_mem _ h1, h2, h3⟩
    simp only [dijRelax] at he
    split at he
    · exact skip he
    · split at he
      · exact push _ _ he
      · split at he
        · exact push _ _ he
        · exact skip he

theorem nodup_length_le {l nodes : List α} (h : l.Nodup) (hs : ∀ x ∈ l, x ∈ nodes) : l.length ≤ nodes.length := by
  induction l generalizing nodes with
  | nil => simp
  | cons a l ih =>
    rw [List.nodup_cons] at h
    have h1 := ih (nodes := nodes.erase a) h.2 (by
      intro x hx
      rw [List.mem_erase_of_ne (by rintro rfl; exact h.1 hx)]
      exact hs x (List.mem_cons_of_mem _ hx))
    have h2 := List.length_erase_of_mem (hs a (by simp))
    have h3 : 0 < nodes.length := List.length_pos_of_mem (hs a (by simp))
    simp only [List.length_cons]; omega

theorem shortestPathFl_int {fl : Rat → Rat} {g : Graph α Rat O} (hg : g.Inv) {M N : Nat} (hfl : ExactUpTo fl N)
    (hw : ∀ a b v, g.edge a b = some v → IntUpTo M v) (hN : g.nodeList.length * M ≤ N) (start fin : α) (avoids : List α) :
    g.shortestPathFl fl start fin avoids = g.shortestPath start fin avoids := by
  unfold shortestPathFl shortestPath
  cases hs : g.has start with
  | false => rfl
  | true =>
    cases hf : g.has fin with
    | false => rfl
    | true =>
      simp only [Bool.not_true, Bool.false_eq_true, if_false]
      -- after a node has been taken from the queue its path has room for one more edge
      have room : ∀ (s : DijSt α) e r, IntSt g.nodeList M s → popMin s.q = some (e, r) → e.node ∉ s.visited →
          e ∈ s.q ∧ (e.node :: e.path).Nodup ∧ (∀ x ∈ e.node :: e.path, x ∈ g.nodeList) ∧
          ∀ v, (∃ y, (y, v) ∈ g.outNbr e.node) → IntUpTo ((e.node :: e.path).length * M) (e.cost + v) ∧ fl (e.cost + v) = e.cost + v := by
        intro s e r hI hp hv
        have hm : e ∈ s.q := (popMin_some hp).1.mem_iff.2 (by simp)
        have hn : (e.node :: e.path).Nodup := List.nodup_cons.2 ⟨fun hx => hv (hI.sub e hm _ hx), hI.nodup e hm⟩
        have hsub : ∀ x ∈ e.node :: e.path, x ∈ g.nodeList := by
          intro x hx
          rcases List.mem_cons.1 hx with rfl | hx
          · exact (hI.mem e hm).1
          · exact (hI.mem e hm).2 x hx
        refine ⟨hm, hn, hsub, ?_⟩
        rintro v ⟨y, hy⟩
        obtain ⟨z1, e1, l1⟩ := hI.cost e hm
        obtain ⟨z2, e2, l2⟩ := hw _ _ _ (hg.mem_outNbr.1 hy)
        have hI' : IntUpTo ((e.node :: e.path).length * M) (e.cost + v) := by
          refine ⟨z1 + z2, by rw [e1, e2, Rat.natCast_add], ?_⟩
          simp only [List.length_cons, Nat.add_mul]; omega
        refine ⟨hI', hfl _ ?_⟩
        obtain ⟨z, h1, h2⟩ := hI'
        exact ⟨z, h1, Nat.le_trans h2 (Nat.le_trans (Nat.mul_le_mul_right _ (nodup_length_le hn hsub)) hN)⟩
      have hstep : ∀ s, IntSt g.nodeList M s → dijStepFl fl g.outNbr fin s = dijStep g.outNbr fin s := by
        intro s hI
        unfold dijStepFl dijStep
        cases hp : popMin s.q with
        | none => rfl
        | some er =>
          obtain ⟨e, r⟩ := er
          simp only
          by_cases hv : e.node ∈ s.visited
          · rw [if_pos hv, if_pos hv]
          · rw [if_neg hv, if_neg hv]
            split
            · rfl
            · rw [dijRelaxFl_eq_int]
              rintro ⟨y, v⟩ hyv
              exact ((room s e r hI hp hv).2.2.2 v ⟨y, hyv⟩).2
      have hpres : ∀ s s', IntSt g.nodeList M s → dijStepFl fl g.outNbr fin s = .inl s' → IntSt g.nodeList M s' := by
        intro s s' hI h
        rw [hstep s hI] at h
        unfold dijStep at h
        cases hp : popMin s.q with
        | none => rw [hp] at h; cases h
        | some er =>
          obtain ⟨e, r⟩ := er
          rw [hp] at h
          simp only at h
          have hr : ∀ x ∈ r, x ∈ s.q := fun x hx => (popMin_some hp).1.mem_iff.2 (List.mem_cons_of_mem _ hx)
          by_cases hv : e.node ∈ s.visited
          · rw [if_pos hv] at h
            cases h
            exact ⟨fun x hx => hI.cost x (hr x hx), fun x hx => hI.nodup x (hr x hx), fun x hx => hI.sub x (hr x hx),
              fun x hx => hI.mem x (hr x hx)⟩
          · rw [if_neg hv] at h
            split at h
            · cases h
            · obtain ⟨hm, hn, hsub, hroom⟩ := room s e r hI hp hv
              have hmem := dijRelax_mem (cost := e.cost) (path := e.node :: e.path) (visited := sadd s.visited e.node)
                (g.outNbr e.node) (r, s.mins, s.i)
              cases h
              refine ⟨fun x hx => ?_, fun x hx => ?_, fun x hx => ?_, fun x hx => ?_⟩
              · rcases hmem x hx with h1 | ⟨d, h1, h2, h3⟩
                · exact hI.cost x (hr x h1)
                · rw [h2, h3]; exact (hroom d ⟨_, h1⟩).1
              · rcases hmem x hx with h1 | ⟨d, h1, h2, h3⟩
                · exact hI.nodup x (hr x h1)
                · rw [h3]; exact hn
              · intro y hy
                rcases hmem x hx with h1 | ⟨d, h1, h2, h3⟩
                · exact mem_sadd.2 (.inr (hI.sub x (hr x h1) y hy))
                · rw [h3] at hy
                  rcases List.mem_cons.1 hy with rfl | hy
                  · exact mem_sadd.2 (.inl rfl)
                  · exact mem_sadd.2 (.inr (hI.sub e hm y hy))
              · rcases hmem x hx with h1 | ⟨d, h1, h2, h3⟩
                · exact hI.mem x (hr x h1)
                · rw [h3]
                  exact ⟨(hg.edge_mem (hg.mem_outNbr.1 h1)).2, hsub⟩
      have h0 : IntSt g.nodeList M ⟨[⟨0, 0, start, []⟩], Dict.empty.set start 0, avoids, 1⟩ := by
        refine ⟨?_, ?_, ?_, ?_⟩
        · intro e he
          simp only [List.mem_singleton] at he
          subst he
          exact ⟨0, rfl, by simp⟩
        · intro e he; simp only [List.mem_singleton] at he; subst he; simp
        · intro e he; simp only [List.mem_singleton] at he; subst he; simp
        · intro e he; simp only [List.mem_singleton] at he; subst he
          exact ⟨has_iff.1 hs, by simp⟩
      rw [pyWhile_congr (IntSt g.nodeList M) hstep hpres h0]
      rfl

end GT

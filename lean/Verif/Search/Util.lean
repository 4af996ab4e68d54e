import Verif.Py
import Verif.Spec.Walks
/- Measures and finite-graph facts shared by the search algorithms. -/
namespace GT
variable {α : Type} [DecidableEq α]

/-- number of elements of `U` not yet in `s` -/
def unvis (U s : List α) : Nat := (U.filter (fun x => !decide (x ∈ s))).length

theorem unvis_le {U s t : List α} (h : ∀ x, x ∈ s → x ∈ t) : unvis U t ≤ unvis U s := by
  unfold unvis
  induction U with
  | nil => simp
  | cons a U ih =>
    simp only [List.filter_cons]
    by_cases h1 : a ∈ s
    · simp [h1, h a h1]; exact ih
    · by_cases h2 : a ∈ t
      · simp [h1, h2]; omega
      · simp [h1, h2]; exact ih

theorem unvis_lt {U s t : List α} (h : ∀ x, x ∈ s → x ∈ t) {x : α} (hU : x ∈ U) (hs : x ∉ s)
    (ht : x ∈ t) : unvis U t < unvis U s := by
  unfold unvis
  induction U with
  | nil => simp at hU
  | cons a U ih =>
    simp only [List.filter_cons]
    by_cases hax : a = x
    · subst hax
      have := unvis_le (U := U) h
      unfold unvis at this
      simp [hs, ht]; omega
    · have hU' : x ∈ U := by
        rcases List.mem_cons.1 hU with h1 | h1
        · exact absurd h1.symm hax
        · exact h1
      have := ih hU'
      by_cases h1 : a ∈ s
      · simp [h1, h a h1]; exact this
      · by_cases h2 : a ∈ t
        · simp [h1, h2]; omega
        · simp [h1, h2]; exact this

omit [DecidableEq α] in
theorem nodup_reverse {l : List α} : l.reverse.Nodup ↔ l.Nodup := by
  unfold List.Nodup
  rw [List.pairwise_reverse]
  exact ⟨fun h => h.imp (fun h => Ne.symm h), fun h => h.imp (fun h => Ne.symm h)⟩

/-! ### ranks in finite acyclic relations -/

/-- the nodes of `U` carry all edges of `R` -/
def FiniteOn (R : α → α → Prop) (U : List α) : Prop := ∀ a b, R a b → a ∈ U ∧ b ∈ U

omit [DecidableEq α] in
theorem Consec.of_mem {R : α → α → Prop} {U : List α} (hU : FiniteOn R U) {p : List α}
    (h : Consec R p) (hl : 2 ≤ p.length) : ∀ x ∈ p, x ∈ U := by
  induction p with
  | nil => simp at hl
  | cons a l ih =>
    cases l with
    | nil => simp at hl
    | cons b l =>
      intro x hx
      rcases List.mem_cons.1 hx with rfl | hx
      · exact (hU _ _ h.1).1
      · cases l with
        | nil => simp at hx; subst hx; exact (hU _ _ h.1).2
        | cons c l => exact ih h.2 (by simp) x hx

omit [DecidableEq α] in
theorem consec_reach {R : α → α → Prop} {a : α} {l : List α} (h : Consec R (a :: l)) :
    ∀ x ∈ l, ReachPlus R a x := by
  induction l generalizing a with
  | nil => simp
  | cons b l ih =>
    intro x hx
    rcases List.mem_cons.1 hx with rfl | hx
    · exact ⟨0, .succ (.zero _) h.1⟩
    · exact Reach.plus_head h.1 (ih h.2 x hx).reach

omit [DecidableEq α] in
/-- in an acyclic relation walks do not repeat nodes -/
theorem Acyclic.nodup {R : α → α → Prop} (hA : Acyclic R) {p : List α} (h : Consec R p) : p.Nodup := by
  induction p with
  | nil => simp
  | cons a l ih =>
    rw [List.nodup_cons]
    exact ⟨fun ha => hA a (consec_reach h a ha), ih h.tail⟩

omit [DecidableEq α] in
theorem Acyclic.steps_bound {R : α → α → Prop} (hA : Acyclic R) {U : List α} (hU : FiniteOn R U)
    {n : Nat} {a b : α} (h : Steps R n a b) : n ≤ U.length := by
  cases n with
  | zero => omega
  | succ n =>
    obtain ⟨p, hp, hl⟩ := h.walk
    have h1 := hA.nodup hp.1
    have h2 := hp.1.of_mem hU (by omega)
    have := h1.length_le_of_subset (l₂ := U) (fun x hx => h2 x hx)
    omega

/-- the largest `n ≤ N` with `P n` (0 if there is none) -/
noncomputable def largest (P : Nat → Prop) : Nat → Nat
  | 0 => 0
  | n + 1 => open Classical in if P (n + 1) then n + 1 else largest P n

theorem largest_spec {P : Nat → Prop} {N : Nat} (h0 : P 0) : P (largest P N) ∧
    ∀ n, n ≤ N → P n → n ≤ largest P N := by
  induction N with
  | zero => exact ⟨h0, fun n hn _ => hn⟩
  | succ N ih =>
    unfold largest
    split
    · rename_i h; exact ⟨h, fun n hn _ => hn⟩
    · rename_i h
      refine ⟨ih.1, fun n hn hP => ?_⟩
      rcases Nat.lt_or_eq_of_le hn with h1 | h1
      · exact ih.2 n (by omega) hP
      · subst h1; exact absurd hP h

omit [DecidableEq α] in
/-- a finite acyclic relation has a rank function (length of a longest walk) -/
theorem Acyclic.rank {R : α → α → Prop} (hA : Acyclic R) {U : List α} (hU : FiniteOn R U) :
    ∃ rank : α → Nat, (∀ a b, R a b → rank b < rank a) ∧
      (∀ a, ∃ b, Steps R (rank a) a b) ∧ (∀ a b n, Steps R n a b → n ≤ rank a) := by
  refine ⟨fun a => largest (fun n => ∃ b, Steps R n a b) U.length, ?_, ?_, ?_⟩
  · intro a b hab
    have hb := largest_spec (P := fun n => ∃ c, Steps R n b c) (N := U.length) ⟨b, .zero b⟩
    have ha := largest_spec (P := fun n => ∃ c, Steps R n a c) (N := U.length) ⟨a, .zero a⟩
    obtain ⟨c, hc⟩ := hb.1
    have h1 := Steps.cons hab hc
    have := ha.2 _ (hA.steps_bound hU h1) ⟨c, h1⟩
    show largest _ _ < largest _ _
    omega
  · intro a; exact (largest_spec (P := fun n => ∃ c, Steps R n a c) (N := U.length) ⟨a, .zero a⟩).1
  · intro a b n h
    exact (largest_spec (P := fun n => ∃ c, Steps R n a c) (N := U.length) ⟨a, .zero a⟩).2 n
      (hA.steps_bound hU h) ⟨b, h⟩

/-! ### weights of work lists -/

/-- the weight of a work list whose entries have a rank: replacing an entry by at most `B` entries of
smaller rank decreases it -/
def treeWeight {β : Type} (B : Nat) (rank : β → Nat) (q : List β) : Nat :=
  (q.map (fun x => (B + 1) ^ rank x)).sum

theorem treeWeight_append {β : Type} (B : Nat) (rank : β → Nat) (q r : List β) :
    treeWeight B rank (q ++ r) = treeWeight B rank q + treeWeight B rank r := by
  simp [treeWeight]

theorem treeWeight_kids {β : Type} {B : Nat} {rank : β → Nat} {x : β} {kids : List β}
    (hB : kids.length ≤ B) (hr : ∀ y ∈ kids, rank y < rank x) :
    treeWeight B rank kids < (B + 1) ^ rank x := by
  cases hk : rank x with
  | zero =>
    have : kids = [] := by
      cases kids with
      | nil => rfl
      | cons y l => have := hr y (by simp); omega
    subst this; simp [treeWeight]
  | succ k =>
    have h1 : treeWeight B rank kids ≤ kids.length * (B + 1) ^ k := by
      clear hB
      induction kids with
      | nil => simp [treeWeight]
      | cons y l ih =>
        have h2 := ih (fun z hz => hr z (List.mem_cons_of_mem _ hz))
        have h3 : (B + 1) ^ rank y ≤ (B + 1) ^ k := Nat.pow_le_pow_right (by omega) (by have := hr y (by simp); omega)
        simp only [treeWeight, List.map_cons, List.sum_cons, List.length_cons] at *
        rw [Nat.add_mul]; omega
    have h2 : kids.length * (B + 1) ^ k ≤ B * (B + 1) ^ k := Nat.mul_le_mul_right _ hB
    have h3 : (B + 1) ^ (k + 1) = B * (B + 1) ^ k + (B + 1) ^ k := by
      rw [Nat.pow_succ, Nat.mul_comm, Nat.add_mul]; omega
    have h4 : 0 < (B + 1) ^ k := Nat.pow_pos (by omega)
    omega

theorem treeWeight_lt {β : Type} {B : Nat} {rank : β → Nat} {x : β} {q kids : List β}
    (hB : kids.length ≤ B) (hr : ∀ y ∈ kids, rank y < rank x) :
    treeWeight B rank (q ++ kids) < treeWeight B rank (x :: q) := by
  have := treeWeight_kids hB hr
  rw [treeWeight_append]
  simp only [treeWeight, List.map_cons, List.sum_cons] at *
  omega

end GT

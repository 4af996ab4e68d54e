import Verif.Other.FlowHash
/-
`flow_graph_hash` visits the nodes level by level (number of edges from the nearest source), so that it cannot succeed if an edge leads to
a lower level.
-/
namespace GT
variable {α V O B : Type} [DecidableEq α]
open Graph

/-- `n` edges lead from a node without suppliers to `x` -/
def FromSource (g : Graph α V O) (n : Nat) (x : α) : Prop :=
  ∃ r, g.has r = true ∧ (∀ y, ¬ g.Adj y r) ∧ Steps g.Adj n r x

theorem exists_least (P : Nat → Prop) (h : ∃ n, P n) : ∃ n, P n ∧ ∀ m, P m → n ≤ m := by
  obtain ⟨n, hn⟩ := h
  induction n using Nat.strongRecOn with
  | _ n ih =>
    by_cases hm : ∃ m, m < n ∧ P m
    · obtain ⟨m, h1, h2⟩ := hm; exact ih m h1 h2
    · exact ⟨n, hn, fun m h => Nat.le_of_not_lt fun hl => hm ⟨m, hl, h⟩⟩

/-- the level function -/
structure IsLevel (g : Graph α V O) (lev : α → Nat) : Prop where
  mem : ∀ x, g.has x = true → FromSource g (lev x) x
  least : ∀ x n, g.has x = true → FromSource g n x → lev x ≤ n

theorem exists_level {g : Graph α V O} (hg : g.Inv) (hA : Acyclic g.Adj) : ∃ lev, IsLevel g lev := by
  have hA' : Acyclic (Flip g.Adj) := by rintro a ⟨n, hn⟩; exact hA a ⟨n, hn.flip⟩
  obtain ⟨rank, hr, _, _⟩ := hA'.rank (U := g.nodeList) (fun a b hab => ⟨(hg.finite b a hab).2, (hg.finite b a hab).1⟩)
  have hex : ∀ n x, rank x = n → g.has x = true → ∃ k, FromSource g k x := by
    intro n
    induction n using Nat.strongRecOn with
    | _ n ih =>
      intro x hx hxg
      by_cases he : ∃ y, g.Adj y x
      · obtain ⟨y, hy⟩ := he
        obtain ⟨k, r, h1, h2, h3⟩ := ih (rank y) (hx ▸ hr x y hy) y rfl (has_iff.2 (hg.finite _ _ hy).1)
        exact ⟨k + 1, r, h1, h2, .succ h3 hy⟩
      · exact ⟨0, x, hxg, fun y hy => he ⟨y, hy⟩, .zero x⟩
  have : ∀ x, ∃ n, g.has x = true → FromSource g n x ∧ ∀ m, FromSource g m x → n ≤ m := by
    intro x
    by_cases hx : g.has x = true
    · obtain ⟨n, hn⟩ := exists_least _ (hex _ x rfl hx)
      exact ⟨n, fun _ => hn⟩
    · exact ⟨0, fun h => absurd h hx⟩
  obtain ⟨lev, h⟩ := Classical.axiomOfChoice this
  exact ⟨lev, fun x hx => (h x hx).1, fun x n hx hn => (h x hx).2 n hn⟩

theorem IsLevel.edge {g : Graph α V O} (hg : g.Inv) {lev : α → Nat} (h : IsLevel g lev) {a b : α} (hab : g.Adj a b) : lev b ≤ lev a + 1 := by
  obtain ⟨r, h1, h2, h3⟩ := h.mem a (has_iff.2 (hg.finite _ _ hab).1)
  exact h.least b _ (has_iff.2 (hg.finite _ _ hab).2) ⟨r, h1, h2, .succ h3 hab⟩

/-- a node on level `n + 1` has a supplier on level `n` -/
theorem IsLevel.pred {g : Graph α V O} (hg : g.Inv) {lev : α → Nat} (h : IsLevel g lev) {x : α} (hx : g.has x = true) {n : Nat}
    (hn : lev x = n + 1) : ∃ y, g.Adj y x ∧ lev y = n := by
  obtain ⟨r, h1, h2, h3⟩ := h.mem x hx
  rw [hn] at h3
  cases h3 with
  | succ h4 h5 =>
    rename_i y
    refine ⟨y, h5, ?_⟩
    have := h.least y _ (has_iff.2 (hg.finite _ _ h5).1) ⟨r, h1, h2, h4⟩
    have := h.edge hg h5
    omega

theorem IsLevel.zero {g : Graph α V O} {lev : α → Nat} (h : IsLevel g lev) {x : α} (hx : g.has x = true) :
    lev x = 0 ↔ ∀ y, ¬ g.Adj y x := by
  constructor
  · intro h0
    obtain ⟨r, h1, h2, h3⟩ := h.mem x hx
    rw [h0] at h3
    cases h3
    exact h2
  · intro hn
    have := h.least x 0 hx ⟨x, hx, hn, .zero x⟩
    omega

structure LevInv (g : Graph α V O) (lev : α → Nat) (s : FhSt α B) (k : Nat) : Prop where
  below : ∀ x, g.has x = true → lev x < k → Hashed s.hg x
  level : ∀ x, g.has x = true → lev x = k → x ∈ s.sources ∨ Hashed s.hg x
  split : ∃ A B', s.sources = A ++ B' ∧ (∀ x ∈ A, lev x = k) ∧ ∀ x ∈ B', lev x = k + 1
  done : ∀ x, Hashed s.hg x → lev x ≤ k ∧ ∀ y, g.Adj y x → lev y ≤ lev x

theorem LevInv.head {H : List B → List B} {str : α → List B} {g : Graph α V O} (hg : g.Inv) {lev : α → Nat} (hL : IsLevel g lev)
    {s : FhSt α B} {cyc : α → α → Bool} (hI : FhInv H str cyc g s)
    {source : α} {rest : List α} (hs : s.sources = source :: rest) {k : Nat} (h : LevInv g lev s k) :
    ∃ k, LevInv g lev s k ∧ lev source = k := by
  obtain ⟨A, B', h1, h2, h3⟩ := h.split
  cases A with
  | cons a A =>
    rw [hs, List.cons_append] at h1
    cases h1
    exact ⟨k, h, h2 source (by simp)⟩
  | nil =>
    rw [List.nil_append] at h1
    have hsr : lev source = k + 1 := h3 source (by rw [← h1, hs]; simp)
    have hk : ∀ x, g.has x = true → lev x = k → Hashed s.hg x := by
      intro x hx hxk
      rcases h.level x hx hxk with h4 | h4
      · rw [h1] at h4; have := h3 x h4; omega
      · exact h4
    refine ⟨k + 1, ⟨fun x hx hlt => ?_, fun x hx hxk => ?_, ⟨B', [], by rw [h1]; simp, h3, by simp⟩,
      fun x hx => ⟨Nat.le_succ_of_le (h.done x hx).1, (h.done x hx).2⟩⟩, hsr⟩
    · by_cases hxk : lev x = k
      · exact hk x hx hxk
      · exact h.below x hx (by omega)
    · obtain ⟨y, hy, hyk⟩ := hL.pred hg hx hxk
      exact (hI.enq x).2 ⟨hx, .inr (hI.succ y x (hk y (has_iff.2 (hg.finite _ _ hy).1) hyk) hy)⟩

/-- when `flow_graph_hash` succeeds, no edge leads to a lower level -/
theorem flowGraphHash_levels {H : List B → List B} {str : α → List B} {g : Graph α V O} (hg : g.Inv) (hph : g.NoPhantom) (hA : Acyclic g.Adj)
    {lev : α → Nat} (hL : IsLevel g lev) : ∃ r, g.flowGraphHash H str = some r ∧
      ((∃ hg', r = .ok hg') → ∀ a b, g.Adj a b → lev a ≤ lev b) := by
  unfold flowGraphHash
  refine pyWhileD_total (fun s => FhInv H str (fun _ _ => false) g s ∧ ∃ k, LevInv g lev s k)
    (fun r : Py (HashG α B) => (∃ hg', r = .ok hg') → ∀ a b, g.Adj a b → lev a ≤ lev b) (· < ·) Nat.lt_wfRel.wf
    (fhMeasure g) (fun s hI => ?_) ⟨FhInv.init H str (fun _ _ => false) hg hph, 0, ?_⟩
  · obtain ⟨hI, k, hk⟩ := hI
    cases hs : s.sources with
    | nil =>
      obtain ⟨h1, h2⟩ := hI.exit hg hph hA hs
      exact .inr ⟨_, h1, fun _ a b hab => (hk.done b (h2 b (has_iff.2 (hg.finite _ _ hab).2))).2 a hab⟩
    | cons source rest =>
      obtain ⟨k, hk, hrk⟩ := hk.head hg hL hI hs
      have hsrc : g.has source = true := ((hI.enq source).1 (.inl (by rw [hs]; simp))).1
      rcases fhText_spec hg (isCyc_of_acyclic hA) s.hg hsrc hI.obj (g.nodesTo source) (str source) (fun x hx => hg.mem_nodesTo.1 hx) with ⟨h1, h2⟩ | ⟨h1, _⟩
      · have hall : ∀ y, g.Adj y source → Hashed s.hg y := fun y hy => h1 y (hg.mem_nodesTo.2 hy) rfl
        obtain ⟨s', e1, e2, e3, e4, add, e5, e6⟩ := hI.step_ok hg hs (fun y hy _ => hall y hy) h2
        refine .inl ⟨s', e1, ⟨e2, k, ?_⟩, e3⟩
        refine ⟨fun x hx hlt => (e4 x).2 (.inl (hk.below x hx hlt)), fun x hx hxk => ?_, ?_, fun x hx => ?_⟩
        · rw [e4]
          rcases hk.level x hx hxk with h | h
          · rw [hs, List.mem_cons] at h
            rcases h with h | h
            · exact .inr (.inr h)
            · left; rw [e5]; simp [h]
          · exact .inr (.inl h)
        · obtain ⟨A, B', b1, b2, b3⟩ := hk.split
          rw [hs] at b1
          cases A with
          | nil =>
            rw [List.nil_append] at b1
            have := b3 source (by rw [← b1]; simp)
            omega
          | cons a A =>
            rw [List.cons_append] at b1
            obtain ⟨rfl, rfl⟩ := List.cons.inj b1
            refine ⟨A, B' ++ add, by rw [e5]; simp, fun x hx => b2 x (by simp [hx]), fun x hx => ?_⟩
            rw [List.mem_append] at hx
            rcases hx with hx | hx
            · exact b3 x hx
            · obtain ⟨c1, c2⟩ := e6 x hx
              have hxg : g.has x = true := has_iff.2 (hg.finite _ _ c1).2
              have hle := hL.edge hg c1
              have : ¬ lev x ≤ k := by
                intro hle
                have : x ∈ s.sources ∨ Hashed s.hg x := by
                  by_cases he : lev x = k
                  · exact hk.level x hxg he
                  · exact .inr (hk.below x hxg (by omega))
                rcases ((hI.enq x).1 this).2 with h | h
                · exact h _ c1
                · exact c2 h
              omega
        · rcases (e4 x).1 hx with h | rfl
          · exact hk.done x h
          · exact ⟨by omega, fun y hy => by have := (hk.done y (hall y hy)).1; omega⟩
      · refine .inr ⟨.error .typeError, ?_, fun h => by obtain ⟨_, h⟩ := h; cases h⟩
        unfold fhStep
        rw [hs]
        dsimp only
        rw [h1]
  · have hno : ∀ x, ¬ Hashed (Graph.empty : HashG α B) x := by rintro x ⟨d, hd⟩; cases hd
    refine ⟨fun x _ h => by omega, fun x hx h0 => ?_, ⟨g.nodesInDeg 0, [], by simp, fun x hx => ?_, by simp⟩, fun x hx => absurd hx (hno x)⟩
    · exact ((FhInv.init H str (fun _ _ => false) hg hph).enq x).2 ⟨hx, .inl ((hL.zero hx).1 h0)⟩
    · obtain ⟨h1, h2⟩ := ((FhInv.init H str (fun _ _ => false) hg hph).enq x).1 (.inl hx)
      exact (hL.zero h1).2 (h2.resolve_right (by simp))

end GT

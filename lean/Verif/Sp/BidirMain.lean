import Verif.Sp.Bidir
/-
The main loop of `shortest_path_bidirectional`: termination, absence of exceptions, optimality.
-/
namespace GT
variable {α V O : Type} [DecidableEq α]
open Graph

omit [DecidableEq α] in
theorem Opp.symm {k : Nat} {p : Nat → α} {F : Nat → Rat} {p' : Nat → α} {F' : Nat → Rat} (h : Opp k p F p' F')
    (h0 : F 0 = 0) : Opp k p' F' p F := by
  have hk := h.val 0 (by omega)
  rw [Nat.sub_zero, h0] at hk
  refine ⟨fun m hm => ?_, fun m hm => ?_⟩
  · have := h.node (k - m) (by omega)
    rw [Nat.sub_sub_self hm] at this; exact this.symm
  · have := h.val (k - m) (by omega)
    rw [Nat.sub_sub_self hm] at this; grind

theorem TraceInv.symm {k : Nat} {p : Nat → α} {F : Nat → Rat} {p' : Nat → α} {F' : Nat → Rat} {s o : Side α}
    (h : TraceInv k p F p' F' s o) (hl : s.spLen = o.spLen) (hO : Opp k p F p' F') (h0 : F 0 = 0) :
    TraceInv k p' F' p F o s := by
  have hk := hO.val 0 (by omega)
  rw [Nat.sub_zero, h0] at hk
  rcases h with h | ⟨h1, h2, h3⟩
  · left; rw [← hl, show F' k = F k by grind]; exact h
  · refine .inr ⟨h2, h1, fun m hm hl1 hl2 => ?_⟩
    have := h3 (k - m) (by omega) hl2 (by rw [Nat.sub_sub_self hm]; exact hl1)
    rw [Nat.sub_sub_self hm] at this
    exact this.symm

omit [DecidableEq α] in
/-- a walk as a trace -/
theorem WalkOf.trace {w : α → α → Option Rat} (hw : NonNeg w) {av : List α} {a b : α} {l : List α} {c : Rat}
    (h : WalkOf w a b l c) (ha : ∀ x ∈ l, x ∉ av) :
    ∃ k p F, Trace w av a k p F ∧ p k = b ∧ F k = c := by
  induction l generalizing a c with
  | nil => exact absurd rfl h.ne_nil
  | cons x l ih =>
    rcases h.inv with ⟨h1, h2, h3⟩ | ⟨y, q, c', d', h1, h2, h3, h4⟩
    · refine ⟨0, fun _ => a, fun _ => 0, ⟨rfl, rfl, fun i hi => absurd hi (by omega), fun i _ => ?_⟩, h2, h3.symm⟩
      apply ha; rw [h1]; simp
    · simp only [List.cons.injEq] at h1
      obtain ⟨rfl, rfl⟩ := h1
      obtain ⟨k, p, F, hT, hp, hF⟩ := ih h3 (fun z hz => ha z (List.mem_cons_of_mem _ hz))
      refine ⟨k + 1, fun i => match i with | 0 => x | i + 1 => p i, fun i => match i with | 0 => 0 | i + 1 => c' + F i,
        ⟨rfl, rfl, fun i hi => ?_, fun i hi => ?_⟩, hp, by simp only [hF]; exact h4.symm⟩
      · cases i with
        | zero => exact ⟨c', by simp only [hT.root]; exact h2, hw _ _ _ h2, by simp only [hT.zero]; grind⟩
        | succ i =>
          obtain ⟨e, e1, e2, e3⟩ := hT.edge i (by omega)
          exact ⟨e, e1, e2, by simp only [e3]; grind⟩
      · cases i with
        | zero => exact ha x (by simp)
        | succ i => exact hT.avoid i (by omega)

omit [DecidableEq α] in
theorem Trace.reverse {w : α → α → Option Rat} {av : List α} {a : α} {k : Nat} {p : Nat → α} {F : Nat → Rat}
    (h : Trace w av a k p F) :
    Trace (fun x y => w y x) av (p k) k (fun i => p (k - i)) (fun i => F k - F (k - i)) ∧
      Opp k p F (fun i => p (k - i)) (fun i => F k - F (k - i)) := by
  refine ⟨⟨by simp, by simp only [Nat.sub_zero]; grind, fun i hi => ?_, fun i hi => h.avoid _ (by omega)⟩, fun m hm => ?_, fun m hm => ?_⟩
  · obtain ⟨c, h1, h2, h3⟩ := h.edge (k - (i + 1)) (by omega)
    rw [show k - (i + 1) + 1 = k - i by omega] at h1 h3
    exact ⟨c, h1, h2, by grind⟩
  · simp only [Nat.sub_sub_self hm]
  · simp only [Nat.sub_sub_self hm]

/-- the invariant of the main loop -/
def BiInv (w : α → α → Option Rat) (U av : List α) (start fin : α) (s : Side α × Side α) : Prop :=
  ∃ L L', SideInv w U av start L s.1 ∧ SideInv (fun x y => w y x) U av fin L' s.2 ∧
    BestInv w av start fin true L L' s.1 s.2 ∧
    ∀ k p F p' F', Trace w av start k p F → Trace (fun x y => w y x) av fin k p' F' → Opp k p F p' F' →
      TraceInv k p F p' F' s.1 s.2

/-- what the bidirectional search returns, whatever the avoided nodes are -/
def BiResult (w : α → α → Option Rat) (av : List α) (start fin : α) (r : Ext × List α) : Prop :=
  (∀ p c, AvoidWalk w av start fin p c → leExt r.1 c) ∧
  (r = (.inf, []) ∨ ∃ d, r.1 = .fin d ∧ WalkOf w start fin r.2 d ∧ ∀ x ∈ r.2, x ∉ av ∨ x = start ∨ x = fin)

def BiPost (w : α → α → Option Rat) (av : List α) (start fin : α) (r : Py (Ext × List α)) : Prop :=
  ∃ x, r = .ok x ∧ BiResult w av start fin x

def triLt : Nat × Nat × Nat → Nat × Nat × Nat → Prop := Prod.Lex (· < ·) (Prod.Lex (· < ·) (· < ·))

theorem triLt_wf : WellFounded triLt := (Prod.lex Nat.lt_wfRel (Prod.lex Nat.lt_wfRel Nat.lt_wfRel)).wf

theorem triLt_of {a b : Nat × Nat × Nat} (h : workLt a b) : triLt a b := by
  obtain ⟨a1, a2, a3⟩ := a
  obtain ⟨b1, b2, b3⟩ := b
  rcases h with h | ⟨h, h2⟩ | ⟨h, h2, h3⟩
  · exact .left _ _ h
  · dsimp only at h h2; subst h; exact .right _ (.left _ _ h2)
  · dsimp only at h h2 h3; subst h h2; exact .right _ (.right _ h3)

def biWork (U : List α) (s : Side α × Side α) : Nat × Nat × Nat :=
  ((s.1.work U).1 + (s.2.work U).1, (s.1.work U).2.1 + (s.2.work U).2.1, (s.1.work U).2.2 + (s.2.work U).2.2)

theorem bi_step {w : α → α → Option Rat} (hw : NonNeg w) {U av : List α} (hU : ∀ x y c, w x y = some c → x ∈ U ∧ y ∈ U)
    {out inn : α → List (α × Rat)} (hout : ∀ x y c, (y, c) ∈ out x ↔ w x y = some c)
    (hinn : ∀ x y c, (y, c) ∈ inn x ↔ w y x = some c)
    {srt : List (α × Rat) → List (α × Rat)} (hsrt : ∀ l, (srt l).Perm l) {start fin : α}
    {f b : Side α} (hI : BiInv w U av start fin (f, b)) (hne : ¬ (f.q = [] ∧ b.q = [])) :
    ∃ s', biStep out inn srt av (f, b) = .inl s' ∧ BiInv w U av start fin s' ∧ triLt (biWork U s') (biWork U (f, b)) := by
  obtain ⟨L, L', h1, h2, h3, h4⟩ := hI
  obtain ⟨f1, b1, L1, e1, f2, f3, f4, ⟨f5, f6⟩, f7, f8, f9⟩ := search_spec hw hU hout hsrt h1 h2 h3
  have hw' : NonNeg (fun x y => w y x) := fun a b c h => hw b a c h
  obtain ⟨b2, f2', L2, e2, g2, g3, g4, ⟨g5, g6⟩, g7, g8, g9⟩ := search_spec (nbr := inn) (dir := false) hw' (fun x y c h => (hU y x c h).symm) hinn hsrt f3 f2
    (by simpa using f4.symm)
  refine ⟨(f2', b2), ?_, ⟨L1, L2, g3, g2, by simpa using g4.symm, ?_⟩, ?_⟩
  · unfold biStep; dsimp only; rw [if_neg hne]; rw [show Side.search true out srt av f b = _ from e1]; dsimp only; rw [e2]
  · intro k p F p' F' hT hT' hO
    have i1 := f9 k p F p' F' hT hT' hO (h4 k p F p' F' hT hT' hO)
    have i2 := i1.symm f4.len hO hT.zero
    have i3 := g9 k p' F' p F hT' hT (hO.symm hT.zero) i2
    exact i3.symm g4.len (hO.symm hT.zero) hT'.zero
  · apply triLt_of
    have wb1 : b1.work U = b.work U := by unfold Side.work; rw [f5, f6]
    have wf2 : f2'.work U = f1.work U := by unfold Side.work; rw [g5, g6]
    unfold biWork
    dsimp only
    rw [wf2, ← wb1]
    have hA : f.q ≠ [] → workLt (f1.work U) (f.work U) := f8
    have hA' : f.q = [] → f1.work U = f.work U := fun h => by rw [f7 h]
    have hB : b1.q ≠ [] → workLt (b2.work U) (b1.work U) := g8
    have hB' : b1.q = [] → b2.work U = b1.work U := fun h => by rw [g7 h]
    rw [f5] at hB hB'
    have hX : workLt (f1.work U) (f.work U) ∨ (f1.work U = f.work U ∧ f.q = []) := by
      by_cases h : f.q = []
      · exact .inr ⟨hA' h, h⟩
      · exact .inl (hA h)
    have hY : workLt (b2.work U) (b1.work U) ∨ (b2.work U = b1.work U ∧ b.q = []) := by
      by_cases h : b.q = []
      · exact .inr ⟨hB' h, h⟩
      · exact .inl (hB h)
    rcases hX with hX | ⟨hX, hX'⟩ <;> rcases hY with hY | ⟨hY, hY'⟩
    · unfold workLt at *; dsimp only; omega
    · rw [hY]; unfold workLt at *; dsimp only; omega
    · rw [hX]; unfold workLt at *; dsimp only; omega
    · exact absurd ⟨hX', hY'⟩ hne

theorem bi_main {w : α → α → Option Rat} (hw : NonNeg w) {U : List α} (av : List α) (hU : ∀ x y c, w x y = some c → x ∈ U ∧ y ∈ U)
    {out inn : α → List (α × Rat)} (hout : ∀ x y c, (y, c) ∈ out x ↔ w x y = some c)
    (hinn : ∀ x y c, (y, c) ∈ inn x ↔ w y x = some c)
    {srt : List (α × Rat) → List (α × Rat)} (hsrt : ∀ l, (srt l).Perm l) {start fin : α} (hs : start ∈ U) (hf : fin ∈ U) :
    ∃ r, pyWhile (biStep out inn srt av) (Side.init start, Side.init fin) = some (.ok r) ∧ BiResult w av start fin r := by
  have key : ∃ r, pyWhile (biStep out inn srt av) (Side.init start, Side.init fin) = some r ∧ BiPost w av start fin r := by
    refine pyWhile_totalW (BiInv w U av start fin) (BiPost w av start fin) triLt triLt_wf (biWork U) ?_ ?_ ?_
    · rintro ⟨f, b⟩ s' hI hst
      by_cases hne : f.q = [] ∧ b.q = []
      · simp only [biStep, if_pos hne] at hst; cases hst
      · obtain ⟨s1, h1, h2⟩ := bi_step hw hU hout hinn hsrt hI hne
        rw [h1] at hst; cases hst; exact h2
    · rintro ⟨f, b⟩ r hI hst
      by_cases hne : f.q = [] ∧ b.q = []
      · simp only [biStep, if_pos hne] at hst
        cases hst
        refine ⟨_, rfl, ?_, ?_⟩
        · rintro p c ⟨hp, ha⟩
          obtain ⟨L, L', h1, h2, h3, h4⟩ := hI
          obtain ⟨k, q, F, hT, hq, hF⟩ := hp.trace hw ha
          obtain ⟨hT', hO⟩ := hT.reverse
          rw [hq] at hT'
          rcases h4 k q F _ _ hT hT' hO with h | ⟨i1, i2, i3⟩
          · rw [← hF]; exact h
          · exfalso
            dsimp only at i1 i2 i3
            have noP : ∀ (P : Nat → α) (G : Nat → Rat) m, ¬ Pend P G f m := by
              rintro P G m ⟨e, he, _⟩; rw [hne.1] at he; cases he
            have noP' : ∀ (P : Nat → α) (G : Nat → Rat) m, ¬ Pend P G b m := by
              rintro P G m ⟨e, he, _⟩; rw [hne.2] at he; cases he
            rcases i3 0 (by omega) i1.zero (by
              apply Classical.byContradiction
              intro hn
              obtain ⟨l, _, hl⟩ := i2.pending (k - 0) (by omega) hn
              exact noP' _ _ _ hl) with h | h
            · exact noP _ _ _ h
            · exact noP' _ _ _ h
        · obtain ⟨L, L', h1, h2, h3, h4⟩ := hI
          dsimp only at h3 ⊢
          cases hl : f.spLen with
          | inf => left; rw [h3.inf hl]
          | fin d =>
            obtain ⟨a1, a2, _⟩ := h3.fin d hl
            exact .inr ⟨d, rfl, by simpa using a1, a2⟩
      · obtain ⟨s1, h1, h2⟩ := bi_step hw hU hout hinn hsrt hI hne
        rw [h1] at hst; cases hst
    · have hinit : ∀ (ws : α → α → Option Rat) (root : α), root ∈ U → SideInv ws U av root 0 (Side.init root) := by
        intro ws root hr
        refine ⟨fun e he => ?_, fun y m hm => ?_, by simp [QSorted, Side.init], fun e he => ?_, fun x hx => by simp [Side.init] at hx⟩
        · simp [Side.init] at he; subst he
          exact ⟨by simpa using WalkOf.single root, by simp, ⟨0, by simp [Side.init], Rat.le_refl⟩, hr⟩
        · simp only [Side.init, Dict.get?_set] at hm
          split at hm
          · rename_i h; cases hm; subst h
            exact ⟨[], by simp [Side.init], by simpa using WalkOf.single root, by simp⟩
          · simp at hm
        · simp [Side.init] at he; subst he; exact Rat.le_refl
      refine ⟨0, 0, hinit _ _ hs, hinit _ _ hf, ⟨rfl, rfl, fun _ => rfl, (fun m h => by cases h)⟩, ?_⟩
      intro k p F p' F' hT hT' hO
      have hprog : ∀ (ws : α → α → Option Rat) (root : α) (p : Nat → α) (F : Nat → Rat), Trace ws av root k p F →
          Prog k p F (Side.init root) ∧ ∀ m, Lab p F (Side.init root) m → m ≤ k → Pend p F (Side.init root) m := by
        intro ws root p F hT
        have hpend : ∀ m, Lab p F (Side.init root) m → m ≤ k → Pend p F (Side.init root) m := by
          rintro m ⟨c, hc, hc2⟩ hm
          simp only [Side.init, Dict.get?_set] at hc
          split at hc
          · rename_i h
            refine ⟨⟨0, root, []⟩, by simp [Side.init], h, ?_⟩
            have := hT.mono (Nat.zero_le m) hm
            rw [hT.zero] at this; exact this
          · simp at hc
        refine ⟨⟨⟨0, by simp [Side.init, hT.root], by rw [hT.zero]; exact Rat.le_refl⟩, fun m hm hl => .inl (hpend m hl hm)⟩, hpend⟩
      exact .inr ⟨(hprog _ _ _ _ hT).1, (hprog _ _ _ _ hT').1, fun m hm hl _ => .inl ((hprog _ _ _ _ hT).2 m hl hm)⟩
  obtain ⟨r, h1, x, rfl, h2⟩ := key
  exact ⟨x, h1, h2⟩

theorem shortestPathBi_spec {g : Graph α Rat O} (h : g.Inv) (hw : NonNeg g.edge) {start fin : α} (av : List α)
    {srt : List (α × Rat) → List (α × Rat)} (hsrt : ∀ l, (srt l).Perm l)
    (hs : g.has start = true) (hf : g.has fin = true) :
    ∃ r, g.shortestPathBi srt start fin av = some (.ok r) ∧ BiResult g.edge av start fin r := by
  unfold shortestPathBi
  simp only [hs, hf, Bool.not_true, Bool.false_eq_true, if_false]
  exact bi_main hw av (fun x y c => h.edge_mem) (fun x y c => h.mem_outNbr) (fun x y c => h.mem_inNbr) hsrt
    (has_iff.1 hs) (has_iff.1 hf)

theorem shortestPathBi_error {g : Graph α Rat O} {start fin : α} (av : List α) (srt : List (α × Rat) → List (α × Rat))
    (hne : ¬ (g.has start = true ∧ g.has fin = true)) :
    g.shortestPathBi srt start fin av = some (.error .valueError) := by
  unfold shortestPathBi
  split
  · rfl
  · split
    · rfl
    · rename_i h1 h2; simp at h1 h2; exact absurd ⟨h1, h2⟩ hne

end GT

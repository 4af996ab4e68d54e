import Verif.Other.Tsp
/-
`_opt2` (graph/tsp.py) terminates and returns a tour that is not longer; `itertools.permutations`.
-/
namespace GT
variable {α O : Type} [DecidableEq α]

/-! ### permutations -/

/-- every element with the list of the others, in order of position -/
def selects {α : Type} : List α → List (α × List α)
  | [] => []
  | x :: l => (x, l) :: (selects l).map (fun p => (p.1, x :: p.2))

def permsN {α : Type} : Nat → List α → List (List α)
  | 0, _ => [[]]
  | n + 1, l => (selects l).flatMap (fun p => (permsN n p.2).map (fun q => p.1 :: q))

/-- `itertools.permutations(l, len(l))`: in lexicographic order of positions -/
def perms {α : Type} (l : List α) : List (List α) := permsN l.length l

omit [DecidableEq α] in
theorem selects_perm {l : List α} {x : α} {r : List α} (h : (x, r) ∈ selects l) : (x :: r).Perm l := by
  induction l generalizing x r with
  | nil => simp [selects] at h
  | cons a l ih =>
    simp only [selects, List.mem_cons, List.mem_map, Prod.mk.injEq] at h
    rcases h with ⟨rfl, rfl⟩ | ⟨⟨y, s⟩, h1, rfl, rfl⟩
    · exact .refl _
    · exact (List.Perm.swap _ _ _).trans ((ih h1).cons a)

omit [DecidableEq α] in
theorem mem_selects {l : List α} {x : α} (h : x ∈ l) : ∃ r, (x, r) ∈ selects l := by
  induction l with
  | nil => simp at h
  | cons a l ih =>
    rcases List.mem_cons.1 h with rfl | h
    · exact ⟨l, by simp [selects]⟩
    · obtain ⟨r, hr⟩ := ih h
      refine ⟨a :: r, ?_⟩
      simp only [selects, List.mem_cons, List.mem_map, Prod.mk.injEq]
      exact .inr ⟨(x, r), hr, rfl, rfl⟩

omit [DecidableEq α] in
theorem mem_permsN (n : Nat) : ∀ {l p : List α}, l.length = n → (p ∈ permsN n l ↔ p.Perm l) := by
  induction n with
  | zero =>
    intro l p hl
    have : l = [] := List.eq_nil_of_length_eq_zero hl
    subst this
    simp [permsN]
  | succ n ih =>
    intro l p hl
    simp only [permsN, List.mem_flatMap, List.mem_map]
    constructor
    · rintro ⟨⟨x, r⟩, h1, q, h2, rfl⟩
      have hp := selects_perm h1
      have hr : r.length = n := by have := hp.length_eq; simp at this; omega
      exact (((ih hr).1 h2).cons x).trans hp
    · intro hp
      cases p with
      | nil => have := hp.length_eq; simp at this; omega
      | cons x q =>
        obtain ⟨r, hr⟩ := mem_selects (hp.mem_iff.1 (List.mem_cons_self))
        have hp2 := selects_perm hr
        have hl2 : r.length = n := by have := hp2.length_eq; simp at this; omega
        exact ⟨(x, r), hr, q, (ih hl2).2 (hp.trans hp2.symm).cons_inv, rfl⟩

omit [DecidableEq α] in
theorem mem_perms {l p : List α} : p ∈ perms l ↔ p.Perm l := mem_permsN l.length rfl

/-! ### counting -/

theorem length_le_of_counts {β : Type} [BEq β] [LawfulBEq β] {k : Nat} (P : List β) : ∀ (h : List β), (∀ x ∈ h, x ∈ P) → (∀ x, h.count x ≤ k) →
    h.length ≤ k * P.length := by
  induction P with
  | nil =>
    intro h hs _
    cases h with
    | nil => simp
    | cons x h => simpa using hs x (by simp)
  | cons p P ih =>
    intro h hs hc
    have h1 : h.length = h.count p + (h.filter (fun x => !(x == p))).length := by
      clear ih hs hc
      induction h with
      | nil => simp
      | cons y h ih =>
        by_cases hy : y = p
        · subst hy; simp at ih ⊢; omega
        · simp [hy] at ih ⊢; omega
    have h2 := ih (h.filter (fun x => !(x == p))) (by
      intro x hx
      rw [List.mem_filter] at hx
      have := hs x hx.1
      simp at hx this
      exact this.resolve_left hx.2) (fun x => Nat.le_trans (List.filter_sublist.count_le x) (hc x))
    have h3 := hc p
    rw [List.length_cons, Nat.mul_succ]
    omega

/-! ### `_opt2` -/

omit [DecidableEq α] in
theorem slice_split [DecidableEq α] {t : List α} {i j : Nat} (hij : i ≤ j) : t = t.take i ++ slice t i j ++ t.drop j := by
  unfold slice
  have h1 : t.take j = (t.take j).take i ++ (t.take j).drop i := (List.take_append_drop i _).symm
  rw [List.take_take, Nat.min_eq_left hij] at h1
  rw [← h1, List.take_append_drop]

omit [DecidableEq α] in
theorem reverseSlice_perm [DecidableEq α] {t : List α} {i j : Nat} (hij : i ≤ j) : (reverseSlice t i j).Perm t := by
  have h := slice_split (t := t) hij
  conv => rhs; rw [h]
  unfold reverseSlice
  exact ((List.reverse_perm _).append_left _).append_right _

theorem opt2Try_perm {g : Graph α Rat O} {s : List α × Bool} {ij : Nat × Nat} (hij : ij.1 ≤ ij.2) : (opt2Try g s ij).1.Perm s.1 := by
  unfold opt2Try
  split
  · split
    · split
      · exact reverseSlice_perm hij
      · exact .refl _
    · exact .refl _
  · exact .refl _

theorem opt2Fold_perm {g : Graph α Rat O} (l : List (Nat × Nat)) : ∀ s : List α × Bool, (∀ ij ∈ l, ij.1 ≤ ij.2) →
    (l.foldl (opt2Try g) s).1.Perm s.1 := by
  induction l with
  | nil => intro s _; exact .refl _
  | cons ij l ih =>
    intro s h
    rw [List.foldl_cons]
    exact (ih _ (fun x hx => h x (List.mem_cons_of_mem _ hx))).trans (opt2Try_perm (h ij (by simp)))

theorem opt2Pairs_le (n : Nat) : ∀ ij ∈ opt2Pairs n, ij.1 ≤ ij.2 := by
  intro ij h
  unfold opt2Pairs at h
  rw [List.mem_flatMap] at h
  obtain ⟨len, _, h⟩ := h
  rw [List.mem_map] at h
  obtain ⟨i, _, rfl⟩ := h
  dsimp only; omega

/-- on a complete graph `_opt2` terminates, with a tour that is not longer -/
theorem opt2_spec {g : Graph α Rat O} {nodes t : List α} (hc : CompletePos g.edge nodes) (hnd : nodes.Nodup)
    (h2 : 2 ≤ nodes.length) (ht : t.Perm nodes) :
    ∃ p, opt2 g t = some (.ok p) ∧ p.Perm nodes ∧ clen (totW g.edge) p ≤ clen (totW g.edge) t := by
  unfold opt2
  rw [(distance_tour hc hnd h2 ht).1]
  dsimp only
  generalize hM : 100 * (2 * (perms nodes).length + 1) = M
  suffices hmain : ∃ r, pyWhile (opt2Step g) ⟨t, t, clen (totW g.edge) t, [t], 0⟩ = some r ∧
      ∃ p, r = .ok p ∧ p.Perm nodes ∧ clen (totW g.edge) p ≤ clen (totW g.edge) t by
    obtain ⟨r, hr, p, rfl, h⟩ := hmain
    exact ⟨p, hr, h⟩
  refine pyWhile_total (step := opt2Step g) (s := ⟨t, t, clen (totW g.edge) t, [t], 0⟩)
    (fun s : Opt2St α => s.tour.Perm nodes ∧ s.p0.Perm nodes ∧ s.d0 = clen (totW g.edge) s.p0 ∧ s.d0 ≤ clen (totW g.edge) t ∧
      (∀ x ∈ s.hist, x.Perm nodes) ∧ s.hist.length = s.inc + 1 ∧ s.inc < M)
    (fun r : Py (List α) => ∃ p, r = .ok p ∧ p.Perm nodes ∧ clen (totW g.edge) p ≤ clen (totW g.edge) t)
    (fun s => M - s.inc) ?_ ?_ ?_
  · intro s s' ⟨h1, h3, h4, h5, h6, h7, h8⟩ hs
    unfold opt2Step at hs
    dsimp only at hs
    have hp := (opt2Fold_perm (g := g) (opt2Pairs s.tour.length) (s.tour, false) (opt2Pairs_le _)).trans h1
    generalize (opt2Pairs s.tour.length).foldl (opt2Try g) (s.tour, false) = R at hs hp
    rw [(distance_tour hc hnd h2 hp).1] at hs
    dsimp only at hs
    split at hs
    · cases hs
    · split at hs
      · cases hs
      · rename_i hno
        cases hs
        dsimp only
        refine ⟨⟨hp, ?_, ?_, ?_, ?_, by simp [h7], ?_⟩, by omega⟩
        · split <;> assumption
        · split <;> first | rfl | assumption
        · split <;> grind
        · intro x hx
          rcases List.mem_cons.1 hx with rfl | hx
          · exact hp
          · exact h6 x hx
        · by_cases hlt : s.inc + 1 < M
          · exact hlt
          · exfalso
            have hMe : s.inc + 1 = M := by omega
            refine hno ⟨by rw [hMe, ← hM]; simp, ?_⟩
            rw [List.any_eq_true]
            by_cases hex : ∃ x ∈ R.1 :: s.hist, decide (2 < (R.1 :: s.hist).count x) = true
            · exact hex
            · exfalso
              have hle := length_le_of_counts (k := 2) (perms nodes) (R.1 :: s.hist) (by
                intro x hx
                rw [mem_perms]
                rcases List.mem_cons.1 hx with rfl | hx
                · exact hp
                · exact h6 x hx) (by
                intro x
                by_cases hx : x ∈ R.1 :: s.hist
                · exact Nat.not_lt.1 (fun h => hex ⟨x, hx, decide_eq_true h⟩)
                · rw [List.count_eq_zero_of_not_mem hx]; omega)
              simp only [List.length_cons] at hle
              omega
  · intro s r ⟨h1, h3, h4, h5, h6, h7, h8⟩ hs
    unfold opt2Step at hs
    dsimp only at hs
    have hp := (opt2Fold_perm (g := g) (opt2Pairs s.tour.length) (s.tour, false) (opt2Pairs_le _)).trans h1
    generalize (opt2Pairs s.tour.length).foldl (opt2Try g) (s.tour, false) = R at hs hp
    rw [(distance_tour hc hnd h2 hp).1] at hs
    dsimp only at hs
    have hfin : ∃ p, (Except.ok (if clen (totW g.edge) R.1 < s.d0 then R.1 else s.p0) : Py (List α)) = .ok p ∧ p.Perm nodes ∧
        clen (totW g.edge) p ≤ clen (totW g.edge) t := by
      refine ⟨_, rfl, ?_, ?_⟩
      · split <;> assumption
      · split <;> grind
    split at hs
    · cases hs; exact hfin
    · split at hs
      · cases hs; exact hfin
      · cases hs
  · refine ⟨ht, ht, rfl, ?_, by simpa using ht, rfl, ?_⟩
    · grind
    · rw [← hM]; dsimp only; omega

/-- `tsp_greedy` on a complete graph -/
theorem tspGreedy_spec {nlt : α → α → Bool} {g : Graph α Rat O} (h : g.Inv) (hc : CompletePos g.edge g.nodeList)
    (h2 : 2 ≤ g.nodeList.length) : ∃ d t t1, tspGreedy nlt g = some (.ok (d, t)) ∧ t.Perm g.nodeList ∧ d = clen (totW g.edge) t ∧
      greedyTour nlt g = .ok t1 ∧ t1.Perm g.nodeList ∧ d ≤ clen (totW g.edge) t1 := by
  have hnd : g.nodeList.Nodup := h.nodesWF
  obtain ⟨t1, h1, hp1⟩ := greedyTour_complete (nlt := nlt) h hc h2
  obtain ⟨t2, h3, hp2, hle⟩ := opt2_spec hc hnd h2 hp1
  unfold tspGreedy
  rw [h1]; dsimp only
  rw [(distance_tour hc hnd h2 hp1).1]; dsimp only
  rw [h3]; dsimp only
  rw [(distance_tour hc hnd h2 hp2).1]; dsimp only
  rw [if_pos hle]
  exact ⟨_, _, _, rfl, hp2, rfl, rfl, hp1, hle⟩

end GT

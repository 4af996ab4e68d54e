import Verif.Other.Tsp2023
/-
`_opt2` and `_opt3` (graph/tsp.py) stop at local optima on symmetric complete graphs: proofs.
-/
namespace GT
variable {α O : Type} [DecidableEq α]

omit [DecidableEq α] in
theorem totW_symm {w : α → α → Option Rat} (hs : SymmetricW w) : ∀ a b, totW w a b = totW w b a := fun a b => by
  unfold totW; rw [hs a b]

omit [DecidableEq α] in
/-- the length of a round trip does not depend on the direction -/
theorem clen_reverse {W : α → α → Rat} (hs : ∀ a b, W a b = W b a) (l : List α) : clen W l.reverse = clen W l := by
  cases l with
  | nil => rfl
  | cons x l =>
    rw [List.reverse_cons, clen_rotate]
    have h := plen_reverse hs (x :: l ++ [x])
    simp only [clen, List.reverse_append, List.reverse_cons, List.reverse_nil, List.nil_append, List.cons_append] at h ⊢
    rw [← h]

omit [DecidableEq α] in
theorem clen2 (W : α → α → Rat) {X R : List α} {b c d a : α} (hb : X.head? = some b) (hc : X.getLast? = some c)
    (hd : R.head? = some d) (ha : R.getLast? = some a) : clen W (X ++ R) = plen W X + W c d + plen W R + W a b := by
  rw [clen_eq W (x := b) (z := a), plen_join W (c := c) (d := d)]
  · exact hc
  · exact hd
  · rw [List.head?_append, hb]; rfl
  · rw [List.getLast?_append, ha]; rfl

/-- the parts of the tour around `i`, `j` -/
theorem split_tour2 {t : List α} {i j : Nat} (hij : i + 2 ≤ j) (hj : j ≤ t.length) (hi : i = 0 → j < t.length) :
    ∃ P X Q, t = P ++ X ++ Q ∧ P.length = i ∧ X.length = j - i ∧ (Q ++ P) ≠ [] ∧
      t[i]? = X.head? ∧ t[j - 1]? = X.getLast? ∧ before t i = (Q ++ P).getLast? ∧ t[j % t.length]? = (Q ++ P).head? := by
  refine ⟨t.take i, (t.take j).drop i, t.drop j, ?_, ?_, ?_, ?_, ?_, ?_, ?_, ?_⟩
  · exact slice_split (by omega)
  · simp; omega
  · simp; omega
  · intro h0
    have := congrArg List.length h0
    rw [List.length_append, List.length_drop, List.length_take, List.length_nil] at this
    omega
  · rw [List.head?_drop, List.getElem?_take, if_pos (by omega)]
  · rw [List.getLast?_drop, if_neg (by simp; omega), List.getLast?_take, if_neg (by omega)]
    rw [List.getElem?_eq_getElem (by omega)]; rfl
  · unfold before
    rw [List.getLast?_append, List.getLast?_take, List.getLast?_drop]
    by_cases h0 : i = 0
    · rw [if_pos h0, if_pos h0, if_neg (by have := hi h0; omega), List.getLast?_eq_getElem?]
      simp
    · rw [if_neg h0, if_neg h0, List.getElem?_eq_getElem (by omega)]; rfl
  · rw [List.head?_append, List.head?_drop]
    by_cases hkn : j = t.length
    · rw [List.getElem?_eq_none (by omega : t.length ≤ j), hkn, Nat.mod_self, List.head?_take, if_neg (by intro h0; have := hi h0; omega)]
      cases t <;> simp
    · rw [Nat.mod_eq_of_lt (by omega), List.getElem?_eq_getElem (by omega)]; rfl

/-- on a symmetric complete graph `reverse_segment_if_improvement` reverses exactly if that makes the tour shorter -/
theorem opt2Try_cases {g : Graph α Rat O} {nodes t : List α} (hc : CompletePos g.edge nodes) (hs : SymmetricW g.edge) (hnd : nodes.Nodup)
    (ht : t.Perm nodes) {i j : Nat} (hij : i + 2 ≤ j) (hj : j ≤ t.length) (hi : i = 0 → j < t.length) (f : Bool) :
    (opt2Try g (t, f) (i, j) = (t, f) ∧ clen (totW g.edge) t ≤ clen (totW g.edge) (reverseSlice t i j)) ∨
    (opt2Try g (t, f) (i, j) = (reverseSlice t i j, true) ∧ clen (totW g.edge) (reverseSlice t i j) < clen (totW g.edge) t) := by
  have hsW := totW_symm hs
  have htn : t.Nodup := ht.nodup_iff.2 hnd
  obtain ⟨P, X, Q, hsplit, hP, hX, hR, e1, e2, e3, e4⟩ := split_tour2 hij hj hi
  have hXne : X ≠ [] := by intro h0; rw [h0] at hX; simp at hX; omega
  have hd : ∀ l : List α, l ≠ [] → ∃ x z, l.head? = some x ∧ l.getLast? = some z ∧ x ∈ l ∧ z ∈ l := by
    intro l hl
    refine ⟨l.head hl, l.getLast hl, List.head?_eq_some_head hl, List.getLast?_eq_some_getLast hl, List.head_mem _, List.getLast_mem _⟩
  obtain ⟨b, c, hb, hcl, hbm, hcm⟩ := hd X hXne
  obtain ⟨d, a, hdd, ha, hdm, ham⟩ := hd (Q ++ P) hR
  have hn2 : (P ++ X ++ Q).Nodup := by rw [← hsplit]; exact htn
  have hXR : ∀ x ∈ X, ∀ y ∈ Q ++ P, x ≠ y := by
    rw [List.nodup_append, List.nodup_append] at hn2
    intro x hx y hy
    rcases List.mem_append.1 hy with hy | hy
    · exact hn2.2.2 x (List.mem_append_right _ hx) y hy
    · exact Ne.symm (hn2.1.2.2 y hy x hx)
  have hmem : ∀ x, x ∈ X ∨ x ∈ Q ++ P → x ∈ nodes := by
    intro x hx
    refine ht.mem_iff.1 ?_
    rw [hsplit]
    simp only [List.mem_append] at hx ⊢
    rcases hx with h | h | h
    · exact .inl (.inr h)
    · exact .inr h
    · exact .inl (.inl h)
  have hrot : ∀ M : List α, clen (totW g.edge) (P ++ M ++ Q) = clen (totW g.edge) (M ++ (Q ++ P)) := by
    intro M; rw [List.append_assoc, clen_rotate, List.append_assoc]
  have c0 := clen2 (totW g.edge) hb hcl hdd ha
  have c1 := clen2 (totW g.edge) (X := X.reverse) (b := c) (c := b) (by rw [List.head?_reverse]; exact hcl)
    (by rw [List.getLast?_reverse]; exact hb) hdd ha
  rw [plen_reverse hsW] at c1
  rw [← hrot] at c0 c1
  rw [← hsplit] at c0
  have s1 : reverseSlice t i j = P ++ X.reverse ++ Q := by
    have := slice_of_split (P := P) (X := X) (Q := Q) hP hX (by omega)
    rw [← hsplit] at this
    unfold reverseSlice; rw [this.1, this.2.1, this.2.2]
  have w : ∀ x ∈ X, ∀ y ∈ Q ++ P, truthy (g.edge y x) = some (totW g.edge y x) ∧ truthy (g.edge x y) = some (totW g.edge x y) := by
    intro x hx y hy
    have h1 := hc.totW (hmem x (.inl hx)) (hmem y (.inr hy)) (hXR x hx y hy)
    have h2 := hc.totW (hmem y (.inr hy)) (hmem x (.inl hx)) (Ne.symm (hXR x hx y hy))
    rw [h1.1, h2.1]
    exact ⟨truthy_of_pos h2.2, truthy_of_pos h1.2⟩
  unfold opt2Try
  dsimp only
  rw [e3, e1, e2, e4, hb, hcl, hdd, ha]
  dsimp only
  rw [(w b hbm a ham).1, (w c hcm d hdm).2, (w c hcm a ham).1, (w b hbm d hdm).2]
  dsimp only
  rw [s1, c1, c0]
  have q1 := hsW a c
  split
  · right; refine ⟨rfl, ?_⟩; grind
  · left; refine ⟨rfl, ?_⟩; grind

theorem mem_opt2Pairs {n i j : Nat} : (i, j) ∈ opt2Pairs n ↔ i + 2 ≤ j ∧ j ≤ n ∧ (i = 0 → j < n) := by
  unfold opt2Pairs
  simp only [List.mem_flatMap, List.mem_map, List.mem_range, List.mem_range'_1, List.mem_reverse, Prod.mk.injEq]
  constructor
  · rintro ⟨l, hl, i', hi, rfl, rfl⟩; omega
  · rintro ⟨h1, h2, h3⟩; exact ⟨j - i, by omega, i, by omega, rfl, by omega⟩

theorem opt2Fold_cases {g : Graph α Rat O} {nodes : List α} (hc : CompletePos g.edge nodes) (hs : SymmetricW g.edge) (hnd : nodes.Nodup)
    (l : List (Nat × Nat)) : ∀ (t : List α) (f : Bool), t.Perm nodes → (∀ ij ∈ l, ij ∈ opt2Pairs nodes.length) →
    (l.foldl (opt2Try g) (t, f) = (t, f) ∧ ∀ ij ∈ l, clen (totW g.edge) t ≤ clen (totW g.edge) (reverseSlice t ij.1 ij.2)) ∨
    ((l.foldl (opt2Try g) (t, f)).2 = true ∧ clen (totW g.edge) (l.foldl (opt2Try g) (t, f)).1 < clen (totW g.edge) t) := by
  induction l with
  | nil => intro t f _ _; exact .inl ⟨rfl, by simp⟩
  | cons ij l ih =>
    intro t f hp h
    obtain ⟨i, j⟩ := ij
    obtain ⟨h1, h2, h3⟩ := mem_opt2Pairs.1 (h (i, j) (by simp))
    have h' := fun x hx => h x (List.mem_cons_of_mem _ hx)
    rw [List.foldl_cons]
    rcases opt2Try_cases hc hs hnd hp h1 (by rw [hp.length_eq]; exact h2) (by rw [hp.length_eq]; exact h3) f with ⟨h4, h5⟩ | ⟨h4, h5⟩
    · rw [h4]
      rcases ih t f hp h' with ⟨h6, h7⟩ | h6
      · refine .inl ⟨h6, fun x hx => ?_⟩
        rcases List.mem_cons.1 hx with rfl | hx
        · exact h5
        · exact h7 x hx
      · exact .inr h6
    · rw [h4]
      right
      rcases ih (reverseSlice t i j) true ((reverseSlice_perm (by omega)).trans hp) h' with ⟨h6, _⟩ | ⟨h6, h7⟩
      · rw [h6]; exact ⟨rfl, h5⟩
      · exact ⟨h6, by grind⟩

/-- on a symmetric complete graph the result of `_opt2` cannot be shortened by reversing a segment -/
theorem opt2_local {g : Graph α Rat O} {nodes t : List α} (hc : CompletePos g.edge nodes) (hs : SymmetricW g.edge) (hnd : nodes.Nodup)
    (h2 : 2 ≤ nodes.length) (ht : t.Perm nodes) {r : Py (List α)} (hr : opt2 g t = some r) :
    ∃ p, r = .ok p ∧ p.Perm nodes ∧ (p = t ∨ clen (totW g.edge) p < clen (totW g.edge) t) ∧
      ∀ ij ∈ opt2Pairs nodes.length, clen (totW g.edge) p ≤ clen (totW g.edge) (reverseSlice p ij.1 ij.2) := by
  unfold opt2 at hr
  rw [(distance_tour hc hnd h2 ht).1] at hr
  dsimp only at hr
  refine pyWhile_inv (step := opt2Step g)
    (fun s : Opt2St α => s.tour.Perm nodes ∧ s.p0 = s.tour ∧ s.d0 = clen (totW g.edge) s.tour ∧
      (s.tour = t ∨ clen (totW g.edge) s.tour < clen (totW g.edge) t) ∧ s.hist.Nodup ∧
      ∀ x ∈ s.hist, clen (totW g.edge) s.tour ≤ clen (totW g.edge) x)
    (fun r : Py (List α) => ∃ p, r = .ok p ∧ p.Perm nodes ∧ (p = t ∨ clen (totW g.edge) p < clen (totW g.edge) t) ∧
      ∀ ij ∈ opt2Pairs nodes.length, clen (totW g.edge) p ≤ clen (totW g.edge) (reverseSlice p ij.1 ij.2)) ?_ ?_ ?_ hr
  · intro s s' ⟨h1, h3, h4, h0, h5, h6⟩ hst
    unfold opt2Step at hst
    dsimp only at hst
    have hp := (opt2Fold_perm (g := g) (opt2Pairs s.tour.length) (s.tour, false) (opt2Pairs_le _)).trans h1
    have hf := opt2Fold_cases hc hs hnd (opt2Pairs s.tour.length) s.tour false h1 (by rw [h1.length_eq]; exact fun _ h => h)
    generalize (opt2Pairs s.tour.length).foldl (opt2Try g) (s.tour, false) = R at hst hp hf
    rw [(distance_tour hc hnd h2 hp).1] at hst
    dsimp only at hst
    split at hst
    · cases hst
    · rename_i hR
      split at hst
      · cases hst
      · cases hst
        rcases hf with ⟨h7, _⟩ | ⟨_, h7⟩
        · rw [h7] at hR; exact absurd rfl hR
        · dsimp only
          rw [if_pos (by grind), if_pos (by grind)]
          refine ⟨hp, rfl, rfl, .inr (by grind), List.nodup_cons.2 ⟨fun hm => ?_, h5⟩, fun x hx => ?_⟩
          · have := h6 _ hm; grind
          · rcases List.mem_cons.1 hx with rfl | hx
            · exact Rat.le_refl
            · have := h6 x hx; grind
  · intro s r ⟨h1, h3, h4, h0, h5, h6⟩ hst
    unfold opt2Step at hst
    dsimp only at hst
    have hp := (opt2Fold_perm (g := g) (opt2Pairs s.tour.length) (s.tour, false) (opt2Pairs_le _)).trans h1
    have hf := opt2Fold_cases hc hs hnd (opt2Pairs s.tour.length) s.tour false h1 (by rw [h1.length_eq]; exact fun _ h => h)
    have hlen := h1.length_eq
    generalize hRe : (opt2Pairs s.tour.length).foldl (opt2Try g) (s.tour, false) = R at hst hp hf
    rw [(distance_tour hc hnd h2 hp).1] at hst
    dsimp only at hst
    split at hst
    · rename_i hR
      rcases hf with ⟨h7, h8⟩ | ⟨h7, _⟩
      · cases hst
        rw [h7, h4, if_neg (by grind), h3]
        exact ⟨_, rfl, h1, h0, by rw [← hlen]; exact h8⟩
      · rw [hR] at h7; cases h7
    · rename_i hR
      split at hst
      · rename_i hbr
        exfalso
        rcases hf with ⟨h7, _⟩ | ⟨_, h7⟩
        · rw [h7] at hR; exact absurd rfl hR
        · have hnod : (R.1 :: s.hist).Nodup := List.nodup_cons.2 ⟨fun hm => by have := h6 _ hm; grind, h5⟩
          obtain ⟨x, _, hx⟩ := List.any_eq_true.1 hbr.2
          have := List.nodup_iff_count.1 hnod x
          have := of_decide_eq_true hx
          omega
      · cases hst
  · exact ⟨ht, rfl, rfl, .inl rfl, by simp, by intro x hx; simp at hx; subst hx; exact Rat.le_refl⟩

/-! ### from indices to sections -/

omit [DecidableEq α] in
theorem reverseSlice_split (P X Q : List α) : reverseSlice (P ++ X ++ Q) P.length (P.length + X.length) = P ++ X.reverse ++ Q := by
  have := slice_of_split (P := P) (X := X) (Q := Q) (i := P.length) (j := P.length + X.length) rfl (by omega) (by omega)
  unfold reverseSlice; rw [this.1, this.2.1, this.2.2]

omit [DecidableEq α] in
theorem swapSlices_split (P X Y Q : List α) :
    swapSlices (P ++ X ++ Y ++ Q) P.length (P.length + X.length) (P.length + X.length + Y.length) = P ++ Y ++ X ++ Q := by
  have h1 := slice_of_split (P := P) (X := X) (Q := Y ++ Q) (i := P.length) (j := P.length + X.length) rfl (by omega) (by omega)
  have h2 := slice_of_split (P := P ++ X) (X := Y) (Q := Q) (i := P.length + X.length) (j := P.length + X.length + Y.length)
    (by simp) (by omega) (by omega)
  have e : P ++ X ++ (Y ++ Q) = P ++ X ++ Y ++ Q := by simp
  rw [e] at h1
  unfold swapSlices; rw [h1.1, h1.2.1, h2.1, h2.2.2]; simp

theorem twoOptimal_of {w : α → α → Option Rat} {nodes t : List α} (hc : CompletePos w nodes) (hs : SymmetricW w) (hnd : nodes.Nodup)
    (h2 : 2 ≤ nodes.length) (ht : t.Perm nodes)
    (h : ∀ ij ∈ opt2Pairs nodes.length, clen (totW w) t ≤ clen (totW w) (reverseSlice t ij.1 ij.2)) : TwoOptimal w t := by
  intro P X Q he d c hd hcc
  have hp' : (P ++ X.reverse ++ Q).Perm nodes :=
    (((List.reverse_perm X).append_left P).append_right Q).trans (he ▸ ht)
  rw [tourLen_eq_clen hc hnd h2 ht] at hd
  rw [tourLen_eq_clen hc hnd h2 hp'] at hcc
  cases hd; cases hcc
  have hl := ht.length_eq
  by_cases hX : X.length < 2
  · have : X.reverse = X := by
      match X, hX with
      | [], _ => rfl
      | [x], _ => rfl
      | _ :: _ :: _, hX => simp at hX; omega
    rw [this, ← he]; exact Rat.le_refl
  · by_cases hPQ : P.length = 0 ∧ Q.length = 0
    · rw [List.length_eq_zero_iff.1 hPQ.1, List.length_eq_zero_iff.1 hPQ.2] at he ⊢
      simp only [List.nil_append, List.append_nil] at he ⊢
      rw [clen_reverse (totW_symm hs), ← he]; exact Rat.le_refl
    · have hlt : t.length = P.length + X.length + Q.length := by rw [he]; simp only [List.length_append]
      have := h (P.length, P.length + X.length) (mem_opt2Pairs.2 (by omega))
      rw [he] at this
      dsimp only at this
      rw [reverseSlice_split] at this
      rw [he]; exact this

/-! ### `_opt3` -/

theorem mem_allSegments_iff {n : Nat} {i j k : Nat} : (i, j, k) ∈ allSegments n ↔ i + 2 ≤ j ∧ j + 2 ≤ k ∧ k ≤ n ∧ (i = 0 → k < n) := by
  refine ⟨mem_allSegments, fun ⟨h1, h2, h3, h4⟩ => ?_⟩
  unfold allSegments
  simp only [List.mem_flatMap, List.mem_map, List.mem_range, List.mem_range'_1, Prod.mk.injEq]
  refine ⟨i, by omega, j, by omega, k, ?_, rfl, rfl, rfl⟩
  split <;> omega

/-- none of the changes `_opt3` considers shortens the tour -/
def Opt3Local (W : α → α → Rat) (t : List α) (n : Nat) : Prop :=
  ∀ i j k, (i, j, k) ∈ allSegments n → clen W t ≤ clen W (reverseSlice t i j) ∧ clen W t ≤ clen W (reverseSlice t j k) ∧
    clen W t ≤ clen W (swapSlices t i j k) ∧ clen W t ≤ clen W (reverseSlice t i k)

theorem opt3Fold_cases {g : Graph α Rat O} {nodes : List α} (hc : CompletePos g.edge nodes) (hs : SymmetricW g.edge) (hnd : nodes.Nodup)
    (l : List (Nat × Nat × Nat)) : ∀ (t : List α) (δ : Rat), t.Perm nodes → (∀ ijk ∈ l, ijk ∈ allSegments nodes.length) →
    (l.foldl (opt3Try g) (t, δ) = (t, δ) ∧ ∀ i j k, (i, j, k) ∈ l → clen (totW g.edge) t ≤ clen (totW g.edge) (reverseSlice t i j) ∧
      clen (totW g.edge) t ≤ clen (totW g.edge) (reverseSlice t j k) ∧ clen (totW g.edge) t ≤ clen (totW g.edge) (swapSlices t i j k) ∧
      clen (totW g.edge) t ≤ clen (totW g.edge) (reverseSlice t i k)) ∨
    clen (totW g.edge) (l.foldl (opt3Try g) (t, δ)).1 < clen (totW g.edge) t := by
  induction l with
  | nil => intro t δ _ _; exact .inl ⟨rfl, by simp⟩
  | cons ijk l ih =>
    intro t δ hp h
    obtain ⟨i, j, k⟩ := ijk
    obtain ⟨h1, h2, h3, h4⟩ := mem_allSegments (h (i, j, k) (by simp))
    have h' := fun x hx => h x (List.mem_cons_of_mem _ hx)
    rw [List.foldl_cons]
    have hp2 : (opt3Try g (t, δ) (i, j, k)).1.Perm nodes := (opt3Try_perm (by dsimp only; omega) (by dsimp only; omega)).trans hp
    rcases opt3Try_cases hc hs hnd hp h1 h2 (by rw [hp.length_eq]; exact h3) (by rw [hp.length_eq]; exact h4) δ with ⟨h5, h6⟩ | ⟨_, h5⟩
    · rw [h5]
      rcases ih t δ hp h' with ⟨h7, h8⟩ | h7
      · refine .inl ⟨h7, fun i' j' k' hx => ?_⟩
        rcases List.mem_cons.1 hx with hx | hx
        · cases hx; exact h6
        · exact h8 _ _ _ hx
      · exact .inr h7
    · right
      generalize opt3Try g (t, δ) (i, j, k) = s at hp2 h5
      obtain ⟨s1, s2⟩ := s
      rcases ih s1 s2 hp2 h' with ⟨h7, _⟩ | h7
      · rw [h7]; exact h5
      · dsimp only at h5; grind

/-- on a symmetric complete graph none of the changes `_opt3` considers shortens its result -/
theorem opt3_local {g : Graph α Rat O} {nodes t : List α} (hc : CompletePos g.edge nodes) (hs : SymmetricW g.edge) (hnd : nodes.Nodup)
    (h2 : 2 ≤ nodes.length) (ht : t.Perm nodes) {r : Py (List α)} (hr : opt3 g t = some r) :
    ∃ p, r = .ok p ∧ p.Perm nodes ∧ Opt3Local (totW g.edge) p nodes.length ∧ (p = t ∨ clen (totW g.edge) p < clen (totW g.edge) t) := by
  unfold opt3 at hr
  rw [(distance_tour hc hnd h2 ht).1] at hr
  dsimp only at hr
  refine pyWhile_inv (step := opt3Step g)
    (fun s : Opt3St α => s.tour.Perm nodes ∧ s.p0 = s.tour ∧ s.d0 = clen (totW g.edge) s.tour ∧
      (s.tour = t ∨ clen (totW g.edge) s.tour < clen (totW g.edge) t))
    (fun r : Py (List α) => ∃ p, r = .ok p ∧ p.Perm nodes ∧ Opt3Local (totW g.edge) p nodes.length ∧
      (p = t ∨ clen (totW g.edge) p < clen (totW g.edge) t)) ?_ ?_ ⟨ht, rfl, rfl, .inl rfl⟩ hr
  · intro s s' ⟨h1, h3, h4, h5⟩ hst
    unfold opt3Step at hst
    dsimp only at hst
    have hp := (opt3Fold_perm (g := g) (allSegments s.tour.length) (s.tour, 0) (allSegments_le _)).trans h1
    have hdel := opt3Fold_delta hc hs hnd (allSegments s.tour.length) (s.tour, 0) h1 (by rw [h1.length_eq]; exact fun _ h => h)
    rw [(distance_tour hc hnd h2 hp).1] at hst
    dsimp only at hst hdel
    split at hst
    · cases hst
    · cases hst
      dsimp only
      rw [if_pos (by grind), if_pos (by grind)]
      exact ⟨hp, rfl, rfl, .inr (by grind)⟩
  · intro s r ⟨h1, h3, h4, h5⟩ hst
    unfold opt3Step at hst
    dsimp only at hst
    have hp := (opt3Fold_perm (g := g) (allSegments s.tour.length) (s.tour, 0) (allSegments_le _)).trans h1
    have hdel := opt3Fold_delta hc hs hnd (allSegments s.tour.length) (s.tour, 0) h1 (by rw [h1.length_eq]; exact fun _ h => h)
    have hcas := opt3Fold_cases hc hs hnd (allSegments s.tour.length) s.tour 0 h1 (by rw [h1.length_eq]; exact fun _ h => h)
    rw [(distance_tour hc hnd h2 hp).1] at hst
    dsimp only at hst hdel
    split at hst
    · rename_i hge
      rcases hcas with ⟨h7, h8⟩ | h7
      · cases hst
        rw [h7]
        dsimp only
        rw [if_neg (by grind), h3]
        refine ⟨_, rfl, h1, ?_, h5⟩
        unfold Opt3Local
        rw [← h1.length_eq]; exact h8
      · exfalso; grind
    · cases hst

/-- with seven nodes or more the changes `_opt3` considers include every reversal of a segment -/
theorem Opt3Local.pairs {W : α → α → Rat} (hs : ∀ a b, W a b = W b a) {t : List α} {n : Nat} (h : Opt3Local W t n) (hn : t.length = n)
    (h7 : 7 ≤ n) : ∀ ij ∈ opt2Pairs n, clen W t ≤ clen W (reverseSlice t ij.1 ij.2) := by
  rintro ⟨p, q⟩ hpq
  obtain ⟨h1, h2, h3⟩ := mem_opt2Pairs.1 hpq
  dsimp only
  by_cases a1 : p ≥ 3
  · exact (h 1 p q (mem_allSegments_iff.2 (by omega))).2.1
  · by_cases a2 : p = 2
    · subst a2
      by_cases a3 : q < n
      · exact (h 0 2 q (mem_allSegments_iff.2 (by omega))).2.1
      · have hq : q = n := by omega
        subst hq
        have := (h 0 2 4 (mem_allSegments_iff.2 (by omega))).1
        have e : clen W (reverseSlice t 2 q) = clen W (reverseSlice t 0 2) := by
          unfold reverseSlice slice
          rw [List.take_of_length_le (l := t) (i := q) (by omega), List.drop_of_length_le (l := t) (i := q) (by omega)]
          simp only [List.append_nil, List.take_zero, List.drop_zero, List.nil_append]
          rw [← clen_reverse hs, List.reverse_append, List.reverse_reverse, clen_rotate]
        rw [e]; exact this
    · by_cases a4 : q ≤ n - 3
      · exact (h p q (q + 2) (mem_allSegments_iff.2 (by omega))).1
      · exact (h p (p + 2) q (mem_allSegments_iff.2 (by omega))).2.2.2

theorem swapOptimal_of {w : α → α → Option Rat} {nodes t : List α} (hc : CompletePos w nodes) (hnd : nodes.Nodup)
    (h2 : 2 ≤ nodes.length) (ht : t.Perm nodes) (h : Opt3Local (totW w) t nodes.length) : SwapOptimal w t := by
  intro P X Y Q he hX hY d c hd hcc
  have hp' : (P ++ Y ++ X ++ Q).Perm nodes := by
    refine List.Perm.trans ?_ (he ▸ ht)
    refine List.Perm.append_right Q ?_
    rw [List.append_assoc, List.append_assoc]
    exact List.perm_append_comm.append_left P
  rw [tourLen_eq_clen hc hnd h2 ht] at hd
  rw [tourLen_eq_clen hc hnd h2 hp'] at hcc
  cases hd; cases hcc
  have hl := ht.length_eq
  have hlt : t.length = P.length + X.length + Y.length + Q.length := by rw [he]; simp only [List.length_append]
  by_cases hPQ : P.length = 0 ∧ Q.length = 0
  · rw [List.length_eq_zero_iff.1 hPQ.1, List.length_eq_zero_iff.1 hPQ.2] at he ⊢
    simp only [List.nil_append, List.append_nil] at he ⊢
    rw [clen_rotate, ← he]; exact Rat.le_refl
  · by_cases hP : P.length = 0 ∧ Q.length ≠ 0 ∨ P.length ≠ 0
    · have := (h P.length (P.length + X.length) (P.length + X.length + Y.length) (mem_allSegments_iff.2 (by omega))).2.2.1
      rw [he, swapSlices_split] at this
      rw [he]; exact this
    · omega

/-- `tsp_greedy` on a symmetric complete graph -/
theorem tspGreedy_local {nlt : α → α → Bool} {g : Graph α Rat O} (h : g.Inv) (hc : CompletePos g.edge g.nodeList)
    (hs : SymmetricW g.edge) (h2 : 2 ≤ g.nodeList.length) : ∃ d t, tspGreedy nlt g = some (.ok (d, t)) ∧ TwoOptimal g.edge t := by
  have hnd : g.nodeList.Nodup := h.nodesWF
  obtain ⟨t1, h1, hp1⟩ := greedyTour_complete (nlt := nlt) h hc h2
  obtain ⟨t2, h3, hp2, hle⟩ := opt2_spec hc hnd h2 hp1
  obtain ⟨p, hp, _, _, h4⟩ := opt2_local hc hs hnd h2 hp1 h3
  cases hp
  unfold tspGreedy
  rw [h1]; dsimp only
  rw [(distance_tour hc hnd h2 hp1).1]; dsimp only
  rw [h3]; dsimp only
  rw [(distance_tour hc hnd h2 hp2).1]; dsimp only
  rw [if_pos hle]
  exact ⟨_, _, rfl, twoOptimal_of hc hs hnd h2 hp2 h4⟩

/-- `tsp_2023` on a symmetric complete graph with seven nodes or more -/
theorem tsp2023Long_local {nlt : α → α → Bool} {g : Graph α Rat O} (h : g.Inv) (hc : CompletePos g.edge g.nodeList)
    (hs : SymmetricW g.edge) (h7 : 7 ≤ g.nodeList.length) : ∃ d t t1 t3, tsp2023Long nlt g = some (.ok (d, t)) ∧
      greedyTour nlt g = .ok t1 ∧ t3.Perm g.nodeList ∧ Opt3Local (totW g.edge) t3 g.nodeList.length ∧ d ≤ clen (totW g.edge) t3 ∧
      (t = t1 ∨ t = t3) := by
  have h2 : 2 ≤ g.nodeList.length := by omega
  have hnd : g.nodeList.Nodup := h.nodesWF
  obtain ⟨t, ht, hp⟩ := greedyTour_complete (nlt := nlt) h hc h2
  obtain ⟨t1, ht1, hp1⟩ := opt1_spec hc hnd h2 hp
  obtain ⟨t2, ht2, hp2, _⟩ := opt2_spec hc hnd h2 hp1
  obtain ⟨_, hp', _, ho2, _⟩ := opt2_local hc hs hnd h2 hp1 ht2
  cases hp'
  obtain ⟨r3, h3⟩ := opt3_terminates hc hs hnd h2 hp2
  obtain ⟨t3, rfl, hp3, hl3, ho3⟩ := opt3_local hc hs hnd h2 hp2 h3
  unfold tsp2023Long
  rw [ht]; dsimp only
  rw [(distance_tour hc hnd h2 hp).1]; dsimp only
  rw [ht1]; dsimp only
  rw [(distance_tour hc hnd h2 hp1).1]; dsimp only
  rw [ht2]; dsimp only
  rw [(distance_tour hc hnd h2 hp2).1]; dsimp only
  rw [h3]; dsimp only
  rw [(distance_tour hc hnd h2 hp3).1]; dsimp only
  obtain ⟨x, hx, hl, hmin⟩ := leastTour_spec nlt [(clen (totW g.edge) t, t), (clen (totW g.edge) t1, t1), (clen (totW g.edge) t2, t2),
    (clen (totW g.edge) t3, t3)] (by simp)
  rw [hl]
  have hm3 := hmin (clen (totW g.edge) t3, t3) (by simp)
  refine ⟨x.1, x.2, t, t3, rfl, rfl, hp3, hl3, hm3, ?_⟩
  simp only [List.mem_cons, List.not_mem_nil, or_false] at hx
  rcases hx with rfl | rfl | rfl | rfl
  · exact .inl rfl
  · right
    dsimp only at hm3 ⊢
    rcases ho3 with ho3 | ho3
    · rcases ho2 with ho2 | ho2
      · rw [ho3, ho2]
      · rw [ho3] at hm3; exfalso; grind
    · rcases ho2 with ho2 | ho2
      · rw [ho2] at ho3; exfalso; grind
      · exfalso; grind
  · right
    dsimp only at hm3 ⊢
    rcases ho3 with ho3 | ho3
    · exact ho3.symm
    · exfalso; grind
  · exact .inr rfl

end GT

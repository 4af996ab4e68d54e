import Verif.Sort
/-
`bisect.insort` as the library does it: binary search.
-/
namespace GT
variable {β : Type}

/-- `bisect.bisect_right(l, x, lo, hi)` of Python's library: `while lo < hi: mid = (lo + hi) // 2; if x < l[mid]: hi = mid else: lo = mid + 1`.
`lt a b` is `a < b`, which may raise. -/
def bisectE (lt : β → β → Py Bool) (x : β) (l : List β) (lo hi : Nat) : Py Nat :=
  if h : lo < hi then
    match l[(lo + hi) / 2]? with
    | none => .error .indexError
    | some y => match lt x y with
      | .error e => .error e
      | .ok true => bisectE lt x l lo ((lo + hi) / 2)
      | .ok false => bisectE lt x l ((lo + hi) / 2 + 1) hi
  else .ok lo
termination_by hi - lo

/-- `bisect.insort(l, x)` of Python's library: `l.insert(bisect_right(l, x), x)` -/
def insortE (lt : β → β → Py Bool) (x : β) (l : List β) : Py (List β) :=
  match bisectE lt x l 0 l.length with
  | .error e => .error e
  | .ok k => .ok (l.take k ++ x :: l.drop k)

/-- `bisect.insort(l, x)`, if no comparison raises -/
def bisectB (lt : β → β → Bool) (x : β) (l : List β) (lo hi : Nat) : Nat :=
  if h : lo < hi then
    match l[(lo + hi) / 2]? with
    | none => lo
    | some y => if lt x y then bisectB lt x l lo ((lo + hi) / 2) else bisectB lt x l ((lo + hi) / 2 + 1) hi
  else lo
termination_by hi - lo

def insortB (lt : β → β → Bool) (x : β) (l : List β) : List β :=
  let k := bisectB lt x l 0 l.length
  l.take k ++ x :: l.drop k

/-- the binary search only compares `x` with elements of the list, and raises only what a comparison raises -/
theorem bisectE_cut {lt : β → β → Py Bool} {ltB : β → β → Bool} {x : β} {l : List β} (hlt : ∀ y ∈ l, ∀ b, lt x y = .ok b → b = ltB x y) :
    ∀ n lo hi, hi - lo ≤ n → hi ≤ l.length →
    bisectE lt x l lo hi = .ok (bisectB ltB x l lo hi) ∨ ∃ y ∈ l, ∃ e, lt x y = .error e ∧ bisectE lt x l lo hi = .error e := by
  intro n
  induction n with
  | zero =>
    intro lo hi hn _
    left
    rw [bisectE, bisectB, dif_neg (by omega), dif_neg (by omega)]
  | succ n ih =>
    intro lo hi hn hlen
    rw [bisectE, bisectB]
    by_cases h : lo < hi
    · rw [dif_pos h, dif_pos h]
      have hm : (lo + hi) / 2 < l.length := by omega
      rw [List.getElem?_eq_getElem hm]
      dsimp only
      have hmem : l[(lo + hi) / 2] ∈ l := List.getElem_mem hm
      cases hc : lt x l[(lo + hi) / 2] with
      | error e => exact .inr ⟨_, hmem, e, hc, rfl⟩
      | ok b =>
        have := hlt _ hmem b hc
        cases b with
        | true =>
          rw [if_pos this.symm]
          exact ih lo _ (by omega) (by omega)
        | false =>
          rw [if_neg (by rw [← this]; simp)]
          exact ih _ hi (by omega) hlen
    · rw [dif_neg h, dif_neg h]; exact .inl rfl

theorem insortE_cut {lt : β → β → Py Bool} {ltB : β → β → Bool} {x : β} {l : List β} (hlt : ∀ y ∈ l, ∀ b, lt x y = .ok b → b = ltB x y) :
    insortE lt x l = .ok (insortB ltB x l) ∨ ∃ y ∈ l, ∃ e, lt x y = .error e ∧ insortE lt x l = .error e := by
  unfold insortE insortB
  rcases bisectE_cut hlt l.length 0 l.length (by omega) (Nat.le_refl _) with h | ⟨y, hy, e, h1, h2⟩
  · rw [h]; exact .inl rfl
  · rw [h2]; exact .inr ⟨y, hy, e, h1, rfl⟩

/-- where the binary search ends: everything before is not greater, everything behind is greater -/
theorem bisectB_spec {lt : β → β → Bool} {x : β} {l : List β} (hs : l.Pairwise (fun a b => lt x a = true → lt x b = true)) :
    ∀ n lo hi, hi - lo ≤ n → lo ≤ hi → hi ≤ l.length → (∀ i (h : i < l.length), i < lo → lt x l[i] = false) →
    (∀ i (h : i < l.length), hi ≤ i → lt x l[i] = true) →
    bisectB lt x l lo hi ≤ l.length ∧ (∀ i (h : i < l.length), i < bisectB lt x l lo hi → lt x l[i] = false) ∧
      (∀ i (h : i < l.length), bisectB lt x l lo hi ≤ i → lt x l[i] = true) := by
  intro n
  induction n with
  | zero =>
    intro lo hi hn hle hlen h1 h2
    rw [bisectB, dif_neg (by omega)]
    have : lo = hi := by omega
    subst this
    exact ⟨hlen, h1, h2⟩
  | succ n ih =>
    intro lo hi hn hle hlen h1 h2
    rw [bisectB]
    by_cases h : lo < hi
    · rw [dif_pos h]
      have hm : (lo + hi) / 2 < l.length := by omega
      rw [List.getElem?_eq_getElem hm]
      dsimp only
      rw [List.pairwise_iff_getElem] at hs
      by_cases hc : lt x l[(lo + hi) / 2] = true
      · rw [if_pos hc]
        refine ih lo _ (by omega) (by omega) (by omega) h1 ?_
        intro i hi' hle'
        rcases Nat.lt_or_ge ((lo + hi) / 2) i with hlt | hge
        · exact hs _ _ hm hi' hlt hc
        · have : i = (lo + hi) / 2 := by omega
          subst this; exact hc
      · rw [if_neg hc]
        refine ih _ hi (by omega) (by omega) hlen ?_ h2
        intro i hi' hlt'
        rcases Nat.lt_or_ge i ((lo + hi) / 2) with hlt | hge
        · cases hx : lt x l[i] with
          | false => rfl
          | true => exact absurd (hs _ _ hi' hm hlt hx) hc
        · have : i = (lo + hi) / 2 := by omega
          subst this; simpa using hc
    · rw [dif_neg h]
      have : lo = hi := by omega
      subst this
      exact ⟨hlen, h1, h2⟩

/-- linear search: behind all elements that are not greater -/
def insertBehind (lt : β → β → Bool) (x : β) : List β → List β
  | [] => [x]
  | y :: l => if lt x y then x :: y :: l else y :: insertBehind lt x l

theorem insertBehind_split {lt : β → β → Bool} {x : β} (l : List β) : ∀ k, k ≤ l.length →
    (∀ i (h : i < l.length), i < k → lt x l[i] = false) → (∀ i (h : i < l.length), k ≤ i → lt x l[i] = true) →
    insertBehind lt x l = l.take k ++ x :: l.drop k := by
  induction l with
  | nil => intro k hk _ _; simp at hk; subst hk; rfl
  | cons y l ih =>
    intro k hk h1 h2
    cases k with
    | zero =>
      have := h2 0 (by simp) (Nat.zero_le _)
      simp only [List.getElem_cons_zero] at this
      unfold insertBehind
      rw [if_pos this]; rfl
    | succ k =>
      have := h1 0 (by simp) (by omega)
      simp only [List.getElem_cons_zero] at this
      unfold insertBehind
      rw [if_neg (by rw [this]; simp)]
      rw [ih k (by simpa using hk) (fun i hi hik => by
        have := h1 (i + 1) (by simpa using hi) (by omega)
        simpa using this) (fun i hi hik => by
        have := h2 (i + 1) (by simpa using hi) (by omega)
        simpa using this)]
      rfl

/-- on a sorted list the binary search of `insort` finds the place that a linear search finds -/
theorem insortB_eq {lt : β → β → Bool} (htr : ∀ a b c, lt b a = false → lt c b = false → lt c a = false)
    (has : ∀ a b, lt a b = true → lt b a = false) (x : β) {l : List β} (hs : l.Pairwise (fun a b => lt b a = false)) :
    insortB lt x l = insertBehind lt x l := by
  have hs' : l.Pairwise (fun a b => lt x a = true → lt x b = true) := by
    refine hs.imp ?_
    intro a b hab hxa
    cases hxb : lt x b with
    | true => rfl
    | false =>
      have := htr a b x hab hxb
      rw [hxa] at this; cases this
  obtain ⟨h1, h2, h3⟩ := bisectB_spec hs' l.length 0 l.length (by omega) (by omega) (Nat.le_refl _) (fun i h h' => by omega) (fun i h h' => by omega)
  rw [insertBehind_split l _ h1 h2 h3]
  rfl

theorem insertBehind_perm (lt : β → β → Bool) (x : β) (l : List β) : (insertBehind lt x l).Perm (x :: l) := by
  induction l with
  | nil => exact .refl _
  | cons y l ih =>
    unfold insertBehind
    split
    · exact .refl _
    · exact (ih.cons y).trans (.swap x y l)

theorem insertBehind_pairwise {lt : β → β → Bool} (htr : ∀ a b c, lt b a = false → lt c b = false → lt c a = false)
    (has : ∀ a b, lt a b = true → lt b a = false) (x : β) {l : List β} (hs : l.Pairwise (fun a b => lt b a = false)) :
    (insertBehind lt x l).Pairwise (fun a b => lt b a = false) := by
  induction l with
  | nil => simp [insertBehind]
  | cons y l ih =>
    unfold insertBehind
    rw [List.pairwise_cons] at hs
    split
    · rename_i h
      rw [List.pairwise_cons]
      refine ⟨fun z hz => ?_, List.pairwise_cons.2 hs⟩
      rcases List.mem_cons.1 hz with rfl | hz
      · exact has _ _ h
      · exact htr x y z (has _ _ h) (hs.1 z hz)
    · rename_i h
      rw [List.pairwise_cons]
      refine ⟨fun z hz => ?_, ih hs.2⟩
      rcases List.mem_cons.1 ((insertBehind_perm lt x l).mem_iff.1 hz) with rfl | hz
      · simpa using h
      · exact hs.1 z hz

/-- for a total order it does not matter on which side of equal elements `x` is inserted -/
theorem insertBehind_eq_insSorted {lt : β → β → Bool} (hanti : ∀ a b, lt a b = false → lt b a = false → a = b)
    (has : ∀ a b, lt a b = true → lt b a = false) (x : β) {l : List β} (hs : l.Pairwise (fun a b => lt b a = false)) :
    insertBehind lt x l = insSorted lt x l := by
  induction l with
  | nil => rfl
  | cons y l ih =>
    rw [List.pairwise_cons] at hs
    unfold insertBehind insSorted
    cases hxy : lt x y with
    | true =>
      rw [has _ _ hxy]; rfl
    | false =>
      simp only [Bool.false_eq_true, if_false]
      cases hyx : lt y x with
      | true => simp only [if_true]; rw [ih hs.2]
      | false =>
        simp only [Bool.false_eq_true, if_false]
        have := hanti _ _ hxy hyx
        subst this
        congr 1
        -- all elements that follow are at least `x`: skip the equal ones
        clear ih hxy hyx
        obtain ⟨h1, hp⟩ := hs
        clear hp
        induction l with
        | nil => rfl
        | cons z l ih =>
          unfold insertBehind
          cases hxz : lt x z with
          | true => rfl
          | false =>
            simp only [Bool.false_eq_true, if_false]
            have hz := hanti x z hxz (h1 z (by simp))
            subst hz
            rw [ih (fun w hw => h1 w (List.mem_cons_of_mem _ hw))]

end GT

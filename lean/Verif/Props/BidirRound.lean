import Verif.Sp.BidirFl
import Verif.Sp.FlInt
import Verif.Spec.Double
import Verif.Props.Sp
import Verif.Props.Round
/-
Property theorems C135: `shortest_path_bidirectional` in rounded (floating point) arithmetic.

`MeetSum fl w p c` (Spec/BiRound): `c` is the length of `p` added up with rounding from both ends to one of its nodes.
-/
namespace GT
open Graph
variable {α O : Type} [DecidableEq α]

/-- the exact lengths behind the two sums -/
theorem FlMeet.exact {fl : Rat → Rat} {w : α → α → Option Rat} {a b : α} {p : List α} {c : Rat} (h : FlMeet fl w a b p c) :
    ∃ l x r f' b' e1 e2, p = l ++ [x] ++ r ∧ flCost fl w 0 (l ++ [x]) = some f' ∧ flCost fl (fun a b => w b a) 0 (r.reverse ++ [x]) = some b' ∧ c = fl (f' + b') ∧
      walkCost w (l ++ [x]) = some e1 ∧ walkCost (fun a b => w b a) (r.reverse ++ [x]) = some e2 ∧ WalkOf w a b p (e1 + e2) := by
  obtain ⟨h1, h2, l, x, r, f', b', rfl, h4, h5, h6⟩ := h
  have hb : (r.reverse ++ [x]).head? = some b := by
    cases hr : r.reverse with
    | nil =>
      have : r = [] := by simpa using hr
      subst this; simpa using h2
    | cons z l' =>
      have : r = l'.reverse ++ [z] := by rw [← List.reverse_reverse r, hr]; simp
      subst this
      rw [← List.append_assoc, List.getLast?_append] at h2
      simpa using h2
  have w1 : FlWalk fl w [] a x (l ++ [x]) f' := ⟨by cases l <;> simpa using h1, by simp, h4, by simp⟩
  have w2 : FlWalk fl (fun a b => w b a) [] b x (r.reverse ++ [x]) b' := ⟨hb, by simp, h5, by simp⟩
  obtain ⟨e1, k1, _⟩ := avoid_of_flWalk w1
  obtain ⟨e2, k2, _⟩ := avoid_of_flWalk w2
  refine ⟨l, x, r, f', b', e1, e2, rfl, h4, h5, h6, k1.2.2, k2.2.2, ?_⟩
  have k3 := k2.reverse
  simp only [List.reverse_append, List.reverse_cons, List.reverse_nil, List.nil_append, List.reverse_reverse, List.singleton_append] at k3
  exact k1.append k3

theorem FlMeet.walk {fl : Rat → Rat} {w : α → α → Option Rat} {a b : α} {p : List α} {c : Rat} (h : FlMeet fl w a b p c) : ∃ e, WalkOf w a b p e := by
  obtain ⟨_, _, _, _, _, _, _, _, _, _, _, _, _, h⟩ := h.exact
  exact ⟨_, h⟩

/-- **C135**. Whatever the rounding, with non-negative edge values and `start`, `end` not in `avoids`, `shortest_path_bidirectional` terminates without exception.  If there is a
walk from `start` to `end` outside `avoids`, it returns such a walk `p` together with its length `c` as added up from both ends to one of its nodes, and every such walk `q` has a
node for which this length is at least `c`; otherwise it returns `(inf, [])`.  `srt` is the order in which the edges of a node are visited. -/
theorem C135_bidirectional_rounded {fl : Rat → Rat} (hfl : Rounding fl) {g : Graph α Rat O} (hg : g.Built) (hw : NonNeg g.edge)
    {start fin : α} (hs : g.has start = true) (hf : g.has fin = true) {avoids : List α} (hsa : start ∉ avoids) (hfa : fin ∉ avoids)
    {srt : List (α × Rat) → List (α × Rat)} (hsrt : ∀ l, (srt l).Perm l) :
    ∃ d p, g.shortestPathBiFl fl srt start fin avoids = some (.ok (d, p)) ∧
      ((∃ q e, AvoidWalk g.edge avoids start fin q e) →
        ∃ c, d = .fin c ∧ (∃ e, AvoidWalk g.edge avoids start fin p e) ∧ MeetSum fl g.edge p c ∧
          ∀ q e, AvoidWalk g.edge avoids start fin q e → ∃ c', MeetSum fl g.edge q c' ∧ c ≤ c') ∧
      ((¬ ∃ q e, AvoidWalk g.edge avoids start fin q e) → d = .inf ∧ p = []) := by
  obtain ⟨⟨d, p⟩, h1, h2, h3⟩ := shortestPathBi_specFl hfl hg.inv hw (start := start) (fin := fin) avoids hsrt hs hf
  have hwalk : ∀ c, FlMeet fl g.edge start fin p c → (∀ x ∈ p, x ∉ avoids ∨ x = start ∨ x = fin) → ∃ e, AvoidWalk g.edge avoids start fin p e := by
    intro c hm ha
    obtain ⟨e, he⟩ := hm.walk
    refine ⟨e, he, fun x hx => ?_⟩
    rcases ha x hx with h | rfl | rfl
    · exact h
    · exact hsa
    · exact hfa
  refine ⟨d, p, h1, fun ⟨q, e, hq⟩ => ?_, fun hno => ?_⟩
  · rcases h3 with h3 | ⟨c, h3, h4, h5⟩
    · obtain ⟨c', _, h6⟩ := h2 q e hq
      cases h3; exact absurd h6 id
    · dsimp only at h3; subst h3
      exact ⟨c, rfl, hwalk c h4 h5, h4.2.2, h2⟩
  · rcases h3 with h3 | ⟨c, h3, h4, h5⟩
    · cases h3; exact ⟨rfl, rfl⟩
    · exact absurd ⟨p, hwalk c h4 h5⟩ hno

/-! ### accuracy -/

theorem pow_le_pow_up {x : Rat} (hx : 1 ≤ x) {m n : Nat} (h : m ≤ n) : x ^ m ≤ x ^ n := by
  induction n with
  | zero => rw [show m = 0 by omega]; exact Rat.le_refl
  | succ n ih =>
    by_cases hm : m = n + 1
    · rw [hm]; exact Rat.le_refl
    · have h1 := ih (by omega)
      rw [Rat.pow_succ]
      have h2 : 0 ≤ x ^ n := Rat.pow_nonneg (by grind)
      have := Rat.mul_le_mul_of_nonneg_left hx h2
      grind

theorem pow_le_pow_down {x : Rat} (h0 : 0 ≤ x) (hx : x ≤ 1) {m n : Nat} (h : m ≤ n) : x ^ n ≤ x ^ m := by
  induction n with
  | zero => rw [show m = 0 by omega]; exact Rat.le_refl
  | succ n ih =>
    by_cases hm : m = n + 1
    · rw [hm]; exact Rat.le_refl
    · have h1 := ih (by omega)
      rw [Rat.pow_succ]
      have h2 : 0 ≤ x ^ n := Rat.pow_nonneg h0
      have := Rat.mul_le_mul_of_nonneg_left hx h2
      grind

/-- the length added up from both ends is the length up to one relative error per node -/
theorem FlMeet.bounds {fl : Rat → Rat} {ε : Rat} (h0 : 0 ≤ ε) (h1 : ε ≤ 1) (hε : RelErr fl ε) {w : α → α → Option Rat} (hw : NonNeg w) {a b : α} {p : List α} {c : Rat}
    (h : FlMeet fl w a b p c) : ∃ e, WalkOf w a b p e ∧ (1 - ε) ^ p.length * e ≤ c ∧ c ≤ (1 + ε) ^ p.length * e := by
  obtain ⟨l, x, r, f', b', e1, e2, rfl, k1, k2, rfl, k3, k4, k5⟩ := h.exact
  refine ⟨_, k5, ?_⟩
  have hw' : NonNeg (fun a b => w b a) := fun a b c h => hw b a c h
  obtain ⟨a1, a2⟩ := flCost_bounds h0 h1 hε hw _ Rat.le_refl k1 k3
  obtain ⟨b1, b2⟩ := flCost_bounds h0 h1 hε hw' _ Rat.le_refl k2 k4
  rw [Rat.zero_add] at a1 a2 b1 b2
  have n1 := walkCost_nonneg hw k3
  have n2 := walkCost_nonneg hw' k4
  obtain ⟨m, hm⟩ : ∃ m, (l ++ [x] ++ r).length = m + 1 := ⟨l.length + r.length, by simp; omega⟩
  have hl : (l ++ [x]).length - 1 ≤ m := by simp at hm ⊢; omega
  have hr : (r.reverse ++ [x]).length - 1 ≤ m := by simp at hm ⊢; omega
  rw [hm, Rat.pow_succ, Rat.pow_succ]
  have p1 := Rat.mul_le_mul_of_nonneg_right (pow_le_pow_down (x := 1 - ε) (by grind) (by grind) hl) n1
  have p2 := Rat.mul_le_mul_of_nonneg_right (pow_le_pow_down (x := 1 - ε) (by grind) (by grind) hr) n2
  have p3 := Rat.mul_le_mul_of_nonneg_right (pow_le_pow_up (x := 1 + ε) (by grind) hl) n1
  have p4 := Rat.mul_le_mul_of_nonneg_right (pow_le_pow_up (x := 1 + ε) (by grind) hr) n2
  have q1 : 0 ≤ (1 - ε) ^ m := Rat.pow_nonneg (by grind)
  have q2 : 0 ≤ (1 + ε) ^ m := Rat.pow_nonneg (by grind)
  have s1 : (1 - ε) ^ m * (e1 + e2) ≤ f' + b' := by grind
  have s2 : f' + b' ≤ (1 + ε) ^ m * (e1 + e2) := by grind
  have s0 : 0 ≤ (1 - ε) ^ m * (e1 + e2) := Rat.mul_nonneg q1 (by grind)
  obtain ⟨t1, t2⟩ := hε (f' + b') (by grind)
  have u1 := Rat.mul_le_mul_of_nonneg_left s1 (show 0 ≤ 1 - ε by grind)
  have u2 := Rat.mul_le_mul_of_nonneg_left s2 (show 0 ≤ 1 + ε by grind)
  constructor
  · grind
  · grind

/-- **C135**, accuracy: if the relative error of one rounding is at most `ε ≤ 1`, the number returned is the length `e` of the walk returned up to one relative error per node, and
`e` exceeds the length of any other walk outside `avoids` at most by the accumulated rounding errors. -/
theorem C135_accuracy {fl : Rat → Rat} (hfl : Rounding fl) {ε : Rat} (h0 : 0 ≤ ε) (h1 : ε ≤ 1) (hε : RelErr fl ε) {g : Graph α Rat O} (hg : g.Built) (hw : NonNeg g.edge)
    {start fin : α} (hs : g.has start = true) (hf : g.has fin = true) {avoids : List α}
    {srt : List (α × Rat) → List (α × Rat)} (hsrt : ∀ l, (srt l).Perm l) {d : Rat} {p : List α}
    (h : g.shortestPathBiFl fl srt start fin avoids = some (.ok (.fin d, p))) :
    ∃ e, WalkOf g.edge start fin p e ∧ (1 - ε) ^ p.length * e ≤ d ∧ d ≤ (1 + ε) ^ p.length * e ∧
      ∀ q e', AvoidWalk g.edge avoids start fin q e' → (1 - ε) ^ p.length * e ≤ (1 + ε) ^ q.length * e' := by
  obtain ⟨r, h2, h3, h4⟩ := shortestPathBi_specFl hfl hg.inv hw (start := start) (fin := fin) avoids hsrt hs hf
  rw [h] at h2; cases h2
  rcases h4 with h4 | ⟨c, h4, h5, _⟩
  · cases h4
  · cases h4
    obtain ⟨e, k1, k2, k3⟩ := h5.bounds h0 h1 hε hw
    refine ⟨e, k1, k2, k3, fun q e' hq => ?_⟩
    obtain ⟨c', h6, h7⟩ := h3 q e' hq
    obtain ⟨e2, j1, _, j3⟩ := FlMeet.bounds h0 h1 hε hw (p := q) (c := c') ⟨hq.1.1, hq.1.2.1, h6⟩
    have : e2 = e' := by have := j1.2.2; rw [hq.1.2.2] at this; exact (Option.some.inj this).symm
    subst this
    have h8 : d ≤ c' := h7
    grind

/-! ### without rounding -/

theorem biRelaxFl_id (cost : Rat) (path : List α) (spLen : Ext) (omins : Dict α Rat) (l : List (α × Rat)) : ∀ s, biRelaxFl id cost path spLen omins l s = biRelax cost path spLen omins l s := by
  induction l with
  | nil => intro s; rfl
  | cons a l ih =>
    rintro ⟨q, mins, paths⟩
    obtain ⟨n2, dist⟩ := a
    simp only [biRelaxFl, biRelax, id, ih]
    rfl

theorem searchFl_id (dir : Bool) (nbr : α → List (α × Rat)) (srt : List (α × Rat) → List (α × Rat)) (avoids : List α) (s o : Side α) :
    s.searchFl id dir nbr srt avoids o = s.search dir nbr srt avoids o := by
  unfold Side.searchFl Side.search
  simp only [biRelaxFl_id]
  rfl

/-- **C135**, without rounding this is the function of C29 -/
theorem C135_exact (srt : List (α × Rat) → List (α × Rat)) (g : Graph α Rat O) (start fin : α) (avoids : List α) :
    g.shortestPathBiFl id srt start fin avoids = g.shortestPathBi srt start fin avoids := by
  unfold shortestPathBiFl shortestPathBi
  have : (biStepFl id g.outNbr g.inNbr srt avoids) = biStep g.outNbr g.inNbr srt avoids := by
    funext s
    unfold biStepFl biStep
    simp only [searchFl_id]
    rfl
  rw [this]

/-- **C135**: as in C29, `ValueError` if a node is missing -/
theorem C135_error (fl : Rat → Rat) {g : Graph α Rat O} {start fin : α} (avoids : List α) (srt : List (α × Rat) → List (α × Rat))
    (hne : ¬ (g.has start = true ∧ g.has fin = true)) : g.shortestPathBiFl fl srt start fin avoids = some (.error .valueError) :=
  shortestPathBi_errorFl fl avoids srt hne

/-! ### integers -/

omit [DecidableEq α] in
theorem flCost_ge {fl : Rat → Rat} (hfl : Rounding fl) {w : α → α → Option Rat} (hw : NonNeg w) (p : List α) : ∀ {acc d : Rat}, fl acc = acc → flCost fl w acc p = some d → acc ≤ d := by
  induction p with
  | nil => intro acc d _ h; simp [flCost] at h
  | cons a l ih =>
    intro acc d h1 h
    cases l with
    | nil => simp only [flCost, Option.some.injEq] at h; subst h; exact Rat.le_refl
    | cons b l =>
      simp only [flCost] at h
      split at h
      · rename_i c hc
        have h2 := ih (hfl.idem _) h
        have h3 := hfl.mono acc (acc + c) (by have := hw _ _ _ hc; grind)
        grind
      · cases h

/-- a sum of integers that stays below `N` is exact -/
theorem intUpTo_fl {fl : Rat → Rat} (hfl : Rounding fl) {N : Nat} (hN : ExactUpTo fl N) {x : Rat} (hx : ∃ z : Nat, x = (z : Rat)) (h : fl x < N) : fl x = x := by
  obtain ⟨z, rfl⟩ := hx
  by_cases hz : z ≤ N
  · exact hN _ ⟨z, rfl, hz⟩
  · have h1 := hfl.mono (N : Rat) (z : Rat) (Rat.natCast_le_natCast.2 (by omega))
    rw [hN _ ⟨N, rfl, Nat.le_refl _⟩] at h1
    grind

omit [DecidableEq α] in
theorem flCost_int {fl : Rat → Rat} (hfl : Rounding fl) {N : Nat} (hN : ExactUpTo fl N) {w : α → α → Option Rat} (hw : ∀ a b v, w a b = some v → ∃ z : Nat, v = (z : Rat)) (p : List α) :
    ∀ {acc d e : Rat}, (∃ z : Nat, acc = (z : Rat)) → fl acc = acc → flCost fl w acc p = some d → walkCost w p = some e → d < N → d = acc + e ∧ ∃ z : Nat, d = (z : Rat) := by
  have hw0 : NonNeg w := fun a b c h => by obtain ⟨z, rfl⟩ := hw a b c h; exact Rat.natCast_nonneg
  induction p with
  | nil => intro acc d e _ _ h; simp [flCost] at h
  | cons a l ih =>
    intro acc d e hz h1 h he hd
    cases l with
    | nil =>
      simp only [flCost, Option.some.injEq] at h; subst h
      simp only [walkCost, Option.some.injEq] at he; subst he
      exact ⟨by rw [Rat.add_zero], hz⟩
    | cons b l =>
      simp only [flCost] at h
      simp only [walkCost] at he
      split at h
      · rename_i c hc
        rw [hc] at he
        split at he
        · rename_i c1 e2 hcc hl
          cases hcc
          cases he
          have h2 := flCost_ge hfl hw0 _ (hfl.idem _) h
          have hsum : ∃ z : Nat, acc + c = (z : Rat) := by
            obtain ⟨z1, rfl⟩ := hz
            obtain ⟨z2, rfl⟩ := hw _ _ _ hc
            exact ⟨z1 + z2, by rw [Rat.natCast_add]⟩
          have h3 := intUpTo_fl hfl hN hsum (by grind)
          rw [h3] at h
          obtain ⟨h4, h5⟩ := ih hsum h3 h hl hd
          exact ⟨by rw [h4, Rat.add_assoc], h5⟩
        · cases he
      · cases h

theorem FlMeet.int {fl : Rat → Rat} (hfl : Rounding fl) {N : Nat} (hN : ExactUpTo fl N) {w : α → α → Option Rat} (hw : ∀ a b v, w a b = some v → ∃ z : Nat, v = (z : Rat)) {a b : α}
    {p : List α} {c : Rat} (h : FlMeet fl w a b p c) (hc : c < N) : WalkOf w a b p c := by
  obtain ⟨l, x, r, f', b', e1, e2, rfl, k1, k2, rfl, k3, k4, k5⟩ := h.exact
  have hw0 : NonNeg w := fun a b c h => by obtain ⟨z, rfl⟩ := hw a b c h; exact Rat.natCast_nonneg
  have hw0' : NonNeg (fun a b => w b a) := fun a b c h => hw0 b a c h
  obtain ⟨g1, g2⟩ := flCost_fix hfl hw0 _ hfl.zero Rat.le_refl k1
  obtain ⟨g3, g4⟩ := flCost_fix hfl hw0' _ hfl.zero Rat.le_refl k2
  have m1 := hfl.mono f' (f' + b') (by grind)
  have m2 := hfl.mono b' (f' + b') (by grind)
  rw [g1] at m1; rw [g3] at m2
  obtain ⟨a1, z1, a2⟩ := flCost_int hfl hN hw _ ⟨0, rfl⟩ hfl.zero k1 k3 (by grind)
  obtain ⟨b1, z2, b2⟩ := flCost_int hfl hN (w := fun a b => w b a) (fun a b v h => hw b a v h) _ ⟨0, rfl⟩ hfl.zero k2 k4 (by grind)
  rw [intUpTo_fl hfl hN ⟨z1 + z2, by rw [a2, b2, Rat.natCast_add]⟩ hc]
  rw [a1, b1, show ((0 : Nat) : Rat) = 0 from rfl, Rat.zero_add, Rat.zero_add]
  exact k5

omit [DecidableEq α] in
theorem walkCost_int {w : α → α → Option Rat} (hw : ∀ a b v, w a b = some v → ∃ z : Nat, v = (z : Rat)) (p : List α) : ∀ {e : Rat}, walkCost w p = some e → ∃ z : Nat, e = (z : Rat) := by
  induction p with
  | nil => intro e h; simp [walkCost] at h
  | cons a l ih =>
    intro e h
    cases l with
    | nil => simp only [walkCost, Option.some.injEq] at h; exact ⟨0, h.symm⟩
    | cons b l =>
      simp only [walkCost] at h
      split at h
      · rename_i c e2 hc hl
        obtain ⟨z1, rfl⟩ := hw _ _ _ hc
        obtain ⟨z2, rfl⟩ := ih hl
        simp only [Option.some.injEq] at h
        exact ⟨z1 + z2, by rw [← h, Rat.natCast_add]⟩
      · cases h

omit [DecidableEq α] in
theorem walkCost_int_le {w : α → α → Option Rat} {M : Nat} (hw : ∀ a b v, w a b = some v → ∃ z : Nat, v = (z : Rat) ∧ z ≤ M) (p : List α) : ∀ {e : Rat}, walkCost w p = some e →
    ∃ z : Nat, e = (z : Rat) ∧ z ≤ (p.length - 1) * M := by
  induction p with
  | nil => intro e h; simp [walkCost] at h
  | cons a l ih =>
    intro e h
    cases l with
    | nil => simp only [walkCost, Option.some.injEq] at h; exact ⟨0, h.symm, by simp⟩
    | cons b l =>
      simp only [walkCost] at h
      split at h
      · rename_i c e2 hc hl
        obtain ⟨z1, rfl, hz1⟩ := hw _ _ _ hc
        obtain ⟨z2, rfl, hz2⟩ := ih hl
        simp only [Option.some.injEq] at h
        refine ⟨z1 + z2, by rw [← h, Rat.natCast_add], ?_⟩
        simp only [List.length_cons, Nat.add_sub_cancel] at hz2 ⊢
        rw [Nat.add_mul]; omega
      · cases h

omit [DecidableEq α] in
theorem flCost_int_le {fl : Rat → Rat} {N : Nat} (hN : ExactUpTo fl N) {w : α → α → Option Rat} (hw : ∀ a b v, w a b = some v → ∃ z : Nat, v = (z : Rat)) (p : List α) :
    ∀ {z y : Nat} {d : Rat}, flCost fl w (z : Rat) p = some d → walkCost w p = some (y : Rat) → z + y ≤ N → d = z + y := by
  induction p with
  | nil => intro z y d h; simp [flCost] at h
  | cons a l ih =>
    intro z y d h he hd
    cases l with
    | nil =>
      simp only [flCost, Option.some.injEq] at h; subst h
      simp only [walkCost, Option.some.injEq] at he
      rw [← he, Rat.add_zero]
    | cons b l =>
      simp only [flCost] at h
      simp only [walkCost] at he
      split at h
      · rename_i c hc
        rw [hc] at he
        split at he
        · rename_i c1 e2 hcc hl
          cases hcc
          obtain ⟨z1, rfl⟩ := hw _ _ _ hc
          obtain ⟨z2, rfl⟩ := walkCost_int hw _ hl
          simp only [Option.some.injEq] at he
          rw [← Rat.natCast_add] at he
          have hy : z1 + z2 = y := Rat.natCast_inj.1 he
          rw [← Rat.natCast_add, hN _ ⟨z + z1, rfl, by omega⟩] at h
          rw [ih h hl (by omega), ← hy, Rat.natCast_add, Rat.natCast_add, Rat.add_assoc]
        · cases he
      · cases h

theorem FlMeet.int_le {fl : Rat → Rat} {N : Nat} (hN : ExactUpTo fl N) {w : α → α → Option Rat} (hw : ∀ a b v, w a b = some v → ∃ z : Nat, v = (z : Rat)) {a b : α}
    {p : List α} {c : Rat} {z : Nat} (h : FlMeet fl w a b p c) (hp : walkCost w p = some (z : Rat)) (hz : z ≤ N) : c = z := by
  obtain ⟨l, x, r, f', b', e1, e2, rfl, k1, k2, rfl, k3, k4, k5⟩ := h.exact
  have hw' : ∀ a b v, (fun a b => w b a) a b = some v → ∃ z : Nat, v = (z : Rat) := fun a b v h => hw b a v h
  obtain ⟨z1, rfl⟩ := walkCost_int hw _ k3
  obtain ⟨z2, rfl⟩ := walkCost_int hw' _ k4
  have h1 := k5.2.2
  rw [hp, ← Rat.natCast_add] at h1
  have h2 : z = z1 + z2 := Rat.natCast_inj.1 (Option.some.inj h1)
  have h3 := flCost_int_le hN hw _ (z := 0) k1 k3 (by omega)
  have h4 := flCost_int_le hN hw' _ (z := 0) k2 k4 (by omega)
  rw [show ((0 : Nat) : Rat) = 0 from rfl, Rat.zero_add] at h3 h4
  rw [h3, h4, ← Rat.natCast_add, ← h2]
  exact hN _ ⟨z, rfl, hz⟩

theorem walk_in_nodes {g : Graph α Rat O} (h : g.Inv) {a b : α} {p : List α} {c : Rat} (hp : WalkOf g.edge a b p c) (ha : g.has a = true) : ∀ x ∈ p, x ∈ g.nodeList := by
  induction p generalizing a c with
  | nil => simp
  | cons x p ih =>
    rcases hp.inv with ⟨h1, _, _⟩ | ⟨y, q, c', d', h1, h2, h3, _⟩
    · rw [h1]; simp only [List.mem_singleton, forall_eq]; exact has_iff.1 ha
    · simp only [List.cons.injEq] at h1
      obtain ⟨rfl, rfl⟩ := h1
      intro z hz
      rcases List.mem_cons.1 hz with rfl | hz
      · exact (h.edge_mem h2).1
      · exact ih h3 (has_iff.2 (h.edge_mem h2).2) z hz

/-- **C135**, integers: if all values are integers between 0 and `M`, and `M` times the number of nodes is less than `2^53` (for doubles), the distance that
`shortest_path_bidirectional` returns with `float`s is the exact one, the one of `shortest_path`, and the path has that length. -/
theorem C135_integers {fl : Rat → Rat} (hfl : Rounding fl) {M N : Nat} (hN : ExactUpTo fl N) {g : Graph α Rat O} (hg : g.Built)
    (hw : ∀ a b v, g.edge a b = some v → ∃ z : Nat, v = (z : Rat) ∧ z ≤ M) (hM : g.nodeList.length * M < N)
    {start fin : α} (hs : g.has start = true) (hf : g.has fin = true) {avoids : List α} (hsa : start ∉ avoids) (hfa : fin ∉ avoids)
    {srt : List (α × Rat) → List (α × Rat)} (hsrt : ∀ l, (srt l).Perm l) :
    ∃ d p q, g.shortestPathBiFl fl srt start fin avoids = some (.ok (d, p)) ∧ g.shortestPath start fin avoids = some (.ok (d, q)) ∧
      SpResult g.edge avoids start fin (d, p) := by
  have hwz : ∀ a b v, g.edge a b = some v → ∃ z : Nat, v = (z : Rat) := fun a b v h => let ⟨z, h1, _⟩ := hw a b v h; ⟨z, h1⟩
  have hw0 : NonNeg g.edge := fun a b c h => by obtain ⟨z, rfl⟩ := hwz a b c h; exact Rat.natCast_nonneg
  obtain ⟨d, p, h1, h2, h3⟩ := C135_bidirectional_rounded hfl hg hw0 hs hf hsa hfa hsrt
  obtain ⟨⟨e, q⟩, h5, h6⟩ := shortestPath_spec hg.inv hw0 (start := start) (fin := fin) avoids hs hf
  have hnd : q.Nodup := shortestPath_nodup h5
  suffices h7 : SpResult g.edge avoids start fin (d, p) by
    have h8 : e = d := h6.dist_unique h7
    subst h8
    exact ⟨e, p, q, h1, h5, h7⟩
  rcases h6 with ⟨e', h6, h7, h8⟩ | ⟨h6, h7⟩
  · dsimp only at h6 h7 h8
    obtain ⟨c, rfl, ⟨x, hx⟩, h9, h10⟩ := h2 ⟨q, e', h7⟩
    obtain ⟨c', k1, k2⟩ := h10 q e' h7
    obtain ⟨z, rfl, hz⟩ := walkCost_int_le hw q h7.1.2.2
    have hq : q.length ≤ g.nodeList.length := nodup_length_le hnd (fun y hy => walk_in_nodes hg.inv h7.1 hs y hy)
    have hzN : z < N := Nat.lt_of_le_of_lt (Nat.le_trans hz (Nat.mul_le_mul_right _ (by omega))) hM
    have k3 : c' = z := FlMeet.int_le hN hwz (p := q) ⟨h7.1.1, h7.1.2.1, k1⟩ h7.1.2.2 (by omega)
    have hcN : c < N := by have := (Rat.natCast_lt_natCast (a := z) (b := N)).2 hzN; grind
    have k4 := FlMeet.int hfl hN hwz (p := p) (c := c) ⟨hx.1.1, hx.1.2.1, h9⟩ hcN
    exact .inl ⟨c, rfl, ⟨k4, hx.2⟩, fun q' c'' hq' => by have := h8 q' c'' hq'; grind⟩
  · cases h6
    obtain ⟨rfl, rfl⟩ := h3 h7
    exact .inr ⟨rfl, h7⟩

/-! ### examples -/

/-- evaluation -/
theorem biFl_eval {fl : Rat → Rat} {g : Graph α Rat O} {s f : α} {av : List α} {srt : List (α × Rat) → List (α × Rat)}
    {r : Py (Ext × List α)} (n : Nat) (hs : g.has s = true) (hf : g.has f = true)
    (h : runFuel (biStepFl fl g.outNbr g.inNbr srt av) n (Side.init s, Side.init f) = some r) :
    g.shortestPathBiFl fl srt s f av = some r := by
  unfold shortestPathBiFl
  simp only [hs, hf, Bool.not_true, Bool.false_eq_true, if_false]
  exact pyWhile_of_runFuel h

/-- the chain `1 → 2 → 3 → 4 → 5` with the values 0.1, 0.1, 0.1, 0.4 -/
def chainFlG : Graph Nat Rat Nat := run [W 1 2 (double (1/10)), W 2 3 (double (1/10)), W 3 4 (double (1/10)), W 4 5 (double (4/10))]

/-- on doubles `shortest_path` and `shortest_path_bidirectional` return different distances for the same path (in Python: 0.7000000000000001 and 0.7), so C29's
"same distance" does not carry over to floats -/
theorem C135_not_same_distance_counterexample : chainFlG.Built ∧ NonNeg chainFlG.edge ∧
    chainFlG.shortestPathBiFl double id 1 5 = some (.ok (.fin (double (7/10)), [1, 2, 3, 4, 5])) ∧
    chainFlG.shortestPathFl double 1 5 = some (.ok (.fin (double (7000000000000001 / 10000000000000000)), [1, 2, 3, 4, 5])) ∧
    double (7/10) < double (7000000000000001 / 10000000000000000) :=
  ⟨⟨_, rfl⟩, nonneg_of_edgeList ⟨_, rfl⟩ (by decide +kernel), biFl_eval 20 (by decide +kernel) (by decide +kernel) (by decide +kernel),
    spFl_eval 20 (by decide +kernel) (by decide +kernel) (by decide +kernel), by decide +kernel⟩

/-- the hypotheses of `C135_bidirectional_rounded` and `C135_accuracy`, with avoided nodes, and both kinds of answer -/
example : Rounding double ∧ (0 : Rat) ≤ pow2 (-53) ∧ pow2 (-53) ≤ 1 ∧ RelErr double (pow2 (-53)) ∧ tenthsG.Built ∧ NonNeg tenthsG.edge ∧ tenthsG.has 1 = true ∧ tenthsG.has 3 = true ∧ 1 ∉ [2] ∧ 3 ∉ [2] ∧
    (∀ l : List (Nat × Rat), (id l).Perm l) ∧
    tenthsG.shortestPathBiFl double id 1 3 [2] = some (.ok (.fin (double (3/10)), [1, 3])) ∧
    tenthsG.shortestPathBiFl double id 3 1 = some (.ok (.inf, [])) :=
  ⟨double_rounding, by decide +kernel, by decide +kernel, double_relErr, ⟨_, rfl⟩, nonneg_of_edgeList ⟨_, rfl⟩ (by decide +kernel), by decide +kernel, by decide +kernel,
    by decide, by decide, fun _ => .rfl,
    biFl_eval 20 (by decide +kernel) (by decide +kernel) (by decide +kernel), biFl_eval 20 (by decide +kernel) (by decide +kernel) (by decide +kernel)⟩

/-- the hypotheses of `C135_integers` -/
example : ∃ g : Graph Nat Rat Nat, g.Built ∧ (∀ a b v, g.edge a b = some v → ∃ z : Nat, v = (z : Rat) ∧ z ≤ 4) ∧ g.nodeList.length * 4 < 2 ^ 53 ∧ ExactUpTo double (2 ^ 53) ∧
    g.has 1 = true ∧ g.has 3 = true ∧ g.shortestPathBiFl double id 1 3 = some (.ok (.fin 3, [1, 2, 3])) := by
  refine ⟨run [W 1 3 4, W 1 2 1, W 2 3 2], ⟨_, rfl⟩, fun a b v h => ?_, by decide +kernel, double_exactUpTo, by decide +kernel, by decide +kernel, ?_⟩
  · have hb : (run [W 1 3 4, W 1 2 1, W 2 3 2]).Built := ⟨_, rfl⟩
    have h1 : ∀ e ∈ (run [W 1 3 4, W 1 2 1, W 2 3 2]).edgeList, e.2.2 = 4 ∨ e.2.2 = 1 ∨ e.2.2 = 2 := by decide +kernel
    have h2 := h1 (a, b, v) (hb.inv.mem_edgeList.2 h)
    rcases h2 with h2 | h2 | h2
    · exact ⟨4, h2, by decide⟩
    · exact ⟨1, h2, by decide⟩
    · exact ⟨2, h2, by decide⟩
  · exact biFl_eval 20 (by decide +kernel) (by decide +kernel) (by decide +kernel)

/-- a missing node -/
example : ¬ (chainFlG.has 1 = true ∧ chainFlG.has 9 = true) := by decide +kernel

end GT

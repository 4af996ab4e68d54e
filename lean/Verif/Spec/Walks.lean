/-
Independent specification vocabulary: walks, reachability, hop counts, walk costs.
Nothing here refers to the model of the library.
-/
namespace GT

variable {α : Type}

/-- every two consecutive elements of the list are related -/
def Consec (R : α → α → Prop) : List α → Prop
  | a :: b :: l => R a b ∧ Consec R (b :: l)
  | _ => True

/-- `p` is a walk from `a` to `b`: a non-empty node list that starts with `a`, ends with `b` and
whose consecutive nodes are related -/
def WalkFT (R : α → α → Prop) (a b : α) (p : List α) : Prop :=
  Consec R p ∧ p.head? = some a ∧ p.getLast? = some b

/-- `Steps R n a b`: there is a walk of exactly `n` edges from `a` to `b` -/
inductive Steps (R : α → α → Prop) : Nat → α → α → Prop where
  | zero (a : α) : Steps R 0 a a
  | succ {n : Nat} {a b c : α} : Steps R n a b → R b c → Steps R (n + 1) a c

/-- `b` can be reached from `a` (by zero or more edges) -/
def Reach (R : α → α → Prop) (a b : α) : Prop := ∃ n, Steps R n a b

/-- `b` can be reached from `a` by at least one edge -/
def ReachPlus (R : α → α → Prop) (a b : α) : Prop := ∃ n, Steps R (n + 1) a b

/-- the hop distance from `a` to `b` is `n` -/
def HopDist (R : α → α → Prop) (a b : α) (n : Nat) : Prop :=
  Steps R n a b ∧ ∀ m, Steps R m a b → n ≤ m

/-- no node can reach itself by one or more edges -/
def Acyclic (R : α → α → Prop) : Prop := ∀ a, ¬ ReachPlus R a a

/-- the reversed relation -/
def Flip (R : α → α → Prop) : α → α → Prop := fun a b => R b a

/-- the symmetric closure -/
def Undirected (R : α → α → Prop) : α → α → Prop := fun a b => R a b ∨ R b a

/-- total weight of a node list along a partial weight function; `none` if some consecutive pair
has no weight or if the list is empty -/
def walkCost (w : α → α → Option Rat) : List α → Option Rat
  | [] => none
  | [_] => some 0
  | a :: b :: l => match w a b, walkCost w (b :: l) with
    | some c, some d => some (c + d)
    | _, _ => none

/-- `p` is a walk from `a` to `b` of total weight `c` -/
def WalkOf (w : α → α → Option Rat) (a b : α) (p : List α) (c : Rat) : Prop :=
  p.head? = some a ∧ p.getLast? = some b ∧ walkCost w p = some c

/-- all weights are non-negative -/
def NonNeg (w : α → α → Option Rat) : Prop := ∀ a b c, w a b = some c → 0 ≤ c

/-- extended numbers: what the library returns as a distance (`float('inf')` or a number) -/
inductive Ext where
  | fin (q : Rat)
  | inf
  deriving DecidableEq, Repr

/-- `p` is a walk of total value `c` from `a` to `b` none of whose nodes is in `av` -/
def AvoidWalk (w : α → α → Option Rat) (av : List α) (a b : α) (p : List α) (c : Rat) : Prop :=
  WalkOf w a b p c ∧ ∀ x ∈ p, x ∉ av

/-- what the search returns -/
def SpResult (w : α → α → Option Rat) (av : List α) (start fin : α) (r : Ext × List α) : Prop :=
  (∃ d, r.1 = .fin d ∧ AvoidWalk w av start fin r.2 d ∧ ∀ p c, AvoidWalk w av start fin p c → d ≤ c) ∨
  (r = (.inf, []) ∧ ¬ ∃ p c, AvoidWalk w av start fin p c)

/-- `q2` is a rotation of `q1` -/
def IsRotation (q1 q2 : List α) : Prop := ∃ s t, q1 = s ++ t ∧ q2 = t ++ s

/-- `m` edges are within the radius `k` (`None`: no limit) -/
def WithinRadius (k : Option Int) (m : Nat) : Prop :=
  match k with
  | none => True
  | some k => (m : Int) ≤ k

/-! ### elementary facts -/

theorem Steps.cons {R : α → α → Prop} {n : Nat} {a b c : α} (h : R a b) (h2 : Steps R n b c) :
    Steps R (n + 1) a c := by
  induction h2 with
  | zero => exact .succ (.zero _) h
  | succ _ h3 ih => exact .succ (ih h) h3

theorem Steps.trans {R : α → α → Prop} {n m : Nat} {a b c : α} (h : Steps R n a b)
    (h2 : Steps R m b c) : Steps R (n + m) a c := by
  induction h2 with
  | zero => exact h
  | succ _ h3 ih => exact .succ (ih h) h3

theorem Steps.head {R : α → α → Prop} {n : Nat} {a c : α} (h : Steps R (n + 1) a c) :
    ∃ b, R a b ∧ Steps R n b c := by
  induction n generalizing c with
  | zero => cases h with | succ h h2 => cases h; exact ⟨_, h2, .zero _⟩
  | succ n ih =>
    cases h with
    | succ h h2 =>
      obtain ⟨b, h3, h4⟩ := ih h
      exact ⟨b, h3, .succ h4 h2⟩

theorem Steps.flip {R : α → α → Prop} {n : Nat} {a b : α} (h : Steps R n a b) :
    Steps (Flip R) n b a := by
  induction h with
  | zero => exact .zero _
  | succ _ h2 ih => exact .cons h2 ih

theorem Steps.mono {R S : α → α → Prop} (hRS : ∀ a b, R a b → S a b) {n : Nat} {a b : α}
    (h : Steps R n a b) : Steps S n a b := by
  induction h with
  | zero => exact .zero _
  | succ _ h2 ih => exact .succ ih (hRS _ _ h2)

theorem Reach.refl {R : α → α → Prop} (a : α) : Reach R a a := ⟨0, .zero a⟩
theorem Reach.trans {R : α → α → Prop} {a b c : α} : Reach R a b → Reach R b c → Reach R a c
  | ⟨_, h⟩, ⟨_, h2⟩ => ⟨_, h.trans h2⟩
theorem Reach.tail {R : α → α → Prop} {a b c : α} : Reach R a b → R b c → Reach R a c
  | ⟨_, h⟩, h2 => ⟨_, .succ h h2⟩
theorem Reach.head {R : α → α → Prop} {a b c : α} (h : R a b) : Reach R b c → Reach R a c
  | ⟨_, h2⟩ => ⟨_, .cons h h2⟩
theorem Reach.single {R : α → α → Prop} {a b : α} (h : R a b) : Reach R a b := ⟨1, .succ (.zero a) h⟩
theorem ReachPlus.reach {R : α → α → Prop} {a b : α} : ReachPlus R a b → Reach R a b
  | ⟨_, h⟩ => ⟨_, h⟩
theorem Reach.plus_head {R : α → α → Prop} {a b c : α} (h : R a b) : Reach R b c → ReachPlus R a c
  | ⟨_, h2⟩ => ⟨_, .cons h h2⟩
theorem Reach.plus_tail {R : α → α → Prop} {a b c : α} (h : Reach R a b) (h2 : R b c) :
    ReachPlus R a c := by obtain ⟨n, h⟩ := h; exact ⟨n, .succ h h2⟩
theorem Reach.flip {R : α → α → Prop} {a b : α} : Reach R a b → Reach (Flip R) b a
  | ⟨_, h⟩ => ⟨_, h.flip⟩
theorem Reach.mono {R S : α → α → Prop} (hRS : ∀ a b, R a b → S a b) {a b : α} :
    Reach R a b → Reach S a b
  | ⟨_, h⟩ => ⟨_, h.mono hRS⟩

/-- induction on reachability from the start -/
theorem Reach.ind {R : α → α → Prop} {a : α} (P : α → Prop) (h0 : P a)
    (hs : ∀ b c, Reach R a b → P b → R b c → P c) {b : α} (h : Reach R a b) : P b := by
  obtain ⟨n, h⟩ := h
  induction h with
  | zero => exact h0
  | succ h1 h2 ih => exact hs _ _ ⟨_, h1⟩ (ih h0 hs) h2

/-- a set closed under the relation that contains `a` contains everything reachable from `a` -/
theorem Reach.closed {R : α → α → Prop} {a b : α} (P : α → Prop) (h0 : P a)
    (hs : ∀ b c, P b → R b c → P c) (h : Reach R a b) : P b :=
  Reach.ind P h0 (fun _ _ _ => hs _ _) h

/-! walks and steps -/

theorem Consec.tail {R : α → α → Prop} {a : α} {l : List α} (h : Consec R (a :: l)) :
    Consec R l := by
  cases l with
  | nil => trivial
  | cons b l => exact h.2

theorem Consec.append {R : α → α → Prop} {l m : List α} :
    Consec R (l ++ m) ↔ Consec R l ∧ Consec R m ∧
      (∀ a b, l.getLast? = some a → m.head? = some b → R a b) := by
  induction l with
  | nil => simp [Consec]
  | cons a l ih =>
    cases l with
    | nil =>
      cases m with
      | nil => simp [Consec]
      | cons b m => simp [Consec, and_comm]
    | cons b l =>
      simp only [List.cons_append, Consec, List.getLast?_cons_cons] at ih ⊢
      rw [ih]; constructor
      · rintro ⟨h1, h2, h3, h4⟩; exact ⟨⟨h1, h2⟩, h3, h4⟩
      · rintro ⟨⟨h1, h2⟩, h3, h4⟩; exact ⟨h1, h2, h3, h4⟩

theorem Consec.snoc {R : α → α → Prop} {l : List α} {a b : α} (h : Consec R l)
    (ha : l.getLast? = some a) (hab : R a b) : Consec R (l ++ [b]) := by
  rw [Consec.append]
  refine ⟨h, trivial, ?_⟩
  intro x y hx hy
  rw [ha] at hx; cases hx; simp at hy; subst hy; exact hab

theorem WalkFT.single {R : α → α → Prop} (a : α) : WalkFT R a a [a] := ⟨trivial, rfl, rfl⟩

theorem WalkFT.snoc {R : α → α → Prop} {a b c : α} {p : List α} (h : WalkFT R a b p) (hbc : R b c) :
    WalkFT R a c (p ++ [c]) := by
  refine ⟨h.1.snoc h.2.2 hbc, ?_, by simp⟩
  cases p with
  | nil => have := h.2.1; simp at this
  | cons x p => exact h.2.1

theorem WalkFT.cons {R : α → α → Prop} {a b c : α} {p : List α} (hab : R a b) (h : WalkFT R b c p) :
    WalkFT R a c (a :: p) := by
  cases p with
  | nil => have := h.2.1; simp at this
  | cons x p =>
    have : x = b := by simpa using h.2.1
    subst this
    exact ⟨⟨hab, h.1⟩, rfl, by rw [List.getLast?_cons_cons]; exact h.2.2⟩

theorem WalkFT.ne_nil {R : α → α → Prop} {a b : α} {p : List α} (h : WalkFT R a b p) : p ≠ [] := by
  intro h2; subst h2; have := h.2.1; simp at this

theorem WalkFT.steps {R : α → α → Prop} {a b : α} {p : List α} (h : WalkFT R a b p) :
    Steps R (p.length - 1) a b := by
  induction p generalizing a with
  | nil => exact absurd rfl h.ne_nil
  | cons x l ih =>
    obtain ⟨h1, h2, h3⟩ := h
    have : x = a := by simpa using h2
    subst this
    cases l with
    | nil => simp at h3; subst h3; exact .zero _
    | cons y l =>
      have := ih (a := y) ⟨h1.2, rfl, by rw [List.getLast?_cons_cons] at h3; exact h3⟩
      exact Steps.cons h1.1 this

theorem Steps.walk {R : α → α → Prop} {a b : α} {n : Nat} (h : Steps R n a b) :
    ∃ p, WalkFT R a b p ∧ p.length = n + 1 := by
  induction h with
  | zero => exact ⟨_, WalkFT.single _, rfl⟩
  | succ _ h2 ih =>
    obtain ⟨p, hp, hl⟩ := ih
    exact ⟨_, hp.snoc h2, by simp [hl]⟩

theorem reach_iff_walk {R : α → α → Prop} {a b : α} : Reach R a b ↔ ∃ p, WalkFT R a b p :=
  ⟨fun ⟨_, h⟩ => let ⟨p, hp, _⟩ := h.walk; ⟨p, hp⟩, fun ⟨_, h⟩ => ⟨_, h.steps⟩⟩

theorem reachPlus_iff_walk {R : α → α → Prop} {a b : α} :
    ReachPlus R a b ↔ ∃ p, WalkFT R a b p ∧ 2 ≤ p.length := by
  constructor
  · rintro ⟨n, h⟩
    obtain ⟨p, hp, hl⟩ := h.walk
    exact ⟨p, hp, by omega⟩
  · rintro ⟨p, hp, hl⟩
    refine ⟨p.length - 2, ?_⟩
    have := hp.steps
    have h2 : p.length - 2 + 1 = p.length - 1 := by omega
    rw [h2]; exact this

theorem WalkFT.append {R : α → α → Prop} {a b c : α} {p q : List α} (h : WalkFT R a b p)
    (h2 : WalkFT R b c (b :: q)) : WalkFT R a c (p ++ q) := by
  induction p generalizing a with
  | nil => exact absurd rfl h.ne_nil
  | cons x l ih =>
    obtain ⟨h3, h4, h5⟩ := h
    have : x = a := by simpa using h4
    subst this
    cases l with
    | nil => simp at h5; subst h5; exact h2
    | cons y l =>
      exact (ih (a := y) ⟨h3.2, rfl, by rw [List.getLast?_cons_cons] at h5; exact h5⟩).cons h3.1

/-! the cost of walks -/

theorem walkCost_consec {w : α → α → Option Rat} {p : List α} {c : Rat} (h : walkCost w p = some c) :
    Consec (fun a b => (w a b).isSome) p := by
  induction p generalizing c with
  | nil => trivial
  | cons a l ih =>
    cases l with
    | nil => trivial
    | cons b l =>
      simp only [walkCost] at h
      split at h
      · rename_i c1 c2 h1 h2; exact ⟨by simp [h1], ih h2⟩
      · cases h

theorem walkCost_of_consec {w : α → α → Option Rat} {p : List α} (hne : p ≠ [])
    (h : Consec (fun a b => (w a b).isSome) p) : ∃ c, walkCost w p = some c := by
  induction p with
  | nil => exact absurd rfl hne
  | cons a l ih =>
    cases l with
    | nil => exact ⟨0, rfl⟩
    | cons b l =>
      obtain ⟨c, hc⟩ := ih (by simp) h.2
      obtain ⟨d, hd⟩ := Option.isSome_iff_exists.1 h.1
      exact ⟨d + c, by simp [walkCost, hd, hc]⟩

theorem walkCost_nonneg {w : α → α → Option Rat} (hw : NonNeg w) {p : List α} {c : Rat}
    (h : walkCost w p = some c) : 0 ≤ c := by
  induction p generalizing c with
  | nil => simp [walkCost] at h
  | cons a l ih =>
    cases l with
    | nil => simp [walkCost] at h; subst h; grind
    | cons b l =>
      simp only [walkCost] at h
      split at h
      · rename_i c1 c2 h1 h2
        have := ih h2; have := hw _ _ _ h1
        cases h; grind
      · cases h

theorem WalkOf.single {w : α → α → Option Rat} (a : α) : WalkOf w a a [a] 0 := ⟨rfl, rfl, rfl⟩

theorem WalkOf.cons {w : α → α → Option Rat} {a b z : α} {p : List α} {c d : Rat}
    (hab : w a b = some c) (h : WalkOf w b z p d) : WalkOf w a z (a :: p) (c + d) := by
  obtain ⟨h1, h2, h3⟩ := h
  cases p with
  | nil => simp at h1
  | cons x p =>
    have : x = b := by simpa using h1
    subst this
    exact ⟨rfl, by rw [List.getLast?_cons_cons]; exact h2, by simp [walkCost, hab, h3]⟩

theorem WalkOf.ne_nil {w : α → α → Option Rat} {a b : α} {p : List α} {c : Rat}
    (h : WalkOf w a b p c) : p ≠ [] := by
  intro h2; subst h2; have := h.1; simp at this

/-- inversion: a weighted walk is trivial or starts with an edge -/
theorem WalkOf.inv {w : α → α → Option Rat} {a z : α} {p : List α} {d : Rat}
    (h : WalkOf w a z p d) : (p = [a] ∧ a = z ∧ d = 0) ∨
      ∃ b q c d', p = a :: q ∧ w a b = some c ∧ WalkOf w b z q d' ∧ d = c + d' := by
  obtain ⟨h1, h2, h3⟩ := h
  cases p with
  | nil => simp at h1
  | cons x p =>
    have : x = a := by simpa using h1
    subst this
    cases p with
    | nil => left; simp at h2; simp [walkCost] at h3; exact ⟨rfl, h2, h3.symm⟩
    | cons b l =>
      right
      simp only [walkCost] at h3
      split at h3
      · rename_i c1 c2 hc1 hc2
        cases h3
        exact ⟨b, b :: l, c1, c2, rfl, hc1, ⟨rfl, by rw [List.getLast?_cons_cons] at h2; exact h2, hc2⟩, rfl⟩
      · cases h3

theorem WalkOf.append {w : α → α → Option Rat} {a b z : α} {p q : List α} {c d : Rat}
    (h : WalkOf w a b p c) (h2 : WalkOf w b z (b :: q) d) : WalkOf w a z (p ++ q) (c + d) := by
  induction p generalizing a c with
  | nil => exact absurd rfl h.ne_nil
  | cons x l ih =>
    rcases h.inv with ⟨h3, h4, h5⟩ | ⟨b', q', c', d', h3, h4, h5, h6⟩
    · simp at h3; obtain ⟨rfl, rfl⟩ := h3; subst h4 h5
      rw [show (0 : Rat) + d = d by grind]; exact h2
    · simp only [List.cons.injEq] at h3
      obtain ⟨rfl, rfl⟩ := h3
      have := (ih h5).cons h4
      rw [h6, show c' + d' + d = c' + (d' + d) by grind]; exact this

theorem WalkOf.snoc {w : α → α → Option Rat} {a b z : α} {p : List α} {c d : Rat}
    (h : WalkOf w a b p c) (h2 : w b z = some d) : WalkOf w a z (p ++ [z]) (c + d) := by
  have := h.append (((WalkOf.single z)).cons h2)
  rw [show d + 0 = d by grind] at this
  exact this

theorem WalkOf.walkFT {w : α → α → Option Rat} {a z : α} {p : List α} {d : Rat}
    (h : WalkOf w a z p d) : WalkFT (fun a b => (w a b).isSome) a z p :=
  ⟨walkCost_consec h.2.2, h.1, h.2.1⟩

theorem WalkFT.walkOf {w : α → α → Option Rat} {a z : α} {p : List α}
    (h : WalkFT (fun a b => (w a b).isSome) a z p) : ∃ d, WalkOf w a z p d := by
  obtain ⟨d, hd⟩ := walkCost_of_consec h.ne_nil h.1
  exact ⟨d, h.2.1, h.2.2, hd⟩

theorem WalkOf.nonneg {w : α → α → Option Rat} (hw : NonNeg w) {a z : α} {p : List α} {d : Rat}
    (h : WalkOf w a z p d) : 0 ≤ d := walkCost_nonneg hw h.2.2

theorem WalkOf.cost_unique {w : α → α → Option Rat} {a z a' z' : α} {p : List α} {d d' : Rat}
    (h : WalkOf w a z p d) (h' : WalkOf w a' z' p d') : d = d' := by
  have := h.2.2.symm.trans h'.2.2; simpa using this

/-- splitting a weighted walk at an inner node -/
theorem WalkOf.split {w : α → α → Option Rat} {a z : α} {s t : List α} {x : α} {d : Rat}
    (h : WalkOf w a z (s ++ x :: t) d) :
    ∃ d1 d2, WalkOf w a x (s ++ [x]) d1 ∧ WalkOf w x z (x :: t) d2 ∧ d = d1 + d2 := by
  induction s generalizing a d with
  | nil =>
    have : x = a := by simpa using h.1
    subst this
    exact ⟨0, d, WalkOf.single _, h, by grind⟩
  | cons y s ih =>
    have : y = a := by simpa using h.1
    subst this
    rcases h.inv with ⟨h3, h4, h5⟩ | ⟨b', q', c', d', h3, h4, h5, h6⟩
    · simp at h3
    · simp only [List.cons_append, List.cons.injEq, true_and] at h3
      rw [← h3] at h5
      obtain ⟨d1, d2, h7, h8, h9⟩ := ih h5
      exact ⟨c' + d1, d2, h7.cons h4, h8, by grind⟩

/-- with non-negative weights every walk contains a simple walk that is no more expensive -/
theorem WalkOf.simple {w : α → α → Option Rat} (hw : NonNeg w) {a z : α} {p : List α} {d : Rat}
    (h : WalkOf w a z p d) :
    ∃ q d', WalkOf w a z q d' ∧ d' ≤ d ∧ q.Nodup ∧ q ⊆ p := by
  induction p generalizing a d with
  | nil => exact absurd rfl h.ne_nil
  | cons x l ih =>
    rcases h.inv with ⟨h3, h4, h5⟩ | ⟨b', q', c', d', h3, h4, h5, h6⟩
    · exact ⟨[a], 0, by subst h4; exact WalkOf.single _, by grind, by simp, by simp [h3]⟩
    · simp only [List.cons.injEq] at h3
      obtain ⟨rfl, rfl⟩ := h3
      obtain ⟨q, d2, hq, hd2, hnd, hsub⟩ := ih h5
      have hc := hw _ _ _ h4
      by_cases hx : x ∈ q
      · obtain ⟨s, t, rfl⟩ := List.append_of_mem hx
        obtain ⟨e1, e2, h7, h8, h9⟩ := hq.split
        have := h7.nonneg hw
        refine ⟨x :: t, e2, h8, by grind, ?_, ?_⟩
        · exact (List.nodup_append.1 hnd).2.1
        · intro y hy; exact List.mem_cons_of_mem _ (hsub (List.mem_append_right _ hy))
      · refine ⟨x :: q, c' + d2, hq.cons h4, by grind, List.nodup_cons.2 ⟨hx, hnd⟩, ?_⟩
        intro y hy
        rcases List.mem_cons.1 hy with rfl | hy
        · simp
        · exact List.mem_cons_of_mem _ (hsub hy)

/-- every walk contains a simple walk with the same ends -/
theorem WalkFT.simple {R : α → α → Prop} {a z : α} {p : List α} (h : WalkFT R a z p) :
    ∃ q, WalkFT R a z q ∧ q.Nodup ∧ q ⊆ p := by
  induction p generalizing a with
  | nil => exact absurd rfl h.ne_nil
  | cons x l ih =>
    obtain ⟨h1, h2, h3⟩ := h
    have : x = a := by simpa using h2
    subst this
    cases l with
    | nil => exact ⟨[x], ⟨trivial, rfl, h3⟩, by simp, by simp⟩
    | cons b l =>
      rw [List.getLast?_cons_cons] at h3
      obtain ⟨q, hq, hnd, hsub⟩ := ih (a := b) ⟨h1.2, rfl, h3⟩
      by_cases hx : x ∈ q
      · obtain ⟨s, t, rfl⟩ := List.append_of_mem hx
        refine ⟨x :: t, ⟨(Consec.append.1 hq.1).2.1, rfl, ?_⟩, (List.nodup_append.1 hnd).2.1, ?_⟩
        · have := hq.2.2; rw [List.getLast?_append] at this
          rw [List.getLast?_cons] at this ⊢; simpa using this
        · intro y hy; exact List.mem_cons_of_mem _ (hsub (List.mem_append_right _ hy))
      · refine ⟨x :: q, hq.cons h1.1, List.nodup_cons.2 ⟨hx, hnd⟩, ?_⟩
        intro y hy
        rcases List.mem_cons.1 hy with rfl | hy
        · simp
        · exact List.mem_cons_of_mem _ (hsub hy)

end GT

import Verif.Spec.Walks
/-
Independent specification vocabulary: round trips.  Nothing here refers to the model of the library.
-/
namespace GT
variable {α : Type}

/-- the length of the round trip that visits the list and returns to its first element; `none` if an edge is missing -/
def tourLen (w : α → α → Option Rat) : List α → Option Rat
  | [] => some 0
  | x :: l => walkCost w (x :: l ++ [x])

/-- any two different nodes are joined by an edge of positive value -/
def CompletePos (w : α → α → Option Rat) (nodes : List α) : Prop :=
  ∀ a ∈ nodes, ∀ b ∈ nodes, a ≠ b → ∃ v, w a b = some v ∧ 0 < v

/-- both directions have the same value -/
def SymmetricW (w : α → α → Option Rat) : Prop := ∀ a b, w a b = w b a

/-- the round trip `t` visits every node exactly once and has length `d` -/
def IsTourOf (w : α → α → Option Rat) (nodes t : List α) (d : Rat) : Prop := t.Perm nodes ∧ tourLen w t = some d

/-- no round trip through all nodes is shorter than `d` -/
def MinimalTour (w : α → α → Option Rat) (nodes : List α) (d : Rat) : Prop := ∀ t c, IsTourOf w nodes t c → d ≤ c

/-- the round trip `t` cannot be shortened by travelling a section of it backwards (exchanging two edges): `t` is 2-optimal -/
def TwoOptimal (w : α → α → Option Rat) (t : List α) : Prop :=
  ∀ P X Q, t = P ++ X ++ Q → ∀ d c, tourLen w t = some d → tourLen w (P ++ X.reverse ++ Q) = some c → d ≤ c

/-- the round trip `t` cannot be shortened by exchanging two adjacent sections of two or more nodes each -/
def SwapOptimal (w : α → α → Option Rat) (t : List α) : Prop :=
  ∀ P X Y Q, t = P ++ X ++ Y ++ Q → 2 ≤ X.length → 2 ≤ Y.length →
    ∀ d c, tourLen w t = some d → tourLen w (P ++ Y ++ X ++ Q) = some c → d ≤ c

/-! ### lengths with total weights -/

/-- length of a path -/
def plen (W : α → α → Rat) : List α → Rat
  | a :: b :: l => W a b + plen W (b :: l)
  | _ => 0

/-- length of a round trip -/
def clen (W : α → α → Rat) : List α → Rat
  | [] => 0
  | x :: l => plen W (x :: l ++ [x])

theorem plen_append (W : α → α → Rat) (l : List α) (x : α) (m : List α) :
    plen W (l ++ x :: m) = plen W (l ++ [x]) + plen W (x :: m) := by
  induction l with
  | nil => simp [plen]; grind
  | cons a l ih =>
    cases l with
    | nil => simp [plen]; grind
    | cons b l =>
      simp only [List.cons_append, plen] at ih ⊢
      rw [ih]; grind

theorem plen_append2 (W : α → α → Rat) (l : List α) (x y : α) (m : List α) :
    plen W (l ++ x :: y :: m) = plen W (l ++ [x]) + W x y + plen W (y :: m) := by
  rw [plen_append]; simp only [plen]; grind

/-- the length of a round trip does not depend on where it starts -/
theorem clen_rotate (W : α → α → Rat) (l m : List α) : clen W (l ++ m) = clen W (m ++ l) := by
  cases l with
  | nil => simp
  | cons x l =>
    cases m with
    | nil => simp
    | cons y m =>
      simp only [clen, List.cons_append, List.append_assoc]
      have h1 := plen_append W (x :: l) y (m ++ [x])
      have h2 := plen_append W (y :: m) x (l ++ [y])
      simp only [List.cons_append, List.append_assoc, List.nil_append] at h1 h2
      rw [h1, h2]; grind

theorem plen_reverse {W : α → α → Rat} (hs : ∀ a b, W a b = W b a) (l : List α) : plen W l.reverse = plen W l := by
  induction l with
  | nil => rfl
  | cons a l ih =>
    cases l with
    | nil => rfl
    | cons b l =>
      simp only [List.reverse_cons, List.append_assoc, List.cons_append, List.nil_append, plen] at ih ⊢
      rw [plen_append, ih]; simp only [plen]; rw [hs b a]; grind

theorem walkCost_eq_plen {w : α → α → Option Rat} {W : α → α → Rat} {p : List α} (hne : p ≠ [])
    (h : Consec (fun a b => w a b = some (W a b)) p) : walkCost w p = some (plen W p) := by
  induction p with
  | nil => exact absurd rfl hne
  | cons a l ih =>
    cases l with
    | nil => rfl
    | cons b l =>
      simp only [walkCost, plen]
      rw [h.1, ih (by simp) h.2]

theorem consec_of_nodup {U : α → Prop} {R : α → α → Prop} {l : List α} (hnd : l.Nodup) (hU : ∀ x ∈ l, U x)
    (hR : ∀ a b, U a → U b → a ≠ b → R a b) : Consec R l := by
  induction l with
  | nil => trivial
  | cons a l ih =>
    cases l with
    | nil => trivial
    | cons b l =>
      rw [List.nodup_cons] at hnd
      refine ⟨hR a b (hU a (by simp)) (hU b (by simp)) (fun h => hnd.1 (by simp [h])), ih hnd.2 (fun x hx => hU x (by simp [hx]))⟩

theorem consec_closed {U : α → Prop} {R : α → α → Prop} {x y : α} {l : List α} (hnd : (x :: y :: l).Nodup)
    (hU : ∀ z ∈ x :: y :: l, U z) (hR : ∀ a b, U a → U b → a ≠ b → R a b) : Consec R (x :: y :: l ++ [x]) := by
  have h1 : Consec R (x :: y :: l) := consec_of_nodup hnd hU hR
  have hl : (x :: y :: l).getLast? = some ((y :: l).getLast (by simp)) := by
    rw [List.getLast?_eq_some_getLast (by simp)]; simp
  refine h1.snoc hl ?_
  have hm : (y :: l).getLast (by simp) ∈ y :: l := List.getLast_mem _
  refine hR _ _ (hU _ (List.mem_cons_of_mem _ hm)) (hU x (by simp)) (fun h => ?_)
  rw [h] at hm
  exact (List.nodup_cons.1 hnd).1 hm

/-- the value of an edge, 0 if it is missing -/
def totW (w : α → α → Option Rat) (a b : α) : Rat := (w a b).getD 0

theorem CompletePos.totW {w : α → α → Option Rat} {nodes : List α} (h : CompletePos w nodes) {a b : α} (ha : a ∈ nodes) (hb : b ∈ nodes)
    (hab : a ≠ b) : w a b = some (GT.totW w a b) ∧ 0 < GT.totW w a b := by
  obtain ⟨v, h1, h2⟩ := h a ha b hb hab
  unfold GT.totW
  rw [h1]; exact ⟨rfl, h2⟩

theorem tourLen_eq_clen {w : α → α → Option Rat} {nodes t : List α} (h : CompletePos w nodes) (hnd : nodes.Nodup)
    (h2 : 2 ≤ nodes.length) (ht : t.Perm nodes) : tourLen w t = some (clen (totW w) t) := by
  have hl := ht.length_eq
  have htn : t.Nodup := ht.nodup_iff.2 hnd
  match t, hl, htn, ht with
  | [], hl, _, _ => simp at hl; omega
  | [_], hl, _, _ => simp at hl; omega
  | x :: y :: l, _, htn, ht =>
    refine walkCost_eq_plen (by simp) ?_
    exact consec_closed (U := fun z => z ∈ nodes) htn (fun z hz => ht.mem_iff.1 hz) (fun a b ha hb hab => (h.totW ha hb hab).1)

end GT

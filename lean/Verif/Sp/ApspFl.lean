import Verif.Sp.Center
import Verif.Spec.Round
/-
Models of `all_pairs_shortest_paths` (graph/all_pairs_shortest_path.py:4-38), `minmax` (graph/minmax.py:4-12), `minsum`
(graph/minsum.py:4-12) and `shortest_tree_all_pairs` (graph/shortest_tree_all_pairs.py:5-43) in floating point arithmetic: `fl` rounds the
result of every addition.  With `fl = id` they are the models of Sp/Apsp and Sp/Center.
-/
namespace GT
variable {α O : Type} [DecidableEq α]
open Graph

/-! ### model -/

/-- `x + y` -/
def Ext.addFl (fl : Rat → Rat) : Ext → Ext → Ext
  | .fin a, .fin b => .fin (fl (a + b))
  | _, _ => .inf

/-- one round of the loop (all_pairs_shortest_path.py:36-37) -/
def fwStepFl (fl : Rat → Rat) (vs : List α) (m : Dict α (Dict α Ext)) (v2 : α) : Dict α (Dict α Ext) :=
  Dict.comp vs (fun v1 => Dict.comp vs (fun v3 => (at2 m v1 v3).min ((at2 m v1 v2).addFl fl (at2 m v2 v3))))

/-- `all_pairs_shortest_paths(graph)` (all_pairs_shortest_path.py:32-38) -/
def Graph.allPairsFl (fl : Rat → Rat) (g : Graph α Rat O) : Dict α (Dict α Ext) :=
  g.adjMatrix.keys.foldl (fwStepFl fl g.adjMatrix.keys) g.adjMatrix

/-- `minmax(graph)` (minmax.py:4-12) -/
def Graph.minmaxFl (fl : Rat → Rat) (g : Graph α Rat O) : Py (List α) :=
  match aggRows extMax (g.allPairsFl fl).items with
  | .error e => .error e
  | .ok rows => argMins rows

/-- `sum(l)` from left to right (CPython before 3.12) -/
def extSumFl (fl : Rat → Rat) (l : List Ext) : Ext := l.foldl (Ext.addFl fl) (.fin 0)

/-- `minsum(graph)` (minsum.py:4-12).  `sm` is `sum` on floats: `extSumFl fl`, or the more precise summation since CPython 3.12 -/
def Graph.minsumFl (fl : Rat → Rat) (sm : List Ext → Ext) (g : Graph α Rat O) : Py (List α) :=
  match aggRows (fun l => .ok (sm l)) (g.allPairsFl fl).items with
  | .error e => .error e
  | .ok rows => argMins rows

/-- `shortest_tree_all_pairs(graph)` (shortest_tree_all_pairs.py:5-43).  `m1` is the object `-1`.  Simplification: the sum in line 21 is not
rounded; it is only compared with `inf`. -/
def Graph.shortestTreeFl (fl : Rat → Rat) (m1 : α) (ord : List α → List α) (g : Graph α Rat O) : Option (Py (List α)) :=
  match (g.allPairsFl fl).get? (bestStart m1 (g.allPairsFl fl)) with
  | none => some (.error .keyError)
  | some row => pyWhile (treeStep ord) ((g.allPairsFl fl).keys, invert row, [])

/-! ### without rounding -/

theorem Ext.addFl_id (x y : Ext) : x.addFl id y = x.add y := by cases x <;> cases y <;> rfl

theorem allPairsFl_id (g : Graph α Rat O) : g.allPairsFl id = g.allPairs := by
  unfold allPairsFl allPairs
  have : ∀ vs : List α, fwStepFl id vs = fwStep vs := by
    intro vs; funext m v; unfold fwStepFl fwStep; simp only [Ext.addFl_id]
  rw [this]

theorem extSumFl_id (l : List Ext) : extSumFl id l = extSum l := by
  unfold extSumFl extSum
  have : Ext.addFl id = Ext.add := by funext x y; exact Ext.addFl_id x y
  rw [this]

/-! ### errors -/

theorem Ext.le_fin {x y : Rat} : (Ext.fin x).le (.fin y) ↔ x ≤ y := Iff.rfl

theorem Ext.min_fin (x y : Rat) : (Ext.fin x).min (.fin y) = .fin (if x ≤ y then x else y) := by
  unfold Ext.min
  by_cases h : x ≤ y
  · rw [if_neg (by rw [Ext.gt_iff]; simpa [Ext.le] using h), if_pos h]
  · rw [if_pos (by rw [Ext.gt_iff]; simpa [Ext.le] using h), if_neg h]

theorem Ext.min_inf (x : Ext) : x.min .inf = x := by
  unfold Ext.min; rw [if_neg]; rw [Ext.gt_iff]; simp [Ext.le]

theorem Ext.inf_min (x : Ext) : Ext.inf.min x = x := by
  unfold Ext.min
  cases x with
  | inf => split <;> rfl
  | fin x => rfl

section
variable {ε : Rat}

theorem WithinErr.refl {d : Ext} : WithinErr ε 0 d d := by
  cases d with
  | inf => trivial
  | fin d => simp only [WithinErr, Rat.pow_zero, Rat.one_mul]; exact ⟨Rat.le_refl, Rat.le_refl⟩

theorem WithinErr.succ (h0 : 0 ≤ ε) (h1 : ε ≤ 1) {n : Nat} {d x : Ext} (hd : (Ext.fin 0).le d) (h : WithinErr ε n d x) : WithinErr ε (n + 1) d x := by
  cases d with
  | inf => cases x with
    | inf => trivial
    | fin x => exact h
  | fin d => cases x with
    | inf => exact h
    | fin x =>
      simp only [WithinErr] at h ⊢
      have hd : (0 : Rat) ≤ d := hd
      rw [Rat.pow_succ, Rat.pow_succ]
      have p1 : 0 ≤ (1 - ε) ^ n * d := Rat.mul_nonneg (Rat.pow_nonneg (by grind)) hd
      have p2 : 0 ≤ (1 + ε) ^ n * d := Rat.mul_nonneg (Rat.pow_nonneg (by grind)) hd
      have q1 : 0 ≤ ε * ((1 - ε) ^ n * d) := Rat.mul_nonneg h0 p1
      have q2 : 0 ≤ ε * ((1 + ε) ^ n * d) := Rat.mul_nonneg h0 p2
      constructor <;> grind

theorem WithinErr.min (h0 : 0 ≤ ε) (h1 : ε ≤ 1) {n : Nat} {d e x y : Ext} (h : WithinErr ε n d x) (h' : WithinErr ε n e y) :
    WithinErr ε n (d.min e) (x.min y) := by
  cases d with
  | inf => cases x with
    | inf => rw [Ext.inf_min, Ext.inf_min]; exact h'
    | fin x => exact h.elim
  | fin d => cases x with
    | inf => exact h.elim
    | fin x => cases e with
      | inf => cases y with
        | inf => rw [Ext.min_inf, Ext.min_inf]; exact h
        | fin y => exact h'.elim
      | fin e => cases y with
        | inf => exact h'.elim
        | fin y =>
          rw [Ext.min_fin, Ext.min_fin]
          simp only [WithinErr] at h h' ⊢
          have p1 : 0 ≤ (1 - ε) ^ n := Rat.pow_nonneg (by grind)
          have p2 : 0 ≤ (1 + ε) ^ n := Rat.pow_nonneg (by grind)
          split <;> split
          · exact h
          · rename_i a b
            have := Rat.mul_le_mul_of_nonneg_left a p1
            constructor <;> grind
          · rename_i a b
            have a : e ≤ d := by grind
            have := Rat.mul_le_mul_of_nonneg_left a p1
            constructor <;> grind
          · exact h'

theorem WithinErr.add (h0 : 0 ≤ ε) (h1 : ε ≤ 1) {fl : Rat → Rat} (hε : RelErr fl ε) {n : Nat} {d e x y : Ext}
    (hd : (Ext.fin 0).le d) (he : (Ext.fin 0).le e) (h : WithinErr ε n d x) (h' : WithinErr ε n e y) :
    WithinErr ε (n + 1) (d.add e) (x.addFl fl y) := by
  cases d with
  | inf => cases x with
    | inf => trivial
    | fin x => exact h.elim
  | fin d => cases x with
    | inf => exact h.elim
    | fin x => cases e with
      | inf => cases y with
        | inf => trivial
        | fin y => exact h'.elim
      | fin e => cases y with
        | inf => exact h'.elim
        | fin y =>
          simp only [WithinErr, Ext.add, Ext.addFl] at h h' ⊢
          have hd : (0 : Rat) ≤ d := hd
          have he : (0 : Rat) ≤ e := he
          have p1 : 0 ≤ (1 - ε) ^ n := Rat.pow_nonneg (by grind)
          have p2 : 0 ≤ (1 + ε) ^ n := Rat.pow_nonneg (by grind)
          have q1 := Rat.mul_nonneg p1 hd
          have q2 := Rat.mul_nonneg p1 he
          obtain ⟨r1, r2⟩ := hε (x + y) (by grind)
          have s1 : (1 - ε) * ((1 - ε) ^ n * d + (1 - ε) ^ n * e) ≤ (1 - ε) * (x + y) := Rat.mul_le_mul_of_nonneg_left (by grind) (by grind)
          have s2 : (1 + ε) * (x + y) ≤ (1 + ε) * ((1 + ε) ^ n * d + (1 + ε) ^ n * e) := Rat.mul_le_mul_of_nonneg_left (by grind) (by grind)
          rw [Rat.pow_succ, Rat.pow_succ]
          constructor <;> grind

theorem WithinErr.nonneg (h1 : ε ≤ 1) {n : Nat} {d x : Ext} (hd : (Ext.fin 0).le d) (h : WithinErr ε n d x) : (Ext.fin 0).le x := by
  cases x with
  | inf => trivial
  | fin x => cases d with
    | inf => exact h.elim
    | fin d =>
      have := Rat.mul_nonneg (Rat.pow_nonneg (n := n) (show 0 ≤ 1 - ε by grind)) (show (0 : Rat) ≤ d from hd)
      have h := h.1
      show (0 : Rat) ≤ x
      grind

theorem WithinErr.inf_iff {n : Nat} {d x : Ext} (h : WithinErr ε n d x) : x = .inf ↔ d = .inf := by
  cases x <;> cases d <;> simp [WithinErr] at h ⊢

theorem Ext.nonneg_min {d e : Ext} (hd : (Ext.fin 0).le d) (he : (Ext.fin 0).le e) : (Ext.fin 0).le (d.min e) := by
  rcases Ext.min_eq d e with h | h <;> rw [h] <;> assumption

theorem Ext.nonneg_add {d e : Ext} (hd : (Ext.fin 0).le d) (he : (Ext.fin 0).le e) : (Ext.fin 0).le (d.add e) := by
  cases d <;> cases e <;> simp only [Ext.le, Ext.add] at *; grind

theorem ratPow_add (x : Rat) (n m : Nat) : x ^ (n + m) = x ^ n * x ^ m := by
  induction m with
  | zero => rw [Nat.add_zero, Rat.pow_zero, Rat.mul_one]
  | succ m ih => rw [← Nat.add_assoc, Rat.pow_succ, Rat.pow_succ, ih, Rat.mul_assoc]

theorem WithinErr.trans (h0 : 0 ≤ ε) (h1 : ε ≤ 1) {n m : Nat} {d x y : Ext} (h : WithinErr ε n d x) (h' : WithinErr ε m x y) :
    WithinErr ε (n + m) d y := by
  cases d with
  | inf => cases x with
    | inf => cases y with
      | inf => trivial
      | fin y => exact h'
    | fin x => exact h.elim
  | fin d => cases x with
    | inf => exact h.elim
    | fin x => cases y with
      | inf => exact h'
      | fin y =>
        simp only [WithinErr] at h h' ⊢
        have p1 : 0 ≤ (1 - ε) ^ m := Rat.pow_nonneg (by grind)
        have p2 : 0 ≤ (1 + ε) ^ m := Rat.pow_nonneg (by grind)
        have q1 := Rat.mul_le_mul_of_nonneg_left h.1 p1
        have q2 := Rat.mul_le_mul_of_nonneg_left h.2 p2
        rw [ratPow_add, ratPow_add]
        constructor <;> grind

/-- adding without rounding -/
theorem WithinErr.add_exact {n : Nat} {d e x y : Ext} (h : WithinErr ε n d x) (h' : WithinErr ε n e y) :
    WithinErr ε n (d.add e) (x.add y) := by
  cases d with
  | inf => cases x with
    | inf => trivial
    | fin x => exact h.elim
  | fin d => cases x with
    | inf => exact h.elim
    | fin x => cases e with
      | inf => cases y with
        | inf => trivial
        | fin y => exact h'.elim
      | fin e => cases y with
        | inf => exact h'.elim
        | fin y =>
          simp only [WithinErr, Ext.add] at h h' ⊢
          constructor <;> grind

theorem WithinErr.sum {n : Nat} {β : Type} (D X : β → Ext) (l : List β) (h : ∀ k ∈ l, WithinErr ε n (D k) (X k)) :
    WithinErr ε n (Ext.sum (l.map D)) (Ext.sum (l.map X)) := by
  induction l with
  | nil => simp only [List.map_nil, Ext.sum, WithinErr]; constructor <;> grind
  | cons k l ih => exact (h k (by simp)).add_exact (ih (fun x hx => h x (List.mem_cons_of_mem _ hx)))

theorem WithinErr.max (h0 : 0 ≤ ε) {n : Nat} {β : Type} {D X : β → Ext} {l : List β} (h : ∀ k ∈ l, WithinErr ε n (D k) (X k))
    {e x : Ext} (he : IsMaxOf (l.map D) e) (hx : IsMaxOf (l.map X) x) : WithinErr ε n e x := by
  obtain ⟨k, hk, rfl⟩ := List.mem_map.1 he.1
  obtain ⟨k', hk', rfl⟩ := List.mem_map.1 hx.1
  have a := h k hk
  have b := h k' hk'
  have c := he.2 _ (List.mem_map.2 ⟨k', hk', rfl⟩)
  have d := hx.2 _ (List.mem_map.2 ⟨k, hk, rfl⟩)
  have p2 : 0 ≤ (1 + ε) ^ n := Rat.pow_nonneg (by grind)
  generalize D k = Dk at *
  generalize X k = Xk at *
  generalize D k' = Dk' at *
  generalize X k' = Xk' at *
  cases Dk <;> cases Xk <;> cases Dk' <;> cases Xk' <;> simp only [WithinErr, Ext.le] at *
  rename_i d1 x1 d2 x2
  have := Rat.mul_le_mul_of_nonneg_left c p2
  constructor <;> grind

/-- left to right summation -/
theorem extSumFl_within (h0 : 0 ≤ ε) (h1 : ε ≤ 1) {fl : Rat → Rat} (hε : RelErr fl ε) (l : List Ext) (hl : ∀ x ∈ l, (Ext.fin 0).le x) :
    WithinErr ε l.length (Ext.sum l) (extSumFl fl l) := by
  have key : ∀ (l : List Ext) (acc : Ext), (Ext.fin 0).le acc → (∀ x ∈ l, (Ext.fin 0).le x) →
      WithinErr ε l.length (acc.add (Ext.sum l)) (l.foldl (Ext.addFl fl) acc) := by
    intro l
    induction l with
    | nil => intro acc _ _; simp only [Ext.sum, List.foldl_nil, List.length_nil]; rw [Ext.add_comm, Ext.zero_add]; exact .refl
    | cons x l ih =>
      intro acc ha hl
      have hx := hl x (by simp)
      have hl' := fun y hy => hl y (List.mem_cons_of_mem _ hy)
      have hs : (Ext.fin 0).le (Ext.sum l) := by
        clear ih
        induction l with
        | nil => exact Ext.le_refl _
        | cons y l ih => exact Ext.nonneg_add (hl' y (by simp)) (ih (fun z hz => hl z (by simp at hz ⊢; rcases hz with h | h <;> simp [h])) (fun z hz => hl' z (by simp [hz])))
      have h2 := (WithinErr.refl (ε := ε) (d := acc)).add h0 h1 hε ha hx (WithinErr.refl (d := x))
      have h3 := ih (acc.addFl fl x) (h2.nonneg h1 (Ext.nonneg_add ha hx)) hl'
      have h4 : WithinErr ε 1 ((acc.add x).add (Ext.sum l)) ((acc.addFl fl x).add (Ext.sum l)) :=
        h2.add_exact ((WithinErr.refl).succ h0 h1 hs)
      have := h4.trans h0 h1 h3
      rw [List.foldl_cons, List.length_cons, Nat.add_comm]
      rw [Ext.add_assoc] at this
      exact this
  have := key l (.fin 0) (Ext.le_refl _) hl
  rw [Ext.zero_add] at this
  exact this

/-! ### the matrix -/

/-- the loop with rounding follows the loop without -/
theorem fwFl_fold (h0 : 0 ≤ ε) (h1 : ε ≤ 1) {fl : Rat → Rat} (hε : RelErr fl ε) {V : List α} (l : List α) :
    ∀ (n : Nat) (m m' : Dict α (Dict α Ext)), (∀ v ∈ l, v ∈ V) → IsMatrix V m' →
      (∀ a b, a ∈ V → b ∈ V → (Ext.fin 0).le (at2 m a b) ∧ WithinErr ε n (at2 m a b) (at2 m' a b)) →
      IsMatrix V (l.foldl (fwStepFl fl V) m') ∧
      ∀ a b, a ∈ V → b ∈ V → WithinErr ε (n + l.length) (at2 (l.foldl (fwStep V) m) a b) (at2 (l.foldl (fwStepFl fl V) m') a b) := by
  induction l with
  | nil => intro n m m' _ hm h; exact ⟨hm, fun a b ha hb => (h a b ha hb).2⟩
  | cons v l ih =>
    intro n m m' hl hm h
    have hv := hl v (by simp)
    have := ih (n + 1) (fwStep V m v) (fwStepFl fl V m' v) (fun x hx => hl x (List.mem_cons_of_mem _ hx)) ⟨_, rfl⟩ (fun a b ha hb => by
      unfold fwStep fwStepFl
      rw [at2_comp ha hb, at2_comp ha hb]
      obtain ⟨a1, a2⟩ := h a b ha hb
      obtain ⟨b1, b2⟩ := h a v ha hv
      obtain ⟨c1, c2⟩ := h v b hv hb
      exact ⟨Ext.nonneg_min a1 (Ext.nonneg_add b1 c1), (a2.succ h0 h1 a1).min h0 h1 (b2.add h0 h1 hε b1 c1 c2)⟩)
    rw [List.length_cons, Nat.add_comm l.length 1, ← Nat.add_assoc]
    exact this

theorem adj_nonneg {g : Graph α Rat O} (hw : NonNeg g.edge) (a b : α) (ha : a ∈ g.nodeList) (hb : b ∈ g.nodeList) :
    (Ext.fin 0).le (at2 g.adjMatrix a b) := by
  unfold adjMatrix
  rw [at2_comp ha hb]
  split
  · exact Ext.le_refl _
  · unfold edgeOrInf
    cases he : g.edge a b with
    | none => trivial
    | some c => exact hw _ _ _ he

theorem allPairsFl_within (h0 : 0 ≤ ε) (h1 : ε ≤ 1) {fl : Rat → Rat} (hε : RelErr fl ε) {g : Graph α Rat O} (h : g.Inv) (hw : NonNeg g.edge) :
    IsMatrix g.nodeList (g.allPairsFl fl) ∧
    ∀ a b, a ∈ g.nodeList → b ∈ g.nodeList → WithinErr ε g.nodeList.length (at2 g.allPairs a b) (at2 (g.allPairsFl fl) a b) := by
  unfold allPairsFl allPairs
  rw [adjMatrix_keys h]
  have := fwFl_fold h0 h1 hε (V := g.nodeList) g.nodeList 0 g.adjMatrix g.adjMatrix (fun _ h => h) ⟨_, rfl⟩
    (fun a b ha hb => ⟨adj_nonneg hw a b ha hb, .refl⟩)
  rw [Nat.zero_add] at this
  exact this
end

/-! ### bracketed sums -/

theorem fwFl_sound {fl : Rat → Rat} {w : α → α → Option Rat} {V : List α} (l : List α) :
    ∀ (m : Dict α (Dict α Ext)), (∀ v ∈ l, v ∈ V) → IsMatrix V m →
      (∀ a b d, a ∈ V → b ∈ V → at2 m a b = .fin d → BracketSum fl w a b d) →
      IsMatrix V (l.foldl (fwStepFl fl V) m) ∧
      ∀ a b d, a ∈ V → b ∈ V → at2 (l.foldl (fwStepFl fl V) m) a b = .fin d → BracketSum fl w a b d := by
  induction l with
  | nil => intro m _ hm h; exact ⟨hm, h⟩
  | cons v l ih =>
    intro m hl hm h
    have hv := hl v (by simp)
    refine ih (fwStepFl fl V m v) (fun x hx => hl x (List.mem_cons_of_mem _ hx)) ⟨_, rfl⟩ (fun a b d ha hb hd => ?_)
    unfold fwStepFl at hd
    rw [at2_comp ha hb] at hd
    rcases Ext.min_eq (at2 m a b) ((at2 m a v).addFl fl (at2 m v b)) with he | he
    · rw [he] at hd; exact h a b d ha hb hd
    · rw [he] at hd
      cases h2 : at2 m a v with
      | inf => rw [h2] at hd; simp [Ext.addFl] at hd
      | fin x => cases h3 : at2 m v b with
        | inf => rw [h2, h3] at hd; simp [Ext.addFl] at hd
        | fin y =>
          rw [h2, h3] at hd
          simp only [Ext.addFl, Ext.fin.injEq] at hd
          subst hd
          exact (h a v x ha hv h2).join (h v b y hv hb h3)

theorem allPairsFl_sound (fl : Rat → Rat) {g : Graph α Rat O} (h : g.Inv) : IsMatrix g.nodeList (g.allPairsFl fl) ∧
    ∀ a b d, a ∈ g.nodeList → b ∈ g.nodeList → at2 (g.allPairsFl fl) a b = .fin d → BracketSum fl g.edge a b d := by
  unfold allPairsFl
  rw [adjMatrix_keys h]
  refine fwFl_sound g.nodeList g.adjMatrix (fun _ h => h) ⟨_, rfl⟩ (fun a b d ha hb hd => ?_)
  unfold adjMatrix at hd
  rw [at2_comp ha hb] at hd
  split at hd
  · rename_i hab; cases hd; subst hab; exact .stay a
  · unfold edgeOrInf at hd
    split at hd
    · rename_i c he; cases hd; exact .edge he
    · cases hd

/-! ### centres -/

theorem minmaxFl_spec {fl : Rat → Rat} {g : Graph α Rat O} (h : g.Inv) (hne : g.nodeList ≠ []) :
    ∃ r, g.minmaxFl fl = .ok r ∧ r.Nodup ∧ ∀ n, n ∈ r ↔ n ∈ g.nodeList ∧
      ∃ e, IsMaxOf (g.nodeList.map (at2 (g.allPairsFl fl) n)) e ∧
        ∀ m ∈ g.nodeList, ∀ e', IsMaxOf (g.nodeList.map (at2 (g.allPairsFl fl) m)) e' → e.le e' := by
  obtain ⟨hm, _⟩ := allPairsFl_sound fl h
  have hV : g.nodeList.Nodup := h.nodesWF
  unfold minmaxFl
  obtain ⟨h1, h2, h3⟩ := hm.items hV
  rw [h1]
  generalize hD : at2 (g.allPairsFl fl) = D
  have hmax : ∀ n, ∃ e, extMax (g.nodeList.map (D n)) = .ok e ∧ IsMaxOf (g.nodeList.map (D n)) e :=
    fun n => extMax_spec (by simpa using hne)
  have hagg := aggRows_ok (agg := extMax) (V := g.nodeList) (f := fun l => match extMax l with | .ok e => e | .error _ => .inf)
    (fun n => Dict.comp g.nodeList (D n)) g.nodeList (fun n hn => by
      rw [Dict.comp_values hV]
      obtain ⟨e, he, _⟩ := hmax n
      rw [he])
  rw [hagg]
  dsimp only
  obtain ⟨r, hr1, hr2, hr3⟩ := argMins_spec hne (fun n => match extMax (Dict.comp g.nodeList (D n)).values with
    | .ok e => e | .error _ => .inf)
  refine ⟨r, hr1, hV.sublist hr2, fun n => ?_⟩
  rw [hr3]
  have hval : ∀ n e, IsMaxOf (g.nodeList.map (D n)) e →
      (match extMax (Dict.comp g.nodeList (D n)).values with | .ok e => e | .error _ => .inf) = e := by
    intro n e he
    rw [Dict.comp_values hV]
    obtain ⟨e', he', he2⟩ := hmax n
    rw [he']; exact he2.unique he
  constructor
  · rintro ⟨hn, hle⟩
    obtain ⟨e, _, he⟩ := hmax n
    refine ⟨hn, e, he, fun m hm e' he' => ?_⟩
    have := hle m hm
    rw [hval n e he, hval m e' he'] at this; exact this
  · rintro ⟨hn, e, he, hle⟩
    refine ⟨hn, fun m hm => ?_⟩
    obtain ⟨e', _, he'⟩ := hmax m
    rw [hval n e he, hval m e' he']; exact hle m hm e' he'

theorem minsumFl_spec {fl : Rat → Rat} (sm : List Ext → Ext) {g : Graph α Rat O} (h : g.Inv) (hne : g.nodeList ≠ []) :
    ∃ r, g.minsumFl fl sm = .ok r ∧ r.Nodup ∧ ∀ n, n ∈ r ↔ n ∈ g.nodeList ∧
      ∀ m ∈ g.nodeList, (sm (g.nodeList.map (at2 (g.allPairsFl fl) n))).le (sm (g.nodeList.map (at2 (g.allPairsFl fl) m))) := by
  obtain ⟨hm, _⟩ := allPairsFl_sound fl h
  have hV : g.nodeList.Nodup := h.nodesWF
  unfold minsumFl
  obtain ⟨h1, h2, h3⟩ := hm.items hV
  rw [h1]
  have hagg := aggRows_ok (agg := fun l => .ok (sm l)) (V := g.nodeList) (f := sm)
    (fun n => Dict.comp g.nodeList (at2 (g.allPairsFl fl) n)) g.nodeList (fun n hn => rfl)
  rw [hagg]
  dsimp only
  obtain ⟨r, hr1, hr2, hr3⟩ := argMins_spec hne (fun n => sm (Dict.comp g.nodeList (at2 (g.allPairsFl fl) n)).values)
  refine ⟨r, hr1, hV.sublist hr2, fun n => ?_⟩
  rw [hr3]
  simp only [Dict.comp_values hV]

theorem shortestTreeFl_spec {fl : Rat → Rat} {g : Graph α Rat O} (h : g.Inv) {ord : List α → List α}
    (hord : ∀ l, (ord l).Perm l) (m1 : α) (hm1 : g.has m1 = false) :
    (g.shortestTreeFl fl m1 ord = some (.error .keyError) ∧ ∀ n ∈ g.nodeList, ∃ k ∈ g.nodeList, at2 (g.allPairsFl fl) n k = .inf) ∨
    (∃ s b t p, g.nodeList = s ++ b :: t ∧ (∀ k ∈ g.nodeList, at2 (g.allPairsFl fl) b k ≠ .inf) ∧
      (∀ n ∈ t, ∃ k ∈ g.nodeList, at2 (g.allPairsFl fl) n k = .inf) ∧
      g.shortestTreeFl fl m1 ord = some (.ok p) ∧ p.Perm g.nodeList ∧
      p.Pairwise (fun x y => (at2 (g.allPairsFl fl) b x).le (at2 (g.allPairsFl fl) b y))) := by
  obtain ⟨hm, _⟩ := allPairsFl_sound fl h
  have hV : g.nodeList.Nodup := h.nodesWF
  obtain ⟨i1, i2, i3⟩ := hm.items hV
  unfold shortestTreeFl
  rcases bestStart_spec hV hm m1 with ⟨h1, h2⟩ | ⟨s, t, h1, h2, h3⟩
  · left
    rw [h1]
    have : (g.allPairsFl fl).get? m1 = none := by
      rw [Dict.get?_eq_none_iff, i2]
      intro hin; rw [has_iff.2 hin] at hm1; cases hm1
    rw [this]; exact ⟨rfl, h2⟩
  · right
    generalize bestStart m1 (g.allPairsFl fl) = b at h1 h2
    have hb : b ∈ g.nodeList := by rw [h1]; simp
    rw [i3 b hb, i2]
    obtain ⟨p, hp1, hp2, hp3⟩ := tree_spec hV (at2 (g.allPairsFl fl) b) hord
    exact ⟨s, b, t, p, h1, h2, h3, hp1, hp2, hp3⟩

end GT

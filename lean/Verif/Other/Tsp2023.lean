import Verif.Other.TspOpt
/-
Model of `brute_force`, `_opt1`, `_opt3` and `tsp_2023` (graph/tsp.py) and proofs.
-/
namespace GT
variable {α O : Type} [DecidableEq α]

/-- `return d2, tuple(p2)` (tsp.py:328); `p2` is unbound if no route was shorter than `maxsize` -/
def bruteEnd (d2 : Rat) : Option (List α) → Option (Py (Rat × List α))
  | some p => some (.ok (d2, p))
  | none => some (.error .unboundLocal)

/-- the loop of `brute_force` (tsp.py:320-327); `n0` is `nodes[0]` -/
def bruteLoop (g : Graph α Rat O) (n0 : Option α) : List (List α) → Rat → Option (List α) → Option (Py (Rat × List α))
  | [], d2, p2 => bruteEnd d2 p2
  | [] :: _, _, _ => some (.error .indexError)
  | (x :: r) :: l, d2, p2 =>
    if some x ≠ n0 then bruteEnd d2 p2
    else match g.distanceFromPath (x :: r ++ [x]) with
      | none => none
      | some (.error e) => some (.error e)
      | some (.ok .inf) => bruteLoop g n0 l d2 p2
      | some (.ok (.fin d)) => if d < d2 then bruteLoop g n0 l d (some (x :: r)) else bruteLoop g n0 l d2 p2

/-- `brute_force` (tsp.py:317-328) -/
def bruteForce (g : Graph α Rat O) : Option (Py (Rat × List α)) :=
  bruteLoop g g.nodeList.head? (perms g.nodeList) maxsize none

/-- `tmp[:j] + (L[i],) + tmp[j:]` with `tmp = L[:i] + L[i+1:]` (tsp.py:163-166) -/
def relocate (t : List α) (i j : Nat) : List α :=
  match t[i]? with
  | some x => (t.take i ++ t.drop (i + 1)).take j ++ [x] ++ (t.take i ++ t.drop (i + 1)).drop j
  | none => t

/-- the body of the inner loop of `_opt1` (tsp.py:166-170) -/
def opt1Try (g : Graph α Rat O) (t : List α) (s : Py (Rat × List α)) (ij : Nat × Nat) : Py (Rat × List α) :=
  match s with
  | .error e => .error e
  | .ok (dBest, pBest) =>
    match g.distance (relocate t ij.1 ij.2) true with
    | .error e => .error e
    | .ok d => if d < dBest then .ok (d, relocate t ij.1 ij.2) else .ok (dBest, pBest)

/-- `_opt1` (tsp.py:157-195) -/
def opt1 (g : Graph α Rat O) (t : List α) : Py (List α) :=
  match g.distance t true with
  | .error e => .error e
  | .ok d =>
    match ((List.range t.length).flatMap (fun i => (List.range t.length).map (fun j => (i, j)))).foldl (opt1Try g t) (.ok (d, t)) with
    | .error e => .error e
    | .ok r => .ok r.2

/-- `graph.edge(a, b, default=maxsize)` -/
def distMax (g : Graph α Rat O) (a b : α) : Rat := (g.edge a b).getD maxsize

/-- the choice in `reverse_segment_if_better` (tsp.py:262-272): new `(dmin, mindex)` if `d` is smaller -/
def better (d : Rat) (m : Nat) (s : Rat × Nat) : Rat × Nat := if d < s.1 then (d, m) else s

/-- `tour[i:k] = tour[j:k] + tour[i:j]` -/
def swapSlices (t : List α) (i j k : Nat) : List α := t.take i ++ (slice t j k ++ slice t i j) ++ t.drop k

/-- `delta += reverse_segment_if_better(graph, tour, i, j, k)` (tsp.py:252-288, 300) on the state `(tour, delta)`.
The indices used are in range. -/
def opt3Try (g : Graph α Rat O) (s : List α × Rat) (ijk : Nat × Nat × Nat) : List α × Rat :=
  let t := s.1; let i := ijk.1; let j := ijk.2.1; let k := ijk.2.2
  match before t i, t[i]?, t[j - 1]?, t[j]?, t[k - 1]?, t[k % t.length]? with
  | some A, some B, some C, some D, some E, some F =>
    let d0 := distMax g A B + distMax g C D + distMax g E F
    let d1 := distMax g A C + distMax g B D + distMax g E F
    let d2 := distMax g A B + distMax g C E + distMax g D F
    let d3 := distMax g A D + distMax g E B + distMax g C F
    let d4 := distMax g F B + distMax g C D + distMax g E A
    let m := (better d4 4 (better d3 3 (better d2 2 (better d1 1 (d0, 0))))).2
    if m = 0 then s
    else if m = 1 then (reverseSlice t i j, s.2 + (-d0 + d1))
    else if m = 2 then (reverseSlice t j k, s.2 + (-d0 + d2))
    else if m = 3 then (swapSlices t i j k, s.2 + (-d0 + d3))
    else (reverseSlice t i k, s.2 + (-d0 + d4))
  | _, _, _, _, _, _ => s

/-- `all_segments(n)` (tsp.py:290-292) -/
def allSegments (n : Nat) : List (Nat × Nat × Nat) :=
  (List.range n).flatMap (fun i => (List.range' (i + 2) (n - (i + 2))).flatMap (fun j =>
    (List.range' (j + 2) ((n + if 0 < i then 1 else 0) - (j + 2))).map (fun k => (i, j, k))))

/-- local state of `_opt3` -/
structure Opt3St (α : Type) where
  tour : List α
  p0 : List α
  d0 : Rat

/-- the body of `while True` of `_opt3` (tsp.py:297-313).  `counter` stays empty, hence the test at line 317 never succeeds and `inc`
has no effect. -/
def opt3Step (g : Graph α Rat O) (s : Opt3St α) : Opt3St α ⊕ Py (List α) :=
  let r := (allSegments s.tour.length).foldl (opt3Try g) (s.tour, 0)
  match g.distance r.1 false with
  | .error e => .inr (.error e)
  | .ok d1 =>
    let p0 := if d1 < s.d0 then r.1 else s.p0
    let d0 := if d1 < s.d0 then d1 else s.d0
    if r.2 ≥ 0 then .inr (.ok p0) else .inl ⟨r.1, p0, d0⟩

/-- `_opt3` (tsp.py:243-314) -/
def opt3 (g : Graph α Rat O) (t : List α) : Option (Py (List α)) :=
  match g.distance t false with
  | .error e => some (.error e)
  | .ok d0 => pyWhile (opt3Step g) ⟨t, t, d0⟩

/-- the order of tuples of nodes -/
def lexLt (nlt : α → α → Bool) : List α → List α → Bool
  | _, [] => false
  | [], _ :: _ => true
  | a :: l, b :: m => nlt a b || (decide (a = b) && lexLt nlt l m)

/-- the order of `(distance, tour)` -/
def tourLt (nlt : α → α → Bool) (x y : Rat × List α) : Bool := decide (x.1 < y.1) || (decide (x.1 = y.1) && lexLt nlt x.2 y.2)

/-- `L.sort(); return L[0]` (tsp.py:357-359) -/
def leastTour (nlt : α → α → Bool) (L : List (Rat × List α)) : Py (Rat × List α) :=
  match pySort (tourLt nlt) L with
  | [] => .error .indexError
  | x :: _ => .ok x

/-- `tsp_2023` from line 342 on: seven nodes or more -/
def tsp2023Long (nlt : α → α → Bool) (g : Graph α Rat O) : Option (Py (Rat × List α)) :=
  match greedyTour nlt g with
  | .error e => some (.error e)
  | .ok t => match g.distance t false with
    | .error e => some (.error e)
    | .ok d => match opt1 g t with
      | .error e => some (.error e)
      | .ok t1 => match g.distance t1 false with
        | .error e => some (.error e)
        | .ok d1 => match opt2 g t1 with
          | none => none
          | some (.error e) => some (.error e)
          | some (.ok t2) => match g.distance t2 false with
            | .error e => some (.error e)
            | .ok d2 => match opt3 g t2 with
              | none => none
              | some (.error e) => some (.error e)
              | some (.ok t3) => match g.distance t3 false with
                | .error e => some (.error e)
                | .ok d3 => some (leastTour nlt [(d, t), (d1, t1), (d2, t2), (d3, t3)])

/-- `tsp_2023` / `solve_tsp` (tsp.py:331-359) -/
def tsp2023 (nlt : α → α → Bool) (g : Graph α Rat O) : Option (Py (Rat × List α)) :=
  if g.nodeList.length < 7 then bruteForce g else tsp2023Long nlt g

/-! ### `brute_force` -/

theorem dfpLoop_direct {g : Graph α Rat O} (p : List α) : ∀ (cache : Dict (α × α) Rat) (acc : Rat),
    Consec (fun a b => g.edge a b = some (totW g.edge a b) ∧ 0 < totW g.edge a b) p →
    g.dfpLoop p cache acc = some (.ok (.fin (acc + plen (totW g.edge) p))) := by
  induction p with
  | nil => intro cache acc _; simp [Graph.dfpLoop, plen]; grind
  | cons a l ih =>
    cases l with
    | nil => intro cache acc _; simp [Graph.dfpLoop, plen]; grind
    | cons b l =>
      intro cache acc h
      unfold Graph.dfpLoop
      rw [h.1.1, truthy_of_pos h.1.2]
      dsimp only
      rw [ih cache _ h.2]
      simp only [plen]; congr 3; grind

theorem distanceFromPath_tour {g : Graph α Rat O} {nodes t : List α} {x : α} (hc : CompletePos g.edge nodes) (hnd : nodes.Nodup)
    (h2 : 2 ≤ nodes.length) (ht : (x :: t).Perm nodes) :
    g.distanceFromPath (x :: t ++ [x]) = some (.ok (.fin (clen (totW g.edge) (x :: t)))) := by
  have hl := ht.length_eq
  cases t with
  | nil => simp at hl; omega
  | cons y l =>
    unfold Graph.distanceFromPath
    rw [dfpLoop_direct _ _ _ (consec_closed (U := fun z => z ∈ nodes) (ht.nodup_iff.2 hnd) (fun z hz => ht.mem_iff.1 hz)
      (fun a b ha hb hab => hc.totW ha hb hab))]
    simp only [clen]; congr 3; grind

theorem bruteLoop_spec {g : Graph α Rat O} {nodes : List α} {n0 : α} (hc : CompletePos g.edge nodes) (hnd : nodes.Nodup)
    (h2 : 2 ≤ nodes.length) (L2 : List (List α)) (hL2 : ∀ r ∈ L2, ∃ y l, r = y :: l ∧ y ≠ n0) (L1 : List (List α)) : ∀ d2 p2,
    (∀ r ∈ L1, r.Perm nodes ∧ ∃ l, r = n0 :: l) →
    ∃ d p, bruteLoop g (some n0) (L1 ++ L2) d2 p2 = bruteEnd d p ∧ d ≤ d2 ∧ (∀ r ∈ L1, d ≤ clen (totW g.edge) r) ∧
      ((d = d2 ∧ p = p2) ∨ (d < d2 ∧ ∃ r ∈ L1, p = some r ∧ d = clen (totW g.edge) r)) := by
  induction L1 with
  | nil =>
    intro d2 p2 _
    refine ⟨d2, p2, ?_, Rat.le_refl, by simp, .inl ⟨rfl, rfl⟩⟩
    cases L2 with
    | nil => rfl
    | cons r L2 =>
      obtain ⟨y, l, rfl, hy⟩ := hL2 r (by simp)
      simp only [List.nil_append, bruteLoop]
      rw [if_pos (by simpa using hy)]
  | cons r L1 ih =>
    intro d2 p2 h
    obtain ⟨hp, l, rfl⟩ := h r (by simp)
    have h' := fun r hr => h r (List.mem_cons_of_mem _ hr)
    simp only [List.cons_append, bruteLoop]
    rw [if_neg (by simp), show n0 :: (l ++ [n0]) = n0 :: l ++ [n0] from rfl, distanceFromPath_tour hc hnd h2 hp]
    dsimp only
    split
    · rename_i hlt
      obtain ⟨d, p, h3, h4, h5, h6⟩ := ih _ (some (n0 :: l)) h'
      refine ⟨d, p, h3, by grind, ?_, ?_⟩
      · intro r hr
        rcases List.mem_cons.1 hr with rfl | hr
        · exact h4
        · exact h5 r hr
      · rcases h6 with ⟨h6, h7⟩ | ⟨h6, r, h7, h8, h9⟩
        · exact .inr ⟨by rw [h6]; exact hlt, _, by simp, h7, h6⟩
        · exact .inr ⟨by grind, r, List.mem_cons_of_mem _ h7, h8, h9⟩
    · rename_i hlt
      obtain ⟨d, p, h3, h4, h5, h6⟩ := ih d2 p2 h'
      refine ⟨d, p, h3, h4, ?_, ?_⟩
      · intro r hr
        rcases List.mem_cons.1 hr with rfl | hr
        · grind
        · exact h5 r hr
      · rcases h6 with h6 | ⟨h6, r, h7, h8⟩
        · exact .inl h6
        · exact .inr ⟨h6, r, List.mem_cons_of_mem _ h7, h8⟩

omit [DecidableEq α] in
theorem perms_cons (x : α) (l : List α) : ∃ L2, perms (x :: l) = (perms l).map (fun q => x :: q) ++ L2 ∧
    ∀ r ∈ L2, ∃ y m, r = y :: m ∧ y ∈ l := by
  refine ⟨((selects l).map (fun p => (p.1, x :: p.2))).flatMap (fun p => (permsN l.length p.2).map (fun q => p.1 :: q)), ?_, ?_⟩
  · unfold perms; rw [List.length_cons]; simp only [permsN, selects, List.flatMap_cons]
  intro r hr
  simp only [List.mem_flatMap, List.mem_map] at hr
  obtain ⟨_, ⟨⟨y, s⟩, h1, rfl⟩, q, _, rfl⟩ := hr
  exact ⟨y, q, rfl, (selects_perm h1).mem_iff.1 (by simp)⟩

omit [DecidableEq α] in
/-- every round trip can start at a given node -/
theorem rotate_to {W : α → α → Rat} {nodes t : List α} {x : α} (ht : t.Perm nodes) (hx : x ∈ nodes) :
    ∃ l, (x :: l).Perm nodes ∧ clen W (x :: l) = clen W t := by
  obtain ⟨l1, l2, rfl⟩ := List.append_of_mem (ht.mem_iff.2 hx)
  refine ⟨l2 ++ l1, ?_, ?_⟩
  · exact (List.perm_append_comm (l₁ := x :: l2) (l₂ := l1)).trans ht
  · rw [clen_rotate W l1 (x :: l2)]; rfl

theorem bruteForce_spec {g : Graph α Rat O} (h : g.Inv) (hc : CompletePos g.edge g.nodeList) (h2 : 2 ≤ g.nodeList.length) :
    (∃ d t, bruteForce g = some (.ok (d, t)) ∧ t.Perm g.nodeList ∧ d = clen (totW g.edge) t ∧ d < maxsize ∧
      ∀ t', t'.Perm g.nodeList → d ≤ clen (totW g.edge) t') ∨
    (bruteForce g = some (.error .unboundLocal) ∧ ∀ t', t'.Perm g.nodeList → maxsize ≤ clen (totW g.edge) t') := by
  have hnd : g.nodeList.Nodup := h.nodesWF
  unfold bruteForce
  generalize g.nodeList = nodes at hc h2 hnd
  cases nodes with
  | nil => simp at h2
  | cons x l =>
    obtain ⟨L2, hL, hL2⟩ := perms_cons x l
    rw [hL, List.head?_cons]
    obtain ⟨d, p, h3, h4, h5, h6⟩ := bruteLoop_spec (n0 := x) hc hnd h2 L2 (by
      intro r hr
      obtain ⟨y, m, rfl, hy⟩ := hL2 r hr
      exact ⟨y, m, rfl, fun h0 => (List.nodup_cons.1 hnd).1 (h0 ▸ hy)⟩) ((perms l).map (fun q => x :: q)) maxsize none (by
      intro r hr
      obtain ⟨q, hq, rfl⟩ := List.mem_map.1 hr
      exact ⟨(mem_perms.1 hq).cons x, q, rfl⟩)
    rw [h3]
    have hall : ∀ t', t'.Perm (x :: l) → d ≤ clen (totW g.edge) t' := by
      intro t' ht'
      obtain ⟨q, hq1, hq2⟩ := rotate_to (W := totW g.edge) ht' (x := x) (by simp)
      rw [← hq2]
      exact h5 _ (List.mem_map.2 ⟨q, mem_perms.2 hq1.cons_inv, rfl⟩)
    rcases h6 with ⟨rfl, rfl⟩ | ⟨h6, r, h7, rfl, h8⟩
    · exact .inr ⟨rfl, hall⟩
    · obtain ⟨q, hq, rfl⟩ := List.mem_map.1 h7
      exact .inl ⟨d, x :: q, rfl, (mem_perms.1 hq).cons x, h8, h6, hall⟩

/-! ### `_opt1` -/

omit [DecidableEq α] in
theorem relocate_perm [DecidableEq α] (t : List α) (i j : Nat) : (relocate t i j).Perm t := by
  unfold relocate
  split
  · rename_i x hx
    have hi : i < t.length := by
      by_cases h : i < t.length
      · exact h
      · rw [List.getElem?_eq_none (by omega)] at hx; cases hx
    generalize hT : t.take i ++ t.drop (i + 1) = T
    have h1 : (x :: T).Perm t := by
      rw [← hT]
      refine (List.perm_middle (a := x) (l₁ := t.take i) (l₂ := t.drop (i + 1))).symm.trans ?_
      rw [List.getElem?_eq_getElem hi] at hx
      cases hx
      rw [List.getElem_cons_drop, List.take_append_drop]
    refine List.Perm.trans ?_ h1
    rw [List.append_assoc, List.singleton_append]
    refine List.perm_middle.trans ?_
    rw [List.take_append_drop]
  · exact .refl _

theorem opt1_fold {g : Graph α Rat O} {nodes t : List α} (hc : CompletePos g.edge nodes) (hnd : nodes.Nodup)
    (h2 : 2 ≤ nodes.length) (ht : t.Perm nodes) (l : List (Nat × Nat)) : ∀ d p, p.Perm nodes →
    ∃ d' p', l.foldl (opt1Try g t) (.ok (d, p)) = .ok (d', p') ∧ p'.Perm nodes := by
  induction l with
  | nil => intro d p hp; exact ⟨d, p, rfl, hp⟩
  | cons ij l ih =>
    intro d p hp
    have hr : (relocate t ij.1 ij.2).Perm nodes := (relocate_perm t _ _).trans ht
    obtain ⟨d', hd'⟩ := (distance_tour hc hnd h2 hr).2
    rw [List.foldl_cons]
    have : opt1Try g t (.ok (d, p)) ij = if d' < d then .ok (d', relocate t ij.1 ij.2) else .ok (d, p) := by
      unfold opt1Try; dsimp only; rw [hd']
    rw [this]
    split
    · exact ih _ _ hr
    · exact ih _ _ hp

theorem opt1_spec {g : Graph α Rat O} {nodes t : List α} (hc : CompletePos g.edge nodes) (hnd : nodes.Nodup)
    (h2 : 2 ≤ nodes.length) (ht : t.Perm nodes) : ∃ p, opt1 g t = .ok p ∧ p.Perm nodes := by
  obtain ⟨d, hd⟩ := (distance_tour hc hnd h2 ht).2
  unfold opt1
  rw [hd]; dsimp only
  obtain ⟨d', p', h1, h3⟩ := opt1_fold hc hnd h2 ht
    ((List.range t.length).flatMap (fun i => (List.range t.length).map (fun j => (i, j)))) d t ht
  rw [h1]
  exact ⟨p', rfl, h3⟩

/-! ### `_opt3` -/

theorem swapSlices_perm {t : List α} {i j k : Nat} (h1 : i ≤ j) (h2 : j ≤ k) : (swapSlices t i j k).Perm t := by
  have ha := slice_split (t := t) (Nat.le_trans h1 h2)
  conv => rhs; rw [ha]
  unfold swapSlices
  refine List.Perm.append_right _ (List.Perm.append_left _ ?_)
  have hb : slice t i k = slice t i j ++ slice t j k := by
    have hb := slice_split (t := (t.take k)) h1
    have hc : (t.take k).drop i = slice (t.take k) i j ++ (t.take k).drop j := by
      conv => lhs; rw [hb, List.append_assoc]
      by_cases hlen : i ≤ t.length
      · rw [List.drop_left' (by simp; omega)]
      · rw [List.drop_eq_nil_of_le (by simp [slice]; omega)]
        simp [slice]
        omega
    unfold slice at hc ⊢
    rw [hc, List.take_take, Nat.min_eq_left h2]
  rw [hb]
  exact List.perm_append_comm

theorem opt3Try_perm {g : Graph α Rat O} {s : List α × Rat} {ijk : Nat × Nat × Nat} (h1 : ijk.1 ≤ ijk.2.1) (h2 : ijk.2.1 ≤ ijk.2.2) :
    (opt3Try g s ijk).1.Perm s.1 := by
  have hsw : (swapSlices s.1 ijk.1 ijk.2.1 ijk.2.2).Perm s.1 := swapSlices_perm h1 h2
  unfold opt3Try
  dsimp only
  split
  · split
    · exact .refl _
    · split
      · exact reverseSlice_perm h1
      · split
        · exact reverseSlice_perm h2
        · split
          · exact hsw
          · exact reverseSlice_perm (Nat.le_trans h1 h2)
  · exact .refl _

theorem mem_allSegments {n : Nat} {i j k : Nat} (h : (i, j, k) ∈ allSegments n) :
    i + 2 ≤ j ∧ j + 2 ≤ k ∧ k ≤ n ∧ (i = 0 → k < n) := by
  unfold allSegments at h
  simp only [List.mem_flatMap, List.mem_map, List.mem_range, List.mem_range'_1, Prod.mk.injEq] at h
  obtain ⟨i', _, j', hj, k', hk, rfl, rfl, rfl⟩ := h
  split at hk <;> omega

theorem opt3Fold_perm {g : Graph α Rat O} (l : List (Nat × Nat × Nat)) : ∀ s : List α × Rat,
    (∀ ijk ∈ l, ijk.1 ≤ ijk.2.1 ∧ ijk.2.1 ≤ ijk.2.2) → (l.foldl (opt3Try g) s).1.Perm s.1 := by
  induction l with
  | nil => intro s _; exact .refl _
  | cons ij l ih =>
    intro s h
    rw [List.foldl_cons]
    exact (ih _ (fun x hx => h x (List.mem_cons_of_mem _ hx))).trans (opt3Try_perm (h ij (by simp)).1 (h ij (by simp)).2)

theorem allSegments_le (n : Nat) : ∀ ijk ∈ allSegments n, ijk.1 ≤ ijk.2.1 ∧ ijk.2.1 ≤ ijk.2.2 := by
  rintro ⟨i, j, k⟩ h
  have := mem_allSegments h
  dsimp only; omega

/-- `_opt3` on a complete graph: if it returns, it returns a tour that is not longer -/
theorem opt3_partial {g : Graph α Rat O} {nodes t : List α} (hc : CompletePos g.edge nodes) (hnd : nodes.Nodup)
    (h2 : 2 ≤ nodes.length) (ht : t.Perm nodes) {r : Py (List α)} (hr : opt3 g t = some r) :
    ∃ p, r = .ok p ∧ p.Perm nodes ∧ clen (totW g.edge) p ≤ clen (totW g.edge) t := by
  unfold opt3 at hr
  rw [(distance_tour hc hnd h2 ht).1] at hr
  dsimp only at hr
  refine pyWhile_inv (fun s : Opt3St α => s.tour.Perm nodes ∧ s.p0.Perm nodes ∧ s.d0 = clen (totW g.edge) s.p0 ∧ s.d0 ≤ clen (totW g.edge) t)
    (fun r : Py (List α) => ∃ p, r = .ok p ∧ p.Perm nodes ∧ clen (totW g.edge) p ≤ clen (totW g.edge) t) ?_ ?_
    ⟨ht, ht, rfl, Rat.le_refl⟩ hr
  · intro s s' ⟨h1, h3, h4, h5⟩ hs
    unfold opt3Step at hs
    dsimp only at hs
    have hp := (opt3Fold_perm (g := g) (allSegments s.tour.length) (s.tour, 0) (allSegments_le _)).trans h1
    rw [(distance_tour hc hnd h2 hp).1] at hs
    dsimp only at hs
    split at hs
    · cases hs
    · cases hs
      dsimp only
      refine ⟨hp, ?_, ?_, ?_⟩
      · split <;> assumption
      · split <;> first | rfl | assumption
      · split <;> grind
  · intro s r ⟨h1, h3, h4, h5⟩ hs
    unfold opt3Step at hs
    dsimp only at hs
    have hp := (opt3Fold_perm (g := g) (allSegments s.tour.length) (s.tour, 0) (allSegments_le _)).trans h1
    rw [(distance_tour hc hnd h2 hp).1] at hs
    dsimp only at hs
    split at hs
    · cases hs
      refine ⟨_, rfl, ?_, ?_⟩
      · split <;> assumption
      · split <;> grind
    · cases hs

/-! #### symmetric graphs: `delta` is the change of the length -/

omit [DecidableEq α] in
theorem plen_join (W : α → α → Rat) {L M : List α} {c d : α} (hL : L.getLast? = some c) (hM : M.head? = some d) :
    plen W (L ++ M) = plen W L + W c d + plen W M := by
  obtain ⟨l, rfl⟩ := List.getLast?_eq_some_iff.1 hL
  obtain ⟨m, rfl⟩ := List.head?_eq_some_iff.1 hM
  rw [List.append_assoc, List.singleton_append, plen_append2]

omit [DecidableEq α] in
theorem clen_eq (W : α → α → Rat) {T : List α} {x z : α} (h1 : T.head? = some x) (h2 : T.getLast? = some z) :
    clen W T = plen W T + W z x := by
  obtain ⟨t, rfl⟩ := List.head?_eq_some_iff.1 h1
  simp only [clen]
  rw [plen_join W h2 (M := [x]) (d := x) rfl]
  simp [plen]; grind

omit [DecidableEq α] in
theorem clen3 (W : α → α → Rat) {X Y R : List α} {b c d e f a : α} (hb : X.head? = some b) (hc : X.getLast? = some c)
    (hd : Y.head? = some d) (he : Y.getLast? = some e) (hf : R.head? = some f) (ha : R.getLast? = some a) :
    clen W (X ++ Y ++ R) = plen W X + W c d + plen W Y + W e f + plen W R + W a b := by
  rw [clen_eq W (x := b) (z := a), plen_join W (c := e) (d := f), plen_join W (c := c) (d := d)]
  · exact hc
  · exact hd
  · rw [List.getLast?_append, he]; rfl
  · exact hf
  · rw [List.head?_append, List.head?_append, hb]; rfl
  · rw [List.getLast?_append, ha]; rfl

/-- the parts of the tour around `i`, `j`, `k` -/
theorem split_tour {t : List α} {i j k : Nat} (hij : i + 2 ≤ j) (hjk : j + 2 ≤ k) (hk : k ≤ t.length) (hi : i = 0 → k < t.length) :
    ∃ P X Y Q, t = P ++ X ++ Y ++ Q ∧ P.length = i ∧ X.length = j - i ∧ Y.length = k - j ∧ (Q ++ P) ≠ [] ∧
      t[i]? = X.head? ∧ t[j - 1]? = X.getLast? ∧ t[j]? = Y.head? ∧ t[k - 1]? = Y.getLast? ∧ before t i = (Q ++ P).getLast? ∧
      t[k % t.length]? = (Q ++ P).head? := by
  refine ⟨t.take i, (t.take j).drop i, (t.take k).drop j, t.drop k, ?_, ?_, ?_, ?_, ?_, ?_, ?_, ?_, ?_, ?_, ?_⟩
  · have h1 : t.take j = t.take i ++ (t.take j).drop i := by
      have := (List.take_append_drop i (t.take j)).symm
      rwa [List.take_take, Nat.min_eq_left (by omega)] at this
    have h2 : t.take k = t.take j ++ (t.take k).drop j := by
      have := (List.take_append_drop j (t.take k)).symm
      rwa [List.take_take, Nat.min_eq_left (by omega)] at this
    rw [← h1, ← h2, List.take_append_drop]
  · simp; omega
  · simp; omega
  · simp; omega
  · intro h0
    have := congrArg List.length h0
    rw [List.length_append, List.length_drop, List.length_take, List.length_nil] at this
    omega
  · rw [List.head?_drop, List.getElem?_take, if_pos (by omega)]
  · rw [List.getLast?_drop, if_neg (by simp; omega), List.getLast?_take, if_neg (by omega)]
    rw [List.getElem?_eq_getElem (by omega)]; rfl
  · rw [List.head?_drop, List.getElem?_take, if_pos (by omega)]
  · rw [List.getLast?_drop, if_neg (by simp; omega), List.getLast?_take, if_neg (by omega)]
    rw [List.getElem?_eq_getElem (by omega)]; rfl
  · unfold before
    rw [List.getLast?_append, List.getLast?_take, List.getLast?_drop]
    by_cases h0 : i = 0
    · rw [if_pos h0, if_pos h0, if_neg (by have := hi h0; omega), List.getLast?_eq_getElem?]
      simp
    · rw [if_neg h0, if_neg h0, List.getElem?_eq_getElem (by omega)]; rfl
  · rw [List.head?_append, List.head?_drop]
    by_cases hkn : k = t.length
    · rw [List.getElem?_eq_none (by omega : t.length ≤ k), hkn, Nat.mod_self, List.head?_take, if_neg (by intro h0; have := hi h0; omega)]
      cases t <;> simp
    · rw [Nat.mod_eq_of_lt (by omega), List.getElem?_eq_getElem (by omega)]; rfl

theorem distMax_eq {g : Graph α Rat O} {nodes : List α} (hc : CompletePos g.edge nodes) {a b : α} (ha : a ∈ nodes) (hb : b ∈ nodes)
    (hab : a ≠ b) : distMax g a b = totW g.edge a b := by
  unfold distMax
  rw [(hc.totW ha hb hab).1]; rfl

theorem better_cases (d : Rat) (m : Nat) (s : Rat × Nat) : better d m s = (d, m) ∧ d < s.1 ∨ better d m s = s := by
  unfold better
  split
  · rename_i h; exact .inl ⟨rfl, h⟩
  · exact .inr rfl

omit [DecidableEq α] in
theorem slice_of_split {P X Q : List α} {i j : Nat} (hi : P.length = i) (hj : X.length = j - i) (hij : i ≤ j) :
    slice (P ++ X ++ Q) i j = X ∧ (P ++ X ++ Q).take i = P ∧ (P ++ X ++ Q).drop j = Q := by
  subst hi
  refine ⟨?_, ?_, ?_⟩
  · unfold slice
    rw [List.take_left' (by simp; omega), List.drop_left]
  · rw [List.append_assoc, List.take_left]
  · rw [List.drop_left' (by simp; omega)]

theorem best_cases (d0 d1 d2 d3 d4 : Rat) :
    ((better d4 4 (better d3 3 (better d2 2 (better d1 1 (d0, 0))))).2 = 0 ∧ d0 ≤ d1 ∧ d0 ≤ d2 ∧ d0 ≤ d3 ∧ d0 ≤ d4) ∨
    ((better d4 4 (better d3 3 (better d2 2 (better d1 1 (d0, 0))))).2 = 1 ∧ d1 < d0) ∨
    ((better d4 4 (better d3 3 (better d2 2 (better d1 1 (d0, 0))))).2 = 2 ∧ d2 < d0) ∨
    ((better d4 4 (better d3 3 (better d2 2 (better d1 1 (d0, 0))))).2 = 3 ∧ d3 < d0) ∨
    ((better d4 4 (better d3 3 (better d2 2 (better d1 1 (d0, 0))))).2 = 4 ∧ d4 < d0) := by
  unfold better
  grind

/-- on a symmetric complete graph: `reverse_segment_if_better` leaves the tour alone if none of the four changes shortens it; otherwise it
shortens the tour and the number added to `delta` is the change of the length -/
theorem opt3Try_cases {g : Graph α Rat O} {nodes t : List α} (hc : CompletePos g.edge nodes) (hs : SymmetricW g.edge) (hnd : nodes.Nodup)
    (ht : t.Perm nodes) {i j k : Nat} (hij : i + 2 ≤ j) (hjk : j + 2 ≤ k) (hk : k ≤ t.length) (hi : i = 0 → k < t.length) (δ : Rat) :
    (opt3Try g (t, δ) (i, j, k) = (t, δ) ∧ clen (totW g.edge) t ≤ clen (totW g.edge) (reverseSlice t i j) ∧
      clen (totW g.edge) t ≤ clen (totW g.edge) (reverseSlice t j k) ∧ clen (totW g.edge) t ≤ clen (totW g.edge) (swapSlices t i j k) ∧
      clen (totW g.edge) t ≤ clen (totW g.edge) (reverseSlice t i k)) ∨
    ((opt3Try g (t, δ) (i, j, k)).2 - δ = clen (totW g.edge) (opt3Try g (t, δ) (i, j, k)).1 - clen (totW g.edge) t ∧
      clen (totW g.edge) (opt3Try g (t, δ) (i, j, k)).1 < clen (totW g.edge) t) := by
  have hsW : ∀ a b, totW g.edge a b = totW g.edge b a := fun a b => by unfold totW; rw [hs a b]
  have htn : t.Nodup := ht.nodup_iff.2 hnd
  obtain ⟨P, X, Y, Q, hsplit, hP, hX, hY, hR, e1, e2, e3, e4, e5, e6⟩ := split_tour hij hjk hk hi
  have hXne : X ≠ [] := by intro h0; rw [h0] at hX; simp at hX; omega
  have hYne : Y ≠ [] := by intro h0; rw [h0] at hY; simp at hY; omega
  have hd : ∀ l : List α, l ≠ [] → ∃ x z, l.head? = some x ∧ l.getLast? = some z ∧ x ∈ l ∧ z ∈ l := by
    intro l hl
    refine ⟨l.head hl, l.getLast hl, List.head?_eq_some_head hl, List.getLast?_eq_some_getLast hl, List.head_mem _, List.getLast_mem _⟩
  obtain ⟨B, C, hB, hC, hBm, hCm⟩ := hd X hXne
  obtain ⟨D, E, hD, hE, hDm, hEm⟩ := hd Y hYne
  obtain ⟨F, A, hF, hA, hFm, hAm⟩ := hd (Q ++ P) hR
  have hn2 : ((P ++ X) ++ Y ++ Q).Nodup := by rw [← hsplit]; exact htn
  have hXY : ∀ x ∈ X, ∀ y ∈ Y, x ≠ y := by
    rw [List.nodup_append, List.nodup_append] at hn2
    intro x hx y hy; exact hn2.1.2.2 x (List.mem_append_right _ hx) y hy
  have hXR : ∀ x ∈ X, ∀ y ∈ Q ++ P, x ≠ y := by
    rw [List.nodup_append, List.nodup_append, List.nodup_append] at hn2
    intro x hx y hy
    rcases List.mem_append.1 hy with hy | hy
    · exact hn2.2.2 x (List.mem_append_left _ (List.mem_append_right _ hx)) y hy
    · exact Ne.symm (hn2.1.1.2.2 y hy x hx)
  have hYR : ∀ x ∈ Y, ∀ y ∈ Q ++ P, x ≠ y := by
    rw [List.nodup_append, List.nodup_append, List.nodup_append] at hn2
    intro x hx y hy
    rcases List.mem_append.1 hy with hy | hy
    · exact hn2.2.2 x (List.mem_append_right _ hx) y hy
    · exact Ne.symm (hn2.1.2.2 y (List.mem_append_left _ hy) x hx)
  have hmem : ∀ x, x ∈ X ∨ x ∈ Y ∨ x ∈ Q ++ P → x ∈ nodes := by
    intro x hx
    refine ht.mem_iff.1 ?_
    rw [hsplit]
    simp only [List.mem_append] at hx ⊢
    rcases hx with h | h | h | h
    · exact .inl (.inl (.inr h))
    · exact .inl (.inr h)
    · exact .inr h
    · exact .inl (.inl (.inl h))
  have mA := hmem A (.inr (.inr hAm)); have mB := hmem B (.inl hBm); have mC := hmem C (.inl hCm)
  have mD := hmem D (.inr (.inl hDm)); have mE := hmem E (.inr (.inl hEm)); have mF := hmem F (.inr (.inr hFm))
  -- the lengths of the five tours
  have hrot : ∀ M : List α, clen (totW g.edge) (P ++ M ++ Q) = clen (totW g.edge) (M ++ (Q ++ P)) := by
    intro M; rw [List.append_assoc, clen_rotate, List.append_assoc]
  have hrev : ∀ l : List α, plen (totW g.edge) l.reverse = plen (totW g.edge) l := plen_reverse hsW
  have c0 : clen (totW g.edge) t = plen (totW g.edge) X + totW g.edge C D + plen (totW g.edge) Y + totW g.edge E F +
      plen (totW g.edge) (Q ++ P) + totW g.edge A B := by
    rw [hsplit, show P ++ X ++ Y ++ Q = P ++ (X ++ Y) ++ Q by simp, hrot, clen3 _ hB hC hD hE hF hA]
  have s1 : reverseSlice t i j = P ++ (X.reverse ++ Y) ++ Q := by
    have := slice_of_split (P := P) (X := X) (Q := Y ++ Q) hP hX (by omega)
    rw [show P ++ X ++ (Y ++ Q) = t by rw [hsplit]; simp] at this
    unfold reverseSlice; rw [this.1, this.2.1, this.2.2]; simp
  have s2 : reverseSlice t j k = P ++ (X ++ Y.reverse) ++ Q := by
    have := slice_of_split (P := P ++ X) (X := Y) (Q := Q) (i := j) (j := k) (by simp; omega) hY (by omega)
    rw [← hsplit] at this
    unfold reverseSlice; rw [this.1, this.2.1, this.2.2]; simp
  have s3 : swapSlices t i j k = P ++ (Y ++ X) ++ Q := by
    have h1 := slice_of_split (P := P) (X := X) (Q := Y ++ Q) hP hX (by omega)
    have h2 := slice_of_split (P := P ++ X) (X := Y) (Q := Q) (i := j) (j := k) (by simp; omega) hY (by omega)
    rw [← hsplit] at h2
    rw [show P ++ X ++ (Y ++ Q) = t by rw [hsplit]; simp] at h1
    unfold swapSlices; rw [h1.1, h1.2.1, h2.1, h2.2.2]
  have s4 : reverseSlice t i k = P ++ (Y.reverse ++ X.reverse) ++ Q := by
    have := slice_of_split (P := P) (X := X ++ Y) (Q := Q) (i := i) (j := k) hP (by simp; omega) (by omega)
    rw [show P ++ (X ++ Y) ++ Q = t by rw [hsplit]; simp] at this
    unfold reverseSlice; rw [this.1, this.2.1, this.2.2]; simp
  have hBr : X.reverse.getLast? = some B := by rw [List.getLast?_reverse]; exact hB
  have hCr : X.reverse.head? = some C := by rw [List.head?_reverse]; exact hC
  have hDr : Y.reverse.getLast? = some D := by rw [List.getLast?_reverse]; exact hD
  have hEr : Y.reverse.head? = some E := by rw [List.head?_reverse]; exact hE
  have c1 := clen3 (totW g.edge) hCr hBr hD hE hF hA
  have c2 := clen3 (totW g.edge) hB hC hEr hDr hF hA
  have c3 := clen3 (totW g.edge) hD hE hB hC hF hA
  have c4 := clen3 (totW g.edge) hEr hDr hCr hBr hF hA
  rw [← hrot, hrev] at c1 c2
  rw [← hrot] at c3
  rw [← hrot, hrev, hrev] at c4
  have w : ∀ a b, (a ∈ X ∧ b ∈ Y) ∨ (a ∈ X ∧ b ∈ Q ++ P) ∨ (a ∈ Y ∧ b ∈ Q ++ P) →
      distMax g a b = totW g.edge a b ∧ distMax g b a = totW g.edge a b := by
    intro a b hab
    rw [hsW a b]
    have hne : a ≠ b ∧ a ∈ nodes ∧ b ∈ nodes := by
      rcases hab with ⟨h1, h2⟩ | ⟨h1, h2⟩ | ⟨h1, h2⟩
      · exact ⟨hXY a h1 b h2, hmem a (.inl h1), hmem b (.inr (.inl h2))⟩
      · exact ⟨hXR a h1 b h2, hmem a (.inl h1), hmem b (.inr (.inr h2))⟩
      · exact ⟨hYR a h1 b h2, hmem a (.inr (.inl h1)), hmem b (.inr (.inr h2))⟩
    exact ⟨(distMax_eq hc hne.2.1 hne.2.2 hne.1).trans (hsW a b), distMax_eq hc hne.2.2 hne.2.1 (Ne.symm hne.1)⟩
  unfold opt3Try
  dsimp only
  rw [e5, e1, e2, e3, e4, e6, hB, hC, hD, hE, hF, hA]
  dsimp only
  rw [(w B A (.inr (.inl ⟨hBm, hAm⟩))).2, (w C D (.inl ⟨hCm, hDm⟩)).1, (w E F (.inr (.inr ⟨hEm, hFm⟩))).1,
    (w C A (.inr (.inl ⟨hCm, hAm⟩))).2, (w B D (.inl ⟨hBm, hDm⟩)).1, (w C E (.inl ⟨hCm, hEm⟩)).1, (w D F (.inr (.inr ⟨hDm, hFm⟩))).1,
    (w D A (.inr (.inr ⟨hDm, hAm⟩))).2, (w B E (.inl ⟨hBm, hEm⟩)).2, (w C F (.inr (.inl ⟨hCm, hFm⟩))).1,
    (w B F (.inr (.inl ⟨hBm, hFm⟩))).2, (w E A (.inr (.inr ⟨hEm, hAm⟩))).1]
  rw [s1, s2, s3, s4]
  have q1 := hsW A B; have q2 := hsW A C; have q3 := hsW D C; have q4 := hsW A D; have q5 := hsW A E
  have q6 := hsW E B
  rcases best_cases (totW g.edge B A + totW g.edge C D + totW g.edge E F) (totW g.edge C A + totW g.edge B D + totW g.edge E F)
    (totW g.edge B A + totW g.edge C E + totW g.edge D F) (totW g.edge D A + totW g.edge B E + totW g.edge C F)
    (totW g.edge B F + totW g.edge C D + totW g.edge E A) with ⟨hm, h⟩ | ⟨hm, h⟩ | ⟨hm, h⟩ | ⟨hm, h⟩ | ⟨hm, h⟩ <;> rw [hm]
  · left
    refine ⟨rfl, ?_, ?_, ?_, ?_⟩ <;> grind
  · right; simp only [Nat.reduceEqDiff, if_true, if_false]; grind
  · right; simp only [Nat.reduceEqDiff, if_true, if_false]; grind
  · right; simp only [Nat.reduceEqDiff, if_true, if_false]; grind
  · right; simp only [Nat.reduceEqDiff, if_true, if_false]; grind

/-- on a symmetric complete graph the number added to `delta` is the change of the length of the tour -/
theorem opt3Try_delta {g : Graph α Rat O} {nodes t : List α} (hc : CompletePos g.edge nodes) (hs : SymmetricW g.edge) (hnd : nodes.Nodup)
    (ht : t.Perm nodes) {i j k : Nat} (hij : i + 2 ≤ j) (hjk : j + 2 ≤ k) (hk : k ≤ t.length) (hi : i = 0 → k < t.length) (δ : Rat) :
    (opt3Try g (t, δ) (i, j, k)).2 - δ = clen (totW g.edge) (opt3Try g (t, δ) (i, j, k)).1 - clen (totW g.edge) t := by
  rcases opt3Try_cases hc hs hnd ht hij hjk hk hi δ with ⟨h, _⟩ | h
  · rw [h]; dsimp only; grind
  · exact h.1

theorem opt3Fold_delta {g : Graph α Rat O} {nodes : List α} (hc : CompletePos g.edge nodes) (hs : SymmetricW g.edge) (hnd : nodes.Nodup)
    (l : List (Nat × Nat × Nat)) : ∀ s : List α × Rat, s.1.Perm nodes → (∀ ijk ∈ l, ijk ∈ allSegments nodes.length) →
    (l.foldl (opt3Try g) s).2 - s.2 = clen (totW g.edge) (l.foldl (opt3Try g) s).1 - clen (totW g.edge) s.1 := by
  induction l with
  | nil => intro s _ _; simp; grind
  | cons ijk l ih =>
    intro s hp h
    obtain ⟨i, j, k⟩ := ijk
    obtain ⟨h1, h2, h3, h4⟩ := mem_allSegments (h (i, j, k) (by simp))
    have hd := opt3Try_delta hc hs hnd hp h1 h2 (by rw [hp.length_eq]; exact h3) (by rw [hp.length_eq]; exact h4) s.2
    have hp2 : (opt3Try g s (i, j, k)).1.Perm nodes := (opt3Try_perm (by dsimp only; omega) (by dsimp only; omega)).trans hp
    have := ih (opt3Try g s (i, j, k)) hp2 (fun x hx => h x (List.mem_cons_of_mem _ hx))
    rw [List.foldl_cons]
    grind

/-- on a symmetric complete graph `_opt3` terminates -/
theorem opt3_terminates {g : Graph α Rat O} {nodes t : List α} (hc : CompletePos g.edge nodes) (hs : SymmetricW g.edge) (hnd : nodes.Nodup)
    (h2 : 2 ≤ nodes.length) (ht : t.Perm nodes) : ∃ r, opt3 g t = some r := by
  unfold opt3
  rw [(distance_tour hc hnd h2 ht).1]
  dsimp only
  -- the number of tours that are shorter
  refine pyWhile_term (fun s : Opt3St α => s.tour.Perm nodes) (· < ·) Nat.lt_wfRel.wf
    (fun s => ((perms nodes).filter (fun p => decide (clen (totW g.edge) p < clen (totW g.edge) s.tour))).length) ?_ ht
  intro s s' h1 hst
  unfold opt3Step at hst
  dsimp only at hst
  have hp := (opt3Fold_perm (g := g) (allSegments s.tour.length) (s.tour, 0) (allSegments_le _)).trans h1
  have hdel := opt3Fold_delta hc hs hnd (allSegments s.tour.length) (s.tour, 0) h1 (by rw [h1.length_eq]; exact fun _ h => h)
  rw [(distance_tour hc hnd h2 hp).1] at hst
  dsimp only at hst hdel
  split at hst
  · cases hst
  · rename_i hneg
    cases hst
    dsimp only
    refine ⟨hp, ?_⟩
    have hlt : clen (totW g.edge) ((allSegments s.tour.length).foldl (opt3Try g) (s.tour, 0)).1 < clen (totW g.edge) s.tour := by grind
    generalize ((allSegments s.tour.length).foldl (opt3Try g) (s.tour, 0)).1 = t' at hp hlt
    have hsub : ((perms nodes).filter (fun p => decide (clen (totW g.edge) p < clen (totW g.edge) t'))).Sublist
        (((perms nodes).filter (fun p => decide (clen (totW g.edge) p < clen (totW g.edge) s.tour))).filter
          (fun p => decide (clen (totW g.edge) p < clen (totW g.edge) t'))) := by
      rw [List.filter_filter]
      refine (List.filter_congr ?_ : _ = _) ▸ List.Sublist.refl _
      intro p _
      by_cases h0 : clen (totW g.edge) p < clen (totW g.edge) t'
      · have : clen (totW g.edge) p < clen (totW g.edge) s.tour := by grind
        simp [h0, this]
      · simp [h0]
    refine Nat.lt_of_le_of_lt hsub.length_le ?_
    rw [List.length_filter_lt_length_iff_exists]
    refine ⟨t', ?_, ?_⟩
    · rw [List.mem_filter, mem_perms]; exact ⟨hp, by simpa using hlt⟩
    · simp

/-! ### the best of the four tours -/

theorem pySort_head_min {β : Type} {lt : β → β → Bool} (key : β → Rat) (h1 : ∀ a b, lt a b = true → key a ≤ key b)
    (h2 : ∀ a b, lt a b = false → key b ≤ key a) (l : List β) : ∀ x m, pySort lt l = x :: m → ∀ y ∈ l, key x ≤ key y := by
  induction l with
  | nil => intro x m h; cases h
  | cons a l ih =>
    intro x m h y hy
    simp only [pySort] at h
    cases hs : pySort lt l with
    | nil =>
      rw [hs] at h
      simp only [insSorted] at h
      cases h
      have hl : l = [] := by
        cases l with
        | nil => rfl
        | cons b l => have := (pySort_perm lt (b :: l)).length_eq; rw [hs] at this; simp at this
      subst hl
      simp at hy; subst hy; exact Rat.le_refl
    | cons b l' =>
      rw [hs] at h
      have hb : ∀ y ∈ l, key b ≤ key y := ih b l' hs
      unfold insSorted at h
      split at h
      · rename_i hlt
        cases h
        rcases List.mem_cons.1 hy with rfl | hy
        · exact h1 _ _ hlt
        · exact hb y hy
      · rename_i hlt
        cases h
        have := h2 _ _ (by simpa using hlt)
        rcases List.mem_cons.1 hy with rfl | hy
        · exact Rat.le_refl
        · have := hb y hy; grind

theorem leastTour_spec (nlt : α → α → Bool) (L : List (Rat × List α)) (hL : L ≠ []) : ∃ x ∈ L, leastTour nlt L = .ok x ∧ ∀ y ∈ L, x.1 ≤ y.1 := by
  unfold leastTour
  cases hs : pySort (tourLt nlt) L with
  | nil =>
    have := (pySort_perm (tourLt nlt) L).length_eq
    rw [hs] at this
    exact absurd (List.eq_nil_of_length_eq_zero this.symm) hL
  | cons x m =>
    refine ⟨x, ?_, rfl, ?_⟩
    · rw [← mem_pySort (lt := tourLt nlt), hs]; simp
    · refine pySort_head_min (lt := tourLt nlt) (fun p => p.1) ?_ ?_ L x m hs
      · intro a b h
        simp only [tourLt, Bool.or_eq_true, Bool.and_eq_true, decide_eq_true_eq] at h
        grind
      · intro a b h
        simp only [tourLt, Bool.or_eq_false_iff, decide_eq_false_iff_not] at h
        grind

/-- seven nodes or more: if `tsp_2023` returns, it returns a tour, its length, and it is not longer than the tour of `_greedy` -/
theorem tsp2023Long_partial {nlt : α → α → Bool} {g : Graph α Rat O} (h : g.Inv) (hc : CompletePos g.edge g.nodeList)
    (h2 : 2 ≤ g.nodeList.length) {r : Py (Rat × List α)} (hr : tsp2023Long nlt g = some r) :
    ∃ d t t1, r = .ok (d, t) ∧ t.Perm g.nodeList ∧ d = clen (totW g.edge) t ∧ greedyTour nlt g = .ok t1 ∧ t1.Perm g.nodeList ∧
      d ≤ clen (totW g.edge) t1 := by
  have hnd : g.nodeList.Nodup := h.nodesWF
  obtain ⟨t, ht, hp⟩ := greedyTour_complete (nlt := nlt) h hc h2
  obtain ⟨t1, ht1, hp1⟩ := opt1_spec hc hnd h2 hp
  obtain ⟨t2, ht2, hp2, _⟩ := opt2_spec hc hnd h2 hp1
  unfold tsp2023Long at hr
  rw [ht] at hr; dsimp only at hr
  rw [(distance_tour hc hnd h2 hp).1] at hr; dsimp only at hr
  rw [ht1] at hr; dsimp only at hr
  rw [(distance_tour hc hnd h2 hp1).1] at hr; dsimp only at hr
  rw [ht2] at hr; dsimp only at hr
  rw [(distance_tour hc hnd h2 hp2).1] at hr; dsimp only at hr
  cases h3 : opt3 g t2 with
  | none => rw [h3] at hr; cases hr
  | some r3 =>
    obtain ⟨t3, rfl, hp3, _⟩ := opt3_partial hc hnd h2 hp2 h3
    rw [h3] at hr; dsimp only at hr
    rw [(distance_tour hc hnd h2 hp3).1] at hr
    simp only [Option.some.injEq] at hr
    obtain ⟨x, hx, hl, hmin⟩ := leastTour_spec nlt [(clen (totW g.edge) t, t), (clen (totW g.edge) t1, t1), (clen (totW g.edge) t2, t2),
      (clen (totW g.edge) t3, t3)] (by simp)
    rw [hl] at hr
    refine ⟨x.1, x.2, t, hr.symm, ?_, ?_, ht, hp, hmin _ (List.mem_cons_self)⟩
    · simp only [List.mem_cons, List.not_mem_nil, or_false] at hx
      rcases hx with rfl | rfl | rfl | rfl <;> assumption
    · simp only [List.mem_cons, List.not_mem_nil, or_false] at hx
      rcases hx with rfl | rfl | rfl | rfl <;> rfl

theorem tsp2023Long_terminates {nlt : α → α → Bool} {g : Graph α Rat O} (h : g.Inv) (hc : CompletePos g.edge g.nodeList)
    (hs : SymmetricW g.edge) (h2 : 2 ≤ g.nodeList.length) : ∃ r, tsp2023Long nlt g = some r := by
  have hnd : g.nodeList.Nodup := h.nodesWF
  obtain ⟨t, ht, hp⟩ := greedyTour_complete (nlt := nlt) h hc h2
  obtain ⟨t1, ht1, hp1⟩ := opt1_spec hc hnd h2 hp
  obtain ⟨t2, ht2, hp2, _⟩ := opt2_spec hc hnd h2 hp1
  obtain ⟨r3, h3⟩ := opt3_terminates hc hs hnd h2 hp2
  obtain ⟨t3, rfl, hp3, _⟩ := opt3_partial hc hnd h2 hp2 h3
  unfold tsp2023Long
  rw [ht]; dsimp only
  rw [(distance_tour hc hnd h2 hp).1]; dsimp only
  rw [ht1]; dsimp only
  rw [(distance_tour hc hnd h2 hp1).1]; dsimp only
  rw [ht2]; dsimp only
  rw [(distance_tour hc hnd h2 hp2).1]; dsimp only
  rw [h3]; dsimp only
  rw [(distance_tour hc hnd h2 hp3).1]
  exact ⟨_, rfl⟩

end GT

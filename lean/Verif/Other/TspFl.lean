import Verif.Other.TspLocal
import Verif.Spec.TourRound
import Verif.Sp.FlInt
import Verif.Sp.LegsFl
/-
Model of `_opt1`, `_opt2`, `_opt3`, `tsp_greedy` and `tsp_2023` (graph/tsp.py) in rounded arithmetic: `fl` is applied after every addition, and the builtin `sum`
is a parameter (`flAdd` or `flKahan` of Spec/TourRound.lean).  `_greedy` only compares values, hence `greedyTour` is used as it is.
-/
namespace GT
variable {α O : Type} [DecidableEq α]
open Graph

/-- the values that `distance` (base.py:365) and `_opt2`, `_opt3` (tsp.py:219, 227, 295, 302) give to `sum`, or `none` for a missing edge (`None`) -/
def tourEdges (g : Graph α Rat O) (t : List α) : List (Option Rat) :=
  (List.range t.length).map (fun i => match before t i, t[i]? with
    | some a, some b => g.edge a b
    | _, _ => none)

/-- `distance(nodes, return_to_start)` (base.py:364-368): `sum` raises `TypeError` if it meets `None` -/
def distanceFl (fl : Rat → Rat) (sumf : List Rat → Rat) (g : Graph α Rat O) (t : List α) (returnToStart : Bool) : Py Rat :=
  if none ∈ tourEdges g t then .error .typeError
  else
    let length := sumf ((tourEdges g t).filterMap id)
    if returnToStart then
      match t.getLast?, t.head? with
      | some a, some b => match g.edge a b with
        | some v => .ok (fl (length + v))
        | none => .error .typeError
      | _, _ => .error .indexError
    else .ok length

/-- the body of the inner loop of `_opt1` (tsp.py:166-170) -/
def opt1TryFl (fl : Rat → Rat) (sumf : List Rat → Rat) (g : Graph α Rat O) (t : List α) (s : Py (Rat × List α)) (ij : Nat × Nat) : Py (Rat × List α) :=
  match s with
  | .error e => .error e
  | .ok (dBest, pBest) =>
    match distanceFl fl sumf g (relocate t ij.1 ij.2) true with
    | .error e => .error e
    | .ok d => if d < dBest then .ok (d, relocate t ij.1 ij.2) else .ok (dBest, pBest)

/-- `_opt1` (tsp.py:157-195) -/
def opt1Fl (fl : Rat → Rat) (sumf : List Rat → Rat) (g : Graph α Rat O) (t : List α) : Py (List α) :=
  match distanceFl fl sumf g t true with
  | .error e => .error e
  | .ok d =>
    match ((List.range t.length).flatMap (fun i => (List.range t.length).map (fun j => (i, j)))).foldl (opt1TryFl fl sumf g t) (.ok (d, t)) with
    | .error e => .error e
    | .ok r => .ok r.2

/-- `reverse_segment_if_improvement` (tsp.py:201-210): `ab + cd > ac + bd` compares rounded sums -/
def opt2TryFl (fl : Rat → Rat) (g : Graph α Rat O) (s : List α × Bool) (ij : Nat × Nat) : List α × Bool :=
  match before s.1 ij.1, s.1[ij.1]?, s.1[ij.2 - 1]?, s.1[ij.2 % s.1.length]? with
  | some a, some b, some c, some d =>
    match truthy (g.edge a b), truthy (g.edge c d), truthy (g.edge a c), truthy (g.edge b d) with
    | some ab, some cd, some ac, some bd =>
      if fl (ab + cd) > fl (ac + bd) then (reverseSlice s.1 ij.1 ij.2, true) else s
    | _, _, _, _ => s
  | _, _, _, _ => s

/-- the body of `while True` of `_opt2` (tsp.py:223-239) -/
def opt2StepFl (fl : Rat → Rat) (sumf : List Rat → Rat) (g : Graph α Rat O) (s : Opt2St α) : Opt2St α ⊕ Py (List α) :=
  let r := (opt2Pairs s.tour.length).foldl (opt2TryFl fl g) (s.tour, false)
  match distanceFl fl sumf g r.1 false with
  | .error e => .inr (.error e)
  | .ok d1 =>
    let p0 := if d1 < s.d0 then r.1 else s.p0
    let d0 := if d1 < s.d0 then d1 else s.d0
    if r.2 = false then .inr (.ok p0)
    else
      let hist := r.1 :: s.hist
      if (s.inc + 1) % 100 = 0 ∧ hist.any (fun t => decide (2 < hist.count t)) = true then .inr (.ok p0)
      else .inl ⟨r.1, p0, d0, hist, s.inc + 1⟩

/-- `_opt2` (tsp.py:198-240) -/
def opt2Fl (fl : Rat → Rat) (sumf : List Rat → Rat) (g : Graph α Rat O) (t : List α) : Option (Py (List α)) :=
  match distanceFl fl sumf g t false with
  | .error e => some (.error e)
  | .ok d0 => pyWhile (opt2StepFl fl sumf g) ⟨t, t, d0, [t], 0⟩

/-- `x + y + z` -/
def fl3 (fl : Rat → Rat) (x y z : Rat) : Rat := fl (fl (x + y) + z)

/-- `delta += reverse_segment_if_better(graph, tour, i, j, k)` (tsp.py:252-288, 300) on the state `(tour, delta)`; negation is exact -/
def opt3TryFl (fl : Rat → Rat) (g : Graph α Rat O) (s : List α × Rat) (ijk : Nat × Nat × Nat) : List α × Rat :=
  let t := s.1; let i := ijk.1; let j := ijk.2.1; let k := ijk.2.2
  match before t i, t[i]?, t[j - 1]?, t[j]?, t[k - 1]?, t[k % t.length]? with
  | some A, some B, some C, some D, some E, some F =>
    let d0 := fl3 fl (distMax g A B) (distMax g C D) (distMax g E F)
    let d1 := fl3 fl (distMax g A C) (distMax g B D) (distMax g E F)
    let d2 := fl3 fl (distMax g A B) (distMax g C E) (distMax g D F)
    let d3 := fl3 fl (distMax g A D) (distMax g E B) (distMax g C F)
    let d4 := fl3 fl (distMax g F B) (distMax g C D) (distMax g E A)
    let m := (better d4 4 (better d3 3 (better d2 2 (better d1 1 (d0, 0))))).2
    if m = 0 then s
    else if m = 1 then (reverseSlice t i j, fl (s.2 + fl (-d0 + d1)))
    else if m = 2 then (reverseSlice t j k, fl (s.2 + fl (-d0 + d2)))
    else if m = 3 then (swapSlices t i j k, fl (s.2 + fl (-d0 + d3)))
    else (reverseSlice t i k, fl (s.2 + fl (-d0 + d4)))
  | _, _, _, _, _, _ => s

/-- the body of `while True` of `_opt3` (tsp.py:297-313) -/
def opt3StepFl (fl : Rat → Rat) (sumf : List Rat → Rat) (g : Graph α Rat O) (s : Opt3St α) : Opt3St α ⊕ Py (List α) :=
  let r := (allSegments s.tour.length).foldl (opt3TryFl fl g) (s.tour, 0)
  match distanceFl fl sumf g r.1 false with
  | .error e => .inr (.error e)
  | .ok d1 =>
    let p0 := if d1 < s.d0 then r.1 else s.p0
    let d0 := if d1 < s.d0 then d1 else s.d0
    if r.2 ≥ 0 then .inr (.ok p0) else .inl ⟨r.1, p0, d0⟩

/-- `_opt3` (tsp.py:243-314) -/
def opt3Fl (fl : Rat → Rat) (sumf : List Rat → Rat) (g : Graph α Rat O) (t : List α) : Option (Py (List α)) :=
  match distanceFl fl sumf g t false with
  | .error e => some (.error e)
  | .ok d0 => pyWhile (opt3StepFl fl sumf g) ⟨t, t, d0⟩

/-- `tsp_greedy` (tsp.py:95-114) -/
def tspGreedyFl (fl : Rat → Rat) (sumf : List Rat → Rat) (nlt : α → α → Bool) (g : Graph α Rat O) : Option (Py (Rat × List α)) :=
  match greedyTour nlt g with
  | .error e => some (.error e)
  | .ok t1 => match distanceFl fl sumf g t1 false with
    | .error e => some (.error e)
    | .ok d1 => match opt2Fl fl sumf g t1 with
      | none => none
      | some (.error e) => some (.error e)
      | some (.ok t2) => match distanceFl fl sumf g t2 false with
        | .error e => some (.error e)
        | .ok d2 => some (.ok (if d1 ≥ d2 then (d2, t2) else (d1, t1)))

/-- `tsp_2023` from line 342 on: seven nodes or more -/
def tsp2023LongFl (fl : Rat → Rat) (sumf : List Rat → Rat) (nlt : α → α → Bool) (g : Graph α Rat O) : Option (Py (Rat × List α)) :=
  match greedyTour nlt g with
  | .error e => some (.error e)
  | .ok t => match distanceFl fl sumf g t false with
    | .error e => some (.error e)
    | .ok d => match opt1Fl fl sumf g t with
      | .error e => some (.error e)
      | .ok t1 => match distanceFl fl sumf g t1 false with
        | .error e => some (.error e)
        | .ok d1 => match opt2Fl fl sumf g t1 with
          | none => none
          | some (.error e) => some (.error e)
          | some (.ok t2) => match distanceFl fl sumf g t2 false with
            | .error e => some (.error e)
            | .ok d2 => match opt3Fl fl sumf g t2 with
              | none => none
              | some (.error e) => some (.error e)
              | some (.ok t3) => match distanceFl fl sumf g t3 false with
                | .error e => some (.error e)
                | .ok d3 => some (leastTour nlt [(d, t), (d1, t1), (d2, t2), (d3, t3)])

/-- the loop of `brute_force` (tsp.py:320-327); `n0` is `nodes[0]` -/
def bruteLoopFl (fl : Rat → Rat) (g : Graph α Rat O) (n0 : Option α) : List (List α) → Rat → Option (List α) → Option (Py (Rat × List α))
  | [], d2, p2 => bruteEnd d2 p2
  | [] :: _, _, _ => some (.error .indexError)
  | (x :: r) :: l, d2, p2 =>
    if some x ≠ n0 then bruteEnd d2 p2
    else match g.distanceFromPathFl fl (x :: r ++ [x]) with
      | none => none
      | some (.error e) => some (.error e)
      | some (.ok .inf) => bruteLoopFl fl g n0 l d2 p2
      | some (.ok (.fin d)) => if d < d2 then bruteLoopFl fl g n0 l d (some (x :: r)) else bruteLoopFl fl g n0 l d2 p2

/-- `brute_force` (tsp.py:317-328) -/
def bruteForceFl (fl : Rat → Rat) (g : Graph α Rat O) : Option (Py (Rat × List α)) :=
  bruteLoopFl fl g g.nodeList.head? (perms g.nodeList) maxsize none

/-- `tsp_2023` / `solve_tsp` (tsp.py:331-359) -/
def tsp2023Fl (fl : Rat → Rat) (sumf : List Rat → Rat) (nlt : α → α → Bool) (g : Graph α Rat O) : Option (Py (Rat × List α)) :=
  if g.nodeList.length < 7 then bruteForceFl fl g else tsp2023LongFl fl sumf nlt g

/-! ### the distance of a tour -/

/-- position before `i` -/
theorem before_eq {t : List α} {i : Nat} (hi : i < t.length) : before t i = some (t[if i = 0 then t.length - 1 else i - 1]'(by split <;> omega)) := by
  unfold before
  rw [List.getElem?_eq_getElem]

theorem idx_edge {w : α → α → Option Rat} {nodes t : List α} (hc : CompletePos w nodes) (hnd : nodes.Nodup) (ht : t.Perm nodes) {p q : Nat}
    (hp : p < t.length) (hq : q < t.length) (hpq : p ≠ q) : w t[p] t[q] = some (totW w t[p] t[q]) ∧ 0 < totW w t[p] t[q] := by
  refine hc.totW (ht.mem_iff.1 (List.getElem_mem _)) (ht.mem_iff.1 (List.getElem_mem _)) (fun h => hpq ?_)
  exact (List.getElem_inj (ht.nodup_iff.2 hnd)).1 h

theorem tourEdges_eq {g : Graph α Rat O} {nodes t : List α} (hc : CompletePos g.edge nodes) (hnd : nodes.Nodup) (h2 : 2 ≤ nodes.length)
    (ht : t.Perm nodes) : tourEdges g t = (tourVals g.edge t).map some := by
  have hl := ht.length_eq
  have hne : t ≠ [] := by intro h; subst h; simp at hl; omega
  unfold tourVals
  rw [List.getLast?_eq_some_getLast hne]
  dsimp only
  apply List.ext_getElem?
  intro i
  unfold tourEdges
  rw [List.getElem?_map, List.getElem?_map, stepVals_getElem?]
  by_cases hi : i < t.length
  · rw [List.getElem?_range hi, List.getElem?_eq_getElem hi, Option.map_some, before_eq hi]
    have h0 : (t.getLast hne :: t)[i]? = some (t[if i = 0 then t.length - 1 else i - 1]'(by split <;> omega)) := by
      cases i with
      | zero => simp [List.getLast_eq_getElem]
      | succ i => simp
    rw [h0, List.getElem?_eq_getElem hi]
    dsimp only
    rw [(idx_edge hc hnd ht (p := if i = 0 then t.length - 1 else i - 1) (q := i) (by split <;> omega) hi (by split <;> omega)).1]
    rfl
  · rw [List.getElem?_eq_none (by simpa using hi), List.getElem?_eq_none (l := t) (by omega)]
    cases (t.getLast hne :: t)[i]? <;> rfl

/-- the distance of a tour of a complete graph, in rounded arithmetic -/
theorem distanceFl_tour {fl : Rat → Rat} {sumf : List Rat → Rat} {g : Graph α Rat O} {nodes t : List α} (hc : CompletePos g.edge nodes) (hnd : nodes.Nodup)
    (h2 : 2 ≤ nodes.length) (ht : t.Perm nodes) : distanceFl fl sumf g t false = .ok (sumf (tourVals g.edge t)) ∧
      ∃ a b v, g.edge a b = some v ∧ t.getLast? = some a ∧ t.head? = some b ∧ distanceFl fl sumf g t true = .ok (fl (sumf (tourVals g.edge t) + v)) := by
  have hl := ht.length_eq
  have hne : t ≠ [] := by intro h; subst h; simp at hl; omega
  have e := tourEdges_eq hc hnd h2 ht
  have hn : ¬ (none ∈ tourEdges g t) := by rw [e]; simp
  have hf : (tourEdges g t).filterMap id = tourVals g.edge t := by rw [e]; simp [List.filterMap_map]
  have he := idx_edge hc hnd ht (p := t.length - 1) (q := 0) (by omega) (by omega) (by omega)
  refine ⟨?_, t[t.length - 1], t[0], _, he.1, ?_, ?_, ?_⟩
  · unfold distanceFl; rw [if_neg hn, hf]; rfl
  · rw [List.getLast?_eq_getElem?, List.getElem?_eq_getElem]
  · rw [List.head?_eq_getElem?, List.getElem?_eq_getElem]
  · unfold distanceFl
    rw [if_neg hn, hf]
    simp only [if_true]
    rw [List.getLast?_eq_getElem?, List.getElem?_eq_getElem (by omega : t.length - 1 < t.length), List.head?_eq_getElem?, List.getElem?_eq_getElem (by omega : 0 < t.length)]
    dsimp only
    rw [he.1]

/-! ### `_opt1`, `_opt2`, `_opt3`: what they return -/

theorem opt1Fl_fold {fl : Rat → Rat} {sumf : List Rat → Rat} {g : Graph α Rat O} {nodes t : List α} (hc : CompletePos g.edge nodes) (hnd : nodes.Nodup)
    (h2 : 2 ≤ nodes.length) (ht : t.Perm nodes) (l : List (Nat × Nat)) : ∀ d p, p.Perm nodes →
    ∃ d' p', l.foldl (opt1TryFl fl sumf g t) (.ok (d, p)) = .ok (d', p') ∧ p'.Perm nodes := by
  induction l with
  | nil => intro d p hp; exact ⟨d, p, rfl, hp⟩
  | cons ij l ih =>
    intro d p hp
    have hr : (relocate t ij.1 ij.2).Perm nodes := (relocate_perm t _ _).trans ht
    obtain ⟨_, _, _, _, _, _, hd'⟩ := (distanceFl_tour (fl := fl) (sumf := sumf) hc hnd h2 hr).2
    rw [List.foldl_cons]
    unfold opt1TryFl
    dsimp only
    rw [hd']
    dsimp only
    split
    · exact ih _ _ hr
    · exact ih _ _ hp

theorem opt1Fl_spec {fl : Rat → Rat} {sumf : List Rat → Rat} {g : Graph α Rat O} {nodes t : List α} (hc : CompletePos g.edge nodes) (hnd : nodes.Nodup)
    (h2 : 2 ≤ nodes.length) (ht : t.Perm nodes) : ∃ p, opt1Fl fl sumf g t = .ok p ∧ p.Perm nodes := by
  obtain ⟨_, _, _, _, _, _, hd⟩ := (distanceFl_tour (fl := fl) (sumf := sumf) hc hnd h2 ht).2
  unfold opt1Fl
  rw [hd]; dsimp only
  obtain ⟨d', p', h1, h3⟩ := opt1Fl_fold (fl := fl) (sumf := sumf) hc hnd h2 ht
    ((List.range t.length).flatMap (fun i => (List.range t.length).map (fun j => (i, j)))) _ t ht
  rw [h1]
  exact ⟨p', rfl, h3⟩

theorem opt2FoldFl_perm {fl : Rat → Rat} {g : Graph α Rat O} (l : List (Nat × Nat)) : ∀ s : List α × Bool, (∀ ij ∈ l, ij.1 ≤ ij.2) →
    (l.foldl (opt2TryFl fl g) s).1.Perm s.1 := by
  induction l with
  | nil => intro s _; exact .refl _
  | cons ij l ih =>
    intro s h
    rw [List.foldl_cons]
    refine (ih _ (fun x hx => h x (List.mem_cons_of_mem _ hx))).trans ?_
    unfold opt2TryFl
    split
    · split
      · split
        · exact reverseSlice_perm (h ij (by simp))
        · exact .refl _
      · exact .refl _
    · exact .refl _

/-- on a complete graph `_opt2` terminates, whatever the rounding, with a tour whose rounded length is not larger -/
theorem opt2Fl_spec {fl : Rat → Rat} {sumf : List Rat → Rat} {g : Graph α Rat O} {nodes t : List α} (hc : CompletePos g.edge nodes) (hnd : nodes.Nodup)
    (h2 : 2 ≤ nodes.length) (ht : t.Perm nodes) :
    ∃ p, opt2Fl fl sumf g t = some (.ok p) ∧ p.Perm nodes ∧ sumf (tourVals g.edge p) ≤ sumf (tourVals g.edge t) := by
  unfold opt2Fl
  rw [(distanceFl_tour hc hnd h2 ht).1]
  dsimp only
  generalize hM : 100 * (2 * (perms nodes).length + 1) = M
  suffices hmain : ∃ r, pyWhile (opt2StepFl fl sumf g) ⟨t, t, sumf (tourVals g.edge t), [t], 0⟩ = some r ∧
      ∃ p, r = .ok p ∧ p.Perm nodes ∧ sumf (tourVals g.edge p) ≤ sumf (tourVals g.edge t) by
    obtain ⟨r, hr, p, rfl, h⟩ := hmain
    exact ⟨p, hr, h⟩
  refine pyWhile_total (step := opt2StepFl fl sumf g) (s := ⟨t, t, sumf (tourVals g.edge t), [t], 0⟩)
    (fun s : Opt2St α => s.tour.Perm nodes ∧ s.p0.Perm nodes ∧ s.d0 = sumf (tourVals g.edge s.p0) ∧ s.d0 ≤ sumf (tourVals g.edge t) ∧
      (∀ x ∈ s.hist, x.Perm nodes) ∧ s.hist.length = s.inc + 1 ∧ s.inc < M)
    (fun r : Py (List α) => ∃ p, r = .ok p ∧ p.Perm nodes ∧ sumf (tourVals g.edge p) ≤ sumf (tourVals g.edge t))
    (fun s => M - s.inc) ?_ ?_ ?_
  · intro s s' ⟨h1, h3, h4, h5, h6, h7, h8⟩ hs
    unfold opt2StepFl at hs
    dsimp only at hs
    have hp := (opt2FoldFl_perm (fl := fl) (g := g) (opt2Pairs s.tour.length) (s.tour, false) (opt2Pairs_le _)).trans h1
    generalize (opt2Pairs s.tour.length).foldl (opt2TryFl fl g) (s.tour, false) = R at hs hp
    rw [(distanceFl_tour hc hnd h2 hp).1] at hs
    dsimp only at hs
    split at hs
    · cases hs
    · split at hs
      · cases hs
      · rename_i hno
        cases hs
        dsimp only
        refine ⟨⟨hp, ?_, ?_, ?_, ?_, by simp [h7], ?_⟩, by omega⟩
        · split <;> assumption
        · split <;> first | rfl | assumption
        · split <;> grind
        · intro x hx
          rcases List.mem_cons.1 hx with rfl | hx
          · exact hp
          · exact h6 x hx
        · by_cases hlt : s.inc + 1 < M
          · exact hlt
          · exfalso
            have hMe : s.inc + 1 = M := by omega
            refine hno ⟨by rw [hMe, ← hM]; simp, ?_⟩
            rw [List.any_eq_true]
            by_cases hex : ∃ x ∈ R.1 :: s.hist, decide (2 < (R.1 :: s.hist).count x) = true
            · exact hex
            · exfalso
              have hle := length_le_of_counts (k := 2) (perms nodes) (R.1 :: s.hist) (by
                intro x hx
                rw [mem_perms]
                rcases List.mem_cons.1 hx with rfl | hx
                · exact hp
                · exact h6 x hx) (by
                intro x
                by_cases hx : x ∈ R.1 :: s.hist
                · exact Nat.not_lt.1 (fun h => hex ⟨x, hx, decide_eq_true h⟩)
                · rw [List.count_eq_zero_of_not_mem hx]; omega)
              simp only [List.length_cons] at hle
              omega
  · intro s r ⟨h1, h3, h4, h5, h6, h7, h8⟩ hs
    unfold opt2StepFl at hs
    dsimp only at hs
    have hp := (opt2FoldFl_perm (fl := fl) (g := g) (opt2Pairs s.tour.length) (s.tour, false) (opt2Pairs_le _)).trans h1
    generalize (opt2Pairs s.tour.length).foldl (opt2TryFl fl g) (s.tour, false) = R at hs hp
    rw [(distanceFl_tour hc hnd h2 hp).1] at hs
    dsimp only at hs
    have hfin : ∃ p, (Except.ok (if sumf (tourVals g.edge R.1) < s.d0 then R.1 else s.p0) : Py (List α)) = .ok p ∧ p.Perm nodes ∧
        sumf (tourVals g.edge p) ≤ sumf (tourVals g.edge t) := by
      refine ⟨_, rfl, ?_, ?_⟩
      · split <;> assumption
      · split <;> grind
    split at hs
    · cases hs; exact hfin
    · split at hs
      · cases hs; exact hfin
      · cases hs
  · refine ⟨ht, ht, rfl, ?_, by simpa using ht, rfl, ?_⟩
    · grind
    · rw [← hM]; dsimp only; omega

theorem opt3FoldFl_perm {fl : Rat → Rat} {g : Graph α Rat O} (l : List (Nat × Nat × Nat)) : ∀ s : List α × Rat,
    (∀ ijk ∈ l, ijk.1 ≤ ijk.2.1 ∧ ijk.2.1 ≤ ijk.2.2) → (l.foldl (opt3TryFl fl g) s).1.Perm s.1 := by
  induction l with
  | nil => intro s _; exact .refl _
  | cons ijk l ih =>
    intro s h
    rw [List.foldl_cons]
    refine (ih _ (fun x hx => h x (List.mem_cons_of_mem _ hx))).trans ?_
    obtain ⟨h1, h2⟩ := h ijk (by simp)
    have hsw : (swapSlices s.1 ijk.1 ijk.2.1 ijk.2.2).Perm s.1 := swapSlices_perm h1 h2
    unfold opt3TryFl
    dsimp only
    split
    · split
      · exact .refl _
      · split
        · exact reverseSlice_perm h1
        · split
          · exact reverseSlice_perm h2
          · split
            · exact hsw
            · exact reverseSlice_perm (by omega)
    · exact .refl _

/-- `_opt3` on a complete graph: if it returns, it returns a tour whose rounded length is not larger -/
theorem opt3Fl_partial {fl : Rat → Rat} {sumf : List Rat → Rat} {g : Graph α Rat O} {nodes t : List α} (hc : CompletePos g.edge nodes) (hnd : nodes.Nodup)
    (h2 : 2 ≤ nodes.length) (ht : t.Perm nodes) {r : Py (List α)} (hr : opt3Fl fl sumf g t = some r) :
    ∃ p, r = .ok p ∧ p.Perm nodes ∧ sumf (tourVals g.edge p) ≤ sumf (tourVals g.edge t) := by
  unfold opt3Fl at hr
  rw [(distanceFl_tour hc hnd h2 ht).1] at hr
  dsimp only at hr
  refine pyWhile_inv (fun s : Opt3St α => s.tour.Perm nodes ∧ s.p0.Perm nodes ∧ s.d0 = sumf (tourVals g.edge s.p0) ∧ s.d0 ≤ sumf (tourVals g.edge t))
    (fun r : Py (List α) => ∃ p, r = .ok p ∧ p.Perm nodes ∧ sumf (tourVals g.edge p) ≤ sumf (tourVals g.edge t)) ?_ ?_
    ⟨ht, ht, rfl, Rat.le_refl⟩ hr
  · intro s s' ⟨h1, h3, h4, h5⟩ hs
    unfold opt3StepFl at hs
    dsimp only at hs
    have hp := (opt3FoldFl_perm (fl := fl) (g := g) (allSegments s.tour.length) (s.tour, 0) (allSegments_le _)).trans h1
    rw [(distanceFl_tour hc hnd h2 hp).1] at hs
    dsimp only at hs
    split at hs
    · cases hs
    · cases hs
      dsimp only
      refine ⟨hp, ?_, ?_, ?_⟩
      · split <;> assumption
      · split <;> first | rfl | assumption
      · split <;> grind
  · intro s r ⟨h1, h3, h4, h5⟩ hs
    unfold opt3StepFl at hs
    dsimp only at hs
    have hp := (opt3FoldFl_perm (fl := fl) (g := g) (allSegments s.tour.length) (s.tour, 0) (allSegments_le _)).trans h1
    rw [(distanceFl_tour hc hnd h2 hp).1] at hs
    dsimp only at hs
    split at hs
    · cases hs
      refine ⟨_, rfl, ?_, ?_⟩
      · split <;> assumption
      · split <;> grind
    · cases hs

theorem tspGreedyFl_spec {fl : Rat → Rat} {sumf : List Rat → Rat} {nlt : α → α → Bool} {g : Graph α Rat O} (h : g.Inv) (hc : CompletePos g.edge g.nodeList)
    (h2 : 2 ≤ g.nodeList.length) : ∃ t t1, tspGreedyFl fl sumf nlt g = some (.ok (sumf (tourVals g.edge t), t)) ∧ t.Perm g.nodeList ∧
      greedyTour nlt g = .ok t1 ∧ t1.Perm g.nodeList ∧ sumf (tourVals g.edge t) ≤ sumf (tourVals g.edge t1) := by
  have hnd : g.nodeList.Nodup := h.nodesWF
  obtain ⟨t1, h1, hp1⟩ := greedyTour_complete (nlt := nlt) h hc h2
  obtain ⟨t2, h3, hp2, hle⟩ := opt2Fl_spec (fl := fl) (sumf := sumf) hc hnd h2 hp1
  unfold tspGreedyFl
  rw [h1]; dsimp only
  rw [(distanceFl_tour hc hnd h2 hp1).1]; dsimp only
  rw [h3]; dsimp only
  rw [(distanceFl_tour hc hnd h2 hp2).1]; dsimp only
  rw [if_pos hle]
  exact ⟨_, _, rfl, hp2, rfl, hp1, hle⟩

theorem tsp2023LongFl_partial {fl : Rat → Rat} {sumf : List Rat → Rat} {nlt : α → α → Bool} {g : Graph α Rat O} (h : g.Inv) (hc : CompletePos g.edge g.nodeList)
    (h2 : 2 ≤ g.nodeList.length) {r : Py (Rat × List α)} (hr : tsp2023LongFl fl sumf nlt g = some r) :
    ∃ t t1, r = .ok (sumf (tourVals g.edge t), t) ∧ t.Perm g.nodeList ∧ greedyTour nlt g = .ok t1 ∧ t1.Perm g.nodeList ∧
      sumf (tourVals g.edge t) ≤ sumf (tourVals g.edge t1) := by
  have hnd : g.nodeList.Nodup := h.nodesWF
  obtain ⟨t, ht, hp⟩ := greedyTour_complete (nlt := nlt) h hc h2
  obtain ⟨t1, ht1, hp1⟩ := opt1Fl_spec (fl := fl) (sumf := sumf) hc hnd h2 hp
  obtain ⟨t2, ht2, hp2, _⟩ := opt2Fl_spec (fl := fl) (sumf := sumf) hc hnd h2 hp1
  unfold tsp2023LongFl at hr
  rw [ht] at hr; dsimp only at hr
  rw [(distanceFl_tour hc hnd h2 hp).1] at hr; dsimp only at hr
  rw [ht1] at hr; dsimp only at hr
  rw [(distanceFl_tour hc hnd h2 hp1).1] at hr; dsimp only at hr
  rw [ht2] at hr; dsimp only at hr
  rw [(distanceFl_tour hc hnd h2 hp2).1] at hr; dsimp only at hr
  cases h3 : opt3Fl fl sumf g t2 with
  | none => rw [h3] at hr; cases hr
  | some r3 =>
    obtain ⟨t3, rfl, hp3, _⟩ := opt3Fl_partial hc hnd h2 hp2 h3
    rw [h3] at hr; dsimp only at hr
    rw [(distanceFl_tour hc hnd h2 hp3).1] at hr
    simp only [Option.some.injEq] at hr
    obtain ⟨x, hx, hl, hmin⟩ := leastTour_spec nlt [(sumf (tourVals g.edge t), t), (sumf (tourVals g.edge t1), t1), (sumf (tourVals g.edge t2), t2),
      (sumf (tourVals g.edge t3), t3)] (by simp)
    rw [hl] at hr
    refine ⟨x.2, t, ?_, ?_, ht, hp, ?_⟩
    · rw [← hr]
      simp only [List.mem_cons, List.not_mem_nil, or_false] at hx
      rcases hx with rfl | rfl | rfl | rfl <;> rfl
    · simp only [List.mem_cons, List.not_mem_nil, or_false] at hx
      rcases hx with rfl | rfl | rfl | rfl <;> assumption
    · have := hmin _ (List.mem_cons_self)
      simp only [List.mem_cons, List.not_mem_nil, or_false] at hx
      rcases hx with rfl | rfl | rfl | rfl <;> exact this

/-! ### sums without rounding errors -/

/-- up to `n` values of edges are added without rounding, and a negative difference of sums of three values is not rounded to zero -/
structure ExactSums (fl : Rat → Rat) (sumf : List Rat → Rat) (w : α → α → Option Rat) (n : Nat) : Prop where
  round : Rounding fl
  sum : ∀ l : List Rat, l.length ≤ n → (∀ x ∈ l, ∃ a b, w a b = some x) → sumf l = l.sum ∧ ∀ a b v, w a b = some v → fl (l.sum + v) = l.sum + v
  diff : ∀ l m : List Rat, l.length = 3 → m.length = 3 → (∀ x ∈ l, ∃ a b, w a b = some x) → (∀ x ∈ m, ∃ a b, w a b = some x) →
    l.sum < m.sum → fl (-m.sum + l.sum) < 0

section
variable {fl : Rat → Rat} {sumf : List Rat → Rat} {g : Graph α Rat O} {nodes t : List α}

theorem tourVals_edges {w : α → α → Option Rat} (hc : CompletePos w nodes) (hnd : nodes.Nodup) (h2 : 2 ≤ nodes.length) (ht : t.Perm nodes) :
    ∀ x ∈ tourVals w t, ∃ a b, w a b = some x ∧ 0 < x := by
  intro x hx
  obtain ⟨i, hi, rfl⟩ := List.mem_iff_getElem.1 hx
  have hi' : i < t.length := by rwa [tourVals_length] at hi
  have hl := ht.length_eq
  have hne : t ≠ [] := by intro h; subst h; simp at hi'
  have h0 : (t.getLast hne :: t)[i]? = some (t[if i = 0 then t.length - 1 else i - 1]'(by split <;> omega)) := by
    cases i with
    | zero => simp [List.getLast_eq_getElem]
    | succ i => simp
  have h1 : (tourVals w t)[i]? = some (totW w (t[if i = 0 then t.length - 1 else i - 1]'(by split <;> omega)) t[i]) := by
    unfold tourVals
    rw [List.getLast?_eq_some_getLast hne]
    dsimp only
    rw [stepVals_getElem?, h0, List.getElem?_eq_getElem hi']
  rw [List.getElem?_eq_getElem hi] at h1
  have h3 := Option.some.inj h1
  have h4 := idx_edge hc hnd ht (p := if i = 0 then t.length - 1 else i - 1) (q := i) (by split <;> omega) hi' (by split <;> omega)
  rw [h3]
  exact ⟨_, _, h4.1, h4.2⟩

theorem distanceFl_exact (he : ExactSums fl sumf g.edge nodes.length) (hc : CompletePos g.edge nodes) (hnd : nodes.Nodup)
    (h2 : 2 ≤ nodes.length) (ht : t.Perm nodes) (r : Bool) : distanceFl fl sumf g t r = g.distance t r := by
  obtain ⟨h3, a, b, v, h4, h5, h6, h7⟩ := distanceFl_tour (fl := fl) (sumf := sumf) hc hnd h2 ht
  obtain ⟨h8, h9⟩ := he.sum (tourVals g.edge t) (by rw [tourVals_length, ht.length_eq]; exact Nat.le_refl _)
    (fun x hx => let ⟨a, b, h, _⟩ := tourVals_edges hc hnd h2 ht x hx; ⟨a, b, h⟩)
  have h10 := (distance_tour hc hnd h2 ht).1
  cases r with
  | false => rw [h3, h10, h8, tourVals_sum]
  | true =>
    rw [h7, h8, h9 _ _ _ h4, tourVals_sum]
    unfold Graph.distance at h10 ⊢
    split at h10
    · cases h10
    · simp only [Bool.false_eq_true, if_false] at h10
      cases h10
      simp only [if_true]
      rw [h5, h6]
      dsimp only
      rw [h4]

theorem opt1Fl_exact (he : ExactSums fl sumf g.edge nodes.length) (hc : CompletePos g.edge nodes) (hnd : nodes.Nodup)
    (h2 : 2 ≤ nodes.length) (ht : t.Perm nodes) : opt1Fl fl sumf g t = opt1 g t := by
  unfold opt1Fl opt1
  rw [distanceFl_exact he hc hnd h2 ht]
  have : opt1TryFl fl sumf g t = opt1Try g t := by
    funext s ij
    unfold opt1TryFl opt1Try
    split
    · rfl
    · rw [distanceFl_exact he hc hnd h2 ((relocate_perm t _ _).trans ht)]; rfl
  rw [this]; rfl

theorem opt2TryFl_exact (he : ExactSums fl sumf g.edge nodes.length) (h2 : 2 ≤ nodes.length) : opt2TryFl fl g = opt2Try g := by
  funext s ij
  have ht : ∀ (o : Option Rat) v, truthy o = some v → o = some v := by
    intro o v h
    unfold truthy at h
    split at h
    · split at h <;> first | cases h; rfl | cases h
    · cases h
  have hs : ∀ a b c d x y, truthy (g.edge a b) = some x → truthy (g.edge c d) = some y → fl (x + y) = x + y := by
    intro a b c d x y h1 h3
    have := (he.sum [x] (by simp; omega) (by
      intro z hz
      rw [List.mem_singleton] at hz
      subst hz
      exact ⟨a, b, ht _ _ h1⟩)).2 c d y (ht _ _ h3)
    simpa [Rat.add_zero] using this
  unfold opt2TryFl opt2Try
  cases before s.1 ij.1 with
  | none => rfl
  | some a =>
    cases s.1[ij.1]? with
    | none => rfl
    | some b =>
      cases s.1[ij.2 - 1]? with
      | none => rfl
      | some c =>
        cases s.1[ij.2 % s.1.length]? with
        | none => rfl
        | some d =>
          dsimp only
          cases h1 : truthy (g.edge a b) with
          | none => rfl
          | some v1 =>
            cases h3 : truthy (g.edge c d) with
            | none => rfl
            | some v2 =>
              cases h4 : truthy (g.edge a c) with
              | none => rfl
              | some v3 =>
                cases h5 : truthy (g.edge b d) with
                | none => rfl
                | some v4 => dsimp only; rw [hs _ _ _ _ _ _ h1 h3, hs _ _ _ _ _ _ h4 h5]

theorem opt2Fl_exact (he : ExactSums fl sumf g.edge nodes.length) (hc : CompletePos g.edge nodes) (hnd : nodes.Nodup)
    (h2 : 2 ≤ nodes.length) (ht : t.Perm nodes) : opt2Fl fl sumf g t = opt2 g t := by
  unfold opt2Fl opt2
  rw [distanceFl_exact he hc hnd h2 ht, (distance_tour hc hnd h2 ht).1]
  dsimp only
  refine pyWhile_congr (fun s : Opt2St α => s.tour.Perm nodes) ?_ ?_ ht
  · intro s hs
    unfold opt2StepFl opt2Step
    rw [opt2TryFl_exact he h2]
    dsimp only
    have hp := (opt2Fold_perm (g := g) (opt2Pairs s.tour.length) (s.tour, false) (opt2Pairs_le _)).trans hs
    rw [distanceFl_exact he hc hnd h2 hp]; rfl
  · intro s s' hs h
    unfold opt2StepFl at h
    dsimp only at h
    have hp := (opt2FoldFl_perm (fl := fl) (g := g) (opt2Pairs s.tour.length) (s.tour, false) (opt2Pairs_le _)).trans hs
    rw [(distanceFl_tour hc hnd h2 hp).1] at h
    dsimp only at h
    split at h
    · cases h
    · split at h
      · cases h
      · cases h; exact hp

/-- the rounded `delta` and the exact one -/
structure DeltaRel (fl : Rat → Rat) (x y : Rat) : Prop where
  fix : fl x = x
  nonpos : x ≤ 0
  nonpos' : y ≤ 0
  neg : x < 0 ↔ y < 0

theorem DeltaRel.step {x y a b : Rat} (hr : Rounding fl) (h : DeltaRel fl x y) (ha : fl (-a + b) < 0) (hb : b < a) :
    DeltaRel fl (fl (x + fl (-a + b))) (y + (-a + b)) := by
  have h1 : fl (x + fl (-a + b)) ≤ x := by
    have := hr.mono (x + fl (-a + b)) x (by grind)
    rwa [h.fix] at this
  have h2 : fl (x + fl (-a + b)) ≤ fl (-a + b) := by
    have := hr.mono (x + fl (-a + b)) (fl (-a + b)) (by have := h.nonpos; grind)
    rwa [hr.idem] at this
  have := h.nonpos'
  exact ⟨hr.idem _, by grind, by grind, by constructor <;> intro <;> grind⟩

theorem opt3TryFl_exact (he : ExactSums fl sumf g.edge nodes.length) (hc : CompletePos g.edge nodes) (hnd : nodes.Nodup)
    (h2 : 2 ≤ nodes.length) (ht : t.Perm nodes) {i j k : Nat} (hij : i + 2 ≤ j) (hjk : j + 2 ≤ k) (hk : k ≤ t.length) (hi : i = 0 → k < t.length)
    {x y : Rat} (hd : DeltaRel fl x y) : (opt3TryFl fl g (t, x) (i, j, k)).1 = (opt3Try g (t, y) (i, j, k)).1 ∧
      DeltaRel fl (opt3TryFl fl g (t, x) (i, j, k)).2 (opt3Try g (t, y) (i, j, k)).2 := by
  obtain ⟨f, hkn, hfe, hkc⟩ : ∃ f, ∃ h : f < t.length, t[k % t.length]? = some t[f] ∧ ((k < t.length ∧ f = k) ∨ (k = t.length ∧ f = 0)) := by
    rcases Nat.lt_or_ge k t.length with h | h
    · exact ⟨k, h, by rw [Nat.mod_eq_of_lt h, List.getElem?_eq_getElem], .inl ⟨h, rfl⟩⟩
    · have : k = t.length := by omega
      exact ⟨0, by omega, by rw [show k % t.length = 0 by rw [this, Nat.mod_self], List.getElem?_eq_getElem], .inr ⟨this, rfl⟩⟩
  obtain ⟨z, hz, hze, hz'⟩ : ∃ z, ∃ h : z < t.length, before t i = some t[z] ∧ ((i = 0 ∧ z = t.length - 1) ∨ (0 < i ∧ z = i - 1)) :=
    ⟨_, by split <;> omega, before_eq (by omega), by split <;> omega⟩
  -- values of edges between different positions
  have hv : ∀ p q (hp : p < t.length) (hq : q < t.length), p ≠ q → ∃ a b, g.edge a b = some (distMax g t[p] t[q]) := by
    intro p q hp hq hpq
    have := (idx_edge hc hnd ht hp hq hpq).1
    refine ⟨_, _, this.trans ?_⟩
    unfold distMax
    rw [this]; rfl
  have hsum : ∀ u v z, (∃ a b, g.edge a b = some u) → (∃ a b, g.edge a b = some v) → (∃ a b, g.edge a b = some z) → fl3 fl u v z = u + v + z := by
    intro u v z hu hv ⟨a, b, hz⟩
    have e1 : fl (u + v) = u + v := by
      obtain ⟨c, d, hv⟩ := hv
      have := (he.sum [u] (by simp; omega) (by simpa using hu)).2 c d v hv
      simpa [Rat.add_zero] using this
    have e2 := (he.sum [u, v] (by simpa using h2) (by simp; exact ⟨hu, hv⟩)).2 a b z hz
    unfold fl3
    rw [e1]
    simpa [Rat.add_zero] using e2
  have hdiff : ∀ u v z u' v' z', (∃ a b, g.edge a b = some u) → (∃ a b, g.edge a b = some v) → (∃ a b, g.edge a b = some z) →
      (∃ a b, g.edge a b = some u') → (∃ a b, g.edge a b = some v') → (∃ a b, g.edge a b = some z') → u' + v' + z' < u + v + z →
      fl (-(u + v + z) + (u' + v' + z')) < 0 := by
    intro u v z u' v' z' q1 q2 q3 q4 q5 q6 hlt
    have := he.diff [u', v', z'] [u, v, z] rfl rfl (by simp; exact ⟨q4, q5, q6⟩) (by simp; exact ⟨q1, q2, q3⟩) (by simp [Rat.add_zero]; grind)
    simpa [Rat.add_zero, ← Rat.add_assoc] using this
  unfold opt3TryFl opt3Try
  dsimp only
  rw [hze, List.getElem?_eq_getElem (by omega : i < t.length), List.getElem?_eq_getElem (by omega : j - 1 < t.length),
    List.getElem?_eq_getElem (by omega : j < t.length), List.getElem?_eq_getElem (by omega : k - 1 < t.length), hfe]
  dsimp only
  have AB := hv z i hz (by omega) (by omega); have CD := hv (j - 1) j (by omega) (by omega) (by omega)
  have EF := hv (k - 1) f (by omega) hkn (by omega); have AC := hv z (j - 1) hz (by omega) (by omega)
  have BD := hv i j (by omega) (by omega) (by omega); have CE := hv (j - 1) (k - 1) (by omega) (by omega) (by omega)
  have DF := hv j f (by omega) hkn (by omega); have AD := hv z j hz (by omega) (by omega)
  have EB := hv (k - 1) i (by omega) (by omega) (by omega); have CF := hv (j - 1) f (by omega) hkn (by omega)
  have FB := hv f i hkn (by omega) (by omega); have EA := hv (k - 1) z (by omega) hz (by omega)
  rw [hsum _ _ _ AB CD EF, hsum _ _ _ AC BD EF, hsum _ _ _ AB CE DF, hsum _ _ _ AD EB CF, hsum _ _ _ FB CD EA]
  have D1 := hdiff _ _ _ _ _ _ AB CD EF AC BD EF; have D2 := hdiff _ _ _ _ _ _ AB CD EF AB CE DF
  have D3 := hdiff _ _ _ _ _ _ AB CD EF AD EB CF; have D4 := hdiff _ _ _ _ _ _ AB CD EF FB CD EA
  generalize distMax g t[z] t[i] + distMax g t[j - 1] t[j] + distMax g t[k - 1] t[f] = d0 at *
  generalize distMax g t[z] t[j - 1] + distMax g t[i] t[j] + distMax g t[k - 1] t[f] = d1 at *
  generalize distMax g t[z] t[i] + distMax g t[j - 1] t[k - 1] + distMax g t[j] t[f] = d2 at *
  generalize distMax g t[z] t[j] + distMax g t[k - 1] t[i] + distMax g t[j - 1] t[f] = d3 at *
  generalize distMax g t[f] t[i] + distMax g t[j - 1] t[j] + distMax g t[k - 1] t[z] = d4 at *
  rcases best_cases d0 d1 d2 d3 d4 with ⟨hm, h⟩ | ⟨hm, h⟩ | ⟨hm, h⟩ | ⟨hm, h⟩ | ⟨hm, h⟩ <;> rw [hm]
  · exact ⟨rfl, hd⟩
  · simp only [Nat.reduceEqDiff, if_true, if_false]; exact ⟨trivial, hd.step he.round (D1 h) h⟩
  · simp only [Nat.reduceEqDiff, if_true, if_false]; exact ⟨trivial, hd.step he.round (D2 h) h⟩
  · simp only [Nat.reduceEqDiff, if_true, if_false]; exact ⟨trivial, hd.step he.round (D3 h) h⟩
  · simp only [Nat.reduceEqDiff, if_false]; exact ⟨trivial, hd.step he.round (D4 h) h⟩

theorem opt3FoldFl_exact (he : ExactSums fl sumf g.edge nodes.length) (hc : CompletePos g.edge nodes) (hnd : nodes.Nodup)
    (h2 : 2 ≤ nodes.length) (l : List (Nat × Nat × Nat)) : ∀ (t : List α) (x y : Rat), t.Perm nodes → DeltaRel fl x y →
    (∀ ijk ∈ l, ijk ∈ allSegments nodes.length) → (l.foldl (opt3TryFl fl g) (t, x)).1 = (l.foldl (opt3Try g) (t, y)).1 ∧
      DeltaRel fl (l.foldl (opt3TryFl fl g) (t, x)).2 (l.foldl (opt3Try g) (t, y)).2 := by
  induction l with
  | nil => intro t x y _ hd _; exact ⟨rfl, hd⟩
  | cons ijk l ih =>
    intro t x y hp hd h
    obtain ⟨i, j, k⟩ := ijk
    obtain ⟨h1, h3, h4, h5⟩ := mem_allSegments (h (i, j, k) (by simp))
    obtain ⟨e1, e2⟩ := opt3TryFl_exact he hc hnd h2 hp h1 h3 (by rw [hp.length_eq]; exact h4) (by rw [hp.length_eq]; exact h5) hd
    have hp2 : (opt3Try g (t, y) (i, j, k)).1.Perm nodes := (opt3Try_perm (by dsimp only; omega) (by dsimp only; omega)).trans hp
    rw [List.foldl_cons, List.foldl_cons]
    generalize opt3TryFl fl g (t, x) (i, j, k) = s at e1 e2
    generalize opt3Try g (t, y) (i, j, k) = s' at e1 e2 hp2
    obtain ⟨s1, s2⟩ := s
    obtain ⟨s3, s4⟩ := s'
    dsimp only at e1 e2 hp2
    subst e1
    exact ih s1 s2 s4 hp2 e2 (fun x hx => h x (List.mem_cons_of_mem _ hx))

theorem opt3Fl_exact (he : ExactSums fl sumf g.edge nodes.length) (hc : CompletePos g.edge nodes) (hnd : nodes.Nodup)
    (h2 : 2 ≤ nodes.length) (ht : t.Perm nodes) : opt3Fl fl sumf g t = opt3 g t := by
  unfold opt3Fl opt3
  rw [distanceFl_exact he hc hnd h2 ht, (distance_tour hc hnd h2 ht).1]
  dsimp only
  refine pyWhile_congr (fun s : Opt3St α => s.tour.Perm nodes) ?_ ?_ ht
  · intro s hs
    unfold opt3StepFl opt3Step
    dsimp only
    have hp := (opt3Fold_perm (g := g) (allSegments s.tour.length) (s.tour, 0) (allSegments_le _)).trans hs
    obtain ⟨e1, e2⟩ := opt3FoldFl_exact he hc hnd h2 (allSegments s.tour.length) s.tour 0 0 hs
      ⟨he.round.zero, Rat.le_refl, Rat.le_refl, by simp⟩ (by rw [hs.length_eq]; exact fun _ h => h)
    rw [e1, distanceFl_exact he hc hnd h2 hp, (distance_tour hc hnd h2 hp).1]
    dsimp only
    have : (List.foldl (opt3TryFl fl g) (s.tour, 0) (allSegments s.tour.length)).2 ≥ 0 ↔
        (List.foldl (opt3Try g) (s.tour, 0) (allSegments s.tour.length)).2 ≥ 0 := by
      have := e2.neg
      have h3 := e2.nonpos; have h4 := e2.nonpos'
      constructor <;> intro <;> grind
    simp only [this]
  · intro s s' hs h
    unfold opt3StepFl at h
    dsimp only at h
    have hp := (opt3FoldFl_perm (fl := fl) (g := g) (allSegments s.tour.length) (s.tour, 0) (allSegments_le _)).trans hs
    rw [(distanceFl_tour hc hnd h2 hp).1] at h
    dsimp only at h
    split at h
    · cases h
    · cases h; exact hp

end

theorem tspGreedyFl_exact {fl : Rat → Rat} {sumf : List Rat → Rat} {nlt : α → α → Bool} {g : Graph α Rat O} (h : g.Inv)
    (he : ExactSums fl sumf g.edge g.nodeList.length) (hc : CompletePos g.edge g.nodeList) (h2 : 2 ≤ g.nodeList.length) :
    tspGreedyFl fl sumf nlt g = tspGreedy nlt g := by
  have hnd : g.nodeList.Nodup := h.nodesWF
  obtain ⟨t1, h1, hp1⟩ := greedyTour_complete (nlt := nlt) h hc h2
  obtain ⟨t2, h3, hp2, hle⟩ := opt2_spec hc hnd h2 hp1
  unfold tspGreedyFl tspGreedy
  rw [h1]; dsimp only
  rw [distanceFl_exact he hc hnd h2 hp1, opt2Fl_exact he hc hnd h2 hp1, h3]; dsimp only
  rw [distanceFl_exact he hc hnd h2 hp2]; rfl

theorem tsp2023LongFl_exact {fl : Rat → Rat} {sumf : List Rat → Rat} {nlt : α → α → Bool} {g : Graph α Rat O} (h : g.Inv)
    (he : ExactSums fl sumf g.edge g.nodeList.length) (hc : CompletePos g.edge g.nodeList) (h2 : 2 ≤ g.nodeList.length) :
    tsp2023LongFl fl sumf nlt g = tsp2023Long nlt g := by
  have hnd : g.nodeList.Nodup := h.nodesWF
  obtain ⟨t, ht, hp⟩ := greedyTour_complete (nlt := nlt) h hc h2
  obtain ⟨t1, ht1, hp1⟩ := opt1_spec hc hnd h2 hp
  obtain ⟨t2, ht2, hp2, _⟩ := opt2_spec hc hnd h2 hp1
  unfold tsp2023LongFl tsp2023Long
  rw [ht]; dsimp only
  rw [distanceFl_exact he hc hnd h2 hp, opt1Fl_exact he hc hnd h2 hp, ht1]; dsimp only
  rw [distanceFl_exact he hc hnd h2 hp1, opt2Fl_exact he hc hnd h2 hp1, ht2]; dsimp only
  rw [distanceFl_exact he hc hnd h2 hp2, opt3Fl_exact he hc hnd h2 hp2]
  cases h3 : opt3 g t2 with
  | none => rfl
  | some r3 =>
    obtain ⟨t3, rfl, hp3, _⟩ := opt3_partial hc hnd h2 hp2 h3
    dsimp only
    rw [distanceFl_exact he hc hnd h2 hp3]; rfl

/-! ### `brute_force` -/

theorem dfpLoopFl_direct {fl : Rat → Rat} {g : Graph α Rat O} (p : List α) : ∀ (a : α) (cache : Dict (α × α) Rat) (acc : Rat),
    Consec (fun a b => g.edge a b = some (totW g.edge a b) ∧ 0 < totW g.edge a b) (a :: p) →
    g.dfpLoopFl fl (a :: p) cache acc = some (.ok (.fin ((stepVals g.edge a p).foldl (fun s x => fl (s + x)) acc))) := by
  induction p with
  | nil => intro a cache acc _; rfl
  | cons b l ih =>
    intro a cache acc h
    unfold Graph.dfpLoopFl
    rw [h.1.1, truthy_of_pos h.1.2]
    dsimp only
    rw [ih b cache _ h.2]
    rfl

theorem distanceFromPathFl_tour {fl : Rat → Rat} {g : Graph α Rat O} {nodes t : List α} {x : α} (hc : CompletePos g.edge nodes) (hnd : nodes.Nodup)
    (h2 : 2 ≤ nodes.length) (ht : (x :: t).Perm nodes) :
    g.distanceFromPathFl fl (x :: t ++ [x]) = some (.ok (.fin (flAdd fl (stepVals g.edge x (t ++ [x]))))) := by
  have hl := ht.length_eq
  cases t with
  | nil => simp at hl; omega
  | cons y l =>
    unfold Graph.distanceFromPathFl
    rw [List.cons_append, dfpLoopFl_direct (y :: l ++ [x]) _ _ _ (consec_closed (U := fun z => z ∈ nodes) (ht.nodup_iff.2 hnd) (fun z hz => ht.mem_iff.1 hz)
      (fun a b ha hb hab => hc.totW ha hb hab))]
    rfl

theorem bruteLoopFl_spec {fl : Rat → Rat} {g : Graph α Rat O} {nodes : List α} {n0 : α} (hc : CompletePos g.edge nodes) (hnd : nodes.Nodup)
    (h2 : 2 ≤ nodes.length) (L2 : List (List α)) (hL2 : ∀ r ∈ L2, ∃ y l, r = y :: l ∧ y ≠ n0) (L1 : List (List α)) : ∀ d2 p2,
    (∀ r ∈ L1, (n0 :: r).Perm nodes) →
    ∃ d p, bruteLoopFl fl g (some n0) (L1.map (fun r => n0 :: r) ++ L2) d2 p2 = bruteEnd d p ∧ d ≤ d2 ∧
      (∀ r ∈ L1, d ≤ flAdd fl (stepVals g.edge n0 (r ++ [n0]))) ∧
      ((d = d2 ∧ p = p2) ∨ (d < d2 ∧ ∃ r ∈ L1, p = some (n0 :: r) ∧ d = flAdd fl (stepVals g.edge n0 (r ++ [n0])))) := by
  induction L1 with
  | nil =>
    intro d2 p2 _
    refine ⟨d2, p2, ?_, Rat.le_refl, by simp, .inl ⟨rfl, rfl⟩⟩
    cases L2 with
    | nil => rfl
    | cons r L2 =>
      obtain ⟨y, l, rfl, hy⟩ := hL2 r (by simp)
      simp only [List.map_nil, List.nil_append, bruteLoopFl]
      rw [if_pos (by simpa using hy)]
  | cons r L1 ih =>
    intro d2 p2 h
    have hp := h r (by simp)
    have h' := fun r hr => h r (List.mem_cons_of_mem _ hr)
    simp only [List.map_cons, List.cons_append, bruteLoopFl]
    rw [if_neg (by simp), show n0 :: (r ++ [n0]) = n0 :: r ++ [n0] from rfl, distanceFromPathFl_tour hc hnd h2 hp]
    dsimp only
    split
    · rename_i hlt
      obtain ⟨d, p, h3, h4, h5, h6⟩ := ih _ (some (n0 :: r)) h'
      refine ⟨d, p, h3, by grind, ?_, ?_⟩
      · intro r hr
        rcases List.mem_cons.1 hr with rfl | hr
        · exact h4
        · exact h5 r hr
      · rcases h6 with ⟨h6, h7⟩ | ⟨h6, r, h7, h8, h9⟩
        · exact .inr ⟨by rw [h6]; exact hlt, _, by simp, h7, h6⟩
        · exact .inr ⟨by grind, r, List.mem_cons_of_mem _ h7, h8, h9⟩
    · rename_i hlt
      obtain ⟨d, p, h3, h4, h5, h6⟩ := ih d2 p2 h'
      refine ⟨d, p, h3, h4, ?_, ?_⟩
      · intro r hr
        rcases List.mem_cons.1 hr with rfl | hr
        · grind
        · exact h5 r hr
      · rcases h6 with h6 | ⟨h6, r, h7, h8⟩
        · exact .inl h6
        · exact .inr ⟨h6, r, List.mem_cons_of_mem _ h7, h8⟩

theorem bruteForceFl_spec {fl : Rat → Rat} {g : Graph α Rat O} (h : g.Inv) (hc : CompletePos g.edge g.nodeList) (h2 : 2 ≤ g.nodeList.length) :
    ∃ x, g.nodeList.head? = some x ∧
    ((∃ l, bruteForceFl fl g = some (.ok (flAdd fl (stepVals g.edge x (l ++ [x])), x :: l)) ∧ (x :: l).Perm g.nodeList ∧
      flAdd fl (stepVals g.edge x (l ++ [x])) < maxsize ∧
      ∀ l', (x :: l').Perm g.nodeList → flAdd fl (stepVals g.edge x (l ++ [x])) ≤ flAdd fl (stepVals g.edge x (l' ++ [x]))) ∨
    (bruteForceFl fl g = some (.error .unboundLocal) ∧ ∀ l', (x :: l').Perm g.nodeList → maxsize ≤ flAdd fl (stepVals g.edge x (l' ++ [x])))) := by
  have hnd : g.nodeList.Nodup := h.nodesWF
  unfold bruteForceFl
  generalize g.nodeList = nodes at hc h2 hnd
  cases nodes with
  | nil => simp at h2
  | cons x l =>
    obtain ⟨L2, hL, hL2⟩ := perms_cons x l
    rw [hL, List.head?_cons]
    refine ⟨x, rfl, ?_⟩
    obtain ⟨d, p, h3, h4, h5, h6⟩ := bruteLoopFl_spec (fl := fl) (n0 := x) hc hnd h2 L2 (by
      intro r hr
      obtain ⟨y, m, rfl, hy⟩ := hL2 r hr
      exact ⟨y, m, rfl, fun h0 => (List.nodup_cons.1 hnd).1 (h0 ▸ hy)⟩) (perms l) maxsize none
      (fun r hr => (mem_perms.1 hr).cons x)
    rw [h3]
    have hall : ∀ l', (x :: l').Perm (x :: l) → d ≤ flAdd fl (stepVals g.edge x (l' ++ [x])) :=
      fun l' hl' => h5 _ (mem_perms.2 hl'.cons_inv)
    rcases h6 with ⟨rfl, rfl⟩ | ⟨h6, r, h7, rfl, rfl⟩
    · exact .inr ⟨rfl, hall⟩
    · exact .inl ⟨r, rfl, (mem_perms.1 h7).cons x, h6, hall⟩

end GT

import Verif.Other.Visuals
import Verif.Search.Bridge
/-
Proofs about the drawing commands (Other/Visuals).
-/
namespace GT
open Graph
variable {α V O : Type} [DecidableEq α]

/-! ### plot_2d -/

theorem check2_ok {p : PtArg} : check2 p = .ok () ↔ ∃ a b, p = .tuple [some a, some b] := by
  cases p with
  | other => simp [check2]
  | tuple l =>
    match l with
    | [] => simp [check2]
    | [_] => simp [check2]
    | [x, y] => cases x <;> cases y <;> simp [check2]
    | _ :: _ :: _ :: l => simp [check2]

theorem check2_cases (p : PtArg) : check2 p = .ok () ∨ check2 p = .error .valueError := by
  cases p with
  | other => simp [check2]
  | tuple l =>
    match l with
    | [] => simp [check2]
    | [_] => simp [check2]
    | [x, y] => cases x <;> cases y <;> simp [check2]
    | _ :: _ :: _ :: l => simp [check2]

theorem checkAll2_spec (shape : α → PtArg) (l : List α) :
    (checkAll2 shape l = .ok () ∧ ∀ x ∈ l, ∃ a b, shape x = .tuple [some a, some b]) ∨
    (checkAll2 shape l = .error .valueError ∧ ∃ x ∈ l, ¬ ∃ a b, shape x = .tuple [some a, some b]) := by
  induction l with
  | nil => left; simp [checkAll2]
  | cons n l ih =>
    rcases check2_cases (shape n) with h | h
    · rcases ih with ⟨h1, h2⟩ | ⟨h1, x, hx, h2⟩
      · left
        refine ⟨by simp [checkAll2, h, h1], fun x hx => ?_⟩
        rcases List.mem_cons.1 hx with rfl | hx
        · exact check2_ok.1 h
        · exact h2 x hx
      · exact .inr ⟨by simp [checkAll2, h, h1], x, List.mem_cons_of_mem _ hx, h2⟩
    · right
      refine ⟨by simp [checkAll2, h], n, List.mem_cons_self, fun h2 => ?_⟩
      rw [check2_ok.2 h2] at h
      cases h

theorem items2_eq {shape : α → PtArg} {xy : α → Rat × Rat} {l : List α} (h : ∀ x ∈ l, shape x = .tuple [some (xy x).1, some (xy x).2]) :
    items2 shape 0 l = .ok (l.map (fun x => (xy x).1)) ∧ items2 shape 1 l = .ok (l.map (fun x => (xy x).2)) := by
  induction l with
  | nil => simp [items2]
  | cons n l ih =>
    obtain ⟨h1, h2⟩ := ih (fun x hx => h x (List.mem_cons_of_mem _ hx))
    simp [items2, h n List.mem_cons_self, ptItem, h1, h2]

theorem zip_map {β γ δ : Type} (f : β → γ) (k : β → δ) (l : List β) : (l.map f).zip (l.map k) = l.map (fun x => (f x, k x)) := by
  induction l with
  | nil => rfl
  | cons a l ih => simp [ih]

theorem polylines_append (a b : List Cmd2) : polylines (a ++ b) = polylines a ++ polylines b := by
  induction a with
  | nil => rfl
  | cons c a ih => cases c <;> simp [polylines, ih]

theorem edges2_eq {shape : α → PtArg} {xy : α → Rat × Rat} {l : List (α × α × V)}
    (h : ∀ e ∈ l, shape e.1 = .tuple [some (xy e.1).1, some (xy e.1).2] ∧ shape e.2.1 = .tuple [some (xy e.2.1).1, some (xy e.2.1).2]) :
    ∃ c, edges2 shape l = .ok c ∧ polylines c = l.map (fun e => ("bo-", [xy e.1, xy e.2.1])) := by
  induction l with
  | nil => exact ⟨[], rfl, rfl⟩
  | cons e l ih =>
    obtain ⟨c, h1, h2⟩ := ih (fun x hx => h x (List.mem_cons_of_mem _ hx))
    obtain ⟨a, b, v⟩ := e
    obtain ⟨ha, hb⟩ := h _ List.mem_cons_self
    have h3 := items2_eq (shape := shape) (xy := xy) (l := [a, b]) (by
      intro x hx
      simp at hx
      rcases hx with rfl | rfl
      · exact ha
      · exact hb)
    refine ⟨_, by rw [edges2, h3.1]; simp only []; rw [h3.2]; simp only []; rw [h1], ?_⟩
    simp [polylines, h2]

theorem plot2d_ok {shape : α → PtArg} {xy : α → Rat × Rat} {g : Graph α V O} (hi : g.Inv)
    (h : ∀ x, g.has x = true → shape x = .tuple [some (xy x).1, some (xy x).2]) (nodes edges : Bool) :
    ∃ c, g.plot2d shape nodes edges = .ok c ∧
      polylines c = (if nodes then [("", g.nodeList.map xy)] else []) ++
        (if edges then g.edgeList.map (fun e => ("bo-", [xy e.1, xy e.2.1])) else []) := by
  have hc : checkAll2 shape g.nodeList = .ok () := by
    rcases checkAll2_spec shape g.nodeList with h1 | ⟨_, x, hx, h1⟩
    · exact h1.1
    · exact absurd ⟨_, _, h x (has_iff.2 hx)⟩ h1
  have hn := items2_eq (l := g.nodeList) (fun x hx => h x (has_iff.2 hx))
  obtain ⟨ce, he1, he2⟩ := edges2_eq (shape := shape) (xy := xy) (l := g.edgeList) (fun e he => by
    obtain ⟨a, b, v⟩ := e
    have := hi.dom _ _ _ (hi.mem_edgeList.1 he)
    exact ⟨h _ (has_iff.2 this.1), h _ (has_iff.2 this.2)⟩)
  have e0 : (fun x => ((xy x).1, (xy x).2)) = xy := funext (fun x => rfl)
  cases nodes <;> cases edges <;>
    simp [Graph.plot2d, hc, nodes2, hn.1, hn.2, he1, he2, polylines, polylines_append, zip_map, e0]

theorem plot2d_error {shape : α → PtArg} {g : Graph α V O} {x : α} (hx : g.has x = true)
    (h : ¬ ∃ a b, shape x = .tuple [some a, some b]) (nodes edges : Bool) : g.plot2d shape nodes edges = .error .valueError := by
  rcases checkAll2_spec shape g.nodeList with h1 | h1
  · exact absurd (h1.2 x (has_iff.1 hx)) h
  · simp [Graph.plot2d, h1.1]

/-! ### plot_3d -/

/-- the rotations that pass the checks -/
theorem rot_cases {r : List Char} (h3 : r.length = 3) (h : 'x' ∈ r ∧ 'y' ∈ r ∧ 'z' ∈ r) :
    r = ['x', 'y', 'z'] ∨ r = ['x', 'z', 'y'] ∨ r = ['y', 'x', 'z'] ∨ r = ['y', 'z', 'x'] ∨ r = ['z', 'x', 'y'] ∨ r = ['z', 'y', 'x'] := by
  match r, h3 with
  | [a, b, c], _ =>
    simp only [List.mem_cons, List.not_mem_nil, or_false] at h
    obtain ⟨hx, hy, hz⟩ := h
    rcases hx with rfl | rfl | rfl <;> rcases hy with hy | hy | hy <;> rcases hz with hz | hz | hz <;> subst_vars <;> simp_all

theorem perm_iff {r : List Char} : (r.length = 3 ∧ 'x' ∈ r ∧ 'y' ∈ r ∧ 'z' ∈ r) ↔ r.Perm ['x', 'y', 'z'] := by
  constructor
  · intro ⟨h1, h2⟩
    rcases rot_cases h1 h2 with rfl | rfl | rfl | rfl | rfl | rfl <;> decide
  · intro h
    exact ⟨h.length_eq, h.mem_iff.2 (by simp), h.mem_iff.2 (by simp), h.mem_iff.2 (by simp)⟩

theorem lines3_append (a b : List Cmd3) : lines3 (a ++ b) = lines3 a ++ lines3 b := by
  induction a with
  | nil => rfl
  | cons c a ih => cases c <;> simp [lines3, ih]

theorem points3_append (a b : List Cmd3) : points3 (a ++ b) = points3 a ++ points3 b := by
  induction a with
  | nil => rfl
  | cons c a ih => cases c <;> simp [points3, ih]

/-- a distribution of three values to the axes, as the dictionary `xyz` has it -/
theorem xyzItems_eq {x y z : Char} (h : [x, y, z].Perm ['x', 'y', 'z']) {β : Type} (f : β → Pt) (l : List β) :
    ∃ xs ys zs, xyzItems ⟨[(x, l.map (fun b => (f b).1)), (y, l.map (fun b => (f b).2.1)), (z, l.map (fun b => (f b).2.2))]⟩ = .ok (xs, ys, zs) ∧
      xs.zip (ys.zip zs) = l.map (fun b => shownAt [x, y, z] (f b)) := by
  have h := perm_iff.2 h
  rcases rot_cases h.1 h.2 with h | h | h | h | h | h <;> simp only [List.cons.injEq, and_true] at h <;> obtain ⟨rfl, rfl, rfl⟩ := h <;>
    refine ⟨_, _, _, by simp [xyzItems, Dict.getE, Dict.get?, aget]; exact ⟨rfl, rfl, rfl⟩, ?_⟩ <;>
    simp [zip_map, shownAt, coord, List.idxOf, List.findIdx, List.findIdx.go]

theorem distinct {x y z : Char} (h : [x, y, z].Perm ['x', 'y', 'z']) : x ≠ y ∧ x ≠ z ∧ y ≠ z := by
  have := h.nodup_iff.2 (by decide)
  simp at this
  exact ⟨this.1.1, this.1.2, this.2⟩

theorem edges3_eq {x y z : Char} (h : [x, y, z].Perm ['x', 'y', 'z']) (l : List (Pt × Pt × V)) :
    ∃ c, edges3 x y z l = .ok c ∧ lines3 c = l.map (fun e => [shownAt [x, y, z] e.1, shownAt [x, y, z] e.2.1]) ∧ points3 c = [] ∧
      ∀ d ∈ c, ∃ xs ys zs, d = .plot3D xs ys zs := by
  induction l with
  | nil => exact ⟨[], rfl, rfl, rfl, by simp⟩
  | cons e l ih =>
    obtain ⟨c, h1, h2, h3, h4⟩ := ih
    obtain ⟨a, b, v⟩ := e
    obtain ⟨hd1, hd2, hd3⟩ := distinct h
    obtain ⟨xs, ys, zs, h5, h6⟩ := xyzItems_eq h (f := id) [a, b]
    have he : (((Dict.empty.set x [a.1, b.1]).set y [a.2.1, b.2.1]).set z [a.2.2, b.2.2]) =
        (⟨[(x, [a, b].map (fun p => (id p).1)), (y, [a, b].map (fun p => (id p).2.1)), (z, [a, b].map (fun p => (id p).2.2))]⟩ : Dict Char (List Rat)) := by
      simp [Dict.set, Dict.empty, aset, hd1, hd2, hd3]
    refine ⟨_, by rw [edges3, he, h5]; simp only []; rw [h1], ?_, ?_, ?_⟩
    · simp only [lines3, h6, h2]; simp
    · simp [points3, h3]
    · intro d hd
      rcases List.mem_cons.1 hd with rfl | hd
      · exact ⟨_, _, _, rfl⟩
      · exact h4 d hd

theorem scatterLoop_eq {x y z : Char} (h : x ≠ y ∧ x ≠ z ∧ y ≠ z) (l : List Pt) (idx : Nat) (a b c : List Rat) (ix : List Nat) :
    ∃ ix', scatterLoop x y z l idx ⟨[(x, a), (y, b), (z, c)]⟩ ix =
      .ok (⟨[(x, a ++ l.map (fun p => p.1)), (y, b ++ l.map (fun p => p.2.1)), (z, c ++ l.map (fun p => p.2.2))]⟩, ix') := by
  induction l generalizing idx a b c ix with
  | nil => simp [scatterLoop]
  | cons n l ih =>
    obtain ⟨h1, h2, h3⟩ := h
    obtain ⟨ix', hh⟩ := ih (idx + 1) (a ++ [n.1]) (b ++ [n.2.1]) (c ++ [n.2.2]) (ix ++ [idx])
    refine ⟨ix', ?_⟩
    simp [scatterLoop, dictAppend, Dict.getE, Dict.get?, aget, Dict.set, aset, h1, h2, h3, hh, List.append_assoc]

theorem nodes3_eq {x y z : Char} (h : [x, y, z].Perm ['x', 'y', 'z']) (l : List Pt) :
    ∃ c, nodes3 x y z l = .ok c ∧ points3 c = l.map (shownAt [x, y, z]) ∧ lines3 c = [] ∧
      ∃ xs ys zs ix, c = [.scatter3D xs ys zs ix] := by
  obtain ⟨hd1, hd2, hd3⟩ := distinct h
  obtain ⟨ix', h1⟩ := scatterLoop_eq (distinct h) l 0 [] [] [] []
  obtain ⟨xs, ys, zs, h5, h6⟩ := xyzItems_eq h (f := id) l
  have he : (((Dict.empty.set x []).set y []).set z []) = (⟨[(x, []), (y, []), (z, [])]⟩ : Dict Char (List Rat)) := by
    simp [Dict.set, Dict.empty, aset, hd1, hd2, hd3]
  simp only [List.nil_append] at h1
  simp only [id] at h5 h6
  refine ⟨_, by rw [nodes3, he, h1]; simp only []; rw [h5], ?_, rfl, _, _, _, _, rfl⟩
  simp [points3, h6]

theorem pyMin_spec {a : Rat} {l : List Rat} : ∃ m, pyMin (a :: l) = .ok m ∧ m ∈ a :: l ∧ ∀ b ∈ a :: l, m ≤ b := by
  refine ⟨_, rfl, ?_⟩
  induction l generalizing a with
  | nil => simp
  | cons b l ih =>
    rw [List.foldl_cons]
    obtain ⟨h1, h2⟩ := ih (a := if b < a then b else a)
    constructor
    · rcases List.mem_cons.1 h1 with h | h
      · rw [h]; split <;> simp
      · simp [h]
    · intro c hc
      have h3 := h2 _ List.mem_cons_self
      rcases List.mem_cons.1 hc with rfl | hc
      · split at h3 <;> grind
      · rcases List.mem_cons.1 hc with rfl | hc
        · split at h3 <;> grind
        · exact h2 c (List.mem_cons_of_mem _ hc)

theorem pyMax_spec {a : Rat} {l : List Rat} : ∃ m, pyMax (a :: l) = .ok m ∧ m ∈ a :: l ∧ ∀ b ∈ a :: l, b ≤ m := by
  refine ⟨_, rfl, ?_⟩
  induction l generalizing a with
  | nil => simp
  | cons b l ih =>
    rw [List.foldl_cons]
    obtain ⟨h1, h2⟩ := ih (a := if a < b then b else a)
    constructor
    · rcases List.mem_cons.1 h1 with h | h
      · rw [h]; split <;> simp
      · simp [h]
    · intro c hc
      have h3 := h2 _ List.mem_cons_self
      rcases List.mem_cons.1 hc with rfl | hc
      · split at h3 <;> grind
      · rcases List.mem_cons.1 hc with rfl | hc
        · split at h3 <;> grind
        · exact h2 c (List.mem_cons_of_mem _ hc)

/-- the number of a coordinate -/
def numOf (c : Char) : Nat := if c = 'x' then 0 else if c = 'y' then 1 else 2

theorem ptDims_eq (i : Nat) (hi : i < 3) (l : List Pt) : ptDims i l = .ok (l.map (fun p => coord p i)) := by
  have h : i = 0 ∨ i = 1 ∨ i = 2 := by omega
  induction l with
  | nil => rfl
  | cons n l ih => rcases h with rfl | rfl | rfl <;> simp [ptDims, ptDim, ih, coord]

theorem dimRange_spec {c : Char} (hc : c ∈ ['x', 'y', 'z']) {l : List Pt} (hl : l ≠ []) :
    ∃ lo hi, dimRange c l = .ok (lo, hi, (hi + lo) / 2) ∧ (∃ p ∈ l, coord p (numOf c) = lo) ∧ (∃ p ∈ l, coord p (numOf c) = hi) ∧
      ∀ p ∈ l, lo ≤ coord p (numOf c) ∧ coord p (numOf c) ≤ hi := by
  obtain ⟨n, l, rfl⟩ := List.exists_cons_of_ne_nil hl
  obtain ⟨lo, h1, h2, h3⟩ := pyMin_spec (a := coord n (numOf c)) (l := l.map (fun p => coord p (numOf c)))
  obtain ⟨hi, h4, h5, h6⟩ := pyMax_spec (a := coord n (numOf c)) (l := l.map (fun p => coord p (numOf c)))
  have e : ∀ q, q ∈ coord n (numOf c) :: l.map (fun p => coord p (numOf c)) ↔ ∃ p ∈ n :: l, coord p (numOf c) = q := by
    intro q; simp; grind
  refine ⟨lo, hi, ?_, (e lo).1 h2, (e hi).1 h5, fun p hp => ⟨h3 _ ((e _).2 ⟨p, hp, rfl⟩), h6 _ ((e _).2 ⟨p, hp, rfl⟩)⟩⟩
  have hd : xyzDir.getE c = .ok (numOf c) ∧ numOf c < 3 := by
    simp at hc
    rcases hc with rfl | rfl | rfl <;> decide
  simp only [dimRange, hd.1, ptDims_eq _ hd.2, List.map_cons, h1, h4]

/-- what `limits3` sets: a cube as large as the largest extent, around the middle of the values of the coordinates the axes are named after -/
theorem limits3_spec {x y z : Char} (h : [x, y, z].Perm ['x', 'y', 'z']) {l : List Pt} (hl : l ≠ []) :
    ∃ (d : Rat) (b : Box), limits3 x y z l = .ok [.xlim b.1.1 b.1.2, .ylim b.2.1.1 b.2.1.2, .zlim b.2.2.1 b.2.2.2] ∧ b.Cube d ∧
      (∀ p ∈ l, b.Holds (coord p (numOf x), coord p (numOf y), coord p (numOf z))) ∧
      (∀ i, i < 3 → ∀ p ∈ l, ∀ q ∈ l, coord p i - coord q i ≤ d) ∧
      ∃ i, i < 3 ∧ ∃ p ∈ l, ∃ q ∈ l, coord p i - coord q i = d := by
  have hx := h.mem_iff (a := x) |>.1 (by simp)
  have hy := h.mem_iff (a := y) |>.1 (by simp)
  have hz := h.mem_iff (a := z) |>.1 (by simp)
  obtain ⟨xl, xh, hx1, ⟨px, hpx, ex⟩, ⟨qx, hqx, ex'⟩, hx2⟩ := dimRange_spec hx hl
  obtain ⟨yl, yh, hy1, ⟨py, hpy, ey⟩, ⟨qy, hqy, ey'⟩, hy2⟩ := dimRange_spec hy hl
  obtain ⟨zl, zh, hz1, ⟨pz, hpz, ez⟩, ⟨qz, hqz, ez'⟩, hz2⟩ := dimRange_spec hz hl
  obtain ⟨m, hm1, hm2, hm3⟩ := pyMax_spec (a := xh - xl) (l := [yh - yl, zh - zl])
  have hn : ∀ c : Char, numOf c < 3 := fun c => by unfold numOf; split; omega; split <;> omega
  have hsurj : ∀ i, i < 3 → i = numOf x ∨ i = numOf y ∨ i = numOf z := by
    intro i hi
    have h' := perm_iff.2 h
    have hi : i = 0 ∨ i = 1 ∨ i = 2 := by omega
    rcases rot_cases h'.1 h'.2 with h | h | h | h | h | h <;> simp only [List.cons.injEq, and_true] at h <;> obtain ⟨rfl, rfl, rfl⟩ := h <;>
      simp [numOf] <;> omega
  have m1 := hm3 (xh - xl) (by simp)
  have m2 := hm3 (yh - yl) (by simp)
  have m3 := hm3 (zh - zl) (by simp)
  refine ⟨m, (((xh + xl) / 2 - m / 2, (xh + xl) / 2 + m / 2), ((yh + yl) / 2 - m / 2, (yh + yl) / 2 + m / 2),
    ((zh + zl) / 2 - m / 2, (zh + zl) / 2 + m / 2)), ?_, ?_, ?_, ?_, ?_⟩
  · simp only [limits3, hx1, hy1, hz1, hm1]
  · refine ⟨?_, ?_, ?_⟩ <;> simp only [] <;> grind
  · intro p hp
    have a1 := hx2 p hp
    have a2 := hy2 p hp
    have a3 := hz2 p hp
    refine ⟨⟨?_, ?_⟩, ⟨?_, ?_⟩, ?_, ?_⟩ <;> simp only [] <;> grind
  · intro i hi p hp q hq
    have a1 := hx2 p hp
    have a2 := hy2 p hp
    have a3 := hz2 p hp
    have b1 := hx2 q hq
    have b2 := hy2 q hq
    have b3 := hz2 q hq
    rcases hsurj i hi with rfl | rfl | rfl <;> grind
  · simp at hm2
    rcases hm2 with rfl | rfl | rfl
    · exact ⟨_, hn x, qx, hqx, px, hpx, by rw [ex, ex']⟩
    · exact ⟨_, hn y, qy, hqy, py, hpy, by rw [ey, ey']⟩
    · exact ⟨_, hn z, qz, hqz, pz, hpz, by rw [ez, ez']⟩

/-- the commands that set limits -/
def isLim : Cmd3 → Bool
  | .xlim _ _ | .ylim _ _ | .zlim _ _ => true
  | _ => false

/-- the commands that set labels -/
def isLabel : Cmd3 → Bool
  | .xlabel _ | .ylabel _ | .zlabel _ => true
  | _ => false

theorem findSome?_skip {β : Type} {f : Cmd3 → Option β} {a b : List Cmd3} (h : ∀ c ∈ a, f c = none) : (a ++ b).findSome? f = b.findSome? f := by
  induction a with
  | nil => rfl
  | cons c a ih => simp [h c List.mem_cons_self, ih (fun x hx => h x (List.mem_cons_of_mem _ hx))]

theorem boxOf_skip {a b : List Cmd3} (h : ∀ c ∈ a, isLim c = false) : boxOf (a ++ b) = boxOf b := by
  unfold boxOf
  rw [findSome?_skip, findSome?_skip, findSome?_skip]
  all_goals
    intro c hc
    have := h c hc
    cases c <;> simp_all [isLim]

theorem labelsOf_skip {a b : List Cmd3} (h : ∀ c ∈ a, isLabel c = false) : labelsOf (a ++ b) = labelsOf b := by
  unfold labelsOf
  rw [List.filterMap_append, List.filterMap_eq_nil_iff.2, List.nil_append]
  intro c hc
  have := h c hc
  cases c <;> simp_all [isLabel]

/-- everything `plot_3d` does with an admissible rotation -/
theorem plot3d_main {g : Graph Pt V O} {r : List Char} (hr : r.Perm ['x', 'y', 'z']) (nodes edges aspect : Bool)
    (hne : ((nodes || edges) && aspect) = true → g.nodeList ≠ []) :
    ∃ (c : List Cmd3), g.plot3d nodes edges r aspect = .ok c ∧
      lines3 c = (if edges then g.edgeList.map (fun e => [shownAt r e.1, shownAt r e.2.1]) else []) ∧
      points3 c = (if nodes then g.nodeList.map (shownAt r) else []) ∧ labelsOf c = r ∧
      (((nodes || edges) && aspect) = false → boxOf c = none) ∧
      (((nodes || edges) && aspect) = true → ∃ b d, boxOf c = some b ∧ b.Cube d ∧
        (∀ p ∈ g.nodeList, b.Holds (coord p (numOf (r.getD 0 'x')), coord p (numOf (r.getD 1 'x')), coord p (numOf (r.getD 2 'x')))) ∧
        (∀ i, i < 3 → ∀ p ∈ g.nodeList, ∀ q ∈ g.nodeList, coord p i - coord q i ≤ d) ∧
        ∃ i, i < 3 ∧ ∃ p ∈ g.nodeList, ∃ q ∈ g.nodeList, coord p i - coord q i = d) := by
  have h' := perm_iff.2 hr
  obtain ⟨x, y, z, rfl⟩ : ∃ x y z, r = [x, y, z] := by
    match r, h'.1 with
    | [a, b, c], _ => exact ⟨a, b, c, rfl⟩
  obtain ⟨ce, e1, e2, e3, e4⟩ := edges3_eq hr g.edgeList
  obtain ⟨cn, n1, n2, n3, xs, ys, zs, ix, n4⟩ := nodes3_eq hr g.nodeList
  have he : ∃ c, (if edges then edges3 x y z g.edgeList else .ok []) = .ok c ∧
      lines3 c = (if edges then g.edgeList.map (fun e => [shownAt [x, y, z] e.1, shownAt [x, y, z] e.2.1]) else []) ∧ points3 c = [] ∧
      ∀ d ∈ c, isLim d = false ∧ isLabel d = false := by
    cases edges with
    | false => exact ⟨[], rfl, rfl, rfl, by simp⟩
    | true =>
      refine ⟨ce, e1, e2, e3, fun d hd => ?_⟩
      obtain ⟨_, _, _, rfl⟩ := e4 d hd
      exact ⟨rfl, rfl⟩
  have hn : ∃ c, (if nodes then nodes3 x y z g.nodeList else .ok []) = .ok c ∧
      points3 c = (if nodes then g.nodeList.map (shownAt [x, y, z]) else []) ∧ lines3 c = [] ∧
      ∀ d ∈ c, isLim d = false ∧ isLabel d = false := by
    cases nodes with
    | false => exact ⟨[], rfl, rfl, rfl, by simp⟩
    | true =>
      refine ⟨cn, n1, n2, n3, fun d hd => ?_⟩
      rw [n4] at hd
      rw [List.mem_singleton.1 hd]
      exact ⟨rfl, rfl⟩
  obtain ⟨ce, e1, e2, e3, e4⟩ := he
  obtain ⟨cn, n1, n2, n3, n4⟩ := hn
  have hskip : ∀ d ∈ ce ++ cn, isLim d = false ∧ isLabel d = false := by
    intro d hd
    rcases List.mem_append.1 hd with h | h
    · exact e4 d h
    · exact n4 d h
  cases hb : (nodes || edges) && aspect with
  | false =>
    refine ⟨ce ++ cn ++ [] ++ [.xlabel x, .ylabel y, .zlabel z], ?_, ?_, ?_, ?_, fun _ => ?_, (fun h => nomatch h)⟩
    · unfold Graph.plot3d
      rw [if_neg (by simp), if_neg (not_not_intro h'.2)]
      simp only [e1, n1, hb]
      rfl
    · simp [lines3_append, e2, n3, lines3]
    · simp [points3_append, e3, n2, points3]
    · rw [List.append_nil, labelsOf_skip (fun d hd => (hskip d hd).2)]; rfl
    · rw [List.append_nil, boxOf_skip (fun d hd => (hskip d hd).1)]; rfl
  | true =>
    obtain ⟨d, b, l1, l2, l3, l4, l5⟩ := limits3_spec hr (hne hb)
    refine ⟨ce ++ cn ++ [.xlim b.1.1 b.1.2, .ylim b.2.1.1 b.2.1.2, .zlim b.2.2.1 b.2.2.2] ++ [.xlabel x, .ylabel y, .zlabel z],
      ?_, ?_, ?_, ?_, (fun h => nomatch h), fun _ => ⟨b, d, ?_, l2, l3, l4, l5⟩⟩
    · unfold Graph.plot3d
      rw [if_neg (by simp), if_neg (not_not_intro h'.2)]
      simp only [e1, n1, hb, if_true, l1]
    · simp [lines3_append, e2, n3, lines3]
    · simp [points3_append, e3, n2, points3]
    · rw [List.append_assoc, labelsOf_skip (fun d hd => (hskip d hd).2)]; rfl
    · rw [List.append_assoc, boxOf_skip (fun d hd => (hskip d hd).1)]; rfl

theorem plot3d_rotation {g : Graph Pt V O} {r : List Char} (hr : ¬ r.Perm ['x', 'y', 'z']) (nodes edges aspect : Bool) :
    g.plot3d nodes edges r aspect = .error .valueError := by
  unfold Graph.plot3d
  by_cases h3 : r.length = 3
  · rw [if_neg (by simpa using h3), if_pos (fun h => hr (perm_iff.1 ⟨h3, h⟩))]
  · rw [if_pos h3]

theorem plot3d_empty {g : Graph Pt V O} {r : List Char} (hr : r.Perm ['x', 'y', 'z']) {nodes edges aspect : Bool}
    (h : ((nodes || edges) && aspect) = true) (hg : g.nodeList = []) : g.plot3d nodes edges r aspect = .error .valueError := by
  have h' := perm_iff.2 hr
  obtain ⟨x, y, z, rfl⟩ : ∃ x y z, r = [x, y, z] := by
    match r, h'.1 with
    | [a, b, c], _ => exact ⟨a, b, c, rfl⟩
  obtain ⟨ce, e1, _⟩ := edges3_eq hr g.edgeList
  obtain ⟨cn, n1, _⟩ := nodes3_eq hr g.nodeList
  have he : ∃ c, (if edges then edges3 x y z g.edgeList else .ok []) = .ok c := by cases edges <;> simp [e1]
  have hn : ∃ c, (if nodes then nodes3 x y z g.nodeList else .ok []) = .ok c := by cases nodes <;> simp [n1]
  obtain ⟨ce, e1⟩ := he
  obtain ⟨cn, n1⟩ := hn
  have hd : dimRange x [] = .error .valueError := by
    have hx := hr.mem_iff (a := x) |>.1 (by simp)
    simp at hx
    rcases hx with rfl | rfl | rfl <;> rfl
  unfold Graph.plot3d
  rw [if_neg (by simp), if_neg (not_not_intro h'.2)]
  simp only [e1, n1, h, if_true]
  rw [hg, limits3, hd]

end GT

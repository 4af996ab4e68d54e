import Verif.Dag.Cpm
import Verif.Spec.Compare
/-
`topological_sort` and `has_cycles` on nodes that cannot be compared: `sorted` raises `TypeError`.
-/
namespace GT
open Graph
variable {α V O : Type} [DecidableEq α]

/-! ### model -/

/-- one round of `while zero_in_degree` (topological_sort.py:27-33) and the exit (35-36), where `sorted` can raise -/
def topoStepE (srt : List α → Py (List α)) : Graph α V O × List α × List α →
    (Graph α V O × List α × List α) ⊕ (List α × Option Err)
  | (g2, zero, out) =>
    if zero ≠ [] then
      let g2 := g2.delNodes zero
      match srt (g2.nodesInDeg 0) with
      | .error e => .inr (out ++ zero, some e)
      | .ok z => .inl (g2, z, out ++ zero)
    else if g2.nodeList ≠ [] then .inr (out, some .attributeError)
    else .inr (out, none)

/-- `topological_sort(graph, key)` (topological_sort.py:4-36), where `sorted(…, key=key)` in the lines 25 and 33 can raise: the nodes yielded, and the
exception that ends the generator, if any -/
def Graph.topologicalSortE (srt : List α → Py (List α)) (g : Graph α V O) : Option (List α × Option Err) :=
  let g2 := g.copy
  match srt (g2.nodesInDeg 0) with
  | .error e => some ([], some e)
  | .ok z => pyWhile (topoStepE srt) (g2, z, [])

/-- `has_cycles(graph)` (cycle.py:31-46); only `AttributeError` is caught -/
def Graph.hasCyclesE (srt : List α → Py (List α)) (g : Graph α V O) : Option (Py Bool) :=
  if g.edgeList.any (fun e => e.1 == e.2.1) then some (.ok true)
  else match g.topologicalSortE srt with
    | none => none
    | some (_, none) => some (.ok false)
    | some (_, some .attributeError) => some (.ok true)
    | some (_, some e) => some (.error e)

/-- `critical_path(graph)` (critical_path.py:65-125); `list(topological_sort(graph))` in line 100 can raise -/
def Graph.criticalPathE (num : O → Option Rat) (srt : List α → Py (List α)) (g : Graph α V O) : Option (Py (Rat × Dict α Task)) :=
  match g.topologicalSortE srt with
  | none => none
  | some (_, some e) => some (.error e)
  | some (order, none) =>
    match cpForward num g order (.empty, 0) with
    | .error e => some (.error e)
    | .ok (d, cpl) =>
      match cpBackward g cpl order.reverse d with
      | .error e => some (.error e)
      | .ok d => some (.ok (cpl, d))

/-! ### heights -/

omit [DecidableEq α] in
theorem Height.uniq {R : α → α → Prop} {j k : Nat} {x : α} (hj : Height R j x) (hk : Height R k x) : j = k := by
  obtain ⟨a, ha⟩ := hj.1
  obtain ⟨b, hb⟩ := hk.1
  have := hj.2 _ _ hb
  have := hk.2 _ _ ha
  omega

omit [DecidableEq α] in
theorem height_of_bound {R : α → α → Prop} {x : α} (k : Nat) (h : ∀ m a, Steps R m a x → m ≤ k) : ∃ j, j ≤ k ∧ Height R j x := by
  induction k with
  | zero => exact ⟨0, Nat.le_refl _, ⟨x, .zero x⟩, h⟩
  | succ k ih =>
    by_cases hx : ∃ a, Steps R (k + 1) a x
    · exact ⟨k + 1, Nat.le_refl _, hx, h⟩
    · obtain ⟨j, hj, hh⟩ := ih (fun m a hm => by
        have := h m a hm
        rcases Nat.lt_or_ge k m with h1 | h1
        · have : m = k + 1 := by omega
          subst this
          exact absurd ⟨a, hm⟩ hx
        · exact h1)
      exact ⟨j, by omega, hh⟩

omit [DecidableEq α] in
/-- the nodes of height `k` are those that are not lower, with all predecessors lower -/
theorem height_iff {R : α → α → Prop} {k : Nat} {x : α} :
    Height R k x ↔ (¬ ∃ j, j < k ∧ Height R j x) ∧ ∀ a, R a x → ∃ j, j < k ∧ Height R j a := by
  constructor
  · intro h
    refine ⟨fun ⟨j, hj, hh⟩ => ?_, fun a ha => ?_⟩
    · have := hh.uniq h; omega
    · have h1 : ∀ m b, Steps R m b a → m + 1 ≤ k := fun m b hm => h.2 _ _ (.succ hm ha)
      have h0 := h1 0 a (.zero a)
      obtain ⟨j, hj, hh⟩ := height_of_bound (k - 1) (fun m b hm => by have := h1 m b hm; omega)
      exact ⟨j, by omega, hh⟩
  · rintro ⟨h1, h2⟩
    obtain ⟨j, hj, hh⟩ := height_of_bound (R := R) (x := x) k (fun m a hm => by
      cases hm with
      | zero => exact Nat.zero_le _
      | succ hm hb =>
        obtain ⟨j, hj, hh⟩ := h2 _ hb
        have := hh.2 _ _ hm
        omega)
    rcases Nat.lt_or_ge j k with h3 | h3
    · exact absurd ⟨j, h3, hh⟩ h1
    · have : j = k := by omega
      exact this ▸ hh

omit [DecidableEq α] in
/-- a node on or behind a cycle has no height -/
theorem Height.not_behind {R : α → α → Prop} {k : Nat} {x : α} (h : Height R k x) : ¬ ∃ c, ReachPlus R c c ∧ Reach R c x := by
  rintro ⟨c, ⟨m, hm⟩, n, hn⟩
  have key : ∀ i, ∃ l, i ≤ l ∧ Steps R l c x := by
    intro i
    induction i with
    | zero => exact ⟨n, Nat.zero_le _, hn⟩
    | succ i ih =>
      obtain ⟨l, hl, hs⟩ := ih
      have : ∀ {l y}, Steps R l c y → Steps R (m + 1 + l) c y := by
        intro l y h
        generalize hc : c = c' at h hm
        induction h with
        | zero => subst hc; exact hm
        | succ _ hb ih => exact .succ (ih hc hm) hb
      exact ⟨m + 1 + l, by omega, this hs⟩
  obtain ⟨l, hl, hs⟩ := key (k + 1)
  have := h.2 _ _ hs
  omega

/-! ### the run -/

omit [DecidableEq α] in
theorem SortedLayers.mem_flatten {Cmp R : α → α → Prop} {S : α → Prop} {srt : List α → Py (List α)} (hs : SortMayFail Cmp srt) {layers : List (List α)}
    (h : SortedLayers srt R S layers) (x : α) : x ∈ layers.flatten ↔ S x ∧ ∃ j, j < layers.length ∧ Height R j x := by
  rw [List.mem_flatten]
  constructor
  · rintro ⟨L, hL, hx⟩
    obtain ⟨k, hk⟩ := List.mem_iff_getElem?.1 hL
    obtain ⟨l, h1, _, h2⟩ := h k L hk
    have h3 := (h2 x).1 ((hs.perm _ _ h1).mem_iff.1 hx)
    exact ⟨h3.1, k, (List.getElem?_eq_some_iff.1 hk).1, h3.2⟩
  · rintro ⟨h1, j, hj, hh⟩
    obtain ⟨l, h2, _, h3⟩ := h j _ (List.getElem?_eq_getElem hj)
    exact ⟨_, List.getElem_mem hj, (hs.perm _ _ h2).mem_iff.2 ((h3 x).2 ⟨h1, hh⟩)⟩

omit [DecidableEq α] in
theorem SortedLayers.snoc {R : α → α → Prop} {S : α → Prop} {srt : List α → Py (List α)} {layers : List (List α)}
    (h : SortedLayers srt R S layers) {L l : List α} (h1 : srt l = .ok L) (h2 : l.Nodup) (h3 : ∀ x, x ∈ l ↔ S x ∧ Height R layers.length x) :
    SortedLayers srt R S (layers ++ [L]) := by
  intro k L' hk
  rcases Nat.lt_or_ge k layers.length with hl | hl
  · rw [List.getElem?_append_left hl] at hk; exact h k L' hk
  · rw [List.getElem?_append_right hl] at hk
    obtain ⟨hlt, heq⟩ := List.getElem?_eq_some_iff.1 hk
    simp at hlt heq
    have hkk : k = layers.length := by omega
    subst hkk; subst heq
    exact ⟨l, h1, h2, h3⟩

/-- what the sources of the working graph are -/
theorem mem_sources_height {Cmp : α → α → Prop} {g w : Graph α V O} (h : g.Inv) {srt : List α → Py (List α)} (hs : SortMayFail Cmp srt)
    {layers : List (List α)} (hw : Remaining g w layers.flatten) (hl : SortedLayers srt g.Adj (fun x => g.has x = true) layers) (x : α) :
    x ∈ w.nodesInDeg 0 ↔ g.has x = true ∧ Height g.Adj layers.length x := by
  rw [hw.mem_sources, height_iff, hl.mem_flatten hs]
  constructor
  · rintro ⟨h1, h2, h3⟩
    exact ⟨h1, fun hj => h2 ⟨h1, hj⟩, fun a ha => ((hl.mem_flatten hs a).1 (h3 a ha)).2⟩
  · rintro ⟨h1, h2, h3⟩
    exact ⟨h1, fun hj => h2 hj.2, fun a ha => (hl.mem_flatten hs a).2 ⟨has_iff.2 (h.finite a x ha).1, h3 a ha⟩⟩

theorem sort_layer {Cmp : α → α → Prop} {R : α → α → Prop} {S : α → Prop} {srt : List α → Py (List α)} (hs : SortMayFail Cmp srt) {l : List α} {k : Nat}
    (hl : ∀ x, x ∈ l ↔ S x ∧ Height R k x) :
    (MixedLayer Cmp R S k ∧ srt l = .error .typeError) ∨ (¬ MixedLayer Cmp R S k ∧ ∃ r, srt l = .ok r) := by
  by_cases h : MixedLayer Cmp R S k
  · obtain ⟨x, y, h1, h2, h3, h4, h5, h6⟩ := h
    exact .inl ⟨⟨x, y, h1, h2, h3, h4, h5, h6⟩, hs.fails l ⟨x, (hl x).2 ⟨h1, h3⟩, y, (hl y).2 ⟨h2, h4⟩, h5, h6⟩⟩
  · refine .inr ⟨h, hs.works l (fun a ha b hb hab => ?_)⟩
    apply Classical.byContradiction
    intro hc
    exact h ⟨a, b, ((hl a).1 ha).1, ((hl b).1 hb).1, ((hl a).1 ha).2, ((hl b).1 hb).2, hab, hc⟩

/-- the result of a run -/
def TopoResult (Cmp : α → α → Prop) (srt : List α → Py (List α)) (g : Graph α V O) (r : List α × Option Err) : Prop :=
  ∃ layers, r.1 = layers.flatten ∧ r.1.Nodup ∧ SortedLayers srt g.Adj (fun x => g.has x = true) layers ∧
    (∀ j, j < layers.length → ¬ MixedLayer Cmp g.Adj (fun x => g.has x = true) j) ∧
    ((r.2 = some .typeError ∧ MixedLayer Cmp g.Adj (fun x => g.has x = true) layers.length) ∨
     ((∀ j, ¬ MixedLayer Cmp g.Adj (fun x => g.has x = true) j) ∧
      (∀ x, x ∈ r.1 ↔ g.has x = true ∧ ¬ ∃ c, ReachPlus g.Adj c c ∧ Reach g.Adj c x) ∧
      ((∀ x, g.has x = true → x ∈ r.1) → r.2 = none) ∧ ((¬ ∀ x, g.has x = true → x ∈ r.1) → r.2 = some .attributeError)))

theorem topoE_spec {Cmp : α → α → Prop} {g : Graph α V O} (h : g.Inv) {srt : List α → Py (List α)} (hs : SortMayFail Cmp srt) :
    ∃ r, g.topologicalSortE srt = some r ∧ TopoResult Cmp srt g r := by
  unfold topologicalSortE
  have hw0 : Remaining g g.copy ([] : List (List α)).flatten := Remaining.copy h
  have hl0 : SortedLayers srt g.Adj (fun x => g.has x = true) [] := fun k L hk => by simp at hk
  rcases sort_layer hs (fun x => mem_sources_height h hs hw0 hl0 x) with ⟨hm, he⟩ | ⟨hm, z, he⟩
  · simp only [he]
    exact ⟨_, rfl, [], rfl, List.nodup_nil, hl0, fun j hj => absurd hj (Nat.not_lt_zero j), .inl ⟨rfl, hm⟩⟩
  · simp only [he]
    let I : Graph α V O × List α × List α → Prop := fun s => ∃ layers, s.2.2 = layers.flatten ∧ s.2.2.Nodup ∧
      Remaining g s.1 s.2.2 ∧ SortedLayers srt g.Adj (fun x => g.has x = true) layers ∧
      (∀ j, j < layers.length + 1 → ¬ MixedLayer Cmp g.Adj (fun x => g.has x = true) j) ∧ srt (s.1.nodesInDeg 0) = .ok s.2.1
    apply pyWhile_total I (TopoResult Cmp srt g) (fun s => unvis g.nodeList s.2.2)
    · rintro ⟨g2, zero, out⟩ ⟨g2', zero', out'⟩ ⟨layers, hout, hn, hr, hl, hmx, hz⟩ hst
      dsimp only at hout hn hr hl hz
      simp only [topoStepE] at hst
      by_cases hz0 : zero = []
      · simp only [hz0, ne_eq, not_true_eq_false, if_false] at hst
        split at hst <;> simp at hst
      · rw [if_pos (by simpa using hz0)] at hst
        have hsrc := fun x => mem_sources_height h hs (hout ▸ hr) hl x
        have hp := hs.perm _ _ hz
        have hl' := hl.snoc hz (hr.inv.nodup_nodesInDeg 0) hsrc
        have hfl : out ++ zero = (layers ++ [zero]).flatten := by rw [hout]; simp
        have hr' := hr.delNodes zero
        have hdis : ∀ x ∈ zero, x ∉ out := fun x hx => ((hr.mem_sources x).1 (hp.mem_iff.1 hx)).2.1
        have hn' : (out ++ zero).Nodup := by
          rw [List.nodup_append]
          refine ⟨hn, hp.nodup_iff.2 (hr.inv.nodup_nodesInDeg 0), ?_⟩
          rintro a ha b hb rfl
          exact hdis a hb ha
        split at hst
        · simp at hst
        · rename_i z' hz'
          simp only [Sum.inl.injEq, Prod.mk.injEq] at hst
          obtain ⟨rfl, rfl, rfl⟩ := hst
          refine ⟨⟨layers ++ [zero], hfl, hn', hr', hl', fun j hj => ?_, hz'⟩, ?_⟩
          · rw [List.length_append, List.length_singleton] at hj
            rcases Nat.lt_or_ge j (layers.length + 1) with h1 | h1
            · exact hmx j h1
            · have : j = layers.length + 1 := by omega
              subst this
              intro hmix
              rcases sort_layer hs (fun x => mem_sources_height h hs (hfl ▸ hr') hl' x) with ⟨_, he'⟩ | ⟨hno, _⟩
              · rw [he'] at hz'; cases hz'
              · rw [List.length_append, List.length_singleton] at hno
                exact hno hmix
          · obtain ⟨x, hx⟩ := List.exists_mem_of_ne_nil _ hz0
            exact unvis_lt (fun y hy => List.mem_append_left _ hy) (has_iff.1 ((hsrc x).1 (hp.mem_iff.1 hx)).1)
              (hdis x hx) (List.mem_append_right _ hx)
    · rintro ⟨g2, zero, out⟩ r ⟨layers, hout, hn, hr, hl, hmx, hz⟩ hst
      dsimp only at hout hn hr hl hz
      simp only [topoStepE] at hst
      have hsrc := fun x => mem_sources_height h hs (hout ▸ hr) hl x
      have hp := hs.perm _ _ hz
      by_cases hz0 : zero = []
      · subst hz0
        simp only [ne_eq, not_true_eq_false, if_false] at hst
        have hall : (∀ x, g.has x = true → x ∈ out) ↔ g2.nodeList = [] := by
          constructor
          · intro hall
            cases hl : g2.nodeList with
            | nil => rfl
            | cons y l =>
              have : g2.has y = true := has_iff.2 (by rw [hl]; simp)
              rw [hr.has] at this
              exact absurd (hall y this.1) this.2
          · intro hl x hx
            apply Classical.byContradiction
            intro hxo
            have := has_iff.1 ((hr.has x).2 ⟨hx, hxo⟩)
            rw [hl] at this; cases this
        have hleft : ∀ x, (g.has x = true ∧ x ∉ out) → ∃ a, g.Adj a x ∧ g.has a = true ∧ a ∉ out := by
          intro x hx
          have h1 : x ∉ g2.nodesInDeg 0 := by rw [← hp.mem_iff]; simp
          rw [hr.mem_sources] at h1
          apply Classical.byContradiction
          intro hno
          apply h1
          refine ⟨hx.1, hx.2, fun a ha => ?_⟩
          apply Classical.byContradiction
          intro hao
          exact hno ⟨a, ha, has_iff.2 (h.finite a x ha).1, hao⟩
        have hmain : ∀ x, x ∈ out ↔ g.has x = true ∧ ¬ ∃ c, ReachPlus g.Adj c c ∧ Reach g.Adj c x := by
          intro x
          constructor
          · intro hx
            rw [hout, hl.mem_flatten hs] at hx
            obtain ⟨h1, j, _, h2⟩ := hx
            exact ⟨h1, h2.not_behind⟩
          · rintro ⟨h1, h2⟩
            apply Classical.byContradiction
            intro hxo
            exact h2 (behind_cycle h.finite (fun y => g.has y = true ∧ y ∉ out) hleft ⟨h1, hxo⟩)
        have hnm : ∀ j, ¬ MixedLayer Cmp g.Adj (fun x => g.has x = true) j := by
          rintro j ⟨x, y, h1, h2, h3, h4, h5, h6⟩
          have hx := (hmain x).2 ⟨h1, h3.not_behind⟩
          rw [hout, hl.mem_flatten hs] at hx
          obtain ⟨_, j', hj', hh⟩ := hx
          rw [hh.uniq h3] at hj'
          exact hmx j (by omega) ⟨x, y, h1, h2, h3, h4, h5, h6⟩
        by_cases hnl : g2.nodeList = []
        · simp only [hnl, not_true_eq_false, if_false, Sum.inr.injEq] at hst
          subst hst
          exact ⟨layers, hout, hn, hl, fun j hj => hmx j (by omega), .inr ⟨hnm, hmain, fun _ => rfl, fun hh => absurd (hall.2 hnl) hh⟩⟩
        · rw [if_pos hnl] at hst
          simp only [Sum.inr.injEq] at hst
          subst hst
          exact ⟨layers, hout, hn, hl, fun j hj => hmx j (by omega), .inr ⟨hnm, hmain, fun hh => absurd (hall.1 hh) hnl, fun _ => rfl⟩⟩
      · rw [if_pos (by simpa using hz0)] at hst
        have hl' := hl.snoc hz (hr.inv.nodup_nodesInDeg 0) hsrc
        have hfl : out ++ zero = (layers ++ [zero]).flatten := by rw [hout]; simp
        have hr' := hr.delNodes zero
        have hdis : ∀ x ∈ zero, x ∉ out := fun x hx => ((hr.mem_sources x).1 (hp.mem_iff.1 hx)).2.1
        have hn' : (out ++ zero).Nodup := by
          rw [List.nodup_append]
          refine ⟨hn, hp.nodup_iff.2 (hr.inv.nodup_nodesInDeg 0), ?_⟩
          rintro a ha b hb rfl
          exact hdis a hb ha
        split at hst
        · rename_i e he
          simp only [Sum.inr.injEq] at hst
          subst hst
          rcases sort_layer hs (fun x => mem_sources_height h hs (hfl ▸ hr') hl' x) with ⟨hmix, he'⟩ | ⟨_, r, he'⟩
          · rw [he'] at he
            cases he
            refine ⟨layers ++ [zero], hfl, hn', hl', fun j hj => hmx j ?_, .inl ⟨rfl, hmix⟩⟩
            rw [List.length_append, List.length_singleton] at hj
            exact hj
          · rw [he'] at he; cases he
        · simp at hst
    · refine ⟨[], rfl, List.nodup_nil, hw0, hl0, fun j hj => ?_, he⟩
      have : j = 0 := by simpa using hj
      subst this; exact hm

/-! ### no layer is mixed: nothing new -/

/-- a sort that does not fail -/
def totalSort (srt : List α → Py (List α)) (l : List α) : List α := match srt l with | .ok r => r | .error _ => l

omit [DecidableEq α] in
theorem totalSort_perm {Cmp : α → α → Prop} {srt : List α → Py (List α)} (hs : SortMayFail Cmp srt) (l : List α) : (totalSort srt l).Perm l := by
  unfold totalSort
  split
  · rename_i r h; exact hs.perm l r h
  · exact List.Perm.refl _

omit [DecidableEq α] in
theorem sort_error {Cmp : α → α → Prop} {srt : List α → Py (List α)} (hs : SortMayFail Cmp srt) {l : List α} {e : Err} (h : srt l = .error e) :
    e = .typeError := by
  by_cases hx : ∃ a ∈ l, ∃ b ∈ l, a ≠ b ∧ ¬ Cmp a b
  · have := hs.fails l hx; rw [h] at this; simpa using this
  · obtain ⟨r, hr⟩ := hs.works l (fun a ha b hb hab => Classical.byContradiction (fun hc => hx ⟨a, ha, b, hb, hab, hc⟩))
    rw [h] at hr; cases hr

theorem topoE_eq {Cmp : α → α → Prop} {g : Graph α V O} {srt : List α → Py (List α)} (hs : SortMayFail Cmp srt) {r : List α × Option Err}
    (h : g.topologicalSortE srt = some r) (he : r.2 ≠ some .typeError) : g.topologicalSort (totalSort srt) = some r := by
  unfold topologicalSortE at h
  unfold topologicalSort
  dsimp only at h ⊢
  split at h
  · rename_i e h1
    cases h
    exact absurd (by rw [sort_error hs h1]) he
  · rename_i z h1
    have hz : totalSort srt (g.copy.nodesInDeg 0) = z := by unfold totalSort; rw [h1]
    rw [hz]
    refine pyWhile_inv (step := topoStepE srt) (fun s => pyWhile (topoStep (totalSort srt)) (g.copy, z, []) = pyWhile (topoStep (totalSort srt)) s)
      (fun r => r.2 ≠ some .typeError → pyWhile (topoStep (totalSort srt)) (g.copy, z, []) = some r) ?_ ?_ rfl h he
    · rintro ⟨g2, zero, out⟩ s' hI hst
      rw [hI]
      refine pyWhile_inl ?_
      simp only [topoStepE] at hst
      simp only [topoStep]
      split at hst
      · rename_i h0
        rw [if_pos h0]
        split at hst
        · cases hst
        · rename_i z' hz'
          rw [show totalSort srt ((g2.delNodes zero).nodesInDeg 0) = z' by unfold totalSort; rw [hz']]
          simpa using hst
      · split at hst <;> cases hst
    · rintro ⟨g2, zero, out⟩ r hI hst hne
      rw [hI]
      refine pyWhile_inr ?_
      simp only [topoStepE] at hst
      simp only [topoStep]
      split at hst
      · split at hst
        · rename_i e hz'
          cases hst
          exact absurd (by rw [sort_error hs hz']) hne
        · cases hst
      · rename_i h0
        rw [if_neg h0]
        split at hst
        · rename_i h1; rw [if_pos h1]; simpa using hst
        · rename_i h1; rw [if_neg h1]; simpa using hst

theorem topoE_dichotomy {Cmp : α → α → Prop} {g : Graph α V O} (h : g.Inv) {srt : List α → Py (List α)} (hs : SortMayFail Cmp srt) :
    ((∃ k, MixedLayer Cmp g.Adj (fun x => g.has x = true) k) ∧ ∃ out, g.topologicalSortE srt = some (out, some .typeError)) ∨
    ((∀ k, ¬ MixedLayer Cmp g.Adj (fun x => g.has x = true) k) ∧ g.topologicalSortE srt = g.topologicalSort (totalSort srt)) := by
  obtain ⟨⟨out, e⟩, h1, layers, _, _, _, _, h2 | h2⟩ := topoE_spec h hs
  · obtain ⟨h3, h4⟩ := h2
    dsimp only at h3; subst h3
    exact .inl ⟨⟨_, h4⟩, out, h1⟩
  · obtain ⟨h3, _, h5, h6⟩ := h2
    refine .inr ⟨h3, ?_⟩
    rw [h1, topoE_eq hs h1]
    dsimp only at h5 h6 ⊢
    by_cases ha : ∀ x, g.has x = true → x ∈ out
    · rw [h5 ha]; simp
    · rw [h6 ha]; simp

theorem hasCyclesE_eq {g : Graph α V O} {srt : List α → Py (List α)} {srt' : List α → List α}
    (h : g.topologicalSortE srt = g.topologicalSort srt') : g.hasCyclesE srt = g.hasCycles srt' := by
  unfold hasCyclesE hasCycles topoList
  rw [h]
  split
  · rfl
  · cases g.topologicalSort srt' with
    | none => rfl
    | some r =>
      obtain ⟨out, e⟩ := r
      cases e with
      | none => rfl
      | some e => cases e <;> rfl

theorem criticalPathE_eq {g : Graph α V O} {srt : List α → Py (List α)} {srt' : List α → List α} (num : O → Option Rat)
    (h : g.topologicalSortE srt = g.topologicalSort srt') : g.criticalPathE num srt = g.criticalPath num srt' := by
  unfold criticalPathE criticalPath topoList
  rw [h]
  cases g.topologicalSort srt' with
  | none => rfl
  | some r =>
    obtain ⟨out, e⟩ := r
    cases e with
    | none => rfl
    | some e => rfl

end GT

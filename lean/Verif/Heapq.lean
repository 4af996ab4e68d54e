import Verif.Sort
/-
`heapq.heappush` and `heapq.heappop` as the library does them: a binary heap in a list.
-/
namespace GT
variable {β : Type}

/-- `_siftdown(heap, 0, pos)` of Python's library (Lib/heapq.py): `newitem = heap[pos]; while pos > 0: parentpos = (pos - 1) >> 1; parent = heap[parentpos];
if newitem < parent: heap[pos] = parent; pos = parentpos; continue; break`, then `heap[pos] = newitem`.  `x` is `newitem`; `lt a b` is `a < b`, which may
raise. -/
def siftDown (lt : β → β → Py Bool) (x : β) (h : List β) (pos : Nat) : Py (List β) :=
  if 0 < pos then
    match h[(pos - 1) / 2]? with
    | none => .error .indexError
    | some p => match lt x p with
      | .error e => .error e
      | .ok true => siftDown lt x (h.set pos p) ((pos - 1) / 2)
      | .ok false => .ok (h.set pos x)
  else .ok (h.set pos x)
termination_by pos

/-- `heapq.heappush(heap, item)`: `heap.append(item); _siftdown(heap, 0, len(heap) - 1)` -/
def heappush (lt : β → β → Py Bool) (h : List β) (x : β) : Py (List β) := siftDown lt x (h ++ [x]) h.length

/-- `_siftup(heap, 0)` of Python's library: `endpos = len(heap); newitem = heap[pos]; childpos = 2 * pos + 1; while childpos < endpos: rightpos = childpos + 1;
if rightpos < endpos and not heap[childpos] < heap[rightpos]: childpos = rightpos`, then `heap[pos] = heap[childpos]; pos = childpos;
childpos = 2 * pos + 1`; at the end `heap[pos] = newitem; _siftdown(heap, 0, pos)` -/
def siftUp (lt : β → β → Py Bool) (x : β) (h : List β) (pos : Nat) : Py (List β) :=
  if hc : 2 * pos + 1 < h.length then
    if hr : 2 * pos + 2 < h.length then
      match lt h[2 * pos + 1] h[2 * pos + 2] with
      | .error e => .error e
      | .ok true => siftUp lt x (h.set pos h[2 * pos + 1]) (2 * pos + 1)
      | .ok false => siftUp lt x (h.set pos h[2 * pos + 2]) (2 * pos + 2)
    else siftUp lt x (h.set pos h[2 * pos + 1]) (2 * pos + 1)
  else siftDown lt x (h.set pos x) pos
termination_by h.length - pos
decreasing_by all_goals (simp only [List.length_set]; omega)

/-- `heapq.heappop(heap)`: `lastelt = heap.pop(); if heap: returnitem = heap[0]; heap[0] = lastelt; _siftup(heap, 0); return returnitem`, else
`return lastelt`.  The heap that is left is the second component. -/
def heappop (lt : β → β → Py Bool) (h : List β) : Py (β × List β) :=
  match h.getLast? with
  | none => .error .indexError
  | some last => match h.dropLast with
    | [] => .ok (last, [])
    | top :: t => match siftUp lt last (last :: t) 0 with
      | .error e => .error e
      | .ok h' => .ok (top, h')

/-! ### specification -/

/-- the order of a heap: no element is smaller than its parent -/
def IsHeap (lt : β → β → Bool) (h : List β) : Prop :=
  ∀ i a b, 0 < i → h[(i - 1) / 2]? = some a → h[i]? = some b → lt b a = false

/-- `a < b` and `b < a` do not raise -/
def Cmp (ltE : β → β → Py Bool) (lt : β → β → Bool) (a b : β) : Prop := ltE a b = .ok (lt a b) ∧ ltE b a = .ok (lt b a)

/-! ### proofs -/

theorem set_swap_perm {l : List β} {i j : Nat} {a x : β} (hij : i ≠ j) (hi : i < l.length) (hj : l[j]? = some a) :
    ((l.set i a).set j x).Perm (l.set i x) := by
  obtain ⟨hj', rfl⟩ := List.getElem?_eq_some_iff.1 hj
  have := List.set_set_perm (as := l.set i x) (i := i) (j := j) (by simpa using hi) (by simpa using hj')
  rw [List.getElem_set_ne hij, List.getElem_set_self, List.set_set] at this
  exact this

theorem Cmp.symm {ltE : β → β → Py Bool} {lt : β → β → Bool} {a b : β} (h : Cmp ltE lt a b) : Cmp ltE lt b a := ⟨h.2, h.1⟩

theorem cmp_of_pairwise {ltE : β → β → Py Bool} {lt : β → β → Bool} {v : List β} (h : v.Pairwise (Cmp ltE lt)) {i j : Nat} {a b : β}
    (hij : i ≠ j) (ha : v[i]? = some a) (hb : v[j]? = some b) : ltE a b = .ok (lt a b) := by
  obtain ⟨hi, rfl⟩ := List.getElem?_eq_some_iff.1 ha
  obtain ⟨hj, rfl⟩ := List.getElem?_eq_some_iff.1 hb
  rw [List.pairwise_iff_getElem] at h
  rcases Nat.lt_or_gt_of_ne hij with h' | h'
  · exact (h i j hi hj h').1
  · exact (h j i hj hi h').2

/-- the heap with the new item still at `pos`: in order except between `pos` and its parent -/
def DownInv (lt : β → β → Bool) (v : List β) (pos : Nat) : Prop :=
  (∀ i a b, 0 < i → i ≠ pos → v[(i - 1) / 2]? = some a → v[i]? = some b → lt b a = false) ∧
  (∀ c a b, 0 < c → 0 < pos → (c - 1) / 2 = pos → v[(pos - 1) / 2]? = some a → v[c]? = some b → lt b a = false)

/-- the laws of `<` -/
structure LtLaws (lt : β → β → Bool) : Prop where
  trans : ∀ a b c, lt b a = false → lt c b = false → lt c a = false
  asymm : ∀ a b, lt a b = true → lt b a = false

theorem siftDown_spec {ltE : β → β → Py Bool} {lt : β → β → Bool} {x : β} : ∀ (pos : Nat) (h : List β), pos < h.length →
    (h.set pos x).Pairwise (Cmp ltE lt) →
    ∃ h', siftDown ltE x h pos = .ok h' ∧ h'.Perm (h.set pos x) ∧ (LtLaws lt → DownInv lt (h.set pos x) pos → IsHeap lt h') := by
  intro pos
  induction pos using Nat.strongRecOn with
  | _ pos ih =>
    intro h hlen hp
    rw [siftDown]
    by_cases h0 : 0 < pos
    · rw [if_pos h0]
      have hpar : (pos - 1) / 2 < h.length := by omega
      have hne : pos ≠ (pos - 1) / 2 := by omega
      rw [List.getElem?_eq_getElem hpar]
      dsimp only
      have hpe : h[(pos - 1) / 2]? = some h[(pos - 1) / 2] := List.getElem?_eq_getElem hpar
      generalize h[(pos - 1) / 2] = p at hpe
      have hvp : (h.set pos x)[(pos - 1) / 2]? = some p := by rw [List.getElem?_set_ne hne]; exact hpe
      have hvx : (h.set pos x)[pos]? = some x := by rw [List.getElem?_set_self hlen]
      rw [cmp_of_pairwise hp hne hvx hvp]
      have hsw := set_swap_perm (x := x) hne hlen hpe
      cases hc : lt x p with
      | true =>
        dsimp only
        obtain ⟨h', e1, e2, e3⟩ := ih ((pos - 1) / 2) (by omega) (h.set pos p) (by simpa using hpar)
          (hsw.symm.pairwise hp (fun hab => hab.symm))
        refine ⟨h', e1, e2.trans hsw, fun L hv => e3 L ?_⟩
        have hxp := L.asymm _ _ hc
        have hg : ∀ i, ((h.set pos p).set ((pos - 1) / 2) x)[i]? =
            if i = (pos - 1) / 2 then some x else if i = pos then some p else (h.set pos x)[i]? := by
          intro i
          rw [List.getElem?_set, List.getElem?_set, List.getElem?_set]
          simp only [List.length_set]
          grind
        constructor
        · intro i a b hi hi2 ha hb
          rw [hg] at ha hb
          rw [if_neg hi2] at hb
          by_cases hip : i = pos
          · subst hip
            rw [if_pos rfl] at ha hb
            cases ha; cases hb; exact hxp
          · rw [if_neg hip] at hb
            by_cases hi3 : (i - 1) / 2 = (pos - 1) / 2
            · rw [if_pos hi3] at ha
              cases ha
              exact L.trans _ _ _ hxp (hv.1 i p b hi hip (by rw [hi3]; exact hvp) hb)
            · rw [if_neg hi3] at ha
              by_cases hi4 : (i - 1) / 2 = pos
              · rw [if_pos hi4] at ha
                cases ha
                exact hv.2 i p b hi h0 hi4 hvp hb
              · rw [if_neg hi4] at ha
                exact hv.1 i a b hi hip ha hb
        · intro c a b hc0 hpp hc2 ha hb
          rw [hg] at ha hb
          rw [if_neg (by omega), if_neg (by omega)] at ha
          rw [if_neg (by omega)] at hb
          have hpa := hv.1 ((pos - 1) / 2) a p hpp (by omega) ha hvp
          by_cases hcp : c = pos
          · rw [if_pos hcp] at hb
            cases hb; exact hpa
          · rw [if_neg hcp] at hb
            exact L.trans _ _ _ hpa (hv.1 c p b hc0 hcp (by rw [hc2]; exact hvp) hb)
      | false =>
        refine ⟨_, rfl, .refl _, fun L hv i a b hi ha hb => ?_⟩
        by_cases hip : i = pos
        · subst hip
          rw [hvp] at ha; rw [hvx] at hb
          cases ha; cases hb; exact hc
        · exact hv.1 i a b hi hip ha hb
    · rw [if_neg h0]
      exact ⟨_, rfl, .refl _, fun L hv i a b hi ha hb => hv.1 i a b hi (by omega) ha hb⟩

/-- the heap with the hole at `pos`: in order except at `pos` -/
def UpInv (lt : β → β → Bool) (v : List β) (pos : Nat) : Prop :=
  (∀ i a b, 0 < i → i ≠ pos → (i - 1) / 2 ≠ pos → v[(i - 1) / 2]? = some a → v[i]? = some b → lt b a = false) ∧
  (∀ c a b, 0 < c → 0 < pos → (c - 1) / 2 = pos → v[(pos - 1) / 2]? = some a → v[c]? = some b → lt b a = false)

/-- moving a smallest child up -/
theorem upInv_move {lt : β → β → Bool} {x y : β} {h : List β} {pos c : Nat} (hpos : pos < h.length) (hc : (c - 1) / 2 = pos) (hc0 : 0 < c)
    (hy : h[c]? = some y) (hmin : ∀ c' z, 0 < c' → (c' - 1) / 2 = pos → h[c']? = some z → lt z y = false) (hv : UpInv lt (h.set pos x) pos) :
    UpInv lt ((h.set pos y).set c x) c := by
  have hcl : c < h.length := (List.getElem?_eq_some_iff.1 hy).1
  have hpc : pos ≠ c := by omega
  have hg : ∀ i, ((h.set pos y).set c x)[i]? = if i = c then some x else if i = pos then some y else (h.set pos x)[i]? := by
    intro i
    rw [List.getElem?_set, List.getElem?_set, List.getElem?_set]
    simp only [List.length_set]
    grind
  have hvc : ∀ i, i ≠ pos → (h.set pos x)[i]? = h[i]? := fun i hi => List.getElem?_set_ne (Ne.symm hi)
  constructor
  · intro i a b hi hic hic2 ha hb
    rw [hg] at ha hb
    rw [if_neg hic2] at ha
    rw [if_neg hic] at hb
    by_cases hip : i = pos
    · rw [if_pos hip] at hb
      rw [if_neg (by omega)] at ha
      cases hb
      subst hip
      exact hv.2 c a y hc0 hi hc ha (by rw [hvc c (by omega)]; exact hy)
    · rw [if_neg hip] at hb
      by_cases hi2 : (i - 1) / 2 = pos
      · rw [if_pos hi2] at ha
        cases ha
        exact hmin i b hi hi2 (by rw [← hvc i hip]; exact hb)
      · rw [if_neg hi2] at ha
        exact hv.1 i a b hi hip hi2 ha hb
  · intro d a b hd _ hdc ha hb
    rw [hg] at ha hb
    rw [hc, if_neg hpc, if_pos rfl] at ha
    cases ha
    rw [if_neg (by omega), if_neg (by omega)] at hb
    exact hv.1 d y b hd (by omega) (by omega) (by rw [hdc, hvc c (by omega)]; exact hy) hb

theorem siftUp_spec {ltE : β → β → Py Bool} {lt : β → β → Bool} {x : β} : ∀ (n pos : Nat) (h : List β), h.length - pos ≤ n → pos < h.length →
    (h.set pos x).Pairwise (Cmp ltE lt) →
    ∃ h', siftUp ltE x h pos = .ok h' ∧ h'.Perm (h.set pos x) ∧ (LtLaws lt → UpInv lt (h.set pos x) pos → IsHeap lt h') := by
  intro n
  induction n with
  | zero => intro pos h hn hl; omega
  | succ n ih =>
    intro pos h hn hl hp
    rw [siftUp]
    have move : ∀ (c : Nat) (y : β), pos < c → (c - 1) / 2 = pos → h[c]? = some y →
        (LtLaws lt → ∀ c' z, 0 < c' → (c' - 1) / 2 = pos → h[c']? = some z → lt z y = false) →
        ∃ h', siftUp ltE x (h.set pos y) c = .ok h' ∧ h'.Perm (h.set pos x) ∧ (LtLaws lt → UpInv lt (h.set pos x) pos → IsHeap lt h') := by
      intro c y hpc hc hy hmin
      have hcl : c < h.length := (List.getElem?_eq_some_iff.1 hy).1
      have hsw := set_swap_perm (x := x) (Nat.ne_of_lt hpc) hl hy
      obtain ⟨h', e1, e2, e3⟩ := ih c (h.set pos y) (by rw [List.length_set]; omega) (by simpa using hcl)
        (hsw.symm.pairwise hp (fun hab => hab.symm))
      exact ⟨h', e1, e2.trans hsw, fun L hv => e3 L (upInv_move hl hc (by omega) hy (hmin L) hv)⟩
    have irr : LtLaws lt → ∀ a, lt a a = false := by
      intro L a
      cases ha : lt a a with
      | false => rfl
      | true => have := L.asymm a a ha; rw [ha] at this; cases this
    by_cases hc : 2 * pos + 1 < h.length
    · rw [dif_pos hc]
      have h1 : h[2 * pos + 1]? = some h[2 * pos + 1] := List.getElem?_eq_getElem hc
      generalize h[2 * pos + 1] = y at h1
      by_cases hr : 2 * pos + 2 < h.length
      · rw [dif_pos hr]
        have h2 : h[2 * pos + 2]? = some h[2 * pos + 2] := List.getElem?_eq_getElem hr
        generalize h[2 * pos + 2] = z at h2
        rw [cmp_of_pairwise hp (i := 2 * pos + 1) (j := 2 * pos + 2) (by omega) (by rw [List.getElem?_set_ne (by omega)]; exact h1)
          (by rw [List.getElem?_set_ne (by omega)]; exact h2)]
        cases hyz : lt y z with
        | true =>
          refine move _ y (by omega) (by omega) h1 (fun L c' w hc0 hc' hw => ?_)
          rcases (by omega : c' = 2 * pos + 1 ∨ c' = 2 * pos + 2) with rfl | rfl
          · rw [h1] at hw; cases hw; exact irr L _
          · rw [h2] at hw; cases hw; exact L.asymm _ _ hyz
        | false =>
          refine move _ z (by omega) (by omega) h2 (fun L c' w hc0 hc' hw => ?_)
          rcases (by omega : c' = 2 * pos + 1 ∨ c' = 2 * pos + 2) with rfl | rfl
          · rw [h1] at hw; cases hw; exact hyz
          · rw [h2] at hw; cases hw; exact irr L _
      · rw [dif_neg hr]
        refine move _ y (by omega) (by omega) h1 (fun L c' w hc0 hc' hw => ?_)
        rcases (by omega : c' = 2 * pos + 1 ∨ c' = 2 * pos + 2) with rfl | rfl
        · rw [h1] at hw; cases hw; exact irr L _
        · rw [List.getElem?_eq_none (by omega)] at hw; cases hw
    · rw [dif_neg hc]
      obtain ⟨h', e1, e2, e3⟩ := siftDown_spec (ltE := ltE) (lt := lt) (x := x) pos (h.set pos x) (by simpa using hl) (by simpa using hp)
      rw [List.set_set] at e2 e3
      refine ⟨h', e1, e2, fun L hv => e3 L ⟨fun i a b hi hip ha hb => ?_, hv.2⟩⟩
      refine hv.1 i a b hi hip ?_ ha hb
      have := (List.getElem?_eq_some_iff.1 hb).1
      rw [List.length_set] at this
      omega

theorem heappush_spec {ltE : β → β → Py Bool} {lt : β → β → Bool} {h : List β} {x : β} (hp : (x :: h).Pairwise (Cmp ltE lt)) :
    ∃ h', heappush ltE h x = .ok h' ∧ h'.Perm (x :: h) ∧ (LtLaws lt → IsHeap lt h → IsHeap lt h') := by
  have hs : (h ++ [x]).set h.length x = h ++ [x] := by simp
  have hperm : (h ++ [x]).Perm (x :: h) := List.perm_append_singleton x h
  obtain ⟨h', e1, e2, e3⟩ := siftDown_spec (ltE := ltE) (lt := lt) (x := x) h.length (h ++ [x]) (by simp)
    (by rw [hs]; exact hperm.symm.pairwise hp (fun hab => hab.symm))
  rw [hs] at e2 e3
  refine ⟨h', e1, e2.trans hperm, fun L hh => e3 L ⟨fun i a b hi hip ha hb => ?_, fun c a b hc _ hc2 ha hb => ?_⟩⟩
  · have := (List.getElem?_eq_some_iff.1 hb).1
    simp at this
    rw [List.getElem?_append_left (by omega)] at ha hb
    exact hh i a b hi ha hb
  · have := (List.getElem?_eq_some_iff.1 hb).1
    simp at this
    omega

theorem heap_root {lt : β → β → Bool} (L : LtLaws lt) {h : List β} (hh : IsHeap lt h) {m : β} (hm : h[0]? = some m) :
    ∀ (i : Nat) (b : β), h[i]? = some b → lt b m = false := by
  intro i
  induction i using Nat.strongRecOn with
  | _ i ih =>
    intro b hb
    by_cases h0 : 0 < i
    · have hl := (List.getElem?_eq_some_iff.1 hb).1
      have hpar : (i - 1) / 2 < h.length := by omega
      have ha := List.getElem?_eq_getElem hpar
      exact L.trans _ _ _ (ih _ (by omega) _ ha) (hh i _ b h0 ha hb)
    · have : i = 0 := by omega
      subst this
      rw [hm] at hb; cases hb
      cases hc : lt m m with
      | false => rfl
      | true => have := L.asymm m m hc; rw [hc] at this; cases this

theorem heappop_spec {ltE : β → β → Py Bool} {lt : β → β → Bool} {h : List β} (hne : h ≠ []) (hp : h.Pairwise (Cmp ltE lt)) :
    ∃ m h', heappop ltE h = .ok (m, h') ∧ h.Perm (m :: h') ∧ (LtLaws lt → IsHeap lt h → IsHeap lt h' ∧ ∀ b ∈ h, lt b m = false) := by
  obtain ⟨l, last, rfl⟩ : ∃ l last, h = l ++ [last] := ⟨h.dropLast, h.getLast hne, (List.dropLast_concat_getLast hne).symm⟩
  unfold heappop
  rw [List.getLast?_concat, List.dropLast_concat]
  dsimp only
  have root : ∀ m, (l ++ [last])[0]? = some m → LtLaws lt → IsHeap lt (l ++ [last]) → ∀ b ∈ l ++ [last], lt b m = false := by
    intro m hm L hh b hb
    obtain ⟨i, hi, rfl⟩ := List.getElem_of_mem hb
    exact heap_root L hh hm i _ (List.getElem?_eq_getElem hi)
  cases l with
  | nil => exact ⟨last, [], rfl, .refl _, fun L hh => ⟨fun i a b _ _ hb => by simp at hb, root _ rfl L hh⟩⟩
  | cons top t =>
    have hperm : (top :: t ++ [last]).Perm (top :: last :: t) := (List.perm_append_singleton last t).cons top
    have hp2 : (last :: t).Pairwise (Cmp ltE lt) := (List.pairwise_cons.1 (hperm.pairwise hp (fun hab => hab.symm))).2
    obtain ⟨h', e1, e2, e3⟩ := siftUp_spec (ltE := ltE) (lt := lt) (x := last) (last :: t).length 0 (last :: t) (by omega) (by simp) hp2
    dsimp only
    rw [e1]
    refine ⟨top, h', rfl, hperm.trans (e2.symm.cons top), fun L hh => ⟨e3 L ⟨fun i a b hi hi0 hi2 ha hb => ?_, fun c a b _ h0 => by omega⟩, root _ rfl L hh⟩⟩
    have hg : ∀ j y, j ≠ 0 → (last :: t)[j]? = some y → (top :: t ++ [last])[j]? = some y := by
      intro j y hj hy
      have hl := (List.getElem?_eq_some_iff.1 hy).1
      rw [List.getElem?_append_left (by simpa using hl)]
      cases j with
      | zero => omega
      | succ j => simpa using hy
    exact hh i a b hi (hg _ _ hi2 (by simpa using ha)) (hg _ _ hi0 (by simpa using hb))

end GT

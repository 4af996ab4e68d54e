import Verif.Graph.FuncLemmas
import Verif.Graph.Misc
import Verif.Search.Bridge
import Verif.Sort
import Verif.Spec.Hash
/-
Model of `graph_hash` (graph/hash_methods.py:6-16).
-/
namespace GT
variable {α V O C : Type} [DecidableEq α]
open Graph

/-- `"|".join(l)` -/
def barJoin : List (List Char) → List Char
  | [] => []
  | [x] => x
  | x :: y :: l => x ++ '|' :: barJoin (y :: l)

/-- comparison of the tuples `(n1, n2, value)`; no two edges share both nodes, so the values are not compared -/
def edgeLt (nlt : α → α → Bool) (e f : α × α × V) : Bool := if e.1 = f.1 then nlt e.2.1 f.2.1 else nlt e.1 f.1

/-- the text that is hashed (hash_methods.py:13-15): `str` is `str` on nodes, `estr` on edge tuples, `nlt` is `<` on nodes.
Simplification: nodes that cannot be compared raise `TypeError` in `sorted`; here all nodes are comparable (see Other/HashCmp). -/
def Graph.hashText (nlt : α → α → Bool) (str : α → List Char) (estr : α × α × V → List Char) (g : Graph α V O) : List Char :=
  barJoin ((pySort nlt g.nodeList).map str) ++ barJoin ((pySort (edgeLt nlt) g.edgeList).map estr)

/-- `graph_hash(graph)` (hash_methods.py:6-16): `H` is `int(sha3_256(bytes(., 'utf-8')).hexdigest(), 16)` -/
def Graph.graphHash (H : List Char → C) (nlt : α → α → Bool) (str : α → List Char) (estr : α × α × V → List Char) (g : Graph α V O) : C :=
  H (g.hashText nlt str estr)

/-! ### sorting -/

/-- `<` on the nodes is a strict total order -/
structure TotalOrder (nlt : α → α → Bool) : Prop where
  irrefl : ∀ a, nlt a a = false
  trans : ∀ a b c, nlt a b = true → nlt b c = true → nlt a c = true
  total : ∀ a b, a ≠ b → nlt a b = true ∨ nlt b a = true

omit [DecidableEq α] in
theorem TotalOrder.asymm {nlt : α → α → Bool} (h : TotalOrder nlt) (a b : α) (h1 : nlt a b = true) : nlt b a = false := by
  cases h2 : nlt b a with
  | false => rfl
  | true => have := h.trans a b a h1 h2; rw [h.irrefl] at this; cases this

theorem TotalOrder.ntrans {nlt : α → α → Bool} (h : TotalOrder nlt) (a b c : α) (h1 : nlt b a = false) (h2 : nlt c b = false) : nlt c a = false := by
  by_cases hab : a = b
  · subst hab; exact h2
  · rcases h.total a b hab with h3 | h3
    · by_cases hbc : b = c
      · subst hbc; exact h1
      · rcases h.total b c hbc with h4 | h4
        · exact h.asymm _ _ (h.trans a b c h3 h4)
        · rw [h2] at h4; cases h4
    · rw [h1] at h3; cases h3

omit [DecidableEq α] in
theorem TotalOrder.anti {nlt : α → α → Bool} (h : TotalOrder nlt) {a b : α} (h1 : nlt a b = false) (h2 : nlt b a = false) : a = b := by
  refine Classical.byContradiction fun hne => ?_
  rcases h.total a b hne with h3 | h3
  · rw [h1] at h3; cases h3
  · rw [h2] at h3; cases h3

theorem edgeLt_asymm {nlt : α → α → Bool} (h : TotalOrder nlt) (e f : α × α × V) (h1 : edgeLt nlt e f = true) : edgeLt nlt f e = false := by
  unfold edgeLt at *
  by_cases he : e.1 = f.1
  · rw [if_pos he] at h1; rw [if_pos he.symm]; exact h.asymm _ _ h1
  · rw [if_neg he] at h1; rw [if_neg (fun h => he h.symm)]; exact h.asymm _ _ h1

theorem edgeLt_ntrans {nlt : α → α → Bool} (h : TotalOrder nlt) (a b c : α × α × V) (h1 : edgeLt nlt b a = false) (h2 : edgeLt nlt c b = false) :
    edgeLt nlt c a = false := by
  unfold edgeLt at *
  by_cases hab : a.1 = b.1
  · rw [if_pos hab.symm] at h1
    by_cases hbc : b.1 = c.1
    · rw [if_pos hbc.symm] at h2; rw [if_pos (hab.trans hbc).symm]; exact h.ntrans _ _ _ h1 h2
    · rw [if_neg (fun h => hbc h.symm)] at h2
      rw [if_neg (fun h => hbc (hab ▸ h.symm)), hab]; exact h2
  · rw [if_neg (fun h => hab h.symm)] at h1
    by_cases hbc : b.1 = c.1
    · rw [if_neg (fun h => hab (by rw [hbc, h])), ← hbc]; exact h1
    · rw [if_neg (fun h => hbc h.symm)] at h2
      by_cases hac : c.1 = a.1
      · -- then b.1 = a.1
        rw [hac] at h2
        exact absurd (h.anti h2 h1) hab
      · rw [if_neg hac]; exact h.ntrans _ _ _ h1 h2

/-- two sorted permutations of each other are equal, if `<` separates their elements -/
theorem sorted_unique {β : Type} {lt : β → β → Bool} : ∀ (l m : List β), l.Perm m → l.Pairwise (fun a b => lt b a = false) →
    m.Pairwise (fun a b => lt b a = false) → (∀ a ∈ l, ∀ b ∈ l, lt a b = false → lt b a = false → a = b) → l = m
  | [], m, hp, _, _, _ => by rw [List.nil_perm.1 hp]
  | a :: l, [], hp, _, _, _ => by have := hp.length_eq; simp at this
  | a :: l, b :: m, hp, h1, h2, hs => by
    rw [List.pairwise_cons] at h1 h2
    have hab : a = b := by
      refine Classical.byContradiction fun hne => ?_
      have ha : a ∈ m := by
        have := hp.mem_iff.1 (List.mem_cons_self .. : a ∈ a :: l)
        rcases List.mem_cons.1 this with h | h
        · exact absurd h hne
        · exact h
      have hb : b ∈ l := by
        have := hp.mem_iff.2 (List.mem_cons_self .. : b ∈ b :: m)
        rcases List.mem_cons.1 this with h | h
        · exact absurd h.symm hne
        · exact h
      exact hne (hs a (List.mem_cons_self ..) b (List.mem_cons_of_mem _ hb) (h2.1 a ha) (h1.1 b hb))
    subst hab
    rw [sorted_unique l m (List.Perm.cons_inv hp) h1.2 h2.2 (fun x hx y hy => hs x (List.mem_cons_of_mem _ hx) y (List.mem_cons_of_mem _ hy))]

theorem pySort_unique {β : Type} {lt : β → β → Bool} (htr : ∀ a b c, lt b a = false → lt c b = false → lt c a = false)
    (has : ∀ a b, lt a b = true → lt b a = false) {l m : List β} (hp : l.Perm m)
    (hs : ∀ a ∈ l, ∀ b ∈ l, lt a b = false → lt b a = false → a = b) : pySort lt l = pySort lt m :=
  sorted_unique _ _ ((pySort_perm lt l).trans (hp.trans (pySort_perm lt m).symm)) (pySort_pairwise htr has l) (pySort_pairwise htr has m)
    (fun a ha b hb => hs a (mem_pySort.1 ha) b (mem_pySort.1 hb))

theorem perm_of_same {β : Type} {l m : List β} (hl : l.Nodup) (hm : m.Nodup) (h : ∀ x, x ∈ l ↔ x ∈ m) : l.Perm m := by
  classical
  exact (List.perm_ext_iff_of_nodup hl hm).2 h

/-- the hash depends on the nodes and edges only -/
theorem graphHash_same {O' : Type} {H : List Char → C} {nlt : α → α → Bool} (ho : TotalOrder nlt) {str : α → List Char} {estr : α × α × V → List Char}
    {g : Graph α V O} {g' : Graph α V O'} (hg : g.Inv) (hg' : g'.Inv) (hn : ∀ x, g.has x = g'.has x) (he : ∀ a b, g.edge a b = g'.edge a b) :
    g.graphHash H nlt str estr = g'.graphHash H nlt str estr := by
  unfold graphHash hashText
  have h1 : g.nodeList.Perm g'.nodeList := perm_of_same hg.nodesWF hg'.nodesWF (fun x => by rw [← has_iff, ← has_iff, hn])
  have h2 : g.edgeList.Perm g'.edgeList := perm_of_same hg.edgeList_nodup hg'.edgeList_nodup (fun ⟨a, b, v⟩ => by
    rw [hg.mem_edgeList, hg'.mem_edgeList, he])
  rw [pySort_unique ho.ntrans ho.asymm h1 (fun a _ b _ => ho.anti)]
  rw [pySort_unique (edgeLt_ntrans ho) (edgeLt_asymm ho) h2]
  rintro ⟨a, b, v⟩ hm ⟨a', b', v'⟩ hm' e1 e2
  unfold edgeLt at e1 e2
  dsimp only at e1 e2
  rw [hg.mem_edgeList] at hm hm'
  by_cases haa : a = a'
  · rw [if_pos haa] at e1; rw [if_pos haa.symm] at e2
    have hbb := ho.anti e1 e2
    subst haa hbb
    rw [hm] at hm'; cases hm'; rfl
  · rw [if_neg haa] at e1; rw [if_neg (fun h => haa h.symm)] at e2
    exact absurd (ho.anti e1 e2) haa

/-! ### decoding -/

theorem barJoin_cons (x : List Char) (l : List (List Char)) (h : l ≠ []) : barJoin (x :: l) = x ++ '|' :: barJoin l := by
  cases l with
  | nil => exact absurd rfl h
  | cons y l => rfl

/-- splitting at the first bar -/
theorem bar_split {x y : List Char} {s t : List Char} (hx : '|' ∉ x) (hy : '|' ∉ y) (h : x ++ '|' :: s = y ++ '|' :: t) : x = y ∧ s = t := by
  induction x generalizing y with
  | nil =>
    cases y with
    | nil => simp at h; exact ⟨rfl, h⟩
    | cons c y => simp at h; exact absurd (by rw [h.1]; simp) hy
  | cons c x ih =>
    cases y with
    | nil => simp at h; exact absurd (by rw [← h.1]; simp) hx
    | cons d y =>
      simp at h
      have := ih (fun hh => hx (List.mem_cons_of_mem _ hh)) (fun hh => hy (List.mem_cons_of_mem _ hh)) h.2
      exact ⟨by rw [h.1, this.1], this.2⟩

theorem barJoin_inj : ∀ (l m : List (List Char)), (∀ x ∈ l, x ≠ [] ∧ '|' ∉ x) → (∀ x ∈ m, x ≠ [] ∧ '|' ∉ x) → barJoin l = barJoin m → l = m
  | [], [], _, _, _ => rfl
  | [], [y], _, hm, h => absurd h.symm (hm y (by simp)).1
  | [], y :: z :: m, _, _, h => by rw [barJoin_cons _ _ (by simp)] at h; simp [barJoin] at h
  | [x], [], hl, _, h => absurd h (hl x (by simp)).1
  | x :: z :: l, [], _, _, h => by rw [barJoin_cons _ _ (by simp)] at h; simp [barJoin] at h
  | [x], [y], _, _, h => by simp [barJoin] at h; rw [h]
  | [x], y :: z :: m, hl, _, h => by
    rw [barJoin_cons y _ (by simp)] at h
    exact absurd (by show '|' ∈ barJoin [x]; rw [h]; simp) (hl x (by simp)).2
  | x :: z :: l, [y], _, hm, h => by
    rw [barJoin_cons x _ (by simp)] at h
    exact absurd (by show '|' ∈ barJoin [y]; rw [← h]; simp) (hm y (by simp)).2
  | x :: z :: l, y :: w :: m, hl, hm, h => by
    rw [barJoin_cons x _ (by simp), barJoin_cons y _ (by simp)] at h
    obtain ⟨h1, h2⟩ := bar_split (hl x (by simp)).2 (hm y (by simp)).2 h
    rw [h1, barJoin_inj (z :: l) (w :: m) (fun x hx => hl x (List.mem_cons_of_mem _ hx)) (fun x hx => hm x (List.mem_cons_of_mem _ hx)) h2]

theorem mem_barJoin {c : Char} {l : List (List Char)} (hc : c ≠ '|') (h : c ∈ barJoin l) : ∃ x ∈ l, c ∈ x := by
  induction l with
  | nil => cases h
  | cons x l ih =>
    by_cases hl : l = []
    · subst hl; exact ⟨x, by simp, h⟩
    · rw [barJoin_cons _ _ hl, List.mem_append, List.mem_cons] at h
      rcases h with h | h | h
      · exact ⟨x, by simp, h⟩
      · exact absurd h hc
      · obtain ⟨y, hy, hc⟩ := ih h; exact ⟨y, List.mem_cons_of_mem _ hy, hc⟩

/-- a text without `(` followed by a text that is empty or starts with `(` -/
theorem paren_split {x y s t : List Char} (hx : '(' ∉ x) (hy : '(' ∉ y) (hs : s = [] ∨ ∃ s', s = '(' :: s') (ht : t = [] ∨ ∃ t', t = '(' :: t')
    (h : x ++ s = y ++ t) : x = y ∧ s = t := by
  induction x generalizing y with
  | nil =>
    cases y with
    | nil => exact ⟨rfl, h⟩
    | cons c y =>
      rcases hs with rfl | ⟨s', rfl⟩
      · simp at h
      · simp at h; exact absurd (by rw [h.1]; simp) hy
  | cons c x ih =>
    cases y with
    | nil =>
      rcases ht with rfl | ⟨t', rfl⟩
      · simp at h
      · simp at h; exact absurd (by rw [← h.1]; simp) hx
    | cons d y =>
      simp at h
      have := ih (fun hh => hx (List.mem_cons_of_mem _ hh)) (fun hh => hy (List.mem_cons_of_mem _ hh)) h.2
      exact ⟨by rw [h.1, this.1], this.2⟩

theorem barJoin_head {l : List (List Char)} (h : ∀ x ∈ l, ∃ y, x = '(' :: y) : barJoin l = [] ∨ ∃ s, barJoin l = '(' :: s := by
  cases l with
  | nil => exact .inl rfl
  | cons x l =>
    obtain ⟨y, hy⟩ := h x (by simp)
    right
    by_cases hl : l = []
    · subst hl; exact ⟨y, hy⟩
    · rw [barJoin_cons _ _ hl, hy]; exact ⟨_, rfl⟩

theorem map_inj_on {β γ : Type} {f : β → γ} : ∀ (l m : List β), (∀ x ∈ l, ∀ y ∈ m, f x = f y → x = y) → l.map f = m.map f → l = m
  | [], [], _, _ => rfl
  | [], _ :: _, _, h => nomatch h
  | _ :: _, [], _, h => nomatch h
  | x :: l, y :: m, hc, h => by
    rw [List.map_cons, List.map_cons, List.cons.injEq] at h
    rw [hc x (by simp) y (by simp) h.1, map_inj_on l m (fun x hx y hy => hc x (List.mem_cons_of_mem _ hx) y (List.mem_cons_of_mem _ hy)) h.2]

/-- the nodes and edges are rendered differently, without bars, and as usual: nodes without parentheses, edges as tuples -/
structure PlainText (str : α → List Char) (estr : α × α × V → List Char) (N : List α) (E : List (α × α × V)) : Prop where
  node : ∀ a ∈ N, str a ≠ [] ∧ '|' ∉ str a ∧ '(' ∉ str a
  nodeInj : ∀ a ∈ N, ∀ b ∈ N, str a = str b → a = b
  edge : ∀ e ∈ E, '|' ∉ estr e ∧ ∃ s, estr e = '(' :: s
  edgeInj : ∀ e ∈ E, ∀ f ∈ E, estr e = estr f → e = f

theorem hashText_inj {O' : Type} {nlt : α → α → Bool} {str : α → List Char} {estr : α × α × V → List Char} {g : Graph α V O} {g' : Graph α V O'}
    (hg : g.Inv) (hg' : g'.Inv) (hp : PlainText str estr (g.nodeList ++ g'.nodeList) (g.edgeList ++ g'.edgeList))
    (h : g.hashText nlt str estr = g'.hashText nlt str estr) : (∀ x, g.has x = g'.has x) ∧ ∀ a b, g.edge a b = g'.edge a b := by
  unfold hashText at h
  have hN : ∀ (l : List α), (∀ a ∈ l, a ∈ g.nodeList ++ g'.nodeList) → '(' ∉ barJoin (l.map str) ∧ ∀ x ∈ l.map str, x ≠ [] ∧ '|' ∉ x := by
    intro l hl
    refine ⟨fun hm => ?_, fun x hx => ?_⟩
    · obtain ⟨x, hx, hc⟩ := mem_barJoin (by decide) hm
      obtain ⟨a, ha, rfl⟩ := List.mem_map.1 hx
      exact (hp.node a (hl a ha)).2.2 hc
    · obtain ⟨a, ha, rfl⟩ := List.mem_map.1 hx
      exact ⟨(hp.node a (hl a ha)).1, (hp.node a (hl a ha)).2.1⟩
  have hE : ∀ (l : List (α × α × V)), (∀ a ∈ l, a ∈ g.edgeList ++ g'.edgeList) → (∀ x ∈ l.map estr, ∃ y, x = '(' :: y) ∧ ∀ x ∈ l.map estr, x ≠ [] ∧ '|' ∉ x := by
    intro l hl
    refine ⟨fun x hx => ?_, fun x hx => ?_⟩
    · obtain ⟨a, ha, rfl⟩ := List.mem_map.1 hx
      exact (hp.edge a (hl a ha)).2
    · obtain ⟨a, ha, rfl⟩ := List.mem_map.1 hx
      obtain ⟨h1, s, h2⟩ := hp.edge a (hl a ha)
      exact ⟨by rw [h2]; simp, h1⟩
  have s1 : ∀ a ∈ pySort nlt g.nodeList, a ∈ g.nodeList ++ g'.nodeList := fun a ha => by simp [mem_pySort.1 ha]
  have s2 : ∀ a ∈ pySort nlt g'.nodeList, a ∈ g.nodeList ++ g'.nodeList := fun a ha => by simp [mem_pySort.1 ha]
  have s3 : ∀ a ∈ pySort (edgeLt nlt) g.edgeList, a ∈ g.edgeList ++ g'.edgeList := fun a ha => by simp [mem_pySort.1 ha]
  have s4 : ∀ a ∈ pySort (edgeLt nlt) g'.edgeList, a ∈ g.edgeList ++ g'.edgeList := fun a ha => by simp [mem_pySort.1 ha]
  obtain ⟨e1, e2⟩ := paren_split (hN _ s1).1 (hN _ s2).1 (barJoin_head (hE _ s3).1) (barJoin_head (hE _ s4).1) h
  have n1 := barJoin_inj _ _ (hN _ s1).2 (hN _ s2).2 e1
  have n2 := barJoin_inj _ _ (hE _ s3).2 (hE _ s4).2 e2
  have m1 := map_inj_on _ _ (fun x hx y hy => hp.nodeInj x (s1 x hx) y (s2 y hy)) n1
  have m2 := map_inj_on _ _ (fun x hx y hy => hp.edgeInj x (s3 x hx) y (s4 y hy)) n2
  refine ⟨fun x => ?_, fun a b => Option.ext fun v => ?_⟩
  · rw [Bool.eq_iff_iff, has_iff, has_iff, ← mem_pySort (lt := nlt), m1, mem_pySort]
  · rw [← hg.mem_edgeList, ← hg'.mem_edgeList, ← mem_pySort (lt := edgeLt nlt), m2, mem_pySort]

end GT

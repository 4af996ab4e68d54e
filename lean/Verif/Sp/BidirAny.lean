import Verif.Sp.BidirMain
import Verif.Spec.Dist
/-
`shortest_path_bidirectional` (graph/shortest_path.py:61-242) with arbitrary edge values: whenever it returns, it returns a walk and its value, and
`(inf, [])` only if there is no walk; it returns if there is no negative cycle.
-/
namespace GT
variable {α V O : Type} [DecidableEq α]
open Graph

/-! ### the number of improvements that are still possible -/

/-- how many pairs of a node and a value would still be an improvement -/
def pot (U : List α) (vals : List Rat) (mins : Dict α Rat) : Nat := (U.map (fun y => (vals.filter (improves mins y)).length)).sum

theorem filterLen_le {β : Type} {P Q : β → Bool} : ∀ (l : List β), (∀ x ∈ l, P x = true → Q x = true) → (l.filter P).length ≤ (l.filter Q).length
  | [], _ => Nat.le_refl _
  | a :: l, h => by
    have ih := filterLen_le l (fun x hx => h x (List.mem_cons_of_mem _ hx))
    have ha := h a (by simp)
    simp only [List.filter_cons]
    cases hp : P a with
    | true => rw [ha hp]; simp; exact ih
    | false => cases Q a <;> simp <;> omega

theorem filterLen_lt {β : Type} {P Q : β → Bool} : ∀ (l : List β), (∀ x ∈ l, P x = true → Q x = true) → ∀ c ∈ l, P c = false → Q c = true →
    (l.filter P).length < (l.filter Q).length
  | [], _, c, hc, _, _ => by cases hc
  | a :: l, h, c, hc, hp, hq => by
    have hle := filterLen_le l (fun x hx => h x (List.mem_cons_of_mem _ hx))
    rcases List.mem_cons.1 hc with rfl | hc
    · simp only [List.filter_cons, hp, hq]; simp; omega
    · have ih := filterLen_lt l (fun x hx => h x (List.mem_cons_of_mem _ hx)) c hc hp hq
      have ha := h a (by simp)
      simp only [List.filter_cons]
      cases hp : P a with
      | true => rw [ha hp]; simp; exact ih
      | false => cases Q a <;> simp <;> omega

theorem sumMap_le {β : Type} {f k : β → Nat} : ∀ (l : List β), (∀ x ∈ l, f x ≤ k x) → (l.map f).sum ≤ (l.map k).sum
  | [], _ => Nat.le_refl _
  | a :: l, h => by
    have := sumMap_le l (fun x hx => h x (List.mem_cons_of_mem _ hx))
    have := h a (by simp)
    simp; omega

theorem sumMap_lt {β : Type} {f k : β → Nat} : ∀ (l : List β), (∀ x ∈ l, f x ≤ k x) → ∀ y ∈ l, f y < k y → (l.map f).sum < (l.map k).sum
  | [], _, y, hy, _ => by cases hy
  | a :: l, h, y, hy, hlt => by
    have h1 := sumMap_le l (fun x hx => h x (List.mem_cons_of_mem _ hx))
    have h2 := h a (by simp)
    rcases List.mem_cons.1 hy with rfl | hy
    · simp; omega
    · have := sumMap_lt l (fun x hx => h x (List.mem_cons_of_mem _ hx)) y hy hlt
      simp; omega

theorem improves_iff {mins : Dict α Rat} {y : α} {c : Rat} : improves mins y c = true ↔ ∀ m, mins.get? y = some m → c < m := by
  unfold improves
  cases mins.get? y with
  | none => simp
  | some m => simp

theorem pot_set {U : List α} {vals : List Rat} {mins : Dict α Rat} {y : α} {c : Rat} (hy : y ∈ U) (hc : c ∈ vals) (h : improves mins y c = true) :
    pot U vals (mins.set y c) < pot U vals mins := by
  have hle : ∀ x d, improves (mins.set y c) x d = true → improves mins x d = true := by
    intro x d hd
    rw [improves_iff] at hd ⊢
    intro m hm
    by_cases hx : y = x
    · subst hx
      have h1 := hd c (by simp)
      have h2 := improves_iff.1 h m hm
      grind
    · exact hd m (by rw [Dict.get?_set_ne _ _ hx]; exact hm)
  refine sumMap_lt U (fun x _ => filterLen_le vals (fun d _ => hle x d)) y hy ?_
  refine filterLen_lt vals (fun d _ => hle y d) c hc ?_ h
  have : ¬ improves (mins.set y c) y c = true := by
    rw [improves_iff]; intro hh; exact absurd (hh c (by simp)) Rat.lt_irrefl
  simpa using this

theorem length_insort (x : Scan α) (l : List (Scan α)) : (insort x l).length = l.length + 1 := by
  induction l with
  | nil => rfl
  | cons y l ih => unfold insort; split <;> simp [ih]

theorem biRelax_pot {cost : Rat} {path : List α} {spLen : Ext} {omins mins0 : Dict α Rat} {U : List α} {vals : List Rat} (l : List (α × Rat))
    (hl : ∀ y d, (y, d) ∈ l → y ∈ U ∧ (improves mins0 y (cost + d) = true → cost + d ∈ vals)) :
    ∀ (q : List (Scan α)) (mins : Dict α Rat) (paths : Dict α (List α)), (∀ y m, mins0.get? y = some m → ∃ m', mins.get? y = some m' ∧ m' ≤ m) →
    2 * pot U vals (biRelax cost path spLen omins l (q, mins, paths)).2.1 + (biRelax cost path spLen omins l (q, mins, paths)).1.length ≤
      2 * pot U vals mins + q.length := by
  induction l with
  | nil => intro q mins paths _; exact Nat.le_refl _
  | cons a l ih =>
    obtain ⟨n2, dist⟩ := a
    intro q mins paths hm
    have ih := ih (fun y d hy => hl y d (List.mem_cons_of_mem _ hy))
    simp only [biRelax]
    split
    · exact ih _ _ _ hm
    · split
      · exact ih _ _ _ hm
      · split
        · rename_i h3
          obtain ⟨hU, hv⟩ := hl n2 dist (by simp)
          have h4 := improves_iff.1 h3
          have hv := hv (improves_iff.2 fun m0 h0 => by
            obtain ⟨m', h5, h6⟩ := hm n2 m0 h0
            have := h4 m' h5
            grind)
          have h5 := pot_set hU hv h3
          have h6 := ih (insort ⟨cost + dist, n2, path⟩ q) (mins.set n2 (cost + dist)) (paths.set n2 path) (fun y m hy => by
            obtain ⟨m', h7, h8⟩ := hm y m hy
            by_cases hn : n2 = y
            · subst hn; exact ⟨cost + dist, by simp, by have := h4 m' h7; grind⟩
            · exact ⟨m', by rw [Dict.get?_set_ne _ _ hn]; exact h7, h8⟩)
          rw [length_insort] at h6
          omega
        · exact ih _ _ _ hm

/-- all lists of at most `n` elements of `U` -/
def listsUpTo (U : List α) : Nat → List (List α)
  | 0 => [[]]
  | n + 1 => [] :: U.flatMap (fun x => (listsUpTo U n).map (fun l => x :: l))

theorem mem_listsUpTo {U : List α} : ∀ (n : Nat) (l : List α), l.length ≤ n → (∀ x ∈ l, x ∈ U) → l ∈ listsUpTo U n
  | 0, l, h, _ => by cases l with
    | nil => simp [listsUpTo]
    | cons a l => simp at h
  | n + 1, [], _, _ => by simp [listsUpTo]
  | n + 1, a :: l, h, hU => by
    have := mem_listsUpTo n l (by simpa using h) (fun x hx => hU x (List.mem_cons_of_mem _ hx))
    simp only [listsUpTo, List.mem_cons, List.mem_flatMap, List.mem_map]
    exact .inr ⟨a, hU a (by simp), l, this, rfl⟩

theorem dup_free_length : ∀ {l m : List α}, l.Nodup → (∀ x ∈ l, x ∈ m) → l.length ≤ m.length
  | [], m, _, _ => by simp
  | a :: l, m, h, hs => by
    rw [List.nodup_cons] at h
    have ha : a ∈ m := hs a (by simp)
    have := dup_free_length (l := l) (m := m.erase a) h.2 (fun x hx => by
      have hne : x ≠ a := fun e => h.1 (e ▸ hx)
      exact (List.mem_erase_of_ne hne).2 (hs x (List.mem_cons_of_mem _ hx)))
    rw [List.length_erase_of_mem ha] at this
    have : 0 < m.length := List.length_pos_of_mem ha
    simp; omega

/-- the values of all paths without repeated nodes -/
def simpleVals (w : α → α → Option Rat) (U : List α) : List Rat := (listsUpTo U U.length).filterMap (walkCost w)

theorem mem_simpleVals {w : α → α → Option Rat} {U : List α} {a b : α} {p : List α} {c : Rat} (h : WalkOf w a b p c) (hn : p.Nodup)
    (hU : ∀ x ∈ p, x ∈ U) : c ∈ simpleVals w U :=
  List.mem_filterMap.2 ⟨p, mem_listsUpTo _ _ (dup_free_length hn hU) hU, h.2.2⟩

/-! ### one side -/

structure SideAny (ws : α → α → Option Rat) (U av : List α) (root : α) (s : Side α) : Prop where
  ent : ∀ e ∈ s.q, WalkOf ws root e.n1 (e.path.reverse ++ [e.n1]) e.cost ∧
    (∀ x ∈ e.path.reverse ++ [e.n1], (x ∉ av ∨ x = root) ∧ x ∈ U) ∧ (∃ m, s.mins.get? e.n1 = some m)
  label : ∀ y m, s.mins.get? y = some m → ∃ p, s.paths.get? y = some p ∧
    WalkOf ws root y (p.reverse ++ [y]) m ∧ ∀ x ∈ p.reverse ++ [y], x ∉ av ∨ x = root
  closed : ∀ x ∈ s.boundary, ∃ m, s.mins.get? x = some m
  pre : ∀ e ∈ s.q, ∀ l z r, e.path.reverse ++ [e.n1] = l ++ z :: r → ∀ c, WalkOf ws root z (l ++ [z]) c → ∃ m, s.mins.get? z = some m ∧ m ≤ c
  nodup : NoNegCycle ws → ∀ e ∈ s.q, (e.path.reverse ++ [e.n1]).Nodup

/-- while nothing has been found, everything next to a settled node is known, and everything known is settled or waits -/
structure ExpAny (ws : α → α → Option Rat) (av : List α) (root : α) (s : Side α) : Prop where
  rt : ∃ m, s.mins.get? root = some m
  done : ∀ x ∈ s.boundary, ∀ y c, ws x y = some c → y ∉ av → ∃ m, s.mins.get? y = some m
  pend : ∀ y m, s.mins.get? y = some m → y ∈ s.boundary ∨ ∃ e ∈ s.q, e.n1 = y

structure BestAny (ws : α → α → Option Rat) (av : List α) (root root' : α) (dir : Bool) (s o : Side α) : Prop where
  len : s.spLen = o.spLen
  sp : s.sp = o.sp
  inf : s.spLen = .inf → s.sp = [] ∧ ExpAny ws av root s ∧ ExpAny (fun x y => ws y x) av root' o ∧ ∀ x, x ∈ s.boundary → x ∉ o.boundary
  fin : ∀ m, s.spLen = .fin m → WalkOf ws root root' (if dir then s.sp else s.sp.reverse) m ∧ ∀ x ∈ s.sp, x ∉ av ∨ x = root ∨ x = root'

theorem BestAny.symm {ws : α → α → Option Rat} {av : List α} {root root' : α} {dir : Bool} {s o : Side α}
    (h : BestAny ws av root root' dir s o) : BestAny (fun x y => ws y x) av root' root (!dir) o s := by
  refine ⟨h.len.symm, h.sp.symm, fun hi => ?_, fun m hm => ?_⟩
  · obtain ⟨h1, h2, h3, h4⟩ := h.inf (h.len.trans hi)
    exact ⟨by rw [← h.sp]; exact h1, h3, h2, fun x hx hx' => h4 x hx' hx⟩
  · obtain ⟨h1, h2⟩ := h.fin m (h.len.trans hm)
    refine ⟨?_, fun x hx => ?_⟩
    · rw [← h.sp]
      have := h1.reverse
      cases dir <;> simpa using this
    · rcases h2 x (by rw [h.sp]; exact hx) with h | h | h
      · exact .inl h
      · exact .inr (.inr h)
      · exact .inr (.inl h)

theorem intercept_any {ws : α → α → Option Rat} {U av : List α} {root root' : α} {dir : Bool}
    {self other : Side α} {st : Scan α} {q : List (Scan α)}
    (hs : SideAny ws U av root self) (ho : SideAny (fun x y => ws y x) U av root' other)
    (hb : BestAny ws av root root' dir self other) (hq : self.q = st :: q) :
    ∃ sp spLen q1, intercept dir st q self other = .ok (sp, spLen, q1) ∧
      spLen.gt self.spLen = false ∧ q1.Sublist q ∧
      (spLen = .inf → sp = [] ∧ self.spLen = .inf ∧ q1 = q ∧ st.n1 ∉ other.boundary) ∧
      (∀ m, spLen = .fin m → WalkOf ws root root' (if dir then sp else sp.reverse) m ∧
        (∀ x ∈ sp, x ∉ av ∨ x = root ∨ x = root')) := by
  by_cases hbd : st.n1 ∈ other.boundary
  · obtain ⟨om, hom⟩ := ho.closed _ hbd
    by_cases hlt : ltExt (st.cost + om) self.spLen = true
    · obtain ⟨op, hop, hopw, hopa⟩ := ho.label _ _ hom
      have hie : intercept dir st q self other = .ok (if dir then st.path.reverse ++ [st.n1] ++ op else op.reverse ++ [st.n1] ++ st.path,
            .fin (st.cost + om), q.filter (fun a => decide (a.cost < st.cost + om))) := by
        unfold intercept; rw [if_pos hbd, hom]; dsimp only; rw [if_pos hlt, hop]
      obtain ⟨hw, ha, _⟩ := hs.ent st (by rw [hq]; simp)
      have hjoin : WalkOf ws root root' (st.path.reverse ++ [st.n1] ++ op) (st.cost + om) := by
        have h1 := hopw.reverse
        simp only [List.reverse_append, List.reverse_cons, List.reverse_nil, List.nil_append, List.reverse_reverse,
          List.singleton_append] at h1
        exact hw.append h1
      refine ⟨_, _, _, hie, ?_, List.filter_sublist, (fun h => nomatch h), fun m hm => ?_⟩
      · cases hsl : self.spLen with
        | inf => rfl
        | fin q => rw [hsl] at hlt; simp [ltExt] at hlt; simp [Ext.gt, gtExt]; grind
      · cases hm
        refine ⟨?_, ?_⟩
        · cases dir with
          | true => simpa using hjoin
          | false => simpa using hjoin
        · intro x hx
          have hx' : x ∈ st.path.reverse ++ [st.n1] ∨ x ∈ op.reverse ++ [st.n1] := by
            cases dir with
            | true =>
              simp only [if_true, List.mem_append, List.mem_reverse, List.mem_singleton] at hx ⊢
              rcases hx with (h | h) | h
              · exact .inl (.inl h)
              · exact .inl (.inr h)
              · exact .inr (.inl h)
            | false =>
              simp only [Bool.false_eq_true, if_false, List.mem_append, List.mem_reverse, List.mem_singleton] at hx ⊢
              rcases hx with (h | h) | h
              · exact .inr (.inl h)
              · exact .inl (.inr h)
              · exact .inl (.inl h)
          rcases hx' with h | h
          · rcases (ha x h).1 with h | h
            · exact .inl h
            · exact .inr (.inl h)
          · rcases hopa x h with h | h
            · exact .inl h
            · exact .inr (.inr h)
    · have hie : intercept dir st q self other = .ok (self.sp, self.spLen, q) := by
        unfold intercept; rw [if_pos hbd, hom]; dsimp only; rw [if_neg hlt]
      refine ⟨_, _, _, hie, not_gt_self _, List.Sublist.refl _, fun hi => ?_, hb.fin⟩
      rw [hi] at hlt; simp [ltExt] at hlt
  · have hie : intercept dir st q self other = .ok (self.sp, self.spLen, q) := by
      unfold intercept; rw [if_neg hbd]
    exact ⟨_, _, _, hie, not_gt_self _, List.Sublist.refl _, fun hi => ⟨(hb.inf hi).1, hi, rfl, hbd⟩, hb.fin⟩

/-- remaining work of one side -/
def anyWork (U : List α) (vals : List Rat) (s : Side α) : Nat := 2 * pot U vals s.mins + s.q.length

/-- everything `search` maintains, whatever the values -/
theorem search_any {ws : α → α → Option Rat} {U av : List α} (hU : ∀ x y c, ws x y = some c → x ∈ U ∧ y ∈ U)
    {nbr : α → List (α × Rat)} (hn : ∀ x y c, (y, c) ∈ nbr x ↔ ws x y = some c)
    {srt : List (α × Rat) → List (α × Rat)} (hsrt : ∀ l, (srt l).Perm l)
    {root root' : α} {dir : Bool} {self other : Side α}
    (hs : SideAny ws U av root self) (ho : SideAny (fun x y => ws y x) U av root' other)
    (hb : BestAny ws av root root' dir self other) :
    ∃ self' other', self.search dir nbr srt av other = .ok (self', other') ∧
      SideAny ws U av root self' ∧ SideAny (fun x y => ws y x) U av root' other' ∧
      BestAny ws av root root' dir self' other' ∧ (other'.q = other.q ∧ other'.mins = other.mins) ∧
      (self.q = [] → self' = self) ∧
      (NoNegCycle ws → self.q ≠ [] → anyWork U (simpleVals ws U) self' < anyWork U (simpleVals ws U) self) := by
  unfold Side.search
  cases hq : self.q with
  | nil => exact ⟨self, other, rfl, hs, ho, hb, ⟨rfl, rfl⟩, fun _ => rfl, fun _ h => absurd rfl h⟩
  | cons st q =>
    dsimp only
    have hstq : st ∈ self.q := by rw [hq]; simp
    have hsub : ∀ e ∈ q, e ∈ self.q := fun e he => by rw [hq]; exact List.mem_cons_of_mem _ he
    by_cases hgt : gtExt st.cost self.spLen = true
    · rw [if_pos hgt]
      obtain ⟨mu, hmu, hmu2⟩ := gtExt_iff.1 hgt
      refine ⟨{ self with q := q }, other, rfl, ⟨fun e he => hs.ent e (hsub e he), hs.label, hs.closed, fun e he => hs.pre e (hsub e he),
        fun hc e he => hs.nodup hc e (hsub e he)⟩, ho, ⟨hb.len, hb.sp, fun hi => ?_, hb.fin⟩, ⟨rfl, rfl⟩, (fun h => by cases h), fun _ _ => ?_⟩
      · rw [show self.spLen = .inf from hi] at hmu; cases hmu
      · unfold anyWork; rw [hq]; simp
    · rw [if_neg hgt]
      obtain ⟨sp, spLen, q1, hi, hi1, hi2, hi3, hi4⟩ := intercept_any hs ho hb hq
      rw [hi]
      dsimp only
      generalize hed : srt ((nbr st.n1).filter (fun e => !decide (e.1 ∈ av))) = edges
      have hmem : ∀ y d, (y, d) ∈ edges ↔ ws st.n1 y = some d ∧ y ∉ av := by
        intro y d; rw [← hed, (hsrt _).mem_iff, List.mem_filter, hn]; simp
      obtain ⟨hw0, ha0, m0, hm0⟩ := hs.ent st hstq
      have hpre0 := hs.pre st hstq
      -- a label is improved only by a path without repeated nodes, if there is no negative cycle
      have hsimple : NoNegCycle ws → ∀ y d, (y, d) ∈ edges → improves self.mins y (st.cost + d) = true →
          ((st.n1 :: st.path).reverse ++ [y]).Nodup := by
        intro hc y d hy him
        rw [List.reverse_cons]
        have h0 := hs.nodup hc st hstq
        rw [List.nodup_append]
        refine ⟨h0, by simp, fun a ha b hb hab => ?_⟩
        rw [List.mem_singleton] at hb
        subst hb; subst hab
        obtain ⟨l, r, hlr⟩ := List.append_of_mem ha
        have hwl := hw0
        rw [hlr] at hwl
        obtain ⟨d1, d2, h1, h2, h3⟩ := hwl.split
        obtain ⟨m, hm, hle⟩ := hpre0 l a r hlr d1 h1
        have h4 := improves_iff.1 him m hm
        have h5 := hc _ _ _ (h2.snoc ((hmem a d).1 hy).1)
        grind
      have hwalk2 : ∀ y d, (y, d) ∈ edges → WalkOf ws root y ((st.n1 :: st.path).reverse ++ [y]) (st.cost + d) ∧
          ∀ x ∈ (st.n1 :: st.path).reverse ++ [y], (x ∉ av ∨ x = root) ∧ x ∈ U := by
        intro y d hy
        obtain ⟨h1, h2⟩ := (hmem y d).1 hy
        constructor
        · rw [List.reverse_cons]; exact hw0.snoc h1
        · intro x hx
          rw [List.reverse_cons, List.mem_append] at hx
          rcases hx with hx | hx
          · exact ha0 x hx
          · rw [List.mem_singleton] at hx; subst hx; exact ⟨.inl h2, (hU _ _ _ h1).2⟩
      have hR := biRelax_spec (cost := st.cost) (path := st.n1 :: st.path) (spLen := self.spLen) (omins := other.mins)
        edges q1 self.mins self.paths
      have hP : NoNegCycle ws → _ := fun hc => biRelax_pot (cost := st.cost) (path := st.n1 :: st.path) (spLen := self.spLen) (omins := other.mins)
        (U := U) (vals := simpleVals ws U) (mins0 := self.mins) edges (fun y d hy => ⟨(hU _ _ _ ((hmem y d).1 hy).1).2, fun him =>
          mem_simpleVals (hwalk2 y d hy).1 (hsimple hc y d hy him) (fun x hx => ((hwalk2 y d hy).2 x hx).2)⟩)
        q1 self.mins self.paths (fun y m hm => ⟨m, hm, Rat.le_refl⟩)
      generalize hr : biRelax st.cost (st.n1 :: st.path) self.spLen other.mins edges (q1, self.mins, self.paths) = r at hR hP
      obtain ⟨q2, mins2, paths2⟩ := r
      dsimp only at hR hP
      have hu1 : Side.update (⟨q2, sadd self.boundary st.n1, mins2, paths2, self.sp, self.spLen⟩ : Side α) sp spLen =
          .ok ⟨q2, sadd self.boundary st.n1, mins2, paths2, sp, spLen⟩ := by
        unfold Side.update; rw [if_neg (by simp [hi1])]
      have hu2 : other.update sp spLen = .ok { other with sp := sp, spLen := spLen } := by
        unfold Side.update; rw [if_neg (by rw [← hb.len]; simp [hi1])]
      rw [hu1]; dsimp only; rw [hu2]
      have hq1 : ∀ e ∈ q1, e ∈ self.q := fun e he => hsub e (hi2.subset he)
      have hmono : ∀ y m, self.mins.get? y = some m → ∃ m', mins2.get? y = some m' ∧ m' ≤ m := hR.mono
      refine ⟨_, _, rfl, ⟨fun e he => ?_, fun y m hm => ?_, fun x hx => ?_, fun e he => ?_, fun hc e he => ?_⟩,
        ⟨ho.ent, ho.label, ho.closed, ho.pre, ho.nodup⟩, ⟨rfl, rfl, fun hinf => ?_, fun m hm => hi4 m hm⟩, ⟨rfl, rfl⟩, (fun h => by cases h), fun hc _ => ?_⟩
      · rcases hR.new e he with h | ⟨h1, ⟨d, h2, h3⟩, ⟨m, h4, _⟩, _⟩
        · obtain ⟨h1, h2, m, h3⟩ := hs.ent e (hq1 e h)
          obtain ⟨m', h4, _⟩ := hmono _ _ h3
          exact ⟨h1, h2, m', h4⟩
        · obtain ⟨h5, h6⟩ := hwalk2 _ _ h2
          rw [h1, h3]
          exact ⟨h5, h6, m, h4⟩
      · rcases hR.label y m hm with ⟨h1, h2⟩ | ⟨h1, ⟨d, h2, h3⟩, _⟩
        · obtain ⟨p, h3, h4⟩ := hs.label y m h1
          exact ⟨p, h2.trans h3, h4⟩
        · obtain ⟨h5, h6⟩ := hwalk2 _ _ h2
          exact ⟨_, h1, by rw [h3]; exact h5, fun x hx => (h6 x hx).1⟩
      · rcases mem_sadd.1 hx with h | h
        · subst h
          obtain ⟨m', h4, _⟩ := hmono _ _ hm0
          exact ⟨m', h4⟩
        · obtain ⟨m, h3⟩ := hs.closed x h
          obtain ⟨m', h4, _⟩ := hmono _ _ h3
          exact ⟨m', h4⟩
      · intro l z r hlz c hc
        have old : ∀ e ∈ self.q, ∀ r, e.path.reverse ++ [e.n1] = l ++ z :: r → ∃ m, mins2.get? z = some m ∧ m ≤ c := fun e he r hlz => by
          obtain ⟨m, h1, h2⟩ := hs.pre e he l z r hlz c hc
          obtain ⟨m', h3, h4⟩ := hmono _ _ h1
          exact ⟨m', h3, by grind⟩
        rcases hR.new e he with h | ⟨h1, ⟨d, h2, h3⟩, ⟨m, h4, h5⟩, _⟩
        · exact old e (hq1 e h) r hlz
        · rw [h1] at hlz
          rcases List.eq_nil_or_concat r with hr' | ⟨r', x, hr'⟩
          · subst hr'
            have := List.append_inj' hlz rfl
            obtain ⟨h6, h7⟩ := this
            simp only [List.cons.injEq, and_true] at h7
            subst h7
            have h8 := (hwalk2 _ _ h2).1
            rw [h6] at h8
            have := hc.2.2.symm.trans h8.2.2
            simp only [Option.some.injEq] at this
            exact ⟨m, h4, by rw [this, ← h3]; exact h5⟩
          · rw [List.concat_eq_append] at hr'
            subst hr'
            have : (st.n1 :: st.path).reverse ++ [e.n1] = (l ++ z :: r') ++ [x] := by rw [hlz]; simp
            have := (List.append_inj' this rfl).1
            rw [List.reverse_cons] at this
            exact old st hstq r' this
      · rcases hR.new e he with h | ⟨h1, ⟨d, h2, h3⟩, _, h5⟩
        · exact hs.nodup hc e (hq1 e h)
        · rw [h1]
          exact hsimple hc _ _ h2 (improves_iff.2 fun m hm => by rw [← h3]; exact h5 m hm)
      · obtain ⟨h1, h2, h3, h4⟩ := hi3 hinf
        obtain ⟨h5, h6, h7, h8⟩ := hb.inf h2
        refine ⟨h1, ⟨?_, ?_, ?_⟩, ⟨h7.rt, h7.done, h7.pend⟩, ?_⟩
        · obtain ⟨m, hm⟩ := h6.rt
          obtain ⟨m', hm', _⟩ := hmono _ _ hm
          exact ⟨m', hm'⟩
        · intro x hx y c hxy hy
          rcases mem_sadd.1 hx with h | h
          · subst h
            obtain ⟨m, hm, _⟩ := hR.relaxed y c ((hmem y c).2 ⟨hxy, hy⟩) (by
              rintro (h | ⟨_, _, h⟩) <;> rw [h2] at h <;> simp [gtExt] at h)
            exact ⟨m, hm⟩
          · obtain ⟨m, hm⟩ := h6.done x h y c hxy hy
            obtain ⟨m', hm', _⟩ := hmono _ _ hm
            exact ⟨m', hm'⟩
        · intro y m hm
          rcases hR.label y m hm with ⟨g1, _⟩ | ⟨_, _, g3⟩
          · rcases h6.pend y m g1 with h | ⟨e, he, he2⟩
            · exact .inl (mem_sadd.2 (.inr h))
            · rw [hq] at he
              rcases List.mem_cons.1 he with rfl | he
              · exact .inl (mem_sadd.2 (.inl he2.symm))
              · exact .inr ⟨e, hR.keep e (by rw [h3]; exact he), he2⟩
          · exact .inr ⟨_, g3, rfl⟩
        · intro x hx
          rcases mem_sadd.1 hx with h | h
          · subst h; exact h4
          · exact h8 x h
      · have := hP hc
        have hlen := hi2.length_le
        unfold anyWork
        rw [hq]
        simp only [List.length_cons]
        omega

/-! ### the loop -/

def AnyInv (w : α → α → Option Rat) (U av : List α) (start fin : α) (s : Side α × Side α) : Prop :=
  SideAny w U av start s.1 ∧ SideAny (fun x y => w y x) U av fin s.2 ∧ BestAny w av start fin true s.1 s.2

/-- what is returned -/
def AnyPost (w : α → α → Option Rat) (av : List α) (start fin : α) (r : Py (Ext × List α)) : Prop :=
  ∃ d p, r = .ok (d, p) ∧ ((∃ c, d = .fin c ∧ WalkOf w start fin p c ∧ ∀ x ∈ p, x ∉ av ∨ x = start ∨ x = fin) ∨
    (d = .inf ∧ p = [] ∧ ¬ ∃ q c, AvoidWalk w av start fin q c))

def anyWork2 (w : α → α → Option Rat) (U : List α) (s : Side α × Side α) : Nat :=
  anyWork U (simpleVals w U) s.1 + anyWork U (simpleVals (fun x y => w y x) U) s.2

theorem noNegCycle_reverse {w : α → α → Option Rat} (h : NoNegCycle w) : NoNegCycle (fun x y => w y x) := by
  intro a p c hp
  exact h a p.reverse c hp.reverse

theorem any_step {w : α → α → Option Rat} {U av : List α} (hU : ∀ x y c, w x y = some c → x ∈ U ∧ y ∈ U)
    {out inn : α → List (α × Rat)} (hout : ∀ x y c, (y, c) ∈ out x ↔ w x y = some c)
    (hinn : ∀ x y c, (y, c) ∈ inn x ↔ w y x = some c)
    {srt : List (α × Rat) → List (α × Rat)} (hsrt : ∀ l, (srt l).Perm l) {start fin : α}
    {f b : Side α} (hI : AnyInv w U av start fin (f, b)) (hne : ¬ (f.q = [] ∧ b.q = [])) :
    ∃ s', biStep out inn srt av (f, b) = .inl s' ∧ AnyInv w U av start fin s' ∧ (NoNegCycle w → anyWork2 w U s' < anyWork2 w U (f, b)) := by
  obtain ⟨h1, h2, h3⟩ := hI
  obtain ⟨f1, b1, e1, f2, f3, f4, ⟨f5, f6⟩, f7, f8⟩ := search_any hU hout hsrt h1 h2 h3
  obtain ⟨b2, f2', e2, g2, g3, g4, ⟨g5, g6⟩, g7, g8⟩ := search_any (nbr := inn) (dir := false) (fun x y c h => (hU y x c h).symm) hinn hsrt f3 f2
    (by simpa using f4.symm)
  refine ⟨(f2', b2), ?_, ⟨g3, g2, by simpa using g4.symm⟩, fun hc => ?_⟩
  · unfold biStep; dsimp only; rw [if_neg hne]; rw [show Side.search true out srt av f b = _ from e1]; dsimp only; rw [e2]
  · have hA : f.q ≠ [] → _ := f8 hc
    have hB : b1.q ≠ [] → _ := g8 (noNegCycle_reverse hc)
    have wb1 : ∀ v, anyWork U v b1 = anyWork U v b := fun v => by unfold anyWork; rw [f5, f6]
    have wf2 : ∀ v, anyWork U v f2' = anyWork U v f1 := fun v => by unfold anyWork; rw [g5, g6]
    have hA' : f.q = [] → f1 = f := f7
    have hB' : b1.q = [] → b2 = b1 := g7
    unfold anyWork2
    dsimp only
    rw [wf2]
    rw [wb1] at hB
    rw [f5] at hB hB'
    by_cases hfq : f.q = []
    · have hbq : b.q ≠ [] := fun h => hne ⟨hfq, h⟩
      rw [hA' hfq]
      have := hB hbq
      omega
    · have h5 := hA hfq; dsimp only at h5
      by_cases hbq : b.q = []
      · rw [hB' hbq, wb1]; omega
      · have := hB hbq; omega

theorem any_exit {w : α → α → Option Rat} {U av : List α} {start fin : α} {f b : Side α} (hI : AnyInv w U av start fin (f, b))
    (hq : f.q = [] ∧ b.q = []) : AnyPost w av start fin (.ok (f.spLen, f.sp)) := by
  obtain ⟨h1, h2, h3⟩ := hI
  refine ⟨_, _, rfl, ?_⟩
  dsimp only at h1 h2 h3
  cases hl : f.spLen with
  | fin m =>
    obtain ⟨h4, h5⟩ := h3.fin m hl
    exact .inl ⟨m, rfl, by simpa using h4, h5⟩
  | inf =>
    obtain ⟨h4, h5, h6, h7⟩ := h3.inf hl
    refine .inr ⟨rfl, h4, ?_⟩
    rintro ⟨q, c, hw, ha⟩
    have hf : ∀ y m, f.mins.get? y = some m → y ∈ f.boundary := fun y m hm => by
      rcases h5.pend y m hm with h | ⟨e, he, _⟩
      · exact h
      · rw [hq.1] at he; cases he
    have hstart : start ∈ f.boundary := by obtain ⟨m, hm⟩ := h5.rt; exact hf _ m hm
    have key : ∀ (q : List α) (x : α) (c : Rat), x ∈ f.boundary → WalkOf w x fin q c → (∀ y ∈ q, y ∉ av) → fin ∈ f.boundary := by
      intro q
      induction q with
      | nil => intro x c _ hw; exact absurd rfl hw.ne_nil
      | cons a q ih =>
        intro x c hx hw ha
        rcases hw.inv with ⟨_, e2, _⟩ | ⟨y, q', c', d', e1, e2, e3, _⟩
        · rw [← e2]; exact hx
        · simp only [List.cons.injEq] at e1
          obtain ⟨rfl, rfl⟩ := e1
          have hy : y ∉ av := ha y (List.mem_cons_of_mem _ (List.mem_of_mem_head? e3.1))
          obtain ⟨m, hm⟩ := h5.done _ hx _ _ e2 hy
          exact ih y d' (hf _ _ hm) e3 (fun z hz => ha z (List.mem_cons_of_mem _ hz))
    have hfin := key q start c hstart hw ha
    obtain ⟨m, hm⟩ := h6.rt
    rcases h6.pend _ m hm with h | ⟨e, he, _⟩
    · exact h7 _ hfin h
    · rw [hq.2] at he; cases he

theorem any_init {w : α → α → Option Rat} {U av : List α} {start fin : α} (hs : start ∈ U) (hf : fin ∈ U) :
    AnyInv w U av start fin (Side.init start, Side.init fin) := by
  have hinit : ∀ (ws : α → α → Option Rat) (root : α), root ∈ U → SideAny ws U av root (Side.init root) ∧ ExpAny ws av root (Side.init root) := by
    intro ws root hr
    have hmin : ∀ y m, (Side.init root).mins.get? y = some m → y = root ∧ m = 0 := by
      intro y m hm
      simp only [Side.init, Dict.get?_set] at hm
      split at hm
      · rename_i h; cases hm; exact ⟨h.symm, rfl⟩
      · simp at hm
    refine ⟨⟨fun e he => ?_, fun y m hm => ?_, fun x hx => by simp [Side.init] at hx, fun e he => ?_, fun _ e he => ?_⟩,
      ⟨0, by simp [Side.init]⟩, fun x hx => by simp [Side.init] at hx, fun y m hm => ?_⟩
    · simp [Side.init] at he; subst he
      exact ⟨by simpa using WalkOf.single root, by simp [hr], 0, by simp [Side.init]⟩
    · obtain ⟨rfl, rfl⟩ := hmin y m hm
      exact ⟨[], by simp [Side.init], by simpa using WalkOf.single y, by simp⟩
    · simp [Side.init] at he; subst he
      intro l z r hlz c hc
      simp only [List.reverse_nil, List.nil_append] at hlz
      cases l with
      | cons a l => simp at hlz
      | nil =>
        simp only [List.nil_append, List.cons.injEq] at hlz
        obtain ⟨rfl, _⟩ := hlz
        refine ⟨0, by simp [Side.init], ?_⟩
        have := hc.2.2.symm.trans (WalkOf.single (w := ws) root).2.2
        simp only [Option.some.injEq] at this
        rw [this]; exact Rat.le_refl
    · simp [Side.init] at he; subst he; simp
    · obtain ⟨rfl, _⟩ := hmin y m hm
      exact .inr ⟨⟨0, y, []⟩, by simp [Side.init], rfl⟩
  exact ⟨(hinit _ _ hs).1, (hinit _ _ hf).1, rfl, rfl, fun _ => ⟨rfl, (hinit _ _ hs).2, (hinit _ _ hf).2, fun x hx => by simp [Side.init] at hx⟩,
    (fun m h => by cases h)⟩

/-- whenever the bidirectional search returns, with arbitrary values -/
theorem shortestPathBi_any {g : Graph α Rat O} (h : g.Inv) {start fin : α} (av : List α)
    {srt : List (α × Rat) → List (α × Rat)} (hsrt : ∀ l, (srt l).Perm l)
    (hs : g.has start = true) (hf : g.has fin = true) :
    (∀ r, g.shortestPathBi srt start fin av = some r → AnyPost g.edge av start fin r) ∧
    (NoNegCycle g.edge → ∃ r, g.shortestPathBi srt start fin av = some r) := by
  have hU : ∀ x y c, g.edge x y = some c → x ∈ g.nodeList ∧ y ∈ g.nodeList := fun x y c => h.edge_mem
  have hstep : ∀ s s', AnyInv g.edge g.nodeList av start fin s → biStep g.outNbr g.inNbr srt av s = .inl s' →
      AnyInv g.edge g.nodeList av start fin s' ∧ (NoNegCycle g.edge → anyWork2 g.edge g.nodeList s' < anyWork2 g.edge g.nodeList s) := by
    rintro ⟨f, b⟩ s' hI hst
    by_cases hne : f.q = [] ∧ b.q = []
    · simp only [biStep, if_pos hne] at hst; cases hst
    · obtain ⟨s1, h1, h2⟩ := any_step hU (fun x y c => h.mem_outNbr) (fun x y c => h.mem_inNbr) hsrt hI hne
      rw [h1] at hst; cases hst; exact h2
  have hinit : AnyInv g.edge g.nodeList av start fin (Side.init start, Side.init fin) := any_init (has_iff.1 hs) (has_iff.1 hf)
  unfold shortestPathBi
  simp only [hs, hf, Bool.not_true, Bool.false_eq_true, if_false]
  constructor
  · intro r hr
    refine pyWhile_inv (AnyInv g.edge g.nodeList av start fin) (AnyPost g.edge av start fin) (fun s s' hI hst => (hstep s s' hI hst).1) ?_ hinit hr
    rintro ⟨f, b⟩ r hI hst
    by_cases hne : f.q = [] ∧ b.q = []
    · simp only [biStep, if_pos hne] at hst
      cases hst
      exact any_exit hI hne
    · obtain ⟨s1, h1, h2⟩ := any_step hU (fun x y c => h.mem_outNbr) (fun x y c => h.mem_inNbr) hsrt hI hne
      rw [h1] at hst; cases hst
  · intro hc
    exact pyWhile_term (AnyInv g.edge g.nodeList av start fin) (· < ·) Nat.lt_wfRel.wf (anyWork2 g.edge g.nodeList)
      (fun s s' hI hst => ⟨(hstep s s' hI hst).1, (hstep s s' hI hst).2 hc⟩) hinit

end GT

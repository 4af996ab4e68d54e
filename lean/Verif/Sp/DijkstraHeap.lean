import Verif.Sp.DijkstraNum
import Verif.Heapq
/-
`shortest_path` (graph/shortest_path.py:11-58) with the binary heap of Python's `heapq` (Heapq.lean), for edge values of any number type.
-/
namespace GT
variable {α V O C : Type} [DecidableEq α]
open Graph

/-- `(cost, i, node, path) < (cost', i', node', path')`: decided by the costs and the counters if the counters differ; `lt` says how.  Otherwise the nodes may
have to be compared, which raises for nodes without an order.  Simplification: raises already when the counters are the same. -/
def entLtE (lt : EntA α C → EntA α C → Bool) (a b : EntA α C) : Py Bool := if a.ix = b.ix then .error .typeError else .ok (lt a b)

/-- the loop over the outgoing edges (shortest_path.py:49-57) -/
def dijRelaxH (N : NumType C V) (lt : EntA α C → EntA α C → Bool) (cost : C) (path : List α) (visited : List α) :
    List (α × V) → List (EntA α C) × Dict α C × Nat → Py (List (EntA α C) × Dict α C × Nat)
  | [], s => .ok s
  | (v2, dist) :: l, (q, mins, i) =>
    if v2 ∈ visited then dijRelaxH N lt cost path visited l (q, mins, i)
    else match mins.get? v2 with
      | none => match heappush (entLtE lt) q ⟨N.add cost dist, i, v2, path⟩ with
        | .error e => .error e
        | .ok q => dijRelaxH N lt cost path visited l (q, mins.set v2 (N.add cost dist), i + 1)
      | some prev =>
        if N.lt (N.add cost dist) prev then
          match heappush (entLtE lt) q ⟨N.add cost dist, i, v2, path⟩ with
          | .error e => .error e
          | .ok q => dijRelaxH N lt cost path visited l (q, mins.set v2 (N.add cost dist), i + 1)
        else dijRelaxH N lt cost path visited l (q, mins, i)

/-- one iteration of `while q` (shortest_path.py:35-57) -/
def dijStepH (N : NumType C V) (lt : EntA α C → EntA α C → Bool) (nbr : α → List (α × V)) (fin : α) (s : DijStA α C) :
    DijStA α C ⊕ Py (Option C × List α) :=
  match s.q with
  | [] => .inr (.ok (none, []))
  | _ :: _ => match heappop (entLtE lt) s.q with
    | .error e => .inr (.error e)
    | .ok (e, q) =>
      if e.node ∈ s.visited then .inl { s with q := q }
      else
        let visited := sadd s.visited e.node
        let path := e.node :: e.path
        if e.node = fin then .inr (.ok (some e.cost, path.reverse))
        else match dijRelaxH N lt e.cost path visited (nbr e.node) (q, s.mins, s.i) with
          | .error e => .inr (.error e)
          | .ok (q, mins, i) => .inl ⟨q, mins, visited, i⟩

/-- `shortest_path(graph, start, end, avoids)` (shortest_path.py:11-58) on the binary heap of `heapq`.  `none` as the distance is the `float('inf')` of
line 58.  `lt` is the order of the entries with different counters.
Simplifications: the type checks of `graph` and `avoids` hold by typing; `+` and `<` of the values raise nothing. -/
def Graph.shortestPathH (N : NumType C V) (lt : EntA α C → EntA α C → Bool) (g : Graph α V O) (start fin : α) (avoids : List α := []) :
    Option (Py (Option C × List α)) :=
  if !g.has start then some (.error .valueError)
  else if !g.has fin then some (.error .valueError)
  else pyWhile (dijStepH N lt g.outNbr fin) ⟨[⟨N.zero, 0, start, []⟩], Dict.empty.set start N.zero, avoids, 1⟩

/-! ### proofs -/

/-- what the heap keeps: the counters differ, so no two nodes are ever compared -/
structure HeapOk (lt : EntA α C → EntA α C → Bool) (q : List (EntA α C)) (i : Nat) : Prop where
  nd : (q.map (·.ix)).Nodup
  lt_i : ∀ e ∈ q, e.ix < i
  heap : LtLaws lt → IsHeap lt q

omit [DecidableEq α] in
theorem cmp_of_nodup {lt : EntA α C → EntA α C → Bool} {q : List (EntA α C)} (h : (q.map (·.ix)).Nodup) : q.Pairwise (Cmp (entLtE lt) lt) := by
  rw [List.nodup_iff_pairwise_ne, List.pairwise_map] at h
  refine h.imp ?_
  intro a b hab
  exact ⟨by rw [entLtE, if_neg hab], by rw [entLtE, if_neg (Ne.symm hab)]⟩

omit [DecidableEq α] in
theorem push_ok {lt : EntA α C → EntA α C → Bool} {q : List (EntA α C)} {i : Nat} (h : HeapOk lt q i) {e : EntA α C} (he : e.ix = i) :
    ∃ q', heappush (entLtE lt) q e = .ok q' ∧ q'.Perm (e :: q) ∧ HeapOk lt q' (i + 1) := by
  have hnd : ((e :: q).map (·.ix)).Nodup := by
    rw [List.map_cons, List.nodup_cons]
    refine ⟨fun hin => ?_, h.nd⟩
    obtain ⟨e', h1, h2⟩ := List.mem_map.1 hin
    have := h.lt_i e' h1
    omega
  obtain ⟨q', e1, e2, e3⟩ := heappush_spec (cmp_of_nodup (lt := lt) hnd)
  refine ⟨q', e1, e2, ⟨(e2.map _).nodup_iff.2 hnd, fun e' he' => ?_, fun L => e3 L (h.heap L)⟩⟩
  rcases List.mem_cons.1 (e2.mem_iff.1 he') with rfl | h1
  · omega
  · have := h.lt_i e' h1; omega

omit [DecidableEq α] in
theorem pop_ok {lt : EntA α C → EntA α C → Bool} {q : List (EntA α C)} {i : Nat} (h : HeapOk lt q i) (hne : q ≠ []) :
    ∃ m q', heappop (entLtE lt) q = .ok (m, q') ∧ q.Perm (m :: q') ∧ HeapOk lt q' i ∧ (LtLaws lt → ∀ b ∈ q, lt b m = false) := by
  obtain ⟨m, q', e1, e2, e3⟩ := heappop_spec hne (cmp_of_nodup (lt := lt) h.nd)
  refine ⟨m, q', e1, e2, ⟨?_, fun e he => h.lt_i e (e2.mem_iff.2 (List.mem_cons_of_mem _ he)), fun L => (e3 L (h.heap L)).1⟩,
    fun L => (e3 L (h.heap L)).2⟩
  have := (e2.map (·.ix)).nodup_iff.1 h.nd
  rw [List.map_cons, List.nodup_cons] at this
  exact this.2

theorem relaxH_sim {N : NumType C V} {lt : EntA α C → EntA α C → Bool} {cost : C} {path visited : List α} (l : List (α × V)) :
    ∀ (qH q : List (EntA α C)) (mins : Dict α C) (i : Nat), qH.Perm q → HeapOk lt qH i →
    ∃ qH' q' mins' i', dijRelaxH N lt cost path visited l (qH, mins, i) = .ok (qH', mins', i') ∧
      dijRelaxNum N cost path visited l (q, mins, i) = (q', mins', i') ∧ qH'.Perm q' ∧ HeapOk lt qH' i' := by
  induction l with
  | nil => intro qH q mins i hp hk; exact ⟨qH, q, mins, i, rfl, rfl, hp, hk⟩
  | cons a l ih =>
    obtain ⟨v2, dist⟩ := a
    intro qH q mins i hp hk
    unfold dijRelaxH dijRelaxNum
    obtain ⟨q', e1, e2, e3⟩ := push_ok hk (e := ⟨N.add cost dist, i, v2, path⟩) rfl
    have hrec := ih q' (⟨N.add cost dist, i, v2, path⟩ :: q) (mins.set v2 (N.add cost dist)) (i + 1) (e2.trans (hp.cons _)) e3
    by_cases hv : v2 ∈ visited
    · rw [if_pos hv, if_pos hv]; exact ih qH q mins i hp hk
    · rw [if_neg hv, if_neg hv]
      cases mins.get? v2 with
      | none => dsimp only; rw [e1]; exact hrec
      | some prev =>
        dsimp only
        cases N.lt (N.add cost dist) prev with
        | true => rw [if_pos rfl, if_pos rfl, e1]; exact hrec
        | false => exact ih qH q mins i hp hk

/-- the heap and the list of the model without order hold the same entries -/
structure SameSt (sH s : DijStA α C) : Prop where
  q : sH.q.Perm s.q
  mins : sH.mins = s.mins
  visited : sH.visited = s.visited
  i : sH.i = s.i

theorem stepH_sim {N : NumType C V} {lt : EntA α C → EntA α C → Bool} {nbr : α → List (α × V)} {fin : α} {sH s : DijStA α C} (hs : SameSt sH s)
    (hk : HeapOk lt sH.q sH.i) {pop : List (EntA α C) → Option (EntA α C × List (EntA α C))} (hn : s.q = [] → pop s.q = none)
    (hp : ∀ m q', heappop (entLtE lt) sH.q = .ok (m, q') → sH.q.Perm (m :: q') → (LtLaws lt → ∀ b ∈ sH.q, lt b m = false) →
      ∃ r, pop s.q = some (m, r) ∧ q'.Perm r) :
    (∃ sH' s', dijStepH N lt nbr fin sH = .inl sH' ∧ dijStepNum N pop nbr fin s = .inl s' ∧ SameSt sH' s' ∧ HeapOk lt sH'.q sH'.i) ∨
    (∃ r, dijStepH N lt nbr fin sH = .inr (.ok r) ∧ dijStepNum N pop nbr fin s = .inr r) := by
  obtain ⟨qH, mins, visited, i⟩ := sH
  obtain ⟨q, mins', visited', i'⟩ := s
  obtain ⟨h1, h2, h3, h4⟩ := hs
  dsimp only at h1 h2 h3 h4 hk hn hp
  subst h2 h3 h4
  unfold dijStepH dijStepNum
  dsimp only
  cases qH with
  | nil =>
    have : q = [] := h1.symm.eq_nil
    subst this
    rw [hn rfl]
    exact .inr ⟨_, rfl, rfl⟩
  | cons a l =>
    obtain ⟨m, q', e1, e2, e3, e4⟩ := pop_ok hk (by simp)
    obtain ⟨r, e5, e6⟩ := hp m q' e1 e2 e4
    rw [e1, e5]
    dsimp only
    by_cases hv : m.node ∈ visited
    · rw [if_pos hv, if_pos hv]
      exact .inl ⟨⟨q', mins, visited, i⟩, ⟨r, mins, visited, i⟩, rfl, rfl, ⟨e6, rfl, rfl, rfl⟩, e3⟩
    · rw [if_neg hv, if_neg hv]
      by_cases hf : m.node = fin
      · rw [if_pos hf, if_pos hf]
        exact .inr ⟨_, rfl, rfl⟩
      · rw [if_neg hf, if_neg hf]
        obtain ⟨qH', q2, mins2, i2, r1, r2, r3, r4⟩ := relaxH_sim (N := N) (lt := lt) (cost := m.cost) (path := m.node :: m.path)
          (visited := sadd visited m.node) (nbr m.node) q' r mins i e6 e3
        rw [r1, r2]
        exact .inl ⟨⟨qH', mins2, _, i2⟩, ⟨q2, mins2, _, i2⟩, rfl, rfl, ⟨r3, rfl, rfl, rfl⟩, r4⟩

omit [DecidableEq α] in
theorem init_ok {lt : EntA α C → EntA α C → Bool} (e : EntA α C) (he : e.ix = 0) : HeapOk lt [e] 1 := by
  refine ⟨by simp, fun e' he' => ?_, fun _ i a b hi _ hb => ?_⟩
  · simp at he'; subst he'; omega
  · have := (List.getElem?_eq_some_iff.1 hb).1
    simp at this; omega

omit [DecidableEq α] in
theorem entLt_false {N : NumType C V} {ok : C → Prop} {good : V → Prop} (hN : N.Laws ok good) (a b : EntA α C) :
    EntA.lt N b a = false ↔ (N.le a.cost b.cost ∧ (N.le b.cost a.cost → a.ix ≤ b.ix)) := by
  unfold EntA.lt
  by_cases he : N.eq b.cost a.cost = true
  · rw [if_pos he]
    have := (hN.eq _ _).1 he
    simp only [decide_eq_false_iff_not, Nat.not_lt]
    exact ⟨fun h => ⟨this.2, fun _ => h⟩, fun h => h.2 this.1⟩
  · rw [if_neg he]
    have hn : ¬ (N.le b.cost a.cost ∧ N.le a.cost b.cost) := fun h => he ((hN.eq _ _).2 h)
    exact ⟨fun h => ⟨h, fun h' => absurd ⟨h', h⟩ hn⟩, fun h => h.1⟩

omit [DecidableEq α] in
theorem entLt_laws {N : NumType C V} {ok : C → Prop} {good : V → Prop} (hN : N.Laws ok good) : LtLaws (EntA.lt (α := α) N) := by
  have key := entLt_false (α := α) hN
  refine ⟨fun a b c h1 h2 => ?_, fun a b h => ?_⟩
  · rw [key] at *
    refine ⟨hN.trans _ _ _ h1.1 h2.1, fun h => ?_⟩
    have h3 := h1.2 (hN.trans _ _ _ h2.1 h)
    have h4 := h2.2 (hN.trans _ _ _ h h1.1)
    omega
  · cases h2 : EntA.lt N b a with
    | false => rfl
    | true =>
      exfalso
      have hle : ∀ x y : EntA α C, EntA.lt N x y = true → N.le x.cost y.cost := by
        intro x y hxy
        unfold EntA.lt at hxy
        split at hxy
        · rename_i he; exact ((hN.eq _ _).1 he).1
        · exact hN.asymm _ _ hxy
      have h3 := hle _ _ h
      have h4 := hle _ _ h2
      unfold EntA.lt at h h2
      rw [if_pos ((hN.eq _ _).2 ⟨h3, h4⟩)] at h
      rw [if_pos ((hN.eq _ _).2 ⟨h4, h3⟩)] at h2
      simp at h h2
      omega

omit [DecidableEq α] in
theorem popMinA_lt {N : NumType C V} (L : LtLaws (EntA.lt (α := α) N)) (q : List (EntA α C)) :
    ∀ m r, popMinA N q = some (m, r) → ∀ e ∈ q, EntA.lt N e m = false := by
  have irr : ∀ a : EntA α C, EntA.lt N a a = false := by
    intro a
    cases ha : EntA.lt N a a with
    | false => rfl
    | true => have := L.asymm a a ha; rw [ha] at this; cases this
  induction q with
  | nil => intro m r h; simp [popMinA] at h
  | cons a l ih =>
    intro m r h e he
    simp only [popMinA] at h
    split at h
    · rename_i h1
      cases h
      cases l with
      | nil => simp at he; subst he; exact irr _
      | cons b l => simp only [popMinA] at h1; split at h1 <;> (try split at h1) <;> cases h1
    · rename_i m' r' h1
      split at h
      · rename_i hlt
        cases h
        rcases List.mem_cons.1 he with rfl | he
        · exact L.asymm _ _ hlt
        · exact ih _ _ h1 e he
      · rename_i hlt
        cases h
        rcases List.mem_cons.1 he with rfl | he
        · exact irr _
        · exact L.trans _ _ _ (by simpa using hlt) (ih _ _ h1 e he)

/-- with sums that are ordered, the binary heap hands out what `popMinA` hands out -/
theorem shortestPathH_eq {N : NumType C V} {ok : C → Prop} {good : V → Prop} (hN : N.Laws ok good) {g : Graph α V O} (h : g.Inv) (start fin : α)
    (avoids : List α) : g.shortestPathH N (EntA.lt N) start fin avoids = g.shortestPathNum N (popMinA N) start fin avoids := by
  unfold shortestPathH shortestPathNum
  by_cases hs : g.has start = true
  · by_cases hf : g.has fin = true
    · simp only [hs, hf, Bool.not_true, Bool.false_eq_true, if_false]
      obtain ⟨r, hr, _⟩ := dijNum_spec (DijOrd.trivial N) (popMinA_ok N) (fun _ _ _ _ _ _ => True.intro) (fun x y c => h.mem_outNbr) (fun _ _ _ _ => True.intro)
        (fun x y c => h.edge_mem) (fin := fin) (has_iff.1 hs) avoids
      rw [hr]
      have L := entLt_laws (α := α) hN
      let s0 : DijStA α C := ⟨[⟨N.zero, 0, start, []⟩], Dict.empty.set start N.zero, avoids, 1⟩
      have popm : ∀ sH s : DijStA α C, SameSt sH s → HeapOk (EntA.lt N) sH.q sH.i →
          ∀ m q', heappop (entLtE (EntA.lt N)) sH.q = .ok (m, q') → sH.q.Perm (m :: q') → (LtLaws (EntA.lt (α := α) N) → ∀ b ∈ sH.q, EntA.lt N b m = false) →
            ∃ r, popMinA N s.q = some (m, r) ∧ q'.Perm r := by
        intro sH s hs hk m q' _ hp hmin
        cases hpm : popMinA N s.q with
        | none =>
          have := (popMinA_ok N).none _ |>.1 hpm
          have h2 := hs.q
          rw [this] at h2
          rw [h2.eq_nil] at hp
          exact absurd hp.symm.eq_nil (by simp)
        | some x =>
          obtain ⟨m', r⟩ := x
          have hp' := (popMinA_ok N).some _ _ _ hpm
          have hm : m' = m := by
            have hin : m ∈ sH.q := hp.mem_iff.2 (List.mem_cons_self ..)
            have hin' : m' ∈ sH.q := hs.q.mem_iff.2 (hp'.mem_iff.2 (List.mem_cons_self ..))
            have a1 := (entLt_false hN _ _).1 (popMinA_lt L _ _ _ hpm m (hs.q.mem_iff.1 hin))
            have a2 := (entLt_false hN _ _).1 (hmin L m' hin')
            have hix : m'.ix = m.ix := Nat.le_antisymm (a1.2 a2.1) (a2.2 a1.1)
            obtain ⟨x, hx, rfl⟩ := List.getElem_of_mem hin
            obtain ⟨y, hy, rfl⟩ := List.getElem_of_mem hin'
            have hxy := hk.nd
            rw [List.nodup_iff_pairwise_ne, List.pairwise_map, List.pairwise_iff_getElem] at hxy
            rcases Nat.lt_trichotomy x y with hlt | rfl | hlt
            · exact absurd hix.symm (hxy x y hx hy hlt)
            · rfl
            · exact absurd hix (hxy y x hy hx hlt)
          subst hm
          exact ⟨r, rfl, List.Perm.cons_inv (hp.symm.trans (hs.q.trans hp'))⟩
      refine pyWhile_inv (step := dijStepNum N (popMinA N) g.outNbr fin)
        (fun s => ∃ sH, SameSt sH s ∧ HeapOk (EntA.lt N) sH.q sH.i ∧
          pyWhile (dijStepH N (EntA.lt N) g.outNbr fin) s0 = pyWhile (dijStepH N (EntA.lt N) g.outNbr fin) sH)
        (fun r => pyWhile (dijStepH N (EntA.lt N) g.outNbr fin) s0 = some (.ok r)) ?_ ?_ ⟨s0, ⟨.refl _, rfl, rfl, rfl⟩, init_ok _ rfl, rfl⟩ hr
      · rintro s s' ⟨sH, h1, h2, h3⟩ hst
        rcases stepH_sim (N := N) (nbr := g.outNbr) (fin := fin) h1 h2 (fun hq => by rw [hq]; rfl) (popm sH s h1 h2) with
          ⟨sH', s2, e1, e2, e3, e4⟩ | ⟨r, e1, e2⟩
        · rw [hst] at e2
          cases e2
          exact ⟨sH', e3, e4, by rw [h3, pyWhile_inl e1]⟩
        · rw [hst] at e2; cases e2
      · rintro s r ⟨sH, h1, h2, h3⟩ hst
        rcases stepH_sim (N := N) (nbr := g.outNbr) (fin := fin) h1 h2 (fun hq => by rw [hq]; rfl) (popm sH s h1 h2) with
          ⟨sH', s2, e1, e2, e3, e4⟩ | ⟨r, e1, e2⟩
        · rw [hst] at e2; cases e2
        · rw [hst] at e2; cases e2
          rw [h3, pyWhile_inr e1]
    · simp only [Bool.not_eq_true] at hf
      simp [hs, hf]
  · simp only [Bool.not_eq_true] at hs
    simp [hs]

/-! ### no order at all -/

/-- a `heappop` that hands out `m` of the list `q0` -/
noncomputable def popAt (q0 : List (EntA α C)) (m : EntA α C) (r : List (EntA α C)) (q : List (EntA α C)) : Option (EntA α C × List (EntA α C)) :=
  open Classical in if q = q0 then some (m, r) else match q with
    | [] => none
    | a :: l => some (a, l)

theorem popAt_ok {q0 : List (EntA α C)} {m : EntA α C} {r : List (EntA α C)} (h : q0.Perm (m :: r)) : PopOk (popAt q0 m r) := by
  constructor
  · intro q
    unfold popAt
    split
    · rename_i hq
      subst hq
      exact ⟨fun h => by simp at h, fun h' => by subst h'; exact absurd h.symm.eq_nil (by simp)⟩
    · cases q <;> simp
  · intro q m' r' hq
    unfold popAt at hq
    split at hq
    · rename_i h'; cases hq; rw [h']; exact h
    · cases q with
      | nil => cases hq
      | cons a l => cases hq; exact .refl _

theorem numInvU_same {N : NumType C V} {le : C → C → Prop} {ok : C → Prop} {w : α → α → Option V} {U : List α} {start fin : α} {av : List α}
    {s s' : DijStA α C} (h : SameSt s' s) (hI : NumInvU N le ok w U start fin av s) : NumInvU N le ok w U start fin av s' := by
  obtain ⟨q', mins', visited', i'⟩ := s'
  obtain ⟨q, mins, visited, i⟩ := s
  obtain ⟨h1, h2, h3, h4⟩ := h
  dsimp only at h1 h2 h3 h4
  subst h2 h3 h4
  obtain ⟨⟨δ, hI⟩, hq⟩ := hI
  refine ⟨⟨δ, hI.avs, fun e he => hI.ent e (h1.mem_iff.1 he), fun x y c a b c' d => ?_, fun x a b e he => hI.settled x a b e (h1.mem_iff.1 he),
    fun y m hm => ?_, fun hs => ?_, hI.nofin⟩, fun e he => hq e (h1.mem_iff.1 he)⟩
  · exact (hI.edge x y c a b c' d).imp id (fun ⟨e, he, h⟩ => ⟨e, h1.mem_iff.2 he, h⟩)
  · exact (hI.mins y m hm).imp id (fun ⟨e, he, h⟩ => ⟨e, h1.mem_iff.2 he, h⟩)
  · exact (hI.src hs).imp id (fun ⟨e, he, h⟩ => ⟨e, h1.mem_iff.2 he, h⟩)

theorem shortestPathH_whatever (N : NumType C V) (lt : EntA α C → EntA α C → Bool) {g : Graph α V O} (h : g.Inv) {start fin : α} (av : List α)
    (hs : g.has start = true) (hf : g.has fin = true) :
    ∃ r, g.shortestPathH N lt start fin av = some (.ok r) ∧ NumResult N (fun _ _ => True) g.edge av start fin r ∧ r.2.Nodup := by
  unfold shortestPathH
  simp only [hs, hf, Bool.not_true, Bool.false_eq_true, if_false]
  let I : DijStA α C → Prop := fun s => NumInvU N (fun _ _ => True) (fun _ => True) g.edge g.nodeList start fin av s ∧ DijNdA s ∧ HeapOk lt s.q s.i
  have hstep : ∀ s, I s → ∃ pop, PopOk pop ∧
      ((∃ sH' s', dijStepH N lt g.outNbr fin s = .inl sH' ∧ dijStepNum N pop g.outNbr fin s = .inl s' ∧ SameSt sH' s' ∧ HeapOk lt sH'.q sH'.i) ∨
      (∃ r, dijStepH N lt g.outNbr fin s = .inr (.ok r) ∧ dijStepNum N pop g.outNbr fin s = .inr r)) := by
    rintro s ⟨_, _, hk⟩
    by_cases hq : s.q = []
    · refine ⟨popMinA N, popMinA_ok N, stepH_sim ⟨.refl _, rfl, rfl, rfl⟩ hk (fun hq => by rw [hq]; rfl) (fun m q' _ hp => ?_)⟩
      rw [hq] at hp
      exact absurd hp.symm.eq_nil (by simp)
    · obtain ⟨m, q', e1, e2, _, _⟩ := pop_ok hk hq
      refine ⟨popAt s.q m q', popAt_ok e2, stepH_sim ⟨.refl _, rfl, rfl, rfl⟩ hk (fun hq' => absurd hq' hq) (fun m' q'' h1 _ _ => ?_)⟩
      rw [e1] at h1
      cases h1
      exact ⟨q', by unfold popAt; rw [if_pos rfl], .refl _⟩
  have hI0 : I ⟨[⟨N.zero, 0, start, []⟩], Dict.empty.set start N.zero, av, 1⟩ :=
    ⟨numInvU_init (DijOrd.trivial N) (has_iff.1 hs) av, ⟨by intro e he; simp at he; subst he; simp⟩, init_ok _ rfl⟩
  suffices key : ∃ r, pyWhile (dijStepH N lt g.outNbr fin) ⟨[⟨N.zero, 0, start, []⟩], Dict.empty.set start N.zero, av, 1⟩ = some r ∧
      ∃ r', r = .ok r' ∧ NumResult N (fun _ _ => True) g.edge av start fin r' ∧ r'.2.Nodup by
    obtain ⟨r, h1, r', h2, h3, h4⟩ := key
    subst h2; exact ⟨r', h1, h3, h4⟩
  refine pyWhile_totalW (step := dijStepH N lt g.outNbr fin) I
    (fun r => ∃ r', r = .ok r' ∧ NumResult N (fun _ _ => True) g.edge av start fin r' ∧ r'.2.Nodup)
    lexNat lexNat_wf (fun s => (unvis g.nodeList s.visited, s.q.length)) ?_ ?_ hI0
  · intro s s' hI hst
    obtain ⟨pop, hpo, h1⟩ := hstep s hI
    rcases h1 with ⟨sH', s2, e1, e2, e3, e4⟩ | ⟨r, e1, e2⟩
    · rw [e1] at hst
      cases hst
      obtain ⟨k1, k2⟩ := dijNum_inl (DijOrd.trivial N) hpo (fun _ _ _ _ _ _ => True.intro) (fun x y c => h.mem_outNbr) (fun _ _ _ _ => True.intro)
        (fun x y c => h.edge_mem) hI.1 e2
      refine ⟨⟨numInvU_same e3 k1, ⟨fun e he => ?_⟩, e4⟩, ?_⟩
      · have := (dijNdA_inl hpo hI.2.1 e2).ent e (e3.q.mem_iff.1 he)
        rw [e3.visited]; exact this
      · rw [e3.visited, e3.q.length_eq]; exact k2
    · rw [e1] at hst; cases hst
  · intro s r hI hst
    obtain ⟨pop, hpo, h1⟩ := hstep s hI
    rcases h1 with ⟨sH', s2, e1, e2, e3, e4⟩ | ⟨r, e1, e2⟩
    · rw [e1] at hst; cases hst
    · rw [e1] at hst
      cases hst
      exact ⟨r, rfl, dijNum_inr (DijOrd.trivial N) hpo (fun _ _ _ _ _ _ => True.intro) (fun _ _ _ _ => True.intro) hI.1 e2, dijNdA_inr hpo hI.2.1 e2⟩

end GT

import Verif.Sp.BidirMain
import Verif.Sp.DijkstraFl
import Verif.Spec.BiRound
/-
`shortest_path_bidirectional` (graph/shortest_path.py:61-242) in rounded arithmetic: `fl` is applied after every addition.
-/
namespace GT
variable {α V O : Type} [DecidableEq α]
open Graph

/-- `n2 in other.mins and n2_dist + other.mins[n2] > self.sp_length` (shortest_path.py:160) -/
def overBoundFl (fl : Rat → Rat) (omins : Dict α Rat) (spLen : Ext) (n2 : α) (n2dist : Rat) : Bool :=
  match omins.get? n2 with
  | some o => gtExt (fl (n2dist + o)) spLen
  | none => false

/-- the loop over the sorted edges (shortest_path.py:156-169).  `spLen` is `self.sp_length`, not yet
updated, `omins` is `other.mins`, `path` is `(st.n1,) + st.path`. -/
def biRelaxFl (fl : Rat → Rat) (cost : Rat) (path : List α) (spLen : Ext) (omins : Dict α Rat) :
    List (α × Rat) → List (Scan α) × Dict α Rat × Dict α (List α) → List (Scan α) × Dict α Rat × Dict α (List α)
  | [], s => s
  | (n2, dist) :: l, (q, mins, paths) =>
    if gtExt (fl (cost + dist)) spLen then biRelaxFl fl cost path spLen omins l (q, mins, paths)
    else if overBoundFl fl omins spLen n2 (fl (cost + dist)) then biRelaxFl fl cost path spLen omins l (q, mins, paths)
    else if improves mins n2 (fl (cost + dist)) then
      biRelaxFl fl cost path spLen omins l
        (insort ⟨fl (cost + dist), n2, path⟩ q, mins.set n2 (fl (cost + dist)), paths.set n2 path)
    else biRelaxFl fl cost path spLen omins l (q, mins, paths)

/-- the interception test (shortest_path.py:141-149): new `(sp, sp_length, q)` -/
def interceptFl (fl : Rat → Rat) (dir : Bool) (st : Scan α) (q : List (Scan α)) (self other : Side α) :
    Py (List α × Ext × List (Scan α)) :=
  if st.n1 ∈ other.boundary then
    match other.mins.get? st.n1 with
    | none => .error .keyError
    | some om =>
      if ltExt (fl (st.cost + om)) self.spLen then
        match other.paths.get? st.n1 with
        | none => .error .keyError
        | some op =>
          .ok (if dir then st.path.reverse ++ [st.n1] ++ op else op.reverse ++ [st.n1] ++ st.path,
            .fin (fl (st.cost + om)), q.filter (fun a => decide (a.cost < fl (st.cost + om))))
      else .ok (self.sp, self.spLen, q)
  else .ok (self.sp, self.spLen, q)

/-- `self.search(other)` (shortest_path.py:127-172).  `dir` is `True` for the forward search, `nbr` the
edges in the direction of the search, `srt` is `sorted`. -/
def Side.searchFl (fl : Rat → Rat) (dir : Bool) (nbr : α → List (α × Rat)) (srt : List (α × Rat) → List (α × Rat))
    (avoids : List α) (self other : Side α) : Py (Side α × Side α) :=
  match self.q with
  | [] => .ok (self, other)
  | st :: q =>
    if gtExt st.cost self.spLen then .ok ({ self with q := q }, other)
    else
      let boundary := sadd self.boundary st.n1
      match interceptFl fl dir st q self other with
      | .error e => .error e
      | .ok (sp, spLen, q) =>
        let edges := srt ((nbr st.n1).filter (fun e => !decide (e.1 ∈ avoids)))
        let r := biRelaxFl fl st.cost (st.n1 :: st.path) self.spLen other.mins edges (q, self.mins, self.paths)
        match ({ self with q := r.1, boundary := boundary, mins := r.2.1, paths := r.2.2 } : Side α).update sp spLen with
        | .error e => .error e
        | .ok self => match other.update sp spLen with
          | .error e => .error e
          | .ok other => .ok (self, other)

/-- one iteration of the loop (shortest_path.py:238-240), and the return (243) -/
def biStepFl (fl : Rat → Rat) (out inn : α → List (α × Rat)) (srt : List (α × Rat) → List (α × Rat)) (avoids : List α) :
    Side α × Side α → (Side α × Side α) ⊕ Py (Ext × List α)
  | (f, b) =>
    if f.q = [] ∧ b.q = [] then .inr (.ok (f.spLen, f.sp))
    else match f.searchFl fl true out srt avoids b with
      | .error e => .inr (.error e)
      | .ok (f, b) => match b.searchFl fl false inn srt avoids f with
        | .error e => .inr (.error e)
        | .ok (b, f) => .inl (f, b)

/-- `shortest_path_bidirectional(graph, start, end, avoids)` (shortest_path.py:175-242).
Simplification: `sorted((d, e) …)` is an arbitrary permutation `srt`, so nodes that cannot be compared
are not modelled here (see Sp/BidirCmp). -/
def Graph.shortestPathBiFl (fl : Rat → Rat) (srt : List (α × Rat) → List (α × Rat)) (g : Graph α Rat O) (start fin : α)
    (avoids : List α := []) : Option (Py (Ext × List α)) :=
  if !g.has start then some (.error .valueError)
  else if !g.has fin then some (.error .valueError)
  else pyWhile (biStepFl fl g.outNbr g.inNbr srt avoids) (Side.init start, Side.init fin)

/-! ### facts -/

omit [DecidableEq α] in
theorem flCost_fix {fl : Rat → Rat} (hfl : Rounding fl) {w : α → α → Option Rat} (hw : NonNeg w) (p : List α) : ∀ {acc c : Rat}, fl acc = acc → 0 ≤ acc →
    flCost fl w acc p = some c → fl c = c ∧ 0 ≤ c := by
  induction p with
  | nil => intro acc c _ _ h; simp [flCost] at h
  | cons a l ih =>
    intro acc c h1 h2 h
    cases l with
    | nil => simp only [flCost, Option.some.injEq] at h; subst h; exact ⟨h1, h2⟩
    | cons b l =>
      simp only [flCost] at h
      split at h
      · rename_i d hd
        refine ih (hfl.idem _) ?_ h
        have := hfl.mono 0 (acc + d) (by have := hw _ _ _ hd; grind)
        rw [hfl.zero] at this; exact this
      · cases h

omit [DecidableEq α] in
theorem FlWalk.snoc {fl : Rat → Rat} {w : α → α → Option Rat} {a x y : α} {p : List α} {c d : Rat} (h : FlWalk fl w [] a x p c) (hw : w x y = some d) :
    FlWalk fl w [] a y (p ++ [y]) (fl (c + d)) := by
  obtain ⟨h1, h2, h3, _⟩ := h
  refine ⟨?_, by simp, flCost_snoc h2 h3 hw, by simp⟩
  cases p with
  | nil => simp at h1
  | cons z l => simpa using h1

/-- an edge is discarded because it cannot improve the best known path -/
def prunedFl (fl : Rat → Rat) (cost : Rat) (spLen : Ext) (omins : Dict α Rat) (y : α) (d : Rat) : Prop :=
  gtExt (fl (cost + d)) spLen = true ∨ ∃ o, omins.get? y = some o ∧ gtExt (fl (fl (cost + d) + o)) spLen = true

structure RelaxFactsFl (fl : Rat → Rat) (cost : Rat) (path : List α) (spLen : Ext) (omins : Dict α Rat) (l : List (α × Rat))
    (q : List (Scan α)) (mins : Dict α Rat) (paths : Dict α (List α))
    (q' : List (Scan α)) (mins' : Dict α Rat) (paths' : Dict α (List α)) : Prop where
  keep : ∀ e ∈ q, e ∈ q'
  new : ∀ e ∈ q', e ∈ q ∨ (e.path = path ∧ (∃ d, (e.n1, d) ∈ l ∧ e.cost = fl (cost + d)) ∧
    (∃ m, mins'.get? e.n1 = some m ∧ m ≤ e.cost) ∧ ∀ m, mins.get? e.n1 = some m → e.cost < m)
  label : ∀ y m, mins'.get? y = some m → (mins.get? y = some m ∧ paths'.get? y = paths.get? y) ∨
    (paths'.get? y = some path ∧ (∃ d, (y, d) ∈ l ∧ m = fl (cost + d)) ∧ (⟨m, y, path⟩ : Scan α) ∈ q' ∧ ∀ m0, mins.get? y = some m0 → m < m0)
  mono : ∀ y m, mins.get? y = some m → ∃ m', mins'.get? y = some m' ∧ m' ≤ m
  sorted : QSorted q → QSorted q'
  relaxed : ∀ y d, (y, d) ∈ l → ¬ prunedFl fl cost spLen omins y d → ∃ m, mins'.get? y = some m ∧ m ≤ fl (cost + d)

theorem biRelax_specFl {fl : Rat → Rat} {cost : Rat} {path : List α} {spLen : Ext} {omins : Dict α Rat} (l : List (α × Rat)) :
    ∀ (q : List (Scan α)) (mins : Dict α Rat) (paths : Dict α (List α)),
    RelaxFactsFl fl cost path spLen omins l q mins paths (biRelaxFl fl cost path spLen omins l (q, mins, paths)).1
      (biRelaxFl fl cost path spLen omins l (q, mins, paths)).2.1 (biRelaxFl fl cost path spLen omins l (q, mins, paths)).2.2 := by
  induction l with
  | nil =>
    intro q mins paths
    exact ⟨fun _ h => h, fun _ h => .inl h, fun _ _ h => .inl ⟨h, rfl⟩, fun y m h => ⟨m, h, Rat.le_refl⟩, fun h => h, by simp⟩
  | cons a l ih =>
    obtain ⟨n2, dist⟩ := a
    intro q mins paths
    have skip : (¬ prunedFl fl cost spLen omins n2 dist → ∃ m, mins.get? n2 = some m ∧ m ≤ fl (cost + dist)) →
        ∀ q' mins' paths', RelaxFactsFl fl cost path spLen omins l q mins paths q' mins' paths' →
        RelaxFactsFl fl cost path spLen omins ((n2, dist) :: l) q mins paths q' mins' paths' := by
      intro hsk q' mins' paths' h
      refine ⟨h.keep, fun e he => ?_, fun y m hm => ?_, h.mono, h.sorted, fun y d hy hp => ?_⟩
      · rcases h.new e he with h1 | ⟨h1, ⟨d, h2, h3⟩, h4, h5⟩
        · exact .inl h1
        · exact .inr ⟨h1, ⟨d, List.mem_cons_of_mem _ h2, h3⟩, h4, h5⟩
      · rcases h.label y m hm with h1 | ⟨h1, ⟨d, h2, h3⟩, h4⟩
        · exact .inl h1
        · exact .inr ⟨h1, ⟨d, List.mem_cons_of_mem _ h2, h3⟩, h4⟩
      · rcases List.mem_cons.1 hy with h1 | h1
        · cases h1
          obtain ⟨m, hm, hm2⟩ := hsk hp
          obtain ⟨m', h7, h8⟩ := h.mono _ _ hm
          exact ⟨m', h7, by grind⟩
        · exact h.relaxed y d h1 hp
    simp only [biRelaxFl]
    split
    · rename_i h1
      exact skip (fun hp => absurd (.inl h1) hp) _ _ _ (ih _ _ _)
    · split
      · rename_i h1 h2
        refine skip (fun hp => absurd (.inr ?_) hp) _ _ _ (ih _ _ _)
        unfold overBoundFl at h2
        split at h2
        · rename_i o ho; exact ⟨o, ho, h2⟩
        · cases h2
      · split
        · rename_i h1 h2 h3
          have hlt : ∀ m, mins.get? n2 = some m → fl (cost + dist) < m := by
            intro m hm; unfold improves at h3; rw [hm] at h3; simpa using h3
          have h := ih (insort ⟨fl (cost + dist), n2, path⟩ q) (mins.set n2 (fl (cost + dist))) (paths.set n2 path)
          have hin := h.keep _ (mem_insort.2 (.inl rfl))
          refine ⟨fun e he => h.keep e (mem_insort.2 (.inr he)), fun e he => ?_, fun y m hm => ?_, fun y m hm => ?_,
            fun hs => h.sorted hs.insort, fun y d hy hp => ?_⟩
          · rcases h.new e he with h4 | ⟨h4, ⟨d, h5, h6⟩, h7, h8⟩
            · rcases mem_insort.1 h4 with rfl | h4
              · refine .inr ⟨rfl, ⟨dist, by simp, rfl⟩, ?_, hlt⟩
                exact h.mono n2 (fl (cost + dist)) (by simp)
              · exact .inl h4
            · refine .inr ⟨h4, ⟨d, List.mem_cons_of_mem _ h5, h6⟩, h7, fun m hm => ?_⟩
              by_cases hy : n2 = e.n1
              · have := h8 (fl (cost + dist)) (by rw [hy]; simp)
                have := hlt m (by rw [hy]; exact hm)
                grind
              · exact h8 m (by rw [Dict.get?_set_ne _ _ hy]; exact hm)
          · rcases h.label y m hm with ⟨h4, h4'⟩ | ⟨h4, ⟨d, h5, h6⟩, h7, h8⟩
            · by_cases hy : n2 = y
              · subst hy
                simp at h4 h4'
                subst h4
                exact .inr ⟨h4', ⟨dist, by simp, rfl⟩, hin, hlt⟩
              · rw [Dict.get?_set_ne _ _ hy] at h4 h4'
                exact .inl ⟨h4, h4'⟩
            · refine .inr ⟨h4, ⟨d, List.mem_cons_of_mem _ h5, h6⟩, h7, fun m0 hm0 => ?_⟩
              by_cases hy : n2 = y
              · have := h8 (fl (cost + dist)) (by rw [hy]; simp)
                have := hlt m0 (by rw [hy]; exact hm0)
                grind
              · exact h8 m0 (by rw [Dict.get?_set_ne _ _ hy]; exact hm0)
          · by_cases hy : n2 = y
            · subst hy
              obtain ⟨m', h4, h5⟩ := h.mono n2 (fl (cost + dist)) (by simp)
              exact ⟨m', h4, by have := hlt m hm; grind⟩
            · exact h.mono y m (by rw [Dict.get?_set_ne _ _ hy]; exact hm)
          · rcases List.mem_cons.1 hy with h4 | h4
            · cases h4; exact h.mono n2 (fl (cost + dist)) (by simp)
            · exact h.relaxed y d h4 hp
        · rename_i h1 h2 h3
          refine skip (fun _ => ?_) _ _ _ (ih _ _ _)
          unfold improves at h3
          cases hm : mins.get? n2 with
          | none => rw [hm] at h3; simp at h3
          | some m =>
            rw [hm] at h3
            simp at h3
            exact ⟨m, rfl, by grind⟩

/-- nodes that are already in the boundary are not queued again -/
theorem biRelax_closedFl {fl : Rat → Rat} (hfl : Rounding fl) {cost : Rat} {path : List α} {spLen : Ext} {omins : Dict α Rat} {bd : List α}
    (hfix : fl cost = cost) (l : List (α × Rat)) (hl : ∀ y d, (y, d) ∈ l → 0 ≤ d) :
    ∀ (q : List (Scan α)) (mins : Dict α Rat) (paths : Dict α (List α)),
    (∀ y ∈ bd, ∃ m, mins.get? y = some m ∧ m ≤ cost) →
    ((biRelaxFl fl cost path spLen omins l (q, mins, paths)).1.filter (fun e => decide (e.n1 ∈ bd))).length =
      (q.filter (fun e => decide (e.n1 ∈ bd))).length := by
  induction l with
  | nil => intro q mins paths _; rfl
  | cons a l ih =>
    obtain ⟨n2, dist⟩ := a
    intro q mins paths hb
    have ih := ih (fun y d hy => hl y d (List.mem_cons_of_mem _ hy))
    simp only [biRelaxFl]
    split
    · exact ih _ _ _ hb
    · split
      · exact ih _ _ _ hb
      · split
        · rename_i h3
          have hn : n2 ∉ bd := by
            intro hin
            obtain ⟨m, hm, hm2⟩ := hb n2 hin
            unfold improves at h3
            rw [hm] at h3
            simp at h3
            have := hl n2 dist (by simp)
            have := hfl.mono cost (cost + dist) (by grind)
            grind
          rw [ih _ _ _ (fun y hy => by
            rw [Dict.get?_set_ne _ _ (fun h => hn (by rw [h]; exact hy))]; exact hb y hy)]
          exact insort_filter_length (by simp [hn]) q
        · exact ih _ _ _ hb

/-! ### the invariant of one side -/

structure SideInvFl (fl : Rat → Rat) (ws : α → α → Option Rat) (U av : List α) (root : α) (L : Rat) (s : Side α) : Prop where
  ent : ∀ e ∈ s.q, FlWalk fl ws [] root e.n1 (e.path.reverse ++ [e.n1]) e.cost ∧
    (∀ x ∈ e.path.reverse ++ [e.n1], x ∉ av ∨ x = root) ∧ (∃ m, s.mins.get? e.n1 = some m ∧ m ≤ e.cost) ∧ e.n1 ∈ U
  label : ∀ y m, s.mins.get? y = some m → ∃ p, s.paths.get? y = some p ∧
    FlWalk fl ws [] root y (p.reverse ++ [y]) m ∧ ∀ x ∈ p.reverse ++ [y], x ∉ av ∨ x = root
  sorted : QSorted s.q
  last : ∀ e ∈ s.q, L ≤ e.cost
  closed : ∀ x ∈ s.boundary, ∃ m, s.mins.get? x = some m ∧ m ≤ L

/-- a walk from `a` to `b` and its length as added up from both ends -/
def FlMeet (fl : Rat → Rat) (w : α → α → Option Rat) (a b : α) (p : List α) (c : Rat) : Prop :=
  p.head? = some a ∧ p.getLast? = some b ∧ MeetSum fl w p c

omit [DecidableEq α] in
theorem FlMeet.reverse {fl : Rat → Rat} {w : α → α → Option Rat} {a b : α} {p : List α} {c : Rat} (h : FlMeet fl w a b p c) :
    FlMeet fl (fun x y => w y x) b a p.reverse c := ⟨by simpa using h.2.1, by simpa using h.1, h.2.2.reverse⟩

omit [DecidableEq α] in
theorem FlWalk.meet {fl : Rat → Rat} {w : α → α → Option Rat} {a b x : α} {l r : List α} {c d : Rat} (h : FlWalk fl w [] a x (l ++ [x]) c)
    (h' : FlWalk fl (fun x y => w y x) [] b x (r.reverse ++ [x]) d) : FlMeet fl w a b (l ++ [x] ++ r) (fl (c + d)) := by
  refine ⟨?_, ?_, l, x, r, c, d, rfl, h.2.2.1, h'.2.2.1, rfl⟩
  · have := h.1; cases l <;> simpa using this
  · cases hr : r.reverse with
    | nil =>
      have : r = [] := by simpa using hr
      subst this; simpa using h'.1
    | cons z l' =>
      have : r = l'.reverse ++ [z] := by rw [← List.reverse_reverse r, hr]; simp
      rw [hr] at h'
      have hz : z = b := by simpa using h'.1
      subst this; rw [← hz, ← List.append_assoc, List.getLast?_append]; simp

/-- the two searches agree on the best path found so far, which is a path through a node that both have
settled -/
structure BestInvFl (fl : Rat → Rat) (ws : α → α → Option Rat) (av : List α) (root root' : α) (dir : Bool) (L L' : Rat) (s o : Side α) : Prop where
  len : s.spLen = o.spLen
  sp : s.sp = o.sp
  inf : s.spLen = .inf → s.sp = []
  fin : ∀ m, s.spLen = .fin m → FlMeet fl ws root root' (if dir then s.sp else s.sp.reverse) m ∧
    (∀ x ∈ s.sp, x ∉ av ∨ x = root ∨ x = root') ∧ m ≤ fl (L + L')

theorem BestInvFl.symm {fl : Rat → Rat} {ws : α → α → Option Rat} {av : List α} {root root' : α} {dir : Bool} {L L' : Rat} {s o : Side α}
    (h : BestInvFl fl ws av root root' dir L L' s o) :
    BestInvFl fl (fun x y => ws y x) av root' root (!dir) L' L o s := by
  refine ⟨h.len.symm, h.sp.symm, fun hi => by rw [← h.sp]; exact h.inf (h.len.trans hi), fun m hm => ?_⟩
  obtain ⟨h1, h2, h3⟩ := h.fin m (h.len.trans hm)
  refine ⟨?_, fun x hx => ?_, by grind⟩
  · rw [← h.sp]
    have := h1.reverse
    cases dir <;> simpa using this
  · rcases h2 x (by rw [h.sp]; exact hx) with h | h | h
    · exact .inl h
    · exact .inr (.inr h)
    · exact .inr (.inl h)

/-- one edge sequence: nodes `p 0 … p k` with accumulated values `F` -/
structure TraceFl (fl : Rat → Rat) (ws : α → α → Option Rat) (av : List α) (root : α) (k : Nat) (p : Nat → α) (F : Nat → Rat) : Prop where
  root : p 0 = root
  zero : F 0 = 0
  edge : ∀ i, i < k → ∃ c, ws (p i) (p (i + 1)) = some c ∧ 0 ≤ c ∧ F (i + 1) = fl (F i + c)
  avoid : ∀ i, i ≤ k → p i ∉ av

omit [DecidableEq α] in
theorem TraceFl.fix {fl : Rat → Rat} (hfl : Rounding fl) {ws : α → α → Option Rat} {av : List α} {root : α} {k : Nat} {p : Nat → α} {F : Nat → Rat}
    (h : TraceFl fl ws av root k p F) {i : Nat} (hi : i ≤ k) : fl (F i) = F i := by
  cases i with
  | zero => rw [h.zero, hfl.zero]
  | succ i =>
    obtain ⟨c, _, _, h2⟩ := h.edge i (by omega)
    rw [h2, hfl.idem]

omit [DecidableEq α] in
theorem TraceFl.mono {fl : Rat → Rat} (hfl : Rounding fl) {ws : α → α → Option Rat} {av : List α} {root : α} {k : Nat} {p : Nat → α} {F : Nat → Rat}
    (h : TraceFl fl ws av root k p F) {i j : Nat} (hij : i ≤ j) (hj : j ≤ k) : F i ≤ F j := by
  induction j with
  | zero => have : i = 0 := by omega
            subst this; exact Rat.le_refl
  | succ j ih =>
    by_cases hi : i = j + 1
    · subst hi; exact Rat.le_refl
    · have := ih (by omega) (by omega)
      obtain ⟨c, _, h1, h2⟩ := h.edge j (by omega)
      have h3 := hfl.mono (F j) (F j + c) (by grind)
      rw [h.fix hfl (by omega), ← h2] at h3
      grind

omit [DecidableEq α] in
theorem TraceFl.nonneg {fl : Rat → Rat} (hfl : Rounding fl) {ws : α → α → Option Rat} {av : List α} {root : α} {k : Nat} {p : Nat → α} {F : Nat → Rat}
    (h : TraceFl fl ws av root k p F) {i : Nat} (hi : i ≤ k) : 0 ≤ F i := by
  have := h.mono hfl (Nat.zero_le i) hi
  rwa [h.zero] at this

/-- either the best path is at most as long as the trace, or both sides make progress along it -/
def TraceInvFl (D : Rat) (k : Nat) (p : Nat → α) (F : Nat → Rat) (p' : Nat → α) (F' : Nat → Rat) (s o : Side α) : Prop :=
  leExt s.spLen D ∨ (Prog k p F s ∧ Prog k p' F' o ∧
    ∀ m, m ≤ k → Lab p F s m → Lab p' F' o (k - m) → Pend p F s m ∨ Pend p' F' o (k - m))

/-- the other side of a trace -/
structure OppFl (fl : Rat → Rat) (D : Rat) (k : Nat) (p : Nat → α) (F : Nat → Rat) (p' : Nat → α) (F' : Nat → Rat) : Prop where
  node : ∀ m, m ≤ k → p' (k - m) = p m
  val : ∀ m, m ≤ k → fl (F m + F' (k - m)) ≤ D

omit [DecidableEq α] in
theorem OppFl.left {fl : Rat → Rat} (hfl : Rounding fl) {D : Rat} {ws ws' : α → α → Option Rat} {av : List α} {r r' : α} {k : Nat} {p : Nat → α} {F : Nat → Rat} {p' : Nat → α} {F' : Nat → Rat}
    (h : OppFl fl D k p F p' F') (hT : TraceFl fl ws av r k p F) (hT' : TraceFl fl ws' av r' k p' F') {m : Nat} (hm : m ≤ k) : F m ≤ D := by
  have h1 := h.val m hm
  have h2 := hT'.nonneg hfl (i := k - m) (by omega)
  have h3 := hfl.mono (F m) (F m + F' (k - m)) (by grind)
  rw [hT.fix hfl hm] at h3
  grind

/-- the part of `search` that decides about the best path -/
theorem intercept_specFl {fl : Rat → Rat} (hfl : Rounding fl) {ws : α → α → Option Rat} {U av : List α} {root root' : α} {dir : Bool} {L L' : Rat}
    {self other : Side α} {st : Scan α} {q : List (Scan α)}
    (hs : SideInvFl fl ws U av root L self) (ho : SideInvFl fl (fun x y => ws y x) U av root' L' other)
    (hb : BestInvFl fl ws av root root' dir L L' self other) (hq : self.q = st :: q) :
    ∃ sp spLen q1, interceptFl fl dir st q self other = .ok (sp, spLen, q1) ∧
      spLen.gt self.spLen = false ∧ q1.Sublist q ∧
      (spLen = .inf → sp = [] ∧ self.spLen = .inf) ∧
      (∀ m, spLen = .fin m → FlMeet fl ws root root' (if dir then sp else sp.reverse) m ∧
        (∀ x ∈ sp, x ∉ av ∨ x = root ∨ x = root') ∧ m ≤ fl (st.cost + L')) ∧
      (∀ D, leExt self.spLen D → leExt spLen D) ∧
      (∀ D, ¬ leExt spLen D → ∀ e ∈ q, e.cost ≤ D → e ∈ q1) ∧
      (∀ D c, st.n1 ∈ other.boundary → other.mins.get? st.n1 = some c → fl (st.cost + c) ≤ D → leExt spLen D) := by
  have hL : L ≤ st.cost := hs.last st (by rw [hq]; simp)
  have same : (∀ D c, st.n1 ∈ other.boundary → other.mins.get? st.n1 = some c → fl (st.cost + c) ≤ D → leExt self.spLen D) →
      ∃ sp spLen q1, (Except.ok (self.sp, self.spLen, q) : Py _) = .ok (sp, spLen, q1) ∧
      spLen.gt self.spLen = false ∧ q1.Sublist q ∧
      (spLen = .inf → sp = [] ∧ self.spLen = .inf) ∧
      (∀ m, spLen = .fin m → FlMeet fl ws root root' (if dir then sp else sp.reverse) m ∧
        (∀ x ∈ sp, x ∉ av ∨ x = root ∨ x = root') ∧ m ≤ fl (st.cost + L')) ∧
      (∀ D, leExt self.spLen D → leExt spLen D) ∧
      (∀ D, ¬ leExt spLen D → ∀ e ∈ q, e.cost ≤ D → e ∈ q1) ∧
      (∀ D c, st.n1 ∈ other.boundary → other.mins.get? st.n1 = some c → fl (st.cost + c) ≤ D → leExt spLen D) := by
    intro h
    refine ⟨_, _, _, rfl, not_gt_self _, List.Sublist.refl _, fun hi => ⟨hb.inf hi, hi⟩, fun m hm => ?_, fun D h => h,
      fun D _ e he _ => he, h⟩
    obtain ⟨h1, h2, h3⟩ := hb.fin m hm
    have := hfl.mono (L + L') (st.cost + L') (by grind)
    exact ⟨h1, h2, by grind⟩
  by_cases hbd : st.n1 ∈ other.boundary
  · obtain ⟨om, hom, homL⟩ := ho.closed _ hbd
    by_cases hlt : ltExt (fl (st.cost + om)) self.spLen = true
    · obtain ⟨op, hop, hopw, hopa⟩ := ho.label _ _ hom
      have hie : interceptFl fl dir st q self other = .ok (if dir then st.path.reverse ++ [st.n1] ++ op else op.reverse ++ [st.n1] ++ st.path,
            .fin (fl (st.cost + om)), q.filter (fun a => decide (a.cost < fl (st.cost + om)))) := by
        unfold interceptFl; rw [if_pos hbd, hom]; dsimp only; rw [if_pos hlt, hop]
      obtain ⟨hw, ha, _, _⟩ := hs.ent st (by rw [hq]; simp)
      have hjoin := hw.meet hopw
      have hmono := hfl.mono (st.cost + om) (st.cost + L') (by grind)
      refine ⟨_, _, _, hie, ?_, List.filter_sublist, (fun h => nomatch h), fun m hm => ?_, ?_, ?_, ?_⟩
      · cases hsl : self.spLen with
        | inf => rfl
        | fin q => rw [hsl] at hlt; simp [ltExt] at hlt; simp [Ext.gt, gtExt]; grind
      · cases hm
        refine ⟨?_, ?_, by grind⟩
        · cases dir with
          | true => simpa using hjoin
          | false => simpa using hjoin
        · intro x hx
          have hx' : x ∈ st.path.reverse ++ [st.n1] ∨ x ∈ op.reverse ++ [st.n1] := by
            cases dir with
            | true =>
              simp only [if_true, List.mem_append, List.mem_reverse, List.mem_singleton] at hx ⊢
              rcases hx with (h | h) | h
              · exact .inl (.inl h)
              · exact .inl (.inr h)
              · exact .inr (.inl h)
            | false =>
              simp only [Bool.false_eq_true, if_false, List.mem_append, List.mem_reverse, List.mem_singleton] at hx ⊢
              rcases hx with (h | h) | h
              · exact .inr (.inl h)
              · exact .inl (.inr h)
              · exact .inl (.inl h)
          rcases hx' with h | h
          · rcases ha x h with h | h
            · exact .inl h
            · exact .inr (.inl h)
          · rcases hopa x h with h | h
            · exact .inl h
            · exact .inr (.inr h)
      · intro D hD
        cases hsl : self.spLen with
        | inf => rw [hsl] at hD; exact absurd hD id
        | fin q => rw [hsl] at hlt hD; simp [ltExt] at hlt; simp only [leExt] at hD ⊢; grind
      · intro D hD e he hc
        rw [List.mem_filter]
        refine ⟨he, ?_⟩
        simp only [leExt] at hD
        simp; grind
      · intro D c _ hc hle
        rw [hom] at hc; cases hc
        exact hle
    · have hie : interceptFl fl dir st q self other = .ok (self.sp, self.spLen, q) := by
        unfold interceptFl; rw [if_pos hbd, hom]; dsimp only; rw [if_neg hlt]
      rw [hie]
      apply same
      intro D c _ hc hle
      rw [hom] at hc; cases hc
      cases hsl : self.spLen with
      | inf => rw [hsl] at hlt; simp [ltExt] at hlt
      | fin q => rw [hsl] at hlt; simp [ltExt] at hlt; simp only [leExt]; grind
  · have hie : interceptFl fl dir st q self other = .ok (self.sp, self.spLen, q) := by
      unfold interceptFl; rw [if_neg hbd]
    rw [hie]
    exact same (fun D c h => absurd h hbd)

/-- everything `search` maintains -/
theorem search_specFl {fl : Rat → Rat} (hfl : Rounding fl) {ws : α → α → Option Rat} (hw : NonNeg ws) {U av : List α} (hU : ∀ x y c, ws x y = some c → x ∈ U ∧ y ∈ U)
    {nbr : α → List (α × Rat)} (hn : ∀ x y c, (y, c) ∈ nbr x ↔ ws x y = some c)
    {srt : List (α × Rat) → List (α × Rat)} (hsrt : ∀ l, (srt l).Perm l)
    {root root' : α} {dir : Bool} {L L' : Rat} {self other : Side α}
    (hs : SideInvFl fl ws U av root L self) (ho : SideInvFl fl (fun x y => ws y x) U av root' L' other)
    (hb : BestInvFl fl ws av root root' dir L L' self other) :
    ∃ self' other' L1, self.searchFl fl dir nbr srt av other = .ok (self', other') ∧
      SideInvFl fl ws U av root L1 self' ∧ SideInvFl fl (fun x y => ws y x) U av root' L' other' ∧
      BestInvFl fl ws av root root' dir L1 L' self' other' ∧
      (other'.q = other.q ∧ other'.boundary = other.boundary) ∧
      (self.q = [] → self' = self) ∧ (self.q ≠ [] → workLt (self'.work U) (self.work U)) ∧
      (∀ D k p F p' F', TraceFl fl ws av root k p F → TraceFl fl (fun x y => ws y x) av root' k p' F' → OppFl fl D k p F p' F' →
        TraceInvFl D k p F p' F' self other → TraceInvFl D k p F p' F' self' other') := by
  unfold Side.searchFl
  cases hq : self.q with
  | nil =>
    refine ⟨self, other, L, rfl, hs, ho, hb, ⟨rfl, rfl⟩, fun _ => rfl, fun h => absurd rfl h, ?_⟩
    intro D k p F p' F' _ _ _ h; exact h
  | cons st q =>
    dsimp only
    have hstq : st ∈ self.q := by rw [hq]; simp
    have hsort := hs.sorted
    rw [hq] at hsort
    unfold QSorted at hsort
    rw [List.pairwise_cons] at hsort
    by_cases hgt : gtExt st.cost self.spLen = true
    · rw [if_pos hgt]
      obtain ⟨mu, hmu, hmu2⟩ := gtExt_iff.1 hgt
      refine ⟨{ self with q := q }, other, L, rfl, ⟨fun e he => hs.ent e (by rw [hq]; exact List.mem_cons_of_mem _ he),
        hs.label, hsort.2, fun e he => hs.last e (by rw [hq]; exact List.mem_cons_of_mem _ he), hs.closed⟩, ho,
        ⟨hb.len, hb.sp, hb.inf, hb.fin⟩, ⟨rfl, rfl⟩, (fun h => by cases h), fun _ => ?_, ?_⟩
      · unfold workLt Side.work
        rw [hq]
        simp only [List.length_cons, List.filter_cons]
        split
        · simp
        · simp
      · intro D k p F p' F' hT hT' hO hI
        rcases hI with h | ⟨h1, h2, h3⟩
        · exact .inl h
        · by_cases hD : leExt self.spLen D
          · exact .inl hD
          · refine .inr ⟨?_, h2, ?_⟩
            · have hpend : ∀ m, m ≤ k → Pend p F self m → Pend p F { self with q := q } m := by
                rintro m hm ⟨e, he, he1, he2⟩
                rw [hq] at he
                rcases List.mem_cons.1 he with rfl | he
                · exfalso; apply hD; rw [hmu]
                  simp only [leExt]
                  have := hO.left hfl hT hT' hm
                  grind
                · exact ⟨e, he, he1, he2⟩
              refine ⟨h1.zero, fun m hm hl => ?_⟩
              rcases h1.step m hm hl with h | h
              · exact .inl (hpend m hm h)
              · exact .inr h
            · have hpend : ∀ m, m ≤ k → Pend p F self m → Pend p F { self with q := q } m := by
                rintro m hm ⟨e, he, he1, he2⟩
                rw [hq] at he
                rcases List.mem_cons.1 he with rfl | he
                · exfalso; apply hD; rw [hmu]
                  simp only [leExt]
                  have := hO.left hfl hT hT' hm
                  grind
                · exact ⟨e, he, he1, he2⟩
              intro m hm hl1 hl2
              rcases h3 m hm hl1 hl2 with h | h
              · exact .inl (hpend m hm h)
              · exact .inr h
    · rw [if_neg hgt]
      obtain ⟨sp, spLen, q1, hi, hi1, hi2, hi3, hi4, hi5, hi6, hi7⟩ := intercept_specFl hfl hs ho hb hq
      rw [hi]
      dsimp only
      obtain ⟨hfix0, hnn0⟩ := flCost_fix hfl hw _ hfl.zero Rat.le_refl (hs.ent st hstq).1.2.2.1
      generalize hed : srt ((nbr st.n1).filter (fun e => !decide (e.1 ∈ av))) = edges
      have hmem : ∀ y d, (y, d) ∈ edges ↔ ws st.n1 y = some d ∧ y ∉ av := by
        intro y d; rw [← hed, (hsrt _).mem_iff, List.mem_filter, hn]; simp
      have hR := biRelax_specFl (fl := fl) (cost := st.cost) (path := st.n1 :: st.path) (spLen := self.spLen) (omins := other.mins)
        edges q1 self.mins self.paths
      have hRc := biRelax_closedFl hfl (cost := st.cost) (path := st.n1 :: st.path) (spLen := self.spLen) (omins := other.mins)
        (bd := self.boundary) hfix0 edges (fun y d hy => hw _ _ _ ((hmem y d).1 hy).1) q1 self.mins self.paths
      generalize hr : biRelaxFl fl st.cost (st.n1 :: st.path) self.spLen other.mins edges (q1, self.mins, self.paths) = r at hR hRc
      obtain ⟨q2, mins2, paths2⟩ := r
      dsimp only at hR hRc
      have hu1 : Side.update (⟨q2, sadd self.boundary st.n1, mins2, paths2, self.sp, self.spLen⟩ : Side α) sp spLen =
          .ok ⟨q2, sadd self.boundary st.n1, mins2, paths2, sp, spLen⟩ := by
        unfold Side.update; rw [if_neg (by simp [hi1])]
      have hu2 : other.update sp spLen = .ok { other with sp := sp, spLen := spLen } := by
        unfold Side.update; rw [if_neg (by rw [← hb.len]; simp [hi1])]
      rw [hu1]; dsimp only; rw [hu2]
      have hLst : L ≤ st.cost := hs.last st hstq
      obtain ⟨hw0, ha0, ⟨m0, hm0, hm0'⟩, hU0⟩ := hs.ent st hstq
      have hq1 : ∀ e ∈ q1, e ∈ q := fun e he => hi2.subset he
      have hwalk2 : ∀ y d, (y, d) ∈ edges → FlWalk fl ws [] root y ((st.n1 :: st.path).reverse ++ [y]) (fl (st.cost + d)) ∧
          ∀ x ∈ (st.n1 :: st.path).reverse ++ [y], x ∉ av ∨ x = root := by
        intro y d hy
        obtain ⟨h1, h2⟩ := (hmem y d).1 hy
        constructor
        · rw [List.reverse_cons]; exact hw0.snoc h1
        · intro x hx
          rw [List.reverse_cons, List.mem_append] at hx
          rcases hx with hx | hx
          · exact ha0 x hx
          · rw [List.mem_singleton] at hx; subst hx; exact .inl h2
      refine ⟨_, _, st.cost, rfl, ⟨?_, ?_, ?_, ?_, ?_⟩, ⟨ho.ent, ho.label, ho.sorted, ho.last, ho.closed⟩,
        ⟨rfl, rfl, fun h => (hi3 h).1, hi4⟩, ⟨rfl, rfl⟩, (fun h => by cases h), fun _ => ?_, ?_⟩
      · intro e he
        rcases hR.new e he with h | ⟨h1, ⟨d, h2, h3⟩, h4, _⟩
        · obtain ⟨a1, a2, ⟨m, a3, a4⟩, a5⟩ := hs.ent e (by rw [hq]; exact List.mem_cons_of_mem _ (hq1 e h))
          obtain ⟨m', b1, b2⟩ := hR.mono _ _ a3
          exact ⟨a1, a2, ⟨m', b1, by grind⟩, a5⟩
        · obtain ⟨a1, a2⟩ := hwalk2 _ _ h2
          exact ⟨by rw [h1, h3]; exact a1, by rw [h1]; exact a2, h4, (hU _ _ _ ((hmem _ _).1 h2).1).2⟩
      · intro y m hm
        rcases hR.label y m hm with ⟨h1, h2⟩ | ⟨h1, ⟨d, h2, h3⟩, _⟩
        · obtain ⟨pp, a1, a2⟩ := hs.label y m h1
          exact ⟨pp, h2.trans a1, a2⟩
        · rw [h3]; exact ⟨_, h1, hwalk2 _ _ h2⟩
      · apply hR.sorted
        exact hsort.2.sublist hi2
      · intro e he
        rcases hR.new e he with h | ⟨_, ⟨d, h2, h3⟩, _⟩
        · exact hsort.1 e (hq1 e h)
        · have := hw _ _ _ ((hmem _ _).1 h2).1; have := hfl.mono st.cost (st.cost + d) (by grind); show st.cost ≤ e.cost; grind
      · intro x hx
        rcases mem_sadd.1 hx with rfl | hx
        · obtain ⟨m', b1, b2⟩ := hR.mono _ _ hm0
          exact ⟨m', b1, by grind⟩
        · obtain ⟨m, a1, a2⟩ := hs.closed x hx
          obtain ⟨m', b1, b2⟩ := hR.mono _ _ a1
          exact ⟨m', b1, by grind⟩
      · unfold workLt Side.work
        by_cases hbd : st.n1 ∈ self.boundary
        · right; left
          have hsb : sadd self.boundary st.n1 = self.boundary := by unfold sadd; rw [if_pos hbd]
          simp only [hsb]
          refine ⟨trivial, ?_⟩
          rw [hRc (fun y hy => by
            obtain ⟨m, a1, a2⟩ := hs.closed y hy; exact ⟨m, a1, by grind⟩)]
          rw [hq, List.filter_cons_of_pos (by simpa using hbd), List.length_cons]
          have := (hi2.filter (fun e => decide (e.n1 ∈ self.boundary))).length_le
          omega
        · left
          exact unvis_lt (fun x hx => mem_sadd.2 (.inr hx)) hU0 hbd (mem_sadd.2 (.inl rfl))
      · intro D k p F p' F' hT hT' hO hI
        by_cases hD' : leExt spLen D
        · exact .inl hD'
        have hD : ¬ leExt self.spLen D := fun h => hD' (hi5 _ h)
        rcases hI with h | ⟨h1, h2, h3⟩
        · exact absurd h hD
        refine .inr ⟨?_, ⟨h2.zero, h2.step⟩, ?_⟩
        · -- progress of self
          have hpend : ∀ m, m ≤ k → ∀ e ∈ q, e.n1 = p m → e.cost ≤ F m →
              Pend p F (⟨q2, sadd self.boundary st.n1, mins2, paths2, sp, spLen⟩ : Side α) m := by
            intro m hm e he he1 he2
            exact ⟨e, hR.keep _ (hi6 _ hD' e he (by have := hO.left hfl hT hT' hm; grind)), he1, he2⟩
          have hlabmono : ∀ m, Lab p F self m →
              Lab p F (⟨q2, sadd self.boundary st.n1, mins2, paths2, sp, spLen⟩ : Side α) m := by
            rintro m ⟨c, hc, hc2⟩
            obtain ⟨m', b1, b2⟩ := hR.mono _ _ hc
            exact ⟨m', b1, by grind⟩
          refine ⟨hlabmono 0 h1.zero, fun m hm hl => ?_⟩
          obtain ⟨c, hc, hc2⟩ := hl
          rcases hR.label _ _ hc with ⟨hold, _⟩ | ⟨_, _, hin, _⟩
          · rcases h1.step m hm ⟨c, hold, hc2⟩ with ⟨e, he, he1, he2⟩ | ⟨hb1, hb2⟩
            · rw [hq] at he
              rcases List.mem_cons.1 he with rfl | he
              · refine .inr ⟨mem_sadd.2 (.inl he1.symm), fun hmk => ?_⟩
                obtain ⟨c', hc', hc0, hF⟩ := hT.edge m hmk
                have hedge : (p (m + 1), c') ∈ edges := (hmem _ _).2 ⟨by rw [he1]; exact hc', hT.avoid _ hmk⟩
                have hm1 := hfl.mono (e.cost + c') (F m + c') (by grind)
                rw [← hF] at hm1
                have hFD := hO.left hfl hT hT' (show m + 1 ≤ k from hmk)
                have hnp : ¬ prunedFl fl e.cost self.spLen other.mins (p (m + 1)) c' := by
                  rintro (hp | ⟨o, ho1, hp⟩)
                  · obtain ⟨mu, e1, e2⟩ := gtExt_iff.1 hp
                    apply hD; rw [e1]; simp only [leExt]; grind
                  · obtain ⟨mu, e1, e2⟩ := gtExt_iff.1 hp
                    by_cases hlo : Lab p' F' other (k - (m + 1))
                    · obtain ⟨o', ho', ho2⟩ := hlo
                      rw [hO.node (m + 1) hmk, ho1] at ho'
                      cases ho'
                      have hv := hO.val (m + 1) hmk
                      have := hfl.mono (fl (e.cost + c') + o) (F (m + 1) + F' (k - (m + 1))) (by grind)
                      apply hD; rw [e1]; simp only [leExt]; grind
                    · obtain ⟨l, hl1, e', he', _, hl2⟩ := h2.pending (k - (m + 1)) (by omega) hlo
                      have hLo := ho.last e' he'
                      have hmo := hT'.mono hfl (show l ≤ k - m by omega) (by omega)
                      have hv := hO.val m hm
                      obtain ⟨_, _, hmuL⟩ := hb.fin mu e1
                      have := hfl.mono (L + L') (F m + F' (k - m)) (by grind)
                      apply hD; rw [e1]; simp only [leExt]; grind
                obtain ⟨m', b1, b2⟩ := hR.relaxed _ _ hedge hnp
                exact ⟨m', b1, by grind⟩
              · exact .inl (hpend m hm e he he1 he2)
            · exact .inr ⟨mem_sadd.2 (.inr hb1), fun hmk => hlabmono _ (hb2 hmk)⟩
          · exact .inl ⟨_, hin, rfl, hc2⟩
        · -- meeting
          intro m hm hl1 hl2
          obtain ⟨c, hc, hc2⟩ := hl1
          rcases hR.label _ _ hc with ⟨hold, _⟩ | ⟨_, _, hin, _⟩
          · rcases h3 m hm ⟨c, hold, hc2⟩ hl2 with ⟨e, he, he1, he2⟩ | h
            · rw [hq] at he
              rcases List.mem_cons.1 he with rfl | he
              · rcases h2.step (k - m) (by omega) hl2 with hp | ⟨hbd, _⟩
                · exact .inr hp
                · exfalso
                  obtain ⟨o, ho1, ho2⟩ := hl2
                  rw [hO.node m hm] at hbd
                  have ho1' : other.mins.get? (p m) = some o := by
                    have := hO.node m hm; rw [← this]; exact ho1
                  have hv := hO.val m hm
                  have := hfl.mono (e.cost + o) (F m + F' (k - m)) (by grind)
                  exact hD' (hi7 D o (by rw [he1]; exact hbd) (by rw [he1]; exact ho1') (by grind))
              · refine .inl ⟨e, hR.keep _ (hi6 _ hD' e he (by have := hO.left hfl hT hT' hm; grind)), he1, he2⟩
            · exact .inr h
          · exact .inl ⟨_, hin, rfl, hc2⟩

omit [DecidableEq α] in
theorem OppFl.symm {fl : Rat → Rat} {D : Rat} {k : Nat} {p : Nat → α} {F : Nat → Rat} {p' : Nat → α} {F' : Nat → Rat} (h : OppFl fl D k p F p' F') :
    OppFl fl D k p' F' p F := by
  refine ⟨fun m hm => ?_, fun m hm => ?_⟩
  · have := h.node (k - m) (by omega)
    rw [Nat.sub_sub_self hm] at this; exact this.symm
  · have := h.val (k - m) (by omega)
    rw [Nat.sub_sub_self hm, Rat.add_comm] at this; exact this

theorem TraceInvFl.symm {D : Rat} {k : Nat} {p : Nat → α} {F : Nat → Rat} {p' : Nat → α} {F' : Nat → Rat} {s o : Side α}
    (h : TraceInvFl D k p F p' F' s o) (hl : s.spLen = o.spLen) : TraceInvFl D k p' F' p F o s := by
  rcases h with h | ⟨h1, h2, h3⟩
  · left; rw [← hl]; exact h
  · refine .inr ⟨h2, h1, fun m hm hl1 hl2 => ?_⟩
    have := h3 (k - m) (by omega) hl2 (by rw [Nat.sub_sub_self hm]; exact hl1)
    rw [Nat.sub_sub_self hm] at this
    exact this.symm

omit [DecidableEq α] in
theorem walkCost_edge {w : α → α → Option Rat} (q : List α) : ∀ {c : Rat}, walkCost w q = some c → ∀ i x y, q[i]? = some x → q[i + 1]? = some y → ∃ d, w x y = some d := by
  induction q with
  | nil => intro c h; simp [walkCost] at h
  | cons a l ih =>
    intro c h i x y hx hy
    cases l with
    | nil => simp at hy
    | cons b l =>
      simp only [walkCost] at h
      split at h
      · rename_i c1 c2 hab hl
        cases i with
        | zero => simp at hx hy; subst hx hy; exact ⟨c1, hab⟩
        | succ i => exact ih hl i x y (by simpa using hx) (by simpa using hy)
      · cases h

omit [DecidableEq α] in
theorem flCost_total {fl : Rat → Rat} {w : α → α → Option Rat} (q : List α) (hne : q ≠ []) (hq : ∀ i x y, q[i]? = some x → q[i + 1]? = some y → ∃ d, w x y = some d) :
    ∀ acc, ∃ d, flCost fl w acc q = some d := by
  induction q with
  | nil => exact absurd rfl hne
  | cons a l ih =>
    intro acc
    cases l with
    | nil => exact ⟨acc, rfl⟩
    | cons b l =>
      obtain ⟨d, hd⟩ := hq 0 a b rfl rfl
      obtain ⟨e, he⟩ := ih (by simp) (fun i x y hx hy => hq (i + 1) x y (by simpa using hx) (by simpa using hy)) (fl (acc + d))
      exact ⟨e, by simp only [flCost, hd]; exact he⟩

/-- the rounded length of the first `i + 1` nodes -/
def preCost (fl : Rat → Rat) (w : α → α → Option Rat) (q : List α) (i : Nat) : Rat := (flCost fl w 0 (q.take (i + 1))).getD 0

omit [DecidableEq α] in
theorem preCost_some {fl : Rat → Rat} {w : α → α → Option Rat} {q : List α} {c : Rat} (hq : walkCost w q = some c) (hne : q ≠ []) (i : Nat) :
    flCost fl w 0 (q.take (i + 1)) = some (preCost fl w q i) := by
  have hne' : q.take (i + 1) ≠ [] := by cases q <;> simp_all
  obtain ⟨d, hd⟩ := flCost_total (fl := fl) (w := w) (q.take (i + 1)) hne' (fun j x y hx hy => by
    rw [List.getElem?_take] at hx hy
    split at hx
    · split at hy
      · exact walkCost_edge q hq j x y hx hy
      · cases hy
    · cases hx) 0
  unfold preCost; rw [hd]; rfl

omit [DecidableEq α] in
/-- a walk as a trace -/
theorem list_trace {fl : Rat → Rat} {w : α → α → Option Rat} (hw : NonNeg w) {av q : List α} {a : α} {c : Rat} (hq : walkCost w q = some c)
    (ha : q.head? = some a) (hav : ∀ x ∈ q, x ∉ av) : TraceFl fl w av a (q.length - 1) (fun i => q.getD i a) (preCost fl w q) := by
  have hne : q ≠ [] := by intro h; rw [h] at ha; simp at ha
  have hlen : 0 < q.length := by cases q <;> simp_all
  have hget : ∀ i, i ≤ q.length - 1 → q[i]? = some (q.getD i a) := by
    intro i hi
    rw [List.getD_eq_getElem?_getD, List.getElem?_eq_getElem (show i < q.length by omega)]; rfl
  refine ⟨?_, ?_, fun i hi => ?_, fun i hi => ?_⟩
  · have := hget 0 (by omega); rw [List.head?_eq_getElem?] at ha; rw [ha] at this; exact (Option.some.inj this).symm
  · cases q with
    | nil => exact absurd rfl hne
    | cons x l => rfl
  · obtain ⟨d, hd⟩ := walkCost_edge q hq i _ _ (hget i (by omega)) (hget (i + 1) (by omega))
    refine ⟨d, hd, hw _ _ _ hd, ?_⟩
    have h1 := preCost_some (fl := fl) hq hne i
    have h2 := preCost_some (fl := fl) hq hne (i + 1)
    have h3 : q.take (i + 1 + 1) = q.take (i + 1) ++ [q.getD (i + 1) a] := by
      rw [List.take_add_one, hget (i + 1) (by omega)]; rfl
    rw [h3, flCost_snoc (x := q.getD i a) (by
      rw [List.take_add_one, hget i (by omega)]; simp) h1 hd] at h2
    exact (Option.some.inj h2).symm
  · exact hav _ (List.mem_of_getElem? (hget i hi))

theorem exists_max (f : Nat → Rat) (k : Nat) : ∃ m, m ≤ k ∧ ∀ j, j ≤ k → f j ≤ f m := by
  induction k with
  | zero => exact ⟨0, Nat.le_refl _, fun j hj => by rw [show j = 0 by omega]; exact Rat.le_refl⟩
  | succ k ih =>
    obtain ⟨m, h1, h2⟩ := ih
    by_cases h : f m ≤ f (k + 1)
    · refine ⟨k + 1, Nat.le_refl _, fun j hj => ?_⟩
      by_cases hj' : j = k + 1
      · rw [hj']; exact Rat.le_refl
      · have := h2 j (by omega); grind
    · refine ⟨m, by omega, fun j hj => ?_⟩
      by_cases hj' : j = k + 1
      · rw [hj']; grind
      · exact h2 j (by omega)

/-- a walk as a pair of opposite traces; the bound is its length as added up from both ends to some node -/
theorem walk_traces {fl : Rat → Rat} {w : α → α → Option Rat} (hw : NonNeg w) {av q : List α} {a b : α} {c : Rat} (h : WalkOf w a b q c)
    (hav : ∀ x ∈ q, x ∉ av) : ∃ D k p F p' F', TraceFl fl w av a k p F ∧ TraceFl fl (fun x y => w y x) av b k p' F' ∧ OppFl fl D k p F p' F' ∧ MeetSum fl w q D := by
  have hr := h.reverse
  have h1 := list_trace (fl := fl) hw (av := av) h.2.2 h.1 hav
  have h2 := list_trace (fl := fl) (w := fun x y => w y x) (fun x y c h => hw y x c h) (av := av) hr.2.2 hr.1 (fun x hx => hav x (by simpa using hx))
  rw [List.length_reverse] at h2
  obtain ⟨m, hm, hmax⟩ := exists_max (fun m => fl (preCost fl w q m + preCost fl (fun x y => w y x) q.reverse (q.length - 1 - m))) (q.length - 1)
  have hne := h.ne_nil
  have hlen : 0 < q.length := by cases q <;> simp_all
  refine ⟨_, _, _, _, _, _, h1, h2, ⟨fun i hi => ?_, hmax⟩, ?_⟩
  · simp only [List.getD_eq_getElem?_getD]
    rw [List.getElem?_reverse (by omega), show q.length - 1 - (q.length - 1 - i) = i by omega, List.getElem?_eq_getElem (show i < q.length by omega)]
    rfl
  · have hmq : m < q.length := by omega
    refine ⟨q.take m, q[m], q.drop (m + 1), _, _, ?_, ?_, ?_, rfl⟩
    · rw [List.append_assoc, List.singleton_append, ← List.drop_eq_getElem_cons hmq, List.take_append_drop]
    · have := preCost_some (fl := fl) h.2.2 hne m
      rw [List.take_add_one, List.getElem?_eq_getElem hmq] at this
      exact this
    · have := preCost_some (fl := fl) hr.2.2 hr.ne_nil (q.length - 1 - m)
      rw [List.take_reverse, show q.length - (q.length - 1 - m + 1) = m by omega, List.drop_eq_getElem_cons hmq, List.reverse_cons] at this
      exact this

/-- the invariant of the main loop -/
def BiInvFl (fl : Rat → Rat) (w : α → α → Option Rat) (U av : List α) (start fin : α) (s : Side α × Side α) : Prop :=
  ∃ L L', SideInvFl fl w U av start L s.1 ∧ SideInvFl fl (fun x y => w y x) U av fin L' s.2 ∧
    BestInvFl fl w av start fin true L L' s.1 s.2 ∧
    ∀ D k p F p' F', TraceFl fl w av start k p F → TraceFl fl (fun x y => w y x) av fin k p' F' → OppFl fl D k p F p' F' →
      TraceInvFl D k p F p' F' s.1 s.2

/-- what the bidirectional search returns, whatever the avoided nodes are -/
def BiResultFl (fl : Rat → Rat) (w : α → α → Option Rat) (av : List α) (start fin : α) (r : Ext × List α) : Prop :=
  (∀ p c, AvoidWalk w av start fin p c → ∃ c', MeetSum fl w p c' ∧ leExt r.1 c') ∧
  (r = (.inf, []) ∨ ∃ d, r.1 = .fin d ∧ FlMeet fl w start fin r.2 d ∧ ∀ x ∈ r.2, x ∉ av ∨ x = start ∨ x = fin)

def BiPostFl (fl : Rat → Rat) (w : α → α → Option Rat) (av : List α) (start fin : α) (r : Py (Ext × List α)) : Prop :=
  ∃ x, r = .ok x ∧ BiResultFl fl w av start fin x

theorem bi_stepFl {fl : Rat → Rat} (hfl : Rounding fl) {w : α → α → Option Rat} (hw : NonNeg w) {U av : List α} (hU : ∀ x y c, w x y = some c → x ∈ U ∧ y ∈ U)
    {out inn : α → List (α × Rat)} (hout : ∀ x y c, (y, c) ∈ out x ↔ w x y = some c)
    (hinn : ∀ x y c, (y, c) ∈ inn x ↔ w y x = some c)
    {srt : List (α × Rat) → List (α × Rat)} (hsrt : ∀ l, (srt l).Perm l) {start fin : α}
    {f b : Side α} (hI : BiInvFl fl w U av start fin (f, b)) (hne : ¬ (f.q = [] ∧ b.q = [])) :
    ∃ s', biStepFl fl out inn srt av (f, b) = .inl s' ∧ BiInvFl fl w U av start fin s' ∧ triLt (biWork U s') (biWork U (f, b)) := by
  obtain ⟨L, L', h1, h2, h3, h4⟩ := hI
  obtain ⟨f1, b1, L1, e1, f2, f3, f4, ⟨f5, f6⟩, f7, f8, f9⟩ := search_specFl hfl hw hU hout hsrt h1 h2 h3
  have hw' : NonNeg (fun x y => w y x) := fun a b c h => hw b a c h
  obtain ⟨b2, f2', L2, e2, g2, g3, g4, ⟨g5, g6⟩, g7, g8, g9⟩ := search_specFl hfl (nbr := inn) (dir := false) hw' (fun x y c h => (hU y x c h).symm) hinn hsrt f3 f2
    (by simpa using f4.symm)
  refine ⟨(f2', b2), ?_, ⟨L1, L2, g3, g2, by simpa using g4.symm, ?_⟩, ?_⟩
  · unfold biStepFl; dsimp only; rw [if_neg hne]; rw [show Side.searchFl fl true out srt av f b = _ from e1]; dsimp only; rw [e2]
  · intro D k p F p' F' hT hT' hO
    have i1 := f9 D k p F p' F' hT hT' hO (h4 D k p F p' F' hT hT' hO)
    have i2 := i1.symm f4.len
    have i3 := g9 D k p' F' p F hT' hT hO.symm i2
    exact i3.symm g4.len
  · apply triLt_of
    have wb1 : b1.work U = b.work U := by unfold Side.work; rw [f5, f6]
    have wf2 : f2'.work U = f1.work U := by unfold Side.work; rw [g5, g6]
    unfold biWork
    dsimp only
    rw [wf2, ← wb1]
    have hA : f.q ≠ [] → workLt (f1.work U) (f.work U) := f8
    have hA' : f.q = [] → f1.work U = f.work U := fun h => by rw [f7 h]
    have hB : b1.q ≠ [] → workLt (b2.work U) (b1.work U) := g8
    have hB' : b1.q = [] → b2.work U = b1.work U := fun h => by rw [g7 h]
    rw [f5] at hB hB'
    have hX : workLt (f1.work U) (f.work U) ∨ (f1.work U = f.work U ∧ f.q = []) := by
      by_cases h : f.q = []
      · exact .inr ⟨hA' h, h⟩
      · exact .inl (hA h)
    have hY : workLt (b2.work U) (b1.work U) ∨ (b2.work U = b1.work U ∧ b.q = []) := by
      by_cases h : b.q = []
      · exact .inr ⟨hB' h, h⟩
      · exact .inl (hB h)
    rcases hX with hX | ⟨hX, hX'⟩ <;> rcases hY with hY | ⟨hY, hY'⟩
    · unfold workLt at *; dsimp only; omega
    · rw [hY]; unfold workLt at *; dsimp only; omega
    · rw [hX]; unfold workLt at *; dsimp only; omega
    · exact absurd ⟨hX', hY'⟩ hne

theorem biInvFl_init {fl : Rat → Rat} (hfl : Rounding fl) {w : α → α → Option Rat} {U : List α} (av : List α) {start fin : α} (hs : start ∈ U) (hf : fin ∈ U) :
    BiInvFl fl w U av start fin (Side.init start, Side.init fin) := by
  have hinit : ∀ (ws : α → α → Option Rat) (root : α), root ∈ U → SideInvFl fl ws U av root 0 (Side.init root) := by
    intro ws root hr
    refine ⟨fun e he => ?_, fun y m hm => ?_, by simp [QSorted, Side.init], fun e he => ?_, fun x hx => by simp [Side.init] at hx⟩
    · simp [Side.init] at he; subst he
      exact ⟨⟨by simp, by simp, by simp [flCost], by simp⟩, by simp, ⟨0, by simp [Side.init], Rat.le_refl⟩, hr⟩
    · simp only [Side.init, Dict.get?_set] at hm
      split at hm
      · rename_i h; cases hm; subst h
        exact ⟨[], by simp [Side.init], ⟨by simp, by simp, by simp [flCost], by simp⟩, by simp⟩
      · simp at hm
    · simp [Side.init] at he; subst he; exact Rat.le_refl
  refine ⟨0, 0, hinit _ _ hs, hinit _ _ hf, ⟨rfl, rfl, fun _ => rfl, (fun m h => by cases h)⟩, ?_⟩
  intro D k p F p' F' hT hT' hO
  have hprog : ∀ (ws : α → α → Option Rat) (root : α) (p : Nat → α) (F : Nat → Rat), TraceFl fl ws av root k p F →
      Prog k p F (Side.init root) ∧ ∀ m, Lab p F (Side.init root) m → m ≤ k → Pend p F (Side.init root) m := by
    intro ws root p F hT
    have hpend : ∀ m, Lab p F (Side.init root) m → m ≤ k → Pend p F (Side.init root) m := by
      rintro m ⟨c, hc, hc2⟩ hm
      simp only [Side.init, Dict.get?_set] at hc
      split at hc
      · rename_i h
        refine ⟨⟨0, root, []⟩, by simp [Side.init], h, ?_⟩
        have := hT.mono hfl (Nat.zero_le m) hm
        rw [hT.zero] at this; exact this
      · simp at hc
    refine ⟨⟨⟨0, by simp [Side.init, hT.root], by rw [hT.zero]; exact Rat.le_refl⟩, fun m hm hl => .inl (hpend m hl hm)⟩, hpend⟩
  exact .inr ⟨(hprog _ _ _ _ hT).1, (hprog _ _ _ _ hT').1, fun m hm hl _ => .inl ((hprog _ _ _ _ hT).2 m hl hm)⟩

theorem bi_mainFl {fl : Rat → Rat} (hfl : Rounding fl) {w : α → α → Option Rat} (hw : NonNeg w) {U : List α} (av : List α) (hU : ∀ x y c, w x y = some c → x ∈ U ∧ y ∈ U)
    {out inn : α → List (α × Rat)} (hout : ∀ x y c, (y, c) ∈ out x ↔ w x y = some c)
    (hinn : ∀ x y c, (y, c) ∈ inn x ↔ w y x = some c)
    {srt : List (α × Rat) → List (α × Rat)} (hsrt : ∀ l, (srt l).Perm l) {start fin : α} (hs : start ∈ U) (hf : fin ∈ U) :
    ∃ r, pyWhile (biStepFl fl out inn srt av) (Side.init start, Side.init fin) = some (.ok r) ∧ BiResultFl fl w av start fin r := by
  have key : ∃ r, pyWhile (biStepFl fl out inn srt av) (Side.init start, Side.init fin) = some r ∧ BiPostFl fl w av start fin r := by
    refine pyWhile_totalW (BiInvFl fl w U av start fin) (BiPostFl fl w av start fin) triLt triLt_wf (biWork U) ?_ ?_ ?_
    · rintro ⟨f, b⟩ s' hI hst
      by_cases hne : f.q = [] ∧ b.q = []
      · simp only [biStepFl, if_pos hne] at hst; cases hst
      · obtain ⟨s1, h1, h2⟩ := bi_stepFl hfl hw hU hout hinn hsrt hI hne
        rw [h1] at hst; cases hst; exact h2
    · rintro ⟨f, b⟩ r hI hst
      by_cases hne : f.q = [] ∧ b.q = []
      · simp only [biStepFl, if_pos hne] at hst
        cases hst
        refine ⟨_, rfl, ?_, ?_⟩
        · rintro p c ⟨hp, ha⟩
          obtain ⟨L, L', h1, h2, h3, h4⟩ := hI
          obtain ⟨D, k, q, F, q', F', hT, hT', hO, hD⟩ := walk_traces (fl := fl) hw hp ha
          refine ⟨D, hD, ?_⟩
          rcases h4 D k q F _ _ hT hT' hO with h | ⟨i1, i2, i3⟩
          · exact h
          · exfalso
            dsimp only at i1 i2 i3
            have noP : ∀ (P : Nat → α) (G : Nat → Rat) m, ¬ Pend P G f m := by
              rintro P G m ⟨e, he, _⟩; rw [hne.1] at he; cases he
            have noP' : ∀ (P : Nat → α) (G : Nat → Rat) m, ¬ Pend P G b m := by
              rintro P G m ⟨e, he, _⟩; rw [hne.2] at he; cases he
            rcases i3 0 (by omega) i1.zero (by
              apply Classical.byContradiction
              intro hn
              obtain ⟨l, _, hl⟩ := i2.pending (k - 0) (by omega) hn
              exact noP' _ _ _ hl) with h | h
            · exact noP _ _ _ h
            · exact noP' _ _ _ h
        · obtain ⟨L, L', h1, h2, h3, h4⟩ := hI
          dsimp only at h3 ⊢
          cases hl : f.spLen with
          | inf => left; rw [h3.inf hl]
          | fin d =>
            obtain ⟨a1, a2, _⟩ := h3.fin d hl
            exact .inr ⟨d, rfl, by simpa using a1, a2⟩
      · obtain ⟨s1, h1, h2⟩ := bi_stepFl hfl hw hU hout hinn hsrt hI hne
        rw [h1] at hst; cases hst
    · exact biInvFl_init hfl av hs hf
  obtain ⟨r, h1, x, rfl, h2⟩ := key
  exact ⟨x, h1, h2⟩

theorem shortestPathBi_specFl {fl : Rat → Rat} (hfl : Rounding fl) {g : Graph α Rat O} (h : g.Inv) (hw : NonNeg g.edge) {start fin : α} (av : List α)
    {srt : List (α × Rat) → List (α × Rat)} (hsrt : ∀ l, (srt l).Perm l)
    (hs : g.has start = true) (hf : g.has fin = true) :
    ∃ r, g.shortestPathBiFl fl srt start fin av = some (.ok r) ∧ BiResultFl fl g.edge av start fin r := by
  unfold shortestPathBiFl
  simp only [hs, hf, Bool.not_true, Bool.false_eq_true, if_false]
  exact bi_mainFl hfl hw av (fun x y c => h.edge_mem) (fun x y c => h.mem_outNbr) (fun x y c => h.mem_inNbr) hsrt
    (has_iff.1 hs) (has_iff.1 hf)

theorem shortestPathBi_errorFl (fl : Rat → Rat) {g : Graph α Rat O} {start fin : α} (av : List α) (srt : List (α × Rat) → List (α × Rat))
    (hne : ¬ (g.has start = true ∧ g.has fin = true)) :
    g.shortestPathBiFl fl srt start fin av = some (.error .valueError) := by
  unfold shortestPathBiFl
  split
  · rfl
  · split
    · rfl
    · rename_i h1 h2; simp at h1 h2; exact absurd ⟨h1, h2⟩ hne

end GT

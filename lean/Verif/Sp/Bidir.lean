import Verif.Sp.Dijkstra
/-
Model of `shortest_path_bidirectional` (graph/shortest_path.py:61-242) and its correctness proof.
-/
namespace GT
variable {α V O : Type} [DecidableEq α]
open Graph

/-- `c > m` for a number `c` and a distance `m` -/
def gtExt (c : Rat) : Ext → Bool
  | .inf => false
  | .fin m => decide (m < c)

/-- `c < m` for a number `c` and a distance `m` -/
def ltExt (c : Rat) : Ext → Bool
  | .inf => true
  | .fin m => decide (c < m)

/-- `a > b` for distances -/
def Ext.gt : Ext → Ext → Bool
  | .inf, .inf => false
  | .inf, .fin _ => true
  | .fin a, m => gtExt a m

/-- `ScanThread` (shortest_path.py:61-77) -/
structure Scan (α : Type) where
  cost : Rat
  n1 : α
  path : List α
  deriving DecidableEq, Repr

/-- the state of one `BiDirectionalSearch` (shortest_path.py:80-119).  `graph`, `direction` and `avoids`
are constants and passed as arguments of `search`. -/
structure Side (α : Type) where
  q : List (Scan α)
  boundary : List α
  mins : Dict α Rat
  paths : Dict α (List α)
  sp : List α
  spLen : Ext
  deriving DecidableEq, Repr

/-- `BiDirectionalSearch(graph, start, …)` (shortest_path.py:91-119) -/
def Side.init (start : α) : Side α :=
  ⟨[⟨0, start, []⟩], [], Dict.empty.set start 0, Dict.empty.set start [], [], .inf⟩

/-- `update` (shortest_path.py:121-125) -/
def Side.update (s : Side α) (sp : List α) (spLen : Ext) : Py (Side α) :=
  if spLen.gt s.spLen then .error .valueError else .ok { s with sp := sp, spLen := spLen }

/-- `insort(q, x)`: to the right of all entries that are not greater -/
def insort (x : Scan α) : List (Scan α) → List (Scan α)
  | [] => [x]
  | y :: l => if x.cost < y.cost then x :: y :: l else y :: insort x l

/-- `n2 in other.mins and n2_dist + other.mins[n2] > self.sp_length` (shortest_path.py:160) -/
def overBound (omins : Dict α Rat) (spLen : Ext) (n2 : α) (n2dist : Rat) : Bool :=
  match omins.get? n2 with
  | some o => gtExt (n2dist + o) spLen
  | none => false

/-- `prev is None or n2_dist < prev` (shortest_path.py:164-165) -/
def improves (mins : Dict α Rat) (n2 : α) (n2dist : Rat) : Bool :=
  match mins.get? n2 with
  | none => true
  | some prev => decide (n2dist < prev)

/-- the loop over the sorted edges (shortest_path.py:156-169).  `spLen` is `self.sp_length`, not yet
updated, `omins` is `other.mins`, `path` is `(st.n1,) + st.path`. -/
def biRelax (cost : Rat) (path : List α) (spLen : Ext) (omins : Dict α Rat) :
    List (α × Rat) → List (Scan α) × Dict α Rat × Dict α (List α) → List (Scan α) × Dict α Rat × Dict α (List α)
  | [], s => s
  | (n2, dist) :: l, (q, mins, paths) =>
    if gtExt (cost + dist) spLen then biRelax cost path spLen omins l (q, mins, paths)
    else if overBound omins spLen n2 (cost + dist) then biRelax cost path spLen omins l (q, mins, paths)
    else if improves mins n2 (cost + dist) then
      biRelax cost path spLen omins l
        (insort ⟨cost + dist, n2, path⟩ q, mins.set n2 (cost + dist), paths.set n2 path)
    else biRelax cost path spLen omins l (q, mins, paths)

/-- the interception test (shortest_path.py:141-149): new `(sp, sp_length, q)` -/
def intercept (dir : Bool) (st : Scan α) (q : List (Scan α)) (self other : Side α) :
    Py (List α × Ext × List (Scan α)) :=
  if st.n1 ∈ other.boundary then
    match other.mins.get? st.n1 with
    | none => .error .keyError
    | some om =>
      if ltExt (st.cost + om) self.spLen then
        match other.paths.get? st.n1 with
        | none => .error .keyError
        | some op =>
          .ok (if dir then st.path.reverse ++ [st.n1] ++ op else op.reverse ++ [st.n1] ++ st.path,
            .fin (st.cost + om), q.filter (fun a => decide (a.cost < st.cost + om)))
      else .ok (self.sp, self.spLen, q)
  else .ok (self.sp, self.spLen, q)

/-- `self.search(other)` (shortest_path.py:127-172).  `dir` is `True` for the forward search, `nbr` the
edges in the direction of the search, `srt` is `sorted`. -/
def Side.search (dir : Bool) (nbr : α → List (α × Rat)) (srt : List (α × Rat) → List (α × Rat))
    (avoids : List α) (self other : Side α) : Py (Side α × Side α) :=
  match self.q with
  | [] => .ok (self, other)
  | st :: q =>
    if gtExt st.cost self.spLen then .ok ({ self with q := q }, other)
    else
      let boundary := sadd self.boundary st.n1
      match intercept dir st q self other with
      | .error e => .error e
      | .ok (sp, spLen, q) =>
        let edges := srt ((nbr st.n1).filter (fun e => !decide (e.1 ∈ avoids)))
        let r := biRelax st.cost (st.n1 :: st.path) self.spLen other.mins edges (q, self.mins, self.paths)
        match ({ self with q := r.1, boundary := boundary, mins := r.2.1, paths := r.2.2 } : Side α).update sp spLen with
        | .error e => .error e
        | .ok self => match other.update sp spLen with
          | .error e => .error e
          | .ok other => .ok (self, other)

/-- one iteration of the loop (shortest_path.py:238-240), and the return (243) -/
def biStep (out inn : α → List (α × Rat)) (srt : List (α × Rat) → List (α × Rat)) (avoids : List α) :
    Side α × Side α → (Side α × Side α) ⊕ Py (Ext × List α)
  | (f, b) =>
    if f.q = [] ∧ b.q = [] then .inr (.ok (f.spLen, f.sp))
    else match f.search true out srt avoids b with
      | .error e => .inr (.error e)
      | .ok (f, b) => match b.search false inn srt avoids f with
        | .error e => .inr (.error e)
        | .ok (b, f) => .inl (f, b)

/-- `shortest_path_bidirectional(graph, start, end, avoids)` (shortest_path.py:175-242).
Simplification: `sorted((d, e) …)` is an arbitrary permutation `srt`, so nodes that cannot be compared
are not modelled here (see Sp/BidirCmp). -/
def Graph.shortestPathBi (srt : List (α × Rat) → List (α × Rat)) (g : Graph α Rat O) (start fin : α)
    (avoids : List α := []) : Option (Py (Ext × List α)) :=
  if !g.has start then some (.error .valueError)
  else if !g.has fin then some (.error .valueError)
  else pyWhile (biStep g.outNbr g.inNbr srt avoids) (Side.init start, Side.init fin)

/-! ### reversal of walks -/

theorem WalkOf.reverse {w : α → α → Option Rat} {a b : α} {p : List α} {c : Rat} (h : WalkOf w a b p c) :
    WalkOf (fun x y => w y x) b a p.reverse c := by
  induction p generalizing a c with
  | nil => exact absurd rfl h.ne_nil
  | cons x p ih =>
    rcases h.inv with ⟨h1, h2, h3⟩ | ⟨y, q, c', d', h1, h2, h3, h4⟩
    · subst h2 h3; rw [h1]; exact WalkOf.single a
    · simp only [List.cons.injEq] at h1
      obtain ⟨rfl, rfl⟩ := h1
      rw [List.reverse_cons, h4, show c' + d' = d' + c' by grind]
      exact (ih h3).snoc h2

/-! ### facts about the relaxation -/

theorem mem_insort {x y : Scan α} {l : List (Scan α)} : y ∈ insort x l ↔ y = x ∨ y ∈ l := by
  induction l with
  | nil => simp [insort]
  | cons z l ih =>
    unfold insort; split
    · simp
    · simp only [List.mem_cons, ih]
      constructor
      · rintro (h | h | h)
        · exact .inr (.inl h)
        · exact .inl h
        · exact .inr (.inr h)
      · rintro (h | h | h)
        · exact .inr (.inl h)
        · exact .inl h
        · exact .inr (.inr h)

def QSorted (q : List (Scan α)) : Prop := q.Pairwise (fun a b => a.cost ≤ b.cost)

theorem QSorted.insort {x : Scan α} {l : List (Scan α)} (h : QSorted l) : QSorted (GT.insort x l) := by
  unfold QSorted at *
  induction l with
  | nil => simp [GT.insort]
  | cons z l ih =>
    rw [List.pairwise_cons] at h
    unfold GT.insort; split
    · rename_i hlt
      rw [List.pairwise_cons]
      refine ⟨fun y hy => ?_, List.pairwise_cons.2 h⟩
      rcases List.mem_cons.1 hy with rfl | hy
      · grind
      · have := h.1 y hy; grind
    · rename_i hlt
      rw [List.pairwise_cons]
      refine ⟨fun y hy => ?_, ih h.2⟩
      rcases mem_insort.1 hy with rfl | hy
      · grind
      · exact h.1 y hy

/-- an edge is discarded because it cannot improve the best known path -/
def pruned (cost : Rat) (spLen : Ext) (omins : Dict α Rat) (y : α) (d : Rat) : Prop :=
  gtExt (cost + d) spLen = true ∨ ∃ o, omins.get? y = some o ∧ gtExt (cost + d + o) spLen = true

structure RelaxFacts (cost : Rat) (path : List α) (spLen : Ext) (omins : Dict α Rat) (l : List (α × Rat))
    (q : List (Scan α)) (mins : Dict α Rat) (paths : Dict α (List α))
    (q' : List (Scan α)) (mins' : Dict α Rat) (paths' : Dict α (List α)) : Prop where
  keep : ∀ e ∈ q, e ∈ q'
  new : ∀ e ∈ q', e ∈ q ∨ (e.path = path ∧ (∃ d, (e.n1, d) ∈ l ∧ e.cost = cost + d) ∧
    (∃ m, mins'.get? e.n1 = some m ∧ m ≤ e.cost) ∧ ∀ m, mins.get? e.n1 = some m → e.cost < m)
  label : ∀ y m, mins'.get? y = some m → (mins.get? y = some m ∧ paths'.get? y = paths.get? y) ∨
    (paths'.get? y = some path ∧ (∃ d, (y, d) ∈ l ∧ m = cost + d) ∧ (⟨m, y, path⟩ : Scan α) ∈ q')
  mono : ∀ y m, mins.get? y = some m → ∃ m', mins'.get? y = some m' ∧ m' ≤ m
  sorted : QSorted q → QSorted q'
  relaxed : ∀ y d, (y, d) ∈ l → ¬ pruned cost spLen omins y d → ∃ m, mins'.get? y = some m ∧ m ≤ cost + d

theorem biRelax_spec {cost : Rat} {path : List α} {spLen : Ext} {omins : Dict α Rat} (l : List (α × Rat)) :
    ∀ (q : List (Scan α)) (mins : Dict α Rat) (paths : Dict α (List α)),
    RelaxFacts cost path spLen omins l q mins paths (biRelax cost path spLen omins l (q, mins, paths)).1
      (biRelax cost path spLen omins l (q, mins, paths)).2.1 (biRelax cost path spLen omins l (q, mins, paths)).2.2 := by
  induction l with
  | nil =>
    intro q mins paths
    exact ⟨fun _ h => h, fun _ h => .inl h, fun _ _ h => .inl ⟨h, rfl⟩, fun y m h => ⟨m, h, Rat.le_refl⟩, fun h => h, by simp⟩
  | cons a l ih =>
    obtain ⟨n2, dist⟩ := a
    intro q mins paths
    have skip : (¬ pruned cost spLen omins n2 dist → ∃ m, mins.get? n2 = some m ∧ m ≤ cost + dist) →
        ∀ q' mins' paths', RelaxFacts cost path spLen omins l q mins paths q' mins' paths' →
        RelaxFacts cost path spLen omins ((n2, dist) :: l) q mins paths q' mins' paths' := by
      intro hsk q' mins' paths' h
      refine ⟨h.keep, fun e he => ?_, fun y m hm => ?_, h.mono, h.sorted, fun y d hy hp => ?_⟩
      · rcases h.new e he with h1 | ⟨h1, ⟨d, h2, h3⟩, h4, h5⟩
        · exact .inl h1
        · exact .inr ⟨h1, ⟨d, List.mem_cons_of_mem _ h2, h3⟩, h4, h5⟩
      · rcases h.label y m hm with h1 | ⟨h1, ⟨d, h2, h3⟩, h4⟩
        · exact .inl h1
        · exact .inr ⟨h1, ⟨d, List.mem_cons_of_mem _ h2, h3⟩, h4⟩
      · rcases List.mem_cons.1 hy with h1 | h1
        · cases h1
          obtain ⟨m, hm, hm2⟩ := hsk hp
          obtain ⟨m', h7, h8⟩ := h.mono _ _ hm
          exact ⟨m', h7, by grind⟩
        · exact h.relaxed y d h1 hp
    simp only [biRelax]
    split
    · rename_i h1
      exact skip (fun hp => absurd (.inl h1) hp) _ _ _ (ih _ _ _)
    · split
      · rename_i h1 h2
        refine skip (fun hp => absurd (.inr ?_) hp) _ _ _ (ih _ _ _)
        unfold overBound at h2
        split at h2
        · rename_i o ho; exact ⟨o, ho, h2⟩
        · cases h2
      · split
        · rename_i h1 h2 h3
          have hlt : ∀ m, mins.get? n2 = some m → cost + dist < m := by
            intro m hm; unfold improves at h3; rw [hm] at h3; simpa using h3
          have h := ih (insort ⟨cost + dist, n2, path⟩ q) (mins.set n2 (cost + dist)) (paths.set n2 path)
          have hin := h.keep _ (mem_insort.2 (.inl rfl))
          refine ⟨fun e he => h.keep e (mem_insort.2 (.inr he)), fun e he => ?_, fun y m hm => ?_, fun y m hm => ?_,
            fun hs => h.sorted hs.insort, fun y d hy hp => ?_⟩
          · rcases h.new e he with h4 | ⟨h4, ⟨d, h5, h6⟩, h7, h8⟩
            · rcases mem_insort.1 h4 with rfl | h4
              · refine .inr ⟨rfl, ⟨dist, by simp, rfl⟩, ?_, hlt⟩
                exact h.mono n2 (cost + dist) (by simp)
              · exact .inl h4
            · refine .inr ⟨h4, ⟨d, List.mem_cons_of_mem _ h5, h6⟩, h7, fun m hm => ?_⟩
              by_cases hy : n2 = e.n1
              · have := h8 (cost + dist) (by rw [hy]; simp)
                have := hlt m (by rw [hy]; exact hm)
                grind
              · exact h8 m (by rw [Dict.get?_set_ne _ _ hy]; exact hm)
          · rcases h.label y m hm with ⟨h4, h4'⟩ | ⟨h4, ⟨d, h5, h6⟩, h7⟩
            · by_cases hy : n2 = y
              · subst hy
                simp at h4 h4'
                subst h4
                exact .inr ⟨h4', ⟨dist, by simp, rfl⟩, hin⟩
              · rw [Dict.get?_set_ne _ _ hy] at h4 h4'
                exact .inl ⟨h4, h4'⟩
            · exact .inr ⟨h4, ⟨d, List.mem_cons_of_mem _ h5, h6⟩, h7⟩
          · by_cases hy : n2 = y
            · subst hy
              obtain ⟨m', h4, h5⟩ := h.mono n2 (cost + dist) (by simp)
              exact ⟨m', h4, by have := hlt m hm; grind⟩
            · exact h.mono y m (by rw [Dict.get?_set_ne _ _ hy]; exact hm)
          · rcases List.mem_cons.1 hy with h4 | h4
            · cases h4; exact h.mono n2 (cost + dist) (by simp)
            · exact h.relaxed y d h4 hp
        · rename_i h1 h2 h3
          refine skip (fun _ => ?_) _ _ _ (ih _ _ _)
          unfold improves at h3
          cases hm : mins.get? n2 with
          | none => rw [hm] at h3; simp at h3
          | some m =>
            rw [hm] at h3
            simp at h3
            exact ⟨m, rfl, by grind⟩

theorem insort_filter_length {P : Scan α → Bool} {x : Scan α} (hx : P x = false) (l : List (Scan α)) :
    ((insort x l).filter P).length = (l.filter P).length := by
  induction l with
  | nil => simp [insort, hx]
  | cons y l ih =>
    unfold insort; split
    · rw [List.filter_cons_of_neg (by simp [hx])]
    · simp only [List.filter_cons]; split <;> simp [ih]

/-- nodes that are already in the boundary are not queued again -/
theorem biRelax_closed {cost : Rat} {path : List α} {spLen : Ext} {omins : Dict α Rat} {bd : List α}
    (l : List (α × Rat)) (hl : ∀ y d, (y, d) ∈ l → 0 ≤ d) :
    ∀ (q : List (Scan α)) (mins : Dict α Rat) (paths : Dict α (List α)),
    (∀ y ∈ bd, ∃ m, mins.get? y = some m ∧ m ≤ cost) →
    ((biRelax cost path spLen omins l (q, mins, paths)).1.filter (fun e => decide (e.n1 ∈ bd))).length =
      (q.filter (fun e => decide (e.n1 ∈ bd))).length := by
  induction l with
  | nil => intro q mins paths _; rfl
  | cons a l ih =>
    obtain ⟨n2, dist⟩ := a
    intro q mins paths hb
    have ih := ih (fun y d hy => hl y d (List.mem_cons_of_mem _ hy))
    simp only [biRelax]
    split
    · exact ih _ _ _ hb
    · split
      · exact ih _ _ _ hb
      · split
        · rename_i h3
          have hn : n2 ∉ bd := by
            intro hin
            obtain ⟨m, hm, hm2⟩ := hb n2 hin
            unfold improves at h3
            rw [hm] at h3
            simp at h3
            have := hl n2 dist (by simp)
            grind
          rw [ih _ _ _ (fun y hy => by
            rw [Dict.get?_set_ne _ _ (fun h => hn (by rw [h]; exact hy))]; exact hb y hy)]
          exact insort_filter_length (by simp [hn]) q
        · exact ih _ _ _ hb

/-! ### the invariant of one side -/

structure SideInv (ws : α → α → Option Rat) (U av : List α) (root : α) (L : Rat) (s : Side α) : Prop where
  ent : ∀ e ∈ s.q, WalkOf ws root e.n1 (e.path.reverse ++ [e.n1]) e.cost ∧
    (∀ x ∈ e.path.reverse ++ [e.n1], x ∉ av ∨ x = root) ∧ (∃ m, s.mins.get? e.n1 = some m ∧ m ≤ e.cost) ∧ e.n1 ∈ U
  label : ∀ y m, s.mins.get? y = some m → ∃ p, s.paths.get? y = some p ∧
    WalkOf ws root y (p.reverse ++ [y]) m ∧ ∀ x ∈ p.reverse ++ [y], x ∉ av ∨ x = root
  sorted : QSorted s.q
  last : ∀ e ∈ s.q, L ≤ e.cost
  closed : ∀ x ∈ s.boundary, ∃ m, s.mins.get? x = some m ∧ m ≤ L

/-- the two searches agree on the best path found so far, which is a path through a node that both have
settled -/
structure BestInv (ws : α → α → Option Rat) (av : List α) (root root' : α) (dir : Bool) (L L' : Rat) (s o : Side α) : Prop where
  len : s.spLen = o.spLen
  sp : s.sp = o.sp
  inf : s.spLen = .inf → s.sp = []
  fin : ∀ m, s.spLen = .fin m → WalkOf ws root root' (if dir then s.sp else s.sp.reverse) m ∧
    (∀ x ∈ s.sp, x ∉ av ∨ x = root ∨ x = root') ∧ m ≤ L + L'

theorem BestInv.symm {ws : α → α → Option Rat} {av : List α} {root root' : α} {dir : Bool} {L L' : Rat} {s o : Side α}
    (h : BestInv ws av root root' dir L L' s o) :
    BestInv (fun x y => ws y x) av root' root (!dir) L' L o s := by
  refine ⟨h.len.symm, h.sp.symm, fun hi => by rw [← h.sp]; exact h.inf (h.len.trans hi), fun m hm => ?_⟩
  obtain ⟨h1, h2, h3⟩ := h.fin m (h.len.trans hm)
  refine ⟨?_, fun x hx => ?_, by grind⟩
  · rw [← h.sp]
    have := h1.reverse
    cases dir <;> simpa using this
  · rcases h2 x (by rw [h.sp]; exact hx) with h | h | h
    · exact .inl h
    · exact .inr (.inr h)
    · exact .inr (.inl h)

/-- one edge sequence: nodes `p 0 … p k` with accumulated values `F` -/
structure Trace (ws : α → α → Option Rat) (av : List α) (root : α) (k : Nat) (p : Nat → α) (F : Nat → Rat) : Prop where
  root : p 0 = root
  zero : F 0 = 0
  edge : ∀ i, i < k → ∃ c, ws (p i) (p (i + 1)) = some c ∧ 0 ≤ c ∧ F (i + 1) = F i + c
  avoid : ∀ i, i ≤ k → p i ∉ av

theorem Trace.mono {ws : α → α → Option Rat} {av : List α} {root : α} {k : Nat} {p : Nat → α} {F : Nat → Rat}
    (h : Trace ws av root k p F) {i j : Nat} (hij : i ≤ j) (hj : j ≤ k) : F i ≤ F j := by
  induction j with
  | zero => have : i = 0 := by omega
            subst this; exact Rat.le_refl
  | succ j ih =>
    by_cases hi : i = j + 1
    · subst hi; exact Rat.le_refl
    · have := ih (by omega) (by omega)
      obtain ⟨c, _, h1, h2⟩ := h.edge j (by omega)
      grind

def Lab (p : Nat → α) (F : Nat → Rat) (s : Side α) (m : Nat) : Prop := ∃ c, s.mins.get? (p m) = some c ∧ c ≤ F m
def Pend (p : Nat → α) (F : Nat → Rat) (s : Side α) (m : Nat) : Prop := ∃ e ∈ s.q, e.n1 = p m ∧ e.cost ≤ F m

/-- progress of one side along the trace -/
structure Prog (k : Nat) (p : Nat → α) (F : Nat → Rat) (s : Side α) : Prop where
  zero : Lab p F s 0
  step : ∀ m, m ≤ k → Lab p F s m → Pend p F s m ∨ (p m ∈ s.boundary ∧ (m < k → Lab p F s (m + 1)))

/-- `m ≤ D` for a distance `m` -/
def leExt : Ext → Rat → Prop
  | .inf, _ => False
  | .fin m, d => m ≤ d

/-- either the best path is at most as long as the trace, or both sides make progress along it -/
def TraceInv (k : Nat) (p : Nat → α) (F : Nat → Rat) (p' : Nat → α) (F' : Nat → Rat) (s o : Side α) : Prop :=
  leExt s.spLen (F k) ∨ (Prog k p F s ∧ Prog k p' F' o ∧
    ∀ m, m ≤ k → Lab p F s m → Lab p' F' o (k - m) → Pend p F s m ∨ Pend p' F' o (k - m))

theorem Prog.pending {k : Nat} {p : Nat → α} {F : Nat → Rat} {s : Side α} (h : Prog k p F s) :
    ∀ n, n ≤ k → ¬ Lab p F s n → ∃ l, l < n ∧ Pend p F s l := by
  intro n
  induction n with
  | zero => intro _ hn; exact absurd h.zero hn
  | succ n ih =>
    intro hk hn
    by_cases hl : Lab p F s n
    · rcases h.step n (by omega) hl with h1 | ⟨_, h1⟩
      · exact ⟨n, by omega, h1⟩
      · exact absurd (h1 (by omega)) hn
    · obtain ⟨l, h1, h2⟩ := ih (by omega) hl
      exact ⟨l, by omega, h2⟩

/-- the other side of a trace -/
structure Opp (k : Nat) (p : Nat → α) (F : Nat → Rat) (p' : Nat → α) (F' : Nat → Rat) : Prop where
  node : ∀ m, m ≤ k → p' (k - m) = p m
  val : ∀ m, m ≤ k → F' (k - m) = F k - F m

theorem gtExt_iff {c : Rat} {m : Ext} : gtExt c m = true ↔ ∃ q, m = .fin q ∧ q < c := by
  cases m <;> simp [gtExt]

theorem not_gt_self (m : Ext) : m.gt m = false := by
  cases m <;> simp [Ext.gt, gtExt, Rat.lt_irrefl]

/-- the part of `search` that decides about the best path -/
theorem intercept_spec {ws : α → α → Option Rat} {U av : List α} {root root' : α} {dir : Bool} {L L' : Rat}
    {self other : Side α} {st : Scan α} {q : List (Scan α)}
    (hs : SideInv ws U av root L self) (ho : SideInv (fun x y => ws y x) U av root' L' other)
    (hb : BestInv ws av root root' dir L L' self other) (hq : self.q = st :: q) :
    ∃ sp spLen q1, intercept dir st q self other = .ok (sp, spLen, q1) ∧
      spLen.gt self.spLen = false ∧ q1.Sublist q ∧
      (spLen = .inf → sp = [] ∧ self.spLen = .inf) ∧
      (∀ m, spLen = .fin m → WalkOf ws root root' (if dir then sp else sp.reverse) m ∧
        (∀ x ∈ sp, x ∉ av ∨ x = root ∨ x = root') ∧ m ≤ st.cost + L') ∧
      (∀ D, leExt self.spLen D → leExt spLen D) ∧
      (∀ D, ¬ leExt spLen D → ∀ e ∈ q, e.cost ≤ D → e ∈ q1) ∧
      (∀ D c, st.n1 ∈ other.boundary → other.mins.get? st.n1 = some c → st.cost + c ≤ D → leExt spLen D) := by
  have hL : L ≤ st.cost := hs.last st (by rw [hq]; simp)
  have same : (∀ D c, st.n1 ∈ other.boundary → other.mins.get? st.n1 = some c → st.cost + c ≤ D → leExt self.spLen D) →
      ∃ sp spLen q1, (Except.ok (self.sp, self.spLen, q) : Py _) = .ok (sp, spLen, q1) ∧
      spLen.gt self.spLen = false ∧ q1.Sublist q ∧
      (spLen = .inf → sp = [] ∧ self.spLen = .inf) ∧
      (∀ m, spLen = .fin m → WalkOf ws root root' (if dir then sp else sp.reverse) m ∧
        (∀ x ∈ sp, x ∉ av ∨ x = root ∨ x = root') ∧ m ≤ st.cost + L') ∧
      (∀ D, leExt self.spLen D → leExt spLen D) ∧
      (∀ D, ¬ leExt spLen D → ∀ e ∈ q, e.cost ≤ D → e ∈ q1) ∧
      (∀ D c, st.n1 ∈ other.boundary → other.mins.get? st.n1 = some c → st.cost + c ≤ D → leExt spLen D) := by
    intro h
    refine ⟨_, _, _, rfl, not_gt_self _, List.Sublist.refl _, fun hi => ⟨hb.inf hi, hi⟩, fun m hm => ?_, fun D h => h,
      fun D _ e he _ => he, h⟩
    obtain ⟨h1, h2, h3⟩ := hb.fin m hm
    exact ⟨h1, h2, by grind⟩
  by_cases hbd : st.n1 ∈ other.boundary
  · obtain ⟨om, hom, homL⟩ := ho.closed _ hbd
    by_cases hlt : ltExt (st.cost + om) self.spLen = true
    · obtain ⟨op, hop, hopw, hopa⟩ := ho.label _ _ hom
      have hie : intercept dir st q self other = .ok (if dir then st.path.reverse ++ [st.n1] ++ op else op.reverse ++ [st.n1] ++ st.path,
            .fin (st.cost + om), q.filter (fun a => decide (a.cost < st.cost + om))) := by
        unfold intercept; rw [if_pos hbd, hom]; dsimp only; rw [if_pos hlt, hop]
      obtain ⟨hw, ha, _, _⟩ := hs.ent st (by rw [hq]; simp)
      have hjoin : WalkOf ws root root' (st.path.reverse ++ [st.n1] ++ op) (st.cost + om) := by
        have h1 := hopw.reverse
        simp only [List.reverse_append, List.reverse_cons, List.reverse_nil, List.nil_append, List.reverse_reverse,
          List.singleton_append] at h1
        exact hw.append h1
      refine ⟨_, _, _, hie, ?_, List.filter_sublist, (fun h => nomatch h), fun m hm => ?_, ?_, ?_, ?_⟩
      · cases hsl : self.spLen with
        | inf => rfl
        | fin q => rw [hsl] at hlt; simp [ltExt] at hlt; simp [Ext.gt, gtExt]; grind
      · cases hm
        refine ⟨?_, ?_, by grind⟩
        · cases dir with
          | true => simpa using hjoin
          | false => simpa using hjoin
        · intro x hx
          have hx' : x ∈ st.path.reverse ++ [st.n1] ∨ x ∈ op.reverse ++ [st.n1] := by
            cases dir with
            | true =>
              simp only [if_true, List.mem_append, List.mem_reverse, List.mem_singleton] at hx ⊢
              rcases hx with (h | h) | h
              · exact .inl (.inl h)
              · exact .inl (.inr h)
              · exact .inr (.inl h)
            | false =>
              simp only [Bool.false_eq_true, if_false, List.mem_append, List.mem_reverse, List.mem_singleton] at hx ⊢
              rcases hx with (h | h) | h
              · exact .inr (.inl h)
              · exact .inl (.inr h)
              · exact .inl (.inl h)
          rcases hx' with h | h
          · rcases ha x h with h | h
            · exact .inl h
            · exact .inr (.inl h)
          · rcases hopa x h with h | h
            · exact .inl h
            · exact .inr (.inr h)
      · intro D hD
        cases hsl : self.spLen with
        | inf => rw [hsl] at hD; exact absurd hD id
        | fin q => rw [hsl] at hlt hD; simp [ltExt] at hlt; simp only [leExt] at hD ⊢; grind
      · intro D hD e he hc
        rw [List.mem_filter]
        refine ⟨he, ?_⟩
        simp only [leExt] at hD
        simp; grind
      · intro D c _ hc hle
        rw [hom] at hc; cases hc
        exact hle
    · have hie : intercept dir st q self other = .ok (self.sp, self.spLen, q) := by
        unfold intercept; rw [if_pos hbd, hom]; dsimp only; rw [if_neg hlt]
      rw [hie]
      apply same
      intro D c _ hc hle
      rw [hom] at hc; cases hc
      cases hsl : self.spLen with
      | inf => rw [hsl] at hlt; simp [ltExt] at hlt
      | fin q => rw [hsl] at hlt; simp [ltExt] at hlt; simp only [leExt]; grind
  · have hie : intercept dir st q self other = .ok (self.sp, self.spLen, q) := by
      unfold intercept; rw [if_neg hbd]
    rw [hie]
    exact same (fun D c h => absurd h hbd)

/-- size of the remaining work of one side -/
def Side.work (U : List α) (s : Side α) : Nat × Nat × Nat :=
  (unvis U s.boundary, (s.q.filter (fun e => decide (e.n1 ∈ s.boundary))).length, s.q.length)

def workLt (a b : Nat × Nat × Nat) : Prop :=
  a.1 < b.1 ∨ (a.1 = b.1 ∧ a.2.1 < b.2.1) ∨ (a.1 = b.1 ∧ a.2.1 = b.2.1 ∧ a.2.2 < b.2.2)

/-- everything `search` maintains -/
theorem search_spec {ws : α → α → Option Rat} (hw : NonNeg ws) {U av : List α} (hU : ∀ x y c, ws x y = some c → x ∈ U ∧ y ∈ U)
    {nbr : α → List (α × Rat)} (hn : ∀ x y c, (y, c) ∈ nbr x ↔ ws x y = some c)
    {srt : List (α × Rat) → List (α × Rat)} (hsrt : ∀ l, (srt l).Perm l)
    {root root' : α} {dir : Bool} {L L' : Rat} {self other : Side α}
    (hs : SideInv ws U av root L self) (ho : SideInv (fun x y => ws y x) U av root' L' other)
    (hb : BestInv ws av root root' dir L L' self other) :
    ∃ self' other' L1, self.search dir nbr srt av other = .ok (self', other') ∧
      SideInv ws U av root L1 self' ∧ SideInv (fun x y => ws y x) U av root' L' other' ∧
      BestInv ws av root root' dir L1 L' self' other' ∧
      (other'.q = other.q ∧ other'.boundary = other.boundary) ∧
      (self.q = [] → self' = self) ∧ (self.q ≠ [] → workLt (self'.work U) (self.work U)) ∧
      (∀ k p F p' F', Trace ws av root k p F → Trace (fun x y => ws y x) av root' k p' F' → Opp k p F p' F' →
        TraceInv k p F p' F' self other → TraceInv k p F p' F' self' other') := by
  unfold Side.search
  cases hq : self.q with
  | nil =>
    refine ⟨self, other, L, rfl, hs, ho, hb, ⟨rfl, rfl⟩, fun _ => rfl, fun h => absurd rfl h, ?_⟩
    intro k p F p' F' _ _ _ h; exact h
  | cons st q =>
    dsimp only
    have hstq : st ∈ self.q := by rw [hq]; simp
    have hsort := hs.sorted
    rw [hq] at hsort
    unfold QSorted at hsort
    rw [List.pairwise_cons] at hsort
    by_cases hgt : gtExt st.cost self.spLen = true
    · rw [if_pos hgt]
      obtain ⟨mu, hmu, hmu2⟩ := gtExt_iff.1 hgt
      refine ⟨{ self with q := q }, other, L, rfl, ⟨fun e he => hs.ent e (by rw [hq]; exact List.mem_cons_of_mem _ he),
        hs.label, hsort.2, fun e he => hs.last e (by rw [hq]; exact List.mem_cons_of_mem _ he), hs.closed⟩, ho,
        ⟨hb.len, hb.sp, hb.inf, hb.fin⟩, ⟨rfl, rfl⟩, (fun h => by cases h), fun _ => ?_, ?_⟩
      · unfold workLt Side.work
        rw [hq]
        simp only [List.length_cons, List.filter_cons]
        split
        · simp
        · simp
      · intro k p F p' F' hT _ _ hI
        rcases hI with h | ⟨h1, h2, h3⟩
        · exact .inl h
        · by_cases hD : leExt self.spLen (F k)
          · exact .inl hD
          · refine .inr ⟨?_, h2, ?_⟩
            · have hpend : ∀ m, m ≤ k → Pend p F self m → Pend p F { self with q := q } m := by
                rintro m hm ⟨e, he, he1, he2⟩
                rw [hq] at he
                rcases List.mem_cons.1 he with rfl | he
                · exfalso; apply hD; rw [hmu]
                  simp only [leExt]
                  have := hT.mono hm (Nat.le_refl k)
                  grind
                · exact ⟨e, he, he1, he2⟩
              refine ⟨h1.zero, fun m hm hl => ?_⟩
              rcases h1.step m hm hl with h | h
              · exact .inl (hpend m hm h)
              · exact .inr h
            · have hpend : ∀ m, m ≤ k → Pend p F self m → Pend p F { self with q := q } m := by
                rintro m hm ⟨e, he, he1, he2⟩
                rw [hq] at he
                rcases List.mem_cons.1 he with rfl | he
                · exfalso; apply hD; rw [hmu]
                  simp only [leExt]
                  have := hT.mono hm (Nat.le_refl k)
                  grind
                · exact ⟨e, he, he1, he2⟩
              intro m hm hl1 hl2
              rcases h3 m hm hl1 hl2 with h | h
              · exact .inl (hpend m hm h)
              · exact .inr h
    · rw [if_neg hgt]
      obtain ⟨sp, spLen, q1, hi, hi1, hi2, hi3, hi4, hi5, hi6, hi7⟩ := intercept_spec hs ho hb hq
      rw [hi]
      dsimp only
      generalize hed : srt ((nbr st.n1).filter (fun e => !decide (e.1 ∈ av))) = edges
      have hmem : ∀ y d, (y, d) ∈ edges ↔ ws st.n1 y = some d ∧ y ∉ av := by
        intro y d; rw [← hed, (hsrt _).mem_iff, List.mem_filter, hn]; simp
      have hR := biRelax_spec (cost := st.cost) (path := st.n1 :: st.path) (spLen := self.spLen) (omins := other.mins)
        edges q1 self.mins self.paths
      have hRc := biRelax_closed (cost := st.cost) (path := st.n1 :: st.path) (spLen := self.spLen) (omins := other.mins)
        (bd := self.boundary) edges (fun y d hy => hw _ _ _ ((hmem y d).1 hy).1) q1 self.mins self.paths
      generalize hr : biRelax st.cost (st.n1 :: st.path) self.spLen other.mins edges (q1, self.mins, self.paths) = r at hR hRc
      obtain ⟨q2, mins2, paths2⟩ := r
      dsimp only at hR hRc
      have hu1 : Side.update (⟨q2, sadd self.boundary st.n1, mins2, paths2, self.sp, self.spLen⟩ : Side α) sp spLen =
          .ok ⟨q2, sadd self.boundary st.n1, mins2, paths2, sp, spLen⟩ := by
        unfold Side.update; rw [if_neg (by simp [hi1])]
      have hu2 : other.update sp spLen = .ok { other with sp := sp, spLen := spLen } := by
        unfold Side.update; rw [if_neg (by rw [← hb.len]; simp [hi1])]
      rw [hu1]; dsimp only; rw [hu2]
      have hLst : L ≤ st.cost := hs.last st hstq
      obtain ⟨hw0, ha0, ⟨m0, hm0, hm0'⟩, hU0⟩ := hs.ent st hstq
      have hq1 : ∀ e ∈ q1, e ∈ q := fun e he => hi2.subset he
      have hwalk2 : ∀ y d, (y, d) ∈ edges → WalkOf ws root y ((st.n1 :: st.path).reverse ++ [y]) (st.cost + d) ∧
          ∀ x ∈ (st.n1 :: st.path).reverse ++ [y], x ∉ av ∨ x = root := by
        intro y d hy
        obtain ⟨h1, h2⟩ := (hmem y d).1 hy
        constructor
        · rw [List.reverse_cons]; exact hw0.snoc h1
        · intro x hx
          rw [List.reverse_cons, List.mem_append] at hx
          rcases hx with hx | hx
          · exact ha0 x hx
          · rw [List.mem_singleton] at hx; subst hx; exact .inl h2
      refine ⟨_, _, st.cost, rfl, ⟨?_, ?_, ?_, ?_, ?_⟩, ⟨ho.ent, ho.label, ho.sorted, ho.last, ho.closed⟩,
        ⟨rfl, rfl, fun h => (hi3 h).1, hi4⟩, ⟨rfl, rfl⟩, (fun h => by cases h), fun _ => ?_, ?_⟩
      · intro e he
        rcases hR.new e he with h | ⟨h1, ⟨d, h2, h3⟩, h4, _⟩
        · obtain ⟨a1, a2, ⟨m, a3, a4⟩, a5⟩ := hs.ent e (by rw [hq]; exact List.mem_cons_of_mem _ (hq1 e h))
          obtain ⟨m', b1, b2⟩ := hR.mono _ _ a3
          exact ⟨a1, a2, ⟨m', b1, by grind⟩, a5⟩
        · obtain ⟨a1, a2⟩ := hwalk2 _ _ h2
          exact ⟨by rw [h1, h3]; exact a1, by rw [h1]; exact a2, h4, (hU _ _ _ ((hmem _ _).1 h2).1).2⟩
      · intro y m hm
        rcases hR.label y m hm with ⟨h1, h2⟩ | ⟨h1, ⟨d, h2, h3⟩, _⟩
        · obtain ⟨pp, a1, a2⟩ := hs.label y m h1
          exact ⟨pp, h2.trans a1, a2⟩
        · rw [h3]; exact ⟨_, h1, hwalk2 _ _ h2⟩
      · apply hR.sorted
        exact hsort.2.sublist hi2
      · intro e he
        rcases hR.new e he with h | ⟨_, ⟨d, h2, h3⟩, _⟩
        · exact hsort.1 e (hq1 e h)
        · have := hw _ _ _ ((hmem _ _).1 h2).1; show st.cost ≤ e.cost; grind
      · intro x hx
        rcases mem_sadd.1 hx with rfl | hx
        · obtain ⟨m', b1, b2⟩ := hR.mono _ _ hm0
          exact ⟨m', b1, by grind⟩
        · obtain ⟨m, a1, a2⟩ := hs.closed x hx
          obtain ⟨m', b1, b2⟩ := hR.mono _ _ a1
          exact ⟨m', b1, by grind⟩
      · unfold workLt Side.work
        by_cases hbd : st.n1 ∈ self.boundary
        · right; left
          have hsb : sadd self.boundary st.n1 = self.boundary := by unfold sadd; rw [if_pos hbd]
          simp only [hsb]
          refine ⟨trivial, ?_⟩
          rw [hRc (fun y hy => by
            obtain ⟨m, a1, a2⟩ := hs.closed y hy; exact ⟨m, a1, by grind⟩)]
          rw [hq, List.filter_cons_of_pos (by simpa using hbd), List.length_cons]
          have := (hi2.filter (fun e => decide (e.n1 ∈ self.boundary))).length_le
          omega
        · left
          exact unvis_lt (fun x hx => mem_sadd.2 (.inr hx)) hU0 hbd (mem_sadd.2 (.inl rfl))
      · intro k p F p' F' hT hT' hO hI
        by_cases hD' : leExt spLen (F k)
        · exact .inl hD'
        have hD : ¬ leExt self.spLen (F k) := fun h => hD' (hi5 _ h)
        rcases hI with h | ⟨h1, h2, h3⟩
        · exact absurd h hD
        refine .inr ⟨?_, ⟨h2.zero, h2.step⟩, ?_⟩
        · -- progress of self
          have hpend : ∀ m, m ≤ k → ∀ e ∈ q, e.n1 = p m → e.cost ≤ F m →
              Pend p F (⟨q2, sadd self.boundary st.n1, mins2, paths2, sp, spLen⟩ : Side α) m := by
            intro m hm e he he1 he2
            exact ⟨e, hR.keep _ (hi6 _ hD' e he (by have := hT.mono hm (Nat.le_refl k); grind)), he1, he2⟩
          have hlabmono : ∀ m, Lab p F self m →
              Lab p F (⟨q2, sadd self.boundary st.n1, mins2, paths2, sp, spLen⟩ : Side α) m := by
            rintro m ⟨c, hc, hc2⟩
            obtain ⟨m', b1, b2⟩ := hR.mono _ _ hc
            exact ⟨m', b1, by grind⟩
          refine ⟨hlabmono 0 h1.zero, fun m hm hl => ?_⟩
          obtain ⟨c, hc, hc2⟩ := hl
          rcases hR.label _ _ hc with ⟨hold, _⟩ | ⟨_, _, hin⟩
          · rcases h1.step m hm ⟨c, hold, hc2⟩ with ⟨e, he, he1, he2⟩ | ⟨hb1, hb2⟩
            · rw [hq] at he
              rcases List.mem_cons.1 he with rfl | he
              · refine .inr ⟨mem_sadd.2 (.inl he1.symm), fun hmk => ?_⟩
                obtain ⟨c', hc', hc0, hF⟩ := hT.edge m hmk
                have hedge : (p (m + 1), c') ∈ edges := (hmem _ _).2 ⟨by rw [he1]; exact hc', hT.avoid _ hmk⟩
                have hFk := hT.mono (show m + 1 ≤ k from hmk) (Nat.le_refl k)
                have hnp : ¬ pruned e.cost self.spLen other.mins (p (m + 1)) c' := by
                  rintro (hp | ⟨o, ho1, hp⟩)
                  · obtain ⟨mu, e1, e2⟩ := gtExt_iff.1 hp
                    apply hD; rw [e1]; simp only [leExt]; grind
                  · obtain ⟨mu, e1, e2⟩ := gtExt_iff.1 hp
                    by_cases hlo : Lab p' F' other (k - (m + 1))
                    · obtain ⟨o', ho', ho2⟩ := hlo
                      rw [hO.node (m + 1) hmk, ho1] at ho'
                      cases ho'
                      rw [hO.val (m + 1) hmk] at ho2
                      apply hD; rw [e1]; simp only [leExt]; grind
                    · obtain ⟨l, hl1, e', he', _, hl2⟩ := h2.pending (k - (m + 1)) (by omega) hlo
                      have hLo := ho.last e' he'
                      have hmo := hT'.mono (show l ≤ k - m by omega) (by omega)
                      rw [hO.val m hm] at hmo
                      obtain ⟨_, _, hmuL⟩ := hb.fin mu e1
                      apply hD; rw [e1]; simp only [leExt]; grind
                obtain ⟨m', b1, b2⟩ := hR.relaxed _ _ hedge hnp
                exact ⟨m', b1, by grind⟩
              · exact .inl (hpend m hm e he he1 he2)
            · exact .inr ⟨mem_sadd.2 (.inr hb1), fun hmk => hlabmono _ (hb2 hmk)⟩
          · exact .inl ⟨_, hin, rfl, hc2⟩
        · -- meeting
          intro m hm hl1 hl2
          obtain ⟨c, hc, hc2⟩ := hl1
          rcases hR.label _ _ hc with ⟨hold, _⟩ | ⟨_, _, hin⟩
          · rcases h3 m hm ⟨c, hold, hc2⟩ hl2 with ⟨e, he, he1, he2⟩ | h
            · rw [hq] at he
              rcases List.mem_cons.1 he with rfl | he
              · rcases h2.step (k - m) (by omega) hl2 with hp | ⟨hbd, _⟩
                · exact .inr hp
                · exfalso
                  obtain ⟨o, ho1, ho2⟩ := hl2
                  rw [hO.node m hm] at hbd
                  have ho1' : other.mins.get? (p m) = some o := by
                    have := hO.node m hm; rw [← this]; exact ho1
                  rw [hO.val m hm] at ho2
                  exact hD' (hi7 (F k) o (by rw [he1]; exact hbd) (by rw [he1]; exact ho1') (by grind))
              · refine .inl ⟨e, hR.keep _ (hi6 _ hD' e he (by have := hT.mono hm (Nat.le_refl k); grind)), he1, he2⟩
            · exact .inr h
          · exact .inl ⟨_, hin, rfl, hc2⟩

end GT

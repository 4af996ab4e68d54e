import Verif.Sp.Bidir
import Verif.Sp.FlInt
import Verif.Bisect
/-
`shortest_path_bidirectional` with `insort` as a binary search (Bisect), and its equality with the model of Sp/Bidir: the queues are always sorted.
-/
namespace GT
variable {α O : Type} [DecidableEq α]

/-- `ScanThread.__lt__` (shortest_path.py:73-74) -/
def scanLt (a b : Scan α) : Bool := decide (a.cost < b.cost)

/-- the loop over the sorted edges (shortest_path.py:156-169), with the binary search -/
def biRelaxB (cost : Rat) (path : List α) (spLen : Ext) (omins : Dict α Rat) :
    List (α × Rat) → List (Scan α) × Dict α Rat × Dict α (List α) → List (Scan α) × Dict α Rat × Dict α (List α)
  | [], s => s
  | (n2, dist) :: l, (q, mins, paths) =>
    if gtExt (cost + dist) spLen then biRelaxB cost path spLen omins l (q, mins, paths)
    else if overBound omins spLen n2 (cost + dist) then biRelaxB cost path spLen omins l (q, mins, paths)
    else if improves mins n2 (cost + dist) then
      biRelaxB cost path spLen omins l
        (insortB scanLt ⟨cost + dist, n2, path⟩ q, mins.set n2 (cost + dist), paths.set n2 path)
    else biRelaxB cost path spLen omins l (q, mins, paths)

/-- `self.search(other)` (shortest_path.py:127-172), with the binary search -/
def Side.searchB (dir : Bool) (nbr : α → List (α × Rat)) (srt : List (α × Rat) → List (α × Rat))
    (avoids : List α) (self other : Side α) : Py (Side α × Side α) :=
  match self.q with
  | [] => .ok (self, other)
  | st :: q =>
    if gtExt st.cost self.spLen then .ok ({ self with q := q }, other)
    else
      let boundary := sadd self.boundary st.n1
      match intercept dir st q self other with
      | .error e => .error e
      | .ok (sp, spLen, q) =>
        let edges := srt ((nbr st.n1).filter (fun e => !decide (e.1 ∈ avoids)))
        let r := biRelaxB st.cost (st.n1 :: st.path) self.spLen other.mins edges (q, self.mins, self.paths)
        match ({ self with q := r.1, boundary := boundary, mins := r.2.1, paths := r.2.2 } : Side α).update sp spLen with
        | .error e => .error e
        | .ok self => match other.update sp spLen with
          | .error e => .error e
          | .ok other => .ok (self, other)

/-- one iteration of the loop (shortest_path.py:238-240), and the return (243), with the binary search -/
def biStepB (out inn : α → List (α × Rat)) (srt : List (α × Rat) → List (α × Rat)) (avoids : List α) :
    Side α × Side α → (Side α × Side α) ⊕ Py (Ext × List α)
  | (f, b) =>
    if f.q = [] ∧ b.q = [] then .inr (.ok (f.spLen, f.sp))
    else match f.searchB true out srt avoids b with
      | .error e => .inr (.error e)
      | .ok (f, b) => match b.searchB false inn srt avoids f with
        | .error e => .inr (.error e)
        | .ok (b, f) => .inl (f, b)

/-- `shortest_path_bidirectional(graph, start, end, avoids)` (shortest_path.py:175-242), with the binary search -/
def Graph.shortestPathBiB (srt : List (α × Rat) → List (α × Rat)) (g : Graph α Rat O) (start fin : α)
    (avoids : List α := []) : Option (Py (Ext × List α)) :=
  if !g.has start then some (.error .valueError)
  else if !g.has fin then some (.error .valueError)
  else pyWhile (biStepB g.outNbr g.inNbr srt avoids) (Side.init start, Side.init fin)

theorem insortB_scan {x : Scan α} {q : List (Scan α)} (h : QSorted q) : insortB scanLt x q = insort x q := by
  rw [insortB_eq (lt := scanLt) (fun a b c => by unfold scanLt; simp; grind) (fun a b => by unfold scanLt; simp; grind) x
    (h.imp (fun {a b} hab => by unfold scanLt; simp; grind))]
  clear h
  induction q with
  | nil => rfl
  | cons y l ih =>
    unfold insertBehind insort
    rw [ih]
    unfold scanLt
    simp only [decide_eq_true_eq]

theorem biRelaxB_eq (cost : Rat) (path : List α) (spLen : Ext) (omins : Dict α Rat) (l : List (α × Rat)) :
    ∀ (q : List (Scan α)) (mins : Dict α Rat) (paths : Dict α (List α)), QSorted q →
      biRelaxB cost path spLen omins l (q, mins, paths) = biRelax cost path spLen omins l (q, mins, paths) ∧
      QSorted (biRelax cost path spLen omins l (q, mins, paths)).1 := by
  induction l with
  | nil => intro q mins paths h; exact ⟨rfl, h⟩
  | cons e l ih =>
    obtain ⟨n2, dist⟩ := e
    intro q mins paths h
    unfold biRelaxB biRelax
    split
    · exact ih q mins paths h
    · split
      · exact ih q mins paths h
      · split
        · rw [insortB_scan h]
          exact ih _ _ _ h.insort
        · exact ih q mins paths h

theorem update_q {s s' : Side α} {sp : List α} {d : Ext} (h : s.update sp d = .ok s') : s'.q = s.q := by
  unfold Side.update at h
  split at h <;> cases h
  rfl

theorem intercept_sorted {dir : Bool} {st : Scan α} {q q' : List (Scan α)} {self other : Side α} {sp : List α} {d : Ext} (hq : QSorted q)
    (h : intercept dir st q self other = .ok (sp, d, q')) : QSorted q' := by
  unfold intercept at h
  split at h
  · split at h
    · cases h
    · split at h
      · split at h
        · cases h
        · cases h; exact List.Pairwise.filter _ hq
      · cases h; exact hq
  · cases h; exact hq

theorem searchB_eq (dir : Bool) (nbr : α → List (α × Rat)) (srt : List (α × Rat) → List (α × Rat)) (avoids : List α) {self other : Side α}
    (h1 : QSorted self.q) (h2 : QSorted other.q) :
    self.searchB dir nbr srt avoids other = self.search dir nbr srt avoids other ∧
    ∀ s o, self.search dir nbr srt avoids other = .ok (s, o) → QSorted s.q ∧ QSorted o.q := by
  unfold Side.searchB Side.search
  cases hq : self.q with
  | nil =>
    refine ⟨rfl, fun s o h => ?_⟩
    cases h; exact ⟨h1, h2⟩
  | cons st q =>
    rw [hq] at h1
    have hq' : QSorted q := (List.pairwise_cons.1 h1).2
    dsimp only
    split
    · refine ⟨rfl, fun s o h => ?_⟩
      cases h; exact ⟨hq', h2⟩
    · cases hi : intercept dir st q self other with
      | error e => exact ⟨rfl, fun s o h => by cases h⟩
      | ok x =>
        obtain ⟨sp, spLen, q2⟩ := x
        dsimp only
        obtain ⟨k1, k2⟩ := biRelaxB_eq st.cost (st.n1 :: st.path) self.spLen other.mins (srt ((nbr st.n1).filter (fun e => !decide (e.1 ∈ avoids)))) q2
          self.mins self.paths (intercept_sorted hq' hi)
        rw [k1]
        refine ⟨rfl, fun s o h => ?_⟩
        revert h
        split
        · intro h; cases h
        · rename_i s1 hs1
          split
          · intro h; cases h
          · rename_i o1 ho1
            intro h; cases h
            rw [update_q hs1, update_q ho1]
            exact ⟨k2, h2⟩

/-- the binary search makes no difference: the queues are always sorted -/
theorem shortestPathBiB_eq (srt : List (α × Rat) → List (α × Rat)) (g : Graph α Rat O) (start fin : α) (avoids : List α) :
    g.shortestPathBiB srt start fin avoids = g.shortestPathBi srt start fin avoids := by
  unfold Graph.shortestPathBiB Graph.shortestPathBi
  split
  · rfl
  · split
    · rfl
    · refine pyWhile_congr (fun s => QSorted s.1.q ∧ QSorted s.2.q) (fun s hs => ?_) (fun s s' hs h => ?_) ⟨by simp [QSorted, Side.init], by simp [QSorted, Side.init]⟩
      · obtain ⟨f, b⟩ := s
        unfold biStepB biStep
        dsimp only
        split
        · rfl
        · obtain ⟨k1, k2⟩ := searchB_eq true g.outNbr srt avoids hs.1 hs.2
          rw [k1]
          cases hx : f.search true g.outNbr srt avoids b with
          | error e => rfl
          | ok x =>
            obtain ⟨f', b'⟩ := x
            have := k2 f' b' hx
            dsimp only
            rw [(searchB_eq false g.inNbr srt avoids this.2 this.1).1]
            rfl
      · obtain ⟨f, b⟩ := s
        unfold biStepB at h
        dsimp only at h hs
        split at h
        · cases h
        · obtain ⟨k1, k2⟩ := searchB_eq true g.outNbr srt avoids hs.1 hs.2
          rw [k1] at h
          cases hx : f.search true g.outNbr srt avoids b with
          | error e => rw [hx] at h; cases h
          | ok x =>
            obtain ⟨f', b'⟩ := x
            have hh := k2 f' b' hx
            rw [hx] at h
            dsimp only at h
            obtain ⟨m1, m2⟩ := searchB_eq false g.inNbr srt avoids hh.2 hh.1
            rw [m1] at h
            cases hy : b'.search false g.inNbr srt avoids f' with
            | error e => rw [hy] at h; cases h
            | ok y =>
              obtain ⟨b'', f''⟩ := y
              rw [hy] at h
              cases h
              have := m2 b'' f'' hy
              exact ⟨this.2, this.1⟩

end GT

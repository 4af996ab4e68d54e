import Verif.Sp.BidirMain
import Verif.Spec.Compare
import Verif.Dag.TopoCmp
/-
`shortest_path_bidirectional` on nodes that cannot be compared: `sorted((d, e) …)` compares the nodes of edges with equal values.
-/
namespace GT
open Graph
variable {α O : Type} [DecidableEq α]

/-! ### model -/

/-- `self.search(other)` (shortest_path.py:127-172), where `sorted` in the lines 152 and 154 can raise -/
def Side.searchE (dir : Bool) (nbr : α → List (α × Rat)) (srt : List (α × Rat) → Py (List (α × Rat)))
    (avoids : List α) (self other : Side α) : Py (Side α × Side α) :=
  match self.q with
  | [] => .ok (self, other)
  | st :: q =>
    if gtExt st.cost self.spLen then .ok ({ self with q := q }, other)
    else
      let boundary := sadd self.boundary st.n1
      match intercept dir st q self other with
      | .error e => .error e
      | .ok (sp, spLen, q) =>
        match srt ((nbr st.n1).filter (fun e => !decide (e.1 ∈ avoids))) with
        | .error e => .error e
        | .ok edges =>
          let r := biRelax st.cost (st.n1 :: st.path) self.spLen other.mins edges (q, self.mins, self.paths)
          match ({ self with q := r.1, boundary := boundary, mins := r.2.1, paths := r.2.2 } : Side α).update sp spLen with
          | .error e => .error e
          | .ok self => match other.update sp spLen with
            | .error e => .error e
            | .ok other => .ok (self, other)

/-- one iteration of the loop (shortest_path.py:238-240), and the return (243) -/
def biStepE (out inn : α → List (α × Rat)) (srt : List (α × Rat) → Py (List (α × Rat))) (avoids : List α) :
    Side α × Side α → (Side α × Side α) ⊕ Py (Ext × List α)
  | (f, b) =>
    if f.q = [] ∧ b.q = [] then .inr (.ok (f.spLen, f.sp))
    else match f.searchE true out srt avoids b with
      | .error e => .inr (.error e)
      | .ok (f, b) => match b.searchE false inn srt avoids f with
        | .error e => .inr (.error e)
        | .ok (b, f) => .inl (f, b)

/-- `shortest_path_bidirectional(graph, start, end, avoids)` (shortest_path.py:175-242), where `sorted((d, e) …)` can raise -/
def Graph.shortestPathBiE (srt : List (α × Rat) → Py (List (α × Rat))) (g : Graph α Rat O) (start fin : α)
    (avoids : List α := []) : Option (Py (Ext × List α)) :=
  if !g.has start then some (.error .valueError)
  else if !g.has fin then some (.error .valueError)
  else pyWhile (biStepE g.outNbr g.inNbr srt avoids) (Side.init start, Side.init fin)

/-! ### a loop that can be cut short -/

/-- if every iteration is as before or ends the loop with `bad`, the loop returns what it did before or `bad` -/
theorem pyWhile_cut {σ ρ : Type} {step stepE : σ → σ ⊕ ρ} {bad : ρ} (h : ∀ s, stepE s = step s ∨ stepE s = .inr bad) {s : σ} {r : ρ}
    (hr : pyWhile step s = some r) : pyWhile stepE s = some r ∨ pyWhile stepE s = some bad := by
  refine pyWhile_inv (step := step) (fun s' => pyWhile stepE s = pyWhile stepE s' ∨ pyWhile stepE s = some bad)
    (fun r => pyWhile stepE s = some r ∨ pyWhile stepE s = some bad) ?_ ?_ (.inl rfl) hr
  · rintro s1 s2 (hI | hI) hst
    · rcases h s1 with h1 | h1
      · rw [hst] at h1; rw [hI, pyWhile_inl h1]; exact .inl rfl
      · rw [hI]; exact .inr (pyWhile_inr h1)
    · exact .inr hI
  · rintro s1 r (hI | hI) hst
    · rcases h s1 with h1 | h1
      · rw [hst] at h1; rw [hI, pyWhile_inr h1]; exact .inl rfl
      · rw [hI]; exact .inr (pyWhile_inr h1)
    · exact .inr hI

/-- two edges with equal values that lead to nodes which cannot be compared -/
def TiedEdges (Cmp : α → α → Prop) (avoids : List α) (l : List (α × Rat)) : Prop :=
  ∃ a ∈ l, ∃ b ∈ l, a.1 ∉ avoids ∧ b.1 ∉ avoids ∧ a.1 ≠ b.1 ∧ a.2 = b.2 ∧ ¬ Cmp a.1 b.1

/-- the comparison of the tuples `(d, e)` -/
def TupCmp (Cmp : α → α → Prop) (a b : α × Rat) : Prop := a.2 ≠ b.2 ∨ Cmp a.1 b.1

theorem filter_sort {Cmp : α → α → Prop} {srt : List (α × Rat) → Py (List (α × Rat))} (hs : SortMayFail (TupCmp Cmp) srt) (avoids : List α)
    (l : List (α × Rat)) :
    (TiedEdges Cmp avoids l ∧ srt (l.filter (fun e => !decide (e.1 ∈ avoids))) = .error .typeError) ∨
    (¬ TiedEdges Cmp avoids l ∧ srt (l.filter (fun e => !decide (e.1 ∈ avoids))) = .ok (totalSort srt (l.filter (fun e => !decide (e.1 ∈ avoids))))) := by
  by_cases h : TiedEdges Cmp avoids l
  · refine .inl ⟨h, hs.fails _ ?_⟩
    obtain ⟨a, ha, b, hb, h1, h2, h3, h4, h5⟩ := h
    refine ⟨a, by simp [ha, h1], b, by simp [hb, h2], fun h => h3 (by rw [h]), ?_⟩
    rintro (h | h)
    · exact h h4
    · exact h5 h
  · refine .inr ⟨h, ?_⟩
    obtain ⟨r, hr⟩ := hs.works (l.filter (fun e => !decide (e.1 ∈ avoids))) (fun a ha b hb hab => by
      simp only [List.mem_filter, Bool.not_eq_true', decide_eq_false_iff_not] at ha hb
      by_cases h4 : a.2 = b.2
      · right
        apply Classical.byContradiction
        intro hc
        refine h ⟨a, ha.1, b, hb.1, ha.2, hb.2, fun h3 => hab (Prod.ext h3 h4), h4, hc⟩
      · exact .inl h4)
    rw [hr]; unfold totalSort; rw [hr]

theorem searchE_eq {Cmp : α → α → Prop} {srt : List (α × Rat) → Py (List (α × Rat))} (hs : SortMayFail (TupCmp Cmp) srt) (dir : Bool)
    (nbr : α → List (α × Rat)) (avoids : List α) (self other : Side α) :
    self.searchE dir nbr srt avoids other = self.search dir nbr (totalSort srt) avoids other ∨
    ((∃ x, TiedEdges Cmp avoids (nbr x)) ∧ self.searchE dir nbr srt avoids other = .error .typeError) := by
  unfold Side.searchE Side.search
  cases self.q with
  | nil => exact .inl rfl
  | cons st q =>
    dsimp only
    split
    · exact .inl rfl
    · cases hi : intercept dir st q self other with
      | error e => exact .inl rfl
      | ok t =>
        obtain ⟨sp, spLen, q'⟩ := t
        dsimp only
        rcases filter_sort hs avoids (nbr st.n1) with ⟨h1, h2⟩ | ⟨h1, h2⟩
        · rw [h2]; exact .inr ⟨⟨_, h1⟩, rfl⟩
        · rw [h2]; exact .inl rfl

theorem biStepE_eq {Cmp : α → α → Prop} {srt : List (α × Rat) → Py (List (α × Rat))} (hs : SortMayFail (TupCmp Cmp) srt)
    (out inn : α → List (α × Rat)) (avoids : List α) (s : Side α × Side α) :
    biStepE out inn srt avoids s = biStep out inn (totalSort srt) avoids s ∨
    ((∃ x, TiedEdges Cmp avoids (out x) ∨ TiedEdges Cmp avoids (inn x)) ∧ biStepE out inn srt avoids s = .inr (.error .typeError)) := by
  obtain ⟨f, b⟩ := s
  unfold biStepE biStep
  dsimp only
  split
  · exact .inl rfl
  · rcases searchE_eq hs true out avoids f b with h | ⟨⟨x, hx⟩, h⟩
    · rw [h]
      cases f.search true out (totalSort srt) avoids b with
      | error e => exact .inl rfl
      | ok t =>
        obtain ⟨f', b'⟩ := t
        dsimp only
        rcases searchE_eq hs false inn avoids b' f' with h | ⟨⟨x, hx⟩, h⟩
        · rw [h]; exact .inl rfl
        · rw [h]; exact .inr ⟨⟨x, .inr hx⟩, rfl⟩
    · rw [h]; exact .inr ⟨⟨x, .inl hx⟩, rfl⟩

/-- it raises `TypeError`, and then there are tied edges, or it returns what it returns with a sort that does not fail -/
theorem shortestPathBiE_cases {Cmp : α → α → Prop} {srt : List (α × Rat) → Py (List (α × Rat))} (hs : SortMayFail (TupCmp Cmp) srt)
    (g : Graph α Rat O) (start fin : α) (avoids : List α) {r : Py (Ext × List α)}
    (hr : g.shortestPathBi (totalSort srt) start fin avoids = some r) :
    g.shortestPathBiE srt start fin avoids = some r ∨
    ((∃ x, TiedEdges Cmp avoids (g.outNbr x) ∨ TiedEdges Cmp avoids (g.inNbr x)) ∧
      g.shortestPathBiE srt start fin avoids = some (.error .typeError)) := by
  unfold shortestPathBiE
  unfold shortestPathBi at hr
  split
  · rw [if_pos ‹_›] at hr; exact .inl hr
  · rw [if_neg ‹_›] at hr
    split
    · rw [if_pos ‹_›] at hr; exact .inl hr
    · rw [if_neg ‹_›] at hr
      by_cases ht : ∃ x, TiedEdges Cmp avoids (g.outNbr x) ∨ TiedEdges Cmp avoids (g.inNbr x)
      · rcases pyWhile_cut (bad := .error .typeError) (fun s => (biStepE_eq hs g.outNbr g.inNbr avoids s).imp id And.right) hr with h | h
        · exact .inl h
        · exact .inr ⟨ht, h⟩
      · have : biStepE g.outNbr g.inNbr srt avoids = biStep g.outNbr g.inNbr (totalSort srt) avoids := by
          funext s
          rcases biStepE_eq hs g.outNbr g.inNbr avoids s with h | ⟨h, _⟩
          · exact h
          · exact absurd h ht
        rw [this]; exact .inl hr

theorem biRelax_keeps (cost : Rat) (path : List α) (spLen : Ext) (omins : Dict α Rat) (x : α) (l : List (α × Rat)) :
    ∀ (q : List (Scan α)) (mins : Dict α Rat) (paths : Dict α (List α)), (mins.get? x).isSome → (paths.get? x).isSome →
      ((biRelax cost path spLen omins l (q, mins, paths)).2.1.get? x).isSome ∧ ((biRelax cost path spLen omins l (q, mins, paths)).2.2.get? x).isSome := by
  induction l with
  | nil => intro q mins paths h1 h2; exact ⟨h1, h2⟩
  | cons e l ih =>
    intro q mins paths h1 h2
    obtain ⟨n2, dist⟩ := e
    unfold biRelax
    split
    · exact ih _ _ _ h1 h2
    · split
      · exact ih _ _ _ h1 h2
      · split
        · refine ih _ _ _ ?_ ?_
          · rw [Dict.get?_set]; split
            · rfl
            · exact h1
          · rw [Dict.get?_set]; split
            · rfl
            · exact h2
        · exact ih _ _ _ h1 h2

/-- the first search from `x` -/
theorem searchE_first {Cmp : α → α → Prop} {srt : List (α × Rat) → Py (List (α × Rat))} (hs : SortMayFail (TupCmp Cmp) srt) (dir : Bool)
    (nbr : α → List (α × Rat)) (avoids : List α) (x : α) (other : Side α)
    (hb : x ∈ other.boundary → (other.mins.get? x).isSome ∧ (other.paths.get? x).isSome) (ht : TiedEdges Cmp avoids (nbr x)) :
    (Side.init x).searchE dir nbr srt avoids other = .error .typeError := by
  rcases filter_sort hs avoids (nbr x) with ⟨_, he⟩ | ⟨hno, _⟩
  · have hi : ∃ t, intercept dir ⟨0, x, []⟩ [] (Side.init x) other = .ok t := by
      unfold intercept
      split
      · rename_i hx
        obtain ⟨h1, h2⟩ := hb hx
        obtain ⟨m, hm⟩ := Option.isSome_iff_exists.1 h1
        obtain ⟨op, hop⟩ := Option.isSome_iff_exists.1 h2
        dsimp only
        rw [hm]
        dsimp only
        split
        · rw [hop]; exact ⟨_, rfl⟩
        · exact ⟨_, rfl⟩
      · exact ⟨_, rfl⟩
    obtain ⟨⟨sp, spLen, q⟩, ht⟩ := hi
    unfold Side.searchE
    simp [Side.init, gtExt] at ht ⊢
    rw [ht]
    simp at he
    simp [he]
  · exact absurd ht hno

/-- tied edges at the start or at the end are always found -/
theorem shortestPathBiE_ends {Cmp : α → α → Prop} {srt : List (α × Rat) → Py (List (α × Rat))} (hs : SortMayFail (TupCmp Cmp) srt)
    (g : Graph α Rat O) {start fin : α} (avoids : List α) (h1 : g.has start = true) (h2 : g.has fin = true)
    (ht : TiedEdges Cmp avoids (g.outNbr start) ∨ TiedEdges Cmp avoids (g.inNbr fin)) :
    g.shortestPathBiE srt start fin avoids = some (.error .typeError) := by
  unfold shortestPathBiE
  rw [if_neg (by simp [h1]), if_neg (by simp [h2])]
  refine pyWhile_inr ?_
  unfold biStepE
  dsimp only
  rw [if_neg (by simp [Side.init])]
  by_cases hst : TiedEdges Cmp avoids (g.outNbr start)
  · rw [searchE_first hs true g.outNbr avoids start (Side.init fin) (fun h => by simp [Side.init] at h) hst]
  · have hfin := ht.resolve_left hst
    rcases filter_sort hs avoids (g.outNbr start) with ⟨hx, _⟩ | ⟨_, he⟩
    · exact absurd hx hst
    · have hfw : ∃ f', (Side.init start).searchE true g.outNbr srt avoids (Side.init fin) = .ok (f', Side.init fin) ∧
          f'.boundary = [start] ∧ (f'.mins.get? start).isSome ∧ (f'.paths.get? start).isSome := by
        have hk := biRelax_keeps 0 [start] .inf (Dict.empty.set fin 0) start (totalSort srt ((g.outNbr start).filter (fun e => !decide (e.1 ∈ avoids))))
          [] (Dict.empty.set start 0) (Dict.empty.set start []) (by rw [Dict.get?_set]; simp) (by rw [Dict.get?_set]; simp)
        generalize hR : biRelax 0 [start] .inf (Dict.empty.set fin 0) (totalSort srt ((g.outNbr start).filter (fun e => !decide (e.1 ∈ avoids))))
          ([], Dict.empty.set start 0, Dict.empty.set start []) = R at hk
        refine ⟨⟨R.1, [start], R.2.1, R.2.2, [], .inf⟩, ?_, rfl, hk.1, hk.2⟩
        · subst hR
          unfold Side.searchE
          simp [Side.init, gtExt, intercept, he, Side.update, Ext.gt, sadd]
      obtain ⟨f', hf, hb, hm, hp⟩ := hfw
      rw [hf]
      dsimp only
      rw [searchE_first hs false g.inNbr avoids fin f' (fun h => by
        rw [hb] at h; simp at h; subst h; exact ⟨hm, hp⟩) hfin]

end GT

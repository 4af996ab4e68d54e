import Verif.Py
import Verif.Spec.Jam
/-
Model of `path_to_moves` and `moves_to_synchronous_moves` (graph/traffic_scheduling_problem.py:223-266), and proofs.
A move dictionary `{load: (n1, n2)}` is the list of its items `(load, n1, n2)`.
-/
namespace GT
variable {ι α : Type} [DecidableEq ι] [DecidableEq α]

/-- the loop over `zip(s1, s2)` (traffic_scheduling_problem.py:231-233) -/
def stateChanges : Placement ι α → Placement ι α → List (ι × α × α)
  | p1 :: s1, p2 :: s2 => if p1 ≠ p2 then (p1.1, p1.2, p2.2) :: stateChanges s1 s2 else stateChanges s1 s2
  | _, _ => []

/-- the outer loop (traffic_scheduling_problem.py:230-234) -/
def ptmLoop (s1 : Placement ι α) : List (Placement ι α) → List (ι × α × α)
  | [] => []
  | s2 :: l => stateChanges s1 s2 ++ ptmLoop s2 l

/-- `path_to_moves` (traffic_scheduling_problem.py:223-235); every move is a dictionary with one item.  `path[0]` raises `IndexError`. -/
def pathToMoves : List (Placement ι α) → Py (List (ι × α × α))
  | [] => .error .indexError
  | s1 :: l => .ok (ptmLoop s1 l)

/-- the loop `for move in moves[:]` (traffic_scheduling_problem.py:255-264); the state is `(current_moves, occupied_locations, moves)`.
`current_moves` never gets a key twice, so that it is the list of its items. -/
def syncScan : List (ι × α × α) → List (ι × α × α) × List α × List (ι × α × α) → Py (List (ι × α × α) × List α × List (ι × α × α))
  | [], s => .ok s
  | m :: l, (cur, occ, moves) =>
    if m.1 ∈ cur.map Prod.fst then .ok (cur, occ, moves)
    else if m.2.2 ∈ occ then syncScan l (cur, occ, moves)
    else if m.2.1 ∉ occ then .error .keyError
    else syncScan l (cur ++ [m], sadd (occ.filter (fun x => decide (x ≠ m.2.1))) m.2.2, moves.erase m)

/-- one iteration of `while moves` (traffic_scheduling_problem.py:253-265); the state is `(occupied_locations, moves, synchronous)` -/
def syncStep (s : List α × List (ι × α × α) × List (List (ι × α × α))) :
    (List α × List (ι × α × α) × List (List (ι × α × α))) ⊕ Py (List (List (ι × α × α))) :=
  if s.2.1 = [] then .inr (.ok s.2.2)
  else match syncScan s.2.1 ([], s.1, s.2.1) with
    | .error e => .inr (.error e)
    | .ok (cur, occ, moves) => .inl (occ, moves, s.2.2 ++ [cur])

/-- `moves_to_synchronous_moves(moves, loads)` (traffic_scheduling_problem.py:238-266); of `loads` only the start locations are used.
The list of dictionaries `moves` is given by its items in order (246). -/
def synchronousMoves (moves : List (ι × α × α)) (starts : List α) : Option (Py (List (List (ι × α × α)))) :=
  pyWhile syncStep (saddAll [] starts, moves, [])

/-! ### proofs: `path_to_moves` -/

theorem mem_stateChanges {s1 : Placement ι α} : ∀ {s2 : Placement ι α}, s1.map Prod.fst = s2.map Prod.fst → (s1.map Prod.fst).Nodup →
    ∀ k a b, (k, a, b) ∈ stateChanges s1 s2 ↔ (k, a) ∈ s1 ∧ (k, b) ∈ s2 ∧ a ≠ b := by
  induction s1 with
  | nil => intro s2 h; cases s2 <;> simp_all [stateChanges]
  | cons p1 s1 ih =>
    intro s2 h hnd k a b
    cases s2 with
    | nil => simp at h
    | cons p2 s2 =>
      obtain ⟨i, x⟩ := p1
      obtain ⟨j, y⟩ := p2
      simp only [List.map_cons, List.cons.injEq] at h
      obtain ⟨rfl, h⟩ := h
      rw [List.map_cons, List.nodup_cons] at hnd
      have h1 : ∀ z, (i, z) ∉ s1 := fun z hz => hnd.1 (List.mem_map.2 ⟨_, hz, rfl⟩)
      have h2 : ∀ z, (i, z) ∉ s2 := fun z hz => hnd.1 (by rw [h]; exact List.mem_map.2 ⟨_, hz, rfl⟩)
      have ih' := ih h hnd.2 k a b
      unfold stateChanges
      by_cases hk : k = i
      · subst hk
        have hno : (k, a, b) ∉ stateChanges s1 s2 := by rw [ih']; exact fun h => h1 a h.1
        split
        · rename_i hne
          simp only [List.mem_cons, Prod.mk.injEq, true_and, hno, or_false, h1, h2]
          constructor
          · rintro ⟨rfl, rfl⟩; exact ⟨rfl, rfl, by simpa using hne⟩
          · rintro ⟨rfl, rfl, _⟩; exact ⟨rfl, rfl⟩
        · rename_i hne
          simp only [hno, List.mem_cons, Prod.mk.injEq, true_and, h1, h2, or_false, false_iff]
          rintro ⟨rfl, rfl, h3⟩
          exact hne (by simpa using h3)
      · have : ((k, a, b) ∈ if (i, x) ≠ (i, y) then (i, x, y) :: stateChanges s1 s2 else stateChanges s1 s2) ↔ (k, a, b) ∈ stateChanges s1 s2 := by
          split
          · simp [hk]
          · exact Iff.rfl
        rw [this, ih']
        simp [hk]

theorem stateChanges_loads (s1 : Placement ι α) : ∀ s2 : Placement ι α, ((stateChanges s1 s2).map Prod.fst).Sublist (s1.map Prod.fst) := by
  induction s1 with
  | nil => intro s2; cases s2 <;> exact List.nil_sublist _
  | cons p1 s1 ih =>
    intro s2
    cases s2 with
    | nil => exact List.nil_sublist _
    | cons p2 s2 =>
      unfold stateChanges
      split
      · simpa using (ih s2)
      · simpa using (ih s2).cons p1.1

theorem ptmLoop_parts (l : List (Placement ι α)) : ∀ s1, ∃ parts : List (List (ι × α × α)), ptmLoop s1 l = parts.flatten ∧
    parts.length = l.length ∧ ∀ i s s' part, (s1 :: l)[i]? = some s → (s1 :: l)[i + 1]? = some s' → parts[i]? = some part →
      part = stateChanges s s' := by
  induction l with
  | nil => intro s1; exact ⟨[], rfl, rfl, by simp⟩
  | cons s2 l ih =>
    intro s1
    obtain ⟨parts, h1, h2, h3⟩ := ih s2
    refine ⟨stateChanges s1 s2 :: parts, by simp [ptmLoop, h1], by simp [h2], ?_⟩
    intro i s s' part hs hs' hp
    cases i with
    | zero => simp at hs hs' hp; subst hs hs' hp; rfl
    | succ i => exact h3 i s s' part (by simpa using hs) (by simpa using hs') (by simpa using hp)

theorem moveTo_fst (k : ι) (b : α) (s : Placement ι α) : (moveTo k b s).map Prod.fst = s.map Prod.fst := by
  unfold moveTo
  rw [List.map_map]
  apply List.map_congr_left
  intro p _
  simp only [Function.comp]
  split
  · rename_i h; exact h.symm
  · rfl

theorem mem_moveTo {k : ι} {b : α} {s : Placement ι α} {j : ι} {x : α} :
    (j, x) ∈ moveTo k b s ↔ (j = k ∧ x = b ∧ ∃ y, (k, y) ∈ s) ∨ (j ≠ k ∧ (j, x) ∈ s) := by
  unfold moveTo
  rw [List.mem_map]
  constructor
  · rintro ⟨⟨i, y⟩, hp, h⟩
    by_cases hi : i = k
    · simp only [hi, if_true, Prod.mk.injEq] at h
      exact .inl ⟨h.1.symm, h.2.symm, y, hi ▸ hp⟩
    · simp only [hi, if_false, Prod.mk.injEq] at h
      obtain ⟨rfl, rfl⟩ := h
      exact .inr ⟨hi, hp⟩
  · rintro (⟨rfl, rfl, y, hy⟩ | ⟨h, h2⟩)
    · exact ⟨_, hy, by simp⟩
    · exact ⟨_, h2, by simp [h]⟩

/-- in a placement a load is in one place -/
theorem place_unique {s : Placement ι α} (hnd : (s.map Prod.fst).Nodup) {k : ι} {a b : α} (h : (k, a) ∈ s) (h2 : (k, b) ∈ s) : a = b := by
  induction s with
  | nil => cases h
  | cons p s ih =>
    rw [List.map_cons, List.nodup_cons] at hnd
    rcases List.mem_cons.1 h with h' | h'
    · rcases List.mem_cons.1 h2 with h2' | h2'
      · rw [← h'] at h2'; exact ((Prod.mk.injEq ..).mp h2').2.symm
      · exact absurd (List.mem_map.2 ⟨_, h2', by rw [← h']⟩) hnd.1
    · rcases List.mem_cons.1 h2 with h2' | h2'
      · exact absurd (List.mem_map.2 ⟨_, h', by rw [← h2']⟩) hnd.1
      · exact ih hnd.2 h' h2'

theorem place_unique' {s : Placement ι α} (hnd : (s.map Prod.snd).Nodup) {k j : ι} {a : α} (h : (k, a) ∈ s) (h2 : (j, a) ∈ s) : k = j := by
  induction s with
  | nil => cases h
  | cons p s ih =>
    rw [List.map_cons, List.nodup_cons] at hnd
    rcases List.mem_cons.1 h with h' | h'
    · rcases List.mem_cons.1 h2 with h2' | h2'
      · rw [← h'] at h2'; exact ((Prod.mk.injEq ..).mp h2').1.symm
      · exact absurd (List.mem_map.2 ⟨_, h2', by rw [← h']⟩) hnd.1
    · rcases List.mem_cons.1 h2 with h2' | h2'
      · exact absurd (List.mem_map.2 ⟨_, h', by rw [← h2']⟩) hnd.1
      · exact ih hnd.2 h' h2'

theorem moveTo_absent {k : ι} {b : α} {s : Placement ι α} (h : k ∉ s.map Prod.fst) : moveTo k b s = s := by
  unfold moveTo
  conv => rhs; rw [← List.map_id s]
  apply List.map_congr_left
  intro p hp
  have : p.1 ≠ k := fun he => h (he ▸ List.mem_map.2 ⟨_, hp, rfl⟩)
  simp [this]

theorem stateChanges_self (s : Placement ι α) : stateChanges s s = [] := by
  induction s with
  | nil => rfl
  | cons p s ih => unfold stateChanges; simp [ih]

theorem stateChanges_move {k : ι} {a b : α} {s : Placement ι α} (hnd : (s.map Prod.fst).Nodup) (h : (k, a) ∈ s) (hab : a ≠ b) :
    stateChanges s (moveTo k b s) = [(k, a, b)] := by
  induction s with
  | nil => cases h
  | cons p s ih =>
    rw [List.map_cons, List.nodup_cons] at hnd
    rcases List.mem_cons.1 h with rfl | h
    · have : moveTo k b ((k, a) :: s) = (k, b) :: s := by
        have := moveTo_absent (b := b) hnd.1
        unfold moveTo at this ⊢
        simp [this]
      rw [this]
      unfold stateChanges
      rw [if_pos (by simpa using hab), stateChanges_self]
    · have hpk : p.1 ≠ k := fun he => hnd.1 (he ▸ List.mem_map.2 ⟨_, h, rfl⟩)
      have : moveTo k b (p :: s) = p :: moveTo k b s := by unfold moveTo; simp [hpk]
      rw [this]
      unfold stateChanges
      rw [if_neg (by simp)]
      exact ih hnd.2 h

theorem Distinct.moveTo {k : ι} {b : α} {s : Placement ι α} (h : Distinct s) (hf : Free s b) : Distinct (moveTo k b s) := by
  refine ⟨by rw [moveTo_fst]; exact h.1, ?_⟩
  obtain ⟨h1, h2⟩ := h
  induction s with
  | nil => exact h2
  | cons p s ih =>
    rw [List.map_cons, List.nodup_cons] at h1 h2
    have hf' : Free s b := fun j hj => hf j (List.mem_cons_of_mem _ hj)
    by_cases hk : p.1 = k
    · have hk' : k ∉ s.map Prod.fst := hk ▸ h1.1
      have : GT.moveTo k b (p :: s) = (k, b) :: s := by
        have := moveTo_absent (b := b) hk'
        unfold GT.moveTo at this ⊢
        simp [this, hk]
      rw [this, List.map_cons, List.nodup_cons]
      refine ⟨?_, h2.2⟩
      intro hb
      obtain ⟨⟨j, x⟩, hq, rfl⟩ := List.mem_map.1 hb
      exact hf' j hq
    · have : GT.moveTo k b (p :: s) = p :: GT.moveTo k b s := by unfold GT.moveTo; simp [hk]
      rw [this, List.map_cons, List.nodup_cons]
      refine ⟨?_, ih hf' h1.2 h2.2⟩
      intro hb
      obtain ⟨⟨j, x⟩, hq, hx⟩ := List.mem_map.1 hb
      dsimp only at hx
      rcases mem_moveTo.1 hq with ⟨_, rfl, _⟩ | ⟨_, hq⟩
      · exact hf p.1 (by rw [hx]; exact List.mem_cons_self)
      · exact h2.1 (hx ▸ List.mem_map.2 ⟨_, hq, rfl⟩)

/-- the moves of a path of legal moves form a plan -/
theorem ptmLoop_plan {adj : α → α → Prop} {ok : ι → α → Prop} (l : List (Placement ι α)) : ∀ s, (s.map Prod.fst).Nodup →
    Consec (LegalMove adj ok) (s :: l) → ∃ t, (s :: l).getLast? = some t ∧ Plan adj ok s (ptmLoop s l) t ∧ (ptmLoop s l).length = l.length ∧
      placements s (ptmLoop s l) = s :: l := by
  induction l with
  | nil => intro s _ _; exact ⟨s, rfl, rfl, rfl, rfl⟩
  | cons s2 l ih =>
    intro s hnd hc
    obtain ⟨⟨k, a, b, h1, h2, h3, h4, rfl⟩, hc⟩ := hc
    obtain ⟨t, h5, h6, h7, h8⟩ := ih _ (by rw [moveTo_fst]; exact hnd) hc
    have hab : a ≠ b := fun h => h3 k (h ▸ h1)
    refine ⟨t, by rw [List.getLast?_cons_cons]; exact h5, ?_, ?_, ?_⟩
    · simp only [ptmLoop, stateChanges_move hnd h1 hab]
      exact ⟨h1, h2, h3, h4, h6⟩
    · simp only [ptmLoop, stateChanges_move hnd h1 hab]
      simp [h7]
    · simp only [ptmLoop, stateChanges_move hnd h1 hab]
      exact congrArg (s :: ·) h8

/-! ### proofs: `moves_to_synchronous_moves` -/

/-- what the inner loop does to a serial plan: it takes moves from the front until a load would move again -/
theorem syncScan_serial (l : List (ι × α × α)) : ∀ (s : Placement ι α) (cur : List (ι × α × α)) (occ : List α), Distinct s →
    (∀ x, x ∈ occ ↔ ∃ j, (j, x) ∈ s) → SerialPlan s l → (cur.map Prod.fst).Nodup →
    ∃ pre rest occ' s', syncScan l (cur, occ, l) = .ok (cur ++ pre, occ', rest) ∧ l = pre ++ rest ∧ Distinct s' ∧
      (∀ x, x ∈ occ' ↔ ∃ j, (j, x) ∈ s') ∧ SerialPlan s' rest ∧ ((cur ++ pre).map Prod.fst).Nodup ∧
      (∀ m rest', rest = m :: rest' → m.1 ∈ (cur ++ pre).map Prod.fst) := by
  induction l with
  | nil => intro s cur occ h1 h2 h3 h4; exact ⟨[], [], occ, s, by simp [syncScan], rfl, h1, h2, h3, by simpa using h4, by simp⟩
  | cons m l ih =>
    obtain ⟨k, a, b⟩ := m
    intro s cur occ h1 h2 h3 h4
    obtain ⟨t, h5, _, h6, _, h7⟩ := h3
    unfold syncScan
    by_cases hk : k ∈ cur.map Prod.fst
    · rw [if_pos hk]
      refine ⟨[], (k, a, b) :: l, occ, s, by simp, rfl, h1, h2, ⟨t, h5, trivial, h6, trivial, h7⟩, by simpa using h4, ?_⟩
      intro m rest' h; cases h; simpa using hk
    · rw [if_neg hk]
      have hb : b ∉ occ := fun h => by obtain ⟨j, hj⟩ := (h2 b).1 h; exact h6 j hj
      have ha : a ∈ occ := (h2 a).2 ⟨k, h5⟩
      rw [if_neg hb, if_neg (fun h => h ha), List.erase_cons_head]
      obtain ⟨pre, rest, occ', s', h8, h9, h10, h11, h12, h13, h14⟩ := ih (moveTo k b s) (cur ++ [(k, a, b)])
        (sadd (occ.filter (fun x => decide (x ≠ a))) b) (h1.moveTo h6) (by
          intro x
          rw [mem_sadd, List.mem_filter]
          constructor
          · rintro (rfl | ⟨hx, hxa⟩)
            · exact ⟨k, mem_moveTo.2 (.inl ⟨rfl, rfl, a, h5⟩)⟩
            · obtain ⟨j, hj⟩ := (h2 x).1 hx
              refine ⟨j, mem_moveTo.2 (.inr ⟨?_, hj⟩)⟩
              rintro rfl
              have hxa : x ≠ a := by simpa using hxa
              exact hxa (place_unique h1.1 hj h5)
          · rintro ⟨j, hj⟩
            rcases mem_moveTo.1 hj with ⟨_, h, _⟩ | ⟨hjk, hj⟩
            · exact .inl h
            · refine .inr ⟨(h2 x).2 ⟨j, hj⟩, ?_⟩
              simp only [ne_eq, decide_not, Bool.not_eq_eq_eq_not, Bool.not_true, decide_eq_false_iff_not]
              rintro rfl
              exact hjk (place_unique' h1.2 hj h5)) ⟨t, h7⟩ (by
          rw [List.map_append, List.nodup_append]
          refine ⟨h4, by simp, ?_⟩
          intro x hx y hy
          simp at hy; subst hy
          rintro rfl; exact hk hx)
      refine ⟨(k, a, b) :: pre, rest, occ', s', ?_, by rw [h9]; rfl, h10, h11, h12, ?_, ?_⟩
      · rw [h8]; simp
      · simpa using h13
      · simpa using h14

/-- consecutive steps: the first load of the next step moved in this step -/
def StartsOver (x y : List (ι × α × α)) : Prop := ∃ m rest, y = m :: rest ∧ m.1 ∈ x.map Prod.fst

theorem consec_append_single {R : List (ι × α × α) → List (ι × α × α) → Prop} {acc : List (List (ι × α × α))} {c : List (ι × α × α)} (h : Consec R acc)
    (h2 : ∀ x, acc.getLast? = some x → R x c) : Consec R (acc ++ [c]) := by
  induction acc with
  | nil => trivial
  | cons x acc ih =>
    cases acc with
    | nil => exact ⟨h2 x rfl, trivial⟩
    | cons y acc =>
      refine ⟨h.1, ih h.2 (fun z hz => h2 z (by rw [List.getLast?_cons_cons]; exact hz))⟩

theorem synchronousMoves_serial {s : Placement ι α} {moves : List (ι × α × α)} (hd : Distinct s) (hp : SerialPlan s moves) :
    ∃ r, synchronousMoves moves (s.map Prod.snd) = some (.ok r) ∧ r.flatten = moves ∧
      (∀ step ∈ r, step ≠ [] ∧ (step.map Prod.fst).Nodup) ∧ Consec StartsOver r := by
  suffices ∃ r, synchronousMoves moves (s.map Prod.snd) = some r ∧ ∃ r', r = .ok r' ∧ r'.flatten = moves ∧
      (∀ step ∈ r', step ≠ [] ∧ (step.map Prod.fst).Nodup) ∧ Consec StartsOver r' by
    obtain ⟨_, h1, r', rfl, h2⟩ := this
    exact ⟨r', h1, h2⟩
  unfold synchronousMoves
  refine pyWhile_total (fun st : List α × List (ι × α × α) × List (List (ι × α × α)) => ∃ s', Distinct s' ∧ (∀ x, x ∈ st.1 ↔ ∃ j, (j, x) ∈ s') ∧ SerialPlan s' st.2.1 ∧
      st.2.2.flatten ++ st.2.1 = moves ∧ (∀ step ∈ st.2.2, step ≠ [] ∧ (step.map Prod.fst).Nodup) ∧ Consec StartsOver st.2.2 ∧
      ∀ last m rest, st.2.2.getLast? = some last → st.2.1 = m :: rest → m.1 ∈ last.map Prod.fst)
    (fun r : Py (List (List (ι × α × α))) => ∃ r', r = .ok r' ∧ r'.flatten = moves ∧
      (∀ step ∈ r', step ≠ [] ∧ (step.map Prod.fst).Nodup) ∧ Consec StartsOver r')
    (fun st => st.2.1.length) ?_ ?_ ?_
  · rintro ⟨occ, mv, acc⟩ st' ⟨s', h1, h2, h3, h4, h5, h6, h7⟩ hstep
    unfold syncStep at hstep
    dsimp only at *
    split at hstep
    · cases hstep
    · rename_i hne
      obtain ⟨pre, rest, occ', s2, h8, h9, h10, h11, h12, h13, h14⟩ := syncScan_serial mv s' [] occ h1 h2 h3 (by simp)
      rw [h8] at hstep
      simp only [Sum.inl.injEq] at hstep
      subst hstep
      simp only [List.nil_append] at *
      have hpre : pre ≠ [] := by
        rintro rfl
        cases rest with
        | nil => exact hne h9
        | cons m rest => simpa using h14 m rest rfl
      refine ⟨⟨s2, h10, h11, h12, ?_, ?_, ?_, ?_⟩, ?_⟩
      · rw [List.flatten_append, ← h4, h9]; simp
      · intro step hs
        rcases List.mem_append.1 hs with hs | hs
        · exact h5 step hs
        · simp at hs; subst hs; exact ⟨hpre, h13⟩
      · refine consec_append_single h6 (fun x hx => ?_)
        cases pre with
        | nil => exact absurd rfl hpre
        | cons m pre => exact ⟨m, pre, rfl, h7 x m (pre ++ rest) hx (by rw [h9]; rfl)⟩
      · intro last m rest' hl hm
        simp at hl
        subst hl
        exact h14 m rest' hm
      · rw [h9, List.length_append]
        have := List.length_pos_iff.2 hpre
        omega
  · rintro ⟨occ, mv, acc⟩ r ⟨s', h1, h2, h3, h4, h5, h6, h7⟩ hstep
    unfold syncStep at hstep
    dsimp only at *
    split at hstep
    · rename_i hmv
      subst hmv
      cases hstep
      exact ⟨acc, rfl, by simpa using h4, h5, h6⟩
    · obtain ⟨pre, rest, occ', s2, h8, _⟩ := syncScan_serial mv s' [] occ h1 h2 h3 (by simp)
      rw [h8] at hstep
      cases hstep
  · refine ⟨s, hd, ?_, hp, by simp, by simp, trivial, by simp⟩
    intro x
    simp

/-! ### proofs: `moves_to_synchronous_moves` for arbitrary lists of moves -/

omit [DecidableEq ι] [DecidableEq α] in
theorem occRun_congr {l : List (ι × α × α)} : ∀ {o1 o2 o3 o4 : α → Prop}, (∀ x, o1 x ↔ o2 x) → (∀ x, o3 x ↔ o4 x) → OccRun o1 l o3 → OccRun o2 l o4 := by
  induction l with
  | nil => intro o1 o2 o3 o4 h1 h2 h x; rw [← h2, h x, h1]
  | cons m l ih =>
    intro o1 o2 o3 o4 h1 h2 h
    obtain ⟨a, b, c⟩ := h
    exact ⟨(h1 _).1 a, fun hb => b ((h1 _).2 hb), ih (fun x => by unfold occAfter; rw [h1]) h2 c⟩

omit [DecidableEq ι] [DecidableEq α] in
theorem OccRun.append {l l' : List (ι × α × α)} : ∀ {o1 o2 o3 : α → Prop}, OccRun o1 l o2 → OccRun o2 l' o3 → OccRun o1 (l ++ l') o3 := by
  induction l with
  | nil => intro o1 o2 o3 h h'; exact occRun_congr h (fun _ => Iff.rfl) h'
  | cons m l ih => intro o1 o2 o3 h h'; exact ⟨h.1, h.2.1, ih h.2.2 h'⟩

/-- what one scan over the moves does -/
def ScanPost (cur : List (ι × α × α)) (occ : List α) (moves l : List (ι × α × α)) : Py (List (ι × α × α) × List α × List (ι × α × α)) → Prop
  | .ok (cur', occ', moves') => ∃ made, cur' = cur ++ made ∧ OccRun (· ∈ occ) made (· ∈ occ') ∧ moves.Perm (made ++ moves') ∧ (cur'.map Prod.fst).Nodup ∧
      (made = [] → moves' = moves ∧ occ' = occ ∧ (cur = [] → ∀ m ∈ l, m.2.2 ∈ occ))
  | .error e => e = .keyError ∧ ∃ made m rest occ', moves.Perm (made ++ m :: rest) ∧ OccRun (· ∈ occ) made occ' ∧ ¬ occ' m.2.1 ∧ ¬ occ' m.2.2

theorem syncScan_any (l : List (ι × α × α)) : ∀ (cur sk : List (ι × α × α)) (occ : List α) (moves : List (ι × α × α)), moves.Perm (sk ++ l) →
    (cur.map Prod.fst).Nodup → ScanPost cur occ moves l (syncScan l (cur, occ, moves)) := by
  induction l with
  | nil =>
    intro cur sk occ moves _ hn
    exact ⟨[], by simp, fun _ => Iff.rfl, .refl _, hn, fun _ => ⟨rfl, rfl, fun _ m hm => nomatch hm⟩⟩
  | cons m l ih =>
    intro cur sk occ moves hp hn
    unfold syncScan
    split
    · rename_i hc
      refine ⟨[], by simp, fun _ => Iff.rfl, .refl _, hn, fun _ => ⟨rfl, rfl, fun h0 => ?_⟩⟩
      rw [h0] at hc; cases hc
    · rename_i hc
      split
      · rename_i ho
        have := ih cur (sk ++ [m]) occ moves (hp.trans (by simp)) hn
        cases hr : syncScan l (cur, occ, moves) with
        | error e => rw [hr] at this; exact this
        | ok r =>
          obtain ⟨cur', occ', moves'⟩ := r
          rw [hr] at this
          obtain ⟨made, h1, h2, h3, h4, h5⟩ := this
          refine ⟨made, h1, h2, h3, h4, fun h0 => ⟨(h5 h0).1, (h5 h0).2.1, fun hcur x hx => ?_⟩⟩
          rcases List.mem_cons.1 hx with rfl | hx
          · exact ho
          · exact (h5 h0).2.2 hcur x hx
      · rename_i ho
        split
        · rename_i h1
          exact ⟨rfl, [], m, sk ++ l, _, hp.trans List.perm_middle, fun _ => Iff.rfl, h1, ho⟩
        · rename_i h1
          have h1 : m.2.1 ∈ occ := Classical.not_not.1 h1
          have hmm : m ∈ moves := hp.mem_iff.2 (by simp)
          have hpe : (m :: moves.erase m).Perm moves := (List.perm_cons_erase hmm).symm
          have hocc : ∀ x, x ∈ sadd (occ.filter (fun x => decide (x ≠ m.2.1))) m.2.2 ↔ occAfter (· ∈ occ) m x := by
            intro x
            rw [mem_sadd, List.mem_filter]
            unfold occAfter
            simp
          have := ih (cur ++ [m]) sk (sadd (occ.filter (fun x => decide (x ≠ m.2.1))) m.2.2) (moves.erase m)
            ((List.perm_cons m).1 (hpe.trans (hp.trans List.perm_middle))) (by
              rw [List.map_append, List.nodup_append]
              refine ⟨hn, by simp, ?_⟩
              intro a ha b hb hab
              simp at hb; subst hb; subst hab; exact hc ha)
          cases hr : syncScan l (cur ++ [m], sadd (occ.filter (fun x => decide (x ≠ m.2.1))) m.2.2, moves.erase m) with
          | error e =>
            rw [hr] at this
            obtain ⟨he, made, m', rest, occ', a1, a2, a3, a4⟩ := this
            refine ⟨he, m :: made, m', rest, occ', ?_, ⟨h1, ho, occRun_congr hocc (fun _ => Iff.rfl) a2⟩, a3, a4⟩
            exact hpe.symm.trans ((List.perm_cons m).2 a1)
          | ok r =>
            obtain ⟨cur', occ', moves'⟩ := r
            rw [hr] at this
            obtain ⟨made, a1, a2, a3, a4, a5⟩ := this
            refine ⟨m :: made, by rw [a1]; simp, ⟨h1, ho, occRun_congr hocc (fun _ => Iff.rfl) a2⟩, ?_, a4, fun h0 => nomatch h0⟩
            exact hpe.symm.trans ((List.perm_cons m).2 a3)

/-- what the loop does with arbitrary moves -/
def SyncPost (occ : List α) (moves : List (ι × α × α)) (acc : List (List (ι × α × α))) : Option (Py (List (List (ι × α × α)))) → Prop
  | some (.ok steps) => ∃ new, steps = acc ++ new ∧ new.flatten.Perm moves ∧ (∀ step ∈ new, step ≠ [] ∧ (step.map Prod.fst).Nodup) ∧
      ∃ occ', OccRun (· ∈ occ) new.flatten occ'
  | some (.error e) => e = .keyError ∧ ∃ made m rest occ', moves.Perm (made ++ m :: rest) ∧ OccRun (· ∈ occ) made occ' ∧ ¬ occ' m.2.1 ∧ ¬ occ' m.2.2
  | none => ∃ made rest occ', moves.Perm (made ++ rest) ∧ rest ≠ [] ∧ OccRun (· ∈ occ) made occ' ∧ ∀ m ∈ rest, occ' m.2.2

theorem sync_any (n : Nat) : ∀ (occ : List α) (moves : List (ι × α × α)) (acc : List (List (ι × α × α))), moves.length ≤ n →
    SyncPost occ moves acc (pyWhile syncStep (occ, moves, acc)) := by
  induction n with
  | zero =>
    intro occ moves acc hn
    have : moves = [] := List.length_eq_zero_iff.1 (by omega)
    subst this
    rw [pyWhile_inr (show syncStep (occ, ([] : List (ι × α × α)), acc) = .inr (.ok acc) from rfl)]
    exact ⟨[], by simp, .refl _, (fun _ h => nomatch h), _, fun _ => Iff.rfl⟩
  | succ n ih =>
    intro occ moves acc hn
    by_cases h0 : moves = []
    · exact ih occ moves acc (by simp [h0])
    have hscan := syncScan_any moves [] [] occ moves (.refl _) (by simp)
    cases hr : syncScan moves ([], occ, moves) with
    | error e =>
      rw [hr] at hscan
      rw [pyWhile_inr (show syncStep (occ, moves, acc) = .inr (.error e) by unfold syncStep; dsimp only; rw [if_neg h0, hr])]
      exact hscan
    | ok r =>
      obtain ⟨cur, occ', moves'⟩ := r
      rw [hr] at hscan
      obtain ⟨made, h1, h2, h3, h4, h5⟩ := hscan
      rw [List.nil_append] at h1
      subst h1
      have hstep : ∀ acc, syncStep (occ, moves, acc) = .inl (occ', moves', acc ++ [cur]) := by
        intro acc; unfold syncStep; dsimp only; rw [if_neg h0, hr]
      by_cases hmade : cur = []
      · obtain ⟨e1, e2, e3⟩ := h5 hmade
        subst hmade
        rw [pyWhile_diverges (fun s => s.1 = occ ∧ s.2.1 = moves) (fun s hs => by
          obtain ⟨o, mv, a⟩ := s
          obtain ⟨rfl, rfl⟩ := hs
          exact ⟨_, hstep a, e2, e1⟩) ⟨rfl, rfl⟩]
        exact ⟨[], moves, _, .refl _, h0, fun _ => Iff.rfl, fun m hm => e3 rfl m hm⟩
      · have hlen := h3.length_eq
        rw [List.length_append] at hlen
        have hpos := List.length_pos_iff.2 hmade
        have := ih occ' moves' (acc ++ [cur]) (by omega)
        rw [pyWhile_inl (hstep acc)]
        cases hw : pyWhile syncStep (occ', moves', acc ++ [cur]) with
        | none =>
          rw [hw] at this
          obtain ⟨made, rest, o, a1, a2, a3, a4⟩ := this
          exact ⟨cur ++ made, rest, o, h3.trans (by rw [List.append_assoc]; exact a1.append_left _), a2, h2.append a3, a4⟩
        | some r =>
          rw [hw] at this
          cases r with
          | error e =>
            obtain ⟨he, made, m, rest, o, a1, a2, a3, a4⟩ := this
            exact ⟨he, cur ++ made, m, rest, o, h3.trans (by rw [List.append_assoc]; exact a1.append_left _), h2.append a2, a3, a4⟩
          | ok steps =>
            obtain ⟨new, a1, a2, a3, o, a4⟩ := this
            refine ⟨cur :: new, by rw [a1]; simp, ?_, ?_, o, ?_⟩
            · rw [List.flatten_cons]; exact ((a2.append_left _).trans h3.symm)
            · intro step hs
              rcases List.mem_cons.1 hs with rfl | hs
              · exact ⟨hmade, h4⟩
              · exact a3 step hs
            · rw [List.flatten_cons]; exact h2.append a4

end GT

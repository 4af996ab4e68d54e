import Verif.Sp.DijkstraAny
import Verif.Search.NoneEnds
import Verif.Graph.MapV
/-
Edge values that are no numbers.  `add_edge(1, 2, None)` and `add_edge(1, 2, 'x')` are accepted; `none` is such a value.
-/
namespace GT
variable {α V O : Type} [DecidableEq α]
open Graph

/-- `has_path(graph, path)` (base.py:436-452) where a value may be `None`: `graph.edge(v1, v2) is None` cannot tell the value `None` from no edge -/
def Graph.hasPathV (g : Graph α (Option V) O) : List α → Py Bool
  | [] => .error .indexError
  | v1 :: path => .ok (go v1 path)
where
  go (v1 : α) : List α → Bool
    | [] => true
    | v2 :: path => match (g.edge v1 v2).join with
      | none => false
      | some _ => go v2 path

/-- the loop over the outgoing edges (shortest_path.py:49-57): `cost + dist` raises `TypeError` for a value that is no number, but only if `v2` has not been visited -/
def dijRelaxV (cost : Rat) (path : List α) (visited : List α) :
    List (α × Option Rat) → List (Ent α) × Dict α Rat × Nat → Py (List (Ent α) × Dict α Rat × Nat)
  | [], s => .ok s
  | (v2, dist) :: l, (q, mins, i) =>
    if v2 ∈ visited then dijRelaxV cost path visited l (q, mins, i)
    else match dist with
      | none => .error .typeError
      | some dist => match mins.get? v2 with
        | none => dijRelaxV cost path visited l (⟨cost + dist, i, v2, path⟩ :: q, mins.set v2 (cost + dist), i + 1)
        | some prev =>
          if cost + dist < prev then
            dijRelaxV cost path visited l (⟨cost + dist, i, v2, path⟩ :: q, mins.set v2 (cost + dist), i + 1)
          else dijRelaxV cost path visited l (q, mins, i)

/-- one iteration of `while q` (shortest_path.py:35-57) where values may be no numbers -/
def dijStepV (nbr : α → List (α × Option Rat)) (fin : α) (s : DijSt α) : DijSt α ⊕ Py (Ext × List α) :=
  match popMin s.q with
  | none => .inr (.ok (.inf, []))
  | some (e, q) =>
    if e.node ∈ s.visited then .inl { s with q := q }
    else
      let visited := sadd s.visited e.node
      let path := e.node :: e.path
      if e.node = fin then .inr (.ok (.fin e.cost, path.reverse))
      else match dijRelaxV e.cost path visited (nbr e.node) (q, s.mins, s.i) with
        | .error er => .inr (.error er)
        | .ok (q, mins, i) => .inl ⟨q, mins, visited, i⟩

/-- `shortest_path(graph, start, end, avoids)` (shortest_path.py:11-58) where values may be no numbers -/
def Graph.shortestPathV (g : Graph α (Option Rat) O) (start fin : α) (avoids : List α := []) : Option (Py (Ext × List α)) :=
  if !g.has start then some (.error .valueError)
  else if !g.has fin then some (.error .valueError)
  else pyWhile (dijStepV g.outNbr fin) ⟨[⟨0, 0, start, []⟩], Dict.empty.set start 0, avoids, 1⟩

/-! ### proofs -/

/-- the neighbours along edges whose value is a number -/
def numNbr (l : List (α × Option Rat)) : List (α × Rat) := l.filterMap (fun p => p.2.map (fun d => (p.1, d)))

omit [DecidableEq α] in
theorem mem_numNbr {l : List (α × Option Rat)} {y : α} {d : Rat} : (y, d) ∈ numNbr l ↔ (y, some d) ∈ l := by
  unfold numNbr
  rw [List.mem_filterMap]
  constructor
  · rintro ⟨⟨y', d'⟩, h1, h2⟩
    cases d' with
    | none => cases h2
    | some d' => cases h2; exact h1
  · exact fun h => ⟨_, h, rfl⟩

theorem dijRelaxV_spec (cost : Rat) (path visited : List α) (l : List (α × Option Rat)) : ∀ s,
    match dijRelaxV cost path visited l s with
    | .ok s' => dijRelax cost path visited (numNbr l) s = s'
    | .error er => er = .typeError ∧ ∃ y, (y, none) ∈ l ∧ y ∉ visited := by
  induction l with
  | nil => intro s; rfl
  | cons x l ih =>
    rintro ⟨q, mins, i⟩
    obtain ⟨v2, dist⟩ := x
    have fwd : ∀ s s2, dijRelax cost path visited (numNbr ((v2, dist) :: l)) s = dijRelax cost path visited (numNbr l) s2 →
        match dijRelaxV cost path visited l s2 with
        | .ok s' => dijRelax cost path visited (numNbr ((v2, dist) :: l)) s = s'
        | .error er => er = .typeError ∧ ∃ y, (y, none) ∈ (v2, dist) :: l ∧ y ∉ visited := by
      intro s s2 hs
      have := ih s2
      cases hr : dijRelaxV cost path visited l s2 with
      | error er =>
        rw [hr] at this
        obtain ⟨h1, y, h2, h3⟩ := this
        exact ⟨h1, y, List.mem_cons_of_mem _ h2, h3⟩
      | ok s' =>
        rw [hr] at this
        exact hs.trans this
    unfold dijRelaxV
    by_cases hv : v2 ∈ visited
    · rw [if_pos hv]
      refine fwd _ _ ?_
      cases dist with
      | none => rfl
      | some d =>
        show dijRelax cost path visited ((v2, d) :: numNbr l) _ = _
        rw [dijRelax, if_pos hv]
    · rw [if_neg hv]
      cases dist with
      | none => exact ⟨rfl, v2, List.mem_cons_self .., hv⟩
      | some d =>
        dsimp only
        cases hm : mins.get? v2 with
        | none =>
          refine fwd _ _ ?_
          show dijRelax cost path visited ((v2, d) :: numNbr l) _ = _
          rw [dijRelax, if_neg hv, hm]
        | some prev =>
          dsimp only
          by_cases hlt : cost + d < prev
          · rw [if_pos hlt]
            refine fwd _ _ ?_
            show dijRelax cost path visited ((v2, d) :: numNbr l) _ = _
            rw [dijRelax, if_neg hv, hm]
            dsimp only
            rw [if_pos hlt]
          · rw [if_neg hlt]
            refine fwd _ _ ?_
            show dijRelax cost path visited ((v2, d) :: numNbr l) _ = _
            rw [dijRelax, if_neg hv, hm]
            dsimp only
            rw [if_neg hlt]

/-- a step that does not raise is the step over the numbers -/
theorem dijStepV_spec (nbr : α → List (α × Option Rat)) (fin : α) (s : DijSt α) :
    match dijStepV nbr fin s with
    | .inl s' => dijStep (fun x => numNbr (nbr x)) fin s = .inl s'
    | .inr (.ok r) => dijStep (fun x => numNbr (nbr x)) fin s = .inr r
    | .inr (.error er) => er = .typeError ∧ ∃ e ∈ s.q, e.node ∉ s.visited ∧ e.node ≠ fin ∧ ∃ y, (y, none) ∈ nbr e.node ∧ y ∉ sadd s.visited e.node := by
  unfold dijStepV dijStep
  cases hp : popMin s.q with
  | none => rfl
  | some x =>
    obtain ⟨e, q⟩ := x
    dsimp only
    by_cases hv : e.node ∈ s.visited
    · rw [if_pos hv, if_pos hv]
    · rw [if_neg hv, if_neg hv]
      by_cases hf : e.node = fin
      · rw [if_pos hf, if_pos hf]
      · rw [if_neg hf, if_neg hf]
        have h := dijRelaxV_spec e.cost (e.node :: e.path) (sadd s.visited e.node) (nbr e.node) (q, s.mins, s.i)
        cases hr : dijRelaxV e.cost (e.node :: e.path) (sadd s.visited e.node) (nbr e.node) (q, s.mins, s.i) with
        | ok r =>
          rw [hr] at h
          dsimp only at h ⊢
          rw [h]
        | error er =>
          rw [hr] at h
          exact ⟨h.1, e, (popMin_some hp).1.mem_iff.2 (List.mem_cons_self ..), hv, hf, h.2⟩

/-- a search that returns is the search over the edges whose values are numbers -/
theorem dijV_ok {nbr : α → List (α × Option Rat)} {fin : α} {s : DijSt α} {r : Ext × List α} (h : pyWhile (dijStepV nbr fin) s = some (.ok r)) :
    pyWhile (dijStep (fun x => numNbr (nbr x)) fin) s = some r := by
  have := pyWhile.partial_correctness (dijStepV nbr fin) (fun s r' => ∀ r, r' = .ok r → pyWhile (dijStep (fun x => numNbr (nbr x)) fin) s = some r) ?_ s _ h r rfl
  · exact this
  · intro F ih s r' hr r hrr
    subst hrr
    have h1 := dijStepV_spec nbr fin s
    split at hr
    · rename_i s' hs'
      rw [hs'] at h1
      rw [pyWhile_inl h1]
      exact ih _ _ hr r rfl
    · rename_i r1 hs'
      cases hr
      rw [hs'] at h1
      exact pyWhile_inr h1

/-- one numeric edge, from a node that is neither avoided nor the end -/
def NumStep (nbr : α → List (α × Option Rat)) (av : List α) (fin : α) (a b : α) : Prop := a ∉ av ∧ a ≠ fin ∧ ∃ d, (b, some d) ∈ nbr a

theorem dijV_error {nbr : α → List (α × Option Rat)} {fin start : α} {av : List α} {er : Err}
    (h : pyWhile (dijStepV nbr fin) ⟨[⟨0, 0, start, []⟩], Dict.empty.set start 0, av, 1⟩ = some (.error er)) :
    er = .typeError ∧ ∃ x y, Reach (NumStep nbr av fin) start x ∧ x ∉ av ∧ x ≠ fin ∧ (y, none) ∈ nbr x ∧ y ∉ av ∧ y ≠ x := by
  have := pyWhile_inv (step := dijStepV nbr fin) (fun s => (∀ x ∈ av, x ∈ s.visited) ∧ ∀ e ∈ s.q, Reach (NumStep nbr av fin) start e.node)
    (fun r => ∀ er, r = .error er → er = .typeError ∧ ∃ x y, Reach (NumStep nbr av fin) start x ∧ x ∉ av ∧ x ≠ fin ∧ (y, none) ∈ nbr x ∧ y ∉ av ∧ y ≠ x)
    ?_ ?_ ⟨fun x hx => hx, fun e he => ?_⟩ h er rfl
  · exact this
  · rintro s s' ⟨hI, hq⟩ hst
    have h1 := dijStepV_spec nbr fin s
    rw [hst] at h1
    dsimp only at h1
    unfold dijStep at h1
    cases hp : popMin s.q with
    | none => rw [hp] at h1; cases h1
    | some x =>
      obtain ⟨e, q⟩ := x
      rw [hp] at h1
      dsimp only at h1
      have hm := (popMin_some hp).1
      split at h1
      · cases h1
        exact ⟨hI, fun e' he' => hq e' (hm.mem_iff.2 (List.mem_cons_of_mem _ he'))⟩
      · rename_i hv
        split at h1
        · cases h1
        · rename_i hf
          generalize hrr : dijRelax e.cost (e.node :: e.path) (sadd s.visited e.node) (numNbr (nbr e.node)) (q, s.mins, s.i) = rr at h1
          obtain ⟨q', mins', i'⟩ := rr
          cases h1
          obtain ⟨_, h2, _⟩ := dijRelax_spec _ _ _ _ _ _ _ hrr
          refine ⟨fun x hx => mem_sadd.2 (.inr (hI x hx)), fun e' he' => ?_⟩
          rcases h2 e' he' with h3 | ⟨_, _, d, h3, _⟩
          · exact hq e' (hm.mem_iff.2 (List.mem_cons_of_mem _ h3))
          · exact reach_step (hq e (hm.mem_iff.2 (List.mem_cons_self ..))) ⟨fun ha => hv (hI _ ha), hf, d, mem_numNbr.1 h3⟩
  · rintro s r ⟨hI, hq⟩ hst er her
    subst her
    have h1 := dijStepV_spec nbr fin s
    rw [hst] at h1
    obtain ⟨h2, e, h3, h4, h5, y, h6, h7⟩ := h1
    rw [mem_sadd, not_or] at h7
    exact ⟨h2, e.node, y, hq e h3, fun ha => h4 (hI _ ha), h5, h6, fun ha => h7.2 (hI _ ha), h7.1⟩
  · simp at he; subst he; exact ⟨0, .zero _⟩

theorem dijV_ends {nbr : α → List (α × Option Rat)} {U : List α} (hU : ∀ x y c, (y, c) ∈ nbr x → y ∈ U) (fin : α) {start : α} (hs : start ∈ U) (av : List α) :
    ∃ r, pyWhile (dijStepV nbr fin) ⟨[⟨0, 0, start, []⟩], Dict.empty.set start 0, av, 1⟩ = some r := by
  suffices h : ∃ r, pyWhile (dijStepV nbr fin) ⟨[⟨0, 0, start, []⟩], Dict.empty.set start 0, av, 1⟩ = some r ∧ True from h.imp (fun _ h => h.1)
  refine pyWhile_totalW (step := dijStepV nbr fin) (fun s => ∀ e ∈ s.q, e.node ∈ U) (fun _ => True)
    lexNat lexNat_wf (fun s => (unvis U s.visited, s.q.length)) ?_ (fun _ _ _ _ => trivial) (by simp [hs])
  intro s s' hq hst
  have h1 := dijStepV_spec nbr fin s
  rw [hst] at h1
  exact dij_measure (nbr := fun x => numNbr (nbr x)) (fun x y c hm => hU x y _ (mem_numNbr.1 hm)) hq h1

/-- a relaxation that does not raise had no value to add for the nodes not yet visited -/
theorem dijRelaxV_none {cost : Rat} {path visited : List α} (l : List (α × Option Rat)) : ∀ {s s'}, dijRelaxV cost path visited l s = .ok s' →
    ∀ y, (y, none) ∈ l → y ∈ visited := by
  induction l with
  | nil => intro s s' _ y hy; cases hy
  | cons x l ih =>
    rintro ⟨q, mins, i⟩ s' h y hy
    obtain ⟨v2, dist⟩ := x
    unfold dijRelaxV at h
    by_cases hv : v2 ∈ visited
    · rw [if_pos hv] at h
      rcases List.mem_cons.1 hy with hy | hy
      · cases hy; exact hv
      · exact ih h y hy
    · rw [if_neg hv] at h
      cases dist with
      | none => cases h
      | some d =>
        have hy : (y, none) ∈ l := by
          rcases List.mem_cons.1 hy with hy | hy
          · cases hy
          · exact hy
        dsimp only at h
        split at h
        · exact ih h y hy
        · split at h
          · exact ih h y hy
          · exact ih h y hy

/-- a search that finds nothing has been along all edges, whatever their values -/
theorem dijV_inf {nbr : α → List (α × Option Rat)} {fin start : α} {av : List α} {d : Ext}
    (h : pyWhile (dijStepV nbr fin) ⟨[⟨0, 0, start, []⟩], Dict.empty.set start 0, av, 1⟩ = some (.ok (d, []))) (hs : start ∉ av) (hf : fin ∉ av) :
    ¬ Reach (fun a b => b ∉ av ∧ ∃ c, (b, c) ∈ nbr a) start fin := by
  let I : DijSt α → Prop := fun s => (∀ x ∈ av, x ∈ s.visited) ∧ (start ∈ s.visited ∨ ∃ e ∈ s.q, e.node = start) ∧ fin ∉ s.visited ∧
    (∀ x ∈ s.visited, x ∉ av → ∀ y c, (y, c) ∈ nbr x → y ∈ s.visited ∨ ∃ e ∈ s.q, e.node = y) ∧
    (∀ y m, s.mins.get? y = some m → y ∈ s.visited ∨ ∃ e ∈ s.q, e.node = y)
  refine pyWhile_inv (step := dijStepV nbr fin) I (fun r => ∀ d, r = .ok (d, []) → ¬ Reach (fun a b => b ∉ av ∧ ∃ c, (b, c) ∈ nbr a) start fin)
    ?_ ?_ ⟨fun x hx => hx, .inr ⟨_, List.mem_singleton.2 rfl, rfl⟩, hf, fun x hx hxa => absurd hx hxa, fun y m hm => ?_⟩ h d rfl
  · rintro s s' ⟨h1, h2, h3, h4, h5⟩ hst
    unfold dijStepV at hst
    cases hp : popMin s.q with
    | none => rw [hp] at hst; cases hst
    | some x =>
      obtain ⟨e, q⟩ := x
      rw [hp] at hst
      dsimp only at hst
      have hm := (popMin_some hp).1
      have drop : ∀ (y : α) (vis : List α) (q' : List (Ent α)), (∀ x ∈ s.visited, x ∈ vis) → e.node ∈ vis → (∀ x ∈ q, x ∈ q') →
          (y ∈ s.visited ∨ ∃ e' ∈ s.q, e'.node = y) → y ∈ vis ∨ ∃ e' ∈ q', e'.node = y := by
        intro y vis q' hvis hev hqq h
        rcases h with h | ⟨e', h1, h2⟩
        · exact .inl (hvis y h)
        · rcases List.mem_cons.1 (hm.mem_iff.1 h1) with rfl | h1
          · subst h2; exact .inl hev
          · exact .inr ⟨e', hqq _ h1, h2⟩
      split at hst
      · rename_i hv
        cases hst
        exact ⟨h1, drop _ _ _ (fun _ h => h) hv (fun _ h => h) h2, h3, fun x hx hxa y c hy => drop _ _ _ (fun _ h => h) hv (fun _ h => h) (h4 x hx hxa y c hy),
          fun y m hm => drop _ _ _ (fun _ h => h) hv (fun _ h => h) (h5 y m hm)⟩
      · rename_i hv
        split at hst
        · cases hst
        · rename_i hfin
          have hspec := dijRelaxV_spec e.cost (e.node :: e.path) (sadd s.visited e.node) (nbr e.node) (q, s.mins, s.i)
          cases hr : dijRelaxV e.cost (e.node :: e.path) (sadd s.visited e.node) (nbr e.node) (q, s.mins, s.i) with
          | error er => rw [hr] at hst; cases hst
          | ok r =>
            obtain ⟨q', mins', i'⟩ := r
            rw [hr] at hst hspec
            cases hst
            obtain ⟨k1, k2, k3, k4, k5⟩ := dijRelax_spec _ _ _ _ _ _ _ hspec
            have hsub : ∀ x ∈ s.visited, x ∈ sadd s.visited e.node := fun x hx => mem_sadd.2 (.inr hx)
            have hev : e.node ∈ sadd s.visited e.node := mem_sadd.2 (.inl rfl)
            have hmins : ∀ y m, mins'.get? y = some m → y ∈ sadd s.visited e.node ∨ ∃ e' ∈ q', e'.node = y := by
              intro y m hm
              rcases k3 y m hm with h6 | ⟨e', h6, h7, _⟩
              · exact drop _ _ _ hsub hev k1 (h5 y m h6)
              · exact .inr ⟨e', h6, h7⟩
            refine ⟨fun x hx => hsub x (h1 x hx), drop _ _ _ hsub hev k1 h2, fun hin => ?_, fun x hx hxa y c hy => ?_, hmins⟩
            · rcases mem_sadd.1 hin with h6 | h6
              · exact hfin h6.symm
              · exact h3 h6
            · rcases mem_sadd.1 hx with rfl | hx
              · cases c with
                | none => exact .inl (dijRelaxV_none _ hr y hy)
                | some c =>
                  by_cases hyv : y ∈ sadd s.visited e.node
                  · exact .inl hyv
                  · obtain ⟨m, hm, _⟩ := k5 y c (mem_numNbr.2 hy) hyv
                    exact hmins y m hm
              · exact drop _ _ _ hsub hev k1 (h4 x hx hxa y c hy)
  · rintro s r ⟨h1, h2, h3, h4, h5⟩ hst d hd
    subst hd
    unfold dijStepV at hst
    cases hp : popMin s.q with
    | none =>
      rw [popMin_none] at hp
      intro hr
      have hsv : start ∈ s.visited := by
        rcases h2 with h | ⟨e, h, _⟩
        · exact h
        · rw [hp] at h; cases h
      have key : ∀ n x, Steps (fun a b => b ∉ av ∧ ∃ c, (b, c) ∈ nbr a) n start x → x ∈ s.visited ∧ x ∉ av := by
        intro n
        induction n with
        | zero => intro x h; cases h; exact ⟨hsv, hs⟩
        | succ n ih =>
          intro x h
          cases h with
          | succ h6 h7 =>
            obtain ⟨i1, i2⟩ := ih _ h6
            obtain ⟨j1, c, j2⟩ := h7
            rcases h4 _ i1 i2 _ _ j2 with h8 | ⟨e, h8, _⟩
            · exact ⟨h8, j1⟩
            · rw [hp] at h8; cases h8
      obtain ⟨n, hn⟩ := hr
      exact h3 (key n fin hn).1
    | some x =>
      obtain ⟨e, q⟩ := x
      rw [hp] at hst
      dsimp only at hst
      split at hst
      · cases hst
      · split at hst
        · simp at hst
        · split at hst
          · cases hst
          · cases hst
  · rw [Dict.get?_set] at hm
    by_cases hy : y = start
    · exact .inr ⟨_, List.mem_singleton.2 rfl, hy.symm⟩
    · rw [if_neg (Ne.symm hy)] at hm; cases hm

theorem hasPathV_spec (g : Graph α (Option V) O) (p : List α) :
    (p ≠ [] → ∃ r, g.hasPathV p = .ok r ∧ (r = true ↔ Consec (fun a b => ∃ v, g.edge a b = some (some v)) p)) ∧ g.hasPathV [] = .error .indexError := by
  refine ⟨fun hp => ?_, rfl⟩
  cases p with
  | nil => exact absurd rfl hp
  | cons a p =>
    refine ⟨_, rfl, ?_⟩
    clear hp
    induction p generalizing a with
    | nil => simp [hasPathV.go, Consec]
    | cons b p ih =>
      unfold hasPathV.go
      cases he : g.edge a b with
      | none => simp [Consec, he]
      | some v =>
        cases v with
        | none => simp [Consec, he]
        | some v => simp only [Option.join_some]; rw [ih]; simp [Consec, he]

end GT

import Verif.Sp.Loop
import Verif.Spec.Round
/-
Model of `shortest_path` (graph/shortest_path.py:11-58) in rounded arithmetic: `cost + dist` is `fl (cost + dist)`.
With `fl = id` it is the model of Sp/Dijkstra.lean (`shortestPath_eq_fl`).
-/
namespace GT
variable {α V O : Type} [DecidableEq α]
open Graph

/-- the loop over the outgoing edges (shortest_path.py:49-57) -/
def dijRelaxFl (fl : Rat → Rat) (cost : Rat) (path : List α) (visited : List α) :
    List (α × Rat) → List (Ent α) × Dict α Rat × Nat → List (Ent α) × Dict α Rat × Nat
  | [], s => s
  | (v2, dist) :: l, (q, mins, i) =>
    if v2 ∈ visited then dijRelaxFl fl cost path visited l (q, mins, i)
    else match mins.get? v2 with
      | none => dijRelaxFl fl cost path visited l (⟨fl (cost + dist), i, v2, path⟩ :: q, mins.set v2 (fl (cost + dist)), i + 1)
      | some prev =>
        if fl (cost + dist) < prev then
          dijRelaxFl fl cost path visited l (⟨fl (cost + dist), i, v2, path⟩ :: q, mins.set v2 (fl (cost + dist)), i + 1)
        else dijRelaxFl fl cost path visited l (q, mins, i)

/-- one iteration of `while q` (shortest_path.py:35-57).  `nbr v` lists `(node, value)` of the edges
leaving `v`. -/
def dijStepFl (fl : Rat → Rat) (nbr : α → List (α × Rat)) (fin : α) (s : DijSt α) : DijSt α ⊕ (Ext × List α) :=
  match popMin s.q with
  | none => .inr (.inf, [])
  | some (e, q) =>
    if e.node ∈ s.visited then .inl { s with q := q }
    else
      let visited := sadd s.visited e.node
      let path := e.node :: e.path
      if e.node = fin then .inr (.fin e.cost, path.reverse)
      else
        let (q, mins, i) := dijRelaxFl fl e.cost path visited (nbr e.node) (q, s.mins, s.i)
        .inl ⟨q, mins, visited, i⟩

/-- `shortest_path(graph, start, end, avoids)` (shortest_path.py:11-58).  `avoids=None` is the empty list.
Simplifications: the type checks of `graph` and `avoids` hold by typing;
sums are rounded rationals, `float('inf')` appears as the answer for "no path" only (no overflow). -/
def Graph.shortestPathFl (fl : Rat → Rat) (g : Graph α Rat O) (start fin : α) (avoids : List α := []) :
    Option (Py (Ext × List α)) :=
  if !g.has start then some (.error .valueError)
  else if !g.has fin then some (.error .valueError)
  else match pyWhile (dijStepFl fl g.outNbr fin) ⟨[⟨0, 0, start, []⟩], Dict.empty.set start 0, avoids, 1⟩ with
    | none => none
    | some r => some (.ok r)

/-! ### proofs -/

/-- what the relaxation of the edges of the node just settled does -/
theorem dijRelaxFl_spec {fl : Rat → Rat} {cost : Rat} {path : List α} {visited : List α} (l : List (α × Rat)) :
    ∀ (q : List (Ent α)) (mins : Dict α Rat) (i : Nat) q' mins' i',
    dijRelaxFl fl cost path visited l (q, mins, i) = (q', mins', i') →
    (∀ e ∈ q, e ∈ q') ∧
    (∀ e ∈ q', e ∈ q ∨ (e.path = path ∧ e.node ∉ visited ∧ ∃ d, (e.node, d) ∈ l ∧ e.cost = fl (cost + d))) ∧
    (∀ y m, mins'.get? y = some m → mins.get? y = some m ∨ ∃ e ∈ q', e.node = y ∧ e.cost ≤ m) ∧
    (∀ y m, mins.get? y = some m → ∃ m', mins'.get? y = some m' ∧ m' ≤ m) ∧
    (∀ y d, (y, d) ∈ l → y ∉ visited → ∃ m, mins'.get? y = some m ∧ m ≤ fl (cost + d)) := by
  induction l with
  | nil =>
    intro q mins i q' mins' i' h
    simp only [dijRelaxFl, Prod.mk.injEq] at h
    obtain ⟨rfl, rfl, rfl⟩ := h
    exact ⟨fun _ h => h, fun _ h => .inl h, fun _ _ h => .inl h, fun y m h => ⟨m, h, Rat.le_refl⟩, by simp⟩
  | cons a l ih =>
    obtain ⟨v2, dist⟩ := a
    intro q mins i q' mins' i' h
    simp only [dijRelaxFl] at h
    have push : (∀ m, mins.get? v2 = some m → fl (cost + dist) ≤ m) → v2 ∉ visited →
        dijRelaxFl fl cost path visited l (⟨fl (cost + dist), i, v2, path⟩ :: q, mins.set v2 (fl (cost + dist)), i + 1) = (q', mins', i') →
        (∀ e ∈ q, e ∈ q') ∧
        (∀ e ∈ q', e ∈ q ∨ (e.path = path ∧ e.node ∉ visited ∧ ∃ d, (e.node, d) ∈ (v2, dist) :: l ∧ e.cost = fl (cost + d))) ∧
        (∀ y m, mins'.get? y = some m → mins.get? y = some m ∨ ∃ e ∈ q', e.node = y ∧ e.cost ≤ m) ∧
        (∀ y m, mins.get? y = some m → ∃ m', mins'.get? y = some m' ∧ m' ≤ m) ∧
        (∀ y d, (y, d) ∈ (v2, dist) :: l → y ∉ visited → ∃ m, mins'.get? y = some m ∧ m ≤ fl (cost + d)) := by
      intro hle hv h
      obtain ⟨h1, h2, h3, h4, h5⟩ := ih _ _ _ _ _ _ h
      have hnew := h1 _ (List.mem_cons_self ..)
      refine ⟨fun e he => h1 e (List.mem_cons_of_mem _ he), fun e he => ?_, fun y m hm => ?_, fun y m hm => ?_, fun y d hy hyv => ?_⟩
      · rcases h2 e he with h6 | ⟨h6, h7, d, h8, h9⟩
        · rcases List.mem_cons.1 h6 with rfl | h6
          · exact .inr ⟨rfl, hv, dist, by simp, rfl⟩
          · exact .inl h6
        · exact .inr ⟨h6, h7, d, List.mem_cons_of_mem _ h8, h9⟩
      · rcases h3 y m hm with h6 | h6
        · rw [Dict.get?_set] at h6
          split at h6
          · rename_i hy
            cases h6
            exact .inr ⟨_, hnew, hy, Rat.le_refl⟩
          · exact .inl h6
        · exact .inr h6
      · by_cases hy : v2 = y
        · subst hy
          obtain ⟨m', h6, h7⟩ := h4 v2 (fl (cost + dist)) (by simp)
          exact ⟨m', h6, by have := hle m hm; grind⟩
        · exact h4 y m (by rw [Dict.get?_set_ne _ _ hy]; exact hm)
      · rcases List.mem_cons.1 hy with h6 | h6
        · cases h6; exact h4 v2 (fl (cost + dist)) (by simp)
        · exact h5 y d h6 hyv
    have skip : (v2 ∉ visited → ∃ m, mins.get? v2 = some m ∧ m ≤ fl (cost + dist)) →
        dijRelaxFl fl cost path visited l (q, mins, i) = (q', mins', i') →
        (∀ e ∈ q, e ∈ q') ∧
        (∀ e ∈ q', e ∈ q ∨ (e.path = path ∧ e.node ∉ visited ∧ ∃ d, (e.node, d) ∈ (v2, dist) :: l ∧ e.cost = fl (cost + d))) ∧
        (∀ y m, mins'.get? y = some m → mins.get? y = some m ∨ ∃ e ∈ q', e.node = y ∧ e.cost ≤ m) ∧
        (∀ y m, mins.get? y = some m → ∃ m', mins'.get? y = some m' ∧ m' ≤ m) ∧
        (∀ y d, (y, d) ∈ (v2, dist) :: l → y ∉ visited → ∃ m, mins'.get? y = some m ∧ m ≤ fl (cost + d)) := by
      intro hsk h
      obtain ⟨h1, h2, h3, h4, h5⟩ := ih _ _ _ _ _ _ h
      refine ⟨h1, fun e he => ?_, h3, h4, fun y d hy hyv => ?_⟩
      · rcases h2 e he with h6 | ⟨h6, h7, d, h8, h9⟩
        · exact .inl h6
        · exact .inr ⟨h6, h7, d, List.mem_cons_of_mem _ h8, h9⟩
      · rcases List.mem_cons.1 hy with h6 | h6
        · cases h6
          obtain ⟨m, hm, hm2⟩ := hsk hyv
          obtain ⟨m', h7, h8⟩ := h4 _ _ hm
          exact ⟨m', h7, by grind⟩
        · exact h5 y d h6 hyv
    split at h
    · rename_i hv
      exact skip (fun hn => absurd hv hn) h
    · rename_i hv
      split at h
      · rename_i hm
        exact push (fun m hm2 => by rw [hm] at hm2; cases hm2) hv h
      · rename_i prev hm
        split at h
        · rename_i hlt
          exact push (fun m hm2 => by rw [hm] at hm2; cases hm2; grind) hv h
        · rename_i hlt
          exact skip (fun _ => ⟨prev, hm, by grind⟩) h

/-- the invariant; `δ` are the distances of the settled nodes -/
structure FlInv (fl : Rat → Rat) (w : α → α → Option Rat) (start fin : α) (av : List α) (δ : α → Rat) (s : DijSt α) : Prop where
  avs : ∀ x ∈ av, x ∈ s.visited
  ent : ∀ e ∈ s.q, ((e.path.reverse ++ [e.node]).head? = some start ∧ flCost fl w 0 (e.path.reverse ++ [e.node]) = some e.cost ∧ fl e.cost = e.cost) ∧
    ∀ x ∈ e.path, x ∉ av
  edge : ∀ x y c, x ∈ s.visited → x ∉ av → w x y = some c → y ∉ av →
    (y ∈ s.visited ∧ δ y ≤ fl (δ x + c)) ∨ ∃ e ∈ s.q, e.node = y ∧ e.cost ≤ fl (δ x + c)
  settled : ∀ x, x ∈ s.visited → x ∉ av → ∀ e ∈ s.q, δ x ≤ e.cost
  mins : ∀ y m, s.mins.get? y = some m → y ∈ s.visited ∨ ∃ e ∈ s.q, e.node = y ∧ e.cost ≤ m
  src : start ∉ av → (start ∈ s.visited ∧ δ start ≤ 0) ∨ ∃ e ∈ s.q, e.node = start ∧ e.cost ≤ 0
  nofin : fin ∈ s.visited → fin ∈ av

/-- along every walk that avoids `av` the search has settled the end or has a cheap enough pending entry -/
theorem FlInv.walk {fl : Rat → Rat} (hfl : Rounding fl) {w : α → α → Option Rat} (hw : NonNeg w) {start fin : α} {av : List α} {δ : α → Rat}
    {s : DijSt α} (h : FlInv fl w start fin av δ s) (p : List α) :
    ∀ x c0, ((x ∈ s.visited ∧ δ x ≤ c0) ∨ ∃ e ∈ s.q, e.cost ≤ c0) →
    ∀ z d, p.head? = some x → p.getLast? = some z → flCost fl w c0 p = some d → (∀ y ∈ p, y ∉ av) →
      (z ∈ s.visited ∧ δ z ≤ d) ∨ ∃ e ∈ s.q, e.cost ≤ d := by
  induction p with
  | nil => intro x c0 _ z d hz; simp at hz
  | cons a p ih =>
    intro x c0 hc z d hx hz hd hav
    simp only [List.head?_cons, Option.some.injEq] at hx
    subst hx
    cases p with
    | nil =>
      simp at hz; subst hz
      simp only [flCost, Option.some.injEq] at hd; subst hd
      exact hc
    | cons b p =>
      simp only [flCost] at hd
      split at hd
      · rename_i c hab
        have hcn := hw _ _ _ hab
        refine ih b (fl (c0 + c)) ?_ z d rfl (by simpa using hz) hd (fun y hy => hav y (List.mem_cons_of_mem _ hy))
        rcases hc with ⟨h5, h6⟩ | ⟨e, h5, h6⟩
        · have hm := hfl.mono (δ a + c) (c0 + c) (by grind)
          rcases h.edge a b c h5 (hav a (by simp)) hab (hav b (by simp)) with ⟨h7, h8⟩ | ⟨e, h7, _, h8⟩
          · exact .inl ⟨h7, by grind⟩
          · exact .inr ⟨e, h7, by grind⟩
        · have hm := hfl.mono e.cost (c0 + c) (by grind)
          have := (h.ent e h5).1.2.2
          exact .inr ⟨e, h5, by grind⟩
      · cases hd

theorem FlInv.walk_start {fl : Rat → Rat} (hfl : Rounding fl) {w : α → α → Option Rat} (hw : NonNeg w) {start fin : α} {av : List α} {δ : α → Rat}
    {s : DijSt α} (h : FlInv fl w start fin av δ s) {z : α} {p : List α} {d : Rat}
    (hp : FlWalk fl w av start z p d) : (z ∈ s.visited ∧ δ z ≤ d) ∨ ∃ e ∈ s.q, e.cost ≤ d := by
  obtain ⟨h1, h2, h3, h4⟩ := hp
  have hs : start ∉ av := h4 _ (List.mem_of_head? h1)
  exact h.walk hfl hw p start 0 ((h.src hs).imp id (fun ⟨e, a, _, b⟩ => ⟨e, a, b⟩)) z d h1 h2 h3 h4

/-- what the search returns -/
def FlResult (fl : Rat → Rat) (w : α → α → Option Rat) (av : List α) (start fin : α) (r : Ext × List α) : Prop :=
  (∃ d, r.1 = .fin d ∧ FlWalk fl w av start fin r.2 d ∧ ∀ p c, FlWalk fl w av start fin p c → d ≤ c) ∨
  (r = (.inf, []) ∧ ¬ ∃ p c, FlWalk fl w av start fin p c)

theorem dijFl_spec {fl : Rat → Rat} (hfl : Rounding fl) {nbr : α → List (α × Rat)} {w : α → α → Option Rat}
    (hn : ∀ x y c, (y, c) ∈ nbr x ↔ w x y = some c) (hw : NonNeg w) {U : List α}
    (hU : ∀ x y c, w x y = some c → x ∈ U ∧ y ∈ U) {start fin : α} (hs : start ∈ U) (av : List α) :
    ∃ r, pyWhile (dijStepFl fl nbr fin) ⟨[⟨0, 0, start, []⟩], Dict.empty.set start 0, av, 1⟩ = some r ∧
      FlResult fl w av start fin r := by
  apply pyWhile_totalW (fun s => (∃ δ, FlInv fl w start fin av δ s) ∧ ∀ e ∈ s.q, e.node ∈ U) (FlResult fl w av start fin)
    lexNat lexNat_wf (fun s => (unvis U s.visited, s.q.length))
  · rintro s s' ⟨⟨δ, hI⟩, hq⟩ hst
    unfold dijStepFl at hst
    split at hst
    · cases hst
    · rename_i e q hpop
      obtain ⟨hp, hmin⟩ := popMin_some hpop
      have heq : e ∈ s.q := hp.mem_iff.2 (by simp)
      split at hst
      · rename_i hv
        simp only [Sum.inl.injEq] at hst
        subst hst
        refine ⟨⟨⟨δ, hI.avs, fun e' he' => hI.ent e' (hp.mem_iff.2 (List.mem_cons_of_mem _ he')), ?_,
          fun x hx hxa e' he' => hI.settled x hx hxa e' (hp.mem_iff.2 (List.mem_cons_of_mem _ he')), ?_, ?_, hI.nofin⟩,
          fun e' he' => hq e' (hp.mem_iff.2 (List.mem_cons_of_mem _ he'))⟩, ?_⟩
        · intro x y c hx hxa hxy hya
          rcases hI.edge x y c hx hxa hxy hya with h1 | ⟨e', h1, h2, h3⟩
          · exact .inl h1
          · rcases List.mem_cons.1 (hp.mem_iff.1 h1) with rfl | h1
            · subst h2
              exact .inl ⟨hv, by have := hI.settled _ hv hya _ heq; grind⟩
            · exact .inr ⟨e', h1, h2, h3⟩
        · intro y m hm
          rcases hI.mins y m hm with h1 | ⟨e', h1, h2, h3⟩
          · exact .inl h1
          · rcases List.mem_cons.1 (hp.mem_iff.1 h1) with rfl | h1
            · subst h2; exact .inl hv
            · exact .inr ⟨e', h1, h2, h3⟩
        · intro hsa
          rcases hI.src hsa with h1 | ⟨e', h1, h2, h3⟩
          · exact .inl h1
          · rcases List.mem_cons.1 (hp.mem_iff.1 h1) with rfl | h1
            · subst h2
              exact .inl ⟨hv, by have := hI.settled _ hv hsa _ heq; grind⟩
            · exact .inr ⟨e', h1, h2, h3⟩
        · refine .right _ ?_
          have := hp.length_eq
          simp at this
          show q.length < s.q.length
          omega
      · rename_i hv
        dsimp only at hst
        split at hst
        · cases hst
        · rename_i hfin
          simp only [Sum.inl.injEq] at hst
          subst hst
          have hava : e.node ∉ av := fun h => hv (hI.avs _ h)
          obtain ⟨hwalk, hpath⟩ := hI.ent e heq
          generalize hr : dijRelaxFl fl e.cost (e.node :: e.path) (sadd s.visited e.node) (nbr e.node) (q, s.mins, s.i) = r
          obtain ⟨q', mins', i'⟩ := r
          obtain ⟨h1, h2, h3, h4, h5⟩ := dijRelaxFl_spec _ _ _ _ _ _ _ hr
          have hcost : ∀ e' ∈ q', e.cost ≤ e'.cost := by
            intro e' he'
            rcases h2 e' he' with h6 | ⟨_, _, d, h6, h7⟩
            · exact hmin e' (hp.mem_iff.2 (List.mem_cons_of_mem _ h6))
            · have := hw _ _ _ ((hn _ _ _).1 h6)
              have := hfl.mono e.cost (e.cost + d) (by grind)
              have := hwalk.2.2
              grind
          let δ' : α → Rat := fun x => if x = e.node then e.cost else δ x
          have hδv : ∀ x, x ∈ s.visited → δ' x = δ x := fun x hx => by
            show (if x = e.node then e.cost else δ x) = δ x
            rw [if_neg]; intro h; subst h; exact hv hx
          have hδe : δ' e.node = e.cost := if_pos rfl
          refine ⟨⟨⟨δ', fun x hx => mem_sadd.2 (.inr (hI.avs x hx)), ?_, ?_, ?_, ?_, ?_, ?_⟩, ?_⟩, ?_⟩
          · intro e' he'
            rcases h2 e' he' with h6 | ⟨h6, _, d, h7, h8⟩
            · exact hI.ent e' (hp.mem_iff.2 (List.mem_cons_of_mem _ h6))
            · refine ⟨?_, ?_⟩
              · rw [h6, h8]
                simp only [List.reverse_cons]
                refine ⟨?_, flCost_snoc (by simp) hwalk.2.1 ((hn _ _ _).1 h7), hfl.idem _⟩
                rw [List.head?_append]
                simp only [hwalk.1, Option.some_or]
              · rw [h6]; intro x hx
                rcases List.mem_cons.1 hx with rfl | hx
                · exact hava
                · exact hpath x hx
          · intro x y c hx hxa hxy hya
            rcases mem_sadd.1 hx with rfl | hx
            · rw [hδe]
              by_cases hy : y ∈ sadd s.visited e.node
              · refine .inl ⟨hy, ?_⟩
                have hc := hw _ _ _ hxy
                have hm := hfl.mono e.cost (e.cost + c) (by grind)
                have := hwalk.2.2
                rcases mem_sadd.1 hy with rfl | hy
                · rw [hδe]; grind
                · rw [hδv y hy]; have := hI.settled y hy hya e heq; grind
              · obtain ⟨m, hm, hm2⟩ := h5 y c ((hn _ _ _).2 hxy) hy
                rcases h3 y m hm with h6 | ⟨e', h6, h7, h8⟩
                · rcases hI.mins y m h6 with h7 | ⟨e', h7, h8, h9⟩
                  · exact absurd (mem_sadd.2 (.inr h7)) hy
                  · rcases List.mem_cons.1 (hp.mem_iff.1 h7) with rfl | h7
                    · exact absurd (mem_sadd.2 (.inl h8.symm)) hy
                    · exact .inr ⟨e', h1 _ h7, h8, by grind⟩
                · exact .inr ⟨e', h6, h7, by grind⟩
            · rw [hδv x hx]
              rcases hI.edge x y c hx hxa hxy hya with ⟨h6, h7⟩ | ⟨e', h6, h7, h8⟩
              · exact .inl ⟨mem_sadd.2 (.inr h6), by rw [hδv y h6]; exact h7⟩
              · rcases List.mem_cons.1 (hp.mem_iff.1 h6) with rfl | h6
                · subst h7
                  exact .inl ⟨mem_sadd.2 (.inl rfl), by rw [hδe]; exact h8⟩
                · exact .inr ⟨e', h1 _ h6, h7, h8⟩
          · intro x hx hxa e' he'
            rcases mem_sadd.1 hx with rfl | hx
            · rw [hδe]; exact hcost e' he'
            · rw [hδv x hx]
              have := hI.settled x hx hxa e heq
              have := hcost e' he'
              grind
          · intro y m hm
            rcases h3 y m hm with h6 | h6
            · rcases hI.mins y m h6 with h7 | ⟨e', h7, h8, h9⟩
              · exact .inl (mem_sadd.2 (.inr h7))
              · rcases List.mem_cons.1 (hp.mem_iff.1 h7) with rfl | h7
                · exact .inl (mem_sadd.2 (.inl h8.symm))
                · exact .inr ⟨e', h1 _ h7, h8, h9⟩
            · exact .inr h6
          · intro hsa
            rcases hI.src hsa with ⟨h6, h7⟩ | ⟨e', h6, h7, h8⟩
            · exact .inl ⟨mem_sadd.2 (.inr h6), by rw [hδv _ h6]; exact h7⟩
            · rcases List.mem_cons.1 (hp.mem_iff.1 h6) with rfl | h6
              · subst h7
                exact .inl ⟨mem_sadd.2 (.inl rfl), by rw [hδe]; exact h8⟩
              · exact .inr ⟨e', h1 _ h6, h7, h8⟩
          · intro h6
            rcases mem_sadd.1 h6 with h6 | h6
            · exact absurd h6.symm hfin
            · exact hI.nofin h6
          · intro e' he'
            rcases h2 e' he' with h6 | ⟨_, _, d, h6, _⟩
            · exact hq e' (hp.mem_iff.2 (List.mem_cons_of_mem _ h6))
            · exact (hU _ _ _ ((hn _ _ _).1 h6)).2
          · refine .left _ _ ?_
            exact unvis_lt (fun x hx => mem_sadd.2 (.inr hx)) (hq e heq) hv (mem_sadd.2 (.inl rfl))
  · rintro s r ⟨⟨δ, hI⟩, hq⟩ hst
    unfold dijStepFl at hst
    split at hst
    · rename_i hpop
      rw [popMin_none] at hpop
      simp only [Sum.inr.injEq] at hst
      subst hst
      refine .inr ⟨rfl, ?_⟩
      rintro ⟨p, c, hp⟩
      rcases hI.walk_start hfl hw hp with ⟨h1, _⟩ | ⟨e, h1, _⟩
      · have := hI.nofin h1
        exact hp.2.2.2 fin (List.mem_of_getLast? hp.2.1) this
      · rw [hpop] at h1; cases h1
    · rename_i e q hpop
      obtain ⟨hp, hmin⟩ := popMin_some hpop
      have heq : e ∈ s.q := hp.mem_iff.2 (by simp)
      split at hst
      · cases hst
      · rename_i hv
        dsimp only at hst
        split at hst
        · rename_i hfin
          simp only [Sum.inr.injEq] at hst
          subst hst
          subst hfin
          have hava : e.node ∉ av := fun h => hv (hI.avs _ h)
          obtain ⟨hwalk, hpath⟩ := hI.ent e heq
          refine .inl ⟨e.cost, rfl, ⟨?_, ?_, ?_, ?_⟩, ?_⟩
          · simpa using hwalk.1
          · simp
          · simpa using hwalk.2.1
          · intro x hx
            simp at hx
            rcases hx with hx | rfl
            · exact hpath x hx
            · exact hava
          · intro p c hp'
            rcases hI.walk_start hfl hw hp' with ⟨h1, _⟩ | ⟨e', h1, h2⟩
            · exact absurd h1 hv
            · have := hmin e' h1; grind
        · cases hst
  · refine ⟨⟨fun _ => 0, fun x hx => hx, ?_, ?_, ?_, ?_, ?_, ?_⟩, ?_⟩
    · intro e he
      simp at he; subst he
      exact ⟨⟨rfl, rfl, hfl.zero⟩, by simp⟩
    · intro x y c hx hxa; exact absurd hx hxa
    · intro x hx hxa; exact absurd hx hxa
    · intro y m hm
      rw [Dict.get?_set] at hm
      split at hm
      · rename_i h; cases hm; exact .inr ⟨_, by simp; rfl, h, Rat.le_refl⟩
      · simp at hm
    · intro _; exact .inr ⟨_, by simp; rfl, rfl, Rat.le_refl⟩
    · exact fun h => h
    · intro e he; simp at he; subst he; exact hs

theorem shortestPathFl_spec {fl : Rat → Rat} (hfl : Rounding fl) {g : Graph α Rat O} (h : g.Inv) (hw : NonNeg g.edge) {start fin : α} (av : List α)
    (hs : g.has start = true) (hf : g.has fin = true) :
    ∃ r, g.shortestPathFl fl start fin av = some (.ok r) ∧ FlResult fl g.edge av start fin r := by
  unfold shortestPathFl
  simp only [hs, hf, Bool.not_true, Bool.false_eq_true, if_false]
  obtain ⟨r, h1, h2⟩ := dijFl_spec hfl (fun x y c => h.mem_outNbr) hw (fun x y c => h.edge_mem) (fin := fin) (has_iff.1 hs) av
  rw [h1]
  exact ⟨r, rfl, h2⟩

theorem shortestPathFl_error {fl : Rat → Rat} {g : Graph α Rat O} {start fin : α} (av : List α)
    (hne : ¬ (g.has start = true ∧ g.has fin = true)) :
    g.shortestPathFl fl start fin av = some (.error .valueError) := by
  unfold shortestPathFl
  split
  · rfl
  · split
    · rfl
    · rename_i h1 h2; simp at h1 h2; exact absurd ⟨h1, h2⟩ hne

theorem shortestPathFl_nodup {fl : Rat → Rat} {g : Graph α Rat O} {start fin : α} {av : List α} {r : Ext × List α}
    (h : g.shortestPathFl fl start fin av = some (.ok r)) : r.2.Nodup := by
  unfold shortestPathFl at h
  split at h
  · cases h
  · split at h
    · cases h
    · split at h
      · cases h
      · rename_i r' hr
        cases h
        refine pyWhile_inv DijNd (fun r => r.2.Nodup) ?_ ?_ ⟨?_⟩ hr
        · intro s s' hI hst
          unfold dijStepFl at hst
          split at hst
          · cases hst
          · rename_i e q hpop
            obtain ⟨hp, _⟩ := popMin_some hpop
            split at hst
            · cases hst
              exact ⟨fun e' he' => hI.ent e' (hp.mem_iff.2 (List.mem_cons_of_mem _ he'))⟩
            · rename_i hv
              dsimp only at hst
              split at hst
              · cases hst
              · generalize hrr : dijRelaxFl fl e.cost (e.node :: e.path) (sadd s.visited e.node) (g.outNbr e.node) (q, s.mins, s.i) = rr at hst
                obtain ⟨q', mins', i'⟩ := rr
                cases hst
                obtain ⟨_, h2, _⟩ := dijRelaxFl_spec _ _ _ _ _ _ _ hrr
                refine ⟨fun e' he' => ?_⟩
                rcases h2 e' he' with h3 | ⟨h3, _⟩
                · obtain ⟨a, b⟩ := hI.ent e' (hp.mem_iff.2 (List.mem_cons_of_mem _ h3))
                  exact ⟨a, fun x hx => mem_sadd.2 (.inr (b x hx))⟩
                · obtain ⟨a, b⟩ := hI.ent e (hp.mem_iff.2 (List.mem_cons_self ..))
                  rw [h3]
                  refine ⟨List.nodup_cons.2 ⟨fun hin => hv (b _ hin), a⟩, fun x hx => ?_⟩
                  rcases List.mem_cons.1 hx with rfl | hx
                  · exact mem_sadd.2 (.inl rfl)
                  · exact mem_sadd.2 (.inr (b x hx))
        · intro s r hI hst
          unfold dijStepFl at hst
          split at hst
          · cases hst; simp
          · rename_i e q hpop
            obtain ⟨hp, _⟩ := popMin_some hpop
            split at hst
            · cases hst
            · rename_i hv
              dsimp only at hst
              split at hst
              · cases hst
                obtain ⟨a, b⟩ := hI.ent e (hp.mem_iff.2 (List.mem_cons_self ..))
                exact nodup_reverse.2 (List.nodup_cons.2 ⟨fun hin => hv (b _ hin), a⟩)
              · cases hst
        · intro e he; simp at he; subst he; simp

/-- the rounded length of a walk with `m` edges is its length up to `m` relative errors -/
theorem flCost_bounds {fl : Rat → Rat} {ε : Rat} (h0 : 0 ≤ ε) (h1 : ε ≤ 1) (hε : RelErr fl ε) {w : α → α → Option Rat} (hw : NonNeg w)
    (p : List α) : ∀ {acc d c : Rat}, 0 ≤ acc → flCost fl w acc p = some d → walkCost w p = some c →
      (1 - ε) ^ (p.length - 1) * (acc + c) ≤ d ∧ d ≤ (1 + ε) ^ (p.length - 1) * (acc + c) := by
  induction p with
  | nil => intro acc d c _ h; simp [flCost] at h
  | cons a l ih =>
    intro acc d c ha h hc
    cases l with
    | nil =>
      simp only [flCost, Option.some.injEq] at h; subst h
      simp only [walkCost, Option.some.injEq] at hc; subst hc
      simp only [List.length_cons, List.length_nil, Nat.zero_add, Nat.sub_self, Rat.pow_zero]
      constructor <;> grind
    | cons b l =>
      simp only [flCost] at h
      simp only [walkCost] at hc
      cases hab : w a b with
      | none => rw [hab] at h; cases h
      | some c1 =>
        rw [hab] at h hc
        cases hcl : walkCost w (b :: l) with
        | none => rw [hcl] at hc; cases hc
        | some c2 =>
          rw [hcl] at hc
          simp only [Option.some.injEq] at hc h
          subst hc
          have hc1 := hw _ _ _ hab
          have hc2 := walkCost_nonneg hw hcl
          obtain ⟨e1, e2⟩ := hε (acc + c1) (by grind)
          have hpos : 0 ≤ (1 - ε) * (acc + c1) := Rat.mul_nonneg (by grind) (by grind)
          obtain ⟨b1, b2⟩ := ih (acc := fl (acc + c1)) (by grind) h hcl
          have hlen : (a :: b :: l).length - 1 = ((b :: l).length - 1) + 1 := by simp
          rw [hlen, Rat.pow_succ, Rat.pow_succ]
          generalize hm : (b :: l).length - 1 = m at *
          have p1 : 0 ≤ (1 - ε) ^ m := Rat.pow_nonneg (by grind)
          have p2 : 0 ≤ (1 + ε) ^ m := Rat.pow_nonneg (by grind)
          have k1 : (1 - ε) * (acc + (c1 + c2)) ≤ fl (acc + c1) + c2 := by
            have : 0 ≤ ε * c2 := Rat.mul_nonneg h0 hc2
            grind
          have k2 : fl (acc + c1) + c2 ≤ (1 + ε) * (acc + (c1 + c2)) := by
            have : 0 ≤ ε * c2 := Rat.mul_nonneg h0 hc2
            grind
          have m1 := Rat.mul_le_mul_of_nonneg_left k1 p1
          have m2 := Rat.mul_le_mul_of_nonneg_left k2 p2
          constructor
          · rw [Rat.mul_assoc]; grind
          · rw [Rat.mul_assoc]; grind

theorem dijRelax_eq_fl (cost : Rat) (path visited : List α) (l : List (α × Rat)) (s) :
    dijRelaxFl id cost path visited l s = dijRelax cost path visited l s := by
  induction l generalizing s with
  | nil => rfl
  | cons a l ih => simp only [dijRelaxFl, dijRelax, ih, id]; rfl

/-- without rounding this is the model of Sp/Dijkstra.lean -/
theorem shortestPath_eq_fl (g : Graph α Rat O) (start fin : α) (av : List α) :
    g.shortestPathFl id start fin av = g.shortestPath start fin av := by
  have : (dijStepFl id g.outNbr fin) = dijStep g.outNbr fin := by
    funext s
    simp only [dijStepFl, dijStep, dijRelax_eq_fl]
    rfl
  unfold shortestPathFl shortestPath
  rw [this]
  rfl

/-! ### rounded and exact walks -/

omit [DecidableEq α] in
theorem flWalk_of_avoid {fl : Rat → Rat} {w : α → α → Option Rat} {av : List α} {a b : α} {p : List α} {c : Rat}
    (h : AvoidWalk w av a b p c) : ∃ d, FlWalk fl w av a b p d := by
  obtain ⟨⟨h1, h2, h3⟩, h4⟩ := h
  suffices ∀ (p : List α) acc c, walkCost w p = some c → ∃ d, flCost fl w acc p = some d by
    obtain ⟨d, hd⟩ := this p 0 c h3
    exact ⟨d, h1, h2, hd, h4⟩
  intro p
  induction p with
  | nil => intro acc c h; simp [walkCost] at h
  | cons x l ih =>
    intro acc c h
    cases l with
    | nil => exact ⟨acc, rfl⟩
    | cons y l =>
      simp only [walkCost] at h
      split at h
      · rename_i c1 c2 hxy hl
        obtain ⟨d, hd⟩ := ih (fl (acc + c1)) c2 hl
        exact ⟨d, by simp only [flCost, hxy]; exact hd⟩
      · cases h

omit [DecidableEq α] in
theorem avoid_of_flWalk {fl : Rat → Rat} {w : α → α → Option Rat} {av : List α} {a b : α} {p : List α} {d : Rat}
    (h : FlWalk fl w av a b p d) : ∃ c, AvoidWalk w av a b p c := by
  obtain ⟨h1, h2, h3, h4⟩ := h
  suffices ∀ (p : List α) acc d, flCost fl w acc p = some d → ∃ c, walkCost w p = some c by
    obtain ⟨c, hc⟩ := this p 0 d h3
    exact ⟨c, ⟨h1, h2, hc⟩, h4⟩
  intro p
  induction p with
  | nil => intro acc c h; simp [flCost] at h
  | cons x l ih =>
    intro acc c h
    cases l with
    | nil => exact ⟨0, rfl⟩
    | cons y l =>
      simp only [flCost] at h
      split at h
      · rename_i c1 hxy
        obtain ⟨d, hd⟩ := ih _ _ h
        exact ⟨c1 + d, by simp only [walkCost, hxy, hd]⟩
      · cases h

end GT

import Verif.Search.Bridge
import Verif.Search.Util
/-
Model of `shortest_path` (graph/shortest_path.py:11-58) and its correctness proof.
-/
namespace GT
variable {α V O : Type} [DecidableEq α]
open Graph

/-- an entry `(cost, i, node, path)` of the heap (shortest_path.py:33, 56).  `path` is the linked list
`(v, (u, …))`, most recent node first. -/
structure Ent (α : Type) where
  cost : Rat
  ix : Nat
  node : α
  path : List α
  deriving DecidableEq, Repr

/-- tuple order of heap entries; the counter is unique, so nodes are never compared -/
def Ent.lt (a b : Ent α) : Bool := decide (a.cost < b.cost) || (decide (a.cost = b.cost) && decide (a.ix < b.ix))

/-- `heappop(q)`: removes and returns the smallest entry.  Simplification: the heap is a list without
particular order, of which `heapq` is one representation (Sp/DijkstraHeap, C124). -/
def popMin : List (Ent α) → Option (Ent α × List (Ent α))
  | [] => none
  | e :: l => match popMin l with
    | none => some (e, [])
    | some (m, r) => if m.lt e then some (m, e :: r) else some (e, l)

/-- the locals of `shortest_path` -/
structure DijSt (α : Type) where
  q : List (Ent α)
  mins : Dict α Rat
  visited : List α
  i : Nat

/-- the loop over the outgoing edges (shortest_path.py:49-57) -/
def dijRelax (cost : Rat) (path : List α) (visited : List α) :
    List (α × Rat) → List (Ent α) × Dict α Rat × Nat → List (Ent α) × Dict α Rat × Nat
  | [], s => s
  | (v2, dist) :: l, (q, mins, i) =>
    if v2 ∈ visited then dijRelax cost path visited l (q, mins, i)
    else match mins.get? v2 with
      | none => dijRelax cost path visited l (⟨cost + dist, i, v2, path⟩ :: q, mins.set v2 (cost + dist), i + 1)
      | some prev =>
        if cost + dist < prev then
          dijRelax cost path visited l (⟨cost + dist, i, v2, path⟩ :: q, mins.set v2 (cost + dist), i + 1)
        else dijRelax cost path visited l (q, mins, i)

/-- one iteration of `while q` (shortest_path.py:35-57).  `nbr v` lists `(node, value)` of the edges
leaving `v`. -/
def dijStep (nbr : α → List (α × Rat)) (fin : α) (s : DijSt α) : DijSt α ⊕ (Ext × List α) :=
  match popMin s.q with
  | none => .inr (.inf, [])
  | some (e, q) =>
    if e.node ∈ s.visited then .inl { s with q := q }
    else
      let visited := sadd s.visited e.node
      let path := e.node :: e.path
      if e.node = fin then .inr (.fin e.cost, path.reverse)
      else
        let (q, mins, i) := dijRelax e.cost path visited (nbr e.node) (q, s.mins, s.i)
        .inl ⟨q, mins, visited, i⟩

/-- `(n2, d) for _, n2, d in graph.edges(from_node=n1)` -/
def Graph.outNbr (g : Graph α V O) (n : α) : List (α × V) := (g.edgesFrom n).map (fun e => (e.2.1, e.2.2))

/-- `(n1, d) for n1, _, d in graph.edges(to_node=n2)` -/
def Graph.inNbr (g : Graph α V O) (n : α) : List (α × V) := (g.edgesTo n).map (fun e => (e.1, e.2.2))

/-- `shortest_path(graph, start, end, avoids)` (shortest_path.py:11-58).  `avoids=None` is the empty list.
Simplifications: the type checks of `graph` and `avoids` hold by typing; exact rationals. -/
def Graph.shortestPath (g : Graph α Rat O) (start fin : α) (avoids : List α := []) :
    Option (Py (Ext × List α)) :=
  if !g.has start then some (.error .valueError)
  else if !g.has fin then some (.error .valueError)
  else match pyWhile (dijStep g.outNbr fin) ⟨[⟨0, 0, start, []⟩], Dict.empty.set start 0, avoids, 1⟩ with
    | none => none
    | some r => some (.ok r)

/-! ### proofs -/

theorem popMin_none {q : List (Ent α)} : popMin q = none ↔ q = [] := by
  cases q with
  | nil => simp [popMin]
  | cons e l =>
    simp only [popMin]
    split
    · simp
    · split <;> simp

theorem popMin_some {q : List (Ent α)} {m : Ent α} {r : List (Ent α)} (h : popMin q = some (m, r)) :
    q.Perm (m :: r) ∧ ∀ e ∈ q, m.cost ≤ e.cost := by
  induction q generalizing m r with
  | nil => simp [popMin] at h
  | cons e l ih =>
    simp only [popMin] at h
    split at h
    · rename_i h1
      rw [popMin_none] at h1
      subst h1
      simp only [Option.some.injEq, Prod.mk.injEq] at h
      obtain ⟨rfl, rfl⟩ := h
      exact ⟨.refl _, by simp [Rat.le_refl]⟩
    · rename_i m' r' h1
      obtain ⟨h2, h3⟩ := ih h1
      split at h
      · rename_i hlt
        simp only [Option.some.injEq, Prod.mk.injEq] at h
        obtain ⟨rfl, rfl⟩ := h
        refine ⟨(h2.cons e).trans (.swap _ _ _), ?_⟩
        intro x hx
        rcases List.mem_cons.1 hx with rfl | hx
        · unfold Ent.lt at hlt
          simp at hlt
          rcases hlt with h | ⟨h, _⟩
          · grind
          · grind
        · exact h3 x hx
      · rename_i hlt
        simp only [Option.some.injEq, Prod.mk.injEq] at h
        obtain ⟨rfl, rfl⟩ := h
        refine ⟨.refl _, ?_⟩
        intro x hx
        rcases List.mem_cons.1 hx with rfl | hx
        · exact Rat.le_refl
        · have := h3 x hx
          unfold Ent.lt at hlt
          simp at hlt
          grind

/-- what the relaxation of the edges of the node just settled does -/
theorem dijRelax_spec {cost : Rat} {path : List α} {visited : List α} (l : List (α × Rat)) :
    ∀ (q : List (Ent α)) (mins : Dict α Rat) (i : Nat) q' mins' i',
    dijRelax cost path visited l (q, mins, i) = (q', mins', i') →
    (∀ e ∈ q, e ∈ q') ∧
    (∀ e ∈ q', e ∈ q ∨ (e.path = path ∧ e.node ∉ visited ∧ ∃ d, (e.node, d) ∈ l ∧ e.cost = cost + d)) ∧
    (∀ y m, mins'.get? y = some m → mins.get? y = some m ∨ ∃ e ∈ q', e.node = y ∧ e.cost ≤ m) ∧
    (∀ y m, mins.get? y = some m → ∃ m', mins'.get? y = some m' ∧ m' ≤ m) ∧
    (∀ y d, (y, d) ∈ l → y ∉ visited → ∃ m, mins'.get? y = some m ∧ m ≤ cost + d) := by
  induction l with
  | nil =>
    intro q mins i q' mins' i' h
    simp only [dijRelax, Prod.mk.injEq] at h
    obtain ⟨rfl, rfl, rfl⟩ := h
    exact ⟨fun _ h => h, fun _ h => .inl h, fun _ _ h => .inl h, fun y m h => ⟨m, h, Rat.le_refl⟩, by simp⟩
  | cons a l ih =>
    obtain ⟨v2, dist⟩ := a
    intro q mins i q' mins' i' h
    simp only [dijRelax] at h
    have push : (∀ m, mins.get? v2 = some m → cost + dist ≤ m) → v2 ∉ visited →
        dijRelax cost path visited l (⟨cost + dist, i, v2, path⟩ :: q, mins.set v2 (cost + dist), i + 1) = (q', mins', i') →
        (∀ e ∈ q, e ∈ q') ∧
        (∀ e ∈ q', e ∈ q ∨ (e.path = path ∧ e.node ∉ visited ∧ ∃ d, (e.node, d) ∈ (v2, dist) :: l ∧ e.cost = cost + d)) ∧
        (∀ y m, mins'.get? y = some m → mins.get? y = some m ∨ ∃ e ∈ q', e.node = y ∧ e.cost ≤ m) ∧
        (∀ y m, mins.get? y = some m → ∃ m', mins'.get? y = some m' ∧ m' ≤ m) ∧
        (∀ y d, (y, d) ∈ (v2, dist) :: l → y ∉ visited → ∃ m, mins'.get? y = some m ∧ m ≤ cost + d) := by
      intro hle hv h
      obtain ⟨h1, h2, h3, h4, h5⟩ := ih _ _ _ _ _ _ h
      have hnew := h1 _ (List.mem_cons_self ..)
      refine ⟨fun e he => h1 e (List.mem_cons_of_mem _ he), fun e he => ?_, fun y m hm => ?_, fun y m hm => ?_, fun y d hy hyv => ?_⟩
      · rcases h2 e he with h6 | ⟨h6, h7, d, h8, h9⟩
        · rcases List.mem_cons.1 h6 with rfl | h6
          · exact .inr ⟨rfl, hv, dist, by simp, rfl⟩
          · exact .inl h6
        · exact .inr ⟨h6, h7, d, List.mem_cons_of_mem _ h8, h9⟩
      · rcases h3 y m hm with h6 | h6
        · rw [Dict.get?_set] at h6
          split at h6
          · rename_i hy
            cases h6
            exact .inr ⟨_, hnew, hy, Rat.le_refl⟩
          · exact .inl h6
        · exact .inr h6
      · by_cases hy : v2 = y
        · subst hy
          obtain ⟨m', h6, h7⟩ := h4 v2 (cost + dist) (by simp)
          exact ⟨m', h6, by have := hle m hm; grind⟩
        · exact h4 y m (by rw [Dict.get?_set_ne _ _ hy]; exact hm)
      · rcases List.mem_cons.1 hy with h6 | h6
        · cases h6; exact h4 v2 (cost + dist) (by simp)
        · exact h5 y d h6 hyv
    have skip : (v2 ∉ visited → ∃ m, mins.get? v2 = some m ∧ m ≤ cost + dist) →
        dijRelax cost path visited l (q, mins, i) = (q', mins', i') →
        (∀ e ∈ q, e ∈ q') ∧
        (∀ e ∈ q', e ∈ q ∨ (e.path = path ∧ e.node ∉ visited ∧ ∃ d, (e.node, d) ∈ (v2, dist) :: l ∧ e.cost = cost + d)) ∧
        (∀ y m, mins'.get? y = some m → mins.get? y = some m ∨ ∃ e ∈ q', e.node = y ∧ e.cost ≤ m) ∧
        (∀ y m, mins.get? y = some m → ∃ m', mins'.get? y = some m' ∧ m' ≤ m) ∧
        (∀ y d, (y, d) ∈ (v2, dist) :: l → y ∉ visited → ∃ m, mins'.get? y = some m ∧ m ≤ cost + d) := by
      intro hsk h
      obtain ⟨h1, h2, h3, h4, h5⟩ := ih _ _ _ _ _ _ h
      refine ⟨h1, fun e he => ?_, h3, h4, fun y d hy hyv => ?_⟩
      · rcases h2 e he with h6 | ⟨h6, h7, d, h8, h9⟩
        · exact .inl h6
        · exact .inr ⟨h6, h7, d, List.mem_cons_of_mem _ h8, h9⟩
      · rcases List.mem_cons.1 hy with h6 | h6
        · cases h6
          obtain ⟨m, hm, hm2⟩ := hsk hyv
          obtain ⟨m', h7, h8⟩ := h4 _ _ hm
          exact ⟨m', h7, by grind⟩
        · exact h5 y d h6 hyv
    split at h
    · rename_i hv
      exact skip (fun hn => absurd hv hn) h
    · rename_i hv
      split at h
      · rename_i hm
        exact push (fun m hm2 => by rw [hm] at hm2; cases hm2) hv h
      · rename_i prev hm
        split at h
        · rename_i hlt
          exact push (fun m hm2 => by rw [hm] at hm2; cases hm2; grind) hv h
        · rename_i hlt
          exact skip (fun _ => ⟨prev, hm, by grind⟩) h

/-- the invariant; `δ` are the distances of the settled nodes -/
structure DijInv (w : α → α → Option Rat) (start fin : α) (av : List α) (δ : α → Rat) (s : DijSt α) : Prop where
  avs : ∀ x ∈ av, x ∈ s.visited
  ent : ∀ e ∈ s.q, WalkOf w start e.node (e.path.reverse ++ [e.node]) e.cost ∧ ∀ x ∈ e.path, x ∉ av
  edge : ∀ x y c, x ∈ s.visited → x ∉ av → w x y = some c → y ∉ av →
    (y ∈ s.visited ∧ δ y ≤ δ x + c) ∨ ∃ e ∈ s.q, e.node = y ∧ e.cost ≤ δ x + c
  settled : ∀ x, x ∈ s.visited → x ∉ av → ∀ e ∈ s.q, δ x ≤ e.cost
  mins : ∀ y m, s.mins.get? y = some m → y ∈ s.visited ∨ ∃ e ∈ s.q, e.node = y ∧ e.cost ≤ m
  src : start ∉ av → (start ∈ s.visited ∧ δ start ≤ 0) ∨ ∃ e ∈ s.q, e.node = start ∧ e.cost ≤ 0
  nofin : fin ∈ s.visited → fin ∈ av

/-- along every walk that avoids `av` the search has settled the end or has a cheap enough pending entry -/
theorem DijInv.walk {w : α → α → Option Rat} (hw : NonNeg w) {start fin : α} {av : List α} {δ : α → Rat}
    {s : DijSt α} (h : DijInv w start fin av δ s) (p : List α) :
    ∀ x c0, x ∉ av → ((x ∈ s.visited ∧ δ x ≤ c0) ∨ ∃ e ∈ s.q, e.cost ≤ c0) →
    ∀ z d, WalkOf w x z p d → (∀ y ∈ p, y ∉ av) →
      (z ∈ s.visited ∧ δ z ≤ c0 + d) ∨ ∃ e ∈ s.q, e.cost ≤ c0 + d := by
  induction p with
  | nil => intro x c0 _ _ z d hz; exact absurd rfl hz.ne_nil
  | cons a p ih =>
    intro x c0 hx hc z d hz hav
    rcases hz.inv with ⟨h1, h2, h3⟩ | ⟨b, q', c, d', h1, h2, h3, h4⟩
    · subst h2 h3
      rw [show c0 + 0 = c0 by grind]; exact hc
    · simp only [List.cons.injEq] at h1
      obtain ⟨rfl, rfl⟩ := h1
      have hb : b ∉ av := by
        have := h3.1
        cases p with
        | nil => simp at this
        | cons b' p => simp at this; subst this; exact hav _ (by simp)
      have hcn := hw _ _ _ h2
      have := ih b (c0 + c) hb ?_ z d' h3 (fun y hy => hav y (List.mem_cons_of_mem _ hy))
      · rw [show c0 + c + d' = c0 + d by grind] at this; exact this
      · rcases hc with ⟨h5, h6⟩ | ⟨e, h5, h6⟩
        · rcases h.edge a b c h5 hx h2 hb with ⟨h7, h8⟩ | ⟨e, h7, _, h8⟩
          · exact .inl ⟨h7, by grind⟩
          · exact .inr ⟨e, h7, by grind⟩
        · exact .inr ⟨e, h5, by grind⟩

theorem DijInv.walk_start {w : α → α → Option Rat} (hw : NonNeg w) {start fin : α} {av : List α} {δ : α → Rat}
    {s : DijSt α} (h : DijInv w start fin av δ s) {z : α} {p : List α} {d : Rat}
    (hp : AvoidWalk w av start z p d) : (z ∈ s.visited ∧ δ z ≤ d) ∨ ∃ e ∈ s.q, e.cost ≤ d := by
  obtain ⟨h1, h2⟩ := hp
  have hs : start ∉ av := h2 _ (by
    have := h1.1
    cases p with
    | nil => simp at this
    | cons b p => simp at this; simp [this])
  have := h.walk hw p start 0 hs ((h.src hs).imp id (fun ⟨e, a, _, b⟩ => ⟨e, a, b⟩)) z d h1 h2
  rwa [show (0 : Rat) + d = d by grind] at this

theorem dij_spec {nbr : α → List (α × Rat)} {w : α → α → Option Rat}
    (hn : ∀ x y c, (y, c) ∈ nbr x ↔ w x y = some c) (hw : NonNeg w) {U : List α}
    (hU : ∀ x y c, w x y = some c → x ∈ U ∧ y ∈ U) {start fin : α} (hs : start ∈ U) (av : List α) :
    ∃ r, pyWhile (dijStep nbr fin) ⟨[⟨0, 0, start, []⟩], Dict.empty.set start 0, av, 1⟩ = some r ∧
      SpResult w av start fin r := by
  apply pyWhile_totalW (fun s => (∃ δ, DijInv w start fin av δ s) ∧ ∀ e ∈ s.q, e.node ∈ U) (SpResult w av start fin)
    lexNat lexNat_wf (fun s => (unvis U s.visited, s.q.length))
  · rintro s s' ⟨⟨δ, hI⟩, hq⟩ hst
    unfold dijStep at hst
    split at hst
    · cases hst
    · rename_i e q hpop
      obtain ⟨hp, hmin⟩ := popMin_some hpop
      have heq : e ∈ s.q := hp.mem_iff.2 (by simp)
      split at hst
      · rename_i hv
        simp only [Sum.inl.injEq] at hst
        subst hst
        refine ⟨⟨⟨δ, hI.avs, fun e' he' => hI.ent e' (hp.mem_iff.2 (List.mem_cons_of_mem _ he')), ?_,
          fun x hx hxa e' he' => hI.settled x hx hxa e' (hp.mem_iff.2 (List.mem_cons_of_mem _ he')), ?_, ?_, hI.nofin⟩,
          fun e' he' => hq e' (hp.mem_iff.2 (List.mem_cons_of_mem _ he'))⟩, ?_⟩
        · intro x y c hx hxa hxy hya
          rcases hI.edge x y c hx hxa hxy hya with h1 | ⟨e', h1, h2, h3⟩
          · exact .inl h1
          · rcases List.mem_cons.1 (hp.mem_iff.1 h1) with rfl | h1
            · subst h2
              exact .inl ⟨hv, by have := hI.settled _ hv hya _ heq; grind⟩
            · exact .inr ⟨e', h1, h2, h3⟩
        · intro y m hm
          rcases hI.mins y m hm with h1 | ⟨e', h1, h2, h3⟩
          · exact .inl h1
          · rcases List.mem_cons.1 (hp.mem_iff.1 h1) with rfl | h1
            · subst h2; exact .inl hv
            · exact .inr ⟨e', h1, h2, h3⟩
        · intro hsa
          rcases hI.src hsa with h1 | ⟨e', h1, h2, h3⟩
          · exact .inl h1
          · rcases List.mem_cons.1 (hp.mem_iff.1 h1) with rfl | h1
            · subst h2
              exact .inl ⟨hv, by have := hI.settled _ hv hsa _ heq; grind⟩
            · exact .inr ⟨e', h1, h2, h3⟩
        · refine .right _ ?_
          have := hp.length_eq
          simp at this
          show q.length < s.q.length
          omega
      · rename_i hv
        dsimp only at hst
        split at hst
        · cases hst
        · rename_i hfin
          simp only [Sum.inl.injEq] at hst
          subst hst
          have hava : e.node ∉ av := fun h => hv (hI.avs _ h)
          obtain ⟨hwalk, hpath⟩ := hI.ent e heq
          generalize hr : dijRelax e.cost (e.node :: e.path) (sadd s.visited e.node) (nbr e.node) (q, s.mins, s.i) = r
          obtain ⟨q', mins', i'⟩ := r
          obtain ⟨h1, h2, h3, h4, h5⟩ := dijRelax_spec _ _ _ _ _ _ _ hr
          have hcost : ∀ e' ∈ q', e.cost ≤ e'.cost := by
            intro e' he'
            rcases h2 e' he' with h6 | ⟨_, _, d, h6, h7⟩
            · exact hmin e' (hp.mem_iff.2 (List.mem_cons_of_mem _ h6))
            · have := hw _ _ _ ((hn _ _ _).1 h6); grind
          let δ' : α → Rat := fun x => if x = e.node then e.cost else δ x
          have hδv : ∀ x, x ∈ s.visited → δ' x = δ x := fun x hx => by
            show (if x = e.node then e.cost else δ x) = δ x
            rw [if_neg]; intro h; subst h; exact hv hx
          have hδe : δ' e.node = e.cost := if_pos rfl
          refine ⟨⟨⟨δ', fun x hx => mem_sadd.2 (.inr (hI.avs x hx)), ?_, ?_, ?_, ?_, ?_, ?_⟩, ?_⟩, ?_⟩
          · intro e' he'
            rcases h2 e' he' with h6 | ⟨h6, _, d, h7, h8⟩
            · exact hI.ent e' (hp.mem_iff.2 (List.mem_cons_of_mem _ h6))
            · refine ⟨?_, ?_⟩
              · rw [h6, h8]
                simp only [List.reverse_cons]
                exact hwalk.snoc ((hn _ _ _).1 h7)
              · rw [h6]; intro x hx
                rcases List.mem_cons.1 hx with rfl | hx
                · exact hava
                · exact hpath x hx
          · intro x y c hx hxa hxy hya
            rcases mem_sadd.1 hx with rfl | hx
            · rw [hδe]
              by_cases hy : y ∈ sadd s.visited e.node
              · refine .inl ⟨hy, ?_⟩
                have hc := hw _ _ _ hxy
                rcases mem_sadd.1 hy with rfl | hy
                · rw [hδe]; grind
                · rw [hδv y hy]; have := hI.settled y hy hya e heq; grind
              · obtain ⟨m, hm, hm2⟩ := h5 y c ((hn _ _ _).2 hxy) hy
                rcases h3 y m hm with h6 | ⟨e', h6, h7, h8⟩
                · rcases hI.mins y m h6 with h7 | ⟨e', h7, h8, h9⟩
                  · exact absurd (mem_sadd.2 (.inr h7)) hy
                  · rcases List.mem_cons.1 (hp.mem_iff.1 h7) with rfl | h7
                    · exact absurd (mem_sadd.2 (.inl h8.symm)) hy
                    · exact .inr ⟨e', h1 _ h7, h8, by grind⟩
                · exact .inr ⟨e', h6, h7, by grind⟩
            · rw [hδv x hx]
              rcases hI.edge x y c hx hxa hxy hya with ⟨h6, h7⟩ | ⟨e', h6, h7, h8⟩
              · exact .inl ⟨mem_sadd.2 (.inr h6), by rw [hδv y h6]; exact h7⟩
              · rcases List.mem_cons.1 (hp.mem_iff.1 h6) with rfl | h6
                · subst h7
                  exact .inl ⟨mem_sadd.2 (.inl rfl), by rw [hδe]; exact h8⟩
                · exact .inr ⟨e', h1 _ h6, h7, h8⟩
          · intro x hx hxa e' he'
            rcases mem_sadd.1 hx with rfl | hx
            · rw [hδe]; exact hcost e' he'
            · rw [hδv x hx]
              have := hI.settled x hx hxa e heq
              have := hcost e' he'
              grind
          · intro y m hm
            rcases h3 y m hm with h6 | h6
            · rcases hI.mins y m h6 with h7 | ⟨e', h7, h8, h9⟩
              · exact .inl (mem_sadd.2 (.inr h7))
              · rcases List.mem_cons.1 (hp.mem_iff.1 h7) with rfl | h7
                · exact .inl (mem_sadd.2 (.inl h8.symm))
                · exact .inr ⟨e', h1 _ h7, h8, h9⟩
            · exact .inr h6
          · intro hsa
            rcases hI.src hsa with ⟨h6, h7⟩ | ⟨e', h6, h7, h8⟩
            · exact .inl ⟨mem_sadd.2 (.inr h6), by rw [hδv _ h6]; exact h7⟩
            · rcases List.mem_cons.1 (hp.mem_iff.1 h6) with rfl | h6
              · subst h7
                exact .inl ⟨mem_sadd.2 (.inl rfl), by rw [hδe]; exact h8⟩
              · exact .inr ⟨e', h1 _ h6, h7, h8⟩
          · intro h6
            rcases mem_sadd.1 h6 with h6 | h6
            · exact absurd h6.symm hfin
            · exact hI.nofin h6
          · intro e' he'
            rcases h2 e' he' with h6 | ⟨_, _, d, h6, _⟩
            · exact hq e' (hp.mem_iff.2 (List.mem_cons_of_mem _ h6))
            · exact (hU _ _ _ ((hn _ _ _).1 h6)).2
          · refine .left _ _ ?_
            exact unvis_lt (fun x hx => mem_sadd.2 (.inr hx)) (hq e heq) hv (mem_sadd.2 (.inl rfl))
  · rintro s r ⟨⟨δ, hI⟩, hq⟩ hst
    unfold dijStep at hst
    split at hst
    · rename_i hpop
      rw [popMin_none] at hpop
      simp only [Sum.inr.injEq] at hst
      subst hst
      refine .inr ⟨rfl, ?_⟩
      rintro ⟨p, c, hp⟩
      rcases hI.walk_start hw hp with ⟨h1, _⟩ | ⟨e, h1, _⟩
      · have := hI.nofin h1
        refine hp.2 fin ?_ this
        exact List.mem_of_getLast? hp.1.2.1
      · rw [hpop] at h1; cases h1
    · rename_i e q hpop
      obtain ⟨hp, hmin⟩ := popMin_some hpop
      have heq : e ∈ s.q := hp.mem_iff.2 (by simp)
      split at hst
      · cases hst
      · rename_i hv
        dsimp only at hst
        split at hst
        · rename_i hfin
          simp only [Sum.inr.injEq] at hst
          subst hst
          subst hfin
          have hava : e.node ∉ av := fun h => hv (hI.avs _ h)
          obtain ⟨hwalk, hpath⟩ := hI.ent e heq
          refine .inl ⟨e.cost, rfl, ⟨?_, ?_⟩, ?_⟩
          · simpa using hwalk
          · intro x hx
            simp at hx
            rcases hx with hx | rfl
            · exact hpath x hx
            · exact hava
          · intro p c hp'
            rcases hI.walk_start hw hp' with ⟨h1, _⟩ | ⟨e', h1, h2⟩
            · exact absurd h1 hv
            · have := hmin e' h1; grind
        · cases hst
  · refine ⟨⟨fun _ => 0, fun x hx => hx, ?_, ?_, ?_, ?_, ?_, ?_⟩, ?_⟩
    · intro e he
      simp at he; subst he
      exact ⟨by simpa using WalkOf.single start, by simp⟩
    · intro x y c hx hxa; exact absurd hx hxa
    · intro x hx hxa; exact absurd hx hxa
    · intro y m hm
      rw [Dict.get?_set] at hm
      split at hm
      · rename_i h; cases hm; exact .inr ⟨_, by simp; rfl, h, Rat.le_refl⟩
      · simp at hm
    · intro _; exact .inr ⟨_, by simp; rfl, rfl, Rat.le_refl⟩
    · exact fun h => h
    · intro e he; simp at he; subst he; exact hs

theorem Graph.Inv.mem_outNbr {g : Graph α V O} (h : g.Inv) {x y : α} {c : V} :
    (y, c) ∈ g.outNbr x ↔ g.edge x y = some c := by
  unfold outNbr
  simp only [List.mem_map, Prod.mk.injEq, Prod.exists, h.mem_edgesFrom]
  constructor
  · rintro ⟨a, b, v, ⟨rfl, h1⟩, rfl, rfl⟩; exact h1
  · intro h1; exact ⟨x, y, c, ⟨rfl, h1⟩, rfl, rfl⟩

theorem Graph.Inv.mem_inNbr {g : Graph α V O} (h : g.Inv) {x y : α} {c : V} :
    (y, c) ∈ g.inNbr x ↔ g.edge y x = some c := by
  unfold inNbr
  simp only [List.mem_map, Prod.mk.injEq, Prod.exists, h.mem_edgesTo]
  constructor
  · rintro ⟨a, b, v, ⟨rfl, h1⟩, rfl, rfl⟩; exact h1
  · intro h1; exact ⟨y, x, c, ⟨rfl, h1⟩, rfl, rfl⟩

theorem Graph.Inv.edge_mem {g : Graph α V O} (h : g.Inv) {x y : α} {c : V} (he : g.edge x y = some c) :
    x ∈ g.nodeList ∧ y ∈ g.nodeList := h.finite x y (by unfold Adj; rw [he]; rfl)

theorem shortestPath_spec {g : Graph α Rat O} (h : g.Inv) (hw : NonNeg g.edge) {start fin : α} (av : List α)
    (hs : g.has start = true) (hf : g.has fin = true) :
    ∃ r, g.shortestPath start fin av = some (.ok r) ∧ SpResult g.edge av start fin r := by
  unfold shortestPath
  simp only [hs, hf, Bool.not_true, Bool.false_eq_true, if_false]
  obtain ⟨r, h1, h2⟩ := dij_spec (fun x y c => h.mem_outNbr) hw (fun x y c => h.edge_mem) (fin := fin) (has_iff.1 hs) av
  rw [h1]
  exact ⟨r, rfl, h2⟩

theorem shortestPath_error {g : Graph α Rat O} {start fin : α} (av : List α)
    (hne : ¬ (g.has start = true ∧ g.has fin = true)) :
    g.shortestPath start fin av = some (.error .valueError) := by
  unfold shortestPath
  split
  · rfl
  · split
    · rfl
    · rename_i h1 h2; simp at h1 h2; exact absurd ⟨h1, h2⟩ hne

end GT

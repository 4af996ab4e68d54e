import Verif.Sp.DijkstraFl
import Verif.Spec.Numbers
/-
Model of `shortest_path` (graph/shortest_path.py:11-58) for edge values of any number type: the function uses nothing of the values but
`0 + v`, `cost + v` and `<`.  `heappop` is a parameter: with values that are not ordered (`nan`) the heap hands out some entry, not a
smallest one.
-/
namespace GT
variable {α V O C : Type} [DecidableEq α]
open Graph

/-- an entry `(cost, i, node, path)` of the heap (shortest_path.py:33, 56).  `path` is the linked list `(v, (u, …))`, most recent node
first. -/
structure EntA (α C : Type) where
  cost : C
  ix : Nat
  node : α
  path : List α
  deriving DecidableEq, Repr

/-- the locals of `shortest_path` -/
structure DijStA (α C : Type) where
  q : List (EntA α C)
  mins : Dict α C
  visited : List α
  i : Nat
  deriving DecidableEq

/-- the loop over the outgoing edges (shortest_path.py:49-57) -/
def dijRelaxNum (N : NumType C V) (cost : C) (path : List α) (visited : List α) :
    List (α × V) → List (EntA α C) × Dict α C × Nat → List (EntA α C) × Dict α C × Nat
  | [], s => s
  | (v2, dist) :: l, (q, mins, i) =>
    if v2 ∈ visited then dijRelaxNum N cost path visited l (q, mins, i)
    else match mins.get? v2 with
      | none => dijRelaxNum N cost path visited l (⟨N.add cost dist, i, v2, path⟩ :: q, mins.set v2 (N.add cost dist), i + 1)
      | some prev =>
        if N.lt (N.add cost dist) prev then
          dijRelaxNum N cost path visited l (⟨N.add cost dist, i, v2, path⟩ :: q, mins.set v2 (N.add cost dist), i + 1)
        else dijRelaxNum N cost path visited l (q, mins, i)

/-- one iteration of `while q` (shortest_path.py:35-57).  `nbr v` lists `(node, value)` of the edges leaving `v`; `pop` is `heappop`.
The entries waiting in the heap are different at any two moments of a run (the counter `i` is part of them), so a function of their list
covers whatever the heap's internal order makes it return. -/
def dijStepNum (N : NumType C V) (pop : List (EntA α C) → Option (EntA α C × List (EntA α C))) (nbr : α → List (α × V)) (fin : α)
    (s : DijStA α C) : DijStA α C ⊕ (Option C × List α) :=
  match pop s.q with
  | none => .inr (none, [])
  | some (e, q) =>
    if e.node ∈ s.visited then .inl { s with q := q }
    else
      let visited := sadd s.visited e.node
      let path := e.node :: e.path
      if e.node = fin then .inr (some e.cost, path.reverse)
      else
        let (q, mins, i) := dijRelaxNum N e.cost path visited (nbr e.node) (q, s.mins, s.i)
        .inl ⟨q, mins, visited, i⟩

/-- `shortest_path(graph, start, end, avoids)` (shortest_path.py:11-58).  `avoids=None` is the empty list.  `none` as the distance is the
`float('inf')` of line 58.
Simplifications: the type checks of `graph` and `avoids` hold by typing; `+` and `<` raise nothing. -/
def Graph.shortestPathNum (N : NumType C V) (pop : List (EntA α C) → Option (EntA α C × List (EntA α C))) (g : Graph α V O) (start fin : α)
    (avoids : List α := []) : Option (Py (Option C × List α)) :=
  if !g.has start then some (.error .valueError)
  else if !g.has fin then some (.error .valueError)
  else match pyWhile (dijStepNum N pop g.outNbr fin) ⟨[⟨N.zero, 0, start, []⟩], Dict.empty.set start N.zero, avoids, 1⟩ with
    | none => none
    | some r => some (.ok r)

/-- `heappop` returns an entry of the heap and removes it -/
structure PopOk (pop : List (EntA α C) → Option (EntA α C × List (EntA α C))) : Prop where
  none : ∀ q, pop q = none ↔ q = []
  some : ∀ q m r, pop q = some (m, r) → q.Perm (m :: r)

/-- tuple order of heap entries: the costs are compared with `==` and, if different, with `<`; if equal, the counters are compared -/
def EntA.lt (N : NumType C V) (a b : EntA α C) : Bool := if N.eq a.cost b.cost then decide (a.ix < b.ix) else N.lt a.cost b.cost

/-- `heappop(q)` when the costs are ordered: removes and returns the smallest entry -/
def popMinA (N : NumType C V) : List (EntA α C) → Option (EntA α C × List (EntA α C))
  | [] => none
  | e :: l => match popMinA N l with
    | none => some (e, [])
    | some (m, r) => if m.lt N e then some (m, e :: r) else some (e, l)

/-- what the proof uses of an order on the costs; `fun _ _ => True` qualifies -/
structure DijOrd (N : NumType C V) (le : C → C → Prop) (ok : C → Prop) (good : V → Prop) : Prop where
  of_lt : ∀ a b, N.lt a b = true → le a b
  of_nlt : ∀ a b, N.lt a b = false → le b a
  refl : ∀ a, le a a
  trans : ∀ a b c, le a b → le b c → le a c
  mono : ∀ a b v, good v → le a b → le (N.add a v) (N.add b v)
  ext : ∀ a v, ok a → good v → le a (N.add a v)
  ok_zero : ok N.zero
  ok_add : ∀ a v, ok a → good v → ok (N.add a v)

theorem DijOrd.trivial (N : NumType C V) : DijOrd N (fun _ _ => True) (fun _ => True) (fun _ => True) := by
  constructor <;> intros <;> exact True.intro

theorem DijOrd.of_laws {N : NumType C V} {ok : C → Prop} {good : V → Prop} (h : N.Laws ok good) : DijOrd N N.le ok good :=
  ⟨fun a b hab => h.asymm a b hab, fun _ _ h => h, h.irrefl, h.trans, h.mono, h.ext, h.ok_zero, h.ok_add⟩

/-! ### proofs -/

/-- what the relaxation of the edges of the node just settled does -/
theorem dijRelaxNum_spec {N : NumType C V} {le : C → C → Prop} {ok : C → Prop} {good : V → Prop} (hN : DijOrd N le ok good) {cost : C} {path : List α} {visited : List α} (l : List (α × V)) :
    ∀ (q : List (EntA α C)) (mins : Dict α C) (i : Nat) q' mins' i',
    dijRelaxNum N cost path visited l (q, mins, i) = (q', mins', i') →
    (∀ e ∈ q, e ∈ q') ∧
    (∀ e ∈ q', e ∈ q ∨ (e.path = path ∧ e.node ∉ visited ∧ ∃ d, (e.node, d) ∈ l ∧ e.cost = N.add cost d)) ∧
    (∀ y m, mins'.get? y = some m → mins.get? y = some m ∨ ∃ e ∈ q', e.node = y ∧ le (e.cost) (m)) ∧
    (∀ y m, mins.get? y = some m → ∃ m', mins'.get? y = some m' ∧ le (m') (m)) ∧
    (∀ y d, (y, d) ∈ l → y ∉ visited → ∃ m, mins'.get? y = some m ∧ le (m) (N.add cost d)) := by
  induction l with
  | nil =>
    intro q mins i q' mins' i' h
    simp only [dijRelaxNum, Prod.mk.injEq] at h
    obtain ⟨rfl, rfl, rfl⟩ := h
    exact ⟨fun _ h => h, fun _ h => .inl h, fun _ _ h => .inl h, fun y m h => ⟨m, h, hN.refl _⟩, by simp⟩
  | cons a l ih =>
    obtain ⟨v2, dist⟩ := a
    intro q mins i q' mins' i' h
    simp only [dijRelaxNum] at h
    have push : (∀ m, mins.get? v2 = some m → le (N.add cost dist) (m)) → v2 ∉ visited →
        dijRelaxNum N cost path visited l (⟨N.add cost dist, i, v2, path⟩ :: q, mins.set v2 (N.add cost dist), i + 1) = (q', mins', i') →
        (∀ e ∈ q, e ∈ q') ∧
        (∀ e ∈ q', e ∈ q ∨ (e.path = path ∧ e.node ∉ visited ∧ ∃ d, (e.node, d) ∈ (v2, dist) :: l ∧ e.cost = N.add cost d)) ∧
        (∀ y m, mins'.get? y = some m → mins.get? y = some m ∨ ∃ e ∈ q', e.node = y ∧ le (e.cost) (m)) ∧
        (∀ y m, mins.get? y = some m → ∃ m', mins'.get? y = some m' ∧ le (m') (m)) ∧
        (∀ y d, (y, d) ∈ (v2, dist) :: l → y ∉ visited → ∃ m, mins'.get? y = some m ∧ le (m) (N.add cost d)) := by
      intro hle hv h
      obtain ⟨h1, h2, h3, h4, h5⟩ := ih _ _ _ _ _ _ h
      have hnew := h1 _ (List.mem_cons_self ..)
      refine ⟨fun e he => h1 e (List.mem_cons_of_mem _ he), fun e he => ?_, fun y m hm => ?_, fun y m hm => ?_, fun y d hy hyv => ?_⟩
      · rcases h2 e he with h6 | ⟨h6, h7, d, h8, h9⟩
        · rcases List.mem_cons.1 h6 with rfl | h6
          · exact .inr ⟨rfl, hv, dist, by simp, rfl⟩
          · exact .inl h6
        · exact .inr ⟨h6, h7, d, List.mem_cons_of_mem _ h8, h9⟩
      · rcases h3 y m hm with h6 | h6
        · rw [Dict.get?_set] at h6
          split at h6
          · rename_i hy
            cases h6
            exact .inr ⟨_, hnew, hy, hN.refl _⟩
          · exact .inl h6
        · exact .inr h6
      · by_cases hy : v2 = y
        · subst hy
          obtain ⟨m', h6, h7⟩ := h4 v2 (N.add cost dist) (by simp)
          exact ⟨m', h6, by exact hN.trans _ _ _ h7 (hle m hm)⟩
        · exact h4 y m (by rw [Dict.get?_set_ne _ _ hy]; exact hm)
      · rcases List.mem_cons.1 hy with h6 | h6
        · cases h6; exact h4 v2 (N.add cost dist) (by simp)
        · exact h5 y d h6 hyv
    have skip : (v2 ∉ visited → ∃ m, mins.get? v2 = some m ∧ le (m) (N.add cost dist)) →
        dijRelaxNum N cost path visited l (q, mins, i) = (q', mins', i') →
        (∀ e ∈ q, e ∈ q') ∧
        (∀ e ∈ q', e ∈ q ∨ (e.path = path ∧ e.node ∉ visited ∧ ∃ d, (e.node, d) ∈ (v2, dist) :: l ∧ e.cost = N.add cost d)) ∧
        (∀ y m, mins'.get? y = some m → mins.get? y = some m ∨ ∃ e ∈ q', e.node = y ∧ le (e.cost) (m)) ∧
        (∀ y m, mins.get? y = some m → ∃ m', mins'.get? y = some m' ∧ le (m') (m)) ∧
        (∀ y d, (y, d) ∈ (v2, dist) :: l → y ∉ visited → ∃ m, mins'.get? y = some m ∧ le (m) (N.add cost d)) := by
      intro hsk h
      obtain ⟨h1, h2, h3, h4, h5⟩ := ih _ _ _ _ _ _ h
      refine ⟨h1, fun e he => ?_, h3, h4, fun y d hy hyv => ?_⟩
      · rcases h2 e he with h6 | ⟨h6, h7, d, h8, h9⟩
        · exact .inl h6
        · exact .inr ⟨h6, h7, d, List.mem_cons_of_mem _ h8, h9⟩
      · rcases List.mem_cons.1 hy with h6 | h6
        · cases h6
          obtain ⟨m, hm, hm2⟩ := hsk hyv
          obtain ⟨m', h7, h8⟩ := h4 _ _ hm
          exact ⟨m', h7, hN.trans _ _ _ h8 hm2⟩
        · exact h5 y d h6 hyv
    split at h
    · rename_i hv
      exact skip (fun hn => absurd hv hn) h
    · rename_i hv
      split at h
      · rename_i hm
        exact push (fun m hm2 => by rw [hm] at hm2; cases hm2) hv h
      · rename_i prev hm
        split at h
        · rename_i hlt
          exact push (fun m hm2 => by rw [hm] at hm2; cases hm2; exact hN.of_lt _ _ hlt) hv h
        · rename_i hlt
          exact skip (fun _ => ⟨prev, hm, hN.of_nlt _ _ (by simpa using hlt)⟩) h

/-- the invariant; `δ` are the distances of the settled nodes -/
structure NumInv (N : NumType C V) (le : C → C → Prop) (ok : C → Prop) (w : α → α → Option V) (start fin : α) (av : List α) (δ : α → C) (s : DijStA α C) : Prop where
  avs : ∀ x ∈ av, x ∈ s.visited
  ent : ∀ e ∈ s.q, ((e.path.reverse ++ [e.node]).head? = some start ∧ anyCost N w N.zero (e.path.reverse ++ [e.node]) = some e.cost ∧ ok e.cost) ∧
    ∀ x ∈ e.path, x ∉ av
  edge : ∀ x y c, x ∈ s.visited → x ∉ av → w x y = some c → y ∉ av →
    (y ∈ s.visited ∧ le (δ y) (N.add (δ x) c)) ∨ ∃ e ∈ s.q, e.node = y ∧ le (e.cost) (N.add (δ x) c)
  settled : ∀ x, x ∈ s.visited → x ∉ av → ∀ e ∈ s.q, le (δ x) (e.cost)
  mins : ∀ y m, s.mins.get? y = some m → y ∈ s.visited ∨ ∃ e ∈ s.q, e.node = y ∧ le (e.cost) (m)
  src : start ∉ av → (start ∈ s.visited ∧ le (δ start) (N.zero)) ∨ ∃ e ∈ s.q, e.node = start ∧ le (e.cost) (N.zero)
  nofin : fin ∈ s.visited → fin ∈ av

/-- along every walk that avoids `av` the search has settled the end or has a cheap enough pending entry -/
theorem NumInv.walk {N : NumType C V} {le : C → C → Prop} {ok : C → Prop} {good : V → Prop} (hN : DijOrd N le ok good) {w : α → α → Option V} (hw : ∀ a b c, w a b = some c → good c) {start fin : α} {av : List α} {δ : α → C}
    {s : DijStA α C} (h : NumInv N le ok w start fin av δ s) (p : List α) :
    ∀ x c0, ((x ∈ s.visited ∧ le (δ x) (c0)) ∨ ∃ e ∈ s.q, le (e.cost) (c0)) →
    ∀ z d, p.head? = some x → p.getLast? = some z → anyCost N w c0 p = some d → (∀ y ∈ p, y ∉ av) →
      (z ∈ s.visited ∧ le (δ z) (d)) ∨ ∃ e ∈ s.q, le (e.cost) (d) := by
  induction p with
  | nil => intro x c0 _ z d hz; simp at hz
  | cons a p ih =>
    intro x c0 hc z d hx hz hd hav
    simp only [List.head?_cons, Option.some.injEq] at hx
    subst hx
    cases p with
    | nil =>
      simp at hz; subst hz
      simp only [anyCost, Option.some.injEq] at hd; subst hd
      exact hc
    | cons b p =>
      simp only [anyCost] at hd
      split at hd
      · rename_i c hab
        have hcn := hw _ _ _ hab
        refine ih b (N.add c0 c) ?_ z d rfl (by simpa using hz) hd (fun y hy => hav y (List.mem_cons_of_mem _ hy))
        rcases hc with ⟨h5, h6⟩ | ⟨e, h5, h6⟩
        · have hm := hN.mono (δ a) c0 c hcn h6
          rcases h.edge a b c h5 (hav a (by simp)) hab (hav b (by simp)) with ⟨h7, h8⟩ | ⟨e, h7, _, h8⟩
          · exact .inl ⟨h7, hN.trans _ _ _ h8 hm⟩
          · exact .inr ⟨e, h7, hN.trans _ _ _ h8 hm⟩
        · have hm := hN.mono e.cost c0 c hcn h6
          have := (h.ent e h5).1.2.2
          exact .inr ⟨e, h5, hN.trans _ _ _ (hN.ext _ _ this hcn) hm⟩
      · cases hd

theorem NumInv.walk_start {N : NumType C V} {le : C → C → Prop} {ok : C → Prop} {good : V → Prop} (hN : DijOrd N le ok good) {w : α → α → Option V} (hw : ∀ a b c, w a b = some c → good c) {start fin : α} {av : List α} {δ : α → C}
    {s : DijStA α C} (h : NumInv N le ok w start fin av δ s) {z : α} {p : List α} {d : C}
    (hp : AnyWalk N w av start z p d) : (z ∈ s.visited ∧ le (δ z) (d)) ∨ ∃ e ∈ s.q, le (e.cost) (d) := by
  obtain ⟨h1, h2, h3, h4⟩ := hp
  have hs : start ∉ av := h4 _ (List.mem_of_head? h1)
  exact h.walk hN hw p start N.zero ((h.src hs).imp id (fun ⟨e, a, _, b⟩ => ⟨e, a, b⟩)) z d h1 h2 h3 h4

/-- what the search returns -/
def NumResult (N : NumType C V) (le : C → C → Prop) (w : α → α → Option V) (av : List α) (start fin : α) (r : Option C × List α) : Prop :=
  (∃ d, r.1 = some d ∧ AnyWalk N w av start fin r.2 d ∧ ∀ p c, AnyWalk N w av start fin p c → le d c) ∨
  (r = (none, []) ∧ ¬ ∃ p c, AnyWalk N w av start fin p c)

/-- the invariant of the loop: the distances `δ` exist and the entries are about nodes of the graph -/
def NumInvU (N : NumType C V) (le : C → C → Prop) (ok : C → Prop) (w : α → α → Option V) (U : List α) (start fin : α) (av : List α) (s : DijStA α C) : Prop :=
  (∃ δ, NumInv N le ok w start fin av δ s) ∧ ∀ e ∈ s.q, e.node ∈ U

theorem dijNum_inl {N : NumType C V} {le : C → C → Prop} {ok : C → Prop} {good : V → Prop} (hN : DijOrd N le ok good) {pop : List (EntA α C) → Option (EntA α C × List (EntA α C))} (hpo : PopOk pop) (hpm : ∀ q m r, pop q = some (m, r) → ∀ e ∈ q, le m.cost e.cost) {nbr : α → List (α × V)} {w : α → α → Option V}
    (hn : ∀ x y c, (y, c) ∈ nbr x ↔ w x y = some c) (hw : ∀ a b c, w a b = some c → good c) {U : List α}
    (hU : ∀ x y c, w x y = some c → x ∈ U ∧ y ∈ U) {start fin : α} {av : List α}
    {s s' : DijStA α C} (hI : NumInvU N le ok w U start fin av s) (hst : dijStepNum N pop nbr fin s = .inl s') :
    NumInvU N le ok w U start fin av s' ∧ lexNat (unvis U s'.visited, s'.q.length) (unvis U s.visited, s.q.length) := by
  obtain ⟨⟨δ, hI⟩, hq⟩ := hI
  unfold dijStepNum at hst
  split at hst
  · cases hst
  · rename_i e q hpop
    have hp := (hpo.some _ _ _ hpop)
    have hmin := hpm _ _ _ hpop
    have heq : e ∈ s.q := hp.mem_iff.2 (by simp)
    split at hst
    · rename_i hv
      simp only [Sum.inl.injEq] at hst
      subst hst
      refine ⟨⟨⟨δ, hI.avs, fun e' he' => hI.ent e' (hp.mem_iff.2 (List.mem_cons_of_mem _ he')), ?_,
        fun x hx hxa e' he' => hI.settled x hx hxa e' (hp.mem_iff.2 (List.mem_cons_of_mem _ he')), ?_, ?_, hI.nofin⟩,
        fun e' he' => hq e' (hp.mem_iff.2 (List.mem_cons_of_mem _ he'))⟩, ?_⟩
      · intro x y c hx hxa hxy hya
        rcases hI.edge x y c hx hxa hxy hya with h1 | ⟨e', h1, h2, h3⟩
        · exact .inl h1
        · rcases List.mem_cons.1 (hp.mem_iff.1 h1) with rfl | h1
          · subst h2
            exact .inl ⟨hv, by exact hN.trans _ _ _ (hI.settled _ hv hya _ heq) h3⟩
          · exact .inr ⟨e', h1, h2, h3⟩
      · intro y m hm
        rcases hI.mins y m hm with h1 | ⟨e', h1, h2, h3⟩
        · exact .inl h1
        · rcases List.mem_cons.1 (hp.mem_iff.1 h1) with rfl | h1
          · subst h2; exact .inl hv
          · exact .inr ⟨e', h1, h2, h3⟩
      · intro hsa
        rcases hI.src hsa with h1 | ⟨e', h1, h2, h3⟩
        · exact .inl h1
        · rcases List.mem_cons.1 (hp.mem_iff.1 h1) with rfl | h1
          · subst h2
            exact .inl ⟨hv, by exact hN.trans _ _ _ (hI.settled _ hv hsa _ heq) h3⟩
          · exact .inr ⟨e', h1, h2, h3⟩
      · refine .right _ ?_
        have := hp.length_eq
        simp at this
        show q.length < s.q.length
        omega
    · rename_i hv
      dsimp only at hst
      split at hst
      · cases hst
      · rename_i hfin
        simp only [Sum.inl.injEq] at hst
        subst hst
        have hava : e.node ∉ av := fun h => hv (hI.avs _ h)
        obtain ⟨hwalk, hpath⟩ := hI.ent e heq
        generalize hr : dijRelaxNum N e.cost (e.node :: e.path) (sadd s.visited e.node) (nbr e.node) (q, s.mins, s.i) = r
        obtain ⟨q', mins', i'⟩ := r
        obtain ⟨h1, h2, h3, h4, h5⟩ := dijRelaxNum_spec hN _ _ _ _ _ _ _ hr
        have hcost : ∀ e' ∈ q', le (e.cost) (e'.cost) := by
          intro e' he'
          rcases h2 e' he' with h6 | ⟨_, _, d, h6, h7⟩
          · exact hmin e' (hp.mem_iff.2 (List.mem_cons_of_mem _ h6))
          · have := hw _ _ _ ((hn _ _ _).1 h6)
            rw [h7]; exact hN.ext _ _ hwalk.2.2 this
        let δ' : α → C := fun x => if x = e.node then e.cost else δ x
        have hδv : ∀ x, x ∈ s.visited → δ' x = δ x := fun x hx => by
          show (if x = e.node then e.cost else δ x) = δ x
          rw [if_neg]; intro h; subst h; exact hv hx
        have hδe : δ' e.node = e.cost := if_pos rfl
        refine ⟨⟨⟨δ', fun x hx => mem_sadd.2 (.inr (hI.avs x hx)), ?_, ?_, ?_, ?_, ?_, ?_⟩, ?_⟩, ?_⟩
        · intro e' he'
          rcases h2 e' he' with h6 | ⟨h6, _, d, h7, h8⟩
          · exact hI.ent e' (hp.mem_iff.2 (List.mem_cons_of_mem _ h6))
          · refine ⟨?_, ?_⟩
            · rw [h6, h8]
              simp only [List.reverse_cons]
              refine ⟨?_, anyCost_snoc (by simp) hwalk.2.1 ((hn _ _ _).1 h7), hN.ok_add _ _ hwalk.2.2 (hw _ _ _ ((hn _ _ _).1 h7))⟩
              rw [List.head?_append]
              simp only [hwalk.1, Option.some_or]
            · rw [h6]; intro x hx
              rcases List.mem_cons.1 hx with rfl | hx
              · exact hava
              · exact hpath x hx
        · intro x y c hx hxa hxy hya
          rcases mem_sadd.1 hx with rfl | hx
          · rw [hδe]
            by_cases hy : y ∈ sadd s.visited e.node
            · refine .inl ⟨hy, ?_⟩
              have hc := hw _ _ _ hxy
              have hm := hN.ext _ _ hwalk.2.2 hc
              rcases mem_sadd.1 hy with rfl | hy
              · rw [hδe]; exact hm
              · rw [hδv y hy]; exact hN.trans _ _ _ (hI.settled y hy hya e heq) hm
            · obtain ⟨m, hm, hm2⟩ := h5 y c ((hn _ _ _).2 hxy) hy
              rcases h3 y m hm with h6 | ⟨e', h6, h7, h8⟩
              · rcases hI.mins y m h6 with h7 | ⟨e', h7, h8, h9⟩
                · exact absurd (mem_sadd.2 (.inr h7)) hy
                · rcases List.mem_cons.1 (hp.mem_iff.1 h7) with rfl | h7
                  · exact absurd (mem_sadd.2 (.inl h8.symm)) hy
                  · exact .inr ⟨e', h1 _ h7, h8, hN.trans _ _ _ h9 hm2⟩
              · exact .inr ⟨e', h6, h7, hN.trans _ _ _ h8 hm2⟩
          · rw [hδv x hx]
            rcases hI.edge x y c hx hxa hxy hya with ⟨h6, h7⟩ | ⟨e', h6, h7, h8⟩
            · exact .inl ⟨mem_sadd.2 (.inr h6), by rw [hδv y h6]; exact h7⟩
            · rcases List.mem_cons.1 (hp.mem_iff.1 h6) with rfl | h6
              · subst h7
                exact .inl ⟨mem_sadd.2 (.inl rfl), by rw [hδe]; exact h8⟩
              · exact .inr ⟨e', h1 _ h6, h7, h8⟩
        · intro x hx hxa e' he'
          rcases mem_sadd.1 hx with rfl | hx
          · rw [hδe]; exact hcost e' he'
          · rw [hδv x hx]
            exact hN.trans _ _ _ (hI.settled x hx hxa e heq) (hcost e' he')
        · intro y m hm
          rcases h3 y m hm with h6 | h6
          · rcases hI.mins y m h6 with h7 | ⟨e', h7, h8, h9⟩
            · exact .inl (mem_sadd.2 (.inr h7))
            · rcases List.mem_cons.1 (hp.mem_iff.1 h7) with rfl | h7
              · exact .inl (mem_sadd.2 (.inl h8.symm))
              · exact .inr ⟨e', h1 _ h7, h8, h9⟩
          · exact .inr h6
        · intro hsa
          rcases hI.src hsa with ⟨h6, h7⟩ | ⟨e', h6, h7, h8⟩
          · exact .inl ⟨mem_sadd.2 (.inr h6), by rw [hδv _ h6]; exact h7⟩
          · rcases List.mem_cons.1 (hp.mem_iff.1 h6) with rfl | h6
            · subst h7
              exact .inl ⟨mem_sadd.2 (.inl rfl), by rw [hδe]; exact h8⟩
            · exact .inr ⟨e', h1 _ h6, h7, h8⟩
        · intro h6
          rcases mem_sadd.1 h6 with h6 | h6
          · exact absurd h6.symm hfin
          · exact hI.nofin h6
        · intro e' he'
          rcases h2 e' he' with h6 | ⟨_, _, d, h6, _⟩
          · exact hq e' (hp.mem_iff.2 (List.mem_cons_of_mem _ h6))
          · exact (hU _ _ _ ((hn _ _ _).1 h6)).2
        · refine .left _ _ ?_
          exact unvis_lt (fun x hx => mem_sadd.2 (.inr hx)) (hq e heq) hv (mem_sadd.2 (.inl rfl))

theorem dijNum_inr {N : NumType C V} {le : C → C → Prop} {ok : C → Prop} {good : V → Prop} (hN : DijOrd N le ok good) {pop : List (EntA α C) → Option (EntA α C × List (EntA α C))} (hpo : PopOk pop) (hpm : ∀ q m r, pop q = some (m, r) → ∀ e ∈ q, le m.cost e.cost) {nbr : α → List (α × V)} {w : α → α → Option V}
    (hw : ∀ a b c, w a b = some c → good c) {U : List α} {start fin : α} {av : List α}
    {s : DijStA α C} {r : Option C × List α} (hI : NumInvU N le ok w U start fin av s) (hst : dijStepNum N pop nbr fin s = .inr r) :
    NumResult N le w av start fin r := by
  obtain ⟨⟨δ, hI⟩, hq⟩ := hI
  unfold dijStepNum at hst
  split at hst
  · rename_i hpop
    rw [hpo.none] at hpop
    simp only [Sum.inr.injEq] at hst
    subst hst
    refine .inr ⟨rfl, ?_⟩
    rintro ⟨p, c, hp⟩
    rcases hI.walk_start hN hw hp with ⟨h1, _⟩ | ⟨e, h1, _⟩
    · have := hI.nofin h1
      exact hp.2.2.2 fin (List.mem_of_getLast? hp.2.1) this
    · rw [hpop] at h1; cases h1
  · rename_i e q hpop
    have hp := (hpo.some _ _ _ hpop)
    have hmin := hpm _ _ _ hpop
    have heq : e ∈ s.q := hp.mem_iff.2 (by simp)
    split at hst
    · cases hst
    · rename_i hv
      dsimp only at hst
      split at hst
      · rename_i hfin
        simp only [Sum.inr.injEq] at hst
        subst hst
        subst hfin
        have hava : e.node ∉ av := fun h => hv (hI.avs _ h)
        obtain ⟨hwalk, hpath⟩ := hI.ent e heq
        refine .inl ⟨e.cost, rfl, ⟨?_, ?_, ?_, ?_⟩, ?_⟩
        · simpa using hwalk.1
        · simp
        · simpa using hwalk.2.1
        · intro x hx
          simp at hx
          rcases hx with hx | rfl
          · exact hpath x hx
          · exact hava
        · intro p c hp'
          rcases hI.walk_start hN hw hp' with ⟨h1, _⟩ | ⟨e', h1, h2⟩
          · exact absurd h1 hv
          · exact hN.trans _ _ _ (hmin e' h1) h2
      · cases hst

theorem numInvU_init {N : NumType C V} {le : C → C → Prop} {ok : C → Prop} {good : V → Prop} (hN : DijOrd N le ok good) {w : α → α → Option V} {U : List α}
    {start fin : α} (hs : start ∈ U) (av : List α) :
    NumInvU N le ok w U start fin av ⟨[⟨N.zero, 0, start, []⟩], Dict.empty.set start N.zero, av, 1⟩ := by
  refine ⟨⟨fun _ => N.zero, fun x hx => hx, ?_, ?_, ?_, ?_, ?_, ?_⟩, ?_⟩
  · intro e he
    simp at he; subst he
    exact ⟨⟨rfl, rfl, hN.ok_zero⟩, by simp⟩
  · intro x y c hx hxa; exact absurd hx hxa
  · intro x hx hxa; exact absurd hx hxa
  · intro y m hm
    rw [Dict.get?_set] at hm
    split at hm
    · rename_i h; cases hm; exact .inr ⟨_, by simp; rfl, h, hN.refl _⟩
    · simp at hm
  · intro _; exact .inr ⟨_, by simp; rfl, rfl, hN.refl _⟩
  · exact fun h => h
  · intro e he; simp at he; subst he; exact hs

theorem dijNum_spec {N : NumType C V} {le : C → C → Prop} {ok : C → Prop} {good : V → Prop} (hN : DijOrd N le ok good) {pop : List (EntA α C) → Option (EntA α C × List (EntA α C))} (hpo : PopOk pop) (hpm : ∀ q m r, pop q = some (m, r) → ∀ e ∈ q, le m.cost e.cost) {nbr : α → List (α × V)} {w : α → α → Option V}
    (hn : ∀ x y c, (y, c) ∈ nbr x ↔ w x y = some c) (hw : ∀ a b c, w a b = some c → good c) {U : List α}
    (hU : ∀ x y c, w x y = some c → x ∈ U ∧ y ∈ U) {start fin : α} (hs : start ∈ U) (av : List α) :
    ∃ r, pyWhile (dijStepNum N pop nbr fin) ⟨[⟨N.zero, 0, start, []⟩], Dict.empty.set start N.zero, av, 1⟩ = some r ∧
      NumResult N le w av start fin r := by
  exact pyWhile_totalW (NumInvU N le ok w U start fin av) (NumResult N le w av start fin)
    lexNat lexNat_wf (fun s => (unvis U s.visited, s.q.length)) (fun s s' hI hst => dijNum_inl hN hpo hpm hn hw hU hI hst)
    (fun s r hI hst => dijNum_inr hN hpo hpm hw hI hst) (numInvU_init hN hs av)

theorem shortestPathNum_spec {N : NumType C V} {le : C → C → Prop} {ok : C → Prop} {good : V → Prop} (hN : DijOrd N le ok good) {pop : List (EntA α C) → Option (EntA α C × List (EntA α C))} (hpo : PopOk pop) (hpm : ∀ q m r, pop q = some (m, r) → ∀ e ∈ q, le m.cost e.cost) {g : Graph α V O} (h : g.Inv) (hw : ∀ a b c, g.edge a b = some c → good c) {start fin : α} (av : List α)
    (hs : g.has start = true) (hf : g.has fin = true) :
    ∃ r, g.shortestPathNum N pop start fin av = some (.ok r) ∧ NumResult N le g.edge av start fin r := by
  unfold shortestPathNum
  simp only [hs, hf, Bool.not_true, Bool.false_eq_true, if_false]
  obtain ⟨r, h1, h2⟩ := dijNum_spec hN hpo hpm (fun x y c => h.mem_outNbr) hw (fun x y c => h.edge_mem) (fin := fin) (has_iff.1 hs) av
  rw [h1]
  exact ⟨r, rfl, h2⟩

theorem shortestPathNum_error {N : NumType C V} {pop : List (EntA α C) → Option (EntA α C × List (EntA α C))} {g : Graph α V O} {start fin : α} (av : List α)
    (hne : ¬ (g.has start = true ∧ g.has fin = true)) :
    g.shortestPathNum N pop start fin av = some (.error .valueError) := by
  unfold shortestPathNum
  split
  · rfl
  · split
    · rfl
    · rename_i h1 h2; simp at h1 h2; exact absurd ⟨h1, h2⟩ hne

/-- the entries carry simple paths of settled nodes -/
structure DijNdA (s : DijStA α C) : Prop where
  ent : ∀ e ∈ s.q, e.path.Nodup ∧ ∀ x ∈ e.path, x ∈ s.visited

theorem dijNdA_inl {N : NumType C V} {pop : List (EntA α C) → Option (EntA α C × List (EntA α C))} (hpo : PopOk pop) {nbr : α → List (α × V)} {fin : α}
    {s s' : DijStA α C} (hI : DijNdA s) (hst : dijStepNum N pop nbr fin s = .inl s') : DijNdA s' := by
  unfold dijStepNum at hst
  split at hst
  · cases hst
  · rename_i e q hpop
    have hp := (hpo.some _ _ _ hpop)
    split at hst
    · cases hst
      exact ⟨fun e' he' => hI.ent e' (hp.mem_iff.2 (List.mem_cons_of_mem _ he'))⟩
    · rename_i hv
      dsimp only at hst
      split at hst
      · cases hst
      · generalize hrr : dijRelaxNum N e.cost (e.node :: e.path) (sadd s.visited e.node) (nbr e.node) (q, s.mins, s.i) = rr at hst
        obtain ⟨q', mins', i'⟩ := rr
        cases hst
        obtain ⟨_, h2, _⟩ := dijRelaxNum_spec (DijOrd.trivial N) _ _ _ _ _ _ _ hrr
        refine ⟨fun e' he' => ?_⟩
        rcases h2 e' he' with h3 | ⟨h3, _⟩
        · obtain ⟨a, b⟩ := hI.ent e' (hp.mem_iff.2 (List.mem_cons_of_mem _ h3))
          exact ⟨a, fun x hx => mem_sadd.2 (.inr (b x hx))⟩
        · obtain ⟨a, b⟩ := hI.ent e (hp.mem_iff.2 (List.mem_cons_self ..))
          rw [h3]
          refine ⟨List.nodup_cons.2 ⟨fun hin => hv (b _ hin), a⟩, fun x hx => ?_⟩
          rcases List.mem_cons.1 hx with rfl | hx
          · exact mem_sadd.2 (.inl rfl)
          · exact mem_sadd.2 (.inr (b x hx))

theorem dijNdA_inr {N : NumType C V} {pop : List (EntA α C) → Option (EntA α C × List (EntA α C))} (hpo : PopOk pop) {nbr : α → List (α × V)} {fin : α}
    {s : DijStA α C} {r : Option C × List α} (hI : DijNdA s) (hst : dijStepNum N pop nbr fin s = .inr r) : r.2.Nodup := by
  unfold dijStepNum at hst
  split at hst
  · cases hst; simp
  · rename_i e q hpop
    have hp := (hpo.some _ _ _ hpop)
    split at hst
    · cases hst
    · rename_i hv
      dsimp only at hst
      split at hst
      · cases hst
        obtain ⟨a, b⟩ := hI.ent e (hp.mem_iff.2 (List.mem_cons_self ..))
        exact nodup_reverse.2 (List.nodup_cons.2 ⟨fun hin => hv (b _ hin), a⟩)
      · cases hst

theorem shortestPathNum_nodup {N : NumType C V} {pop : List (EntA α C) → Option (EntA α C × List (EntA α C))} (hpo : PopOk pop) {g : Graph α V O} {start fin : α} {av : List α} {r : Option C × List α}
    (h : g.shortestPathNum N pop start fin av = some (.ok r)) : r.2.Nodup := by
  unfold shortestPathNum at h
  split at h
  · cases h
  · split at h
    · cases h
    · split at h
      · cases h
      · rename_i r' hr
        cases h
        refine pyWhile_inv DijNdA (fun r => r.2.Nodup) (fun s s' hI hst => dijNdA_inl hpo hI hst) (fun s r hI hst => dijNdA_inr hpo hI hst) ⟨?_⟩ hr
        intro e he; simp at he; subst he; simp

/-! ### taking out a smallest entry -/

theorem popMinA_ok (N : NumType C V) : PopOk (popMinA (α := α) N) := by
  have hn : ∀ q, popMinA (α := α) N q = none ↔ q = [] := by
    intro q
    cases q with
    | nil => simp [popMinA]
    | cons e l =>
      simp only [popMinA]
      split
      · simp
      · split <;> simp
  refine ⟨hn, fun q => ?_⟩
  induction q with
  | nil => intro m r h; simp [popMinA] at h
  | cons e l ih =>
    intro m r h
    simp only [popMinA] at h
    split at h
    · rename_i h1
      rw [hn] at h1
      subst h1
      cases h
      exact .refl _
    · rename_i m' r' h1
      have h2 := ih _ _ h1
      split at h
      · cases h
        exact (h2.cons e).trans (.swap ..)
      · cases h
        exact .refl _

theorem popMinA_min {N : NumType C V} {ok : C → Prop} {good : V → Prop} (hN : N.Laws ok good) (q : List (EntA α C)) :
    ∀ m r, popMinA N q = some (m, r) → ∀ e ∈ q, N.le m.cost e.cost := by
  induction q with
  | nil => intro m r h; simp [popMinA] at h
  | cons a l ih =>
    intro m r h e he
    simp only [popMinA] at h
    split at h
    · rename_i h1
      rw [(popMinA_ok N).none] at h1
      subst h1
      cases h
      simp at he; subst he
      exact hN.irrefl _
    · rename_i m' r' h1
      have h2 := ih _ _ h1
      split at h
      · rename_i hlt
        cases h
        rcases List.mem_cons.1 he with rfl | he
        · unfold EntA.lt at hlt
          split at hlt
          · rename_i heq; exact ((hN.eq _ _).1 heq).1
          · exact hN.asymm _ _ hlt
        · exact h2 e he
      · rename_i hlt
        cases h
        rcases List.mem_cons.1 he with rfl | he
        · exact hN.irrefl _
        · refine hN.trans _ _ _ ?_ (h2 e he)
          unfold EntA.lt at hlt
          split at hlt
          · rename_i heq; exact ((hN.eq _ _).1 heq).2
          · simpa [NumType.le] using hlt

/-- evaluation -/
theorem spNum_eval {N : NumType C V} {pop : List (EntA α C) → Option (EntA α C × List (EntA α C))} {g : Graph α V O} {s f : α} {av : List α}
    {r : Option C × List α} (n : Nat) (hs : g.has s = true) (hf : g.has f = true)
    (h : runFuel (dijStepNum N pop g.outNbr f) n ⟨[⟨N.zero, 0, s, []⟩], Dict.empty.set s N.zero, av, 1⟩ = some r) :
    g.shortestPathNum N pop s f av = some (.ok r) := by
  unfold shortestPathNum
  simp only [hs, hf, Bool.not_true, Bool.false_eq_true, if_false]
  rw [pyWhile_of_runFuel h]

/-! ### the rounded rationals of Sp/DijkstraFl.lean are one of these number types -/

/-- two loops whose bodies correspond -/
theorem pyWhile_map {σ σ' ρ ρ' : Type} {step : σ → σ ⊕ ρ} {step' : σ' → σ' ⊕ ρ'} (f : σ → σ') (k : ρ → ρ')
    (h : ∀ s, step' (f s) = match step s with | .inl s' => .inl (f s') | .inr r => .inr (k r)) {s : σ} {r : ρ}
    (hr : pyWhile step s = some r) : pyWhile step' (f s) = some (k r) := by
  refine pyWhile.partial_correctness step (fun s r => pyWhile step' (f s) = some (k r)) ?_ s r hr
  intro F ih s r hr
  have h1 := h s
  split at hr
  · rename_i s' hs'
    rw [hs'] at h1
    rw [pyWhile_inl h1]; exact ih _ _ hr
  · rename_i r' hs'
    rw [hs'] at h1
    cases hr
    rw [pyWhile_inr h1]

def EntA.toEnt (e : EntA α Rat) : Ent α := ⟨e.cost, e.ix, e.node, e.path⟩

def DijStA.toSt (s : DijStA α Rat) : DijSt α := ⟨s.q.map EntA.toEnt, s.mins, s.visited, s.i⟩

/-- the distance as a number, `none` as infinity -/
def orInf : Option Rat → Ext
  | some c => .fin c
  | none => .inf

theorem dijRelaxNum_fl (fl : Rat → Rat) (cost : Rat) (path visited : List α) (l : List (α × Rat)) :
    ∀ (q : List (EntA α Rat)) mins i, dijRelaxFl fl cost path visited l (q.map EntA.toEnt, mins, i) =
      match dijRelaxNum (flNum fl) cost path visited l (q, mins, i) with
      | (q', mins', i') => (q'.map EntA.toEnt, mins', i') := by
  induction l with
  | nil => intro q mins i; rfl
  | cons a l ih =>
    obtain ⟨v2, dist⟩ := a
    intro q mins i
    have hlt : ∀ a b, (flNum fl).lt a b = decide (a < b) := fun _ _ => rfl
    have hadd : (flNum fl).add cost dist = fl (cost + dist) := rfl
    have hp := ih (⟨fl (cost + dist), i, v2, path⟩ :: q) (mins.set v2 (fl (cost + dist))) (i + 1)
    simp only [List.map_cons] at hp
    simp only [dijRelaxFl, dijRelaxNum, hlt, hadd, decide_eq_true_eq]
    by_cases hv : v2 ∈ visited
    · rw [if_pos hv, if_pos hv]; exact ih q mins i
    · rw [if_neg hv, if_neg hv]
      cases hm : mins.get? v2 with
      | none => exact hp
      | some prev =>
        by_cases hlt : fl (cost + dist) < prev
        · simp only [if_pos hlt]; exact hp
        · simp only [if_neg hlt]; exact ih q mins i

theorem EntA.toEnt_lt (fl : Rat → Rat) (a b : EntA α Rat) : a.toEnt.lt b.toEnt = a.lt (flNum fl) b := by
  obtain ⟨c, i, n, p⟩ := a
  obtain ⟨c', i', n', p'⟩ := b
  show (decide (c < c') || (decide (c = c') && decide (i < i'))) = if decide (c = c') = true then decide (i < i') else decide (c < c')
  by_cases h : c = c'
  · subst h; simp [Rat.lt_irrefl]
  · simp [h]

theorem popMinA_fl (fl : Rat → Rat) (q : List (EntA α Rat)) :
    popMin (q.map EntA.toEnt) = (popMinA (flNum fl) q).map (fun r => (r.1.toEnt, r.2.map EntA.toEnt)) := by
  induction q with
  | nil => rfl
  | cons e l ih =>
    simp only [List.map_cons, popMin, popMinA, ih]
    cases popMinA (flNum fl) l with
    | none => rfl
    | some mr =>
      obtain ⟨m, r⟩ := mr
      simp only [Option.map_some, EntA.toEnt_lt fl]
      split <;> rfl

theorem dijStepNum_fl (fl : Rat → Rat) (nbr : α → List (α × Rat)) (fin : α) (s : DijStA α Rat) :
    dijStepFl fl nbr fin s.toSt = match dijStepNum (flNum fl) (popMinA (flNum fl)) nbr fin s with
      | .inl s' => .inl s'.toSt
      | .inr r => .inr (orInf r.1, r.2) := by
  obtain ⟨q0, mins, visited, i⟩ := s
  have h1 := popMinA_fl fl q0
  cases hq : popMinA (flNum fl) q0 with
  | none =>
    rw [hq] at h1
    simp only [dijStepFl, dijStepNum, DijStA.toSt, hq, h1, Option.map_none]
    rfl
  | some er =>
    obtain ⟨⟨c, ix, n, p⟩, q⟩ := er
    rw [hq] at h1
    have h2 := dijRelaxNum_fl fl c (n :: p) (sadd visited n) (nbr n) q mins i
    have e1 : dijStepFl fl nbr fin (DijStA.toSt ⟨q0, mins, visited, i⟩) =
        if n ∈ visited then .inl ⟨q.map EntA.toEnt, mins, visited, i⟩
        else if n = fin then .inr (.fin c, (n :: p).reverse)
        else match dijRelaxFl fl c (n :: p) (sadd visited n) (nbr n) (q.map EntA.toEnt, mins, i) with
          | (q, mins, i) => .inl ⟨q, mins, sadd visited n, i⟩ := by
      unfold dijStepFl
      simp only [DijStA.toSt]
      rw [h1]
      rfl
    have e2 : dijStepNum (flNum fl) (popMinA (flNum fl)) nbr fin ⟨q0, mins, visited, i⟩ =
        if n ∈ visited then .inl ⟨q, mins, visited, i⟩
        else if n = fin then .inr (some c, (n :: p).reverse)
        else match dijRelaxNum (flNum fl) c (n :: p) (sadd visited n) (nbr n) (q, mins, i) with
          | (q, mins, i) => .inl ⟨q, mins, sadd visited n, i⟩ := by
      unfold dijStepNum
      simp only [hq]
    rw [e1, e2, h2]
    by_cases hv : n ∈ visited
    · rw [if_pos hv, if_pos hv]; rfl
    · rw [if_neg hv, if_neg hv]
      by_cases hf : n = fin
      · rw [if_pos hf, if_pos hf]; rfl
      · rw [if_neg hf, if_neg hf]; rfl

/-- `shortest_path` in rounded arithmetic is the general function for that number type -/
theorem shortestPathNum_fl (fl : Rat → Rat) {g : Graph α Rat O} (hg : g.Inv) (start fin : α) (av : List α) :
    g.shortestPathFl fl start fin av = match g.shortestPathNum (flNum fl) (popMinA (flNum fl)) start fin av with
      | some (.ok r) => some (.ok (orInf r.1, r.2))
      | some (.error e) => some (.error e)
      | none => none := by
  by_cases hsf : g.has start = true ∧ g.has fin = true
  · obtain ⟨hs, hf⟩ := hsf
    obtain ⟨r, h1, _⟩ := dijNum_spec (DijOrd.trivial (flNum fl)) (popMinA_ok (α := α) (flNum fl)) (fun _ _ _ _ _ _ => True.intro)
      (fun x y c => hg.mem_outNbr) (fun _ _ _ _ => True.intro) (fun x y c => hg.edge_mem) (fin := fin) (has_iff.1 hs) av
    have h2 := pyWhile_map (step' := dijStepFl fl g.outNbr fin) DijStA.toSt (fun r => (orInf r.1, r.2)) (fun s => by rw [dijStepNum_fl]; cases dijStepNum (flNum fl) (popMinA (flNum fl)) g.outNbr fin s <;> rfl) h1
    unfold shortestPathFl shortestPathNum
    simp only [hs, hf, Bool.not_true, Bool.false_eq_true, if_false]
    rw [h1]
    rw [show (⟨[⟨0, 0, start, []⟩], Dict.empty.set start 0, av, 1⟩ : DijSt α) =
      DijStA.toSt ⟨[⟨(flNum fl).zero, 0, start, []⟩], Dict.empty.set start (flNum fl).zero, av, 1⟩ from rfl, h2]
  · rw [shortestPathFl_error av hsf, shortestPathNum_error av hsf]

end GT

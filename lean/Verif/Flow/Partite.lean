import Verif.Search.Util
import Verif.DictComp
import Verif.Graph.FuncLemmas
import Verif.Spec.Walks
import Verif.Search.Bridge
/-
Model of `is_partite` (graph/partite.py).
-/
namespace GT
variable {α V O : Type} [DecidableEq α]
open Graph

/-- the locals of `is_partite`.  The head of `q` is the end of the Python list. -/
structure PtSt (α : Type) where
  q : List α
  visited : List α
  cols : Dict Nat (List α)
  col : Dict α Nat
  colour : Nat

/-- `colours_and_nodes[c].add(x)` (partite.py:28, 39) -/
def ptPaint (cols : Dict Nat (List α)) (c : Nat) (x : α) : Py (Dict Nat (List α)) :=
  match cols.get? c with
  | none => .error .keyError
  | some s => .ok (cols.set c (sadd s x))

/-- the loop over the neighbours (partite.py:33-43); `none` is `return False, None` -/
def ptLoop (colour next : Nat) (visited : List α) : List α → List α × Dict Nat (List α) × Dict α Nat →
    Py (Option (List α × Dict Nat (List α) × Dict α Nat))
  | [], s => .ok (some s)
  | n2 :: l, (q, cols, col) =>
    match col.get? n2 with
    | some c =>
      if c = colour then .ok none
      else ptLoop colour next visited l (if n2 ∈ visited then q else n2 :: q, cols, col)
    | none => match ptPaint cols next n2 with
      | .error e => .error e
      | .ok cols => ptLoop colour next visited l (q, cols, col.set n2 next)

/-- the colour of the node taken from the queue (partite.py:25-29) -/
def ptColour (s : PtSt α) (n1 : α) : Py (Nat × Dict Nat (List α) × Dict α Nat) :=
  match s.col.get? n1 with
  | some c => .ok (c, s.cols, s.col)
  | none => match ptPaint s.cols s.colour n1 with
    | .error e => .error e
    | .ok cols => .ok (s.colour, cols, s.col.set n1 s.colour)

/-- one iteration of `while q` (partite.py:21-43).  `nbr x` is
`graph.nodes(from_node=x) + graph.nodes(to_node=x)`. -/
def ptStep (nbr : α → List α) (n : Nat) (s : PtSt α) : PtSt α ⊕ Py (Option (Dict Nat (List α))) :=
  match s.q with
  | [] => .inr (.ok (some s.cols))
  | n1 :: q =>
    match ptColour s n1 with
    | .error e => .inr (.error e)
    | .ok (c, cols, col) =>
      match ptLoop c ((c + 1) % n) (sadd s.visited n1) (nbr n1) (q, cols, col) with
      | .error e => .inr (.error e)
      | .ok none => .inr (.ok none)
      | .ok (some (q, cols, col)) => .inl ⟨q, sadd s.visited n1, cols, col, c⟩

/-- `graph.nodes(from_node=x) + graph.nodes(to_node=x)` -/
def Graph.bothNbr (g : Graph α V O) (x : α) : List α := g.nodesFrom x ++ g.nodesTo x

/-- `is_partite(graph, n)` (partite.py:4-45).  `pop` is the choice of `set(graph.nodes()).pop()`; `n = 0` stands for
all `n ≤ 0`.  The result `none` is `(False, None)`, `some d` is `(True, d)`. -/
def Graph.isPartite (pop : List α → α) (g : Graph α V O) (n : Nat) : Option (Py (Option (Dict Nat (List α)))) :=
  match g.nodeList with
  | [] => some (.error .keyError)
  | _ => pyWhile (ptStep g.bothNbr n) ⟨[pop g.nodeList], [], Dict.comp (List.range n) (fun _ => []), Dict.empty, 0⟩

/-! ### proof -/

/-- the classes and the colours agree -/
structure PtCons (n : Nat) (cols : Dict Nat (List α)) (col : Dict α Nat) : Prop where
  keys : cols.keys = List.range n
  mem : ∀ x c, col.get? x = some c ↔ ∃ s, cols.get? c = some s ∧ x ∈ s

theorem PtCons.paint {n : Nat} {cols : Dict Nat (List α)} {col : Dict α Nat} (h : PtCons n cols col) {c : Nat} (hc : c < n)
    {x : α} (hx : col.get? x = none) : ∃ cols', ptPaint cols c x = .ok cols' ∧ PtCons n cols' (col.set x c) := by
  have hk : c ∈ cols.keys := by rw [h.keys]; simpa using hc
  obtain ⟨s, hs⟩ := Dict.exists_get?_of_mem_keys hk
  unfold ptPaint
  rw [hs]
  refine ⟨_, rfl, ⟨?_, fun y d => ?_⟩⟩
  · rw [Dict.keys_set_of_mem _ hk]; exact h.keys
  · rw [Dict.get?_set, Dict.get?_set]
    by_cases hy : y = x
    · subst hy
      rw [if_pos rfl]
      constructor
      · intro h1; cases h1
        exact ⟨_, by rw [if_pos rfl], by rw [mem_sadd]; exact .inl rfl⟩
      · rintro ⟨s', h1, h2⟩
        split at h1
        · rename_i hcd; cases hcd; rfl
        · have := (h.mem y d).2 ⟨s', h1, h2⟩
          rw [hx] at this; cases this
    · rw [if_neg (fun e => hy e.symm)]
      rw [h.mem]
      by_cases hcd : c = d
      · subst hcd
        rw [if_pos rfl, hs]
        constructor
        · rintro ⟨s', h1, h2⟩
          cases h1; exact ⟨_, rfl, by rw [mem_sadd]; exact .inr h2⟩
        · rintro ⟨s', h1, h2⟩
          cases h1
          rw [mem_sadd] at h2
          exact ⟨_, rfl, h2.resolve_left hy⟩
      · rw [if_neg hcd]

/-- what the loop over the neighbours does -/
theorem ptLoop_spec {n colour next : Nat} (hn : next < n) (visited : List α) (l : List α) :
    ∀ (q : List α) (cols : Dict Nat (List α)) (col : Dict α Nat), PtCons n cols col →
    (ptLoop colour next visited l (q, cols, col) = .ok none ∧
      ∃ y ∈ l, col.get? y = some colour ∨ (col.get? y = none ∧ next = colour)) ∨
    ∃ q' cols' col', ptLoop colour next visited l (q, cols, col) = .ok (some (q', cols', col')) ∧ PtCons n cols' col' ∧
      (∀ x c, col.get? x = some c → col'.get? x = some c) ∧
      (∀ x c, col'.get? x = some c → col.get? x = some c ∨ (x ∈ l ∧ c = next)) ∧
      (∀ x ∈ l, ∃ c, col'.get? x = some c ∧ (c ≠ colour ∨ (col.get? x = none ∧ c = next))) ∧
      (∀ x ∈ l, x ∈ col.keys → x ∈ visited ∨ x ∈ q') ∧
      (∃ new, q' = new ++ q ∧ ∀ x ∈ new, x ∈ l ∧ x ∉ visited) := by
  induction l with
  | nil =>
    intro q cols col h
    exact .inr ⟨q, cols, col, rfl, h, fun _ _ h => h, fun _ _ h => .inl h, by simp, by simp, [], by simp, by simp⟩
  | cons y l ih =>
    intro q cols col h
    unfold ptLoop
    cases hy : col.get? y with
    | some c =>
      dsimp only
      by_cases hc : c = colour
      · subst hc; rw [if_pos rfl]
        exact .inl ⟨rfl, y, by simp, .inl hy⟩
      · rw [if_neg hc]
        rcases ih (if y ∈ visited then q else y :: q) cols col h with ⟨h1, z, hz, h2⟩ | ⟨q', cols', col', h1, h2, h3, h4, h5, h6, new, h7, h8⟩
        · exact .inl ⟨h1, z, List.mem_cons_of_mem _ hz, h2⟩
        · refine .inr ⟨q', cols', col', h1, h2, h3, fun x c hx => ?_, fun x hx => ?_, fun x hx hk => ?_, ?_⟩
          · rcases h4 x c hx with h | ⟨h, h'⟩
            · exact .inl h
            · exact .inr ⟨List.mem_cons_of_mem _ h, h'⟩
          · rcases List.mem_cons.1 hx with rfl | hx
            · exact ⟨c, h3 _ _ hy, .inl hc⟩
            · exact h5 x hx
          · rcases List.mem_cons.1 hx with rfl | hx
            · by_cases hv : x ∈ visited
              · exact .inl hv
              · right; rw [h7, if_neg hv]; simp
            · exact h6 x hx hk
          · by_cases hv : y ∈ visited
            · rw [if_pos hv] at h7
              exact ⟨new, h7, fun x hx => ⟨List.mem_cons_of_mem _ (h8 x hx).1, (h8 x hx).2⟩⟩
            · rw [if_neg hv] at h7
              refine ⟨new ++ [y], by rw [h7]; simp, fun x hx => ?_⟩
              rcases List.mem_append.1 hx with hx | hx
              · exact ⟨List.mem_cons_of_mem _ (h8 x hx).1, (h8 x hx).2⟩
              · simp at hx; subst hx; exact ⟨by simp, hv⟩
    | none =>
      dsimp only
      obtain ⟨cols1, e1, e2⟩ := h.paint hn hy
      rw [e1]
      dsimp only
      rcases ih q cols1 (col.set y next) e2 with ⟨h1, z, hz, h2⟩ | ⟨q', cols', col', h1, h2, h3, h4, h5, h6, new, h7, h8⟩
      · refine .inl ⟨h1, z, List.mem_cons_of_mem _ hz, ?_⟩
        rw [Dict.get?_set] at h2
        by_cases hzy : y = z
        · subst hzy
          rw [if_pos rfl] at h2
          rcases h2 with h2 | h2
          · cases h2; exact .inr ⟨hy, rfl⟩
          · cases h2.1
        · rw [if_neg hzy] at h2; exact h2
      · refine .inr ⟨q', cols', col', h1, h2, fun x c hx => ?_, fun x c hx => ?_, fun x hx => ?_, fun x hx hk => ?_, new, h7,
          fun x hx => ⟨List.mem_cons_of_mem _ (h8 x hx).1, (h8 x hx).2⟩⟩
        · apply h3
          rw [Dict.get?_set]
          split
          · rename_i e; subst e; rw [hy] at hx; cases hx
          · exact hx
        · rcases h4 x c hx with h | ⟨h, h'⟩
          · rw [Dict.get?_set] at h
            split at h
            · rename_i e; subst e; cases h; exact .inr ⟨by simp, rfl⟩
            · exact .inl h
          · exact .inr ⟨List.mem_cons_of_mem _ h, h'⟩
        · rcases List.mem_cons.1 hx with rfl | hx
          · exact ⟨next, h3 _ _ (by rw [Dict.get?_set, if_pos rfl]), .inr ⟨hy, rfl⟩⟩
          · obtain ⟨c, h9, h10⟩ := h5 x hx
            refine ⟨c, h9, ?_⟩
            rcases h10 with h10 | ⟨h10, h11⟩
            · exact .inl h10
            · right
              rw [Dict.get?_set] at h10
              split at h10
              · cases h10
              · exact ⟨h10, h11⟩
        · have hk' : x ∈ (col.set y next).keys := by rw [Dict.mem_keys_set]; exact .inr hk
          rcases List.mem_cons.1 hx with rfl | hx
          · exact absurd hk ((Dict.get?_eq_none_iff _ _).1 hy)
          · exact h6 x hx hk'

theorem ptLoop_append {colour next : Nat} (visited : List α) (l m : List α) : ∀ s,
    ptLoop colour next visited (l ++ m) s =
      (match ptLoop colour next visited l s with
       | .error e => .error e
       | .ok none => .ok none
       | .ok (some s) => ptLoop colour next visited m s) := by
  induction l with
  | nil => intro s; rfl
  | cons y l ih =>
    rintro ⟨q, cols, col⟩
    simp only [List.cons_append, ptLoop]
    cases col.get? y with
    | some c =>
      dsimp only
      split
      · rfl
      · rw [ih]
    | none =>
      dsimp only
      cases ptPaint cols next y with
      | error e => rfl
      | ok cols => dsimp only; rw [ih]


/-- the invariant; `A` are the edges -/
structure PtInv (A : α → α → Prop) (U : List α) (n : Nat) (root : α) (s : PtSt α) : Prop where
  cons : PtCons n s.cols s.col
  qn : ∀ x ∈ s.q, x ∈ U ∧ (x ∈ s.col.keys ∨ (x = root ∧ s.colour = 0 ∧ s.q = [root]))
  par : ∀ x c, s.col.get? x = some c → ∃ k, Steps (Undirected A) k root x ∧ c = k % n
  vis : ∀ x ∈ s.visited, x ∈ s.col.keys
  exp : ∀ x ∈ s.visited, ∀ y, Undirected A x y → ∃ cx cy, s.col.get? x = some cx ∧ s.col.get? y = some cy ∧
    ((2 ≤ n ∨ (A x y ∧ A y x)) → cx ≠ cy)
  clo : ∀ x ∈ s.visited, ∀ y, A x y → A y x → y ∈ s.visited ∨ y ∈ s.q
  src : root ∈ s.visited ∨ root ∈ s.q

/-- what the call returns -/
structure PtTrue (A : α → α → Prop) (n : Nat) (root : α) (P : Dict Nat (List α)) (X : α → Prop) : Prop where
  keys : P.keys = List.range n
  unique : ∀ i j s t x, P.get? i = some s → P.get? j = some t → x ∈ s → x ∈ t → i = j
  root : X root
  clo : ∀ x y, X x → A x y → A y x → X y
  cov : ∀ x, X x → ∃ i s, P.get? i = some s ∧ x ∈ s
  exp : ∀ x y, X x → Undirected A x y → ∃ i j s t, P.get? i = some s ∧ P.get? j = some t ∧ x ∈ s ∧ y ∈ t ∧
    ((2 ≤ n ∨ (A x y ∧ A y x)) → i ≠ j)

def PtFalse (A : α → α → Prop) (n : Nat) (root : α) : Prop :=
  ∃ x y k m, Undirected A x y ∧ Steps (Undirected A) k root x ∧ Steps (Undirected A) m root y ∧ k % n = m % n

def PtPost (A : α → α → Prop) (n : Nat) (root : α) (r : Py (Option (Dict Nat (List α)))) : Prop :=
  (∃ P X, r = .ok (some P) ∧ PtTrue A n root P X) ∨ (r = .ok none ∧ PtFalse A n root)

/-- the weight of the stack -/
def ptWork (U : List α) (s : PtSt α) : Nat × Nat :=
  (unvis U s.visited, match s.q with
    | [] => 0
    | x :: q => if x ∈ s.visited then q.length + 1 else 0)

theorem ptColour_spec {A : α → α → Prop} {U : List α} {n : Nat} (hn : 0 < n) {root : α} {s : PtSt α}
    (h : PtInv A U n root s) {n1 : α} (h1 : n1 ∈ s.q) :
    ∃ c cols col, ptColour s n1 = .ok (c, cols, col) ∧ c < n ∧ PtCons n cols col ∧ col.get? n1 = some c ∧
      (∀ x c, s.col.get? x = some c → col.get? x = some c) ∧
      (∀ x c, col.get? x = some c → ∃ k, Steps (Undirected A) k root x ∧ c = k % n) := by
  unfold ptColour
  cases hc : s.col.get? n1 with
  | some c =>
    dsimp only
    obtain ⟨k, _, hk⟩ := h.par n1 c hc
    exact ⟨c, s.cols, s.col, rfl, by rw [hk]; exact Nat.mod_lt _ hn, h.cons, hc, fun _ _ h => h, h.par⟩
  | none =>
    dsimp only
    rcases (h.qn n1 h1).2 with h2 | ⟨h2, h3, _⟩
    · exact absurd h2 ((Dict.get?_eq_none_iff _ _).1 hc)
    · subst h2
      rw [h3]
      obtain ⟨cols', e1, e2⟩ := h.cons.paint hn hc
      rw [e1]
      refine ⟨_, _, _, rfl, hn, e2, by rw [Dict.get?_set, if_pos rfl], fun x c hx => ?_, fun x c hx => ?_⟩
      · rw [Dict.get?_set]
        split
        · rename_i e; subst e; rw [hc] at hx; cases hx
        · exact hx
      · rw [Dict.get?_set] at hx
        split at hx
        · rename_i e; subst e; cases hx; exact ⟨0, .zero _, by simp⟩
        · exact h.par x c hx

theorem succ_mod_ne {n c : Nat} (h : 2 ≤ n) (hc : c < n) : (c + 1) % n ≠ c := by
  by_cases h1 : c + 1 = n
  · rw [h1, Nat.mod_self]; omega
  · rw [Nat.mod_eq_of_lt (by omega)]; omega

theorem ptStep_spec {A : α → α → Prop} {U : List α} (hU : ∀ x y, A x y → x ∈ U ∧ y ∈ U) {fr to : α → List α}
    (hfr : ∀ x y, y ∈ fr x ↔ A x y) (hto : ∀ x y, y ∈ to x ↔ A y x) {n : Nat} (hn : 0 < n) {root : α} {s : PtSt α}
    (h : PtInv A U n root s) {n1 : α} {q0 : List α} (hq : s.q = n1 :: q0) :
    (ptStep (fun x => fr x ++ to x) n s = .inr (.ok none) ∧ PtFalse A n root) ∨
    ∃ s', ptStep (fun x => fr x ++ to x) n s = .inl s' ∧ PtInv A U n root s' ∧ lexNat (ptWork U s') (ptWork U s) := by
  have h1 : n1 ∈ s.q := by rw [hq]; simp
  obtain ⟨c, cols, col, e1, hcn, hcons, hc1, hpres, hpar⟩ := ptColour_spec hn h h1
  unfold ptStep
  rw [hq]
  dsimp only
  rw [e1]
  dsimp only
  have hnext : (c + 1) % n < n := Nat.mod_lt _ hn
  obtain ⟨k1, hk1, hck1⟩ := hpar n1 c hc1
  have hund : ∀ y, y ∈ fr n1 ++ to n1 ↔ Undirected A n1 y := by
    intro y; rw [List.mem_append, hfr, hto]; rfl
  rcases ptLoop_spec (colour := c) hnext (sadd s.visited n1) (fr n1 ++ to n1) q0 cols col hcons with
    ⟨f1, y, hy, f2⟩ | ⟨q', cols', col', f1, f2, f3, f4, f5, f6, new, f7, f8⟩
  · left
    rw [f1]
    refine ⟨rfl, n1, y, k1, ?_⟩
    rcases f2 with f2 | ⟨_, f2⟩
    · obtain ⟨m, hm, hcm⟩ := hpar y c f2
      exact ⟨m, (hund y).1 hy, hk1, hm, by rw [← hck1, hcm]⟩
    · refine ⟨k1 + 1, (hund y).1 hy, hk1, .succ hk1 ((hund y).1 hy), ?_⟩
      rw [← hck1, ← f2, hck1]; simp
  · right
    rw [f1]
    -- nodes in both lists
    have hboth : ∀ y, A n1 y → A y n1 → (∃ cy, col'.get? y = some cy ∧ cy ≠ c) ∧ (y ∈ sadd s.visited n1 ∨ y ∈ q') := by
      intro y hy1 hy2
      rw [ptLoop_append] at f1
      rcases ptLoop_spec (colour := c) hnext (sadd s.visited n1) (fr n1) q0 cols col hcons with
        ⟨g1, _⟩ | ⟨q2, cols2, col2, g1, g2, g3, g4, g5, g6, _⟩
      · rw [g1] at f1; cases f1
      · rw [g1] at f1
        dsimp only at f1
        obtain ⟨cy, hcy, _⟩ := g5 y ((hfr _ _).2 hy1)
        rcases ptLoop_spec (colour := c) hnext (sadd s.visited n1) (to n1) q2 cols2 col2 g2 with
          ⟨i1, _⟩ | ⟨q3, cols3, col3, i1, i2, i3, i4, i5, i6, _⟩
        · rw [i1] at f1; cases f1
        · rw [i1] at f1
          cases f1
          constructor
          · obtain ⟨d, hd1, hd2⟩ := i5 y ((hto _ _).2 hy2)
            refine ⟨d, hd1, hd2.resolve_right ?_⟩
            rw [hcy]; rintro ⟨e, _⟩; cases e
          · exact i6 y ((hto _ _).2 hy2) (Dict.mem_keys_of_get? hcy)
    have hpres' : ∀ x c, s.col.get? x = some c → col'.get? x = some c := fun x c hx => f3 x c (hpres x c hx)
    have hkeys' : ∀ x, x ∈ s.col.keys → x ∈ col'.keys := by
      intro x hx
      obtain ⟨v, hv⟩ := Dict.exists_get?_of_mem_keys hx
      exact Dict.mem_keys_of_get? (hpres' x v hv)
    refine ⟨_, rfl, ⟨f2, fun x hx => ?_, fun x d hx => ?_, fun x hx => ?_, fun x hx y hxy => ?_, fun x hx y h2 h3 => ?_, ?_⟩, ?_⟩
    · dsimp only at hx ⊢
      rw [f7, List.mem_append] at hx
      rcases hx with hx | hx
      · have hu := (hund x).1 (f8 x hx).1
        obtain ⟨d, hd, _⟩ := f5 x (f8 x hx).1
        refine ⟨?_, .inl (Dict.mem_keys_of_get? hd)⟩
        rcases hu with hu | hu
        · exact (hU _ _ hu).2
        · exact (hU _ _ hu).1
      · have := h.qn x (by rw [hq]; exact List.mem_cons_of_mem _ hx)
        refine ⟨this.1, ?_⟩
        rcases this.2 with h5 | ⟨rfl, _, h7⟩
        · exact .inl (hkeys' x h5)
        · rw [hq] at h7; cases h7; cases hx
    · rcases f4 x d hx with h2 | ⟨h2, h3⟩
      · exact hpar x d h2
      · refine ⟨k1 + 1, .succ hk1 ((hund x).1 h2), ?_⟩
        rw [h3, hck1]; simp
    · rcases mem_sadd.1 hx with rfl | hx
      · exact Dict.mem_keys_of_get? (f3 _ _ hc1)
      · exact hkeys' x (h.vis x hx)
    · rcases mem_sadd.1 hx with rfl | hx
      · obtain ⟨d, hd1, hd2⟩ := f5 y ((hund y).2 hxy)
        refine ⟨c, d, f3 _ _ hc1, hd1, ?_⟩
        rintro (h2 | ⟨h2, h3⟩)
        · rcases hd2 with hd2 | ⟨_, hd2⟩
          · exact fun e => hd2 e.symm
          · rw [hd2]; exact fun e => succ_mod_ne h2 hcn e.symm
        · obtain ⟨⟨cy, h4, h5⟩, _⟩ := hboth y h2 h3
          rw [hd1] at h4; cases h4; exact fun e => h5 e.symm
      · obtain ⟨cx, cy, h2, h3, h4⟩ := h.exp x hx y hxy
        exact ⟨cx, cy, hpres' _ _ h2, hpres' _ _ h3, h4⟩
    · dsimp only
      rcases mem_sadd.1 hx with rfl | hx
      · exact (hboth y h2 h3).2
      · rcases h.clo x hx y h2 h3 with h4 | h4
        · exact .inl (mem_sadd.2 (.inr h4))
        · rw [hq] at h4
          rcases List.mem_cons.1 h4 with rfl | h4
          · exact .inl (mem_sadd.2 (.inl rfl))
          · right; rw [f7, List.mem_append]; exact .inr h4
    · dsimp only
      rcases h.src with h4 | h4
      · exact .inl (mem_sadd.2 (.inr h4))
      · rw [hq] at h4
        rcases List.mem_cons.1 h4 with rfl | h4
        · exact .inl (mem_sadd.2 (.inl rfl))
        · right; rw [f7, List.mem_append]; exact .inr h4
    · unfold ptWork
      dsimp only
      rw [hq]
      dsimp only
      by_cases hv : n1 ∈ s.visited
      · have hsv : sadd s.visited n1 = s.visited := by unfold sadd; rw [if_pos hv]
        rw [hsv, if_pos hv]
        refine lexNat_right (Nat.le_refl _) ?_
        rw [f7]
        cases new with
        | nil =>
          simp only [List.nil_append]
          cases q0 with
          | nil => simp
          | cons z q0 => dsimp only; split <;> simp
        | cons z new =>
          simp only [List.cons_append]
          have := (f8 z (by simp)).2
          rw [hsv] at this
          rw [if_neg this]; omega
      · exact lexNat_left (unvis_lt (x := n1) (fun x hx => mem_sadd.2 (.inr hx)) (h.qn n1 h1).1 hv (mem_sadd.2 (.inl rfl)))


theorem isPartite_main {A : α → α → Prop} {U : List α} (hU : ∀ x y, A x y → x ∈ U ∧ y ∈ U) {fr to : α → List α}
    (hfr : ∀ x y, y ∈ fr x ↔ A x y) (hto : ∀ x y, y ∈ to x ↔ A y x) {n : Nat} (hn : 0 < n) {root : α} (hr : root ∈ U) :
    ∃ r, pyWhile (ptStep (fun x => fr x ++ to x) n) ⟨[root], [], Dict.comp (List.range n) (fun _ => []), Dict.empty, 0⟩ = some r ∧
      PtPost A n root r := by
  refine pyWhile_totalW (PtInv A U n root) (PtPost A n root) lexNat lexNat_wf (ptWork U) ?_ ?_ ?_
  · intro s s' hI hst
    cases hq : s.q with
    | nil => unfold ptStep at hst; rw [hq] at hst; cases hst
    | cons n1 q0 =>
      rcases ptStep_spec hU hfr hto hn hI hq with ⟨h1, _⟩ | ⟨s1, h1, h2, h3⟩
      · rw [h1] at hst; cases hst
      · rw [h1] at hst; cases hst; exact ⟨h2, h3⟩
  · intro s r hI hst
    cases hq : s.q with
    | nil =>
      unfold ptStep at hst; rw [hq] at hst; cases hst
      have hmem : ∀ x, x ∈ s.col.keys → ∃ i t, s.cols.get? i = some t ∧ x ∈ t := by
        intro x hx
        obtain ⟨c, hc⟩ := Dict.exists_get?_of_mem_keys hx
        exact ⟨c, (hI.cons.mem x c).1 hc⟩
      refine .inl ⟨s.cols, fun x => x ∈ s.visited, rfl, ⟨hI.cons.keys, ?_, ?_, ?_, fun x hx => hmem x (hI.vis x hx), ?_⟩⟩
      · intro i j t t' x h1 h2 h3 h4
        have h5 := (hI.cons.mem x i).2 ⟨t, h1, h3⟩
        have h6 := (hI.cons.mem x j).2 ⟨t', h2, h4⟩
        rw [h5] at h6; cases h6; rfl
      · rcases hI.src with h | h
        · exact h
        · rw [hq] at h; cases h
      · intro x y h1 h2 h3
        rcases hI.clo x h1 y h2 h3 with h | h
        · exact h
        · rw [hq] at h; cases h
      · intro x y h1 h2
        obtain ⟨cx, cy, h3, h4, h5⟩ := hI.exp x h1 y h2
        obtain ⟨t, h6, h7⟩ := (hI.cons.mem x cx).1 h3
        obtain ⟨t', h8, h9⟩ := (hI.cons.mem y cy).1 h4
        exact ⟨cx, cy, t, t', h6, h8, h7, h9, h5⟩
    | cons n1 q0 =>
      rcases ptStep_spec hU hfr hto hn hI hq with ⟨h1, h2⟩ | ⟨s1, h1, h2, h3⟩
      · rw [h1] at hst; cases hst; exact .inr ⟨rfl, h2⟩
      · rw [h1] at hst; cases hst
  · refine ⟨⟨Dict.comp_keys List.nodup_range _, fun x c => ?_⟩, fun x hx => ?_, fun x c hc => ?_, by simp, by simp, by simp, .inr (by simp)⟩
    · dsimp only
      rw [Dict.comp_get?]
      constructor
      · intro h; simp at h
      · rintro ⟨t, h1, h2⟩
        split at h1
        · cases h1; cases h2
        · cases h1
    · simp at hx; subst hx; exact ⟨hr, .inr ⟨rfl, rfl, rfl⟩⟩
    · simp at hc

/-- a proper colouring with `n` colours -/
def Colourable (A : α → α → Prop) (n : Nat) : Prop := ∃ f : α → Nat, (∀ x, f x < n) ∧ ∀ x y, A x y → f x ≠ f y

omit [DecidableEq α] in
theorem PtFalse.not_colourable {A : α → α → Prop} {n : Nat} {root : α} (hn2 : n ≤ 2) (h : PtFalse A n root) :
    ¬ Colourable A n := by
  rintro ⟨f, h1, h2⟩
  obtain ⟨x, y, k, m, hxy, hk, hm, hkm⟩ := h
  have hadj : ∀ a b, Undirected A a b → f a ≠ f b := by
    rintro a b (h | h)
    · exact h2 a b h
    · exact fun e => h2 b a h e.symm
  have hxy' := hadj x y hxy
  have b1 := h1 x
  have b2 := h1 y
  by_cases hn : n = 2
  · subst hn
    have hwalk : ∀ k z, Steps (Undirected A) k root z → f z = (f root + k) % 2 := by
      intro k z hz
      induction hz with
      | zero => rw [Nat.add_zero]; exact (Nat.mod_eq_of_lt (h1 _)).symm
      | @succ j a b c _ hbc ih =>
        have ih := ih hk hm
        have := hadj _ _ hbc
        have := h1 b
        have := h1 c
        omega
    have e1 := hwalk k x hk
    have e2 := hwalk m y hm
    omega
  · omega

end GT

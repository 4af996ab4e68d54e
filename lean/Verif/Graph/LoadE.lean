import Verif.Graph.Serial
/-
`from_dict` and `from_list` (graph/base.py:282-301, 312-332) with arguments that make them raise midway.
-/
namespace GT
namespace Graph
variable {α V O : Type} [DecidableEq α]

/-- run `f` over a list and stop at the first exception; what was done before stays done -/
def untilErr {β : Type} (f : Graph α V O → β → Graph α V O × Option Err) : Graph α V O → List β → Graph α V O × Option Err
  | g, [] => (g, none)
  | g, x :: l => match f g x with
    | (g', none) => untilErr f g' l
    | (g', some e) => (g', some e)

/-- an item of the argument of `from_list`: not a list or tuple, or a list / tuple of 0, 1, 2, 3, 4 or more elements.  Simplification: nodes are
hashable, the fourth element is a Boolean. -/
inductive Item (α V : Type) where
  | other
  | tup0
  | tup1 (n : α)
  | tup2 (a b : α)
  | tup3 (a b : α) (v : Arg V)
  | tup4 (a b : α) (v : Arg V) (bidirectional : Bool)
  | more
  deriving DecidableEq, Repr

/-- the body of the loop of `from_list` (base.py:327-332): the assertion, `add_edge(*item)` (too many arguments: `TypeError`), `add_node(item[0])` -/
def itemE (one : V) (g : Graph α V O) : Item α V → Graph α V O × Option Err
  | .other => (g, some .assertionError)
  | .tup0 => (g, some .indexError)
  | .tup1 n => g.stepE (.addNode n none)
  | .tup2 a b => g.stepE (.addEdge a b (.scalar one) false)
  | .tup3 a b v => g.stepE (.addEdge a b v false)
  | .tup4 a b v bi => g.stepE (.addEdge a b v bi)
  | .more => (g, some .typeError)

/-- `from_list` (base.py:312-332) -/
def fromListE (one : V) (g : Graph α V O) (items : List (Item α V)) : Graph α V O × Option Err := untilErr (itemE one) g items

/-- a row of the argument of `from_dict` (base.py:296-301) -/
def rowE (g : Graph α V O) (p : α × Dict α (Arg V)) : Graph α V O × Option Err :=
  if p.2.isEmpty then g.stepE (.addNode p.1 none)
  else untilErr (fun g (q : α × Arg V) => g.stepE (.addEdge p.1 q.1 q.2 false)) g p.2.items

/-- `from_dict` (base.py:282-301) -/
def fromDictE (g : Graph α V O) (d : Dict α (Dict α (Arg V))) : Graph α V O × Option Err := untilErr rowE g d.items

theorem untilErr_append {β : Type} {f : Graph α V O → β → Graph α V O × Option Err} (l m : List β) (g : Graph α V O) :
    untilErr f g (l ++ m) = match untilErr f g l with
      | (g', none) => untilErr f g' m
      | (g', some e) => (g', some e) := by
  induction l generalizing g with
  | nil => rfl
  | cons x l ih =>
    simp only [List.cons_append, untilErr]
    rcases f g x with ⟨g', _ | e⟩
    · exact ih g'
    · rfl

/-- a well formed item -/
def _root_.GT.Graph.Link.item : Link α V → Item α V
  | .node n => .tup1 n
  | .pair a b => .tup2 a b
  | .edge a b v => .tup3 a b (.scalar v)
  | .edgeBi a b v bi => .tup4 a b (.scalar v) bi

theorem stepE_addEdge {g : Graph α V O} (h : g.Inv) (a b : α) (v : V) (bi : Bool) :
    g.stepE (.addEdge a b (.scalar v) bi) = (if bi then (g.addEdge a b v).addEdge b a v else g.addEdge a b v, none) := by
  simp only [stepE, addEdgeE, addEdge1E_eq h, bind, Except.bind]
  cases bi with
  | false => rfl
  | true => simp only [if_true, addEdge1E_eq (h.addEdge a b v)]

theorem itemE_link (one : V) {g : Graph α V O} (h : g.Inv) (i : Link α V) : itemE one g i.item = (g.fromList one [i], none) := by
  cases i with
  | node n => rfl
  | pair a b => exact stepE_addEdge h a b one false
  | edge a b v => exact stepE_addEdge h a b v false
  | edgeBi a b v bi => exact stepE_addEdge h a b v bi

theorem fromListE_links (one : V) (l : List (Link α V)) : ∀ {g : Graph α V O}, g.Built → fromListE one g (l.map Link.item) = (g.fromList one l, none) := by
  induction l with
  | nil => intro g _; rfl
  | cons i l ih =>
    intro g h
    unfold fromListE at ih ⊢
    simp only [List.map_cons, untilErr, itemE_link one h.inv]
    exact ih (fromList_built one h [i])

theorem fromListE_bad (one : V) {g : Graph α V O} (h : g.Built) (l : List (Link α V)) {x : Item α V} {e : Err}
    (hx : ∀ g' : Graph α V O, itemE one g' x = (g', some e)) (rest : List (Item α V)) :
    fromListE one g (l.map Link.item ++ x :: rest) = (g.fromList one l, some e) := by
  unfold fromListE
  rw [untilErr_append, show untilErr (itemE one) g (l.map Link.item) = _ from fromListE_links one l h]
  simp only [untilErr, hx]

/-! ### from_dict -/

/-- a dictionary all of whose values are numbers -/
def plainRow (r : Dict α V) : Dict α (Arg V) := ⟨r.items.map (fun q => (q.1, Arg.scalar q.2))⟩

theorem untilErr_row {n1 : α} (r : List (α × V)) : ∀ {g : Graph α V O}, g.Built →
    untilErr (fun g (q : α × Arg V) => g.stepE (.addEdge n1 q.1 q.2 false)) g (r.map (fun q => (q.1, Arg.scalar q.2))) =
      (r.foldl (fun g q => g.addEdge n1 q.1 q.2) g, none) ∧ (r.foldl (fun g q => g.addEdge n1 q.1 q.2) g).Built := by
  induction r with
  | nil => intro g h; exact ⟨rfl, h⟩
  | cons q r ih =>
    intro g h
    simp only [List.map_cons, untilErr, List.foldl_cons]
    rw [stepE_addEdge h.inv]
    dsimp only
    rw [if_neg (by decide)]
    exact ih (h.addEdge _ _ _)

theorem fromDict_nil (g : Graph α V O) : g.fromDict ⟨[]⟩ = g := rfl

theorem fromDict_append (g : Graph α V O) (l m : List (α × Dict α V)) : g.fromDict ⟨l ++ m⟩ = (g.fromDict ⟨l⟩).fromDict ⟨m⟩ := by
  unfold fromDict; simp only [List.foldl_append]

theorem rowE_plain {g : Graph α V O} (h : g.Built) (n1 : α) (r : Dict α V) : rowE g (n1, plainRow r) = (g.fromDict ⟨[(n1, r)]⟩, none) := by
  unfold rowE fromDict plainRow
  obtain ⟨r⟩ := r
  cases r with
  | nil => rfl
  | cons q r =>
    show untilErr _ g _ = _
    dsimp only
    rw [(untilErr_row (q :: r) h).1]
    rfl

theorem fromDictE_plain (l : List (α × Dict α V)) : ∀ {g : Graph α V O}, g.Built →
    fromDictE g ⟨l.map (fun p => (p.1, plainRow p.2))⟩ = (g.fromDict ⟨l⟩, none) := by
  induction l with
  | nil => intro g _; rfl
  | cons p l ih =>
    intro g h
    have h1 := ih (fromDict_built h ⟨[p]⟩)
    rw [← fromDict_append] at h1
    unfold fromDictE at h1 ⊢
    simp only [List.map_cons, untilErr]
    rw [rowE_plain h]
    exact h1

theorem fromDictE_bad {g : Graph α V O} (h : g.Built) (l : List (α × Dict α V)) (n1 n2 : α) (r : List (α × V)) (r' : List (α × Arg V))
    (rest : List (α × Dict α (Arg V))) :
    fromDictE g ⟨l.map (fun p => (p.1, plainRow p.2)) ++ (n1, ⟨r.map (fun q => (q.1, Arg.scalar q.2)) ++ (n2, .container) :: r'⟩) :: rest⟩ =
      (r.foldl (fun g q => g.addEdge n1 q.1 q.2) (g.fromDict ⟨l⟩), some .valueError) := by
  unfold fromDictE
  dsimp only
  rw [untilErr_append, show untilErr rowE g (l.map (fun p => (p.1, plainRow p.2))) = _ from fromDictE_plain l h]
  simp only [untilErr]
  have hrow : rowE (g.fromDict ⟨l⟩) (n1, (⟨r.map (fun q => (q.1, Arg.scalar q.2)) ++ (n2, .container) :: r'⟩ : Dict α (Arg V))) =
      (r.foldl (fun g q => g.addEdge n1 q.1 q.2) (g.fromDict ⟨l⟩), some .valueError) := by
    unfold rowE
    rw [if_neg (by
      unfold Dict.isEmpty
      cases r <;> simp)]
    dsimp only
    rw [untilErr_append, (untilErr_row r (fromDict_built h ⟨l⟩)).1]
    rfl
  rw [hrow]

end Graph
end GT

import Verif.Graph.LoadE
import Verif.Props.Scoped
/-
Property theorems C106: `from_list` and `from_dict` with bad input.
-/
namespace GT
open Graph
variable {α V O : Type} [DecidableEq α]

/-- what `from_list` raises for an item it cannot use: something that is no list or tuple, an empty tuple, more than four elements, a container as value -/
def BadItem : Item α V → Err → Prop
  | .other, e => e = .assertionError
  | .tup0, e => e = .indexError
  | .more, e => e = .typeError
  | .tup3 _ _ .container, e => e = .valueError
  | .tup4 _ _ .container _, e => e = .valueError
  | _, _ => False

theorem item_cases (i : Item α V) : (∃ l : Link α V, i = l.item) ∨ ∃ e, BadItem i e := by
  cases i with
  | other => exact .inr ⟨_, rfl⟩
  | tup0 => exact .inr ⟨_, rfl⟩
  | tup1 n => exact .inl ⟨.node n, rfl⟩
  | tup2 a b => exact .inl ⟨.pair a b, rfl⟩
  | tup3 a b v => cases v with
    | scalar v => exact .inl ⟨.edge a b v, rfl⟩
    | container => exact .inr ⟨_, rfl⟩
  | tup4 a b v bi => cases v with
    | scalar v => exact .inl ⟨.edgeBi a b v bi, rfl⟩
    | container => exact .inr ⟨_, rfl⟩
  | more => exact .inr ⟨_, rfl⟩

theorem badItem_link {l : Link α V} {e : Err} : ¬ BadItem l.item e := by cases l <;> exact id

theorem badItem_step (one : V) {i : Item α V} {e : Err} (h : BadItem i e) (g : Graph α V O) : itemE one g i = (g, some e) := by
  cases i with
  | other => rw [show e = _ from h]; rfl
  | tup0 => rw [show e = _ from h]; rfl
  | tup1 n => exact absurd h id
  | tup2 a b => exact absurd h id
  | tup3 a b v => cases v with
    | scalar v => exact absurd h id
    | container => rw [show e = _ from h]; rfl
  | tup4 a b v bi => cases v with
    | scalar v => exact absurd h id
    | container => rw [show e = _ from h]; rfl
  | more => rw [show e = _ from h]; rfl

/-- **C106**, `from_list`. If all items of the argument are usable (`links`), nothing is raised. Otherwise the exception is that of the first item that is not, and the
graph is as after `from_list` of the items before it (see C77 for its content): it is a proper graph, nothing of the bad item and of the items after
it is in it. -/
theorem C106_from_list_stops (one : V) {g : Graph α V O} (hg : g.Built) (items : List (Item α V)) :
    (∃ links : List (Link α V), items = links.map Link.item ∧ g.fromListE one items = (g.fromList one links, none) ∧ (g.fromList one links).Built) ∨
    (∃ (links : List (Link α V)) (x : Item α V) (rest : List (Item α V)) (e : Err), items = links.map Link.item ++ x :: rest ∧ BadItem x e ∧
      g.fromListE one items = (g.fromList one links, some e) ∧ (g.fromList one links).Built) := by
  have hsplit : (∃ links : List (Link α V), items = links.map Link.item) ∨
      ∃ (links : List (Link α V)) (x : Item α V) (rest : List (Item α V)) (e : Err), items = links.map Link.item ++ x :: rest ∧ BadItem x e := by
    induction items with
    | nil => exact .inl ⟨[], rfl⟩
    | cons i items ih =>
      rcases item_cases i with ⟨l, rfl⟩ | ⟨e, he⟩
      · rcases ih with ⟨ls, rfl⟩ | ⟨ls, x, rest, e, rfl, h2⟩
        · exact .inl ⟨l :: ls, rfl⟩
        · exact .inr ⟨l :: ls, x, rest, e, rfl, h2⟩
      · exact .inr ⟨[], i, items, e, rfl, he⟩
  rcases hsplit with ⟨ls, rfl⟩ | ⟨ls, x, rest, e, rfl, h2⟩
  · exact .inl ⟨ls, rfl, fromListE_links one ls hg, fromList_built one hg ls⟩
  · exact .inr ⟨ls, x, rest, e, rfl, h2, fromListE_bad one hg ls (badItem_step one h2) rest, fromList_built one hg ls⟩

/-- **C106**, `from_dict`. If no value is a container nothing is raised and the result is that of the `from_dict` of C07. Otherwise `ValueError` is raised for the first one, at `d[n1][n2]`,
and the graph is as after `from_dict` of the rows before `n1` and the `add_edge` calls of the entries of the row `n1` before `n2`: a proper graph. -/
theorem C106_from_dict_stops {g : Graph α V O} (hg : g.Built) (d : Dict α (Dict α (Arg V))) :
    (∃ l : List (α × Dict α V), d.items = l.map (fun p => (p.1, plainRow p.2)) ∧ g.fromDictE d = (g.fromDict ⟨l⟩, none) ∧ (g.fromDict ⟨l⟩).Built) ∨
    (∃ (l : List (α × Dict α V)) (n1 n2 : α) (r : List (α × V)) (r' : List (α × Arg V)) (rest : List (α × Dict α (Arg V))) (g' : Graph α V O),
      d.items = l.map (fun p => (p.1, plainRow p.2)) ++ (n1, ⟨r.map (fun q => (q.1, Arg.scalar q.2)) ++ (n2, .container) :: r'⟩) :: rest ∧
      g' = r.foldl (fun g q => g.addEdge n1 q.1 q.2) (g.fromDict ⟨l⟩) ∧ g.fromDictE d = (g', some .valueError) ∧ g'.Built) := by
  obtain ⟨items⟩ := d
  have hrow : ∀ r : List (α × Arg V), (∃ r0 : List (α × V), r = r0.map (fun q => (q.1, Arg.scalar q.2))) ∨
      ∃ (r0 : List (α × V)) (n2 : α) (r' : List (α × Arg V)), r = r0.map (fun q => (q.1, Arg.scalar q.2)) ++ (n2, .container) :: r' := by
    intro r
    induction r with
    | nil => exact .inl ⟨[], rfl⟩
    | cons q r ih =>
      obtain ⟨n, v⟩ := q
      cases v with
      | container => exact .inr ⟨[], n, r, rfl⟩
      | scalar v =>
        rcases ih with ⟨r0, rfl⟩ | ⟨r0, n2, r', rfl⟩
        · exact .inl ⟨(n, v) :: r0, rfl⟩
        · exact .inr ⟨(n, v) :: r0, n2, r', rfl⟩
  have hsplit : (∃ l : List (α × Dict α V), items = l.map (fun p => (p.1, plainRow p.2))) ∨
      ∃ (l : List (α × Dict α V)) (n1 n2 : α) (r : List (α × V)) (r' : List (α × Arg V)) (rest : List (α × Dict α (Arg V))),
        items = l.map (fun p => (p.1, plainRow p.2)) ++ (n1, ⟨r.map (fun q => (q.1, Arg.scalar q.2)) ++ (n2, .container) :: r'⟩) :: rest := by
    induction items with
    | nil => exact .inl ⟨[], rfl⟩
    | cons p items ih =>
      obtain ⟨n1, ⟨r⟩⟩ := p
      rcases hrow r with ⟨r0, rfl⟩ | ⟨r0, n2, r', rfl⟩
      · rcases ih with ⟨l, rfl⟩ | ⟨l, m1, m2, s, s', rest, rfl⟩
        · exact .inl ⟨(n1, ⟨r0⟩) :: l, rfl⟩
        · exact .inr ⟨(n1, ⟨r0⟩) :: l, m1, m2, s, s', rest, rfl⟩
      · exact .inr ⟨[], n1, n2, r0, r', items, rfl⟩
  rcases hsplit with ⟨l, rfl⟩ | ⟨l, n1, n2, r, r', rest, rfl⟩
  · exact .inl ⟨l, rfl, fromDictE_plain l hg, fromDict_built hg ⟨l⟩⟩
  · exact .inr ⟨l, n1, n2, r, r', rest, _, rfl, rfl, fromDictE_bad hg l n1 n2 r r' rest, (untilErr_row r (fromDict_built hg ⟨l⟩)).2⟩

/-- a list with a bad third item, a dictionary with a bad value: the first part is there, nothing of the rest -/
example : ((empty : Graph Nat Rat Nat).fromListE 1 [.tup2 1 2, .tup1 7, .tup3 1 5 .container, .tup2 8 9]).2 = some .valueError ∧
    ((empty : Graph Nat Rat Nat).fromListE 1 [.tup2 1 2, .tup1 7, .tup3 1 5 .container, .tup2 8 9]).1.nodeList = [1, 2, 7] ∧
    ((empty : Graph Nat Rat Nat).fromListE 1 [.tup2 1 2, .tup0]).2 = some .indexError ∧
    ((empty : Graph Nat Rat Nat).fromDictE ⟨[(1, ⟨[(2, .scalar 3)]⟩), (4, ⟨[(5, .scalar 1), (6, .container), (7, .scalar 1)]⟩), (8, ⟨[]⟩)]⟩).2 = some .valueError ∧
    ((empty : Graph Nat Rat Nat).fromDictE ⟨[(1, ⟨[(2, .scalar 3)]⟩), (4, ⟨[(5, .scalar 1), (6, .container), (7, .scalar 1)]⟩), (8, ⟨[]⟩)]⟩).1.edgeList =
      [(1, 2, 3), (4, 5, 1)] := by decide +kernel

end GT

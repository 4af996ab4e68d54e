import Verif.Graph.Unhash
import Verif.Graph.OrderRefine
import Verif.Props.Load
/-
Property theorems C130: unhashable objects where a node is expected, and what an exception leaves behind.
-/
namespace GT
open Graph
variable {α V O : Type} [DecidableEq α]

/-- an argument of the call is unhashable -/
def UOp.HasUnhashable : UOp α V O → Prop
  | .addNode n _ | .delNode n | .inDegree n | .outDegree n => n = .unhashable
  | .addEdge a b _ _ | .delEdge a b => a = .unhashable ∨ b = .unhashable

/-- the value of the call is a container -/
def UOp.BadValue : UOp α V O → Prop
  | .addEdge _ _ v _ => v = .container
  | _ => False

/-- the call is `del_edge(a, [..])` where `a` has no outgoing edge: it returns before it looks at the second argument -/
def UOp.Overlooked (g : Graph α V O) (op : UOp α V O) : Prop :=
  ∃ a, op = .delEdge (.ok a) .unhashable ∧ g.nodesFrom a = []

theorem nodesFrom_nil_iff {g : Graph α V O} (hg : g.Built) (a : α) : g.nodesFrom a = [] ↔ g.edges.get? a = none := by
  unfold nodesFrom
  cases h : g.edges.get? a with
  | none => simp
  | some d =>
    have := (hg.inv.row a d h).2
    simp only [reduceCtorEq, iff_false]
    intro h0
    exact this (List.map_eq_nil_iff.1 h0)

/-- **C130**, when a call raises. A container as value: `ValueError`; otherwise an unhashable argument: `TypeError` (except for a `del_edge` whose first node has no
outgoing edge); nothing else raises. -/
theorem C130_raises_iff {g : Graph α V O} (hg : g.Built) (op : UOp α V O) :
    ((g.stepU op).2 = some .valueError ↔ op.BadValue) ∧
    ((g.stepU op).2 = some .typeError ↔ op.HasUnhashable ∧ ¬ op.BadValue ∧ ¬ op.Overlooked g) ∧
    ((g.stepU op).2 = none ∨ (g.stepU op).2 = some .valueError ∨ (g.stepU op).2 = some .typeError) := by
  have hC := C04_mutators_never_fail hg
  cases op with
  | addNode n obj => cases n <;> simp [stepU, stepE, UOp.HasUnhashable, UOp.BadValue, UOp.Overlooked]
  | delNode n => cases n <;> simp [stepU, hC, UOp.HasUnhashable, UOp.BadValue, UOp.Overlooked]
  | inDegree n => cases n <;> simp [stepU, stepE, UOp.HasUnhashable, UOp.BadValue, UOp.Overlooked]
  | outDegree n => cases n <;> simp [stepU, stepE, UOp.HasUnhashable, UOp.BadValue, UOp.Overlooked]
  | addEdge a b v bi =>
    cases a <;> cases b <;> cases v <;> simp [stepU, hC, UOp.HasUnhashable, UOp.BadValue, UOp.Overlooked]
  | delEdge a b =>
    cases a with
    | unhashable => simp [stepU, UOp.HasUnhashable, UOp.BadValue, UOp.Overlooked]
    | ok a =>
      cases b with
      | ok b => simp [stepU, hC, UOp.HasUnhashable, UOp.BadValue, UOp.Overlooked]
      | unhashable =>
        have := nodesFrom_nil_iff hg a
        cases h : g.edges.get? a <;> simp_all [stepU, UOp.HasUnhashable, UOp.BadValue, UOp.Overlooked]

/-- **C130**, what a call that raised leaves behind: the graph as it was, except that `add_edge(a, [..])` with a new node `a` has added `a` (without object) as last node. -/
theorem C130_after_exception {g : Graph α V O} (hg : g.Built) (op : UOp α V O) (hr : (g.stepU op).2 ≠ none) :
    (g.stepU op).1 = g ∨
    (∃ a v bi, op = .addEdge (.ok a) .unhashable (.scalar v) bi ∧ g.has a = false ∧ (g.stepU op).1 = g.addNode a none ∧
      (g.stepU op).1.nodeList = g.nodeList ++ [a]) := by
  have hC := C04_mutators_never_fail hg
  cases op with
  | addNode n obj => cases n <;> simp_all [stepU, stepE]
  | delNode n => cases n <;> simp_all [stepU]
  | inDegree n => cases n <;> simp_all [stepU, stepE]
  | outDegree n => cases n <;> simp_all [stepU, stepE]
  | delEdge a b =>
    cases a <;> cases b <;> simp_all [stepU]
    split <;> simp_all
  | addEdge a b v bi =>
    cases v with
    | container => left; cases a <;> cases b <;> rfl
    | scalar v =>
      cases a with
      | unhashable => left; cases b <;> rfl
      | ok a =>
        cases b with
        | ok b => simp [stepU, hC] at hr
        | unhashable =>
          by_cases h : g.has a = true
          · left; simp only [stepU, ensureNode]; rw [if_pos (by exact h)]
          · right
            refine ⟨a, v, bi, rfl, by simpa using h, ?_, ?_⟩
            · simp only [stepU, ensureNode]; rw [if_neg (by exact h)]
            · simp only [stepU]
              rw [ensureNode_nodeList, Order.append, if_neg (by rw [mem_nodeList]; exact h)]

/-- **C130**: in no case does a call that raises change an edge, an object, the number of edges or the neighbours of a node; nodes are never lost. -/
theorem C130_no_edge_touched {g : Graph α V O} (hg : g.Built) (op : UOp α V O) (hr : (g.stepU op).2 ≠ none) :
    (g.stepU op).1.edgeList = g.edgeList ∧ (∀ a b, (g.stepU op).1.edge a b = g.edge a b) ∧ (∀ a b, (g.stepU op).1.reverseEdge a b = g.reverseEdge a b) ∧
    (∀ n, (g.stepU op).1.node n = g.node n) ∧ (g.stepU op).1.edgeCount = g.edgeCount ∧ (∀ n, g.has n = true → (g.stepU op).1.has n = true) := by
  rcases C130_after_exception hg op hr with h | ⟨a, v, bi, _, ha, h, _⟩
  · rw [h]; exact ⟨rfl, fun _ _ => rfl, fun _ _ => rfl, fun _ => rfl, rfl, fun _ h => h⟩
  · rw [h]
    refine ⟨by simp [edgeList], fun x y => by simp [Graph.edge], fun x y => by simp [reverseEdge], fun n => ?_, by simp, fun n hn => ?_⟩
    · simp only [node, addNode_nodes, Dict.get?_set]
      split
      · next e =>
        subst e
        have : g.nodes.get? a = none := by
          have := ha
          unfold Graph.has at this
          rw [Dict.contains] at this
          simpa using this
        rw [this]; rfl
      · rfl
    · simp only [Graph.has, addNode_nodes, Dict.contains, Dict.get?_set] at hn ⊢
      split
      · rfl
      · exact hn

/-- **C130**: whatever calls are made, with whatever arguments and however many exceptions are caught, the graph is one that calls with proper arguments could have made:
every other theorem about graphs applies to it. -/
theorem C130_always_a_graph (ops : List (UOp α V O)) : (runU ops : Graph α V O).Built := by
  unfold runU
  suffices H : ∀ g : Graph α V O, g.Built → (ops.foldl (fun g op => (g.stepU op).1) g).Built from H _ ⟨[], rfl⟩
  induction ops with
  | nil => exact fun g h => h
  | cons op ops ih => exact fun g h => ih _ (stepU_built h op)

/-- **C130**, the queries: an unhashable first argument raises `TypeError`; with an unhashable second argument `edge` and `reverse_edge` raise `TypeError` if the
first node has an edge in the direction in question and otherwise return the default; proper arguments never raise. -/
theorem C130_queries {g : Graph α V O} (hg : g.Built) (d : Option V) :
    (∀ b, g.edgeU .unhashable b d = .error .typeError ∧ g.reverseEdgeU .unhashable b d = .error .typeError) ∧
    (∀ a, (g.nodesFrom a ≠ [] → g.edgeU (.ok a) .unhashable d = .error .typeError) ∧ (g.nodesFrom a = [] → g.edgeU (.ok a) .unhashable d = .ok d)) ∧
    (∀ b, (g.nodesTo b ≠ [] → g.reverseEdgeU (.ok b) .unhashable d = .error .typeError) ∧ (g.nodesTo b = [] → g.reverseEdgeU (.ok b) .unhashable d = .ok d)) ∧
    (∀ a b, g.edgeU (.ok a) (.ok b) d = .ok ((g.edge a b).or d)) ∧
    (∀ a b, g.reverseEdgeU (.ok b) (.ok a) d = .ok ((g.edge a b).or d)) ∧
    g.hasU .unhashable = .error .typeError ∧ g.nodeU .unhashable = .error .typeError ∧
    g.nodesFromU .unhashable = .error .typeError ∧ g.nodesToU .unhashable = .error .typeError := by
  refine ⟨fun b => ⟨rfl, rfl⟩, fun a => ?_, fun b => ?_, fun a b => ?_, fun a b => ?_, rfl, rfl, rfl, rfl⟩
  · rw [Ne, nodesFrom_nil_iff hg a]
    cases h : g.edges.get? a <;> simp [edgeU, h]
  · have : g.nodesTo b = [] ↔ g.rev.get? b = none := by
      unfold nodesTo
      cases h : g.rev.get? b with
      | none => simp
      | some d =>
        have := (hg.inv.col b d h).2
        simp only [reduceCtorEq, iff_false]
        intro h0
        exact this (List.map_eq_nil_iff.1 h0)
    rw [Ne, this]
    cases h : g.rev.get? b <;> simp [reverseEdgeU, h]
  · cases h : g.edge a b <;> simp [edgeU, h]
  · cases h : g.edge a b <;> simp [reverseEdgeU, ← hg.inv.sym, h]

/-- **C130**, `from_list` with arbitrary items: it stops at the first item whose call raises (or that is no usable item). The graph is as after the calls of the items before
it, with at most the first node of the bad item added to it; it is a proper graph. -/
theorem C130_from_list (one : V) {g : Graph α V O} (hg : g.Built) (items : List (UItem α V)) :
    (g.fromListU one items).1.Built ∧
    ((g.fromListU one items).2 = none → (g.fromListU one items).1 = items.foldl (fun g i => (itemU one g i).1) g ∧
      ∀ l x r, items = l ++ x :: r → (itemU one (l.foldl (fun g i => (itemU one g i).1) g) x).2 = none) ∧
    (∀ e, (g.fromListU one items).2 = some e → ∃ l x r g', items = l ++ x :: r ∧ g.fromListU one l = (g', none) ∧
      (itemU one g' x).2 = some e ∧
      ((g.fromListU one items).1 = g' ∨ ∃ a, g'.has a = false ∧ (g.fromListU one items).1 = g'.addNode a none ∧
        (x = .tup2 (.ok a) .unhashable ∨ (∃ v, x = .tup3 (.ok a) .unhashable (.scalar v)) ∨ ∃ v bi, x = .tup4 (.ok a) .unhashable (.scalar v) bi))) := by
  have hb : ∀ {g : Graph α V O} (i : UItem α V), g.Built → (itemU one g i).1.Built := by
    intro g i h
    cases i <;> first | exact h | exact stepU_built h _
  unfold fromListU
  induction items generalizing g with
  | nil => exact ⟨hg, fun _ => ⟨rfl, fun l x r h => by simp at h⟩, fun e h => by simp [untilErr] at h⟩
  | cons i items ih =>
    rcases hi : itemU one g i with ⟨g1, _ | e1⟩
    · have hg1 : g1.Built := by have := hb i hg; rw [hi] at this; exact this
      obtain ⟨h1, h2, h3⟩ := ih hg1
      simp only [untilErr, hi, List.foldl_cons]
      refine ⟨h1, fun h => ⟨(h2 h).1, fun l x r hl => ?_⟩, fun e he => ?_⟩
      · cases l with
        | nil =>
          simp only [List.nil_append, List.cons.injEq] at hl
          rw [← hl.1]; simp [hi]
        | cons y l =>
          simp only [List.cons_append, List.cons.injEq] at hl
          rw [← hl.1]
          simp only [List.foldl_cons, hi]
          exact (h2 h).2 l x r hl.2
      · obtain ⟨l, x, r, g', rfl, h5, h6, h7⟩ := h3 e he
        exact ⟨i :: l, x, r, g', rfl, by simp only [untilErr, hi]; exact h5, h6, h7⟩
    · simp only [untilErr, hi]
      refine ⟨by have := hb i hg; rw [hi] at this; exact this, fun h => by simp at h, fun e he => ?_⟩
      refine ⟨[], i, items, g, rfl, rfl, by rw [hi]; exact he, ?_⟩
      have key : ∀ op, itemU one g i = g.stepU op → g1 = g ∨ ∃ a v bi, op = .addEdge (.ok a) .unhashable (.scalar v) bi ∧ g.has a = false ∧ g1 = g.addNode a none := by
        intro op ho
        rw [hi] at ho
        rcases C130_after_exception hg op (by rw [← ho]; simp) with h | ⟨a, v, bi, h, ha, h', _⟩
        · left; rw [← ho] at h; exact h
        · right; rw [← ho] at h'; exact ⟨a, v, bi, h, ha, h'⟩
      cases i with
      | other => left; exact (congrArg Prod.fst hi).symm
      | tup0 => left; exact (congrArg Prod.fst hi).symm
      | more => left; exact (congrArg Prod.fst hi).symm
      | tup1 n =>
        rcases key (.addNode n none) rfl with h | ⟨a, v, bi, h, _⟩
        · exact .inl h
        · simp at h
      | tup2 a b =>
        rcases key (.addEdge a b (.scalar one) false) rfl with h | ⟨a', v, bi, h, ha, h'⟩
        · exact .inl h
        · simp only [UOp.addEdge.injEq] at h
          exact .inr ⟨a', ha, h', .inl (by rw [h.1, h.2.1])⟩
      | tup3 a b v =>
        rcases key (.addEdge a b v false) rfl with h | ⟨a', v', bi, h, ha, h'⟩
        · exact .inl h
        · simp only [UOp.addEdge.injEq] at h
          exact .inr ⟨a', ha, h', .inr (.inl ⟨v', by rw [h.1, h.2.1, h.2.2.1]⟩)⟩
      | tup4 a b v bi =>
        rcases key (.addEdge a b v bi) rfl with h | ⟨a', v', bi', h, ha, h'⟩
        · exact .inl h
        · simp only [UOp.addEdge.injEq] at h
          exact .inr ⟨a', ha, h', .inr (.inr ⟨v', bi', by rw [h.1, h.2.1, h.2.2.1, h.2.2.2]⟩)⟩

/-- **C130**, `edges(path=...)`: a path of proper nodes is answered as in C02; an unhashable object in it raises `TypeError` if the nodes before it are joined by edges and the last of
them has an outgoing edge (or there is none before it), and `KeyError` otherwise. -/
theorem C130_path_query {g : Graph α V O} (hg : g.Built) :
    (∀ p : List α, g.edgesPathU (p.map .ok) = g.edgesPath p) ∧
    (∀ x r, g.edgesPathU (.unhashable :: x :: r) = .error .typeError) ∧
    (∀ (p : List α) q r,
      ((∀ l a b m, p ++ [q] = l ++ a :: b :: m → (g.edge a b).isSome) ∧ g.nodesFrom q ≠ [] → g.edgesPathU (p.map .ok ++ .ok q :: .unhashable :: r) = .error .typeError) ∧
      (¬ ((∀ l a b m, p ++ [q] = l ++ a :: b :: m → (g.edge a b).isSome) ∧ g.nodesFrom q ≠ []) →
        g.edgesPathU (p.map .ok ++ .ok q :: .unhashable :: r) = .error .keyError)) := by
  have hmap : ∀ p : List α, g.edgesAlongU (p.map .ok) = g.edgesAlong p := by
    intro p
    induction p with
    | nil => rfl
    | cons a p ih =>
      cases p with
      | nil => rfl
      | cons b p =>
        simp only [List.map_cons] at ih
        simp only [List.map_cons, edgesAlongU, edgesAlong, ih, Graph.edge]
        cases h : g.edges.get? a with
        | none => simp
        | some d => cases h2 : d.get? b <;> simp [h2] <;> cases g.edgesAlong (b :: p) <;> rfl
  refine ⟨fun p => by simp only [edgesPathU, edgesPath, List.length_map, hmap], fun x r => ?_, fun p q r => ?_⟩
  · simp [edgesPathU, edgesAlongU]
  · unfold edgesPathU
    rw [if_neg (by simp; omega)]
    induction p with
    | nil =>
      have := nodesFrom_nil_iff hg q
      have hl : ∀ l a b m, ([] : List α) ++ [q] = l ++ a :: b :: m → (g.edge a b).isSome := by
        intro l a b m h
        have := congrArg List.length h
        simp at this
        omega
      simp only [List.map_nil, List.nil_append, edgesAlongU]
      cases h : g.edges.get? q with
      | none => exact ⟨fun h' => absurd (this.2 h) h'.2, fun _ => rfl⟩
      | some d => exact ⟨fun _ => rfl, fun h' => absurd ⟨hl, fun h0 => by rw [this.1 h0] at h; cases h⟩ h'⟩
    | cons a p ih =>
      have step : ∀ b l e, g.edgesAlongU (.ok b :: l) = .error e →
          g.edgesAlongU (.ok a :: .ok b :: l) = .error (if (g.edge a b).isSome then e else .keyError) := by
        intro b l e he
        rw [edgesAlongU]
        simp only [he]
        cases h : g.edge a b <;> simp
      have hcond : ∀ b t, p ++ [q] = b :: t → ((∀ l x y m, a :: p ++ [q] = l ++ x :: y :: m → (g.edge x y).isSome) ↔
          (g.edge a b).isSome ∧ ∀ l x y m, p ++ [q] = l ++ x :: y :: m → (g.edge x y).isSome) := by
        intro b t hbt
        constructor
        · intro h
          exact ⟨h [] a b t (by simp [hbt]), fun l x y m e => h (a :: l) x y m (by simp [e])⟩
        · rintro ⟨h1, h2⟩ l x y m e
          cases l with
          | nil =>
            simp only [List.cons_append, List.nil_append, List.cons.injEq] at e
            rw [hbt] at e
            simp only [List.cons.injEq] at e
            rw [← e.1, ← e.2.1]; exact h1
          | cons z l =>
            simp only [List.cons_append, List.cons.injEq] at e
            exact h2 l x y m e.2
      obtain ⟨b, t, l, hbt, hl⟩ : ∃ b t l, p ++ [q] = b :: t ∧ p.map NArg.ok ++ .ok q :: .unhashable :: r = .ok b :: l := by
        cases p with
        | nil => exact ⟨q, [], _, rfl, rfl⟩
        | cons b p => exact ⟨b, _, _, rfl, rfl⟩
      simp only [List.map_cons, List.cons_append] at *
      rw [hl] at ih ⊢
      rw [hcond b t hbt]
      by_cases hc : (∀ l a b m, p ++ [q] = l ++ a :: b :: m → (g.edge a b).isSome) ∧ g.nodesFrom q ≠ []
      · rw [step b l _ (ih.1 hc)]
        by_cases hab : (g.edge a b).isSome
        · exact ⟨fun _ => by rw [if_pos hab], fun h => absurd ⟨⟨hab, hc.1⟩, hc.2⟩ h⟩
        · exact ⟨fun h => absurd h.1.1 hab, fun _ => by rw [if_neg hab]⟩
      · rw [step b l _ (ih.2 hc)]
        exact ⟨fun h => absurd ⟨h.1.2, h.2⟩ hc, fun _ => by split <;> rfl⟩

/-- a call with hashable nodes -/
def Op.proper : Op α V O → UOp α V O
  | .addNode n obj => .addNode (.ok n) obj
  | .addEdge a b v bi => .addEdge (.ok a) (.ok b) v bi
  | .delEdge a b => .delEdge (.ok a) (.ok b)
  | .delNode n => .delNode (.ok n)
  | .inDegree n => .inDegree (.ok n)
  | .outDegree n => .outDegree (.ok n)

/-- an item with hashable nodes -/
def Graph.Item.proper : Item α V → UItem α V
  | .other => .other
  | .tup0 => .tup0
  | .tup1 n => .tup1 (.ok n)
  | .tup2 a b => .tup2 (.ok a) (.ok b)
  | .tup3 a b v => .tup3 (.ok a) (.ok b) v
  | .tup4 a b v bi => .tup4 (.ok a) (.ok b) v bi
  | .more => .more

/-- **C130**: with hashable nodes every call does what C01–C04 and C106 say. -/
theorem C130_proper_calls (one : V) (g : Graph α V O) :
    (∀ op : Op α V O, g.stepU op.proper = g.stepE op) ∧ (∀ ops : List (Op α V O), runU (ops.map Op.proper) = run ops) ∧
    (∀ items : List (Item α V), g.fromListU one (items.map Item.proper) = g.fromListE one items) ∧
    (∀ n, g.hasU (.ok n) = .ok (g.has n) ∧ g.nodeU (.ok n) = .ok (g.node n) ∧ g.nodesFromU (.ok n) = .ok (g.nodesFrom n) ∧ g.nodesToU (.ok n) = .ok (g.nodesTo n)) := by
  have h1 : ∀ (g : Graph α V O) (op : Op α V O), g.stepU op.proper = g.stepE op := by intro g op; cases op <;> rfl
  refine ⟨h1 g, fun ops => ?_, fun items => ?_, fun n => ⟨rfl, rfl, rfl, rfl⟩⟩
  · unfold runU run
    rw [List.foldl_map]
    simp only [h1]
  · have h2 : ∀ (g : Graph α V O) (i : Item α V), itemU one g i.proper = itemE one g i := by intro g i; cases i <;> rfl
    unfold fromListU fromListE
    induction items generalizing g with
    | nil => rfl
    | cons i items ih =>
      simp only [List.map_cons, untilErr, h2]
      rcases itemE one g i with ⟨g', _ | e⟩
      · exact ih g'
      · rfl

/-- **C130** is false as "a call that raises changes nothing": `add_edge(1, [2])` on an empty graph raises `TypeError` and leaves node 1 behind. -/
theorem C130_not_atomic : ((empty : Graph Nat Rat Nat).stepU (.addEdge (.ok 1) .unhashable (.scalar 1) false)).2 = some .typeError ∧
    ((empty : Graph Nat Rat Nat).stepU (.addEdge (.ok 1) .unhashable (.scalar 1) false)).1.nodeList = [1] := by decide +kernel

example : (runU [.addEdge (.ok 1) (.ok 2) (.scalar 5) true, .addEdge (.ok 7) .unhashable (.scalar 1) false, .delEdge (.ok 7) .unhashable, .delEdge (.ok 1) .unhashable,
    .addNode .unhashable none] : Graph Nat Rat Nat).nodeList = [1, 2, 7] ∧
  (runU [.addEdge (.ok 1) (.ok 2) (.scalar 5) true, .addEdge (.ok 7) .unhashable (.scalar 1) false] : Graph Nat Rat Nat).edgeU (.ok 1) .unhashable none = .error .typeError ∧
  (runU [.addEdge (.ok 1) (.ok 2) (.scalar 5) true, .addEdge (.ok 7) .unhashable (.scalar 1) false] : Graph Nat Rat Nat).edgeU (.ok 7) .unhashable (some 3) = .ok (some 3) := by
  decide +kernel

end GT

import Verif.Other.Nearest
import Verif.Graph.Refine
/-
Model of the mutators of `Graph3D` (graph/core.py:327-378).  Node ids are arbitrary Python values: `shape n` says whether the value `n`
is a tuple and which of its elements are numbers.
-/
namespace GT
open Graph
variable {α V O : Type} [DecidableEq α]

/-- `Graph3D._check_tuples(n)` (core.py:339-346) as a guard -/
def guard3 (shape : α → PtArg) (n : α) : Py Unit :=
  match checkTuple (shape n) with
  | .error e => .error e
  | .ok _ => .ok ()

/-- `Graph3D.add_node` (core.py:369-378), literally: the check, `BasicGraph.add_node`, and the object is stored once more -/
def Graph.addNode3E (shape : α → PtArg) (g : Graph α V O) (n : α) (obj : Option O) : Py (Graph α V O) :=
  match guard3 shape n with
  | .error e => .error e
  | .ok () =>
    let g := g.addNode n obj
    .ok { g with nodes := g.nodes.set n obj }

/-- `if node not in self._nodes: self.add_node(node)` (base.py:83-86) on a `Graph3D`: `self.add_node` is the method of `Graph3D` -/
def Graph.ensureNode3E (shape : α → PtArg) (g : Graph α V O) (n : α) : Py (Graph α V O) :=
  if g.nodes.contains n then .ok g else g.addNode3E shape n none

/-- `BasicGraph.add_edge` called by `Graph3D.add_edge`, one direction (base.py:81-106), literally; after the ends exist the code is that of
`addEdge1E`, which does not add them again -/
def Graph.addEdge13E (shape : α → PtArg) (g : Graph α V O) (a b : α) (v : V) : Py (Graph α V O) :=
  match g.ensureNode3E shape a with
  | .error e => .error e
  | .ok g => match g.ensureNode3E shape b with
    | .error e => .error e
    | .ok g => g.addEdge1E a b v

/-- the checks of `Graph3D.add_edge` (core.py:364-366) -/
def check3 (shape : α → PtArg) (a b : α) (v : Option (Arg V)) : Py (Arg V) :=
  match guard3 shape a with
  | .error e => .error e
  | .ok () => match guard3 shape b with
    | .error e => .error e
    | .ok () => match v with
      | none => .error .assertionError
      | some v => .ok v

/-- `Graph3D.add_edge(n1, n2, value, bidirectional)` (core.py:363-367; base.py:74-109); the value `None` is `none`.  `bidirectional` calls
`self.add_edge(n2, n1, value)`, the method of `Graph3D`, with its checks. -/
def Graph.addEdge3E (shape : α → PtArg) (g : Graph α V O) (a b : α) (v : Option (Arg V)) (bidirectional : Bool) : Py (Graph α V O) :=
  match check3 shape a b v with
  | .error e => .error e
  | .ok .container => .error .valueError
  | .ok (.scalar w) => match g.addEdge13E shape a b w with
    | .error e => .error e
    | .ok g =>
      if bidirectional then
        match check3 shape b a v with
        | .error e => .error e
        | .ok .container => .error .valueError
        | .ok (.scalar w) => g.addEdge13E shape b a w
      else .ok g

/-- the public operations that can change a `Graph3D`; `add_edge` may be given the value `None` -/
inductive Op3 (α V O : Type) where
  | addNode (n : α) (obj : Option O)
  | addEdge (a b : α) (v : Option (Arg V)) (bidirectional : Bool)
  | delEdge (a b : α)
  | delNode (n : α)
  | inDegree (n : α)
  | outDegree (n : α)

/-- one public operation on a `Graph3D` (core.py:363-378, base.py): the new state and the exception, if any.  After an exception the state
is the one before the call; `C60_graph3D_only_points` shows that nothing was changed before it was raised. -/
def Graph.step3 (shape : α → PtArg) (g : Graph α V O) : Op3 α V O → Graph α V O × Option Err
  | .addNode n obj => match g.addNode3E shape n obj with
    | .ok g' => (g', none)
    | .error e => (g, some e)
  | .addEdge a b v bi => match g.addEdge3E shape a b v bi with
    | .ok g' => (g', none)
    | .error e => (g, some e)
  | .delEdge a b => g.stepE (.delEdge a b)
  | .delNode n => g.stepE (.delNode n)
  | .inDegree n => g.stepE (.inDegree n)
  | .outDegree n => g.stepE (.outDegree n)

/-- the state after a history of operations on a `Graph3D` -/
def Graph.run3 (shape : α → PtArg) (ops : List (Op3 α V O)) : Graph α V O := ops.foldl (fun g op => (g.step3 shape op).1) Graph.empty

/-! ### proofs -/

/-- a point: a tuple of three numbers (specification) -/
def IsPoint (x : PtArg) : Prop := ∃ a b c, x = .tuple [some a, some b, some c]

theorem allNum_some {l : List (Option Rat)} {r : List Rat} : allNum l = some r ↔ l = r.map some := by
  induction l generalizing r with
  | nil => cases r <;> simp [allNum]
  | cons x l ih =>
    cases x with
    | none => cases r <;> simp [allNum]
    | some q =>
      simp only [allNum, Option.map_eq_some_iff]
      constructor
      · rintro ⟨r', h, rfl⟩; rw [ih.1 h]; rfl
      · intro h
        cases r with
        | nil => simp at h
        | cons y r =>
          simp only [List.map_cons, List.cons.injEq, Option.some.injEq] at h
          exact ⟨r, ih.2 h.2, by rw [h.1]⟩

theorem guard3_ok {shape : α → PtArg} {n : α} : guard3 shape n = .ok () ↔ IsPoint (shape n) := by
  unfold guard3 checkTuple IsPoint
  cases shape n with
  | other => simp
  | tuple l =>
    simp only [PtArg.tuple.injEq]
    by_cases h : l.length = 3
    · rw [if_neg (by simpa using h)]
      match l, h with
      | [x, y, z], _ =>
        cases x <;> cases y <;> cases z <;> simp [allNum]
    · rw [if_pos h]
      constructor
      · intro h; cases h
      · rintro ⟨a, b, c, rfl⟩; exact absurd rfl h

theorem guard3_err {shape : α → PtArg} {n : α} {e : Err} (h : guard3 shape n = .error e) :
    ¬ IsPoint (shape n) ∧ (e = .typeError ∨ e = .valueError) := by
  refine ⟨(fun hp => by rw [guard3_ok.2 hp] at h; exact absurd h (by simp)), ?_⟩
  unfold guard3 checkTuple at h
  cases hs : shape n with
  | other => rw [hs] at h; cases h; exact .inl rfl
  | tuple l =>
    rw [hs] at h
    dsimp only at h
    by_cases hl : l.length ≠ 3
    · rw [if_pos hl] at h; cases h; exact .inr rfl
    · rw [if_neg hl] at h
      split at h
      · rename_i h1
        split at h1
        · cases h1
        · cases h1; cases h; exact .inl rfl
      · cases h

theorem guard3_cases (shape : α → PtArg) (n : α) : guard3 shape n = .ok () ∨ ∃ e, guard3 shape n = .error e := by
  cases h : guard3 shape n with
  | ok u => exact .inl rfl
  | error e => exact .inr ⟨e, rfl⟩

theorem Dict.set_set_same {K W : Type} [DecidableEq K] (d : Dict K W) (k : K) (v : W) : (d.set k v).set k v = d.set k v := by
  have : ∀ l : List (K × W), aset k v (aset k v l) = aset k v l := by
    intro l
    induction l with
    | nil => simp [aset]
    | cons p l ih =>
      simp only [aset]
      split
      · simp [aset]
      · rename_i h; simp [aset, h, ih]
  unfold Dict.set
  simp only [this]

theorem addNode3E_ok {shape : α → PtArg} {g : Graph α V O} {n : α} (hp : IsPoint (shape n)) (obj : Option O) :
    g.addNode3E shape n obj = .ok (g.addNode n obj) := by
  unfold Graph.addNode3E
  rw [guard3_ok.2 hp]
  dsimp only
  have : (g.addNode n obj).nodes.set n obj = (g.addNode n obj).nodes := by
    unfold Graph.addNode
    split <;> simp [Dict.set_set_same]
  rw [this]

theorem addNode3E_err {shape : α → PtArg} {g : Graph α V O} {n : α} (hp : ¬ IsPoint (shape n)) (obj : Option O) :
    ∃ e, g.addNode3E shape n obj = .error e ∧ (e = .typeError ∨ e = .valueError) := by
  rcases guard3_cases shape n with h | ⟨e, h⟩
  · exact absurd (guard3_ok.1 h) hp
  · refine ⟨e, ?_, (guard3_err h).2⟩
    unfold Graph.addNode3E; rw [h]

theorem ensureNode3E_ok {shape : α → PtArg} {g : Graph α V O} {n : α} (hp : IsPoint (shape n)) :
    g.ensureNode3E shape n = .ok (g.ensureNode n) := by
  unfold Graph.ensureNode3E Graph.ensureNode
  split
  · rfl
  · exact addNode3E_ok hp none

theorem ensureNode_of_has {g : Graph α V O} {n : α} (h : g.has n = true) : g.ensureNode n = g := by
  unfold Graph.ensureNode
  exact if_pos h

theorem has_ensureNode (g : Graph α V O) (n x : α) : (g.ensureNode n).has x = (g.has x || decide (x = n)) := by
  have := mem_keys_ensureNode g n x
  rw [Bool.eq_iff_iff]
  simp only [Graph.has, Bool.or_eq_true, decide_eq_true_eq, Dict.contains_iff_keys]
  rw [this]
  exact or_comm

theorem addEdge13E_ok {shape : α → PtArg} {g : Graph α V O} {a b : α} (ha : IsPoint (shape a)) (hb : IsPoint (shape b)) (v : V) :
    g.addEdge13E shape a b v = g.addEdge1E a b v := by
  unfold Graph.addEdge13E
  rw [ensureNode3E_ok ha]
  dsimp only
  rw [ensureNode3E_ok hb]
  dsimp only
  unfold Graph.addEdge1E
  have h1 : ((g.ensureNode a).ensureNode b).ensureNode a = (g.ensureNode a).ensureNode b :=
    ensureNode_of_has (by simp [has_ensureNode])
  have h2 : ((g.ensureNode a).ensureNode b).ensureNode b = (g.ensureNode a).ensureNode b :=
    ensureNode_of_has (by simp [has_ensureNode])
  rw [h1, h2]

theorem check3_ok {shape : α → PtArg} {a b : α} (ha : IsPoint (shape a)) (hb : IsPoint (shape b)) (v : Option (Arg V)) :
    check3 shape a b v = match v with
      | none => .error .assertionError
      | some v => .ok v := by
  unfold check3
  rw [guard3_ok.2 ha, guard3_ok.2 hb]

theorem check3_err {shape : α → PtArg} {a b : α} (h : ¬ (IsPoint (shape a) ∧ IsPoint (shape b))) (v : Option (Arg V)) :
    ∃ e, check3 shape a b v = .error e ∧ (e = .typeError ∨ e = .valueError) := by
  unfold check3
  rcases guard3_cases shape a with h1 | ⟨e, h1⟩
  · rw [h1]
    rcases guard3_cases shape b with h2 | ⟨e, h2⟩
    · exact absurd ⟨guard3_ok.1 h1, guard3_ok.1 h2⟩ h
    · rw [h2]; exact ⟨e, rfl, (guard3_err h2).2⟩
  · rw [h1]; exact ⟨e, rfl, (guard3_err h1).2⟩

/-- between points and with a value, `Graph3D.add_edge` is `add_edge` -/
theorem addEdge3E_ok {shape : α → PtArg} {g : Graph α V O} {a b : α} (ha : IsPoint (shape a)) (hb : IsPoint (shape b)) (v : Arg V) (bi : Bool) :
    g.addEdge3E shape a b (some v) bi = g.addEdgeE a b v bi := by
  unfold Graph.addEdge3E Graph.addEdgeE
  rw [check3_ok ha hb, check3_ok hb ha]
  cases v with
  | container => rfl
  | scalar w =>
    dsimp only
    rw [addEdge13E_ok ha hb]
    cases h : g.addEdge1E a b w with
    | error e => rfl
    | ok g' =>
      dsimp only [bind, Except.bind]
      rw [addEdge13E_ok hb ha]

/-- the operation of `Graph` that corresponds to an operation of `Graph3D` with a value -/
def Op3.toOp : Op3 α V O → Option (Op α V O)
  | .addNode n obj => some (.addNode n obj)
  | .addEdge _ _ none _ => none
  | .addEdge a b (some v) bi => some (.addEdge a b v bi)
  | .delEdge a b => some (.delEdge a b)
  | .delNode n => some (.delNode n)
  | .inDegree n => some (.inDegree n)
  | .outDegree n => some (.outDegree n)

/-- the nodes that an operation may add -/
def Op3.newNodes : Op3 α V O → List α
  | .addNode n _ => [n]
  | .addEdge a b _ _ => [a, b]
  | _ => []

theorem step3_spec (shape : α → PtArg) (g : Graph α V O) (op : Op3 α V O) :
    ((∀ n ∈ op.newNodes, IsPoint (shape n)) → ∀ o, op.toOp = some o → g.step3 shape op = g.stepE o) ∧
    ((∀ n ∈ op.newNodes, IsPoint (shape n)) → op.toOp = none → g.step3 shape op = (g, some .assertionError)) ∧
    ((¬ ∀ n ∈ op.newNodes, IsPoint (shape n)) → ∃ e, g.step3 shape op = (g, some e) ∧ (e = .typeError ∨ e = .valueError)) := by
  cases op with
  | addNode n obj =>
    refine ⟨?_, (fun _ h => nomatch h), ?_⟩
    · rintro h o ho
      cases ho
      simp only [Graph.step3, addNode3E_ok (h n (by simp [Op3.newNodes])), Graph.stepE]
    · intro h
      obtain ⟨e, h1, h2⟩ := addNode3E_err (g := g) (shape := shape) (n := n) (by simpa [Op3.newNodes] using h) obj
      exact ⟨e, by simp only [Graph.step3, h1], h2⟩
  | addEdge a b v bi =>
    refine ⟨?_, ?_, ?_⟩
    · rintro h o ho
      cases v with
      | none => cases ho
      | some v =>
        cases ho
        simp only [Graph.step3, addEdge3E_ok (h a (by simp [Op3.newNodes])) (h b (by simp [Op3.newNodes])), Graph.stepE]
        cases g.addEdgeE a b v bi <;> rfl
    · intro h hn
      cases v with
      | some v => cases hn
      | none =>
        simp only [Graph.step3, Graph.addEdge3E, check3_ok (h a (by simp [Op3.newNodes])) (h b (by simp [Op3.newNodes]))]
    · intro h
      obtain ⟨e, h1, h2⟩ := check3_err (V := V) (shape := shape) (a := a) (b := b) (by simpa [Op3.newNodes] using h) v
      exact ⟨e, by simp only [Graph.step3, Graph.addEdge3E, h1], h2⟩
  | delEdge a b => exact ⟨fun _ o ho => by cases ho; rfl, (fun _ h => nomatch h), fun h => absurd (by simp [Op3.newNodes]) h⟩
  | delNode n => exact ⟨fun _ o ho => by cases ho; rfl, (fun _ h => nomatch h), fun h => absurd (by simp [Op3.newNodes]) h⟩
  | inDegree n => exact ⟨fun _ o ho => by cases ho; rfl, (fun _ h => nomatch h), fun h => absurd (by simp [Op3.newNodes]) h⟩
  | outDegree n => exact ⟨fun _ o ho => by cases ho; rfl, (fun _ h => nomatch h), fun h => absurd (by simp [Op3.newNodes]) h⟩

/-- is it a tuple of three numbers? -/
def isPoint : PtArg → Bool
  | .tuple [some _, some _, some _] => true
  | _ => false

theorem isPoint_iff (x : PtArg) : isPoint x = true ↔ IsPoint x := by
  unfold IsPoint isPoint
  split
  · simp
  · rename_i h
    constructor
    · intro h; cases h
    · rintro ⟨a, b, c, rfl⟩; exact absurd rfl (h a b c)

theorem has_stepE {g : Graph α V O} (hi : g.Inv) (op : Op3 α V O) {o : Op α V O} (ho : op.toOp = some o) {n : α}
    (h : (g.stepE o).1.has n = true) : g.has n = true ∨ n ∈ op.newNodes := by
  have hr : Rel g ⟨fun n => g.nodes.get? n, fun a b => g.edge a b⟩ := ⟨fun _ => rfl, fun _ _ => rfl⟩
  have hs := (Rel.step hi hr o).1.node n
  have hg : ∀ g : Graph α V O, g.has n = true ↔ (g.nodes.get? n).isSome = true := by
    intro g; unfold Graph.has Dict.contains; rfl
  rw [hg] at h ⊢
  rw [hs] at h
  cases op with
  | addNode m obj =>
    cases ho
    simp only [Maps.step] at h
    by_cases e : n = m
    · exact .inr (by simp [Op3.newNodes, e])
    · rw [if_neg e] at h; exact .inl h
  | addEdge a b v bi =>
    cases v with
    | none => cases ho
    | some v =>
      cases ho
      cases v with
      | container => exact .inl h
      | scalar v =>
        by_cases e : n = a ∨ n = b
        · exact .inr (by simpa [Op3.newNodes] using e)
        · have e1 : ¬ n = a := fun x => e (.inl x)
          have e2 : ¬ n = b := fun x => e (.inr x)
          refine .inl ?_
          cases bi <;> simpa [Maps.step, Maps.put, Maps.touch, e1, e2] using h
  | delEdge a b => cases ho; exact .inl h
  | delNode m =>
    cases ho
    simp only [Maps.step] at h
    by_cases e : n = m
    · rw [if_pos e] at h; cases h
    · rw [if_neg e] at h; exact .inl h
  | inDegree m => cases ho; exact .inl h
  | outDegree m => cases ho; exact .inl h

/-- the call that `Graph` receives: none if it is rejected (specification) -/
def Op3.accepted (shape : α → PtArg) (op : Op3 α V O) : Option (Op α V O) :=
  if op.newNodes.all (fun n => isPoint (shape n)) then op.toOp else none

theorem step3_accepted (shape : α → PtArg) (g : Graph α V O) (op : Op3 α V O) :
    match op.accepted shape with
    | some o => g.step3 shape op = g.stepE o
    | none => ∃ e, g.step3 shape op = (g, some e) ∧ (e = .typeError ∨ e = .valueError ∨ e = .assertionError) := by
  obtain ⟨h1, h2, h3⟩ := step3_spec shape g op
  have hiff : op.newNodes.all (fun n => isPoint (shape n)) = true ↔ ∀ n ∈ op.newNodes, IsPoint (shape n) := by
    simp [List.all_eq_true, isPoint_iff]
  unfold Op3.accepted
  by_cases h : op.newNodes.all (fun n => isPoint (shape n)) = true
  · rw [if_pos h]
    cases ho : op.toOp with
    | none => exact ⟨_, h2 (hiff.1 h) ho, .inr (.inr rfl)⟩
    | some o => exact h1 (hiff.1 h) o ho
  · rw [if_neg h]
    obtain ⟨e, h4, h5⟩ := h3 (fun x => h (hiff.2 x))
    exact ⟨e, h4, h5.elim .inl (fun x => .inr (.inl x))⟩

theorem run3_eq (shape : α → PtArg) (ops : List (Op3 α V O)) :
    Graph.run3 shape ops = Graph.run (ops.filterMap (Op3.accepted shape)) := by
  have : ∀ g : Graph α V O, ops.foldl (fun g op => (g.step3 shape op).1) g =
      (ops.filterMap (Op3.accepted shape)).foldl (fun g op => (g.stepE op).1) g := by
    induction ops with
    | nil => intro g; rfl
    | cons op ops ih =>
      intro g
      have h := step3_accepted shape g op
      rw [List.foldl_cons, ih]
      cases ha : op.accepted shape with
      | none =>
        rw [ha] at h
        obtain ⟨e, h, _⟩ := h
        rw [h, List.filterMap_cons_none ha]
      | some o =>
        rw [ha] at h
        dsimp only at h
        rw [h, List.filterMap_cons_some ha, List.foldl_cons]
  exact this _

theorem run3_points (shape : α → PtArg) (ops : List (Op3 α V O)) (n₀ : α) (h₀ : (Graph.run3 shape ops).has n₀ = true) : IsPoint (shape n₀) := by
  unfold Graph.run3 at h₀
  revert h₀
  have : ∀ (g : Graph α V O), g.Built → (∀ n, g.has n = true → IsPoint (shape n)) →
      ∀ n, (ops.foldl (fun g op => (g.step3 shape op).1) g).has n = true → IsPoint (shape n) := by
    induction ops with
    | nil => intro g _ hp n hn; exact hp n hn
    | cons op ops ih =>
      intro g hb hp n hn
      have hs := step3_accepted shape g op
      refine ih (g.step3 shape op).1 ?_ ?_ n hn
      · cases ha : op.accepted shape with
        | none => rw [ha] at hs; obtain ⟨e, hs, _⟩ := hs; rw [hs]; exact hb
        | some o => rw [ha] at hs; dsimp only at hs; rw [hs]; exact hb.step o
      · cases ha : op.accepted shape with
        | none => rw [ha] at hs; obtain ⟨e, hs, _⟩ := hs; rw [hs]; exact hp
        | some o =>
          rw [ha] at hs; dsimp only at hs; rw [hs]
          intro m hm
          unfold Op3.accepted at ha
          split at ha
          · rename_i hall
            rcases has_stepE hb.inv op ha hm with h | h
            · exact hp m h
            · exact (isPoint_iff _).1 (List.all_eq_true.1 hall m h)
          · cases ha
  exact this _ built_empty (fun n hn => by cases hn) n₀

end GT

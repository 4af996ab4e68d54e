import Verif.Graph.Inv
import Verif.Graph.FuncLemmas
import Verif.Spec.Fsm
/-
Model of `FiniteStateMachine` (graph/finite_state_machine.py).
-/
namespace GT
variable {α A : Type} [DecidableEq α] [DecidableEq A]
open Graph

/-- `FiniteStateMachine.__init__` (finite_state_machine.py:6-11).  Nodes are of type `α`; the action ids of `count()` are
integers, and so hashable values like the states: `aid i` is the id `i` as a node.  The edges of `states` have the value 1
(here: `()`). -/
structure Fsm (α A : Type) where
  states : Graph α Unit Unit
  cur : Option α
  nid : Nat
  actions : Dict α A
  isSet : Bool

/-- `FiniteStateMachine()` -/
def Fsm.new : Fsm α A := ⟨Graph.empty, none, 0, Dict.empty, false⟩

/-- `set_initial_state` (finite_state_machine.py:13-24) -/
def Fsm.setInitialState (f : Fsm α A) (s : α) : Py (Fsm α A) :=
  if f.isSet then .error .valueError
  else if !decide (s ∈ f.states.nodeList) then .error .valueError
  else .ok { f with cur := some s, isSet := true }

/-- `add_transition` (finite_state_machine.py:26-37) -/
def Fsm.addTransition (aid : Nat → α) (f : Fsm α A) (s : α) (a : A) (t : α) : Fsm α A :=
  let i := aid f.nid
  { f with nid := f.nid + 1, states := (f.states.addEdge s i ()).addEdge i t (), actions := f.actions.set i a }

/-- `[d[i] for i in l]` -/
def lookups (d : Dict α A) : List α → Py (List A)
  | [] => .ok []
  | i :: l => match d.get? i with
    | none => .error .keyError
    | some a => match lookups d l with
      | .error e => .error e
      | .ok r => .ok (a :: r)

/-- `options` (finite_state_machine.py:39-41); `nodes(from_node=None)` are all nodes -/
def Fsm.options (f : Fsm α A) : Py (List A) :=
  match f.states.nodesQ f.cur none none none with
  | .error e => .error e
  | .ok l => lookups f.actions l

/-- the loop of `next` (finite_state_machine.py:55-58) -/
def Fsm.find (f : Fsm α A) (a : A) : List α → Py (Fsm α A)
  | [] => .error .valueError
  | i :: l => match f.actions.get? i with
    | none => .error .keyError
    | some b => if b = a then
        match f.states.nodesFrom i with
        | [] => .error .indexError
        | t :: _ => .ok { f with cur := some t }
      else Fsm.find f a l

/-- `next` (finite_state_machine.py:43-59) -/
def Fsm.next (f : Fsm α A) (a : A) : Py (Fsm α A) :=
  if !f.isSet then .error .valueError
  else match f.states.nodesQ f.cur none none none with
    | .error e => .error e
    | .ok acts => if acts = [] then .error .stopIteration else f.find a acts

/-- one call by a user who catches exceptions -/
def Fsm.step (aid : Nat → α) (f : Fsm α A) : FsmOp α A → Py (Option (List A)) × Fsm α A
  | .addTransition s a t => (.ok none, f.addTransition aid s a t)
  | .setInitialState s => match f.setInitialState s with
    | .ok f' => (.ok none, f')
    | .error e => (.error e, f)
  | .next a => match f.next a with
    | .ok f' => (.ok none, f')
    | .error e => (.error e, f)
  | .options => match f.options with
    | .ok l => (.ok (some l), f)
    | .error e => (.error e, f)

/-- what the calls of a history return -/
def Fsm.outputs (aid : Nat → α) (f : Fsm α A) : List (FsmOp α A) → List (Py (Option (List A)))
  | [] => []
  | op :: ops => (f.step aid op).1 :: Fsm.outputs aid (f.step aid op).2 ops

/-! ### refinement -/

omit [DecidableEq A] in
theorem nodesFrom_addEdge_new {V O : Type} (g : Graph α V O) (a b x : α) (v : V) (h : b ∉ g.nodesFrom a) :
    (g.addEdge a b v).nodesFrom x = if a = x then g.nodesFrom a ++ [b] else g.nodesFrom x := by
  rw [nodesFrom_eq_row, nodesFrom_eq_row, nodesFrom_eq_row, addEdge_edges, rowOf_set]
  rw [nodesFrom_eq_row] at h
  split
  · exact Dict.keys_set_of_not_mem _ h
  · rfl

/-- the ids of the transitions out of `s` -/
def outIds (aid : Nat → α) (tr : List (α × A × α)) (s : α) : List α :=
  (tr.zipIdx.filter (fun t => decide (t.1.1 = s))).map (fun t => aid t.2)

structure FsmInv (aid : Nat → α) (f : Fsm α A) (m : Machine α A) : Prop where
  nid : f.nid = m.trans.length
  cur : f.cur = m.cur
  set : f.isSet = m.cur.isSome
  notId : ∀ t ∈ m.trans, ∀ i, t.1 ≠ aid i ∧ t.2.2 ≠ aid i
  curNotId : ∀ s, m.cur = some s → ∀ i, s ≠ aid i
  keys : ∀ x, x ∈ f.states.nodeList ↔ m.IsState x ∨ ∃ i, i < m.trans.length ∧ x = aid i
  out : ∀ s, (∀ i, s ≠ aid i) → f.states.nodesFrom s = outIds aid m.trans s
  idOut : ∀ i t, m.trans[i]? = some t → f.states.nodesFrom (aid i) = [t.2.2]
  idOut' : ∀ i, m.trans.length ≤ i → f.states.nodesFrom (aid i) = []
  act : ∀ i, f.actions.get? (aid i) = (m.trans[i]?).map (fun t => t.2.1)
  actS : ∀ s, (∀ i, s ≠ aid i) → f.actions.get? s = none

omit [DecidableEq A] in
theorem outIds_append (aid : Nat → α) (tr : List (α × A × α)) (t : α × A × α) (s : α) :
    outIds aid (tr ++ [t]) s = if t.1 = s then outIds aid tr s ++ [aid tr.length] else outIds aid tr s := by
  unfold outIds
  rw [List.zipIdx_append, List.filter_append, List.map_append]
  simp only [List.zipIdx_cons, List.zipIdx_nil, List.filter_cons, List.filter_nil, Nat.zero_add]
  split <;> rename_i h <;> simp at h <;> simp [h]

omit [DecidableEq A] in
theorem mem_outIds {aid : Nat → α} {tr : List (α × A × α)} {s x : α} (h : x ∈ outIds aid tr s) : ∃ i, i < tr.length ∧ x = aid i := by
  unfold outIds at h
  rw [List.mem_map] at h
  obtain ⟨⟨t, i⟩, h1, rfl⟩ := h
  rw [List.mem_filter] at h1
  have := List.mem_zipIdx h1.1
  exact ⟨i, by simpa using this.2.1, rfl⟩

omit [DecidableEq A] in
theorem lookups_ids {aid : Nat → α} {d : Dict α A} {tr : List (α × A × α)} (p : (α × A × α) × Nat → Bool) (l : List ((α × A × α) × Nat))
    (h : ∀ t ∈ l, d.get? (aid t.2) = some t.1.2.1) :
    lookups d ((l.filter p).map (fun t => aid t.2)) = .ok ((l.filter p).map (fun t => t.1.2.1)) := by
  induction l with
  | nil => rfl
  | cons t l ih =>
    have ih := ih (fun t ht => h t (List.mem_cons_of_mem _ ht))
    rw [List.filter_cons]
    split
    · simp only [List.map_cons, lookups]
      rw [h t (by simp), ih]
    · exact ih

omit [DecidableEq A] in
theorem lookups_error {d : Dict α A} {l : List α} {x : α} (hx : x ∈ l) (h : d.get? x = none) : lookups d l = .error .keyError := by
  induction l with
  | nil => cases hx
  | cons i l ih =>
    unfold lookups
    split
    · rfl
    · rename_i a ha
      rcases List.mem_cons.1 hx with rfl | hx
      · rw [h] at ha; cases ha
      · rw [ih hx]

theorem filter_zipIdx_map {β : Type} (q : β → Bool) (l : List β) (k : Nat) :
    ((l.zipIdx k).filter (fun t => q t.1)).map (fun t => t.1) = l.filter q := by
  induction l generalizing k with
  | nil => rfl
  | cons a l ih =>
    rw [List.zipIdx_cons, List.filter_cons, List.filter_cons]
    split
    · rw [List.map_cons, ih]
    · exact ih (k + 1)

theorem find_ids {aid : Nat → α} {f : Fsm α A} {a : A} (l : List ((α × A × α) × Nat))
    (h : ∀ t ∈ l, f.actions.get? (aid t.2) = some t.1.2.1 ∧ f.states.nodesFrom (aid t.2) = [t.1.2.2]) :
    f.find a (l.map (fun t => aid t.2)) = match (l.map (fun t => t.1)).find? (fun t => decide (t.2.1 = a)) with
      | some t => .ok { f with cur := some t.2.2 }
      | none => .error .valueError := by
  induction l with
  | nil => rfl
  | cons t l ih =>
    have ih := ih (fun t ht => h t (List.mem_cons_of_mem _ ht))
    obtain ⟨h1, h2⟩ := h t (by simp)
    simp only [List.map_cons, Fsm.find, List.find?_cons]
    rw [h1, h2]
    by_cases hb : t.1.2.1 = a
    · simp [hb]
    · simp [hb, ih]

theorem FsmInv.step {aid : Nat → α} (hinj : ∀ i j, aid i = aid j → i = j) {f : Fsm α A} {m : Machine α A} (h : FsmInv aid f m)
    (op : FsmOp α A) (hop : ∀ s ∈ op.states, ∀ i, s ≠ aid i) :
    (f.step aid op).1 = (m.step op).1 ∧ FsmInv aid (f.step aid op).2 (m.step op).2 := by
  have hidx : ∀ t ∈ m.trans.zipIdx, f.actions.get? (aid t.2) = some t.1.2.1 ∧ f.states.nodesFrom (aid t.2) = [t.1.2.2] := by
    rintro ⟨t, i⟩ ht
    have hget : m.trans[i]? = some t := by
      have h3 := List.mem_zipIdx ht
      obtain ⟨_, h4, h5⟩ := h3
      have h4 : i < m.trans.length := by simpa using h4
      rw [List.getElem?_eq_getElem h4]
      simp at h5; rw [h5]
    exact ⟨by rw [h.act, hget]; rfl, h.idOut i t hget⟩
  cases op with
  | addTransition s a t =>
    refine ⟨rfl, ?_⟩
    have hs : ∀ i, s ≠ aid i := hop s (by simp [FsmOp.states])
    have ht : ∀ i, t ≠ aid i := hop t (by simp [FsmOp.states])
    show FsmInv aid (f.addTransition aid s a t) { m with trans := m.trans ++ [(s, a, t)] }
    have hni := h.nid
    have hnew : aid m.trans.length ∉ f.states.nodesFrom s := by
      rw [h.out s hs]
      intro hm
      obtain ⟨i, h1, h2⟩ := mem_outIds hm
      have := hinj _ _ h2; omega
    have hfrom : ∀ x, ((f.states.addEdge s (aid m.trans.length) ()).addEdge (aid m.trans.length) t ()).nodesFrom x =
        if aid m.trans.length = x then [t] else if s = x then f.states.nodesFrom s ++ [aid m.trans.length] else f.states.nodesFrom x := by
      intro x
      have h0 : (f.states.addEdge s (aid m.trans.length) ()).nodesFrom (aid m.trans.length) = [] := by
        rw [nodesFrom_addEdge_new _ _ _ _ _ hnew, if_neg (hs _), h.idOut' _ (Nat.le_refl _)]
      rw [nodesFrom_addEdge_new _ _ _ _ _ (by rw [h0]; simp), h0, nodesFrom_addEdge_new _ _ _ _ _ hnew]
      rfl
    unfold Fsm.addTransition
    rw [hni]
    refine ⟨by simp, h.cur, h.set, ?_, h.curNotId, ?_, ?_, ?_, ?_, ?_, ?_⟩
    · intro x hx i
      rw [List.mem_append, List.mem_singleton] at hx
      rcases hx with hx | rfl
      · exact h.notId x hx i
      · exact ⟨hs i, ht i⟩
    · intro x
      show x ∈ (Graph.nodes _).keys ↔ _
      rw [addEdge_nodes, mem_keys_withEnds, addEdge_nodes, mem_keys_withEnds]
      have := h.keys x
      unfold nodeList at this
      rw [this]
      simp only [Machine.IsState, List.mem_append, List.mem_singleton, List.length_append, List.length_singleton]
      constructor
      · rintro (rfl | rfl | rfl | rfl | ⟨u, h1, h2⟩ | ⟨i, h1, h2⟩)
        · exact .inr ⟨_, Nat.lt_succ_self _, rfl⟩
        · exact .inl ⟨_, .inr rfl, .inr rfl⟩
        · exact .inl ⟨_, .inr rfl, .inl rfl⟩
        · exact .inr ⟨_, Nat.lt_succ_self _, rfl⟩
        · exact .inl ⟨u, .inl h1, h2⟩
        · exact .inr ⟨i, by omega, h2⟩
      · rintro (⟨u, h1 | rfl, h2 | h2⟩ | ⟨i, h1, h2⟩)
        · exact .inr (.inr (.inr (.inr (.inl ⟨u, h1, .inl h2⟩))))
        · exact .inr (.inr (.inr (.inr (.inl ⟨u, h1, .inr h2⟩))))
        · exact .inr (.inr (.inl h2.symm))
        · exact .inr (.inl h2.symm)
        · by_cases hi : i = m.trans.length
          · subst hi; exact .inl h2
          · exact .inr (.inr (.inr (.inr (.inr ⟨i, by omega, h2⟩))))
    · intro x hx
      rw [hfrom, if_neg (fun he => hx _ he.symm), outIds_append]
      split
      · rename_i he; subst he; rw [h.out s hs]
      · exact h.out x hx
    · intro i u hu
      rw [hfrom]
      by_cases hi : i = m.trans.length
      · subst hi
        rw [List.getElem?_append_right (Nat.le_refl _)] at hu
        simp at hu; subst hu; rw [if_pos rfl]
      · rw [if_neg (fun he => hi (hinj _ _ he).symm), if_neg (hs i)]
        refine h.idOut i u ?_
        have : i < (m.trans ++ [(s, a, t)]).length := (List.getElem?_eq_some_iff.1 hu).1
        rw [List.getElem?_append_left (by simp at this; omega)] at hu
        exact hu
    · intro i hi
      simp at hi
      rw [hfrom, if_neg (fun he => by have := hinj _ _ he; omega), if_neg (hs i)]
      exact h.idOut' i (by omega)
    · intro i
      rw [Dict.get?_set]
      by_cases hi : i = m.trans.length
      · subst hi; rw [if_pos rfl, List.getElem?_append_right (Nat.le_refl _)]; simp
      · rw [if_neg (fun he => hi (hinj _ _ he).symm), h.act]
        by_cases hlt : i < m.trans.length
        · rw [List.getElem?_append_left hlt]
        · rw [List.getElem?_eq_none (by omega), List.getElem?_eq_none (by simp; omega)]
    · intro x hx
      rw [Dict.get?_set, if_neg (fun he => hx _ he.symm)]
      exact h.actS x hx
  | setInitialState s =>
    have hs : ∀ i, s ≠ aid i := hop s (by simp [FsmOp.states])
    have hmem : s ∈ f.states.nodeList ↔ m.IsState s := by
      rw [h.keys]
      constructor
      · rintro (h1 | ⟨i, _, h1⟩)
        · exact h1
        · exact absurd h1 (hs i)
      · exact .inl
    simp only [Fsm.step, Machine.step, Fsm.setInitialState]
    rw [h.set]
    by_cases hc : m.cur.isSome = true
    · rw [if_pos hc, if_pos hc]; exact ⟨rfl, h⟩
    · rw [if_neg hc, if_neg hc]
      by_cases hst : m.IsState s
      · rw [if_neg (by simp [hmem.2 hst]), if_pos hst]
        exact ⟨rfl, { h with cur := rfl, set := rfl, curNotId := fun x hx => by cases hx; exact hs }⟩
      · rw [if_pos (by simpa [hmem] using hst), if_neg hst]
        exact ⟨rfl, h⟩
  | next a =>
    simp only [Fsm.step, Machine.step, Fsm.next]
    rw [h.set, h.cur]
    cases hc : m.cur with
    | none => exact ⟨rfl, h⟩
    | some s =>
      have hs := h.curNotId s hc
      have hq : f.states.nodesQ (some s) none none none = .ok (f.states.nodesFrom s) := rfl
      simp only [Option.isSome_some, Bool.not_true, Bool.false_eq_true, if_false]
      rw [hq, h.out s hs]
      dsimp only
      have hfrom : m.from s = ((m.trans.zipIdx.filter (fun t => decide (t.1.1 = s))).map (fun t => t.1)) :=
        (filter_zipIdx_map (fun t : α × A × α => decide (t.1 = s)) m.trans 0).symm
      have hnil : outIds aid m.trans s = [] ↔ m.from s = [] := by
        rw [hfrom]; unfold outIds; rw [List.map_eq_nil_iff, List.map_eq_nil_iff]
      by_cases h0 : m.from s = []
      · rw [if_pos (hnil.2 h0), if_pos h0]; exact ⟨rfl, h⟩
      · rw [if_neg (fun he => h0 (hnil.1 he)), if_neg h0]
        unfold outIds
        rw [find_ids _ (fun t ht => hidx t (List.mem_filter.1 ht).1), ← hfrom]
        cases hf : (m.from s).find? (fun t => decide (t.2.1 = a)) with
        | none => exact ⟨rfl, h⟩
        | some t =>
          have hm : t ∈ m.trans := (List.mem_filter.1 (List.mem_of_find?_eq_some hf)).1
          exact ⟨rfl, { h with cur := rfl, set := h.set.trans (by rw [hc]; rfl), curNotId := fun x hx i => by cases hx; exact (h.notId t hm i).2 }⟩
  | options =>
    simp only [Fsm.step, Machine.step, Fsm.options]
    rw [h.cur]
    cases hc : m.cur with
    | none =>
      have hq : f.states.nodesQ none none none none = .ok f.states.nodeList := rfl
      rw [hq]
      dsimp only
      by_cases h0 : m.trans = []
      · have hl : f.states.nodeList = [] := by
          rw [List.eq_nil_iff_forall_not_mem]
          intro x hx
          rcases (h.keys x).1 hx with ⟨t, ht, _⟩ | ⟨i, hi, _⟩
          · rw [h0] at ht; cases ht
          · rw [h0] at hi; cases hi
        rw [hl, if_pos h0]
        exact ⟨rfl, h⟩
      · rw [if_neg h0]
        cases ht : m.trans with
        | nil => exact absurd ht h0
        | cons t ts =>
          have hm : t ∈ m.trans := by rw [ht]; simp
          rw [lookups_error ((h.keys t.1).2 (.inl ⟨t, hm, .inl rfl⟩)) (h.actS t.1 (fun i => (h.notId t hm i).1))]
          exact ⟨rfl, h⟩
    | some s =>
      have hs := h.curNotId s hc
      have hq : f.states.nodesQ (some s) none none none = .ok (f.states.nodesFrom s) := rfl
      rw [hq, h.out s hs]
      dsimp only
      unfold outIds
      rw [lookups_ids (tr := m.trans) _ _ (fun t ht => (hidx t ht).1)]
      refine ⟨?_, h⟩
      dsimp only
      have := filter_zipIdx_map (fun t : α × A × α => decide (t.1 = s)) m.trans 0
      unfold Machine.from
      rw [← this, List.map_map]; rfl

theorem FsmInv.outputs {aid : Nat → α} (hinj : ∀ i j, aid i = aid j → i = j) (ops : List (FsmOp α A)) :
    ∀ {f : Fsm α A} {m : Machine α A}, FsmInv aid f m → (∀ op ∈ ops, ∀ s ∈ op.states, ∀ i, s ≠ aid i) →
      f.outputs aid ops = m.outputs ops := by
  induction ops with
  | nil => intros; rfl
  | cons op ops ih =>
    intro f m h hop
    obtain ⟨h1, h2⟩ := h.step hinj op (hop op (by simp))
    unfold Fsm.outputs Machine.outputs
    rw [h1, ih h2 (fun o ho => hop o (List.mem_cons_of_mem _ ho))]

theorem FsmInv.init (aid : Nat → α) : FsmInv aid (Fsm.new : Fsm α A) ⟨[], none⟩ :=
  ⟨rfl, rfl, rfl, (fun _ h => nomatch h), (fun _ h => nomatch h),
    fun x => ⟨(fun h => nomatch h), by rintro (⟨_, h, _⟩ | ⟨_, h, _⟩) <;> cases h⟩,
    fun _ _ => rfl, (fun _ _ h => by simp at h), fun _ _ => rfl, fun _ => rfl, fun _ _ => rfl⟩

end GT

import Verif.Graph.Misc
import Verif.Graph.OrderRefine
/-
Property theorems C01–C11 and C57: `graph/base.py`.
`Graph.run ops` is the graph after the history `ops` of public operations; `g.Built` says that `g`
is the result of some such history.
-/
namespace GT
open Graph
variable {α V O : Type} [DecidableEq α]

/-! ### C01 -/

/-- **C01**. After any history, membership, node objects, edges and reverse edges are exactly those of
the pair of maps updated by the same history. -/
theorem C01_history_refines_maps (ops : List (Op α V O)) :
    (∀ n, (run ops).has n = ((Maps.run ops).node n).isSome) ∧
    (∀ n, (run ops).node n = ((Maps.run ops).node n).join) ∧
    (∀ a b, (run ops).edge a b = (Maps.run ops).edge a b) ∧
    (∀ a b, (run ops).reverseEdge b a = (Maps.run ops).edge a b) := by
  have h := rel_run ops
  refine ⟨fun n => ?_, fun n => ?_, h.edge, fun a b => ?_⟩
  · rw [← h.node]; rfl
  · rw [← h.node]; rfl
  · rw [← h.edge, (inv_run ops).sym]

/-- a history with updates, deletions, a rejected value and a self loop -/
def sampleOps : List (Op Nat Nat Nat) :=
  [.addEdge 1 2 (.scalar 5) true, .addEdge 2 3 (.scalar 7) false, .addEdge 2 3 (.scalar 8) false,
   .addEdge 3 3 (.scalar 1) false, .addEdge 4 5 .container false, .addNode 9 (some 42),
   .delEdge 2 1, .inDegree 77, .addEdge 6 1 (.scalar 2) false, .delNode 6]

example : (run sampleOps).edge 2 3 = some 8 ∧ (run sampleOps).edge 2 1 = none ∧
    (run sampleOps).has 6 = false ∧ (run sampleOps).has 4 = false ∧
    (run sampleOps).node 9 = some 42 := by decide

/-! ### C02 -/

/-- **C02**. All enumerations of a reachable graph are exact and without repetition, and the edge
counter is the number of edges. -/
theorem C02_enumerations_exact {g : Graph α V O} (hg : g.Built) :
    (g.nodeList.Nodup ∧ ∀ n, n ∈ g.nodeList ↔ g.has n = true) ∧
    (g.edgeList.Nodup ∧ ∀ a b v, (a, b, v) ∈ g.edgeList ↔ g.edge a b = some v) ∧
    (∀ n, (g.nodesFrom n).Nodup ∧ ∀ b, b ∈ g.nodesFrom n ↔ ∃ v, g.edge n b = some v) ∧
    (∀ n, (g.nodesTo n).Nodup ∧ ∀ a, a ∈ g.nodesTo n ↔ ∃ v, g.edge a n = some v) ∧
    (∀ n, (g.edgesFrom n).Nodup ∧
      ∀ a b v, (a, b, v) ∈ g.edgesFrom n ↔ a = n ∧ g.edge n b = some v) ∧
    (∀ n, (g.edgesTo n).Nodup ∧
      ∀ a b v, (a, b, v) ∈ g.edgesTo n ↔ b = n ∧ g.edge a n = some v) ∧
    g.edgeCount = (g.edgeList.length : Int) := by
  have h := hg.inv
  refine ⟨⟨h.nodesWF, fun n => mem_nodeList⟩, ⟨h.edgeList_nodup, fun a b v => h.mem_edgeList⟩,
    fun n => ⟨h.nodup_nodesFrom n, fun b => ?_⟩, fun n => ⟨h.nodup_nodesTo n, fun a => ?_⟩,
    fun n => ⟨h.edgesFrom_nodup n, fun a b v => h.mem_edgesFrom⟩,
    fun n => ⟨h.edgesTo_nodup n, fun a b v => h.mem_edgesTo⟩, h.count⟩
  · rw [mem_nodesFrom, Option.isSome_iff_exists]
  · rw [h.mem_nodesTo, Option.isSome_iff_exists]

/-- **C02**, argument checks of `nodes(...)`: more than one selector or a negative degree raises
`ValueError`, otherwise the corresponding enumeration is returned. -/
theorem C02_nodes_dispatch (g : Graph α V O) :
    g.nodesQ none none none none = .ok g.nodeList ∧
    (∀ n, g.nodesQ (some n) none none none = .ok (g.nodesFrom n)) ∧
    (∀ n, g.nodesQ none (some n) none none = .ok (g.nodesTo n)) ∧
    (∀ k, g.nodesQ none none (some k) none = if k < 0 then .error .valueError else .ok (g.nodesInDeg k)) ∧
    (∀ k, g.nodesQ none none none (some k) = if k < 0 then .error .valueError else .ok (g.nodesOutDeg k)) ∧
    (∀ f t i o, 1 < f.toList.length + t.toList.length + i.toList.length + o.toList.length →
      g.nodesQ f t i o = .error .valueError) := by
  refine ⟨by simp [nodesQ], fun n => by simp [nodesQ], fun n => by simp [nodesQ],
    fun k => by simp [nodesQ], fun k => by simp [nodesQ], fun f t i o h => ?_⟩
  unfold nodesQ; rw [if_pos h]

/-- **C02**, argument checks of `edges(...)`: more than one selector or a path of fewer than two
nodes raises `ValueError`; a path that is not a chain of edges raises `KeyError`; otherwise the
selected edges, in the case of a path one per step with its value, are returned. -/
theorem C02_edges_dispatch (g : Graph α V O) :
    g.edgesQ none none none = .ok g.edgeList ∧
    (∀ n, g.edgesQ none (some n) none = .ok (g.edgesFrom n)) ∧
    (∀ n, g.edgesQ none none (some n) = .ok (g.edgesTo n)) ∧
    (∀ p f t, 1 < f.toList.length + t.toList.length + p.toList.length →
      g.edgesQ p f t = .error .valueError) ∧
    (∀ p, p.length < 2 → g.edgesQ (some p) none none = .error .valueError) ∧
    (∀ p r, 2 ≤ p.length → (g.edgesQ (some p) none none = .ok r ↔
      r.map (fun e => (e.1, e.2.1)) = p.zip p.tail ∧ ∀ e ∈ r, g.edge e.1 e.2.1 = some e.2.2)) ∧
    (∀ p, 2 ≤ p.length → ((∃ s ∈ p.zip p.tail, g.edge s.1 s.2 = none) ↔
      g.edgesQ (some p) none none = .error .keyError)) := by
  have al : ∀ (p : List α) (r : List (α × α × V)), (g.edgesAlong p = .ok r ↔
      r.map (fun e => (e.1, e.2.1)) = p.zip p.tail ∧ ∀ e ∈ r, g.edge e.1 e.2.1 = some e.2.2) := by
    intro p
    induction p with
    | nil => intro r; cases r <;> simp [edgesAlong]
    | cons a p ih =>
      cases p with
      | nil => intro r; cases r <;> simp [edgesAlong]
      | cons b p =>
        intro r
        have hed : g.edge a b = (g.edges.get? a).bind (fun d => d.get? b) := rfl
        unfold edgesAlong
        cases hd : g.edges.get? a with
        | none =>
          simp only [reduceCtorEq, false_iff]
          rintro ⟨h1, h2⟩
          cases r with
          | nil => simp at h1
          | cons e r =>
            simp only [List.tail_cons, List.zip_cons_cons, List.map_cons, List.cons.injEq, Prod.mk.injEq] at h1
            have := h2 e (by simp)
            rw [h1.1.1, h1.1.2, hed, hd] at this; simp at this
        | some d =>
          cases hv : d.get? b with
          | none =>
            simp only [hv, reduceCtorEq, false_iff]
            rintro ⟨h1, h2⟩
            cases r with
            | nil => simp at h1
            | cons e r =>
              simp only [List.tail_cons, List.zip_cons_cons, List.map_cons, List.cons.injEq, Prod.mk.injEq] at h1
              have := h2 e (by simp)
              rw [h1.1.1, h1.1.2, hed, hd] at this; simp [hv] at this
          | some v =>
            have hab : g.edge a b = some v := by rw [hed, hd]; exact hv
            simp only [hv]
            cases r with
            | nil =>
              cases hr : g.edgesAlong (b :: p) <;> simp
            | cons e r =>
              have ih := ih r
              obtain ⟨x, y, w⟩ := e
              cases hr : g.edgesAlong (b :: p) with
              | error er =>
                rw [hr] at ih
                simp only [reduceCtorEq, false_iff] at ih ⊢
                rintro ⟨h1, h2⟩
                simp only [List.tail_cons, List.zip_cons_cons, List.map_cons, List.cons.injEq, Prod.mk.injEq] at h1
                exact ih ⟨h1.2, fun e he => h2 e (by simp [he])⟩
              | ok r' =>
                rw [hr] at ih
                simp only [Except.ok.injEq, List.cons.injEq, Prod.mk.injEq, List.tail_cons,
                  List.zip_cons_cons, List.map_cons, List.mem_cons, forall_eq_or_imp] at ih ⊢
                rw [ih]
                constructor
                · rintro ⟨⟨rfl, rfl, rfl⟩, h1, h2⟩; exact ⟨⟨⟨rfl, rfl⟩, h1⟩, hab, h2⟩
                · rintro ⟨⟨⟨rfl, rfl⟩, h1⟩, h2, h3⟩
                  rw [hab] at h2; cases h2
                  exact ⟨⟨rfl, rfl, rfl⟩, h1, h3⟩
  have ae : ∀ (p : List α), ((∃ s ∈ p.zip p.tail, g.edge s.1 s.2 = none) ↔
      g.edgesAlong p = .error .keyError) := by
    intro p
    induction p with
    | nil => simp [edgesAlong]
    | cons a p ih =>
      cases p with
      | nil => simp [edgesAlong]
      | cons b p =>
        have hed : g.edge a b = (g.edges.get? a).bind (fun d => d.get? b) := rfl
        have hz : (∃ s ∈ (a :: b :: p).zip (a :: b :: p).tail, g.edge s.1 s.2 = none) ↔
            g.edge a b = none ∨ ∃ s ∈ (b :: p).zip (b :: p).tail, g.edge s.1 s.2 = none := by
          simp only [List.tail_cons, List.zip_cons_cons, List.mem_cons]
          constructor
          · rintro ⟨t, rfl | ht, h⟩
            · exact .inl h
            · exact .inr ⟨t, ht, h⟩
          · rintro (h | ⟨t, ht, h⟩)
            · exact ⟨_, .inl rfl, h⟩
            · exact ⟨t, .inr ht, h⟩
        rw [hz, ih, edgesAlong.eq_1 g a b p]
        cases hd : g.edges.get? a with
        | none => rw [hed, hd]; simp
        | some d =>
          cases hv : d.get? b with
          | none => rw [hed, hd]; simp [hv]
          | some v =>
            rw [hed, hd]
            simp only [hv, Option.bind_some, reduceCtorEq, false_or]
            cases hr : g.edgesAlong (b :: p) <;> simp
  have hq : ∀ p : List α, 2 ≤ p.length → g.edgesQ (some p) none none = g.edgesAlong p := by
    intro p hp
    have h2 : ¬ p.length < 2 := by omega
    simp [edgesQ, edgesPath, h2]
  refine ⟨by simp [edgesQ], fun n => by simp [edgesQ], fun n => by simp [edgesQ], fun p f t h => ?_,
    fun p hp => ?_, fun p r hp => ?_, fun p hp => ?_⟩
  · unfold edgesQ; rw [if_pos h]
  · simp [edgesQ, edgesPath, hp]
  · rw [hq p hp]; exact al p r
  · rw [hq p hp]; exact ae p

example : (run sampleOps).edgesQ (some [1, 2, 3, 3]) none none = .ok [(1, 2, 5), (2, 3, 8), (3, 3, 1)] ∧
    (run sampleOps).edgesQ (some [1, 3]) none none = .error .keyError ∧
    (run sampleOps).edgesQ (some [1, 2]) (some 1) none = .error .valueError := by decide +kernel

example : (run sampleOps).nodeList = [1, 2, 3, 9] ∧
    (run sampleOps).edgeList = [(1, 2, 5), (2, 3, 8), (3, 3, 1)] ∧
    (run sampleOps).Built := ⟨by decide, by decide, ⟨sampleOps, rfl⟩⟩

/-! ### C03 -/

/-- **C03** (degrees). In every reachable graph `in_degree(n)` / `out_degree(n)` is the number of
predecessors / successors of `n` (the length of any duplicate-free list of them); for a node that
is not in the graph this is 0. -/
theorem C03_degrees_exact {g : Graph α V O} (hg : g.Built) (n : α) (l : List α) (hl : l.Nodup) :
    ((∀ a, a ∈ l ↔ ∃ v, g.edge a n = some v) → (g.inDegree n).1 = (l.length : Int)) ∧
    ((∀ b, b ∈ l ↔ ∃ v, g.edge n b = some v) → (g.outDegree n).1 = (l.length : Int)) := by
  have h := hg.inv
  constructor
  · intro hm
    rw [h.inDegree_eq, length_eq_of_same_mem (h.nodup_nodesTo n) hl]
    intro a; rw [hm, h.mem_nodesTo, Option.isSome_iff_exists]
  · intro hm
    rw [h.outDegree_eq, length_eq_of_same_mem (h.nodup_nodesFrom n) hl]
    intro a; rw [hm, mem_nodesFrom, Option.isSome_iff_exists]

/-- **C03** (filters). For histories in which `in_degree`/`out_degree` are only asked for nodes of the
graph, `nodes(in_degree=k)` / `nodes(out_degree=k)` list exactly the nodes of that degree, once.
Missing for the full property: degree reads of foreign nodes (see the next two theorems). -/
theorem C03_degree_filter_partial (ops : List (Op α V O)) (h : NoForeignReads empty ops) (k : Int) :
    ((run ops).nodesInDeg k).Nodup ∧ ((run ops).nodesOutDeg k).Nodup ∧
    (∀ n, n ∈ (run ops).nodesInDeg k ↔ (run ops).has n = true ∧ ((run ops).inDegree n).1 = k) ∧
    (∀ n, n ∈ (run ops).nodesOutDeg k ↔ (run ops).has n = true ∧ ((run ops).outDegree n).1 = k) := by
  have hi := inv_run ops
  have hp := noPhantom_run ops h
  refine ⟨nodup_degFilter hi.inWF k, nodup_degFilter hi.outWF k, fun n => ?_, fun n => ?_⟩
  · unfold nodesInDeg; rw [mem_degFilter hi.inWF, hi.inDegree_eq]
    unfold has; rw [Dict.contains_iff_keys]
    by_cases hn : n ∈ (run ops).nodes.keys
    · rw [hi.inD n hn]; simp [hn]
    · rw [(hp n hn).1]; simp [hn]
  · unfold nodesOutDeg; rw [mem_degFilter hi.outWF, hi.outDegree_eq]
    unfold has; rw [Dict.contains_iff_keys]
    by_cases hn : n ∈ (run ops).nodes.keys
    · rw [hi.outD n hn]; simp [hn]
    · rw [(hp n hn).2]; simp [hn]

/-- **C03** (filters), every history: nodes of the graph are filtered exactly; foreign nodes can only
show up for `k = 0`. -/
theorem C03_degree_filter_any_history {g : Graph α V O} (hg : g.Built) (k : Int) :
    (∀ n, g.has n = true → (n ∈ g.nodesInDeg k ↔ (g.inDegree n).1 = k)) ∧
    (∀ n, g.has n = true → (n ∈ g.nodesOutDeg k ↔ (g.outDegree n).1 = k)) ∧
    (k ≠ 0 → ∀ n, n ∈ g.nodesInDeg k ∨ n ∈ g.nodesOutDeg k → g.has n = true) := by
  have hi := hg.inv
  refine ⟨fun n hn => ?_, fun n hn => ?_, fun hk n hn => ?_⟩
  · unfold has at hn; rw [Dict.contains_iff_keys] at hn
    unfold nodesInDeg; rw [mem_degFilter hi.inWF, hi.inDegree_eq, hi.inD n hn]; simp
  · unfold has at hn; rw [Dict.contains_iff_keys] at hn
    unfold nodesOutDeg; rw [mem_degFilter hi.outWF, hi.outDegree_eq, hi.outD n hn]; simp
  · cases hh : g.has n with
    | true => rfl
    | false =>
      have hnk : n ∉ g.nodes.keys := by
        intro h2; unfold has at hh; rw [(Dict.contains_iff_keys _ _).2 h2] at hh; cases hh
      rcases hn with hn | hn
      · unfold nodesInDeg at hn; rw [mem_degFilter hi.inWF] at hn
        rcases hi.inPh n hnk with h2 | h2
        · rw [h2] at hn; cases hn
        · rw [h2] at hn; exact absurd (Option.some.inj hn).symm hk
      · unfold nodesOutDeg at hn; rw [mem_degFilter hi.outWF] at hn
        rcases hi.outPh n hnk with h2 | h2
        · rw [h2] at hn; cases hn
        · rw [h2] at hn; exact absurd (Option.some.inj hn).symm hk

/-- **C03 is violated by the code**: reading the degree of an absent node makes
`nodes(in_degree=0)` return a node that is not in the graph. -/
theorem C03_phantom_counterexample :
    ∃ ops : List (Op Nat Nat Nat), 77 ∈ (run ops).nodesInDeg 0 ∧ (run ops).has 77 = false :=
  ⟨[.inDegree 77], by decide, by decide⟩

example : NoForeignReads (empty : Graph Nat Nat Nat)
    [.addEdge 1 2 (.scalar 5) true, .inDegree 2, .delNode 1, .outDegree 2] := by
  refine ⟨?_, ?_, ?_, ?_, trivial⟩ <;> simp [ForeignRead] <;> decide

/-! ### C04 -/

/-- **C04**. On every reachable graph the literal code of `add_node`, `del_edge`, `del_node` and the
degree reads raises nothing, and `add_edge` raises `ValueError` exactly for a container value. -/
theorem C04_mutators_never_fail {g : Graph α V O} (hg : g.Built) (op : Op α V O) :
    (g.stepE op).2 = (match op with
      | .addEdge _ _ .container _ => some .valueError
      | _ => none) := by
  have h := hg.inv
  cases op with
  | addNode n o => rfl
  | addEdge a b v bi =>
    cases v with
    | container => rfl
    | scalar v =>
      simp only [stepE, addEdgeE, addEdge1E_eq h, bind, Except.bind]
      cases bi with
      | false => rfl
      | true => simp only [if_true, addEdge1E_eq (h.addEdge a b v)]
  | delEdge a b => simp only [stepE, delEdgeE_eq h]
  | delNode n => simp only [stepE, delNodeE_eq h]
  | inDegree n => rfl
  | outDegree n => rfl

/-- **C04**, the rejected call changes nothing. -/
theorem C04_rejected_call_changes_nothing (g : Graph α V O) (a b : α) (bi : Bool) :
    (g.stepE (.addEdge a b .container bi)).1 = g := rfl

example : ((run sampleOps).stepE (.delNode 2)).2 = none ∧
    ((run sampleOps).stepE (.addEdge 1 2 .container true)).2 = some .valueError := by decide

/-! ### C05 -/

/-- **C05**. `copy()` has the same nodes, objects, edges, is `==` to the original and is itself a
reachable graph. -/
theorem C05_copy_equal [DecidableEq V] [DecidableEq O] {g : Graph α V O} (hg : g.Built) :
    g.copy.Built ∧ g.copy.eqB g = true ∧
    (∀ n, g.copy.has n = g.has n) ∧ (∀ n, g.copy.node n = g.node n) ∧
    (∀ a b, g.copy.edge a b = g.edge a b) := by
  have h := hg.inv
  refine ⟨copy_built g, ?_, fun n => ?_, fun n => ?_, h.copy_edge⟩
  · rw [(copy_built g).inv.eqB_iff h]; exact ⟨h.copy_nodes, h.copy_edge⟩
  · unfold has Dict.contains; rw [h.copy_nodes]
  · unfold node; rw [h.copy_nodes]

/-- **C05**, independence: in a program with several graph objects, one of which may be a copy of
another, object `i` is unchanged by any sequence of operations on (or copies of) other objects. -/
theorem C05_copies_independent (i : Nat) (g : Graph α V O) (prog : List (StoreOp α V O))
    (hp : ∀ o ∈ prog, ∀ op, o ≠ .on i op) (s : List (Graph α V O)) (hs : s[i]? = some g) :
    (prog.foldl storeStep s)[i]? = some g := by
  induction prog generalizing s with
  | nil => exact hs
  | cons o prog ih =>
    exact ih (fun o' ho' => hp o' (List.mem_cons_of_mem _ ho')) _
      (storeStep_other s i g hs o (hp o (by simp)))

/-- **C05 is violated by `Graph3D.copy`**: it drops the node objects, so the copy is not `==`. -/
theorem C05_graph3D_copy_loses_objects :
    ∃ g h : Graph Nat Nat Nat, g.Built ∧ g.copy3D = .ok h ∧ g.node 1 = some 7 ∧ h.node 1 = none ∧
      h.eqB g = false :=
  ⟨run [.addNode 1 (some 7)], run [.addNode 1 none], ⟨_, rfl⟩, by decide, by decide, by decide, by decide⟩

example : (run sampleOps).copy.eqB (run sampleOps) = true := by decide
example : ([StoreOp.copy 0, .on 1 (.delNode 2)].foldl storeStep [run sampleOps])[0]?
    = some (run sampleOps) := by decide

/-! ### C06 -/

/-- **C06**. `g1 == g2` exactly when nodes, objects and edges agree. -/
theorem C06_eq_extensional [DecidableEq V] [DecidableEq O] {g h : Graph α V O}
    (hg : g.Built) (hh : h.Built) :
    g.eqB h = true ↔ (∀ n, g.has n = h.has n) ∧ (∀ n, g.node n = h.node n) ∧
      ∀ a b, g.edge a b = h.edge a b := by
  rw [hg.inv.eqB_iff hh.inv]
  have : (∀ n, g.nodes.get? n = h.nodes.get? n) ↔
      (∀ n, g.has n = h.has n) ∧ (∀ n, g.node n = h.node n) := by
    constructor
    · intro hk
      exact ⟨fun n => by unfold has Dict.contains; rw [hk], fun n => by unfold node; rw [hk]⟩
    · rintro ⟨h1, h2⟩ n
      have h1 := h1 n; have h2 := h2 n
      unfold has Dict.contains at h1; unfold node at h2
      cases h3 : g.nodes.get? n <;> cases h4 : h.nodes.get? n <;> simp_all
  rw [this, and_assoc]

/-- **C06**, `==` is an equivalence and `!=` is its negation. -/
theorem C06_eq_equivalence [DecidableEq V] [DecidableEq O] {g h k : Graph α V O}
    (hg : g.Built) (hh : h.Built) (hk : k.Built) :
    g.eqB g = true ∧ (g.eqB h = true → h.eqB g = true) ∧
    (g.eqB h = true → h.eqB k = true → g.eqB k = true) ∧ g.neB h = !(g.eqB h) := by
  refine ⟨(C06_eq_extensional hg hg).2 ⟨fun _ => rfl, fun _ => rfl, fun _ _ => rfl⟩, ?_, ?_, rfl⟩
  · rw [C06_eq_extensional hg hh, C06_eq_extensional hh hg]
    rintro ⟨h1, h2, h3⟩
    exact ⟨fun n => (h1 n).symm, fun n => (h2 n).symm, fun a b => (h3 a b).symm⟩
  · rw [C06_eq_extensional hg hh, C06_eq_extensional hh hk, C06_eq_extensional hg hk]
    rintro ⟨h1, h2, h3⟩ ⟨h4, h5, h6⟩
    exact ⟨fun n => (h1 n).trans (h4 n), fun n => (h2 n).trans (h5 n),
      fun a b => (h3 a b).trans (h6 a b)⟩

example : (run [.addEdge 1 2 (.scalar 5) false, .addEdge 3 4 (.scalar 6) false] : Graph Nat Nat Nat).eqB
    (run [.addEdge 3 4 (.scalar 6) false, .addEdge 1 2 (.scalar 4) true, .delEdge 2 1,
      .addEdge 1 2 (.scalar 5) false]) = true := by decide

/-! ### C07 -/

/-- **C07** (dictionaries). `to_dict` succeeds and `Graph(from_dict=g.to_dict())` has exactly the
nodes and edges of `g`; it is `==` to `g` if no node of `g` carries an object. -/
theorem C07_dict_round_trip [DecidableEq V] [DecidableEq O] {g : Graph α V O} (hg : g.Built) :
    ∃ d, g.toDictE = .ok d ∧ ((empty : Graph α V O).fromDict d).Built ∧
      (∀ n, ((empty : Graph α V O).fromDict d).has n = g.has n) ∧
      (∀ a b, ((empty : Graph α V O).fromDict d).edge a b = g.edge a b) ∧
      ((∀ n, g.node n = none) → ((empty : Graph α V O).fromDict d).eqB g = true) := by
  have h := hg.inv
  obtain ⟨d, h1, h2, h3, h4, h5⟩ := h.toDict_spec
  have hb : ((empty : Graph α V O).fromDict d).Built := fromDict_built built_empty d
  have hnodes : ∀ n, ((empty : Graph α V O).fromDict d).nodes.get? n =
      if n ∈ g.nodeList then some none else none := by
    intro n
    rw [fromDict_nodes h2]
    by_cases hn : n ∈ g.nodeList
    · rw [if_pos (Or.inl ((h4 n).2 hn)), if_pos hn]
    · rw [if_neg hn, if_neg]
      rintro (h6 | ⟨a, r, h6, h7⟩)
      · exact hn ((h4 n).1 h6)
      · obtain ⟨v, hv⟩ := Dict.exists_get?_of_mem_keys h7
        have := h5 a n
        rw [h6] at this; simp only [Option.bind_some, hv] at this
        exact hn ((h.dom a n v this.symm).2)
  have hedge : ∀ a b, ((empty : Graph α V O).fromDict d).edge a b = g.edge a b := by
    intro a b; rw [fromDict_edge h2 h3, h5]
  have hhas : ∀ n, ((empty : Graph α V O).fromDict d).has n = g.has n := by
    intro n
    unfold has Dict.contains; rw [hnodes]
    by_cases hn : n ∈ g.nodeList
    · rw [if_pos hn]; rw [mem_nodeList] at hn; unfold has Dict.contains at hn; simp [hn]
    · rw [if_neg hn]; rw [mem_nodeList] at hn; unfold has Dict.contains at hn; simpa using hn
  refine ⟨d, h1, hb, hhas, hedge, fun hno => ?_⟩
  rw [C06_eq_extensional hb hg]
  refine ⟨hhas, fun n => ?_, hedge⟩
  rw [hno]; unfold node; rw [hnodes]; split <;> rfl

/-- **C07** (lists). `Graph(from_list=g.to_list())` has exactly the nodes and edges of `g`; it is `==`
to `g` if no node of `g` carries an object.  `one` is the default edge value (not used). -/
theorem C07_list_round_trip [DecidableEq V] [DecidableEq O] (one : V) {g : Graph α V O} (hg : g.Built) :
    ((empty : Graph α V O).fromList one g.toList).Built ∧
      (∀ n, ((empty : Graph α V O).fromList one g.toList).has n = g.has n) ∧
      (∀ a b, ((empty : Graph α V O).fromList one g.toList).edge a b = g.edge a b) ∧
      ((∀ n, g.node n = none) → ((empty : Graph α V O).fromList one g.toList).eqB g = true) := by
  have h := hg.inv
  have hb := fromList_built one (built_empty (α := α) (V := V) (O := O)) g.toList
  have hnodes := h.fromList_toList_nodes one
  have hhas : ∀ n, ((empty : Graph α V O).fromList one g.toList).has n = g.has n := by
    intro n
    unfold has Dict.contains; rw [hnodes]
    by_cases hn : n ∈ g.nodeList
    · rw [if_pos hn]; rw [mem_nodeList] at hn; unfold has Dict.contains at hn; simp [hn]
    · rw [if_neg hn]; rw [mem_nodeList] at hn; unfold has Dict.contains at hn; simpa using hn
  refine ⟨hb, hhas, h.fromList_toList_edge one, fun hno => ?_⟩
  rw [C06_eq_extensional hb hg]
  refine ⟨hhas, fun n => ?_, h.fromList_toList_edge one⟩
  rw [hno]; unfold node; rw [hnodes]; split <;> rfl

/-- **C07** (other direction). For every nested dictionary `d` (unique keys), the dictionary of
`Graph(from_dict=d)` maps every key of `d` to a row with the same entries, every other mentioned
target node to an empty row, and nothing else. -/
theorem C07_dict_of_graph_of_dict {d : Dict α (Dict α V)} (hd : d.WF)
    (hr : ∀ a r, d.get? a = some r → r.WF) :
    ∃ d', ((empty : Graph α V O).fromDict d).toDictE = .ok d' ∧
      (∀ n, n ∈ d'.keys ↔ n ∈ d.keys ∨ ∃ a r, d.get? a = some r ∧ n ∈ r.keys) ∧
      (∀ n r', d'.get? n = some r' → ∀ b, r'.get? b = (d.get? n).bind (fun r => r.get? b)) := by
  have hb : ((empty : Graph α V O).fromDict d).Built := fromDict_built built_empty d
  obtain ⟨d', h1, h2, h3, h4, h5⟩ := hb.inv.toDict_spec
  refine ⟨d', h1, fun n => ?_, fun n r' hn b => ?_⟩
  · rw [h4, mem_nodeList]; unfold has Dict.contains; rw [fromDict_nodes hd]
    split
    · rename_i h6; simp [h6]
    · rename_i h6; simp [h6]
  · have := h5 n b
    rw [hn, fromDict_edge hd hr] at this; exact this

example : (run sampleOps).toDictE = .ok ⟨[(1, ⟨[(2, 5)]⟩), (2, ⟨[(3, 8)]⟩), (3, ⟨[(3, 1)]⟩), (9, ⟨[]⟩)]⟩ := by
  decide

/-! ### C08 -/

/-- **C08**. `subgraph(g, ns)` has exactly the nodes `ns` with their objects of `g` and exactly the
edges of `g` between members of `ns`; it is a subgraph of `g` if all of `ns` are nodes of `g`. -/
theorem C08_subgraph_induced [DecidableEq V] {g : Graph α V O} (hg : g.Built) (ns : List α) :
    (g.subgraph ns).Built ∧
    (∀ n, (g.subgraph ns).has n = true ↔ n ∈ ns) ∧
    (∀ n ∈ ns, (g.subgraph ns).node n = g.node n) ∧
    (∀ a b v, (g.subgraph ns).edge a b = some v ↔ a ∈ ns ∧ b ∈ ns ∧ g.edge a b = some v) ∧
    ((∀ n ∈ ns, g.has n = true) → (g.subgraph ns).isSubgraph g = true) := by
  have hs := subgraph_inv hg.inv ns
  have hhas : ∀ n, (g.subgraph ns).has n = true ↔ n ∈ ns := by
    intro n
    unfold has; rw [Dict.contains_iff_keys]
    exact ⟨hs.sub n, fun hn => Dict.mem_keys_of_get? (hs.node n hn)⟩
  refine ⟨hs.built, hhas, fun n hn => ?_, hs.edge, fun hns => ?_⟩
  · have h1 := hs.node n hn
    show ((g.subgraph ns).nodes.get? n).join = _
    rw [h1]; simp
  · rw [hs.built.inv.isSubgraph_iff hg.inv]
    exact ⟨fun n hn => hns n ((hhas n).1 hn), fun a b v hv => ((hs.edge a b v).1 hv).2.2⟩

example : ((run sampleOps).subgraph [3, 2, 9]).edgeList = [(3, 3, 1), (2, 3, 8)] ∧
    ((run sampleOps).subgraph [3, 2, 9]).node 9 = some 42 := by decide

/-! ### C09 -/

/-- **C09**. `is_subgraph(g, h)` decides inclusion of nodes and (valued) edges. -/
theorem C09_is_subgraph_inclusion [DecidableEq V] {g h : Graph α V O} (hg : g.Built) (hh : h.Built) :
    g.isSubgraph h = true ↔ (∀ n, g.has n = true → h.has n = true) ∧
      ∀ a b v, g.edge a b = some v → h.edge a b = some v :=
  hg.inv.isSubgraph_iff hh.inv

/-- **C09**, order properties. -/
theorem C09_is_subgraph_order [DecidableEq V] {g h k : Graph α V O}
    (hg : g.Built) (hh : h.Built) (hk : k.Built) :
    g.isSubgraph g = true ∧
    (g.isSubgraph h = true → h.isSubgraph k = true → g.isSubgraph k = true) ∧
    (g.isSubgraph h = true → h.isSubgraph g = true →
      (∀ n, g.has n = h.has n) ∧ ∀ a b, g.edge a b = h.edge a b) := by
  simp only [hg.inv.isSubgraph_iff hg.inv, hg.inv.isSubgraph_iff hh.inv, hh.inv.isSubgraph_iff hk.inv,
    hg.inv.isSubgraph_iff hk.inv, hh.inv.isSubgraph_iff hg.inv]
  refine ⟨⟨fun _ h => h, fun _ _ _ h => h⟩, ?_, ?_⟩
  · rintro ⟨h1, h2⟩ ⟨h3, h4⟩
    exact ⟨fun n hn => h3 n (h1 n hn), fun a b v hv => h4 a b v (h2 a b v hv)⟩
  · rintro ⟨h1, h2⟩ ⟨h3, h4⟩
    refine ⟨fun n => ?_, fun a b => ?_⟩
    · have h1 := h1 n; have h3 := h3 n
      cases h5 : g.has n <;> cases h6 : h.has n <;> simp_all
    · exact option_ext_iff (fun v => ⟨h2 a b v, h4 a b v⟩)

example : ((run sampleOps).subgraph [2, 3]).isSubgraph (run sampleOps) = true ∧
    (run sampleOps).isSubgraph ((run sampleOps).subgraph [2, 3]) = false := by decide

/-! ### C10 -/

/-- **C10** (`has_path`). For a non-empty path the answer is exactly "every consecutive pair is an
edge"; the empty path raises `IndexError`. -/
theorem C10_has_path {g : Graph α V O} (p : List α) :
    (p ≠ [] → ∃ r, g.hasPath p = .ok r ∧ (r = true ↔ Consec (fun a b => (g.edge a b).isSome) p)) ∧
    g.hasPath [] = .error .indexError := by
  refine ⟨fun hp => ?_, rfl⟩
  cases p with
  | nil => exact absurd rfl hp
  | cons v l => exact ⟨_, rfl, hasPath_go g v l⟩

/-- **C10** (`edges(path=p)`). For two or more nodes: if all consecutive pairs are edges the result
lists them in order with their values, otherwise `KeyError`; shorter lists raise `ValueError`. -/
theorem C10_edges_of_path {g : Graph α V O} (p : List α) :
    (2 ≤ p.length → Consec (fun a b => (g.edge a b).isSome) p →
      ∃ r, g.edgesPath p = .ok r ∧ r.length = p.length - 1 ∧
        ∀ i, i + 1 < p.length → ∃ a b v, p[i]? = some a ∧ p[i + 1]? = some b ∧
          g.edge a b = some v ∧ r[i]? = some (a, b, v)) ∧
    (2 ≤ p.length → ¬ Consec (fun a b => (g.edge a b).isSome) p →
      g.edgesPath p = .error .keyError) ∧
    (p.length < 2 → g.edgesPath p = .error .valueError) := by
  refine ⟨fun hp hc => ?_, fun hp hc => ?_, fun hp => ?_⟩
  · unfold edgesPath; rw [if_neg (by omega)]
    cases h : g.edgesAlong p with
    | error e => exact absurd hc (edgesAlong_error p e h).2
    | ok r => exact ⟨r, rfl, ((edgesAlong_ok p r).1 h).2⟩
  · unfold edgesPath; rw [if_neg (by omega)]
    cases h : g.edgesAlong p with
    | error e => rw [(edgesAlong_error p e h).1]
    | ok r => exact absurd ((edgesAlong_ok p r).1 h).1 hc
  · unfold edgesPath; rw [if_pos hp]

example : (run sampleOps).hasPath [1, 2, 3, 3] = .ok true ∧ (run sampleOps).hasPath [1, 3] = .ok false ∧
    (run sampleOps).edgesPath [1, 2, 3] = .ok [(1, 2, 5), (2, 3, 8)] := by decide

/-! ### C11 -/

/-- **C11**. For non-empty lists `same_path` holds exactly for rotations.
Missing: two empty lists that are different objects (see the counterexample). -/
theorem C11_same_path_rotation_partial (p1 p2 : List α) (h : p1 ≠ []) :
    samePath p1 p2 = true ↔ IsRotation p1 p2 := by
  rw [samePath_iff]; exact ⟨fun h2 => h2.2, fun h2 => ⟨h, h2⟩⟩

/-- **C11**, `same_path` is an equivalence on non-empty lists. -/
theorem C11_same_path_equivalence_partial (p1 p2 p3 : List α) (h : p1 ≠ []) :
    samePath p1 p1 = true ∧ (samePath p1 p2 = true → samePath p2 p1 = true) ∧
    (samePath p1 p2 = true → samePath p2 p3 = true → samePath p1 p3 = true) := by
  simp only [samePath_iff]
  refine ⟨⟨h, p1, [], by simp, by simp⟩, ?_, ?_⟩
  · rintro ⟨_, s, t, h1, h2⟩
    refine ⟨?_, t, s, h2, h1⟩
    rintro rfl
    apply h; rw [h1]
    obtain ⟨ht, hs⟩ := List.append_eq_nil_iff.1 h2.symm
    simp [hs, ht]
  · rintro ⟨_, s, t, h1, h2⟩ ⟨_, u, v, h3, h4⟩
    refine ⟨h, ?_⟩
    -- t ++ s = u ++ v
    have h5 : t ++ s = u ++ v := h2.symm.trans h3
    rw [List.append_eq_append_iff] at h5
    rcases h5 with ⟨w, h6, h7⟩ | ⟨w, h6, h7⟩
    · -- u = t ++ w, s = w ++ v : p1 = w ++ v ++ t, p3 = v ++ t ++ w
      exact ⟨w, v ++ t, by rw [h1, h7]; simp, by rw [h4, h6]; simp⟩
    · -- t = u ++ w, v = w ++ s : p1 = s ++ u ++ w, p3 = w ++ s ++ u
      exact ⟨s ++ u, w, by rw [h1, h6]; simp, by rw [h4, h7]; simp⟩

/-- **C11 is violated by the code** at the empty path: two distinct empty lists are not the "same path". -/
theorem C11_empty_counterexample : samePath ([] : List Nat) [] = false ∧ IsRotation ([] : List Nat) [] :=
  ⟨by decide, [], [], rfl, rfl⟩

example : samePath [1, 2, 1, 3] [1, 3, 1, 2] = true ∧ samePath [1, 2, 3] [3, 2, 1] = false := by decide

/-! ### C57 -/

/-- **C57** (what the code computes). For a non-empty list whose consecutive edges and whose closing
edge (last to first) exist, `distance` is the walk length plus the closing edge, and with
`return_to_start=True` plus the closing edge twice. -/
theorem C57_distance_closed_partial (g : Graph α Rat O) (p : List α) (first last : α) (c e : Rat)
    (hw : WalkOf g.edge first last p c) (he : g.edge last first = some e) :
    g.distance p false = .ok (c + e) ∧ g.distance p true = .ok (c + e + e) := by
  obtain ⟨h1, h2, h3⟩ := hw
  cases p with
  | nil => simp at h1
  | cons x t =>
    have : x = first := by simpa using h1
    subst this
    have hl : (x :: t).getLast (by simp) = last := by
      rw [List.getLast?_eq_some_getLast (by simp)] at h2; simpa using h2
    constructor
    · rw [distance_eq g h3 (by rw [hl]; exact he)]; rfl
    · rw [distance_eq g h3 (by rw [hl]; exact he)]; rfl

theorem distTerm_error (g : Graph α Rat O) (p : List α) (e : Err) (l : List Nat) :
    l.foldl (g.distTerm p) (.error e) = .error e := by
  induction l with
  | nil => rfl
  | cons i l ih => exact ih

theorem distFold_missing (g : Graph α Rat O) (p : List α) {l : List Nat} (hl : ∀ i ∈ l, i < p.length)
    (h : ∃ i ∈ l, ∀ a b, p[if i = 0 then p.length - 1 else i - 1]? = some a → p[i]? = some b → g.edge a b = none) (s : Rat) :
    l.foldl (g.distTerm p) (.ok s) = .error .typeError := by
  induction l generalizing s with
  | nil => obtain ⟨i, hi, _⟩ := h; cases hi
  | cons j l ih =>
    rw [List.foldl_cons]
    have hj := hl j (by simp)
    have h1 : (if j = 0 then p.length - 1 else j - 1) < p.length := by split <;> omega
    unfold distTerm
    rw [List.getElem?_eq_getElem h1, List.getElem?_eq_getElem hj]
    simp only
    cases he : g.edge p[if j = 0 then p.length - 1 else j - 1] p[j] with
    | none => exact distTerm_error g p _ l
    | some v =>
      refine ih (fun i hi => hl i (List.mem_cons_of_mem _ hi)) ?_ _
      obtain ⟨i, hi, hh⟩ := h
      rcases List.mem_cons.1 hi with rfl | hi
      · have := hh _ _ (List.getElem?_eq_getElem h1) (List.getElem?_eq_getElem hj)
        rw [he] at this; cases this
      · exact ⟨i, hi, hh⟩

/-- **C57** (errors). If the edge between two consecutive nodes or the closing edge is missing, `distance` raises `TypeError`; the empty list has
the distance 0, and `IndexError` is raised if it has to be closed. -/
theorem C57_errors (g : Graph α Rat O) (p : List α) (r : Bool) :
    ((∃ i a b, p[i]? = some a ∧ p[i + 1]? = some b ∧ g.edge a b = none) ∨
      (∃ a b, p.getLast? = some a ∧ p.head? = some b ∧ g.edge a b = none) → g.distance p r = .error .typeError) ∧
    g.distance [] false = .ok 0 ∧ g.distance [] true = .error .indexError := by
  refine ⟨fun h => ?_, rfl, rfl⟩
  unfold distance
  rw [distFold_missing g p (fun i hi => List.mem_range.1 hi) ?_ 0]
  rcases h with ⟨i, a, b, ha, hb, he⟩ | ⟨a, b, ha, hb, he⟩
  · refine ⟨i + 1, List.mem_range.2 (List.getElem?_eq_some_iff.1 hb).1, fun a' b' ha' hb' => ?_⟩
    rw [if_neg (by omega), Nat.add_sub_cancel, ha] at ha'
    rw [hb] at hb'
    cases ha'; cases hb'; exact he
  · have hne : p ≠ [] := by rintro rfl; cases hb
    refine ⟨0, List.mem_range.2 (List.length_pos_iff.2 hne), fun a' b' ha' hb' => ?_⟩
    rw [if_pos rfl, ← List.getLast?_eq_getElem?, ha] at ha'
    rw [← List.head?_eq_getElem?, hb] at hb'
    cases ha'; cases hb'; exact he

/-- one way only: the closing edge is missing -/
example : (∃ a b, ([1, 2] : List Nat).getLast? = some a ∧ ([1, 2] : List Nat).head? = some b ∧
    ((empty : Graph Nat Rat Nat).addEdge 1 2 5).edge a b = none) := ⟨2, 1, rfl, rfl, by decide⟩

/-- **C57 is violated by the code**: on the tour a→b→a (edges 1 and 5) `distance` without
`return_to_start` is 6 although the list has length 1, and with it 11 although the tour has length 6. -/
theorem C57_counterexample :
    ∃ g : Graph Nat Rat Nat, g.Built ∧ walkCost g.edge [1, 2] = some 1 ∧ walkCost g.edge [1, 2, 1] = some 6 ∧
      g.distance [1, 2] false = .ok 6 ∧ g.distance [1, 2] true = .ok 11 :=
  ⟨run [.addEdge 1 2 (.scalar 1) false, .addEdge 2 1 (.scalar 5) false], ⟨_, rfl⟩, by decide +kernel,
    by decide +kernel, by decide +kernel, by decide +kernel⟩

/-! ### C88 -/

/-- **C88**. After every history, `nodes()` lists the nodes in the order in which they were first
added since they were last absent, `nodes(from_node=n)` and `edges(from_node=n)` the edges leaving
`n`, `nodes(to_node=n)` and `edges(to_node=n)` the edges entering `n`, in the order in which those
edges were first added, and `edges()` groups the edges by source; updating a node or an edge, a
rejected operation, and reading degrees do not move anything. -/
theorem C88_insertion_order (ops : List (Op α V O)) :
    (run ops).nodeList = (Order.run ops).nodes ∧
    (∀ n, (run ops).nodesFrom n = (Order.run ops).targets n) ∧
    (∀ n, (run ops).nodesTo n = (Order.run ops).origins n) ∧
    (∀ n, (((run ops).edgesFrom n).map fun e => (e.1, e.2.1)) =
      (Order.run ops).edges.filter (fun e => e.1 == n)) ∧
    (∀ n, (((run ops).edgesTo n).map fun e => (e.1, e.2.1)) =
      (Order.run ops).edges.filter (fun e => e.2 == n)) ∧
    (((run ops).edgeList.map fun e => (e.1, e.2.1)) =
      (Order.run ops).sources.flatMap (fun a => (Order.run ops).edges.filter (fun e => e.1 == a))) := by
  have h := ord_run ops
  have hi := inv_run ops
  have ht : ∀ n, ((Order.run ops).targets n).map (fun b => (n, b)) =
      (Order.run ops).edges.filter (fun e => e.1 == n) := by
    intro n
    unfold Order.targets
    rw [List.map_map]
    conv => rhs; rw [← List.map_id ((Order.run ops).edges.filter (fun e => e.1 == n))]
    apply List.map_congr_left
    intro e he
    have : e.1 = n := by simpa using (List.mem_filter.1 he).2
    rw [← this]; rfl
  have hs : ∀ n, ((Order.run ops).origins n).map (fun b => (b, n)) =
      (Order.run ops).edges.filter (fun e => e.2 == n) := by
    intro n
    unfold Order.origins
    rw [List.map_map]
    conv => rhs; rw [← List.map_id ((Order.run ops).edges.filter (fun e => e.2 == n))]
    apply List.map_congr_left
    intro e he
    have : e.2 = n := by simpa using (List.mem_filter.1 he).2
    rw [← this]; rfl
  refine ⟨h.nodes, h.out, h.inn, fun n => ?_, fun n => ?_, ?_⟩
  · rw [← ht, ← h.out, edgesFrom_eq_row, nodesFrom_eq_row]
    simp [Dict.keys]
  · rw [← hs, ← h.inn, edgesTo_eq_row, nodesTo_eq_row]
    simp [Dict.keys]
  · rw [h.edgeList hi]
    congr 1; funext a; exact ht a

/-- deleting and re-adding moves to the end, updating does not: node 1 and edge 2→3 -/
example : (run (α := Nat) (V := Nat) (O := Nat) [.addEdge 1 2 (.scalar 5) false, .addEdge 2 3 (.scalar 6) true,
      .addEdge 2 4 (.scalar 1) false, .addEdge 2 3 (.scalar 8) false, .delNode 1, .addEdge 2 1 (.scalar 7) false,
      .delEdge 2 3, .addEdge 2 3 (.scalar 9) false]).edgeList =
    [(2, 4, 1), (2, 1, 7), (2, 3, 9), (3, 2, 6)] ∧
    (Order.run (α := Nat) (V := Nat) (O := Nat) [.addEdge 1 2 (.scalar 5) false, .addEdge 2 3 (.scalar 6) true,
      .addEdge 2 4 (.scalar 1) false, .addEdge 2 3 (.scalar 8) false, .delNode 1, .addEdge 2 1 (.scalar 7) false,
      .delEdge 2 3, .addEdge 2 3 (.scalar 9) false]).nodes = [2, 3, 4, 1] := by decide +kernel

end GT

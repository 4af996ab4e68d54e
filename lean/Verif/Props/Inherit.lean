import Verif.Other.Inherit3D
import Verif.Other.TspOpt
import Verif.Dag.SlackCex
import Verif.Props.Dag
/-
C108: the methods that `Graph3D` inherits from `Graph`.
-/
namespace GT
open Graph
variable {α V O B : Type} [DecidableEq α]

/-- **C108** (methods that work on `graph.copy()`; partial).  Let `g` be a `Graph3D` after any history of public operations.
`Graph3D.copy` loses the node objects and may reorder the nodes, but
* `topological_sort` yields the same nodes as on a `Graph` with the same content, each after its predecessors, and ends the same way;
* `has_cycles` gives the same answer;
* `phase_lines` gives every node the same phase, or raises the same exception;
* `critical_path` gives the same length and the same schedule, or raises the same exception.
Missing from the claim: the methods of the theorems below. -/
theorem C108_copy_methods_partial (shape : α → PtArg) (ops : List (Op3 α V O)) {srt : List α → List α} (hs : ∀ l, (srt l).Perm l)
    {ord : Nat → List α → List α} (ho : ∀ t l, (ord t l).Perm l) (num : O → Option Rat) :
    (∃ out out3 e, (run3 shape ops).topologicalSort srt = some (out, e) ∧ (run3 shape ops).topologicalSort3D srt = some (out3, e) ∧
      out3.Perm out ∧ ∀ l1 x l2, out3 = l1 ++ x :: l2 → ∀ a, (run3 shape ops).Adj a x → a ∈ l1) ∧
    (run3 shape ops).hasCycles3D srt = (run3 shape ops).hasCycles srt ∧
    (∃ r r3, (run3 shape ops).phaseLines ord = some r ∧ (run3 shape ops).phaseLines3D ord = some r3 ∧
      ((∃ e, r = .error e ∧ r3 = .error e) ∨ ∃ ph ph3, r = .ok ph ∧ r3 = .ok ph3 ∧ ∀ x, ph.get? x = ph3.get? x)) ∧
    (∃ r r3, (run3 shape ops).criticalPath num srt = some r ∧ (run3 shape ops).criticalPath3D num srt = some r3 ∧
      ((∃ e, r = .error e ∧ r3 = .error e) ∨ ∃ cpl d d3, r = .ok (cpl, d) ∧ r3 = .ok (cpl, d3) ∧ ∀ x, d.get? x = d3.get? x)) := by
  have hb : (run3 shape ops).Built := ⟨_, (run3_eq shape ops).symm⟩
  have h := hb.inv
  refine ⟨topo3D_same h hs, hasCycles3D_eq h hs, ?_, criticalPath3D_same h hs num⟩
  obtain ⟨r, h1, h2⟩ := phaseLines_spec h ho
  obtain ⟨r3, h3, h4⟩ := phaseLines3D_spec h ho
  exact ⟨r, r3, h1, h3, h2.unique h4⟩

/-- **C108** (`loop`).  On a `Graph3D` with non-negative edge values `loop(start, mid)` goes out on a shortest simple path and comes back on
a path that is shortest among those that avoid the inner nodes of the outward path; with `end`, the way back avoids the whole outward path
and leads to `end`.  (C37 for `Graph3D`.) -/
theorem C108_loop (shape : α → PtArg) (ops : List (Op3 α Rat O)) (hw : NonNeg (run3 shape ops).edge) (start mid : α)
    (hs : (run3 shape ops).has start = true) (hm : (run3 shape ops).has mid = true)
    (hout : ∃ p c, WalkOf (run3 shape ops).edge start mid p c) :
    ∃ out c, WalkOf (run3 shape ops).edge start mid out c ∧ out.Nodup ∧
      (∀ q c', WalkOf (run3 shape ops).edge start mid q c' → c ≤ c') ∧
      ((∃ q c', AvoidWalk (run3 shape ops).edge (inner out) mid start q c') →
        ∃ back d, (run3 shape ops).loop3D start mid none = some (.ok (out ++ back.tail)) ∧
          AvoidWalk (run3 shape ops).edge (inner out) mid start back d ∧
          ∀ q c', AvoidWalk (run3 shape ops).edge (inner out) mid start q c' → d ≤ c') ∧
      ∀ fin, (run3 shape ops).has fin = true →
        (fin ∈ out.dropLast → (run3 shape ops).loop3D start mid (some fin) = some (.error .valueError)) ∧
        (fin ∉ out.dropLast → (∃ q c', AvoidWalk (run3 shape ops).edge out.dropLast mid fin q c') →
          ∃ back d, (run3 shape ops).loop3D start mid (some fin) = some (.ok (out ++ back.tail)) ∧
            AvoidWalk (run3 shape ops).edge out.dropLast mid fin back d ∧
            ∀ q c', AvoidWalk (run3 shape ops).edge out.dropLast mid fin q c' → d ≤ c') := by
  have hb : (run3 shape ops).Built := ⟨_, (run3_eq shape ops).symm⟩
  obtain ⟨⟨x, out⟩, h1, h2, h3, ⟨⟨y, back⟩, h4, h5⟩, h6, h7⟩ := loop3D_spec hb.inv hw hs hm
  rcases h2 with ⟨c, h8, h9, h10⟩ | ⟨_, h9⟩
  · refine ⟨out, c, h9.1, h3, fun q c' hq => h10 q c' ⟨hq, by simp⟩, fun hex => ?_, fun fin hf => ⟨h6 fin hf, fun hno hex => ?_⟩⟩
    · rcases h4 with ⟨d, _, h11, h12⟩ | ⟨_, h11⟩
      · exact ⟨back, d, h5, h11, h12⟩
      · exact absurd hex h11
    · obtain ⟨⟨y, back⟩, k1, k2⟩ := h7 fin hf hno
      rcases k1 with ⟨d, _, h11, h12⟩ | ⟨_, h11⟩
      · exact ⟨back, d, k2, h11, h12⟩
      · exact absurd hex h11
  · obtain ⟨p, c, hp⟩ := hout
    exact absurd ⟨p, c, hp, by simp⟩ h9

/-- **C108 is violated by `solve_tsp`**: on a `Graph3D` the method `"greedy"` always raises, and so does the default method on seven nodes or
more, because `Graph3D.distance` replaces the method they call.  On a complete graph with positive values the exception is `TypeError`,
where the same methods of `Graph` return a tour. -/
theorem C108_solve_tsp_raises (shape : α → PtArg) (ops : List (Op3 α Rat O)) (nlt : α → α → Bool) (it : SetOrders α) :
    (∃ e, solveTsp3D nlt it (run3 shape ops) "greedy" = some (.error e) ∧ (e = .valueError ∨ e = .typeError)) ∧
    (7 ≤ (run3 shape ops).nodeList.length →
      ∃ e, solveTsp3D nlt it (run3 shape ops) = some (.error e) ∧ (e = .valueError ∨ e = .typeError)) ∧
    (CompletePos (run3 shape ops).edge (run3 shape ops).nodeList → 2 ≤ (run3 shape ops).nodeList.length →
      solveTsp3D nlt it (run3 shape ops) "greedy" = some (.error .typeError) ∧
      (7 ≤ (run3 shape ops).nodeList.length → solveTsp3D nlt it (run3 shape ops) = some (.error .typeError)) ∧
      ∃ d t, solveTsp nlt it (run3 shape ops) "greedy" = some (.ok (.fin d, t))) := by
  have hb : (run3 shape ops).Built := ⟨_, (run3_eq shape ops).symm⟩
  have h := hb.inv
  have hlong : 7 ≤ (run3 shape ops).nodeList.length → tsp20233D nlt (run3 shape ops) = tspGreedy3D nlt (run3 shape ops) := by
    intro h7
    unfold tsp20233D tspGreedy3D
    rw [if_neg (by omega)]
  have hgr : solveTsp3D nlt it (run3 shape ops) "greedy" = toExt (tspGreedy3D nlt (run3 shape ops)) := by
    unfold solveTsp3D; rw [if_pos rfl]
  have hdef : solveTsp3D nlt it (run3 shape ops) = toExt (tsp20233D nlt (run3 shape ops)) := by
    unfold solveTsp3D; rw [if_neg (by decide), if_neg (by decide), if_pos rfl]
  have hex : ∃ e, toExt (tspGreedy3D nlt (run3 shape ops)) = some (.error e) ∧ (e = .valueError ∨ e = .typeError) := by
    rcases greedy3D_raises nlt h with h1 | h1
    · rw [h1]; exact ⟨_, rfl, .inl rfl⟩
    · rw [h1]; exact ⟨_, rfl, .inr rfl⟩
  refine ⟨by rw [hgr]; exact hex, fun h7 => by rw [hdef, hlong h7]; exact hex, fun hc h2 => ?_⟩
  have hty : tspGreedy3D nlt (run3 shape ops) = some (.error .typeError) := by
    obtain ⟨t, h1, _⟩ := greedyTour_complete (nlt := nlt) h hc h2
    unfold tspGreedy3D; rw [h1]
  refine ⟨by rw [hgr, hty]; rfl, fun h7 => by rw [hdef, hlong h7, hty]; rfl, ?_⟩
  obtain ⟨d, t, _, h1, _⟩ := tspGreedy_spec (nlt := nlt) h hc h2
  refine ⟨d, t, ?_⟩
  unfold solveTsp
  rw [if_pos rfl, h1]
  rfl

/-- **C108** (`solve_tsp`, what is inherited unharmed): the method `"bnb"`, the default method on fewer than seven nodes, and the `TypeError`
for an unknown method are as on a `Graph`. -/
theorem C108_solve_tsp_same (shape : α → PtArg) (ops : List (Op3 α Rat O)) (nlt : α → α → Bool) (it : SetOrders α) :
    (solveTsp3D nlt it (run3 shape ops) "bnb" = solveTsp nlt it (run3 shape ops) "bnb") ∧
    ((run3 shape ops).nodeList.length < 7 → solveTsp3D nlt it (run3 shape ops) = solveTsp nlt it (run3 shape ops)) ∧
    ∀ m, m ≠ "greedy" → m ≠ "bnb" → m ≠ "2023" → solveTsp3D nlt it (run3 shape ops) m = some (.error .typeError) ∧
      solveTsp nlt it (run3 shape ops) m = some (.error .typeError) := by
  refine ⟨?_, fun h7 => ?_, fun m h1 h2 h3 => ?_⟩
  · unfold solveTsp3D solveTsp; rw [if_neg (by decide), if_pos rfl, if_neg (by decide), if_pos rfl]
  · unfold solveTsp3D solveTsp tsp20233D tsp2023; rw [if_pos h7, if_pos h7]
    simp
  · unfold solveTsp3D solveTsp; rw [if_neg h1, if_neg h2, if_neg h3, if_neg h1, if_neg h2, if_neg h3]; exact ⟨rfl, rfl⟩

/-- **C108 is violated by `critical_path_minimize_for_slack`**: on a non-empty acyclic `Graph3D` with numeric durations it raises
`AssertionError` as soon as two different tasks with slack have no edge between them; otherwise it returns the graph without the
durations. -/
theorem C108_minimize_slack_raises (shape : α → PtArg) (ops : List (Op3 α V O)) (hA : Acyclic (run3 shape ops).Adj)
    (hne : ∃ x, (run3 shape ops).has x = true)
    {srt : List α → List α} (hs : ∀ l, (srt l).Perm l) {ord : Nat → List α → List α} (ho : ∀ t l, (ord t l).Perm l)
    {bySlack byDur : List (α × Task) → List (α × Task)} (hp1 : ∀ l, (bySlack l).Perm l) (hp2 : ∀ l, (byDur l).Perm l)
    {num : O → Option Rat} (hnum : ∀ x, (run3 shape ops).has x = true → (((run3 shape ops).node x).bind num).isSome) :
    ∃ cpl d, (run3 shape ops).criticalPath3D num srt = some (.ok (cpl, d)) ∧
      ((∃ x y t u, x ≠ y ∧ d.get? x = some t ∧ d.get? y = some u ∧ 0 < t.slack ∧ 0 < u.slack ∧
          (run3 shape ops).edge x y = none ∧ (run3 shape ops).edge y x = none) →
        (run3 shape ops).minimizeSlack3D shape num srt ord bySlack byDur = some (.error .assertionError)) ∧
      ((¬ ∃ x y t u, x ≠ y ∧ d.get? x = some t ∧ d.get? y = some u ∧ 0 < t.slack ∧ 0 < u.slack ∧
          (run3 shape ops).edge x y = none ∧ (run3 shape ops).edge y x = none) →
        ∃ w, (run3 shape ops).minimizeSlack3D shape num srt ord bySlack byDur = some (.ok w) ∧
          (∀ x, w.has x = (run3 shape ops).has x ∧ w.node x = none) ∧ (∀ a b, w.edge a b = (run3 shape ops).edge a b) ∧
          w.criticalPath3D num srt = some (.error .valueError)) := by
  have hb : (run3 shape ops).Built := ⟨_, (run3_eq shape ops).symm⟩
  obtain ⟨cpl, d, w, h1, _, h3, h4, h5⟩ := minimizeSlack3D_spec hb.inv (fun n hn => run3_points shape ops n hn) hA hne hs ho hp1 hp2 hnum
  refine ⟨cpl, d, h1, h4, fun hf => ⟨w, h5 hf, fun x => ⟨h3.has x, h3.node x⟩, h3.edge, ?_⟩⟩
  refine (criticalPath3D_eqs h3.built.inv hs num (by rw [h3.adj]; exact hA)).2 (fun hall => ?_)
  obtain ⟨x, hx⟩ := hne
  have := hall x (by rw [h3.has]; exact hx)
  rw [h3.node] at this; cases this

/-- **C108 is violated by `flow_graph_hash`**: on a `Graph3D` (whose history asks for no degree of a missing node) it raises `AssertionError`
if some source has an outgoing edge, that is on every acyclic graph with an edge; otherwise `TypeError` if some node without outgoing edges
has an incoming one; otherwise it returns a graph of the isolated nodes. -/
theorem C108_flow_graph_hash_raises (shape : α → PtArg) (ops : List (Op3 α V O)) (hph : (run3 shape ops).NoPhantom)
    (H : List B → List B) (str : α → List B) :
    ((∃ x y, (∀ a, ¬ (run3 shape ops).Adj a x) ∧ (run3 shape ops).Adj x y) →
      (run3 shape ops).flowGraphHash3D shape H str = some (.error .assertionError)) ∧
    (Acyclic (run3 shape ops).Adj → (∃ a b, (run3 shape ops).Adj a b) →
      (run3 shape ops).flowGraphHash3D shape H str = some (.error .assertionError)) ∧
    ((¬ ∃ x y, (∀ a, ¬ (run3 shape ops).Adj a x) ∧ (run3 shape ops).Adj x y) →
      (∃ x a, (∀ y, ¬ (run3 shape ops).Adj x y) ∧ (run3 shape ops).Adj a x) →
      (run3 shape ops).flowGraphHash3D shape H str = some (.error .typeError)) ∧
    ((¬ ∃ x y, (∀ a, ¬ (run3 shape ops).Adj a x) ∧ (run3 shape ops).Adj x y) →
      (¬ ∃ x a, (∀ y, ¬ (run3 shape ops).Adj x y) ∧ (run3 shape ops).Adj a x) →
      ∃ h, (run3 shape ops).flowGraphHash3D shape H str = some (.ok h) ∧
        (∀ x, h.has x = true ↔ (run3 shape ops).has x = true ∧ (∀ a, ¬ (run3 shape ops).Adj a x)) ∧ ∀ a b, h.edge a b = none) := by
  have hb : (run3 shape ops).Built := ⟨_, (run3_eq shape ops).symm⟩
  have h := hb.inv
  obtain ⟨h1, h2, h3⟩ := flowGraphHash3D_spec (H := H) (str := str) h hph (fun n hn => run3_points shape ops n hn)
  have hiff : (∃ x y, (run3 shape ops).IsSource x ∧ (run3 shape ops).Adj x y) ↔
      ∃ x y, (∀ a, ¬ (run3 shape ops).Adj a x) ∧ (run3 shape ops).Adj x y := by
    constructor
    · rintro ⟨x, y, hx, hy⟩; exact ⟨x, y, hx.2, hy⟩
    · rintro ⟨x, y, hx, hy⟩; exact ⟨x, y, ⟨has_iff.2 (h.finite x y hy).1, hx⟩, hy⟩
  rw [hiff] at h1 h2 h3
  refine ⟨h1, fun hA ⟨a, b, hab⟩ => h1 ?_, h2, fun p q => ?_⟩
  · obtain ⟨s, hs1, ⟨m, hm⟩⟩ := source_of_not_behind h.finite (not_behind_of_acyclic hA b)
    cases m with
    | zero => cases hm; exact absurd hab (hs1 a)
    | succ m => obtain ⟨c, hc, _⟩ := hm.head; exact ⟨s, c, hs1, hc⟩
  · obtain ⟨k, k1, k2, k3, _⟩ := h3 p q
    exact ⟨k, k1, k2, k3⟩

/-! ### non-vacuity -/

/-- every number is a point -/
def anyPoint : Nat → PtArg := fun n => .tuple [some (n : Rat), some 0, some 0]

/-- five tasks with durations: `1 → 2 → 5`, `1 → 3`, `1 → 4`; the tasks 3 and 4 have slack -/
def tasks3D : List (Op3 Nat Rat Rat) :=
  [.addNode 1 (some 5), .addNode 2 (some 9), .addNode 3 (some 1), .addNode 4 (some 1), .addNode 5 (some 1),
   .addEdge 1 2 (some (.scalar 0)) false, .addEdge 1 3 (some (.scalar 0)) false, .addEdge 1 4 (some (.scalar 0)) false,
   .addEdge 2 5 (some (.scalar 0)) false]

example : (run3 anyPoint tasks3D).nodeList = [1, 2, 3, 4, 5] ∧ (run3 anyPoint tasks3D).edge 1 4 = some 0 := by decide +kernel

example : Acyclic (run3 anyPoint tasks3D).Adj :=
  acyclic_of_edgeList ⟨_, (run3_eq anyPoint tasks3D).symm⟩ id (by decide +kernel)

/-- the call of the example raises -/
example : (run3 anyPoint tasks3D).minimizeSlack3D anyPoint some id (fun _ l => l) id id = some (.error .assertionError) := by
  have hb : (run3 anyPoint tasks3D).Built := ⟨_, (run3_eq anyPoint tasks3D).symm⟩
  obtain ⟨cpl, d, h1, h2, _⟩ := C108_minimize_slack_raises anyPoint tasks3D
    (acyclic_of_edgeList hb id (by decide +kernel)) ⟨1, by decide +kernel⟩ (srt := id) (fun l => List.Perm.refl l)
    (ord := fun _ l => l) (fun _ l => List.Perm.refl l) (bySlack := id) (byDur := id) (fun l => List.Perm.refl l) (fun l => List.Perm.refl l)
    (num := some) (fun x hx => by
      have : x ∈ (run3 anyPoint tasks3D).nodeList := has_iff.1 hx
      revert x
      have : ∀ x ∈ (run3 anyPoint tasks3D).nodeList, (((run3 anyPoint tasks3D).node x).bind some).isSome = true := by decide +kernel
      exact fun x _ hx => this x hx)
  apply h2
  obtain ⟨r, r3, k1, k2, k3⟩ := criticalPath3D_same hb.inv (srt := id) (fun l => List.Perm.refl l) some
  rw [h1] at k2
  cases k2
  rcases k3 with ⟨e, _, k⟩ | ⟨c, d1, d2, rfl, k4, k5⟩
  · cases k
  · cases k4
    have hf : ∃ q, cpFuel 20 some id (run3 anyPoint tasks3D) = some (.ok q) ∧
        (q.2.get? 3).map Task.slack = some 9 ∧ (q.2.get? 4).map Task.slack = some 9 := by
      have a : (match cpFuel 20 some id (run3 anyPoint tasks3D) with
            | some (.ok q) => ((q.2.get? 3).map Task.slack, (q.2.get? 4).map Task.slack)
            | _ => (none, none)) = (some 9, some 9) := by decide +kernel
      cases hq : cpFuel 20 some id (run3 anyPoint tasks3D) with
      | none => rw [hq] at a; cases a
      | some q =>
        cases q with
        | error e => rw [hq] at a; cases a
        | ok q =>
          rw [hq] at a
          exact ⟨q, rfl, congrArg Prod.fst a, congrArg Prod.snd a⟩
    obtain ⟨⟨c', d'⟩, q1, q2, q3⟩ := hf
    have e1 := cpFuel_sound q1
    unfold realCP at e1
    rw [k1] at e1
    cases e1
    rw [k5] at q2 q3
    obtain ⟨t, ht, ht'⟩ := Option.map_eq_some_iff.1 q2
    obtain ⟨u, hu, hu'⟩ := Option.map_eq_some_iff.1 q3
    exact ⟨3, 4, t, u, by decide, ht, hu, by rw [ht']; decide +kernel, by rw [hu']; decide +kernel, by decide +kernel, by decide +kernel⟩

example : (run3 anyPoint tasks3D).flowGraphHash3D anyPoint (fun l : List Nat => l) (fun n => [n]) = some (.error .assertionError) := by
  have hb : (run3 anyPoint tasks3D).Built := ⟨_, (run3_eq anyPoint tasks3D).symm⟩
  refine (C108_flow_graph_hash_raises anyPoint tasks3D ?_ _ _).2.1 (acyclic_of_edgeList hb id (by decide +kernel)) ⟨1, 2, by decide +kernel⟩
  intro n hn
  have h1 : ∀ n ∈ (run3 anyPoint tasks3D).inDeg.keys ++ (run3 anyPoint tasks3D).outDeg.keys, n ∈ (run3 anyPoint tasks3D).nodes.keys := by decide +kernel
  constructor
  · cases h : (run3 anyPoint tasks3D).inDeg.get? n with
    | none => rfl
    | some v => exact absurd (h1 n (List.mem_append_left _ (Dict.mem_keys_of_get? h))) hn
  · cases h : (run3 anyPoint tasks3D).outDeg.get? n with
    | none => rfl
    | some v => exact absurd (h1 n (List.mem_append_right _ (Dict.mem_keys_of_get? h))) hn

/-- a triangle of points: complete, positive -/
def triangle3D : List (Op3 Nat Rat Nat) :=
  [.addEdge 1 2 (some (.scalar 1)) true, .addEdge 2 3 (some (.scalar 2)) true, .addEdge 1 3 (some (.scalar 2)) true]

example (it : SetOrders Nat) : solveTsp3D (fun a b => decide (a < b)) it (run3 anyPoint triangle3D) "greedy" = some (.error .typeError) := by
  refine ((C108_solve_tsp_raises anyPoint triangle3D _ it).2.2 ?_ (by decide +kernel)).1
  have : ∀ a ∈ (run3 anyPoint triangle3D).nodeList, ∀ b ∈ (run3 anyPoint triangle3D).nodeList, a ≠ b →
      ∃ v, v ∈ ((run3 anyPoint triangle3D).edge a b).toList ∧ 0 < v := by decide +kernel
  intro a ha b hb hab
  obtain ⟨v, hv, h0⟩ := this a ha b hb hab
  exact ⟨v, by simpa using hv, h0⟩

end GT

import Verif.Other.Graph3D
import Verif.Other.SolveTsp
import Verif.Other.FlowHash
import Verif.Dag.Slack
import Verif.Sp.Loop
import Verif.Graph.Serial
/-
The methods that `Graph3D` inherits from `Graph` (graph/core.py:327-378) and whose code meets a method that `Graph3D` overrides:
`copy` (core.py:333-335), `distance` (core.py:348-361, a static method of two points) and `add_edge` without a value
(core.py:363-367 asserts that there is one).  The methods that meet none of the three run the same code on the same tables, so the model of
`Graph` is theirs.
-/
namespace GT
open Graph
variable {α V O B : Type} [DecidableEq α]

/-! ### model -/

/-- `topological_sort(graph, key)` (topological_sort.py:4-36) where `graph.copy()` is that of `Graph3D` -/
def Graph.topologicalSort3D (srt : List α → List α) (g : Graph α V O) : Option (List α × Option Err) :=
  match g.copy3D with
  | .error e => some ([], some e)
  | .ok g2 => pyWhile (topoStep srt) (g2, srt (g2.nodesInDeg 0), [])

/-- `list(topological_sort(graph))` -/
def Graph.topoList3D (srt : List α → List α) (g : Graph α V O) : Option (Py (List α)) :=
  match g.topologicalSort3D srt with
  | none => none
  | some (out, none) => some (.ok out)
  | some (_, some e) => some (.error e)

/-- `has_cycles(graph)` (cycle.py:31-46) on a `Graph3D` -/
def Graph.hasCycles3D (srt : List α → List α) (g : Graph α V O) : Option (Py Bool) :=
  if g.edgeList.any (fun e => e.1 == e.2.1) then some (.ok true)
  else match g.topoList3D srt with
    | none => none
    | some (.ok _) => some (.ok false)
    | some (.error .attributeError) => some (.ok true)
    | some (.error e) => some (.error e)

/-- `phase_lines(graph)` (dag.py:5-89) on a `Graph3D` -/
def Graph.phaseLines3D (ord : Nat → List α → List α) (g : Graph α V O) : Option (Py (Dict α Nat)) :=
  match g.copy3D with
  | .error e => some (.error e)
  | .ok g2 => phaseRun ord g.nodeList g2

/-- `critical_path(graph)` (critical_path.py:65-125) on a `Graph3D`: the durations are read from `graph`, not from the copy -/
def Graph.criticalPath3D (num : O → Option Rat) (srt : List α → List α) (g : Graph α V O) : Option (Py (Rat × Dict α Task)) :=
  match g.topoList3D srt with
  | none => none
  | some (.error e) => some (.error e)
  | some (.ok order) => g.cpPasses num order

/-- `cycle(graph, start, mid, end)` (cycle.py:5-28) on a `Graph3D`.  The copy cannot fail on a reachable graph, so it may be made first. -/
def Graph.loop3D (g : Graph α Rat O) (start mid : α) (fin : Option α) : Option (Py (List α)) :=
  match g.copy3D with
  | .error e => some (.error e)
  | .ok g2 => g.loopOn g2 start mid fin

/-- `tsp_greedy(graph)` (tsp.py:95-114) on a `Graph3D`: line 107 calls `graph.distance(t1)`, and `Graph3D.distance` needs a second
argument -/
def tspGreedy3D (nlt : α → α → Bool) (g : Graph α Rat O) : Option (Py (Rat × List α)) :=
  match greedyTour nlt g with
  | .error e => some (.error e)
  | .ok _ => some (.error .typeError)

/-- `tsp_2023(graph)` (tsp.py:331-359) on a `Graph3D`: line 346 calls `graph.distance(t)` -/
def tsp20233D (nlt : α → α → Bool) (g : Graph α Rat O) : Option (Py (Rat × List α)) :=
  if g.nodeList.length < 7 then bruteForce g
  else match greedyTour nlt g with
    | .error e => some (.error e)
    | .ok _ => some (.error .typeError)

/-- `g.solve_tsp(method)` (core.py:154-169) on a `Graph3D` -/
def solveTsp3D (nlt : α → α → Bool) (it : SetOrders α) (g : Graph α Rat O) (method : String := "2023") : Option (Py (Ext × List α)) :=
  if method = "greedy" then toExt (tspGreedy3D nlt g)
  else if method = "bnb" then bnb nlt it g
  else if method = "2023" then toExt (tsp20233D nlt g)
  else some (.error .typeError)

/-- the inner loop of part 1 of `critical_path_minimize_for_slack` (critical_path.py:155-179) on a `Graph3D`: line 162 is
`new_graph.add_edge(n1, n2)`, that is with the value `None` -/
def slackInner3D (shape : α → PtArg) (cp : CP α V O) (phases : Dict α Nat) (cpl : Rat) (n1 : α) :
    List α → Graph α V O × Rat → Option (Py (Graph α V O × Rat × Bool))
  | [], (ng, slack) => some (.ok (ng, slack, false))
  | n2 :: l, (ng, slack) =>
    if n2 = n1 then slackInner3D shape cp phases cpl n1 l (ng, slack)
    else match phases.get? n2, phases.get? n1 with
      | some p2, some p1 =>
        if p2 ≥ p1 ∧ ng.edge n2 n1 = none ∧ ng.edge n1 n2 = none then
          match ng.addEdge3E shape n1 n2 none false with
          | .error e => some (.error e)
          | .ok ng' => match cp ng' with
            | none => none
            | some (.error e) => some (.error e)
            | some (.ok (cpl2, schedule2)) =>
              if cpl2 ≠ cpl then slackInner3D shape cp phases cpl n1 l (ng'.delEdge n1 n2, slack)
              else
                let slack2 := slackSum schedule2
                if slack2 < slack ∧ cpl = cpl2 then
                  if slack2 = 0 then some (.ok (ng', slack2, true))
                  else slackInner3D shape cp phases cpl n1 l (ng', slack2)
                else slackInner3D shape cp phases cpl n1 l (ng'.delEdge n1 n2, slack)
        else slackInner3D shape cp phases cpl n1 l (ng, slack)
      | _, _ => some (.error .keyError)

/-- the outer loop of part 1 (critical_path.py:149-179) -/
def slackOuter3D (shape : α → PtArg) (cp : CP α V O) (phases : Dict α Nat) (cpl : Rat) (ids : List α) :
    List α → Graph α V O × Rat → Option (Py (Graph α V O × Rat))
  | [], s => some (.ok s)
  | n1 :: l, s =>
    match slackInner3D shape cp phases cpl n1 ids s with
    | none => none
    | some (.error e) => some (.error e)
    | some (.ok (ng, slack, stop)) =>
      if stop then some (.ok (ng, slack)) else slackOuter3D shape cp phases cpl ids l (ng, slack)

/-- part 2 (critical_path.py:182-195); line 195 is `new_graph.add_edge(n1, n2)` -/
def slackPurge3D (shape : α → PtArg) (cp : CP α V O) (g : Graph α V O) (cpl slack : Rat) :
    List (α × α × V) → Graph α V O → Option (Py (Graph α V O))
  | [], ng => some (.ok ng)
  | (n1, n2, _) :: l, ng =>
    if (g.edge n1 n2).isSome then slackPurge3D shape cp g cpl slack l ng
    else
      let ng' := ng.delEdge n1 n2
      match cp ng' with
      | none => none
      | some (.error e) => some (.error e)
      | some (.ok (cpl2, schedule2)) =>
        if cpl2 = cpl ∧ slackSum schedule2 = slack then slackPurge3D shape cp g cpl slack l ng'
        else match ng'.addEdge3E shape n1 n2 none false with
          | .error e => some (.error e)
          | .ok ng' => slackPurge3D shape cp g cpl slack l ng'

/-- `critical_path_minimize_for_slack(graph)` (critical_path.py:128-197) on a `Graph3D` -/
def Graph.minimizeSlack3D (shape : α → PtArg) (num : O → Option Rat) (srt : List α → List α) (ord : Nat → List α → List α)
    (bySlack byDur : List (α × Task) → List (α × Task)) (g : Graph α V O) : Option (Py (Graph α V O)) :=
  match g.criticalPath3D num srt with
  | none => none
  | some (.error e) => some (.error e)
  | some (.ok (cpl, schedule)) =>
    match g.phaseLines3D ord with
    | none => none
    | some (.error e) => some (.error e)
    | some (.ok phases) =>
      match g.copy3D with
      | .error e => some (.error e)
      | .ok g2 =>
        let slackNodes := bySlack (schedule.items.filter (fun p => decide (p.2.slack > 0)))
        let ids := slackNodes.map Prod.fst
        match slackOuter3D shape (Graph.criticalPath3D num srt) phases cpl ids ((byDur slackNodes).map Prod.fst)
            (g2, slackSum schedule) with
        | none => none
        | some (.error e) => some (.error e)
        | some (.ok (ng, slack)) => slackPurge3D shape (Graph.criticalPath3D num srt) g cpl slack ng.edgeList ng

/-- one receiver of `flow_graph_hash` (hash_methods.py:57-68) when `cls` is `Graph3D`: line 66 is `hash_graph.add_edge(source, receiver)` -/
def fhRecv3D (shape : α → PtArg) (source : α) (s : FhSt α B) (r : α) : Py (FhSt α B) :=
  if r ∈ s.visited then .ok s
  else match (if s.hg.has r then .ok s.hg else s.hg.addNode3E shape r (some (r, none))) with
    | .error e => .error e
    | .ok hg => match hg.addEdge3E shape source r (none : Option (Arg Unit)) false with
      | .error e => .error e
      | .ok hg => .ok ⟨if r ∈ s.sources then s.sources else s.sources ++ [r], hg, s.visited ++ [r]⟩

/-- storing the digest (hash_methods.py:50-55) -/
def fhStore3D (shape : α → PtArg) (hg : HashG α B) (source : α) (d : List B) : Py (HashG α B) :=
  if !hg.has source then hg.addNode3E shape source (some (source, some d))
  else match hg.node source with
    | none => .error .typeError
    | some (o, _) => .ok (hg.addNode source (some (o, some d)))

/-- one iteration of `while sources` (hash_methods.py:35-68), and the check of the sinks (68-70) -/
def fhStep3D (shape : α → PtArg) (H : List B → List B) (str : α → List B) (g : Graph α V O) (s : FhSt α B) :
    Option (FhSt α B ⊕ Py (HashG α B)) :=
  match s.sources with
  | [] => some (.inr (forE (g.nodesOutDeg 0) s.hg (fun hg sink => match hg.node sink with
      | none => .error .typeError
      | some (_, none) => .error .assertionError
      | some (_, some _) => .ok hg)))
  | source :: rest => match fhText g s.hg source (g.nodesTo source) (str source) with
    | none => none
    | some (.error e) => some (.inr (.error e))
    | some (.ok t) => match fhStore3D shape s.hg source (H t) with
      | .error e => some (.inr (.error e))
      | .ok hg => match forE (g.nodesFrom source) ⟨rest, hg, s.visited⟩ (fhRecv3D shape source) with
        | .error e => some (.inr (.error e))
        | .ok s => some (.inl s)

/-- `flow_graph_hash(graph)` (hash_methods.py:19-74) of a `Graph3D` -/
def Graph.flowGraphHash3D (shape : α → PtArg) (H : List B → List B) (str : α → List B) (g : Graph α V O) : Option (Py (HashG α B)) :=
  pyWhileD (fhStep3D shape H str g) ⟨g.nodesInDeg 0, Graph.empty, []⟩

/-! ### the copy -/

theorem fromDict_noPhantom {g : Graph α V O} (h : g.NoPhantom) (d : Dict α (Dict α V)) : (g.fromDict d).NoPhantom := by
  rw [fromDict_eq]
  generalize d.items = l
  induction l generalizing g with
  | nil => exact h
  | cons p l ih =>
    refine ih ?_
    unfold fromRow
    split
    · exact noPhantom_addNode h _ _
    · generalize p.2.items = m
      induction m generalizing g with
      | nil => exact h
      | cons q m ihm => exact ihm (noPhantom_addEdge h _ _ _)

/-- `Graph3D.copy` has the same nodes and edges, and no node objects -/
structure Copied3D (g w : Graph α V O) : Prop where
  built : w.Built
  noPh : w.NoPhantom
  has : ∀ x, w.has x = g.has x
  node : ∀ x, w.node x = none
  edge : ∀ a b, w.edge a b = g.edge a b

theorem copy3D_spec {g : Graph α V O} (h : g.Inv) : ∃ w, g.copy3D = .ok w ∧ Copied3D g w := by
  obtain ⟨d, h1, h2, h3, h4, h5⟩ := h.toDict_spec
  have hnode := fun x => fromDict_nodes (O := O) h2 x
  have hmem : ∀ x, (x ∈ d.keys ∨ (∃ a r, d.get? a = some r ∧ x ∈ r.keys)) ↔ x ∈ g.nodeList := by
    intro x
    rw [h4]
    constructor
    · rintro (h6 | ⟨a, r, h6, h7⟩)
      · exact h6
      · obtain ⟨v, hv⟩ := Dict.exists_get?_of_mem_keys h7
        have := h5 a x
        rw [h6, Option.bind_some, hv] at this
        exact (h.dom a x v this.symm).2
    · exact .inl
  refine ⟨(empty : Graph α V O).fromDict d, by unfold copy3D; rw [h1], fromDict_built ⟨[], rfl⟩ d, fromDict_noPhantom noPhantom_empty d, fun x => ?_, fun x => ?_, fun a b => ?_⟩
  · unfold Graph.has Dict.contains
    rw [hnode]
    by_cases hx : x ∈ g.nodeList
    · rw [if_pos ((hmem x).2 hx)]
      exact (has_iff.2 hx).symm
    · rw [if_neg (fun h6 => hx ((hmem x).1 h6))]
      cases h7 : (g.nodes.get? x).isSome with
      | false => rfl
      | true => exact absurd (has_iff.1 h7) hx
  · unfold Graph.node; rw [hnode]; split <;> rfl
  · rw [fromDict_edge h2 h3, h5]

theorem Copied3D.adj {g w : Graph α V O} (h : Copied3D g w) : w.Adj = g.Adj := by
  funext a b; unfold Graph.Adj; rw [h.edge]

theorem Copied3D.rem {g w : Graph α V O} (h : Copied3D g w) : Remaining w w [] :=
  ⟨h.built.inv, h.noPh, fun x => by simp, fun a b => by simp⟩

theorem perm_of_same_mem {l m : List α} (hl : l.Nodup) (hm : m.Nodup) (h : ∀ x, x ∈ l ↔ x ∈ m) : l.Perm m :=
  (List.perm_ext_iff_of_nodup hl hm).2 h

theorem Copied3D.nodes {g w : Graph α V O} (h : Copied3D g w) (hg : g.Inv) : g.nodeList.Perm w.nodeList :=
  perm_of_same_mem hg.nodesWF h.built.inv.nodesWF (fun x => by rw [← has_iff, ← has_iff, h.has])

/-! ### methods that work on a copy -/

theorem topo3D_spec {g : Graph α V O} (hg : g.Inv) {srt : List α → List α} (hs : ∀ l, (srt l).Perm l) :
    ∃ out e, g.topologicalSort3D srt = some (out, e) ∧ out.Nodup ∧
      (∀ x, x ∈ out ↔ g.has x = true ∧ ¬ ∃ c, ReachPlus g.Adj c c ∧ Reach g.Adj c x) ∧
      AfterPreds g.Adj out ∧
      ((∀ x, g.has x = true → x ∈ out) → e = none) ∧
      ((¬ ∀ x, g.has x = true → x ∈ out) → e = some .attributeError) := by
  obtain ⟨w, h1, h2⟩ := copy3D_spec hg
  obtain ⟨out, e, h3, h4⟩ := topoRun_spec h2.built.inv h2.rem hs
  unfold topologicalSort3D
  rw [h1]
  rw [h2.adj] at h4
  simp only [h2.has] at h4
  exact ⟨out, e, h3, h4⟩

theorem topo3D_same {g : Graph α V O} (hg : g.Inv) {srt : List α → List α} (hs : ∀ l, (srt l).Perm l) :
    ∃ out out3 e, g.topologicalSort srt = some (out, e) ∧ g.topologicalSort3D srt = some (out3, e) ∧ out3.Perm out ∧
      AfterPreds g.Adj out3 := by
  obtain ⟨out, e, h1, h2, h3, h4, h5, h6⟩ := topo_spec hg hs
  obtain ⟨out3, e3, k1, k2, k3, k4, k5, k6⟩ := topo3D_spec hg hs
  have hm : ∀ x, x ∈ out3 ↔ x ∈ out := fun x => by rw [h3, k3]
  have he : e3 = e := by
    by_cases h : ∀ x, g.has x = true → x ∈ out
    · rw [h5 h, k5 (fun x hx => (hm x).2 (h x hx))]
    · rw [h6 h, k6 (fun h' => h (fun x hx => (hm x).1 (h' x hx)))]
  exact ⟨out, out3, e, h1, he ▸ k1, perm_of_same_mem k2 h2 hm, k4⟩

theorem topoList3D_spec {g : Graph α V O} (h : g.Inv) {srt : List α → List α} (hs : ∀ l, (srt l).Perm l) :
    (Acyclic g.Adj → ∃ out, g.topoList3D srt = some (.ok out) ∧ out.Nodup ∧
      (∀ x, x ∈ out ↔ g.has x = true) ∧ AfterPreds g.Adj out) ∧
    (¬ Acyclic g.Adj → g.topoList3D srt = some (.error .attributeError)) := by
  obtain ⟨out, out3, e, h1, h2, h3, h4⟩ := topo3D_same h hs
  obtain ⟨k1, k2⟩ := topoList_spec h hs
  constructor
  · intro hA
    obtain ⟨o, k3, k4, k5, _⟩ := k1 hA
    unfold topoList at k3
    rw [h1] at k3
    cases e with
    | some e => cases k3
    | none =>
      cases k3
      exact ⟨out3, by unfold topoList3D; rw [h2], h3.nodup_iff.2 k4, fun x => by rw [h3.mem_iff, k5], h4⟩
  · intro hA
    have k3 := k2 hA
    unfold topoList at k3
    rw [h1] at k3
    cases e with
    | none => cases k3
    | some e => cases k3; unfold topoList3D; rw [h2]

theorem hasCycles3D_eq {g : Graph α V O} (h : g.Inv) {srt : List α → List α} (hs : ∀ l, (srt l).Perm l) :
    g.hasCycles3D srt = g.hasCycles srt := by
  unfold hasCycles3D hasCycles
  by_cases hA : Acyclic g.Adj
  · obtain ⟨o1, e1, _⟩ := (topoList3D_spec h hs).1 hA
    obtain ⟨o2, e2, _⟩ := (topoList_spec h hs).1 hA
    rw [e1, e2]
  · rw [(topoList3D_spec h hs).2 hA, (topoList_spec h hs).2 hA]

/-- two results of `phase_lines` that say the same -/
def SamePhases (r r' : Py (Dict α Nat)) : Prop :=
  (∃ e, r = .error e ∧ r' = .error e) ∨ ∃ ph ph', r = .ok ph ∧ r' = .ok ph' ∧ ∀ x, ph.get? x = ph'.get? x

theorem PhaseResult.unique {g : Graph α V O} {r r' : Py (Dict α Nat)} (h : PhaseResult g r) (h' : PhaseResult g r') : SamePhases r r' := by
  by_cases hb : (¬ ∃ a, g.IsSource a) ∨ (∃ a x, g.IsSource a ∧ Reach g.Adj a x ∧ BehindCycle g.Adj x)
  · exact .inl ⟨_, h.1 hb, h'.1 hb⟩
  · have h1 : ∃ a, g.IsSource a := Classical.byContradiction (fun h => hb (.inl h))
    have h2 : ∀ a x, g.IsSource a → Reach g.Adj a x → ¬ BehindCycle g.Adj x := fun a x p q s => hb (.inr ⟨a, x, p, q, s⟩)
    obtain ⟨ph, rfl, a1, a2, a3⟩ := h.2 h1 h2
    obtain ⟨ph', rfl, b1, b2, b3⟩ := h'.2 h1 h2
    refine .inr ⟨ph, ph', rfl, rfl, fun x => ?_⟩
    by_cases hx : g.has x = true
    · by_cases hc : BehindCycle g.Adj x
      · rw [a3 x hx hc, b3 x hx hc]
      · obtain ⟨n, c1, ⟨p, c2⟩, c3⟩ := a2 x hx hc
        obtain ⟨m, d1, ⟨q, d2⟩, d3⟩ := b2 x hx hc
        rw [c1, d1, Nat.le_antisymm (d3 n p c2) (c3 m q d2)]
    · have e1 : ph.get? x = none := by
        cases e : ph.get? x with
        | none => rfl
        | some v => exact absurd ((a1 x).1 (Dict.mem_keys_of_get? e)) hx
      have e2 : ph'.get? x = none := by
        cases e : ph'.get? x with
        | none => rfl
        | some v => exact absurd ((b1 x).1 (Dict.mem_keys_of_get? e)) hx
      rw [e1, e2]

theorem phaseLines3D_spec {g : Graph α V O} (hg : g.Inv) {ord : Nat → List α → List α} (ho : ∀ t l, (ord t l).Perm l) :
    ∃ r, g.phaseLines3D ord = some r ∧ PhaseResult g r := by
  obtain ⟨w, h1, h2⟩ := copy3D_spec hg
  obtain ⟨r, h3, h4⟩ := phaseRun_spec (nl := g.nodeList) h2.built.inv h2.rem (fun x => by rw [h2.has, has_iff]) (h2.nodes hg).length_eq ho
  refine ⟨r, by unfold phaseLines3D; rw [h1]; exact h3, ?_⟩
  have hsrc : ∀ x, w.IsSource x ↔ g.IsSource x := fun x => by unfold IsSource; rw [h2.has, h2.adj]
  unfold PhaseResult at h4 ⊢
  simp only [hsrc, h2.adj, h2.has, ← (h2.nodes hg).length_eq] at h4
  exact h4

theorem criticalPath3D_eqs {g : Graph α V O} (hg : g.Inv) {srt : List α → List α} (hs : ∀ l, (srt l).Perm l)
    (num : O → Option Rat) (hA : Acyclic g.Adj) :
    ((∀ x, g.has x = true → ((g.node x).bind num).isSome) →
      ∃ cpl d, g.criticalPath3D num srt = some (.ok (cpl, d)) ∧ CpmEqs g num d cpl) ∧
    ((¬ ∀ x, g.has x = true → ((g.node x).bind num).isSome) →
      g.criticalPath3D num srt = some (.error .valueError)) := by
  obtain ⟨out, h1, h2, h3, h4⟩ := (topoList3D_spec hg hs).1 hA
  unfold criticalPath3D
  rw [h1]
  exact cpPasses_eqs hg h2 h3 h4 num hA

/-- two results of `critical_path` that say the same -/
def SameSchedule (r r' : Py (Rat × Dict α Task)) : Prop :=
  (∃ e, r = .error e ∧ r' = .error e) ∨ ∃ cpl d d', r = .ok (cpl, d) ∧ r' = .ok (cpl, d') ∧ ∀ x, d.get? x = d'.get? x

theorem criticalPath3D_same {g : Graph α V O} (hg : g.Inv) {srt : List α → List α} (hs : ∀ l, (srt l).Perm l) (num : O → Option Rat) :
    ∃ r r3, g.criticalPath num srt = some r ∧ g.criticalPath3D num srt = some r3 ∧ SameSchedule r r3 := by
  by_cases hA : Acyclic g.Adj
  · by_cases hn : ∀ x, g.has x = true → ((g.node x).bind num).isSome
    · obtain ⟨c, d, h1, h2⟩ := (criticalPath_eqs hg hs num hA).1 hn
      obtain ⟨c', d', h3, h4⟩ := (criticalPath3D_eqs hg hs num hA).1 hn
      obtain ⟨rfl, h5⟩ := h2.unique hg hA h4
      exact ⟨_, _, h1, h3, .inr ⟨c, d, d', rfl, rfl, h5⟩⟩
    · exact ⟨_, _, (criticalPath_eqs hg hs num hA).2 hn, (criticalPath3D_eqs hg hs num hA).2 hn, .inl ⟨_, rfl, rfl⟩⟩
  · refine ⟨.error .attributeError, .error .attributeError, ?_, ?_, .inl ⟨_, rfl, rfl⟩⟩
    · unfold criticalPath; rw [(topoList_spec hg hs).2 hA]
    · unfold criticalPath3D; rw [(topoList3D_spec hg hs).2 hA]

theorem loop3D_spec {g : Graph α Rat O} (h : g.Inv) (hw : NonNeg g.edge) {start mid : α}
    (hs : g.has start = true) (hm : g.has mid = true) :
    ∃ r1, g.shortestPath start mid = some (.ok r1) ∧ SpResult g.edge [] start mid r1 ∧ r1.2.Nodup ∧
      (∃ r2, SpResult g.edge (inner r1.2) mid start r2 ∧ g.loop3D start mid none = some (.ok (r1.2 ++ r2.2.tail))) ∧
      (∀ e, g.has e = true → e ∈ r1.2.dropLast → g.loop3D start mid (some e) = some (.error .valueError)) ∧
      (∀ e, g.has e = true → e ∉ r1.2.dropLast → ∃ r2, SpResult g.edge r1.2.dropLast mid e r2 ∧
        g.loop3D start mid (some e) = some (.ok (r1.2 ++ r2.2.tail))) := by
  obtain ⟨w, h1, h2⟩ := copy3D_spec h
  have := loopOn_spec h h2.built.inv h2.has h2.edge hw hs hm
  unfold loop3D
  rw [h1]
  exact this

/-! ### the travelling salesman -/

theorem greedy3D_raises (nlt : α → α → Bool) {g : Graph α Rat O} (hg : g.Inv) :
    tspGreedy3D nlt g = some (.error .valueError) ∨ tspGreedy3D nlt g = some (.error .typeError) := by
  unfold tspGreedy3D
  rcases greedyTour_sound (nlt := nlt) hg with ⟨t, h1, _⟩ | h1
  · rw [h1]; exact .inr rfl
  · rw [h1]; exact .inl rfl

/-! ### minimizing slack -/

theorem addEdge3E_none {shape : α → PtArg} {g : Graph α V O} {a b : α} (ha : IsPoint (shape a)) (hb : IsPoint (shape b)) (bi : Bool) :
    g.addEdge3E shape a b none bi = .error .assertionError := by
  unfold Graph.addEdge3E; rw [check3_ok ha hb]

/-- a candidate pair: `new_graph.add_edge` will be called -/
def Candidate (phases : Dict α Nat) (w : Graph α V O) (n1 n2 : α) : Prop :=
  n2 ≠ n1 ∧ (∃ p2 p1, phases.get? n2 = some p2 ∧ phases.get? n1 = some p1 ∧ p1 ≤ p2) ∧ w.edge n2 n1 = none ∧ w.edge n1 n2 = none

theorem slackInner3D_spec {shape : α → PtArg} {cp : CP α V O} {phases : Dict α Nat} {cpl : Rat} {n1 : α} (hp1 : IsPoint (shape n1))
    (hk1 : n1 ∈ phases.keys) (w : Graph α V O) (s : Rat) (l : List α) : (∀ x ∈ l, IsPoint (shape x) ∧ x ∈ phases.keys) →
    ((∃ n2 ∈ l, Candidate phases w n1 n2) → slackInner3D shape cp phases cpl n1 l (w, s) = some (.error .assertionError)) ∧
    ((¬ ∃ n2 ∈ l, Candidate phases w n1 n2) → slackInner3D shape cp phases cpl n1 l (w, s) = some (.ok (w, s, false))) := by
  obtain ⟨p1, h1⟩ := Dict.exists_get?_of_mem_keys hk1
  induction l with
  | nil => intro _; exact ⟨(fun ⟨x, hx, _⟩ => nomatch hx), fun _ => rfl⟩
  | cons n2 l ih =>
    intro hl
    have ih := ih (fun x hx => hl x (List.mem_cons_of_mem _ hx))
    obtain ⟨hp2, hk2⟩ := hl n2 (by simp)
    obtain ⟨p2, h2⟩ := Dict.exists_get?_of_mem_keys hk2
    have hskip : ¬ Candidate phases w n1 n2 → ((∃ x ∈ n2 :: l, Candidate phases w n1 x) ↔ ∃ x ∈ l, Candidate phases w n1 x) := by
      intro hno
      constructor
      · rintro ⟨x, hx, hc⟩
        rcases List.mem_cons.1 hx with rfl | hx
        · exact absurd hc hno
        · exact ⟨x, hx, hc⟩
      · rintro ⟨x, hx, hc⟩; exact ⟨x, List.mem_cons_of_mem _ hx, hc⟩
    unfold slackInner3D
    by_cases he : n2 = n1
    · rw [if_pos he, hskip (fun hc => hc.1 he)]; exact ih
    · rw [if_neg he]
      simp only [h1, h2]
      by_cases hc : p2 ≥ p1 ∧ w.edge n2 n1 = none ∧ w.edge n1 n2 = none
      · rw [if_pos hc, addEdge3E_none hp1 hp2]
        exact ⟨fun _ => rfl, fun hno => absurd ⟨n2, by simp, he, ⟨p2, p1, h2, h1, hc.1⟩, hc.2.1, hc.2.2⟩ hno⟩
      · rw [if_neg hc, hskip ?_]
        · exact ih
        · rintro ⟨_, ⟨q2, q1, e1, e2, e3⟩, e4, e5⟩
          rw [h2] at e1; rw [h1] at e2; cases e1; cases e2
          exact hc ⟨e3, e4, e5⟩

theorem slackOuter3D_spec {shape : α → PtArg} {cp : CP α V O} {phases : Dict α Nat} {cpl : Rat} {ids : List α}
    (hids : ∀ x ∈ ids, IsPoint (shape x) ∧ x ∈ phases.keys) (w : Graph α V O) (s : Rat) (l : List α) :
    (∀ x ∈ l, IsPoint (shape x) ∧ x ∈ phases.keys) →
    ((∃ n1 ∈ l, ∃ n2 ∈ ids, Candidate phases w n1 n2) → slackOuter3D shape cp phases cpl ids l (w, s) = some (.error .assertionError)) ∧
    ((¬ ∃ n1 ∈ l, ∃ n2 ∈ ids, Candidate phases w n1 n2) → slackOuter3D shape cp phases cpl ids l (w, s) = some (.ok (w, s))) := by
  induction l with
  | nil => intro _; exact ⟨(fun ⟨x, hx, _⟩ => nomatch hx), fun _ => rfl⟩
  | cons n1 l ih =>
    intro hl
    have ih := ih (fun x hx => hl x (List.mem_cons_of_mem _ hx))
    obtain ⟨hp1, hk1⟩ := hl n1 (by simp)
    obtain ⟨a, b⟩ := slackInner3D_spec (cp := cp) (cpl := cpl) hp1 hk1 w s ids hids
    unfold slackOuter3D
    by_cases hc : ∃ n2 ∈ ids, Candidate phases w n1 n2
    · rw [a hc]
      exact ⟨fun _ => rfl, fun hno => absurd ⟨n1, by simp, hc⟩ hno⟩
    · rw [b hc]
      have : (∃ x ∈ n1 :: l, ∃ n2 ∈ ids, Candidate phases w x n2) ↔ ∃ x ∈ l, ∃ n2 ∈ ids, Candidate phases w x n2 := by
        constructor
        · rintro ⟨x, hx, h⟩
          rcases List.mem_cons.1 hx with rfl | hx
          · exact absurd h hc
          · exact ⟨x, hx, h⟩
        · rintro ⟨x, hx, h⟩; exact ⟨x, List.mem_cons_of_mem _ hx, h⟩
      rw [this]
      exact ih

theorem slackPurge3D_id {shape : α → PtArg} {cp : CP α V O} {g : Graph α V O} {cpl s : Rat} (l : List (α × α × V)) (ng : Graph α V O)
    (h : ∀ e ∈ l, (g.edge e.1 e.2.1).isSome) : slackPurge3D shape cp g cpl s l ng = some (.ok ng) := by
  induction l with
  | nil => rfl
  | cons e l ih =>
    obtain ⟨a, b, v⟩ := e
    unfold slackPurge3D
    rw [if_pos (h (a, b, v) (by simp))]
    exact ih (fun e he => h e (List.mem_cons_of_mem _ he))

/-- two different tasks with slack and no edge between them -/
def FreePair (g : Graph α V O) (d : Dict α Task) : Prop :=
  ∃ x y t u, x ≠ y ∧ d.get? x = some t ∧ d.get? y = some u ∧ 0 < t.slack ∧ 0 < u.slack ∧ g.edge x y = none ∧ g.edge y x = none

theorem minimizeSlack3D_spec {g : Graph α V O} (hg : g.Inv) {shape : α → PtArg} (hpt : ∀ x, g.has x = true → IsPoint (shape x))
    (hA : Acyclic g.Adj) (hne : ∃ x, g.has x = true)
    {srt : List α → List α} (hs : ∀ l, (srt l).Perm l) {ord : Nat → List α → List α} (ho : ∀ t l, (ord t l).Perm l)
    {bySlack byDur : List (α × Task) → List (α × Task)} (hp1 : ∀ l, (bySlack l).Perm l) (hp2 : ∀ l, (byDur l).Perm l)
    {num : O → Option Rat} (hnum : ∀ x, g.has x = true → ((g.node x).bind num).isSome) :
    ∃ cpl d w, g.criticalPath3D num srt = some (.ok (cpl, d)) ∧ g.copy3D = .ok w ∧ Copied3D g w ∧
      (FreePair g d → g.minimizeSlack3D shape num srt ord bySlack byDur = some (.error .assertionError)) ∧
      (¬ FreePair g d → g.minimizeSlack3D shape num srt ord bySlack byDur = some (.ok w)) := by
  obtain ⟨cpl, d, h1, h2⟩ := (criticalPath3D_eqs hg hs num hA).1 hnum
  obtain ⟨w, h3, h4⟩ := copy3D_spec hg
  obtain ⟨r, h5, h6⟩ := phaseLines3D_spec hg ho
  have hsrc : ∃ a, g.IsSource a := by
    obtain ⟨x, hx⟩ := hne
    obtain ⟨a, ha, ⟨m, hm⟩⟩ := source_of_not_behind hg.finite (not_behind_of_acyclic hA x)
    refine ⟨a, ?_, ha⟩
    cases m with
    | zero => cases hm; exact hx
    | succ m => obtain ⟨b, hb, _⟩ := hm.head; exact has_iff.2 (hg.finite a b hb).1
  obtain ⟨ph, rfl, hph, _⟩ := h6.2 hsrc (fun _ x _ _ => not_behind_of_acyclic hA x)
  refine ⟨cpl, d, w, h1, h3, h4, ?_⟩
  have hmem : ∀ x, x ∈ (bySlack (d.items.filter (fun p => decide (p.2.slack > 0)))).map Prod.fst ↔ ∃ t, d.get? x = some t ∧ 0 < t.slack := by
    intro x
    rw [List.mem_map]
    constructor
    · rintro ⟨p, hp, rfl⟩
      rw [(hp1 _).mem_iff, List.mem_filter] at hp
      exact ⟨p.2, (Dict.get?_eq_some_iff h2.wf _ _).2 hp.1, of_decide_eq_true hp.2⟩
    · rintro ⟨t, ht, hpos⟩
      exact ⟨(x, t), (hp1 _).mem_iff.2 (List.mem_filter.2 ⟨(Dict.get?_eq_some_iff h2.wf _ _).1 ht, decide_eq_true hpos⟩), rfl⟩
  have hmem2 : ∀ x, x ∈ (byDur (bySlack (d.items.filter (fun p => decide (p.2.slack > 0))))).map Prod.fst ↔
      x ∈ (bySlack (d.items.filter (fun p => decide (p.2.slack > 0)))).map Prod.fst := fun x => ((hp2 _).map _).mem_iff
  have hgood : ∀ x ∈ (bySlack (d.items.filter (fun p => decide (p.2.slack > 0)))).map Prod.fst, IsPoint (shape x) ∧ x ∈ ph.keys := by
    intro x hx
    obtain ⟨t, ht, _⟩ := (hmem x).1 hx
    have := (h2.keys x).1 (Dict.mem_keys_of_get? ht)
    exact ⟨hpt x this, (hph x).2 this⟩
  obtain ⟨a, b⟩ := slackOuter3D_spec (cp := Graph.criticalPath3D num srt) (cpl := cpl) hgood w (slackSum d) _
    (fun x hx => hgood x ((hmem2 x).1 hx))
  have hiff : (∃ n1 ∈ (byDur (bySlack (d.items.filter (fun p => decide (p.2.slack > 0))))).map Prod.fst,
      ∃ n2 ∈ (bySlack (d.items.filter (fun p => decide (p.2.slack > 0)))).map Prod.fst, Candidate ph w n1 n2) ↔ FreePair g d := by
    constructor
    · rintro ⟨x, hx, y, hy, hc⟩
      obtain ⟨t, ht, htp⟩ := (hmem x).1 ((hmem2 x).1 hx)
      obtain ⟨u, hu, hup⟩ := (hmem y).1 hy
      exact ⟨x, y, t, u, fun h => hc.1 h.symm, ht, hu, htp, hup, by rw [← h4.edge]; exact hc.2.2.2, by rw [← h4.edge]; exact hc.2.2.1⟩
    · rintro ⟨x, y, t, u, hxy, ht, hu, htp, hup, e1, e2⟩
      have mx : x ∈ (bySlack (d.items.filter (fun p => decide (p.2.slack > 0)))).map Prod.fst := (hmem x).2 ⟨t, ht, htp⟩
      have my : y ∈ (bySlack (d.items.filter (fun p => decide (p.2.slack > 0)))).map Prod.fst := (hmem y).2 ⟨u, hu, hup⟩
      obtain ⟨p, hp⟩ := Dict.exists_get?_of_mem_keys (hgood x mx).2
      obtain ⟨q, hq⟩ := Dict.exists_get?_of_mem_keys (hgood y my).2
      rcases Nat.le_total p q with hpq | hpq
      · exact ⟨x, (hmem2 x).2 mx, y, my, fun h => hxy h.symm, ⟨q, p, hq, hp, hpq⟩, by rw [h4.edge]; exact e2, by rw [h4.edge]; exact e1⟩
      · exact ⟨y, (hmem2 y).2 my, x, mx, hxy, ⟨p, q, hp, hq, hpq⟩, by rw [h4.edge]; exact e1, by rw [h4.edge]; exact e2⟩
  rw [hiff] at a b
  unfold minimizeSlack3D
  simp only [h1, h3, h5]
  constructor
  · intro hf; rw [a hf]
  · intro hf
    rw [b hf]
    exact slackPurge3D_id _ _ (by
      rintro ⟨x, y, v⟩ he
      rw [h4.built.inv.mem_edgeList, h4.edge] at he
      rw [he]; rfl)

/-! ### hashing a flow graph -/

/-- the sources without receivers are hashed one after the other; the first one with a receiver ends the run -/
theorem fh3D_run {shape : α → PtArg} {H : List B → List B} {str : α → List B} {g : Graph α V O}
    (hpt : ∀ x, g.has x = true → IsPoint (shape x)) (hg : g.Inv) (L : List α) :
    ∀ hg' : HashG α B, (∀ x ∈ L, g.IsSource x) → L.Nodup → (∀ x ∈ L, hg'.has x = false) →
    ((∃ x ∈ L, ∃ y, g.Adj x y) → pyWhileD (fhStep3D shape H str g) ⟨L, hg', []⟩ = some (.error .assertionError)) ∧
    ((¬ ∃ x ∈ L, ∃ y, g.Adj x y) → pyWhileD (fhStep3D shape H str g) ⟨L, hg', []⟩ =
      pyWhileD (fhStep3D shape H str g) ⟨[], L.foldl (fun h x => h.addNode x (some (x, some (H (str x))))) hg', []⟩) := by
  induction L with
  | nil => intro hg' _ _ _; exact ⟨(fun ⟨x, hx, _⟩ => nomatch hx), fun _ => rfl⟩
  | cons x L ih =>
    intro hg' hsrc hnd hno
    rw [List.nodup_cons] at hnd
    have hx := hsrc x (by simp)
    have hpx := hpt x hx.1
    have hto : g.nodesTo x = [] := by
      cases h : g.nodesTo x with
      | nil => rfl
      | cons a l => exact absurd (hg.mem_nodesTo.1 (h ▸ List.mem_cons_self)) (hx.2 a)
    have hst : fhStore3D shape hg' x (H (str x)) = .ok (hg'.addNode x (some (x, some (H (str x))))) := by
      unfold fhStore3D
      rw [hno x (by simp)]
      exact addNode3E_ok hpx _
    have hstep : fhStep3D shape H str g ⟨x :: L, hg', []⟩ =
        match forE (g.nodesFrom x) ⟨L, hg'.addNode x (some (x, some (H (str x)))), []⟩ (fhRecv3D shape x) with
        | .error e => some (.inr (.error e))
        | .ok s => some (.inl s) := by
      unfold fhStep3D
      simp only [hto, fhText, hst]
    cases hf : g.nodesFrom x with
    | nil =>
      rw [hf] at hstep
      have hnox : ¬ ∃ y, g.Adj x y := by
        rintro ⟨y, hy⟩
        have := mem_nodesFrom.2 hy
        rw [hf] at this; cases this
      have hiff : (∃ y ∈ x :: L, ∃ z, g.Adj y z) ↔ ∃ y ∈ L, ∃ z, g.Adj y z := by
        constructor
        · rintro ⟨y, hy, h⟩
          rcases List.mem_cons.1 hy with rfl | hy
          · exact absurd h hnox
          · exact ⟨y, hy, h⟩
        · rintro ⟨y, hy, h⟩; exact ⟨y, List.mem_cons_of_mem _ hy, h⟩
      rw [pyWhileD_eq, hstep, hiff]
      exact ih _ (fun y hy => hsrc y (List.mem_cons_of_mem _ hy)) hnd.2 (fun y hy => by
        cases h : (hg'.addNode x (some (x, some (H (str x))))).has y with
        | false => rfl
        | true =>
          rcases (has_addNode' _ _ _ _).1 h with h | h
          · exact absurd (h ▸ hy) hnd.1
          · rw [hno y (List.mem_cons_of_mem _ hy)] at h; cases h)
    | cons r l =>
      have hadj : g.Adj x r := mem_nodesFrom.1 (hf ▸ List.mem_cons_self)
      have hpr := hpt r (has_iff.2 (hg.finite x r hadj).2)
      rw [hf] at hstep
      have hrecv : ∀ s : FhSt α B, s.visited = [] → fhRecv3D shape x s r = .error .assertionError := by
        intro s hv
        unfold fhRecv3D
        rw [hv, if_neg (by simp)]
        by_cases hr : s.hg.has r = true
        · simp only [hr, if_true, addEdge3E_none hpx hpr]
        · simp only [hr, if_false, addNode3E_ok hpr, addEdge3E_none hpx hpr]
          rfl
      refine ⟨fun _ => ?_, fun hn => absurd ⟨x, by simp, r, hadj⟩ hn⟩
      rw [pyWhileD_eq, hstep]
      have := hrecv ⟨L, hg'.addNode x (some (x, some (H (str x)))), []⟩ rfl
      simp only [forE, this]

theorem foldAdd_node {f : α → Option (α × Option (List B))} (L : List α) : ∀ (h : HashG α B) (x : α),
    (L.foldl (fun h x => h.addNode x (f x)) h).node x = if x ∈ L then f x else h.node x := by
  induction L with
  | nil => intro h x; simp
  | cons y L ih =>
    intro h x
    rw [List.foldl_cons, ih, node_addNode']
    by_cases hx : x ∈ L
    · simp [hx]
    · by_cases he : y = x
      · subst he; simp
      · simp [hx, he, Ne.symm he]

theorem foldAdd_has {f : α → Option (α × Option (List B))} (L : List α) : ∀ (h : HashG α B) (x : α),
    (L.foldl (fun h x => h.addNode x (f x)) h).has x = true ↔ x ∈ L ∨ h.has x = true := by
  induction L with
  | nil => intro h x; simp
  | cons y L ih =>
    intro h x
    rw [List.foldl_cons, ih, has_addNode', List.mem_cons]
    grind

theorem foldAdd_edge {f : α → Option (α × Option (List B))} (L : List α) : ∀ (h : HashG α B) (a b : α),
    (L.foldl (fun h x => h.addNode x (f x)) h).edge a b = h.edge a b := by
  induction L with
  | nil => intro h a b; rfl
  | cons y L ih =>
    intro h a b
    rw [List.foldl_cons, ih]
    exact Graph.edge_congr (addNodes_edges h [(y, f y)]) a b

theorem forE_guard {σ β : Type} (P : β → Prop) (er : Err) (s : σ) (f : σ → β → Py σ)
    (h1 : ∀ x, P x → f s x = .ok s) (h2 : ∀ x, ¬ P x → f s x = .error er) (l : List β) :
    ((∀ x ∈ l, P x) → forE l s f = .ok s) ∧ ((∃ x ∈ l, ¬ P x) → forE l s f = .error er) := by
  induction l with
  | nil => exact ⟨fun _ => rfl, (fun ⟨x, hx, _⟩ => nomatch hx)⟩
  | cons x l ih =>
    constructor
    · intro h
      simp only [forE, h1 x (h x (by simp))]
      exact ih.1 (fun y hy => h y (List.mem_cons_of_mem _ hy))
    · rintro ⟨y, hy, hny⟩
      by_cases hx : P x
      · simp only [forE, h1 x hx]
        rcases List.mem_cons.1 hy with rfl | hy
        · exact absurd hx hny
        · exact ih.2 ⟨y, hy, hny⟩
      · simp only [forE, h2 x hx]

/-- `flow_graph_hash` of a `Graph3D`, completely -/
theorem flowGraphHash3D_spec {shape : α → PtArg} {H : List B → List B} {str : α → List B} {g : Graph α V O}
    (hg : g.Inv) (hph : g.NoPhantom) (hpt : ∀ x, g.has x = true → IsPoint (shape x)) :
    ((∃ x y, g.IsSource x ∧ g.Adj x y) → g.flowGraphHash3D shape H str = some (.error .assertionError)) ∧
    ((¬ ∃ x y, g.IsSource x ∧ g.Adj x y) → (∃ x a, (∀ y, ¬ g.Adj x y) ∧ g.Adj a x) →
      g.flowGraphHash3D shape H str = some (.error .typeError)) ∧
    ((¬ ∃ x y, g.IsSource x ∧ g.Adj x y) → (¬ ∃ x a, (∀ y, ¬ g.Adj x y) ∧ g.Adj a x) →
      ∃ h, g.flowGraphHash3D shape H str = some (.ok h) ∧ (∀ x, h.has x = true ↔ g.IsSource x) ∧ (∀ a b, h.edge a b = none) ∧
        ∀ x, g.IsSource x → h.node x = some (x, some (H (str x)))) := by
  have hm : ∀ x, x ∈ g.nodesInDeg 0 ↔ g.IsSource x := fun x => by rw [hg.mem_nodesInDeg hph]; rfl
  obtain ⟨a, b⟩ := fh3D_run (shape := shape) (H := H) (str := str) hpt hg (g.nodesInDeg 0) Graph.empty (fun x hx => (hm x).1 hx)
    (hg.nodup_nodesInDeg 0) (fun x _ => rfl)
  have hiff : (∃ x ∈ g.nodesInDeg 0, ∃ y, g.Adj x y) ↔ ∃ x y, g.IsSource x ∧ g.Adj x y := by
    constructor
    · rintro ⟨x, hx, y, hy⟩; exact ⟨x, y, (hm x).1 hx, hy⟩
    · rintro ⟨x, y, hx, hy⟩; exact ⟨x, (hm x).2 hx, y, hy⟩
  rw [hiff] at a b
  refine ⟨a, ?_⟩
  suffices hsuff : (¬ ∃ x y, g.IsSource x ∧ g.Adj x y) → ((∃ x a, (∀ y, ¬ g.Adj x y) ∧ g.Adj a x) →
      g.flowGraphHash3D shape H str = some (.error .typeError)) ∧
      ((¬ ∃ x a, (∀ y, ¬ g.Adj x y) ∧ g.Adj a x) →
      ∃ h, g.flowGraphHash3D shape H str = some (.ok h) ∧ (∀ x, h.has x = true ↔ g.IsSource x) ∧ (∀ a b, h.edge a b = none) ∧
        ∀ x, g.IsSource x → h.node x = some (x, some (H (str x)))) from ⟨fun h => (hsuff h).1, fun h => (hsuff h).2⟩
  intro hno
  have hrun := b hno
  have hsink : ∀ x, x ∈ g.nodesOutDeg 0 ↔ g.has x = true ∧ ∀ y, ¬ g.Adj x y := by
    intro x
    rw [mem_nodesOutDeg_zero hg hph, has_iff]
    constructor
    · rintro ⟨h1, h2⟩; exact ⟨h1, fun y hy => by unfold Graph.Adj at hy; rw [h2] at hy; cases hy⟩
    · rintro ⟨h1, h2⟩
      refine ⟨h1, fun y => ?_⟩
      cases h : g.edge x y with
      | none => rfl
      | some v => exact absurd (by unfold Graph.Adj; rw [h]; rfl) (h2 y)
  have hnode := foldAdd_node (B := B) (f := fun x => some (x, some (H (str x)))) (g.nodesInDeg 0) Graph.empty
  have hnodeE : ∀ x, (Graph.empty : HashG α B).node x = none := fun x => rfl
  have hgd := forE_guard (fun x => g.IsSource x) Err.typeError
    ((g.nodesInDeg 0).foldl (fun h x => h.addNode x (some (x, some (H (str x))))) (Graph.empty : HashG α B))
    (fun hg sink => match hg.node sink with
      | none => .error .typeError
      | some (_, none) => .error .assertionError
      | some (_, some _) => .ok hg)
    (fun x hx => by rw [hnode, if_pos ((hm x).2 hx)])
    (fun x hx => by rw [hnode, if_neg (fun h => hx ((hm x).1 h)), hnodeE]) (g.nodesOutDeg 0)
  have hend : g.flowGraphHash3D shape H str = some (forE (g.nodesOutDeg 0)
      ((g.nodesInDeg 0).foldl (fun h x => h.addNode x (some (x, some (H (str x))))) (Graph.empty : HashG α B))
      (fun hg sink => match hg.node sink with
      | none => .error .typeError
      | some (_, none) => .error .assertionError
      | some (_, some _) => .ok hg)) := by
    unfold flowGraphHash3D
    rw [hrun, pyWhileD_eq]
    rfl
  constructor
  · rintro ⟨x, c, h1, h2⟩
    rw [hend, hgd.2 ⟨x, (hsink x).2 ⟨has_iff.2 (hg.finite c x h2).2, h1⟩, fun h => h.2 c h2⟩]
  · intro hns
    refine ⟨_, hend.trans (congrArg some (hgd.1 ?_)), fun x => ?_, fun c d => ?_, fun x hx => ?_⟩
    · intro x hx
      obtain ⟨h1, h2⟩ := (hsink x).1 hx
      exact ⟨h1, fun c hc => hns ⟨x, c, h2, hc⟩⟩
    · rw [foldAdd_has, hm]
      constructor
      · rintro (h | h)
        · exact h
        · cases h
      · exact .inl
    · rw [foldAdd_edge]; rfl
    · rw [hnode, if_pos ((hm x).2 hx)]

end GT

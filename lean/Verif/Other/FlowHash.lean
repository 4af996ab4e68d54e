import Verif.Other.Merkle
import Verif.Search.Dfs
import Verif.Search.Bridge
import Verif.Dag.Cpm2
/-
Model of `flow_graph_hash` (graph/hash_methods.py:19-74).
-/
namespace GT
variable {α V O B : Type} [DecidableEq α]
open Graph

/-- the graph of hashes: the object of a node is the dict `{original_hash: id, new_hash: digest or None}` -/
abbrev HashG (α B : Type) := Graph α Unit (α × Option (List B))

/-- the locals of the loop -/
structure FhSt (α B : Type) where
  sources : List α
  hg : HashG α B
  visited : List α

/-- the loop over the suppliers (hash_methods.py:41-48); the accumulator is the text fed to `hash_func` so far -/
def fhText (g : Graph α V O) (hg : HashG α B) (source : α) : List α → List B → Option (Py (List B))
  | [], acc => some (.ok acc)
  | s :: l, acc => match g.depthFirstSearch source s with
    | none => none
    | some (.error e) => some (.error e)
    | some (.ok (some _)) => fhText g hg source l acc          -- it's a cycle
    | some (.ok none) => match hg.node s with
      | none => some (.error .typeError)                        -- None[new_hash]
      | some (_, none) => some (.error .typeError)              -- bytes(None, 'utf-8')
      | some (_, some d) => fhText g hg source l (acc ++ d)

/-- one receiver (hash_methods.py:57-68) -/
def fhRecv (source : α) (s : FhSt α B) (r : α) : FhSt α B :=
  if r ∈ s.visited then s
  else
    let hg := if s.hg.has r then s.hg else s.hg.addNode r (some (r, none))
    ⟨if r ∈ s.sources then s.sources else s.sources ++ [r], hg.addEdge source r (), s.visited ++ [r]⟩

/-- storing the digest (hash_methods.py:50-55).  Simplification: the update of the stored dict is a replacement. -/
def fhStore (hg : HashG α B) (source : α) (d : List B) : Py (HashG α B) :=
  if !hg.has source then .ok (hg.addNode source (some (source, some d)))
  else match hg.node source with
    | none => .error .typeError
    | some (o, _) => .ok (hg.addNode source (some (o, some d)))

/-- one iteration of `while sources` (hash_methods.py:35-68), and the check of the sinks (68-70) -/
def fhStep (H : List B → List B) (str : α → List B) (g : Graph α V O) (s : FhSt α B) : Option (FhSt α B ⊕ Py (HashG α B)) :=
  match s.sources with
  | [] => some (.inr (forE (g.nodesOutDeg 0) s.hg (fun hg sink => match hg.node sink with
      | none => .error .typeError
      | some (_, none) => .error .assertionError
      | some (_, some _) => .ok hg)))
  | source :: rest => match fhText g s.hg source (g.nodesTo source) (str source) with
    | none => none
    | some (.error e) => some (.inr (.error e))
    | some (.ok t) => match fhStore s.hg source (H t) with
      | .error e => some (.inr (.error e))
      | .ok hg => some (.inl ((g.nodesFrom source).foldl (fhRecv source) ⟨rest, hg, s.visited⟩))

/-- `flow_graph_hash(graph)` (hash_methods.py:19-74): `H` is `sha3_256(.).hexdigest()`, `str` the bytes of `str(node)` -/
def Graph.flowGraphHash (H : List B → List B) (str : α → List B) (g : Graph α V O) : Option (Py (HashG α B)) :=
  pyWhileD (fhStep H str g) ⟨g.nodesInDeg 0, Graph.empty, []⟩

/-! ### proofs -/

/-- the digest stored for a node -/
def digestOf (hg : HashG α B) (x : α) : List B := ((hg.node x).bind (fun p => p.2)).getD []

theorem node_addEdge' {V' O' : Type} (g : Graph α V' O') (a b x : α) (v : V') : (g.addEdge a b v).node x = g.node x := by
  unfold node
  rw [addEdge_nodes_get?]
  split
  · unfold node; simp
  · rfl

theorem node_addNode' {V' O' : Type} (g : Graph α V' O') (n x : α) (o : Option O') : (g.addNode n o).node x = if n = x then o else g.node x := by
  unfold node
  rw [addNode_nodes, Dict.get?_set]
  split <;> rfl

theorem has_addNode' {V' O' : Type} (g : Graph α V' O') (n x : α) (o : Option O') : (g.addNode n o).has x = true ↔ n = x ∨ g.has x = true := by
  rw [has_iff, has_iff]; unfold nodeList; rw [addNode_nodes, Dict.mem_keys_set]
  constructor
  · rintro (h | h)
    · exact .inl h.symm
    · exact .inr h
  · rintro (h | h)
    · exact .inl h.symm
    · exact .inr h

theorem has_addEdge' {V' O' : Type} (g : Graph α V' O') (a b x : α) (v : V') : (g.addEdge a b v).has x = true ↔ x = a ∨ x = b ∨ g.has x = true := by
  rw [has_iff, has_iff]; unfold nodeList; rw [addEdge_nodes, mem_keys_withEnds]

/-- what the loop over the receivers does -/
structure RecvPost (source : α) (s : FhSt α B) (l : List α) (s' : FhSt α B) : Prop where
  visited : ∀ x, x ∈ s'.visited ↔ x ∈ s.visited ∨ x ∈ l
  sources : ∃ add, s'.sources = s.sources ++ add ∧ (∀ x, x ∈ add → x ∈ l ∧ x ∉ s.visited) ∧ add.Nodup ∧ (∀ x ∈ add, x ∉ s.sources) ∧
    (∀ x ∈ l, x ∉ s.visited → x ∈ s.sources ++ add)
  node : ∀ x, s'.hg.node x = if x ∈ l ∧ x ∉ s.visited ∧ s.hg.has x = false then some (x, none) else s.hg.node x
  has : ∀ x, s'.hg.has x = true ↔ s.hg.has x = true ∨ (x ∈ l ∧ x ∉ s.visited)
  vnd : s.visited.Nodup → s'.visited.Nodup

theorem fhRecv_fold (source : α) (l : List α) : ∀ s : FhSt α B, s.hg.has source = true → l.Nodup → RecvPost source s l (l.foldl (fhRecv source) s) := by
  induction l with
  | nil =>
    intro s hs _
    exact ⟨by simp, ⟨[], by simp⟩, by simp, by simp, id⟩
  | cons r l ih =>
    intro s hs hnd
    rw [List.nodup_cons] at hnd
    rw [List.foldl_cons]
    unfold fhRecv
    by_cases hr : r ∈ s.visited
    · rw [if_pos hr]
      have h := ih s hs hnd.2
      obtain ⟨add, a1, a2, a3, a4, a5⟩ := h.sources
      refine ⟨fun x => ?_, ⟨add, a1, fun x hx => ⟨List.mem_cons_of_mem _ (a2 x hx).1, (a2 x hx).2⟩, a3, a4, fun x hx hv => ?_⟩, fun x => ?_, fun x => ?_, h.vnd⟩
      · have := h.visited x
        unfold fhRecv at this
        rw [this, List.mem_cons]
        constructor
        · rintro (h | h)
          · exact .inl h
          · exact .inr (.inr h)
        · rintro (h | rfl | h)
          · exact .inl h
          · exact .inl hr
          · exact .inr h
      · rcases List.mem_cons.1 hx with rfl | hx
        · exact absurd hr hv
        · exact a5 x hx hv
      · have := h.node x
        unfold fhRecv at this
        rw [this]
        by_cases hx : x = r
        · subst hx; rw [if_neg (fun h => h.2.1 hr), if_neg (fun h => h.2.1 hr)]
        · simp only [List.mem_cons, hx, false_or]
      · have := h.has x
        unfold fhRecv at this
        rw [this]
        by_cases hx : x = r
        · subst hx
          constructor
          · rintro (h | h)
            · exact .inl h
            · exact absurd hr h.2
          · rintro (h | h)
            · exact .inl h
            · exact absurd hr h.2
        · simp only [List.mem_cons, hx, false_or]
    · rw [if_neg hr]
      dsimp only
      generalize hgen : (if s.hg.has r = true then s.hg else s.hg.addNode r (some (r, none))) = hg1
      have hn1 : ∀ x, (hg1.addEdge source r ()).node x = if x = r ∧ s.hg.has r = false then some (r, none) else s.hg.node x := by
        intro x
        rw [node_addEdge', ← hgen]
        by_cases hh : s.hg.has r = true
        · rw [if_pos hh, if_neg (by rw [hh]; simp)]
        · rw [if_neg hh, node_addNode']
          have hh : s.hg.has r = false := by simpa using hh
          by_cases hx : r = x
          · rw [if_pos hx, if_pos ⟨hx.symm, hh⟩]
          · rw [if_neg hx, if_neg (fun h => hx h.1.symm)]
      have hh1 : ∀ x, (hg1.addEdge source r ()).has x = true ↔ s.hg.has x = true ∨ x = r := by
        intro x
        rw [has_addEdge', ← hgen]
        by_cases hh : s.hg.has r = true
        · rw [if_pos hh]
          constructor
          · rintro (rfl | rfl | h)
            · exact .inl hs
            · exact .inr rfl
            · exact .inl h
          · rintro (h | rfl)
            · exact .inr (.inr h)
            · exact .inr (.inl rfl)
        · rw [if_neg hh, has_addNode']
          constructor
          · rintro (rfl | rfl | rfl | h)
            · exact .inl hs
            · exact .inr rfl
            · exact .inr rfl
            · exact .inl h
          · rintro (h | rfl)
            · exact .inr (.inr (.inr h))
            · exact .inr (.inl rfl)
      generalize hs1 : (⟨if r ∈ s.sources then s.sources else s.sources ++ [r], hg1.addEdge source r (), s.visited ++ [r]⟩ : FhSt α B) = s1
      have h := ih s1 (by rw [← hs1]; exact (hh1 source).2 (.inl hs)) hnd.2
      have e1 : s1.visited = s.visited ++ [r] := by rw [← hs1]
      have e2 : s1.sources = if r ∈ s.sources then s.sources else s.sources ++ [r] := by rw [← hs1]
      have e3 : s1.hg = hg1.addEdge source r () := by rw [← hs1]
      have hv1 : ∀ x, x ∈ s1.visited ↔ x ∈ s.visited ∨ x = r := by intro x; rw [e1, List.mem_append, List.mem_singleton]
      show RecvPost source s (r :: l) (List.foldl (fhRecv source) s1 l)
      refine ⟨fun x => ?_, ?_, fun x => ?_, fun x => ?_, fun hv => ?_⟩
      · rw [h.visited, hv1, List.mem_cons, or_assoc]
      · obtain ⟨add, a1, a2, a3, a4, a5⟩ := h.sources
        rw [e2] at a1 a4 a5
        by_cases hrs : r ∈ s.sources
        · rw [if_pos hrs] at a1 a4 a5
          refine ⟨add, a1, fun x hx => ⟨List.mem_cons_of_mem _ (a2 x hx).1, fun hxv => (a2 x hx).2 ((hv1 x).2 (.inl hxv))⟩, a3, a4, fun x hx hv => ?_⟩
          by_cases hxr : x = r
          · subst hxr; simp [hrs]
          · rcases List.mem_cons.1 hx with hx | hx
            · exact absurd hx hxr
            · exact a5 x hx (fun h => Or.elim ((hv1 x).1 h) hv hxr)
        · rw [if_neg hrs] at a1 a4 a5
          refine ⟨r :: add, by rw [a1]; simp, fun x hx => ?_, ?_, ?_, fun x hx hv => ?_⟩
          · rcases List.mem_cons.1 hx with rfl | hx
            · exact ⟨by simp, hr⟩
            · exact ⟨List.mem_cons_of_mem _ (a2 x hx).1, fun hxv => (a2 x hx).2 ((hv1 x).2 (.inl hxv))⟩
          · rw [List.nodup_cons]
            exact ⟨fun hm => a4 r hm (by simp), a3⟩
          · intro x hx
            rcases List.mem_cons.1 hx with rfl | hx
            · exact hrs
            · exact fun hm => a4 x hx (by simp [hm])
          · by_cases hxr : x = r
            · subst hxr; simp
            · rcases List.mem_cons.1 hx with hx | hx
              · exact absurd hx hxr
              · have := a5 x hx (fun h => Or.elim ((hv1 x).1 h) hv hxr)
                simpa using this
      · rw [h.node]
        have hhr : s1.hg.has x = false ↔ s.hg.has x = false ∧ x ≠ r := by
          rw [e3, ← Bool.not_eq_true, hh1, not_or, Bool.not_eq_true]
        simp only [hhr, hv1]
        rw [e3, hn1]
        by_cases hxr : x = r
        · subst hxr
          rw [if_neg (fun h => h.2.2.2 rfl)]
          by_cases hb : s.hg.has x = false
          · rw [if_pos ⟨rfl, hb⟩, if_pos ⟨by simp, hr, hb⟩]
          · rw [if_neg (fun h => hb h.2), if_neg (fun h => hb h.2.2)]
        · simp only [hxr, or_false, false_and, if_false, List.mem_cons, false_or, ne_eq, not_false_eq_true, and_true]
      · rw [h.has, e3, hh1, hv1]
        by_cases hxr : x = r
        · subst hxr; simp [hr]
        · simp only [hxr, or_false, List.mem_cons, false_or]
      · refine h.vnd ?_
        rw [e1, List.nodup_append]
        exact ⟨hv, by simp, fun a ha b hb he => by simp at hb; subst hb; subst he; exact hr ha⟩


/-- the node has its digest -/
def Hashed (hg : HashG α B) (x : α) : Prop := ∃ d, hg.node x = some (x, some d)

/-- `cyc x y` says of a supplier `y` of `x` whether it is on a cycle with `x` -/
def IsCyc (g : Graph α V O) (cyc : α → α → Bool) : Prop := ∀ x y, g.Adj y x → (cyc x y = true ↔ Reach g.Adj x y)

/-- the suppliers of `x` that are not on a cycle with `x` -/
def upstream (g : Graph α V O) (cyc : α → α → Bool) (x : α) : List α := (g.nodesTo x).filter (fun y => !cyc x y)

theorem isCyc_of_acyclic {g : Graph α V O} (hA : Acyclic g.Adj) : IsCyc g (fun _ _ => false) := by
  intro x y hyx
  constructor
  · intro h; cases h
  · rintro ⟨k, hk⟩; exact absurd ⟨k, .succ hk hyx⟩ (hA x)

theorem upstream_acyclic (g : Graph α V O) (x : α) : upstream g (fun _ _ => false) x = g.nodesTo x := by
  unfold upstream; rw [List.filter_eq_self]; intro _ _; rfl

theorem fhText_spec {g : Graph α V O} (hg : g.Inv) {cyc : α → α → Bool} (hA : IsCyc g cyc) (h : HashG α B) {source : α} (hs : g.has source = true)
    (hobj : ∀ x, h.has x = true → ∃ d, h.node x = some (x, d)) (l : List α) :
    ∀ acc : List B, (∀ x ∈ l, g.Adj x source) →
      ((∀ x ∈ l, cyc source x = false → Hashed h x) ∧
        fhText g h source l acc = some (.ok (acc ++ (l.filter (fun y => !cyc source y)).flatMap (digestOf h)))) ∨
      (fhText g h source l acc = some (.error .typeError) ∧ ∃ x ∈ l, cyc source x = false ∧ ¬ Hashed h x) := by
  induction l with
  | nil => intro acc _; exact .inl ⟨(fun x hx => nomatch hx), by simp [fhText]⟩
  | cons y l ih =>
    intro acc hl
    have hya := hl y (by simp)
    have hy : g.has y = true := has_iff.2 (hg.finite y source hya).1
    have hdfs : (∃ p, g.depthFirstSearch source y = some (.ok (some p)) ∧ cyc source y = true) ∨
        (g.depthFirstSearch source y = some (.ok none) ∧ cyc source y = false) := by
      unfold depthFirstSearch
      simp only [hs, hy, Bool.not_true, Bool.false_eq_true, if_false]
      obtain ⟨r, hr, hr2⟩ := dfs_total hg.finiteFrom (has_iff.1 hs) y
      rw [rel_nodesFrom] at hr2
      rw [hr]
      cases r with
      | none =>
        refine .inr ⟨rfl, ?_⟩
        cases hc : cyc source y with
        | false => rfl
        | true => exact absurd ((hA source y hya).1 hc) hr2
      | some p => exact .inl ⟨p, rfl, (hA source y hya).2 (reach_iff_walk.2 ⟨p, hr2.1⟩)⟩
    unfold fhText
    rcases hdfs with ⟨p, hdfs, hcy⟩ | ⟨hdfs, hcy⟩
    · rw [hdfs]
      dsimp only
      rw [List.filter_cons_of_neg (by simp [hcy])]
      rcases ih acc (fun x hx => hl x (List.mem_cons_of_mem _ hx)) with ⟨h1, h2⟩ | ⟨h1, x, hx, h2⟩
      · refine .inl ⟨fun x hx hxc => ?_, h2⟩
        rcases List.mem_cons.1 hx with rfl | hx
        · rw [hcy] at hxc; cases hxc
        · exact h1 x hx hxc
      · exact .inr ⟨h1, x, List.mem_cons_of_mem _ hx, h2⟩
    rw [hdfs]
    dsimp only
    rw [List.filter_cons_of_pos (by simp [hcy])]
    cases hn : h.node y with
    | none => exact .inr ⟨rfl, y, by simp, hcy, by rintro ⟨d, hd⟩; rw [hn] at hd; cases hd⟩
    | some o =>
      obtain ⟨o1, o2⟩ := o
      cases o2 with
      | none => exact .inr ⟨rfl, y, by simp, hcy, by rintro ⟨d, hd⟩; rw [hn] at hd; cases hd⟩
      | some d =>
        dsimp only
        have hyh : h.has y = true := by
          rw [has_iff]
          unfold node at hn
          cases hg' : h.nodes.get? y with
          | none => rw [hg'] at hn; cases hn
          | some o => exact Dict.mem_keys_of_get? hg'
        obtain ⟨d', hd'⟩ := hobj y hyh
        rw [hn] at hd'
        cases hd'
        have hdg : digestOf h y = d := by unfold digestOf; rw [hn]; rfl
        rcases ih (acc ++ d) (fun x hx => hl x (List.mem_cons_of_mem _ hx)) with ⟨h1, h2⟩ | ⟨h1, x, hx, h2⟩
        · refine .inl ⟨fun x hx hxc => ?_, ?_⟩
          · rcases List.mem_cons.1 hx with rfl | hx
            · exact ⟨d, hn⟩
            · exact h1 x hx hxc
          · rw [h2, List.flatMap_cons, hdg, List.append_assoc]
        · exact .inr ⟨h1, x, List.mem_cons_of_mem _ hx, h2⟩

/-- `x` can be reached from a node without suppliers -/
def Supplied (g : Graph α V O) (x : α) : Prop := ∃ r, g.has r = true ∧ (∀ y, ¬ g.Adj y r) ∧ Reach g.Adj r x

structure FhInv (H : List B → List B) (str : α → List B) (cyc : α → α → Bool) (g : Graph α V O) (s : FhSt α B) : Prop where
  nd : s.sources.Nodup
  new : ∀ x ∈ s.sources, ¬ Hashed s.hg x
  enq : ∀ x, (x ∈ s.sources ∨ Hashed s.hg x) ↔ (g.has x = true ∧ ((∀ y, ¬ g.Adj y x) ∨ x ∈ s.visited))
  vis : ∀ x ∈ s.visited, ∃ y, g.Adj y x
  succ : ∀ x y, Hashed s.hg x → g.Adj x y → y ∈ s.visited
  obj : ∀ x, s.hg.has x = true → ∃ d, s.hg.node x = some (x, d)
  hash : ∀ x d, s.hg.node x = some (x, some d) → (∀ y, g.Adj y x → cyc x y = false → Hashed s.hg y) ∧
    d = H (str x ++ (upstream g cyc x).flatMap (digestOf s.hg))
  inh : ∀ x, s.hg.has x = true → Hashed s.hg x ∨ x ∈ s.visited
  sup : ∀ x, x ∈ s.sources ∨ x ∈ s.visited ∨ Hashed s.hg x → Supplied g x

/-- the work left -/
def fhMeasure (g : Graph α V O) (s : FhSt α B) : Nat := 2 * (g.nodeList.filter (fun x => decide (x ∉ s.visited))).length + s.sources.length

theorem filter_visited_length (U vis vis' add : List α) (hnd : add.Nodup) (hU : ∀ x ∈ add, x ∈ U) (h1 : ∀ x ∈ vis, x ∈ vis')
    (h2 : ∀ x ∈ add, x ∈ vis' ∧ x ∉ vis) :
    (U.filter (fun x => decide (x ∉ vis'))).length + add.length ≤ (U.filter (fun x => decide (x ∉ vis))).length := by
  induction add generalizing vis with
  | nil =>
    simp only [List.length_nil, Nat.add_zero]
    induction U with
    | nil => exact Nat.le_refl _
    | cons u U ih =>
      have ih := ih (by simp)
      rw [List.filter_cons, List.filter_cons]
      by_cases h : u ∈ vis
      · simp only [h1 u h, h, not_true_eq_false, decide_false, Bool.false_eq_true, if_false]; exact ih
      · simp only [h, not_false_eq_true, decide_true, if_true]
        split
        · simpa using ih
        · simp only [List.length_cons]; omega
  | cons a add ih =>
    rw [List.nodup_cons] at hnd
    have := ih (a :: vis) hnd.2 (fun x hx => hU x (List.mem_cons_of_mem _ hx))
      (fun x hx => by rcases List.mem_cons.1 hx with rfl | hx; exact (h2 x (by simp)).1; exact h1 x hx)
      (fun x hx => ⟨(h2 x (List.mem_cons_of_mem _ hx)).1, fun hm => by
        rcases List.mem_cons.1 hm with rfl | hm
        · exact hnd.1 hx
        · exact (h2 x (List.mem_cons_of_mem _ hx)).2 hm⟩)
    have hstrict : (U.filter (fun x => decide (x ∉ a :: vis))).length < (U.filter (fun x => decide (x ∉ vis))).length := by
      have ha := hU a (by simp)
      have hav := (h2 a (by simp)).2
      clear this ih hU h1 h2 hnd
      induction U with
      | nil => cases ha
      | cons u U ih =>
        have hle : ∀ U : List α, (U.filter (fun x => decide (x ∉ a :: vis))).length ≤ (U.filter (fun x => decide (x ∉ vis))).length := by
          intro U
          induction U with
          | nil => exact Nat.le_refl _
          | cons u U ih =>
            rw [List.filter_cons, List.filter_cons]
            by_cases h : u ∈ vis
            · simp only [List.mem_cons, h, or_true, not_true_eq_false, decide_false, Bool.false_eq_true, if_false]; simpa using ih
            · by_cases hu : u = a
              · subst hu; simp only [List.mem_cons, true_or, not_true_eq_false, decide_false, Bool.false_eq_true, if_false, h, not_false_eq_true, decide_true, if_true, List.length_cons]
                have : _ ≤ _ := ih
                simp only [List.mem_cons] at this
                omega
              · simp only [List.mem_cons, h, hu, or_self, not_false_eq_true, decide_true, if_true, List.length_cons]
                have : _ ≤ _ := ih
                simp only [List.mem_cons] at this
                omega
        rw [List.filter_cons, List.filter_cons]
        rcases List.mem_cons.1 ha with rfl | ha
        · have := hle U
          rw [if_neg (by simp), if_pos (by simpa using hav)]
          simp only [List.length_cons]; omega
        · have := ih ha
          by_cases h : u ∈ vis
          · rw [if_neg (by simp [h]), if_neg (by simp [h])]; exact this
          · by_cases hu : u = a
            · rw [if_neg (by simp [hu]), if_pos (by simpa using h)]; simp only [List.length_cons]; omega
            · rw [if_pos (by simp [h, hu]), if_pos (by simpa using h)]; simp only [List.length_cons]; omega
    simp only [List.length_cons]
    omega

/-- what `flow_graph_hash` returns -/
def FhPost (H : List B → List B) (str : α → List B) (cyc : α → α → Bool) (g : Graph α V O) (r : Py (HashG α B)) : Prop :=
  (∃ hg, r = .ok hg ∧ (∀ x, hg.has x = true ↔ Supplied g x) ∧
    (∀ x, Supplied g x → ∃ d, hg.node x = some (x, some d) ∧ d = H (str x ++ (upstream g cyc x).flatMap (digestOf hg))) ∧
    ∀ x, g.has x = true → (∀ y, ¬ g.Adj x y) → Supplied g x) ∨
  r = .error .typeError

/-- one step that finds all suppliers hashed -/
theorem FhInv.step_ok {H : List B → List B} {str : α → List B} {cyc : α → α → Bool} {g : Graph α V O} (hg : g.Inv) {s : FhSt α B} (h : FhInv H str cyc g s)
    {source : α} {rest : List α} (hs : s.sources = source :: rest) (hall : ∀ y, g.Adj y source → cyc source y = false → Hashed s.hg y)
    (ht : fhText g s.hg source (g.nodesTo source) (str source) = some (.ok (str source ++ (upstream g cyc source).flatMap (digestOf s.hg)))) :
    ∃ s', fhStep H str g s = some (.inl s') ∧ FhInv H str cyc g s' ∧ fhMeasure g s' < fhMeasure g s ∧
      (∀ x, Hashed s'.hg x ↔ Hashed s.hg x ∨ x = source) ∧
      ∃ add, s'.sources = rest ++ add ∧ ∀ x ∈ add, g.Adj source x ∧ x ∉ s.visited := by
  generalize hdef : H (str source ++ (upstream g cyc source).flatMap (digestOf s.hg)) = d at ht
  have hstore : ∃ hg1, fhStore s.hg source (H (str source ++ (upstream g cyc source).flatMap (digestOf s.hg))) = .ok hg1 ∧
      hg1 = s.hg.addNode source (some (source, some d)) := by
    unfold fhStore
    rw [hdef]
    cases hh : s.hg.has source with
    | false => exact ⟨_, rfl, rfl⟩
    | true =>
      obtain ⟨o, ho⟩ := h.obj source hh
      simp only [Bool.not_true, Bool.false_eq_true, if_false]
      rw [ho]
      exact ⟨_, rfl, rfl⟩
  obtain ⟨hg1, hst, hg1e⟩ := hstore
  have hnode1 : ∀ x, hg1.node x = if source = x then some (source, some d) else s.hg.node x := fun x => by rw [hg1e, node_addNode']
  have hhas1 : ∀ x, hg1.has x = true ↔ source = x ∨ s.hg.has x = true := fun x => by rw [hg1e, has_addNode']
  have hp := fhRecv_fold source (g.nodesFrom source) (⟨rest, hg1, s.visited⟩ : FhSt α B) ((hhas1 source).2 (.inl rfl)) (hg.nodup_nodesFrom source)
  generalize hs' : (g.nodesFrom source).foldl (fhRecv source) (⟨rest, hg1, s.visited⟩ : FhSt α B) = s' at hp
  have hadj : ∀ x, x ∈ g.nodesFrom source ↔ g.Adj source x := fun x => mem_nodesFrom
  have hsnew : ¬ Hashed s.hg source := h.new source (by rw [hs]; simp)
  have hnd := h.nd
  rw [hs, List.nodup_cons] at hnd
  have hnode : ∀ x, s'.hg.node x = if source = x then some (source, some d) else
      if g.Adj source x ∧ x ∉ s.visited ∧ s.hg.has x = false then some (x, none) else s.hg.node x := by
    intro x
    rw [hp.node]
    dsimp only
    simp only [hadj]
    by_cases hx : source = x
    · rw [if_pos hx, if_neg, hnode1, if_pos hx]
      rintro ⟨_, _, h3⟩
      rw [(hhas1 x).2 (.inl hx)] at h3; cases h3
    · rw [if_neg hx]
      have : hg1.has x = false ↔ s.hg.has x = false := by
        rw [← Bool.not_eq_true, hhas1, not_or, Bool.not_eq_true]
        exact ⟨fun h => h.2, fun h => ⟨hx, h⟩⟩
      simp only [this]
      rw [hnode1, if_neg hx]
  have hhashed : ∀ x, Hashed s'.hg x ↔ Hashed s.hg x ∨ x = source := by
    intro x
    unfold Hashed
    rw [hnode]
    by_cases hx : source = x
    · rw [if_pos hx]; subst hx; exact ⟨fun _ => .inr rfl, fun _ => ⟨d, rfl⟩⟩
    · rw [if_neg hx]
      split
      · rename_i hc
        constructor
        · rintro ⟨d', hd'⟩; cases hd'
        · rintro (⟨d', hd'⟩ | he)
          · have : s.hg.has x = true := by
              rw [has_iff]
              unfold node at hd'
              cases hg' : s.hg.nodes.get? x with
              | none => rw [hg'] at hd'; cases hd'
              | some o => exact Dict.mem_keys_of_get? hg'
            rw [hc.2.2] at this; cases this
          · exact absurd he.symm hx
      · exact ⟨.inl, fun h => h.resolve_right (fun he => hx he.symm)⟩
  have hdig : ∀ x, Hashed s.hg x → digestOf s'.hg x = digestOf s.hg x := by
    intro x hx
    obtain ⟨d', hd'⟩ := hx
    have hne : source ≠ x := fun he => hsnew (by subst he; exact ⟨d', hd'⟩)
    unfold digestOf
    rw [hnode, if_neg hne, if_neg]
    rintro ⟨_, _, h3⟩
    have : s.hg.has x = true := by
      rw [has_iff]
      unfold node at hd'
      cases hg' : s.hg.nodes.get? x with
      | none => rw [hg'] at hd'; cases hd'
      | some o => exact Dict.mem_keys_of_get? hg'
    rw [h3] at this; cases this
  have hflat : ∀ x, (∀ y, g.Adj y x → cyc x y = false → Hashed s.hg y) → (upstream g cyc x).flatMap (digestOf s'.hg) = (upstream g cyc x).flatMap (digestOf s.hg) := by
    intro x hx
    have : ∀ l : List α, (∀ y ∈ l, Hashed s.hg y) → l.flatMap (digestOf s'.hg) = l.flatMap (digestOf s.hg) := by
      intro l
      induction l with
      | nil => intro _; rfl
      | cons y l ih =>
        intro hl
        rw [List.flatMap_cons, List.flatMap_cons, hdig y (hl y (by simp)), ih (fun z hz => hl z (List.mem_cons_of_mem _ hz))]
    refine this _ (fun y hy => ?_)
    obtain ⟨h1, h2⟩ := List.mem_filter.1 hy
    exact hx y (hg.mem_nodesTo.1 h1) (by simpa using h2)
  obtain ⟨add, a1, a2, a3, a4, a5⟩ := hp.sources
  dsimp only at a1 a2 a4 a5
  have hsrc : g.has source = true := ((h.enq source).1 (.inl (by rw [hs]; simp))).1
  refine ⟨s', ?_, ⟨?_, ?_, ?_, ?_, ?_, ?_, ?_, ?_, ?_⟩, ?_, hhashed, add, a1, fun x hx => ⟨(hadj x).1 (a2 x hx).1, (a2 x hx).2⟩⟩
  · unfold fhStep
    rw [hs]
    dsimp only
    rw [ht]
    dsimp only
    rw [hst]
    dsimp only
    rw [hs']
  · rw [a1, List.nodup_append]
    exact ⟨hnd.2, a3, fun x hx y hy he => a4 y hy (he ▸ hx)⟩
  · intro x hx hh
    rw [a1, List.mem_append] at hx
    rcases (hhashed x).1 hh with hh | rfl
    · rcases hx with hx | hx
      · exact h.new x (by rw [hs]; simp [hx]) hh
      · obtain ⟨y, hy⟩ := (⟨source, (hadj x).1 (a2 x hx).1⟩ : ∃ y, g.Adj y x)
        rcases ((h.enq x).1 (.inr hh)).2 with h1 | h1
        · exact h1 y hy
        · exact (a2 x hx).2 h1
    · rcases hx with hx | hx
      · exact hnd.1 hx
      · rcases ((h.enq x).1 (.inl (by rw [hs]; simp))).2 with h1 | h1
        · exact h1 x ((hadj x).1 (a2 x hx).1)
        · exact (a2 x hx).2 h1
  · intro x
    rw [hhashed, hp.visited, hadj]
    dsimp only
    constructor
    · rintro (hx | hx | rfl)
      · rw [a1, List.mem_append] at hx
        rcases hx with hx | hx
        · obtain ⟨h1, h2⟩ := (h.enq x).1 (.inl (by rw [hs]; simp [hx]))
          exact ⟨h1, h2.imp_right .inl⟩
        · have := (hadj x).1 (a2 x hx).1
          exact ⟨has_iff.2 (hg.finite _ _ this).2, .inr (.inr this)⟩
      · obtain ⟨h1, h2⟩ := (h.enq x).1 (.inr hx)
        exact ⟨h1, h2.imp_right .inl⟩
      · obtain ⟨h1, h2⟩ := (h.enq x).1 (.inl (by rw [hs]; simp))
        exact ⟨h1, h2.imp_right .inl⟩
    · rintro ⟨h1, h2⟩
      have hold : ((∀ y, ¬ g.Adj y x) ∨ x ∈ s.visited) → x ∈ s'.sources ∨ Hashed s.hg x ∨ x = source := by
        intro h3
        rcases (h.enq x).2 ⟨h1, h3⟩ with h4 | h4
        · rw [hs, List.mem_cons] at h4
          rcases h4 with h4 | h4
          · exact .inr (.inr h4)
          · left; rw [a1]; simp [h4]
        · exact .inr (.inl h4)
      rcases h2 with h2 | h2 | h2
      · exact hold (.inl h2)
      · exact hold (.inr h2)
      · by_cases hv : x ∈ s.visited
        · exact hold (.inr hv)
        · left; rw [a1]; exact a5 x ((hadj x).2 h2) hv
  · intro x hx
    rcases (hp.visited x).1 hx with h1 | h1
    · exact h.vis x h1
    · exact ⟨source, (hadj x).1 h1⟩
  · intro x y hx hxy
    rw [hp.visited]
    rcases (hhashed x).1 hx with hx | rfl
    · exact .inl (h.succ x y hx hxy)
    · exact .inr ((hadj y).2 hxy)
  · intro x hx
    rw [hnode]
    by_cases hxs : source = x
    · rw [if_pos hxs]; exact ⟨some d, by rw [hxs]⟩
    · rw [if_neg hxs]
      split
      · exact ⟨none, rfl⟩
      · rename_i hc
        rcases (hp.has x).1 hx with h1 | ⟨h1, h2⟩
        · exact h.obj x (((hhas1 x).1 h1).resolve_left hxs)
        · have hb : s.hg.has x = true := by
            cases hb : s.hg.has x with
            | true => rfl
            | false => exact absurd ⟨(hadj x).1 h1, h2, hb⟩ hc
          exact h.obj x hb
  · intro x d' hd'
    rw [hnode] at hd'
    by_cases hxs : source = x
    · rw [if_pos hxs] at hd'
      subst hxs
      cases hd'
      exact ⟨fun y hy hc => (hhashed y).2 (.inl (hall y hy hc)), by rw [hflat source hall, hdef]⟩
    · rw [if_neg hxs] at hd'
      split at hd'
      · cases hd'
      · obtain ⟨h1, h2⟩ := h.hash x d' hd'
        exact ⟨fun y hy hc => (hhashed y).2 (.inl (h1 y hy hc)), by rw [hflat x h1]; exact h2⟩
  · intro x hx
    rw [hhashed, hp.visited]
    rcases (hp.has x).1 hx with h1 | ⟨h1, _⟩
    · rcases (hhas1 x).1 h1 with h1 | h1
      · exact .inl (.inr h1.symm)
      · rcases h.inh x h1 with h1 | h1
        · exact .inl (.inl h1)
        · exact .inr (.inl h1)
    · exact .inr (.inr h1)
  · intro x hx
    have hsup : Supplied g source := h.sup source (.inl (by rw [hs]; simp))
    have hnew : g.Adj source x → Supplied g x := by
      intro hadj
      obtain ⟨r, q1, q2, n, q3⟩ := hsup
      exact ⟨r, q1, q2, n + 1, .succ q3 hadj⟩
    rw [hhashed, hp.visited, a1, List.mem_append] at hx
    rcases hx with (hx | hx) | (hx | hx) | (hx | rfl)
    · exact h.sup x (.inl (by rw [hs]; simp [hx]))
    · exact hnew ((hadj x).1 (a2 x hx).1)
    · exact h.sup x (.inr (.inl hx))
    · exact hnew ((hadj x).1 hx)
    · exact h.sup x (.inr (.inr hx))
    · exact hsup
  · unfold fhMeasure
    have := filter_visited_length g.nodeList s.visited s'.visited add a3
      (fun x hx => (hg.finite _ _ ((hadj x).1 (a2 x hx).1)).2)
      (fun x hx => (hp.visited x).2 (.inl hx)) (fun x hx => ⟨(hp.visited x).2 (.inr (a2 x hx).1), (a2 x hx).2⟩)
    rw [a1, hs]
    simp only [List.length_append, List.length_cons]
    omega

theorem FhInv.hashed_of_empty {H : List B → List B} {str : α → List B} {cyc : α → α → Bool} {g : Graph α V O} (hg : g.Inv)
    {s : FhSt α B} (h : FhInv H str cyc g s) (hs : s.sources = []) (x : α) :
    (Hashed s.hg x ↔ Supplied g x) ∧ (s.hg.has x = true ↔ Supplied g x) := by
  have henq : ∀ x, g.has x = true → ((∀ y, ¬ g.Adj y x) ∨ x ∈ s.visited) → Hashed s.hg x := by
    intro x h1 h2
    rcases (h.enq x).2 ⟨h1, h2⟩ with h3 | h3
    · rw [hs] at h3; cases h3
    · exact h3
  have hall : ∀ n r x, g.has r = true → (∀ y, ¬ g.Adj y r) → Steps g.Adj n r x → Hashed s.hg x := by
    intro n r x h1 h2 h3
    induction h3 with
    | zero => exact henq _ h1 (.inl h2)
    | succ _ hbc ih => exact henq _ (has_iff.2 (hg.finite _ _ hbc).2) (.inr (h.succ _ _ (ih h1 h2) hbc))
  have hh : ∀ x, Hashed s.hg x ↔ Supplied g x := fun x =>
    ⟨fun hx => h.sup x (.inr (.inr hx)), fun ⟨r, h1, h2, n, h3⟩ => hall n r x h1 h2 h3⟩
  refine ⟨hh x, ⟨fun hx => ?_, fun hx => ?_⟩⟩
  · rcases h.inh x hx with h1 | h1
    · exact (hh x).1 h1
    · exact h.sup x (.inr (.inl h1))
  · obtain ⟨d, hd⟩ := (hh x).2 hx
    rw [has_iff]
    unfold node at hd
    cases hg' : s.hg.nodes.get? x with
    | none => rw [hg'] at hd; cases hd
    | some o => exact Dict.mem_keys_of_get? hg'

theorem FhInv.exit_any {H : List B → List B} {str : α → List B} {cyc : α → α → Bool} {g : Graph α V O} (hg : g.Inv) (hph : g.NoPhantom)
    {s : FhSt α B} (h : FhInv H str cyc g s) (hs : s.sources = []) :
    ∃ r, fhStep H str g s = some (.inr r) ∧
      ((r = .ok s.hg ∧ ∀ x, g.has x = true → (∀ y, ¬ g.Adj x y) → Supplied g x) ∨
       (r = .error .typeError ∧ ∃ x, g.has x = true ∧ (∀ y, ¬ g.Adj x y) ∧ ¬ Supplied g x)) := by
  unfold fhStep
  rw [hs]
  dsimp only
  have : ∀ l : List α, ∃ r, forE l s.hg (fun hg sink => match hg.node sink with
      | none => .error .typeError
      | some (_, none) => .error .assertionError
      | some (_, some _) => .ok hg) = r ∧ ((r = .ok s.hg ∧ ∀ x ∈ l, Supplied g x) ∨ (r = .error .typeError ∧ ∃ x ∈ l, ¬ Supplied g x)) := by
    intro l
    induction l with
    | nil => exact ⟨_, rfl, .inl ⟨rfl, (fun x hx => nomatch hx)⟩⟩
    | cons x l ih =>
      unfold forE
      have hx := h.hashed_of_empty hg hs x
      by_cases hxs : Supplied g x
      · obtain ⟨d, hd⟩ := hx.1.2 hxs
        rw [hd]
        dsimp only
        obtain ⟨r, h1, h2⟩ := ih
        refine ⟨r, h1, ?_⟩
        rcases h2 with ⟨rfl, h2⟩ | ⟨rfl, y, hy, h2⟩
        · refine .inl ⟨rfl, fun y hy => ?_⟩
          rcases List.mem_cons.1 hy with rfl | hy
          · exact hxs
          · exact h2 y hy
        · exact .inr ⟨rfl, y, List.mem_cons_of_mem _ hy, h2⟩
      · have hn : s.hg.node x = none := by
          unfold node
          rw [(Dict.get?_eq_none_iff ..).2 (fun hk => hxs (hx.2.1 (has_iff.2 hk)))]; rfl
        rw [hn]
        exact ⟨_, rfl, .inr ⟨rfl, x, by simp, hxs⟩⟩
  obtain ⟨r, h1, h2⟩ := this (g.nodesOutDeg 0)
  refine ⟨r, by rw [h1], ?_⟩
  have hm : ∀ x, x ∈ g.nodesOutDeg 0 ↔ g.has x = true ∧ ∀ y, ¬ g.Adj x y := fun x => by
    rw [mem_nodesOutDeg_zero hg hph x, ← has_iff]
    refine and_congr_right fun _ => forall_congr' fun y => ?_
    unfold Adj
    cases g.edge x y <;> simp
  rcases h2 with ⟨h2, h3⟩ | ⟨h2, x, hx, h3⟩
  · exact .inl ⟨h2, fun x h4 h5 => h3 x ((hm x).2 ⟨h4, h5⟩)⟩
  · exact .inr ⟨h2, x, ((hm x).1 hx).1, ((hm x).1 hx).2, h3⟩

theorem supplied_of_acyclic {g : Graph α V O} (hg : g.Inv) (hA : Acyclic g.Adj) (x : α) : Supplied g x ↔ g.has x = true := by
  constructor
  · rintro ⟨r, h1, _, n, h3⟩
    cases h3 with
    | zero => exact h1
    | succ _ h4 => exact has_iff.2 (hg.finite _ _ h4).2
  · have hA' : Acyclic (Flip g.Adj) := by rintro a ⟨n, hn⟩; exact hA a ⟨n, hn.flip⟩
    obtain ⟨rank, hr, _, _⟩ := hA'.rank (U := g.nodeList) (fun a b hab => ⟨(hg.finite b a hab).2, (hg.finite b a hab).1⟩)
    have hall : ∀ n x, rank x = n → g.has x = true → Supplied g x := by
      intro n
      induction n using Nat.strongRecOn with
      | _ n ih =>
        intro x hx hxg
        by_cases he : ∃ y, g.Adj y x
        · obtain ⟨y, hy⟩ := he
          obtain ⟨r, h1, h2, k, h3⟩ := ih (rank y) (hx ▸ hr x y hy) y rfl (has_iff.2 (hg.finite _ _ hy).1)
          exact ⟨r, h1, h2, k + 1, .succ h3 hy⟩
        · exact ⟨x, hxg, fun y hy => he ⟨y, hy⟩, 0, .zero x⟩
    exact hall _ x rfl

theorem FhInv.exit {H : List B → List B} {str : α → List B} {cyc : α → α → Bool} {g : Graph α V O} (hg : g.Inv) (hph : g.NoPhantom) (hA : Acyclic g.Adj)
    {s : FhSt α B} (h : FhInv H str cyc g s) (hs : s.sources = []) :
    fhStep H str g s = some (.inr (.ok s.hg)) ∧ ∀ x, g.has x = true → Hashed s.hg x := by
  refine ⟨?_, fun x hx => (h.hashed_of_empty hg hs x).1.2 ((supplied_of_acyclic hg hA x).2 hx)⟩
  obtain ⟨r, h1, h2⟩ := h.exit_any hg hph hs
  rcases h2 with ⟨rfl, _⟩ | ⟨_, x, h3, _, h4⟩
  · exact h1
  · exact absurd ((supplied_of_acyclic hg hA x).2 h3) h4

theorem FhInv.init (H : List B → List B) (str : α → List B) (cyc : α → α → Bool) {g : Graph α V O} (hg : g.Inv) (hph : g.NoPhantom) :
    FhInv H str cyc g ⟨g.nodesInDeg 0, Graph.empty, []⟩ := by
  have hno : ∀ x, ¬ Hashed (Graph.empty : HashG α B) x := by rintro x ⟨d, hd⟩; cases hd
  have hm : ∀ x, x ∈ g.nodesInDeg 0 ↔ g.has x = true ∧ ∀ y, ¬ g.Adj y x := by
    intro x
    unfold nodesInDeg
    rw [mem_degFilter hg.inWF, has_iff]
    constructor
    · intro h
      have hx : x ∈ g.nodeList := by
        refine Decidable.byContradiction fun hn => ?_
        rw [(hph x hn).1] at h; cases h
      rw [hg.inD x hx] at h
      have h : g.nodesTo x = [] := List.length_eq_zero_iff.1 (by have := Option.some.inj h; omega)
      refine ⟨hx, fun y hy => ?_⟩
      have := hg.mem_nodesTo.2 hy
      rw [h] at this; cases this
    · rintro ⟨h1, h2⟩
      rw [hg.inD x h1]
      have : g.nodesTo x = [] := by
        rw [List.eq_nil_iff_forall_not_mem]
        exact fun y hy => h2 y (hg.mem_nodesTo.1 hy)
      rw [this]; rfl
  refine ⟨nodup_degFilter hg.inWF 0, fun x _ => hno x, fun x => ?_, (fun x hx => nomatch hx), fun x y hx => absurd hx (hno x), ?_, ?_, ?_, ?_⟩
  · dsimp only
    rw [hm]
    simp only [List.not_mem_nil, or_false]
    exact ⟨fun h => h.resolve_right (hno x), .inl⟩
  · intro x hx; cases hx
  · intro x d hd; cases hd
  · intro x hx; cases hx
  · rintro x (hx | hx | hx)
    · exact ⟨x, ((hm x).1 hx).1, ((hm x).1 hx).2, 0, .zero x⟩
    · cases hx
    · exact absurd hx (hno x)

/-- `flow_graph_hash` terminates; it raises `TypeError`, or every supplied node has the hash of its id and its suppliers' hashes -/
theorem flowGraphHash_main {H : List B → List B} {str : α → List B} {cyc : α → α → Bool} {g : Graph α V O} (hg : g.Inv) (hph : g.NoPhantom)
    (hA : IsCyc g cyc) : ∃ r, g.flowGraphHash H str = some r ∧ FhPost H str cyc g r := by
  unfold flowGraphHash
  refine pyWhileD_total (FhInv H str cyc g) (FhPost H str cyc g) (· < ·) Nat.lt_wfRel.wf (fhMeasure g) (fun s hI => ?_) (FhInv.init H str cyc hg hph)
  cases hs : s.sources with
  | nil =>
    obtain ⟨r, h1, h2⟩ := hI.exit_any hg hph hs
    refine .inr ⟨r, h1, ?_⟩
    rcases h2 with ⟨rfl, h2⟩ | ⟨rfl, _⟩
    · refine .inl ⟨s.hg, rfl, fun x => (hI.hashed_of_empty hg hs x).2, fun x hx => ?_, h2⟩
      obtain ⟨d, hd⟩ := (hI.hashed_of_empty hg hs x).1.2 hx
      exact ⟨d, hd, (hI.hash x d hd).2⟩
    · exact .inr rfl
  | cons source rest =>
    have hsrc : g.has source = true := ((hI.enq source).1 (.inl (by rw [hs]; simp))).1
    rcases fhText_spec hg hA s.hg hsrc hI.obj (g.nodesTo source) (str source) (fun x hx => hg.mem_nodesTo.1 hx) with ⟨h1, h2⟩ | ⟨h1, _⟩
    · obtain ⟨s', e1, e2, e3, _⟩ := hI.step_ok hg hs (fun y hy => h1 y (hg.mem_nodesTo.2 hy)) h2
      exact .inl ⟨s', e1, e2, e3⟩
    · refine .inr ⟨_, ?_, .inr rfl⟩
      unfold fhStep
      rw [hs]
      dsimp only
      rw [h1]

/-- all ways from a source to a node have the same number of edges -/
def Layered (g : Graph α V O) (rank : α → Nat) : Prop :=
  (∀ a b, g.Adj a b → rank b = rank a + 1) ∧ ∀ x, g.has x = true → (∀ y, ¬ g.Adj y x) → rank x = 0

structure LayInv (g : Graph α V O) (rank : α → Nat) (s : FhSt α B) (k : Nat) : Prop where
  below : ∀ x, g.has x = true → rank x < k → Hashed s.hg x
  level : ∀ x, g.has x = true → rank x = k → x ∈ s.sources ∨ Hashed s.hg x
  split : ∃ A B', s.sources = A ++ B' ∧ (∀ x ∈ A, rank x = k) ∧ ∀ x ∈ B', rank x = k + 1

theorem Layered.acyclic {g : Graph α V O} {rank : α → Nat} (h : Layered g rank) : Acyclic g.Adj := by
  have : ∀ n a b, Steps g.Adj n a b → rank b = rank a + n := by
    intro n a b hs
    induction hs with
    | zero => rfl
    | succ _ hbc ih => rw [h.1 _ _ hbc, ih]; omega
  rintro a ⟨n, hn⟩
  have := this _ _ _ hn
  omega

theorem LayInv.head {H : List B → List B} {str : α → List B} {g : Graph α V O} (hg : g.Inv) {rank : α → Nat} (hL : Layered g rank) {s : FhSt α B} {cyc : α → α → Bool} (hI : FhInv H str cyc g s)
    {source : α} {rest : List α} (hs : s.sources = source :: rest) {k : Nat} (h : LayInv g rank s k) :
    ∃ k, LayInv g rank s k ∧ rank source = k := by
  obtain ⟨A, B', h1, h2, h3⟩ := h.split
  cases A with
  | cons a A =>
    rw [hs, List.cons_append] at h1
    cases h1
    exact ⟨k, h, h2 source (by simp)⟩
  | nil =>
    rw [List.nil_append] at h1
    have hsr : rank source = k + 1 := h3 source (by rw [← h1, hs]; simp)
    have hk : ∀ x, g.has x = true → rank x = k → Hashed s.hg x := by
      intro x hx hxk
      rcases h.level x hx hxk with h4 | h4
      · rw [h1] at h4; have := h3 x h4; omega
      · exact h4
    refine ⟨k + 1, ⟨fun x hx hlt => ?_, fun x hx hxk => ?_, B', [], by rw [h1]; simp, h3, by simp⟩, hsr⟩
    · by_cases hxk : rank x = k
      · exact hk x hx hxk
      · exact h.below x hx (by omega)
    · refine (hI.enq x).2 ⟨hx, ?_⟩
      by_cases he : ∃ y, g.Adj y x
      · obtain ⟨y, hy⟩ := he
        have := hL.1 y x hy
        exact .inr (hI.succ y x (hk y (has_iff.2 (hg.finite _ _ hy).1) (by omega)) hy)
      · exact .inl (fun y hy => he ⟨y, hy⟩)

theorem flowGraphHash_layered {H : List B → List B} {str : α → List B} {g : Graph α V O} (hg : g.Inv) (hph : g.NoPhantom) {rank : α → Nat}
    (hL : Layered g rank) : ∃ hg', g.flowGraphHash H str = some (.ok hg') := by
  obtain ⟨r, hr, hok⟩ : ∃ r, g.flowGraphHash H str = some r ∧ ∃ hg', r = .ok hg' := by
    unfold flowGraphHash
    refine pyWhileD_total (fun s => FhInv H str (fun _ _ => false) g s ∧ ∃ k, LayInv g rank s k) (fun r : Py (HashG α B) => ∃ hg', r = .ok hg') (· < ·) Nat.lt_wfRel.wf
      (fhMeasure g) (fun s hI => ?_) ⟨FhInv.init H str (fun _ _ => false) hg hph, 0, ?_⟩
    · obtain ⟨hI, k, hk⟩ := hI
      cases hs : s.sources with
      | nil => exact .inr ⟨_, (hI.exit hg hph hL.acyclic hs).1, _, rfl⟩
      | cons source rest =>
        obtain ⟨k, hk, hrk⟩ := hk.head hg hL hI hs
        have hall : ∀ y, g.Adj y source → Hashed s.hg y := fun y hy => hk.below y (has_iff.2 (hg.finite _ _ hy).1) (by
          have := hL.1 y source hy; omega)
        have hsrc : g.has source = true := ((hI.enq source).1 (.inl (by rw [hs]; simp))).1
        rcases fhText_spec hg (isCyc_of_acyclic hL.acyclic) s.hg hsrc hI.obj (g.nodesTo source) (str source) (fun x hx => hg.mem_nodesTo.1 hx) with ⟨h1, h2⟩ | ⟨_, x, hx, _, h1⟩
        · obtain ⟨s', e1, e2, e3, e4, add, e5, e6⟩ := hI.step_ok hg hs (fun y hy _ => hall y hy) h2
          refine .inl ⟨s', e1, ⟨e2, k, ?_⟩, e3⟩
          refine ⟨fun x hx hlt => (e4 x).2 (.inl (hk.below x hx hlt)), fun x hx hxk => ?_, ?_⟩
          · rw [e4]
            rcases hk.level x hx hxk with h | h
            · rw [hs, List.mem_cons] at h
              rcases h with h | h
              · exact .inr (.inr h)
              · left; rw [e5]; simp [h]
            · exact .inr (.inl h)
          · obtain ⟨A, B', b1, b2, b3⟩ := hk.split
            rw [hs] at b1
            cases A with
            | nil =>
              rw [List.nil_append] at b1
              have := b3 source (by rw [← b1]; simp)
              omega
            | cons a A =>
              rw [List.cons_append] at b1
              obtain ⟨rfl, rfl⟩ := List.cons.inj b1
              refine ⟨A, B' ++ add, by rw [e5]; simp, fun x hx => b2 x (by simp [hx]), fun x hx => ?_⟩
              rw [List.mem_append] at hx
              rcases hx with hx | hx
              · exact b3 x hx
              · rw [hL.1 _ _ (e6 x hx).1, hrk]
        · exact absurd (hall x (hg.mem_nodesTo.1 hx)) h1
    · refine ⟨fun x _ h => by omega, fun x hx h0 => ?_, g.nodesInDeg 0, [], by simp, fun x hx => ?_, by simp⟩
      · refine ((FhInv.init H str (fun _ _ => false) hg hph).enq x).2 ⟨hx, .inl fun y hy => ?_⟩
        have := hL.1 y x hy; omega
      · obtain ⟨h1, h2⟩ := ((FhInv.init H str (fun _ _ => false) hg hph).enq x).1 (.inl hx)
        exact hL.2 x h1 (h2.resolve_right (by simp))
  obtain ⟨hg', rfl⟩ := hok
  exact ⟨hg', hr⟩

end GT

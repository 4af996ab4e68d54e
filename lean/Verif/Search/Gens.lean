import Verif.Search.Bfs
import Verif.Dag.Topo
/-
The generators `topological_sort` (graph/topological_sort.py:4-36) and `breadth_first_walk` (graph/bfs.py:38-67) as coroutines: `next(it)` runs to the next
`yield`, and the caller may change the graph between two calls of `next`.
-/
namespace GT
open Graph
variable {α V O : Type} [DecidableEq α]

/-- the outcome of `next(it)`: a node, `StopIteration`, another exception -/
inductive Out (α : Type) where
  | yielded (n : α)
  | stop
  | raised (e : Err)
  deriving DecidableEq, Repr

/-! ### `topological_sort` -/

/-- the generator object: not started, suspended at `yield task` (topological_sort.py:29) with the rest of the list `zero_in_degree`, ended -/
inductive TopoSt (α V O : Type) where
  | fresh
  | susp (g2 : Graph α V O) (task : α) (rest : List α)
  | done

/-- the head of `while zero_in_degree` and of the `for` loop (topological_sort.py:27-29), the end (35-36) -/
def topoEmit (g2 : Graph α V O) : List α → Out α × TopoSt α V O
  | [] => if g2.nodeList ≠ [] then (.raised .attributeError, .done) else (.stop, .done)
  | task :: rest => (.yielded task, .susp g2 task rest)

/-- `next(it)` when the graph object has the content `g` (topological_sort.py:23-36).  Only the first call reads it. -/
def topoNext (srt : List α → List α) (g : Graph α V O) : TopoSt α V O → Out α × TopoSt α V O
  | .fresh => topoEmit g.copy (srt (g.copy.nodesInDeg 0))
  | .susp g2 task rest =>
    let g2 := g2.delNode task
    match rest with
    | [] => topoEmit g2 (srt (g2.nodesInDeg 0))
    | task :: rest => (.yielded task, .susp g2 task rest)
  | .done => (.stop, .done)

/-! ### `breadth_first_walk` -/

/-- the generator object: not started, suspended at `yield node` (bfs.py:60), ended -/
inductive WalkSt (α : Type) where
  | fresh
  | susp (visited : Dict α (Option α)) (q : List α) (node : α)
  | done

/-- the head of `while q` (bfs.py:58-60) -/
def walkEmit (visited : Dict α (Option α)) : List α → Out α × WalkSt α
  | [] => (.stop, .done)
  | node :: q => (.yielded node, .susp visited q node)

/-- the nodes followed: `graph.nodes(from_node=node)` or `graph.nodes(to_node=node)` (bfs.py:63) -/
def walkSucc (rev : Bool) (g : Graph α V O) (x : α) : List α := if rev then g.nodesTo x else g.nodesFrom x

/-- `end is not None and end not in graph` (bfs.py:51) -/
def endMissing (g : Graph α V O) : Option α → Bool
  | none => false
  | some x => !g.has x

/-- `next(it)` when the graph object has the content `g` (bfs.py:47-67) -/
def walkNext (start : α) (e : Option α) (rev : Bool) (g : Graph α V O) : WalkSt α → Out α × WalkSt α
  | .fresh =>
    if !g.has start then (.raised .valueError, .done)
    else if endMissing g e then (.raised .valueError, .done)
    else walkEmit (Dict.empty.set start none) [start]
  | .susp visited q node =>
    if some node = e then (.stop, .done)
    else
      let r := bfsScan node (walkSucc rev g node) (visited, q)
      walkEmit r.1 r.2
  | .done => (.stop, .done)

/-! ### the caller -/

/-- what a program does that holds a graph and an iterator: change the graph, advance the iterator -/
inductive Ev (α V O : Type) where
  | call (op : Op α V O)
  | next

/-- run such a program: for every `next` the graph at that moment and the outcome -/
def drive {σ : Type} (nxt : Graph α V O → σ → Out α × σ) : Graph α V O → σ → List (Ev α V O) → List (Graph α V O × Out α)
  | _, _, [] => []
  | g, s, .call op :: evs => drive nxt (g.stepE op).1 s evs
  | g, s, .next :: evs => (g, (nxt g s).1) :: drive nxt g (nxt g s).2 evs

/-! ### `topological_sort` looks at the graph once -/

theorem topoNext_indep (srt : List α → List α) (g g' : Graph α V O) {s : TopoSt α V O} (h : s ≠ .fresh) : topoNext srt g s = topoNext srt g' s := by
  cases s with
  | fresh => exact absurd rfl h
  | susp => rfl
  | done => rfl

theorem topoEmit_started (g2 : Graph α V O) (l : List α) : (topoEmit g2 l).2 ≠ .fresh := by
  cases l with
  | nil => simp only [topoEmit]; split <;> (intro h; cases h)
  | cons => simp [topoEmit]

theorem topoNext_started (srt : List α → List α) (g : Graph α V O) (s : TopoSt α V O) : (topoNext srt g s).2 ≠ .fresh := by
  cases s with
  | fresh => exact topoEmit_started _ _
  | done => simp [topoNext]
  | susp g2 t rest => cases rest with
    | nil => exact topoEmit_started _ _
    | cons => simp [topoNext]

/-- the outcomes of successive calls of `next` -/
def topoNth (srt : List α → List α) (g : Graph α V O) : Nat → Out α × TopoSt α V O
  | 0 => topoNext srt g .fresh
  | n + 1 => topoNext srt g (topoNth srt g n).2

theorem drive_topo (srt : List α → List α) (g0 : Graph α V O) (evs : List (Ev α V O)) : ∀ (g : Graph α V O) (n : Nat) (i : Nat) (p : Graph α V O × Out α),
    (drive (topoNext srt) g (topoNth srt g0 n).2 evs)[i]? = some p → p.2 = (topoNth srt g0 (n + 1 + i)).1 := by
  induction evs with
  | nil => intro g n i p h; simp [drive] at h
  | cons ev evs ih =>
    intro g n i p h
    cases ev with
    | call op => exact ih _ n i p h
    | next =>
      have hst : (topoNth srt g0 n).2 ≠ .fresh := by cases n <;> exact topoNext_started _ _ _
      have hnx : topoNext srt g (topoNth srt g0 n).2 = topoNth srt g0 (n + 1) := topoNext_indep srt _ _ hst
      simp only [drive, hnx] at h
      cases i with
      | zero => simp at h; rw [← h]
      | succ i =>
        rw [List.getElem?_cons_succ] at h
        rw [ih g (n + 1) i p h, show n + 1 + 1 + i = n + 1 + (i + 1) by omega]

/-- what the outcomes say about the run: `out` are the nodes yielded, then comes `e` -/
def TopoStream (srt : List α → List α) (g : Graph α V O) (r : List α × Option Err) : Prop :=
  (∀ i x, r.1[i]? = some x → (topoNth srt g i).1 = .yielded x) ∧
  topoNth srt g r.1.length = ((match r.2 with | none => .stop | some e => .raised e), .done)

theorem topoNth_round (srt : List α → List α) (g g2 : Graph α V O) (zero : List α) (k : Nat) (hne : zero ≠ [])
    (h : topoNth srt g k = topoEmit g2 zero) :
    (∀ i x, zero[i]? = some x → (topoNth srt g (k + i)).1 = .yielded x) ∧
    topoNth srt g (k + zero.length) = topoEmit (g2.delNodes zero) (srt ((g2.delNodes zero).nodesInDeg 0)) := by
  induction zero generalizing g2 k with
  | nil => exact absurd rfl hne
  | cons t rest ih =>
    have hk : topoNth srt g k = (.yielded t, .susp g2 t rest) := h
    have hk1 : topoNth srt g (k + 1) = topoNext srt g (.susp g2 t rest) := by show topoNext srt g (topoNth srt g k).2 = _; rw [hk]
    cases rest with
    | nil =>
      refine ⟨fun i x hi => ?_, hk1⟩
      cases i with
      | zero => simp at hi; rw [Nat.add_zero, hk, hi]
      | succ i => simp at hi
    | cons t' rest' =>
      have h1 : topoNth srt g (k + 1) = topoEmit (g2.delNode t) (t' :: rest') := hk1
      obtain ⟨i1, i2⟩ := ih (g2.delNode t) (k + 1) (by simp) h1
      refine ⟨fun i x hi => ?_, ?_⟩
      · cases i with
        | zero => simp at hi; rw [Nat.add_zero, hk, hi]
        | succ i => rw [List.getElem?_cons_succ] at hi; rw [← i1 i x hi]; congr 2; omega
      · have := i2
        rw [show k + 1 + (t' :: rest').length = k + (t :: t' :: rest').length by simp; omega] at this
        exact this

theorem topo_stream {srt : List α → List α} {g : Graph α V O} {out : List α} {e : Option Err}
    (h : g.topologicalSort srt = some (out, e)) : TopoStream srt g (out, e) := by
  unfold topologicalSort at h
  refine pyWhile_inv (step := topoStep srt) (I := fun (s : Graph α V O × List α × List α) =>
      (∀ i x, s.2.2[i]? = some x → (topoNth srt g i).1 = .yielded x) ∧ topoNth srt g s.2.2.length = topoEmit s.1 s.2.1)
    (Q := fun r => TopoStream srt g r) ?_ ?_ (s := (g.copy, srt (g.copy.nodesInDeg 0), [])) ⟨by simp, rfl⟩ h
  · rintro ⟨g2, zero, acc⟩ s' ⟨i1, i2⟩ hst
    simp only [topoStep] at hst
    by_cases hz : zero ≠ []
    · rw [if_pos hz] at hst
      cases hst
      obtain ⟨r1, r2⟩ := topoNth_round srt g g2 zero acc.length hz i2
      refine ⟨fun i x hi => ?_, ?_⟩
      · rw [List.getElem?_append] at hi
        split at hi
        · exact i1 i x hi
        · rename_i hlt
          have := r1 _ x hi
          rwa [show acc.length + (i - acc.length) = i by omega] at this
      · simp only [List.length_append]; exact r2
    · rw [if_neg hz] at hst
      split at hst <;> cases hst
  · rintro ⟨g2, zero, acc⟩ r ⟨i1, i2⟩ hst
    simp only [topoStep] at hst
    by_cases hz : zero ≠ []
    · rw [if_pos hz] at hst; cases hst
    · rw [if_neg hz] at hst
      have hz' : zero = [] := Classical.not_not.1 hz
      subst hz'
      split at hst
      · rename_i hn
        cases hst
        refine ⟨i1, ?_⟩
        rw [i2]; simp only [topoEmit]; rw [if_pos hn]
      · rename_i hn
        cases hst
        refine ⟨i1, ?_⟩
        rw [i2]; simp only [topoEmit]; rw [if_neg hn]

theorem topoNth_done {srt : List α → List α} {g : Graph α V O} {n : Nat} (h : (topoNth srt g n).2 = .done) (i : Nat) :
    topoNth srt g (n + 1 + i) = (.stop, .done) := by
  induction i with
  | zero => show topoNext srt g (topoNth srt g n).2 = _; rw [h]; rfl
  | succ i ih => show topoNext srt g (topoNth srt g (n + 1 + i)).2 = _; rw [ih]; rfl

/-- the outcome of the `i`-th `next` (from 0) for a run that yields `out` and ends with `e` -/
def outcomeAt (out : List α) (e : Option Err) (i : Nat) : Out α :=
  match out[i]? with
  | some x => .yielded x
  | none => if i = out.length then (match e with | none => .stop | some e => .raised e) else .stop

theorem drive_first {σ : Type} (nxt : Graph α V O → σ → Out α × σ) (g : Graph α V O) (s : σ) (evs : List (Ev α V O)) {g0 : Graph α V O} {o : Out α}
    {rest : List (Graph α V O × Out α)} (h : drive nxt g s evs = (g0, o) :: rest) :
    o = (nxt g0 s).1 ∧ ∃ evs', rest = drive nxt g0 (nxt g0 s).2 evs' := by
  induction evs generalizing g with
  | nil => simp [drive] at h
  | cons ev evs ih =>
    cases ev with
    | call op => exact ih _ h
    | next =>
      simp only [drive, List.cons.injEq, Prod.mk.injEq] at h
      obtain ⟨⟨rfl, rfl⟩, rfl⟩ := h
      exact ⟨rfl, evs, rfl⟩

theorem topo_drive {srt : List α → List α} {g : Graph α V O} {evs : List (Ev α V O)} {g0 : Graph α V O} {o : Out α}
    {rest : List (Graph α V O × Out α)} (h : drive (topoNext srt) g .fresh evs = (g0, o) :: rest) {out : List α} {e : Option Err}
    (hr : g0.topologicalSort srt = some (out, e)) (i : Nat) (p : Graph α V O × Out α) (hi : ((g0, o) :: rest)[i]? = some p) :
    p.2 = outcomeAt out e i := by
  obtain ⟨ho, evs', hrest⟩ := drive_first _ _ _ _ h
  have key : p.2 = (topoNth srt g0 i).1 := by
    cases i with
    | zero => simp at hi; rw [← hi]; exact ho
    | succ i =>
      rw [List.getElem?_cons_succ, hrest] at hi
      have := drive_topo srt g0 evs' g0 0 i p hi
      rw [this]; congr 2; omega
  obtain ⟨s1, s2⟩ := topo_stream hr
  rw [key]
  unfold outcomeAt
  cases ho : out[i]? with
  | some x => exact s1 i x ho
  | none =>
    have hle : out.length ≤ i := by simpa using ho
    simp only
    by_cases hE : i = out.length
    · rw [if_pos hE, hE, s2]
    · rw [if_neg hE]
      have := topoNth_done (by rw [s2]) (i - out.length - 1) (n := out.length) (srt := srt) (g := g0)
      rw [show out.length + 1 + (i - out.length - 1) = i by omega] at this
      rw [this]

/-! ### `breadth_first_walk` follows the graph as it changes -/

/-- the trace up to a suspended or ended walk that did not raise: the nodes `ys` were yielded, `q` are known but not yet yielded -/
structure WalkInv (start : α) (e : Option α) (rev : Bool) (tr : List (Graph α V O × Out α)) (ys q : List α) : Prop where
  first : ys.head? = some start
  nodup : (ys ++ q).Nodup
  parent : ∀ j y, (ys ++ q)[j + 1]? = some y → ∃ i x p, i ≤ j ∧ ys[i]? = some x ∧ tr[i + 1]? = some p ∧ y ∈ walkSucc rev p.1 x
  notEnd : ∀ i x, i + 1 < ys.length → ys[i]? = some x → some x ≠ e
  check : ∀ p, tr[0]? = some p → p.1.has start = true ∧ ∀ x, e = some x → p.1.has x = true

/-- the successors seen of the nodes already left -/
def WalkClosed (rev : Bool) (tr : List (Graph α V O × Out α)) (ys q : List α) : Prop :=
  ∀ i x p, ys[i]? = some x → tr[i + 1]? = some p → ∀ y ∈ walkSucc rev p.1 x, y ∈ ys ++ q

/-- the state of a walk and the trace of its outcomes -/
inductive WalkOk (start : α) (e : Option α) (rev : Bool) : List (Graph α V O × Out α) → WalkSt α → Prop where
  | fresh : WalkOk start e rev [] .fresh
  | susp (tr : List (Graph α V O × Out α)) (ys q : List α) (vis : Dict α (Option α)) (node : α) (ho : tr.map Prod.snd = ys.map .yielded)
      (hv : vis.keys = ys ++ q) (hl : ys.getLast? = some node) (hi : WalkInv start e rev tr ys q) (hc : WalkClosed rev tr ys q) :
      WalkOk start e rev tr (.susp vis q node)
  | raised (g0 : Graph α V O) (rest : List (Graph α V O × Out α)) (hb : g0.has start = false ∨ ∃ x, e = some x ∧ g0.has x = false)
      (hr : ∀ p ∈ rest, p.2 = .stop) : WalkOk start e rev ((g0, .raised .valueError) :: rest) .done
  | done (tr : List (Graph α V O × Out α)) (ys q : List α) (k : Nat) (ho : tr.map Prod.snd = ys.map .yielded ++ List.replicate (k + 1) .stop)
      (hi : WalkInv start e rev tr ys q) (hend : (q = [] ∧ WalkClosed rev tr ys q) ∨ (ys.getLast? = e)) : WalkOk start e rev tr .done

theorem getElem?_snoc_old {β : Type} {l : List β} {i : Nat} {x y : β} (h : l[i]? = some x) : (l ++ [y])[i]? = some x := by
  rw [List.getElem?_append_left]; exact h
  rcases Nat.lt_or_ge i l.length with h' | h'
  · exact h'
  · rw [List.getElem?_eq_none h'] at h; cases h

theorem walkOk_step (start : α) (e : Option α) (rev : Bool) {tr : List (Graph α V O × Out α)} {s : WalkSt α} (h : WalkOk start e rev tr s) (g : Graph α V O) :
    WalkOk start e rev (tr ++ [(g, (walkNext start e rev g s).1)]) (walkNext start e rev g s).2 := by
  cases h with
  | fresh =>
    simp only [walkNext, List.nil_append]
    by_cases h1 : g.has start = true
    · simp only [h1, Bool.not_true, Bool.false_eq_true, if_false]
      by_cases h2 : ∃ x, e = some x ∧ g.has x = false
      · obtain ⟨x, rfl, hx⟩ := h2
        simp only [endMissing, hx, Bool.not_false, if_true]
        exact .raised _ _ (.inr ⟨x, rfl, hx⟩) (by simp)
      · have h2' : ∀ x, e = some x → g.has x = true := fun x hx => by
          cases hh : g.has x with
          | true => rfl
          | false => exact absurd ⟨x, hx, hh⟩ h2
        have h3 : endMissing g e = false := by
          cases e with
          | none => rfl
          | some x => simp [endMissing, h2' x rfl]
        simp only [h3, Bool.false_eq_true, if_false]
        refine .susp _ [start] [] _ _ rfl rfl rfl ⟨rfl, by simp, ?_, ?_, ?_⟩ ?_
        · intro j y hj; simp at hj
        · intro i x hi; simp at hi
        · intro p hp; simp at hp; subst hp; exact ⟨h1, h2'⟩
        · intro i x p _ hp; simp at hp
    · have h1' : g.has start = false := by simpa using h1
      simp only [h1', Bool.not_false, if_true]
      exact .raised _ _ (.inl h1') (by simp)
  | susp _ ys q vis node ho hv hl hi hc =>
    have hlen : tr.length = ys.length := by have := congrArg List.length ho; simpa using this
    have hpos : ys ≠ [] := by intro hn; rw [hn] at hl; simp at hl
    have hposl : 0 < ys.length := List.length_pos_iff.2 hpos
    simp only [walkNext]
    have hcheck : ∀ (o : Out α) p, (tr ++ [(g, o)])[0]? = some p → p.1.has start = true ∧ ∀ x, e = some x → p.1.has x = true := by
      intro o p hp
      rw [List.getElem?_append_left (by omega)] at hp
      exact hi.check p hp
    have hparent : ∀ (o : Out α) j y, (ys ++ q)[j + 1]? = some y →
        ∃ i x p, i ≤ j ∧ ys[i]? = some x ∧ (tr ++ [(g, o)])[i + 1]? = some p ∧ y ∈ walkSucc rev p.1 x := by
      intro o j y hj
      obtain ⟨i, x, p, h1, h2, h3, h4⟩ := hi.parent j y hj
      exact ⟨i, x, p, h1, h2, getElem?_snoc_old h3, h4⟩
    by_cases he : some node = e
    · rw [if_pos he]
      refine .done _ ys q 0 (by simp [ho]) ⟨hi.first, hi.nodup, hparent _, hi.notEnd, hcheck _⟩ (.inr (by rw [hl, he]))
    · rw [if_neg he]
      obtain ⟨new, n1, n2, n3, n4, n5⟩ := bfsScan_spec node (walkSucc rev g node) vis q
      have hk : (bfsScan node (walkSucc rev g node) (vis, q)).1.keys = ys ++ (q ++ new) := by
        unfold Dict.keys at hv ⊢
        rw [n1, List.map_append, hv]; simp [Function.comp_def]
      rw [n2]
      have hlast : ys[ys.length - 1]? = some node := by rw [List.getLast?_eq_getElem?] at hl; exact hl
      have hnd : (ys ++ (q ++ new)).Nodup := by
        rw [← List.append_assoc, List.nodup_append]
        refine ⟨hi.nodup, n3, fun a ha b hb hab => ?_⟩
        have := (n4 b hb).2
        rw [hv] at this
        exact this (hab ▸ ha)
      have hnewlast : ∀ (o : Out α), (tr ++ [(g, o)])[ys.length - 1 + 1]? = some (g, o) := by
        intro o
        rw [show ys.length - 1 + 1 = tr.length by omega]; simp
      have hpar : ∀ (o : Out α) j y, (ys ++ (q ++ new))[j + 1]? = some y →
          ∃ i x p, i ≤ j ∧ ys[i]? = some x ∧ (tr ++ [(g, o)])[i + 1]? = some p ∧ y ∈ walkSucc rev p.1 x := by
        intro o j y hj
        rw [← List.append_assoc, List.getElem?_append] at hj
        split at hj
        · exact hparent o j y hj
        · rename_i hge
          have hy : y ∈ new := List.mem_of_getElem? hj
          simp only [List.length_append] at hge
          exact ⟨ys.length - 1, node, (g, o), by omega, hlast, hnewlast o, (n4 y hy).1⟩
      have hclo : ∀ (o : Out α), WalkClosed rev (tr ++ [(g, o)]) ys (q ++ new) := by
        intro o i x p hx hp y hy
        rw [List.getElem?_append] at hp
        split at hp
        · have := hc i x p hx hp y hy
          rw [← List.append_assoc]; exact List.mem_append_left _ this
        · rename_i hge
          have hilt : i < ys.length := by
            rcases Nat.lt_or_ge i ys.length with h' | h'
            · exact h'
            · rw [List.getElem?_eq_none h'] at hx; cases hx
          have hi' : i = ys.length - 1 := by omega
          subst hi'
          rw [hlast] at hx; cases hx
          rw [show ys.length - 1 + 1 - tr.length = 0 by omega] at hp
          simp at hp; subst hp
          rcases n5 y hy with hk' | hn
          · rw [hv] at hk'; rw [← List.append_assoc]; exact List.mem_append_left _ hk'
          · simp [hn]
      have hnotEnd : ∀ i x, i < ys.length → ys[i]? = some x → some x ≠ e := by
        intro i x hil hx
        by_cases hil' : i + 1 < ys.length
        · exact hi.notEnd i x hil' hx
        · have hi' : i = ys.length - 1 := by omega
          subst hi'
          rw [hlast] at hx; cases hx; exact he
      cases hq : q ++ new with
      | nil =>
        simp only [walkEmit]
        rw [hq] at hnd hpar hclo
        refine .done _ ys [] 0 (by simp [ho]) ⟨hi.first, hnd, hpar _, hi.notEnd, hcheck _⟩ (.inl ⟨rfl, hclo _⟩)
      | cons m q' =>
        simp only [walkEmit]
        rw [hq] at hnd hpar hclo hk
        have hre : ys ++ m :: q' = ys ++ [m] ++ q' := by simp
        refine .susp _ (ys ++ [m]) q' _ _ (by simp [ho]) (by rw [hk, hre]) (by simp) ⟨?_, ?_, ?_, ?_, hcheck _⟩ ?_
        · cases ys with
          | nil => exact absurd rfl hpos
          | cons => exact hi.first
        · rw [← hre]; exact hnd
        · intro j y hj
          rw [← hre] at hj
          obtain ⟨i, x, p, h1, h2, h3⟩ := hpar _ j y hj
          exact ⟨i, x, p, h1, getElem?_snoc_old h2, h3⟩
        · intro i x hil hx
          simp only [List.length_append, List.length_singleton] at hil
          rw [List.getElem?_append_left (by omega)] at hx
          exact hnotEnd i x (by omega) hx
        · intro i x p hx hp y hy
          rw [← hre]
          refine hclo _ i x p ?_ hp y hy
          have : i + 1 < (tr ++ [(g, Out.yielded m)]).length := by
            rcases Nat.lt_or_ge (i + 1) (tr ++ [(g, Out.yielded m)]).length with h' | h'
            · exact h'
            · rw [List.getElem?_eq_none h'] at hp; cases hp
          simp at this
          rwa [List.getElem?_append_left (by omega)] at hx
  | raised g0 rest hb hr =>
    simp only [walkNext, List.cons_append]
    refine .raised _ _ hb ?_
    intro p hp
    rcases List.mem_append.1 hp with hp | hp
    · exact hr p hp
    · simp at hp; rw [hp]
  | done _ ys q k ho hi hend =>
    simp only [walkNext]
    have hlen : tr.length = ys.length + (k + 1) := by have := congrArg List.length ho; simpa using this
    refine .done _ ys q (k + 1) (by rw [List.map_append, ho, List.append_assoc]; congr 1; rw [List.replicate_succ' (n := k + 1)]; simp)
      ⟨hi.first, hi.nodup, ?_, hi.notEnd, ?_⟩ ?_
    · intro j y hj
      obtain ⟨i, x, p, h1, h2, h3, h4⟩ := hi.parent j y hj
      exact ⟨i, x, p, h1, h2, getElem?_snoc_old h3, h4⟩
    · intro p hp
      rw [List.getElem?_append_left (by omega)] at hp
      exact hi.check p hp
    · rcases hend with ⟨h1, h2⟩ | h1
      · refine .inl ⟨h1, fun i x p hx hp => ?_⟩
        have hilt : i < ys.length := by
          rcases Nat.lt_or_ge i ys.length with h' | h'
          · exact h'
          · rw [List.getElem?_eq_none h'] at hx; cases hx
        rw [List.getElem?_append_left (by omega)] at hp
        exact h2 i x p hx hp
      · exact .inr h1

theorem walkOk_drive (start : α) (e : Option α) (rev : Bool) (evs : List (Ev α V O)) : ∀ (g : Graph α V O) (tr : List (Graph α V O × Out α)) (s : WalkSt α),
    WalkOk start e rev tr s → ∃ s', WalkOk start e rev (tr ++ drive (walkNext start e rev) g s evs) s' := by
  induction evs with
  | nil => intro g tr s h; exact ⟨s, by simpa [drive] using h⟩
  | cons ev evs ih =>
    intro g tr s h
    cases ev with
    | call op => exact ih _ tr s h
    | next =>
      obtain ⟨s', h'⟩ := ih g _ _ (walkOk_step start e rev h g)
      exact ⟨s', by simpa [drive] using h'⟩

theorem breadthFirstWalk_eq (g : Graph α V O) (start : α) (e : Option α) (rev : Bool) : g.breadthFirstWalk start e rev =
    if !g.has start then some (.error .valueError)
    else if endMissing g e then some (.error .valueError)
    else match pyWhile (bfwStep (if rev then g.nodesTo else g.nodesFrom) e) (Dict.empty.set start none, [start], []) with
      | none => none
      | some out => some (.ok out) := by
  cases e <;> rfl

/-! ### without changes the generator is the list of C14 -/

/-- the outcomes of successive calls of `next` on an unchanged graph -/
def walkNth (start : α) (e : Option α) (rev : Bool) (g : Graph α V O) : Nat → Out α × WalkSt α
  | 0 => walkNext start e rev g .fresh
  | n + 1 => walkNext start e rev g (walkNth start e rev g n).2

theorem walkNth_done {start : α} {e : Option α} {rev : Bool} {g : Graph α V O} {n : Nat} (h : (walkNth start e rev g n).2 = .done) (i : Nat) :
    walkNth start e rev g (n + 1 + i) = (.stop, .done) := by
  induction i with
  | zero => show walkNext start e rev g (walkNth start e rev g n).2 = _; rw [h]; rfl
  | succ i ih => show walkNext start e rev g (walkNth start e rev g (n + 1 + i)).2 = _; rw [ih]; rfl

theorem walk_stream {start : α} {e : Option α} {rev : Bool} {g : Graph α V O} (h0 : walkNth start e rev g 0 = walkEmit (Dict.empty.set start none) [start])
    {out : List α} (h : pyWhile (bfwStep (if rev then g.nodesTo else g.nodesFrom) e) (Dict.empty.set start none, [start], []) = some out) :
    (∀ i x, out[i]? = some x → (walkNth start e rev g i).1 = .yielded x) ∧ walkNth start e rev g out.length = (.stop, .done) := by
  refine pyWhile_inv (step := bfwStep (if rev then g.nodesTo else g.nodesFrom) e) (I := fun (s : Dict α (Option α) × List α × List α) =>
      (∀ i x, s.2.2[i]? = some x → (walkNth start e rev g i).1 = .yielded x) ∧ walkNth start e rev g s.2.2.length = walkEmit s.1 s.2.1)
    (Q := fun out => (∀ i x, out[i]? = some x → (walkNth start e rev g i).1 = .yielded x) ∧ walkNth start e rev g out.length = (.stop, .done))
    ?_ ?_ (s := (Dict.empty.set start none, [start], [])) ⟨by simp, h0⟩ h
  all_goals
    rintro ⟨vis, q, acc⟩ r ⟨i1, i2⟩ hst
    cases q with
    | nil =>
      simp only [bfwStep] at hst
      cases hst
      try exact ⟨i1, i2⟩
    | cons node q =>
      have hk : walkNth start e rev g acc.length = (.yielded node, .susp vis q node) := i2
      have hk1 : walkNth start e rev g (acc.length + 1) = walkNext start e rev g (.susp vis q node) := by
        show walkNext start e rev g (walkNth start e rev g acc.length).2 = _; rw [hk]
      have hy : ∀ i x, (acc ++ [node])[i]? = some x → (walkNth start e rev g i).1 = .yielded x := by
        intro i x hi
        rw [List.getElem?_append] at hi
        split at hi
        · exact i1 i x hi
        · rename_i hge
          have : i = acc.length := by
            rcases Nat.lt_or_ge (i - acc.length) 1 with h' | h'
            · omega
            · rw [List.getElem?_eq_none (by simpa using h')] at hi; cases hi
          subst this
          simp at hi; rw [hk, hi]
      simp only [bfwStep] at hst
      by_cases he : some node = e
      · rw [if_pos he] at hst
        cases hst
        try
          refine ⟨hy, ?_⟩
          rw [List.length_append, List.length_singleton, hk1]
          simp only [walkNext]; rw [if_pos he]
      · rw [if_neg he] at hst
        cases hst
        try
          refine ⟨hy, ?_⟩
          rw [List.length_append, List.length_singleton, hk1]
          simp only [walkNext]; rw [if_neg he]
          cases rev <;> rfl

theorem drive_walk_const (start : α) (e : Option α) (rev : Bool) (g : Graph α V O) (k : Nat) : ∀ (n i : Nat) (p : Graph α V O × Out α),
    (drive (walkNext start e rev) g (walkNth start e rev g n).2 (List.replicate k .next))[i]? = some p → p.2 = (walkNth start e rev g (n + 1 + i)).1 := by
  induction k with
  | zero => intro n i p h; simp [drive] at h
  | succ k ih =>
    intro n i p h
    rw [List.replicate_succ] at h
    simp only [drive] at h
    cases i with
    | zero => simp at h; rw [← h]; rfl
    | succ i =>
      rw [List.getElem?_cons_succ] at h
      rw [ih (n + 1) i p h, show n + 1 + 1 + i = n + 1 + (i + 1) by omega]

theorem drive_built {σ : Type} (nxt : Graph α V O → σ → Out α × σ) (evs : List (Ev α V O)) : ∀ (g : Graph α V O) (s : σ), g.Built →
    ∀ p ∈ drive nxt g s evs, p.1.Built := by
  induction evs with
  | nil => intro g s _ p hp; simp [drive] at hp
  | cons ev evs ih =>
    intro g s hg p hp
    cases ev with
    | call op => exact ih _ s (hg.step op) p hp
    | next =>
      rcases List.mem_cons.1 hp with rfl | hp
      · exact hg
      · exact ih g _ hg p hp

end GT

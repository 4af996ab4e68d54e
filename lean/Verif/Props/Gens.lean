import Verif.Search.Gens
import Verif.Props.Dag
import Verif.Props.Search
/-
Property theorems C107: the generators `topological_sort` and `breadth_first_walk` when the graph is changed between two calls of `next`.
-/
namespace GT
open Graph
variable {α V O : Type} [DecidableEq α]

/-- **C107**, `topological_sort`. A program holds a graph and an iterator `it = graph.topological_sort(key)` and calls `next(it)` and arbitrary operations of the graph
in any order. The first `next` fixes the answer: with `out` and `e` as C23 says for the graph `g0` at that moment, the calls yield the nodes of `out` one after the
other, then raise `e` (or `StopIteration`), then always `StopIteration` - no matter how the graph is changed meanwhile. -/
theorem C107_topological_sort_snapshot {g : Graph α V O} (hg : g.Built) {srt : List α → List α} (hs : ∀ l, (srt l).Perm l) (evs : List (Ev α V O))
    {g0 : Graph α V O} {o : Out α} {rest : List (Graph α V O × Out α)} (h : drive (topoNext srt) g .fresh evs = (g0, o) :: rest) :
    ∃ out e, g0.topologicalSort srt = some (out, e) ∧
      ∀ i p, ((g0, o) :: rest)[i]? = some p →
        (∀ x, out[i]? = some x → p.2 = .yielded x) ∧
        (i = out.length → p.2 = match (e : Option Err) with | none => .stop | some e => .raised e) ∧
        (out.length < i → p.2 = .stop) := by
  have hb : g0.Built := drive_built _ evs g _ hg (g0, o) (by rw [h]; simp)
  obtain ⟨out, e, h1, _⟩ := C23_topological_sort hb hs
  refine ⟨out, e, h1, fun i p hi => ?_⟩
  have hp := topo_drive h h1 i p hi
  rw [hp]
  unfold outcomeAt
  refine ⟨fun x hx => by rw [hx], fun hE => ?_, fun hlt => ?_⟩
  · subst hE
    rw [List.getElem?_eq_none (by omega)]
    simp only [if_true]
    rfl
  · rw [List.getElem?_eq_none (by omega)]
    simp only
    rw [if_neg (by omega)]

/-- a graph changed in the middle: 1 → 2 → 3, after the first item 3 → 1 and 2 → 9 are added and 2 is deleted; the iterator still yields 1, 2, 3 -/
example : (drive (topoNext id) (run [.addEdge 1 2 (.scalar 1) false, .addEdge 2 3 (.scalar 1) false] : Graph Nat Rat Nat) .fresh
    [.next, .call (.addEdge 3 1 (.scalar 1) false), .call (.addEdge 2 9 (.scalar 1) false), .next, .call (.delNode 2), .next, .next, .next]).map Prod.snd =
      [.yielded 1, .yielded 2, .yielded 3, .stop, .stop] ∧
    (drive (topoNext id) (run [.addEdge 1 2 (.scalar 1) false, .addEdge 2 2 (.scalar 1) false] : Graph Nat Rat Nat) .fresh
    [.next, .call (.delEdge 2 2), .next, .next]).map Prod.snd = [.yielded 1, .raised .attributeError, .stop] := by decide +kernel

theorem yield_at {tr : List (Graph α V O × Out α)} {ys : List α} {tail : List (Out α)} (ho : tr.map Prod.snd = ys.map .yielded ++ tail) (i : Nat) (p : Graph α V O × Out α)
    (hp : tr[i]? = some p) (x : α) (hlen : ∀ o ∈ tail, o ≠ .yielded x) : p.2 = .yielded x ↔ ys[i]? = some x := by
  have h1 : (tr.map Prod.snd)[i]? = some p.2 := by simp [hp]
  rw [ho, List.getElem?_append] at h1
  split at h1
  · rename_i hlt
    simp only [List.length_map] at hlt
    rw [List.getElem?_map, List.getElem?_eq_getElem hlt] at h1
    simp only [Option.map_some, Option.some.injEq] at h1
    rw [← h1, List.getElem?_eq_getElem hlt]
    simp
  · rename_i hge
    simp only [List.length_map] at hge
    have hm := List.mem_of_getElem? h1
    rw [List.getElem?_eq_none (by omega)]
    simp [hlen _ hm]

/-- the `i`-th call of `next` (from 0) was made when the graph was `h` and had the outcome `o` -/
def At (tr : List (Graph α V O × Out α)) (i : Nat) (h : Graph α V O) (o : Out α) : Prop := tr[i]? = some (h, o)

/-- What can be relied on if the graph changes during a `breadth_first_walk(start, end, reversed_walk)`; `tr` lists the calls of `next`. -/
structure LiveWalk (start : α) (e : Option α) (rev : Bool) (tr : List (Graph α V O × Out α)) : Prop where
  /-- only the first call can raise, and only `ValueError` … -/
  raises : ∀ i h er, At tr i h (.raised er) → i = 0 ∧ er = .valueError
  /-- … exactly if `start` or `end` is missing then -/
  checks : ∀ h o, At tr 0 h o → (o = .raised .valueError ↔ h.has start = false ∨ ∃ x, e = some x ∧ h.has x = false)
  /-- the first node is `start` -/
  first : ∀ h o, At tr 0 h o → o = .raised .valueError ∨ o = .yielded start
  /-- no node is yielded twice -/
  once : ∀ i j h h' x, At tr i h (.yielded x) → At tr j h' (.yielded x) → i = j
  /-- after `StopIteration` no node comes any more -/
  stays : ∀ i j h h' o, i < j → At tr i h .stop → At tr j h' o → o = .stop
  /-- every node but the first was a neighbour of a node `x` yielded before, when `next` was called the next time after `x` -/
  found : ∀ j h y, At tr (j + 1) h (.yielded y) → ∃ i x h1 h2 o, i ≤ j ∧ At tr i h1 (.yielded x) ∧ At tr (i + 1) h2 o ∧ walkRel h2 rev x y
  /-- after `end` the walk stops -/
  ends : ∀ i h h' x o, At tr i h (.yielded x) → e = some x → At tr (i + 1) h' o → o = .stop
  /-- if the walk stops, it raised at first, or `end` was yielded, or every neighbour that a yielded node had at the call of `next` following it has been yielded -/
  complete : ∀ k h, At tr k h .stop → (∃ h0, At tr 0 h0 (.raised .valueError)) ∨
    (∃ i h1 x, i < k ∧ At tr i h1 (.yielded x) ∧ e = some x) ∨
    (∀ i h1 x h2 o y, At tr i h1 (.yielded x) → At tr (i + 1) h2 o → walkRel h2 rev x y → ∃ j h3, j < k ∧ At tr j h3 (.yielded y))

/-- **C107**, `breadth_first_walk`. A program holds a graph and an iterator `it = graph.breadth_first_walk(start, end, reversed_walk)` and calls `next(it)` and arbitrary
operations of the graph in any order: see `LiveWalk` for what holds. -/
theorem C107_breadth_first_walk_live {g : Graph α V O} (hg : g.Built) (start : α) (e : Option α) (rev : Bool) (evs : List (Ev α V O)) :
    LiveWalk start e rev (drive (walkNext start e rev) g .fresh evs) := by
  generalize h : drive (walkNext start e rev) g .fresh evs = tr
  have hB : ∀ p ∈ tr, p.1.Built := by rw [← h]; exact drive_built _ evs g _ hg
  have hrel : ∀ (p : Graph α V O × Out α) (x y : α), p ∈ tr → (y ∈ walkSucc rev p.1 x ↔ walkRel p.1 rev x y) := by
    intro p x y hp
    unfold walkSucc walkRel
    cases rev with
    | false => exact mem_nodesFrom
    | true => exact (hB p hp).inv.mem_nodesTo
  obtain ⟨s', hok⟩ := walkOk_drive start e rev evs g [] .fresh .fresh
  rw [List.nil_append, h] at hok
  -- the common part
  have main : ∀ (ys q : List α) (k : Nat), tr.map Prod.snd = ys.map .yielded ++ List.replicate k .stop → WalkInv start e rev tr ys q →
      (k ≠ 0 → (q = [] ∧ WalkClosed rev tr ys q) ∨ ys.getLast? = e) → LiveWalk start e rev tr := by
    intro ys q k ho hi hend
    have hlen : tr.length = ys.length + k := by have := congrArg List.length ho; simpa using this
    have hY : ∀ (i : Nat) (p : Graph α V O × Out α) (x : α), tr[i]? = some p → (p.2 = .yielded x ↔ ys[i]? = some x) := by
      intro i p x hp
      exact yield_at ho i p hp x (fun o hm => by rw [List.eq_of_mem_replicate hm]; simp)
    have hO : ∀ i p, tr[i]? = some p → ys.length ≤ i → p.2 = .stop := by
      intro i p hp hle
      have h1 : (tr.map Prod.snd)[i]? = some p.2 := by simp [hp]
      rw [ho, List.getElem?_append_right (by simpa using hle)] at h1
      exact List.eq_of_mem_replicate (List.mem_of_getElem? h1)
    have hlt : ∀ i p, tr[i]? = some p → p.2 = .stop → ys.length ≤ i := by
      intro i p hp hst
      rcases Nat.lt_or_ge i ys.length with h' | h'
      · have := (hY i p _ hp).2 (List.getElem?_eq_getElem h')
        rw [hst] at this; cases this
      · exact h'
    have hcase : ∀ (i : Nat) (p : Graph α V O × Out α), tr[i]? = some p → p.2 = .stop ∨ ∃ x, p.2 = .yielded x := by
      intro i p hp
      rcases Nat.lt_or_ge i ys.length with h' | h'
      · exact .inr ⟨_, (hY i p _ hp).2 (List.getElem?_eq_getElem h')⟩
      · exact .inl (hO i p hp h')
    have hndy : ys.Nodup := (List.nodup_append.1 hi.nodup).1
    have htr : ∀ i, i < ys.length → ∃ p, tr[i]? = some p := fun i hil => ⟨_, List.getElem?_eq_getElem (by omega)⟩
    have hilt : ∀ {i : Nat} {x : α}, ys[i]? = some x → i < ys.length := by
      intro i x hx
      rcases Nat.lt_or_ge i ys.length with h' | h'
      · exact h'
      · rw [List.getElem?_eq_none h'] at hx; cases hx
    refine ⟨?_, ?_, ?_, ?_, ?_, ?_, ?_, ?_⟩
    · intro i h er hp
      rcases hcase i _ hp with h1 | ⟨x, h1⟩ <;> cases h1
    · intro h o hp
      obtain ⟨c1, c2⟩ := hi.check _ hp
      constructor
      · intro hr
        subst hr
        rcases hcase 0 _ hp with h1 | ⟨x, h1⟩ <;> cases h1
      · rintro (h1 | ⟨x, h1, h2⟩)
        · rw [c1] at h1; cases h1
        · rw [c2 x h1] at h2; cases h2
    · intro h o hp
      exact .inr ((hY 0 _ start hp).2 (by rw [← List.head?_eq_getElem?, hi.first]))
    · intro i j h h' x hp hq
      have h1 := (hY i _ x hp).1 rfl
      have h2 := (hY j _ x hq).1 rfl
      exact (List.getElem?_inj (hilt h1) hndy).1 (by rw [h1, h2])
    · intro i j h h' o hij hp hq
      exact hO j _ hq (by have := hlt i _ hp rfl; omega)
    · intro j h y hp
      have h1 := (hY (j + 1) _ y hp).1 rfl
      obtain ⟨i, x, r, a1, a2, a3, a4⟩ := hi.parent j y (by rw [List.getElem?_append_left (hilt h1)]; exact h1)
      obtain ⟨q', hq'⟩ := htr i (hilt a2)
      have hq2 := (hY i q' x hq').2 a2
      obtain ⟨h', o'⟩ := q'
      obtain ⟨h'', o''⟩ := r
      subst hq2
      exact ⟨i, x, h', h'', o'', a1, hq', a3, (hrel _ x y (List.mem_of_getElem? a3)).1 a4⟩
    · intro i h h' x o hp he hq'
      have h1 := (hY i _ x hp).1 rfl
      refine hO (i + 1) _ hq' ?_
      rcases Nat.lt_or_ge (i + 1) ys.length with h' | h'
      · exact absurd he.symm (hi.notEnd i x h' h1)
      · exact h'
    · intro m h hs
      have hm := hlt m _ hs rfl
      have hk : k ≠ 0 := by
        intro hk
        have : m < tr.length := by
          rcases Nat.lt_or_ge m tr.length with h' | h'
          · exact h'
          · have hs' : tr[m]? = some (h, Out.stop) := hs
            rw [List.getElem?_eq_none h'] at hs'; cases hs'
        omega
      rcases hend hk with ⟨rfl, hc⟩ | hE
      · refine .inr (.inr fun i h' x h'' o y hp hr hy => ?_)
        have h1 := (hY i _ x hp).1 rfl
        have h2 := hc i x _ h1 hr y ((hrel _ x y (List.mem_of_getElem? hr)).2 hy)
        rw [List.append_nil] at h2
        obtain ⟨j, hj⟩ := List.mem_iff_getElem?.1 h2
        obtain ⟨q', hq'⟩ := htr j (hilt hj)
        have hq2 := (hY j q' y hq').2 hj
        obtain ⟨h3, o3⟩ := q'
        subst hq2
        exact ⟨j, h3, by have := hilt hj; omega, hq'⟩
      · have hne : ys ≠ [] := by intro hn; have := hi.first; rw [hn] at this; simp at this
        have hpos : 0 < ys.length := List.length_pos_iff.2 hne
        obtain ⟨p, hp⟩ := htr (ys.length - 1) (by omega)
        rw [List.getLast?_eq_getElem?] at hE
        cases hx : ys[ys.length - 1]? with
        | none => rw [List.getElem?_eq_none_iff] at hx; omega
        | some x =>
          have hq2 := (hY _ p x hp).2 hx
          obtain ⟨h3, o3⟩ := p
          subst hq2
          exact .inr (.inl ⟨ys.length - 1, h3, x, by omega, hp, by rw [← hE, hx]⟩)
  cases hok with
  | fresh => constructor <;> simp [At]
  | susp _ ys q vis node ho hv hl hi hc => exact main ys q 0 (by simpa using ho) hi (by simp)
  | done _ ys q k ho hi hend => exact main ys q (k + 1) ho hi (fun _ => hend)
  | raised g0 rest hb hr =>
    have h0 : ∀ h o, At ((g0, Out.raised Err.valueError) :: rest) 0 h o → g0 = h ∧ .raised .valueError = o := by
      intro h o hp; unfold At at hp; simpa using hp
    have hr' : ∀ i h o, At ((g0, Out.raised Err.valueError) :: rest) (i + 1) h o → o = .stop := by
      intro i h o hp
      unfold At at hp
      rw [List.getElem?_cons_succ] at hp
      exact hr _ (List.mem_of_getElem? hp)
    have hy : ∀ i h x, ¬ At ((g0, Out.raised Err.valueError) :: rest) i h (.yielded x) := by
      intro i h x hp
      cases i with
      | zero => cases (h0 _ _ hp).2
      | succ i => cases hr' i _ _ hp
    refine ⟨?_, ?_, ?_, ?_, ?_, ?_, ?_, ?_⟩
    · intro i h er hp
      cases i with
      | zero => cases (h0 _ _ hp).2; exact ⟨rfl, rfl⟩
      | succ i => cases hr' i _ _ hp
    · intro h o hp
      obtain ⟨rfl, rfl⟩ := h0 _ _ hp
      exact ⟨fun _ => hb, fun _ => rfl⟩
    · intro h o hp; exact .inl (h0 _ _ hp).2.symm
    · intro i j h h' x hp; exact absurd hp (hy _ _ _)
    · intro i j h h' o hij hp hq
      cases j with
      | zero => omega
      | succ j => exact hr' j _ _ hq
    · intro j h y hp; exact absurd hp (hy _ _ _)
    · intro i h h' x o hp; exact absurd hp (hy _ _ _)
    · intro k h hs
      exact .inl ⟨g0, rfl⟩

/-- **C107**, `breadth_first_walk` while edges are only added. If the edges `R` are there at every call of `next` and the walk (without `end`) stops, every node that
`start` reaches by `R` has been yielded; if every edge at any call is one of `R'`, only such nodes are yielded. -/
theorem C107_walk_reaches {g : Graph α V O} (hg : g.Built) (start : α) (rev : Bool) (evs : List (Ev α V O)) {tr : List (Graph α V O × Out α)}
    (h : drive (walkNext start none rev) g .fresh evs = tr) :
    (∀ R : α → α → Prop, (∀ p ∈ tr, ∀ x y, R x y → walkRel p.1 rev x y) → ∀ k g', At tr k g' .stop → (∃ g0 x, At tr 0 g0 (.yielded x)) →
      ∀ y, Reach R start y → ∃ j g'', At tr j g'' (.yielded y)) ∧
    (∀ R' : α → α → Prop, (∀ p ∈ tr, ∀ x y, walkRel p.1 rev x y → R' x y) → ∀ j g' y, At tr j g' (.yielded y) → Reach R' start y) := by
  have hl := C107_breadth_first_walk_live hg start none rev evs
  rw [h] at hl
  refine ⟨fun R hR k g' hk ⟨g0, x0, h0⟩ y hy => ?_, fun R hR j => ?_⟩
  · refine Reach.closed (fun z => ∃ j g'', At tr j g'' (.yielded z)) ?_ ?_ hy
    · rcases hl.first _ _ h0 with h' | h'
      · cases h'
      · cases h'; exact ⟨0, g0, h0⟩
    · rintro b c ⟨j, gj, hj⟩ hbc
      have hjk : j < k := by
        rcases Nat.lt_or_ge j k with h' | h'
        · exact h'
        · rcases Nat.lt_or_ge k j with h'' | h''
          · cases hl.stays k j _ _ _ h'' hk hj
          · have : j = k := by omega
            subst this
            unfold At at hj hk
            rw [hj] at hk
            cases hk
      have hklen : k < tr.length := by
        rcases Nat.lt_or_ge k tr.length with h' | h'
        · exact h'
        · unfold At at hk; rw [List.getElem?_eq_none h'] at hk; cases hk
      have hn : At tr (j + 1) (tr[j + 1]'(by omega)).1 (tr[j + 1]'(by omega)).2 := by
        unfold At; rw [List.getElem?_eq_getElem (by omega)]
      rcases hl.complete k g' hk with ⟨h', hh⟩ | ⟨i, h', x, _, _, hx⟩ | hc
      · unfold At at hh h0; rw [h0] at hh; cases hh
      · cases hx
      · obtain ⟨j', h3, _, h4⟩ := hc j gj b _ _ c hj hn (hR _ (List.getElem_mem _) b c hbc)
        exact ⟨j', h3, h4⟩
  · induction j using Nat.strongRecOn with
    | ind j ih =>
      intro g' y hy
      cases j with
      | zero =>
        rcases hl.first _ _ hy with h' | h'
        · cases h'
        · cases h'; exact Reach.refl _
      | succ j =>
        obtain ⟨i, x, h1, h2, o, a1, a2, a3, a4⟩ := hl.found j g' y hy
        exact (ih i (by omega) h1 x a2).tail (hR _ (List.mem_of_getElem? a3) x y a4)

/-- **C107**, without changes the iterator yields the list of C14 (raises what C14 raises), then `StopIteration`. -/
theorem C107_walk_unchanged {g : Graph α V O} (hg : g.Built) (start : α) (e : Option α) (rev : Bool) (k : Nat) :
    ∃ r, g.breadthFirstWalk start e rev = some r ∧
      ∀ i p, (drive (walkNext start e rev) g .fresh (List.replicate k .next))[i]? = some p →
        match r with
        | .error er => p.2 = if i = 0 then .raised er else .stop
        | .ok out => (∀ x, out[i]? = some x → p.2 = .yielded x) ∧ (out.length ≤ i → p.2 = .stop) := by
  have hnth : ∀ i p, (drive (walkNext start e rev) g .fresh (List.replicate k .next))[i]? = some p → p.2 = (walkNth start e rev g i).1 := by
    intro i p hp
    cases k with
    | zero => simp [drive] at hp
    | succ k =>
      rw [List.replicate_succ] at hp
      simp only [drive] at hp
      cases i with
      | zero => simp at hp; rw [← hp]; rfl
      | succ i =>
        rw [List.getElem?_cons_succ] at hp
        rw [drive_walk_const start e rev g k 0 i p hp, show 0 + 1 + i = i + 1 by omega]
  by_cases hbad : g.has start = false ∨ ∃ x, e = some x ∧ g.has x = false
  · refine ⟨_, C14_errors start e rev hbad, fun i p hp => ?_⟩
    have h0 : walkNth start e rev g 0 = (.raised .valueError, .done) := by
      show walkNext start e rev g .fresh = _
      simp only [walkNext]
      rcases hbad with hb | ⟨x, rfl, hb⟩
      · simp [hb]
      · cases hs : g.has start <;> simp [hb, endMissing]
    simp only [hnth i p hp]
    cases i with
    | zero => rw [h0]; rfl
    | succ i =>
      have := walkNth_done (n := 0) (by rw [h0]) i (start := start) (e := e) (rev := rev) (g := g)
      rw [show 0 + 1 + i = i + 1 by omega] at this
      rw [this]; rfl
  · have hs : g.has start = true := by
      cases hh : g.has start with
      | true => rfl
      | false => exact absurd (.inl hh) hbad
    have he : ∀ x, e = some x → g.has x = true := fun x hx => by
      cases hh : g.has x with
      | true => rfl
      | false => exact absurd (.inr ⟨x, hx, hh⟩) hbad
    have hem : endMissing g e = false := by
      cases e with
      | none => rfl
      | some x => simp [endMissing, he x rfl]
    have h0 : walkNth start e rev g 0 = walkEmit (Dict.empty.set start none) [start] := by
      show walkNext start e rev g .fresh = _
      simp [walkNext, hs, hem]
    have hex : ∃ out, g.breadthFirstWalk start e rev = some (.ok out) := by
      cases e with
      | none => obtain ⟨out, h1, _⟩ := C14_breadth_first_walk hg start rev hs; exact ⟨out, h1⟩
      | some x => obtain ⟨_, out, _, h1, _⟩ := C14_breadth_first_walk_end hg start x rev hs (he x rfl); exact ⟨out, h1⟩
    obtain ⟨out, hout⟩ := hex
    refine ⟨_, hout, fun i p hp => ?_⟩
    have hw : pyWhile (bfwStep (if rev then g.nodesTo else g.nodesFrom) e) (Dict.empty.set start none, [start], []) = some out := by
      rw [breadthFirstWalk_eq] at hout
      simp only [hs, hem, Bool.not_true, Bool.false_eq_true, if_false] at hout
      revert hout
      generalize pyWhile (bfwStep (if rev = true then g.nodesTo else g.nodesFrom) e) (Dict.empty.set start none, [start], []) = w
      intro hout
      cases w with
      | none => cases hout
      | some o =>
        simp only [Option.some.injEq, Except.ok.injEq] at hout
        rw [hout]
    obtain ⟨s1, s2⟩ := walk_stream h0 hw
    simp only [hnth i p hp]
    refine ⟨fun x hx => s1 i x hx, fun hle => ?_⟩
    rcases Nat.lt_or_ge out.length i with h' | h'
    · have := walkNth_done (n := out.length) (by rw [s2]) (i - out.length - 1) (start := start) (e := e) (rev := rev) (g := g)
      rw [show out.length + 1 + (i - out.length - 1) = i by omega] at this
      rw [this]
    · rw [show i = out.length by omega, s2]

/-- 1 → 2 → 3 -/
def walkLine : Graph Nat Rat Nat := run [.addEdge 1 2 (.scalar 1) false, .addEdge 2 3 (.scalar 1) false]

/-- an edge added during the walk is followed -/
example : (drive (walkNext 1 none false) walkLine .fresh [.next, .next, .call (.addEdge 2 7 (.scalar 1) false), .next, .next, .next]).map Prod.snd =
    [.yielded 1, .yielded 2, .yielded 3, .yielded 7, .stop] := by decide +kernel

/-- **C107** (remark): deleting the nodes as they come cuts the walk off: `for n in g.breadth_first_walk(1): g.del_node(n)` on 1 → 2 → 3 sees 1 only. -/
theorem C107_deleting_counterexample :
    (drive (walkNext 1 none false) walkLine .fresh [.next, .call (.delNode 1), .next]).map Prod.snd = [.yielded 1, .stop] ∧
    (drive (walkNext 1 none false) walkLine .fresh [.next, .next, .next, .next]).map Prod.snd = [.yielded 1, .yielded 2, .yielded 3, .stop] := by
  decide +kernel

end GT

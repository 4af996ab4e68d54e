import Verif.Other.Jam
/-
Proofs about the traffic jam solver: soundness and completeness of the search, for every temperature function, every set order and every
clock.
-/
namespace GT
open Graph
variable {ι α O : Type} [DecidableEq ι] [DecidableEq α]

/-- `x` is prohibited for the load `k` -/
def Prohibited (loads : List (Load ι α)) (k : ι) (x : α) : Prop := ∃ l ∈ loads, l.id = k ∧ x ∈ l.prohibited

/-- `x` is one of the ends of the load `k` -/
def IsEnd (loads : List (Load ι α)) (k : ι) (x : α) : Prop := ∃ l ∈ loads, l.id = k ∧ x ∈ l.ends

/-- what `check_user_input` guarantees and the constructor assumes -/
structure JamOk (c : JamCfg ι α O) : Prop where
  built : c.graph.Built
  nonneg : NonNeg c.graph.edge
  ids : (c.loads.map Load.id).Nodup
  starts : ∀ l ∈ c.loads, c.graph.has l.start = true
  ends : ∀ l ∈ c.loads, ∀ x ∈ l.ends, c.graph.has x = true
  endsSet : ∀ l ∈ c.loads, l.ends.Nodup
  ord : ∀ l, (c.ord l).Perm l

variable {c : JamCfg ι α O}

/-- a placement of the given loads on nodes of the network -/
def JamCfg.InU (c : JamCfg ι α O) (s : Placement ι α) : Prop := s.map Prod.fst = c.loads.map Load.id ∧ ∀ p ∈ s, c.graph.has p.2 = true

/-- an edge function read in a direction -/
def dirE {β V : Type} (e : β → β → Option V) (rev : Bool) (a b : β) : Option V := if rev then e b a else e a b

/-- the option: a load goes (comes) from `x` to `y` -/
def JamCfg.Opt (c : JamCfg ι α O) (rev : Bool) (s t : Placement ι α) (d : Rat) : Prop :=
  ∃ k x y, (k, x) ∈ s ∧ dirE c.graph.edge rev x y = some d ∧ Free s y ∧ ¬ Prohibited c.loads k y ∧ t = moveTo k y s

/-- a recorded movement of length `d` -/
def JamCfg.Rec (c : JamCfg ι α O) (s t : Placement ι α) (d : Rat) : Prop :=
  ∃ k x y, (k, x) ∈ s ∧ c.graph.edge x y = some d ∧ Free s y ∧ (¬ Prohibited c.loads k y ∨ IsEnd c.loads k y) ∧ t = moveTo k y s

/-- the placements of the reverse search: distinct places, allowed or ends -/
def JamCfg.Good (c : JamCfg ι α O) (rev : Bool) (s : Placement ι α) : Prop :=
  rev = true → Distinct s ∧ ∀ p ∈ s, ¬ Prohibited c.loads p.1 p.2 ∨ IsEnd c.loads p.1 p.2

theorem InU.nodup (h : JamOk c) {s : Placement ι α} (hs : c.InU s) : (s.map Prod.fst).Nodup := by rw [hs.1]; exact h.ids

theorem InU.move {s : Placement ι α} (hs : c.InU s) {k : ι} {y : α} (hy : c.graph.has y = true) : c.InU (moveTo k y s) := by
  refine ⟨by rw [moveTo_fst]; exact hs.1, ?_⟩
  rintro ⟨j, x⟩ hp
  rcases mem_moveTo.1 hp with ⟨_, rfl, _⟩ | ⟨_, h⟩
  · exact hy
  · exact hs.2 _ h

theorem moveTo_moveTo {s : Placement ι α} (hnd : (s.map Prod.fst).Nodup) {k : ι} {x y : α} (hx : (k, x) ∈ s) :
    moveTo k x (moveTo k y s) = s := by
  unfold moveTo
  rw [List.map_map]
  conv => rhs; rw [← List.map_id s]
  apply List.map_congr_left
  rintro ⟨j, z⟩ hp
  simp only [Function.comp]
  by_cases h : j = k
  · subst h; simp [place_unique hnd hx hp]
  · simp [h]

theorem opt_rec (h : JamOk c) {rev : Bool} {s t : Placement ι α} {d : Rat} (hs : c.InU s) (hg : c.Good rev s) (ho : c.Opt rev s t d) :
    c.InU t ∧ c.Good rev t ∧ c.Rec (if rev then t else s) (if rev then s else t) d := by
  obtain ⟨k, x, y, h1, h2, h3, h4, rfl⟩ := ho
  have hy : c.graph.has y = true := by
    unfold dirE at h2
    split at h2
    · exact has_iff.2 (h.built.inv.edge_mem h2).1
    · exact has_iff.2 (h.built.inv.edge_mem h2).2
  refine ⟨InU.move hs hy, ?_, ?_⟩
  · intro hr
    obtain ⟨h5, h6⟩ := hg hr
    refine ⟨h5.moveTo h3, ?_⟩
    rintro ⟨j, z⟩ hp
    rcases mem_moveTo.1 hp with ⟨rfl, rfl, _⟩ | ⟨_, h⟩
    · exact .inl h4
    · exact h6 _ h
  · cases rev with
    | false => exact ⟨k, x, y, h1, h2, h3, .inl h4, rfl⟩
    | true =>
      obtain ⟨h5, h6⟩ := hg rfl
      refine ⟨k, y, x, mem_moveTo.2 (.inl ⟨rfl, rfl, x, h1⟩), h2, ?_, h6 _ h1, (moveTo_moveTo h5.1 h1).symm⟩
      intro j hj
      rcases mem_moveTo.1 hj with ⟨_, rfl, _⟩ | ⟨hjk, hj⟩
      · exact h3 k h1
      · exact hjk (place_unique' h5.2 hj h1)

theorem rec_unique {s t : Placement ι α} (hnd : (s.map Prod.fst).Nodup) {d d' : Rat} (h1 : c.Rec s t d)
    (h2 : c.Rec s t d') : d = d' := by
  obtain ⟨k, x, y, a1, a2, a3, _, rfl⟩ := h1
  obtain ⟨k', x', y', b1, b2, b3, _, b5⟩ := h2
  have hk : k = k' := by
    apply Classical.byContradiction
    intro hne
    have : (k, y) ∈ moveTo k' y' s := by rw [← b5]; exact mem_moveTo.2 (.inl ⟨rfl, rfl, x, a1⟩)
    rcases mem_moveTo.1 this with ⟨h, _⟩ | ⟨_, h⟩
    · exact hne h
    · exact a3 k h
  subst hk
  have hx := place_unique hnd a1 b1
  subst hx
  have hy : y = y' := by
    have : (k, y) ∈ moveTo k y' s := by rw [← b5]; exact mem_moveTo.2 (.inl ⟨rfl, rfl, x, a1⟩)
    rcases mem_moveTo.1 this with ⟨_, h, _⟩ | ⟨h, _⟩
    · exact h
    · exact absurd rfl h
  subst hy
  rw [a2] at b2; cases b2; rfl

/-! ### the options -/

theorem mem_options (h : JamOk c) {rev : Bool} {s : Placement ι α} {proh : List α} {loc : α} {d : Rat} {y : α} :
    (d, y) ∈ c.options rev s proh loc ↔ dirE c.graph.edge rev loc y = some d ∧ Free s y ∧ y ∉ proh := by
  have hnbr : ∀ d y, (y, d) ∈ (if rev then c.graph.inNbr loc else c.graph.outNbr loc) ↔ dirE c.graph.edge rev loc y = some d := by
    intro d y
    unfold dirE
    cases rev with
    | false => exact h.built.inv.mem_outNbr
    | true => exact h.built.inv.mem_inNbr
  have hfree : y ∉ s.map Prod.snd ↔ Free s y := by
    constructor
    · intro h j hj; exact h (List.mem_map.2 ⟨_, hj, rfl⟩)
    · intro h hm
      obtain ⟨⟨j, x⟩, hp, rfl⟩ := List.mem_map.1 hm
      exact h j hp
  unfold JamCfg.options
  rw [mem_pySort, List.mem_filterMap]
  constructor
  · rintro ⟨⟨z, d'⟩, hm, hz⟩
    split at hz
    · rename_i hc
      simp only [Option.some.injEq, Prod.mk.injEq] at hz
      obtain ⟨rfl, rfl⟩ := hz
      exact ⟨(hnbr _ _).1 hm, hfree.1 hc.1, hc.2⟩
    · cases hz
  · rintro ⟨h1, h2, h3⟩
    exact ⟨(y, d), (hnbr _ _).2 h1, by rw [if_pos ⟨hfree.2 h2, h3⟩]⟩

theorem load?_spec (h : JamOk c) {k : ι} (hk : k ∈ c.loads.map Load.id) :
    ∃ ld, c.load? k = some ld ∧ ∀ y, y ∈ ld.prohibited ↔ Prohibited c.loads k y := by
  unfold JamCfg.load?
  cases hf : c.loads.find? (fun l => decide (l.id = k)) with
  | none =>
    obtain ⟨l, hl, rfl⟩ := List.mem_map.1 hk
    exact absurd (List.find?_eq_none.1 hf l hl) (by simp)
  | some ld =>
    have h1 := List.mem_of_find?_eq_some hf
    have h2 : ld.id = k := by simpa using List.find?_some hf
    refine ⟨ld, rfl, fun y => ⟨fun hy => ⟨ld, h1, h2, hy⟩, ?_⟩⟩
    rintro ⟨l, hl, hlk, hy⟩
    have : l = ld := by
      have hn := h.ids
      clear hf hk
      generalize c.loads = L at hl h1 hn
      induction L with
      | nil => cases hl
      | cons a L ih =>
        rw [List.map_cons, List.nodup_cons] at hn
        have hll : l.id = ld.id := hlk.trans h2.symm
        rcases List.mem_cons.1 hl with e1 | hl'
        · rcases List.mem_cons.1 h1 with e2 | h1'
          · exact e1.trans e2.symm
          · exact absurd (List.mem_map.2 ⟨ld, h1', by rw [← hll, e1]⟩) hn.1
        · rcases List.mem_cons.1 h1 with e2 | h1'
          · exact absurd (List.mem_map.2 ⟨l, hl', by rw [hll, e2]⟩) hn.1
          · exact ih hl' h1' hn.2
    exact this ▸ hy

theorem allOptions_spec (h : JamOk c) {rev : Bool} {s : Placement ι α} (l : Placement ι α) (hl : ∀ p ∈ l, p.1 ∈ c.loads.map Load.id) :
    ∃ opts, c.allOptions rev s l = .ok opts ∧ ∀ k d y, (k, d, y) ∈ opts ↔
      ∃ x, (k, x) ∈ l ∧ dirE c.graph.edge rev x y = some d ∧ Free s y ∧ ¬ Prohibited c.loads k y := by
  induction l with
  | nil => exact ⟨[], rfl, by simp⟩
  | cons p l ih =>
    obtain ⟨k0, loc⟩ := p
    obtain ⟨r, h1, h2⟩ := ih (fun p hp => hl p (List.mem_cons_of_mem _ hp))
    obtain ⟨ld, h3, h4⟩ := load?_spec h (hl (k0, loc) (by simp))
    unfold JamCfg.allOptions
    rw [h3]; dsimp only; rw [h1]
    refine ⟨_, rfl, ?_⟩
    intro k d y
    rw [List.mem_append, List.mem_map, h2]
    constructor
    · rintro (⟨⟨d', y'⟩, ho, he⟩ | ⟨x, hx, hr⟩)
      · simp only [Prod.mk.injEq] at he
        obtain ⟨rfl, rfl, rfl⟩ := he
        obtain ⟨a1, a2, a3⟩ := (mem_options h).1 ho
        exact ⟨loc, by simp, a1, a2, fun hp => a3 ((h4 _).2 hp)⟩
      · exact ⟨x, List.mem_cons_of_mem _ hx, hr⟩
    · rintro ⟨x, hx, a1, a2, a3⟩
      rcases List.mem_cons.1 hx with hx | hx
      · simp only [Prod.mk.injEq] at hx
        obtain ⟨rfl, rfl⟩ := hx
        exact .inl ⟨(d, y), (mem_options h).2 ⟨a1, a2, fun hp => a3 ((h4 _).1 hp)⟩, rfl⟩
      · exact .inr ⟨x, hx, a1, a2, a3⟩

/-! ### the invariant -/

/-- the side of the search is consistent -/
structure SideOk (c : JamCfg ι α O) (rev : Bool) (x : JSide ι α) : Prop where
  qnd : (x.q.map JState.loads).Nodup
  keys : ∀ l e, x.edge.get? l = some e → e ∈ x.q ∧ e.loads = l
  keys' : ∀ e ∈ x.q, ∃ e', x.edge.get? e.loads = some e'
  wf : x.edge.WF
  disj : ∀ e ∈ x.q, e.loads ∉ x.visited
  vnd : x.visited.Nodup
  uni : ∀ l, l ∈ x.visited ∨ l ∈ x.q.map JState.loads → c.InU l ∧ c.Good rev l

def Seen (x : JSide ι α) (l : Placement ι α) : Prop := l ∈ x.visited ∨ l ∈ x.q.map JState.loads

/-- the states the search starts from -/
def JamCfg.roots (c : JamCfg ι α O) (rev : Bool) : List (Placement ι α) := if rev then c.finals else [c.start]

/-- the option `a → t` has been dealt with -/
def Done (s : JamSt ι α O) (rev : Bool) (a t : Placement ι α) : Prop :=
  (dirE s.mov.edge rev a t).isSome ∧ (Seen (s.side rev) t ∨ t ∈ (s.side (!rev)).visited)

structure JInv (c : JamCfg ι α O) (ex : Bool → Placement ι α → Prop) (s : JamSt ι α O) : Prop where
  movInv : s.mov.Inv
  recd : ∀ a b d, s.mov.edge a b = some d → c.InU a ∧ c.InU b ∧ c.Rec a b d
  startIn : s.mov.has c.start = true
  side : ∀ rev, SideOk c rev (s.side rev)
  closed : ∀ rev, ∀ a ∈ (s.side rev).visited, ¬ ex rev a → ∀ t d, c.Opt rev a t d → Done s rev a t
  chain : ∀ rev a, Seen (s.side rev) a → ∃ r ∈ c.roots rev, Reach (fun x y => (dirE s.mov.edge rev x y).isSome) r a
  roots : ∀ rev, ∀ r ∈ c.roots rev, Seen (s.side rev) r

/-- the search only goes forward -/
structure Grows (s s' : JamSt ι α O) : Prop where
  seen : ∀ rev l, Seen (s.side rev) l → Seen (s'.side rev) l
  visited : ∀ rev, (s'.side rev).visited = (s.side rev).visited
  edges : ∀ a b, (s.mov.edge a b).isSome → (s'.mov.edge a b).isSome

theorem Grows.refl (s : JamSt ι α O) : Grows s s := ⟨fun _ _ h => h, fun _ => rfl, fun _ _ h => h⟩
theorem Grows.trans {s s' s'' : JamSt ι α O} (h : Grows s s') (h2 : Grows s' s'') : Grows s s'' :=
  ⟨fun r l hl => h2.seen r l (h.seen r l hl), fun r => by rw [h2.visited, h.visited], fun a b hab => h2.edges a b (h.edges a b hab)⟩

theorem Grows.done {s s' : JamSt ι α O} (h : Grows s s') {rev : Bool} {a t : Placement ι α} (hd : Done s rev a t) : Done s' rev a t := by
  refine ⟨?_, ?_⟩
  · have := hd.1
    unfold dirE at this ⊢
    split
    · rename_i hr; rw [if_pos hr] at this; exact h.edges _ _ this
    · rename_i hr; rw [if_neg hr] at this; exact h.edges _ _ this
  · rcases hd.2 with h1 | h1
    · exact .inl (h.seen _ _ h1)
    · exact .inr (by rw [h.visited]; exact h1)

omit [DecidableEq ι] [DecidableEq α] in
theorem side_setSide (s : JamSt ι α O) (rev : Bool) (x : JSide ι α) : (s.setSide rev x).side rev = x := by
  cases rev <;> rfl
omit [DecidableEq ι] [DecidableEq α] in
theorem side_setSide_other (s : JamSt ι α O) (rev : Bool) (x : JSide ι α) : (s.setSide rev x).side (!rev) = s.side (!rev) := by
  cases rev <;> rfl
omit [DecidableEq ι] [DecidableEq α] in
theorem mov_setSide (s : JamSt ι α O) (rev : Bool) (x : JSide ι α) : (s.setSide rev x).mov = s.mov := by
  cases rev <;> rfl

theorem side_cases {P : Bool → Prop} (rev : Bool) (h1 : P rev) (h2 : P (!rev)) : ∀ r, P r := by
  intro r
  cases r <;> cases rev <;> simp_all

theorem removeState_spec {q : List (JState ι α)} (e : JState ι α) (he : e ∈ q) (hnd : (q.map JState.loads).Nodup) :
    ∃ q', removeState e.loads q = .ok q' ∧ q.Perm (e :: q') := by
  induction q with
  | nil => cases he
  | cons x q ih =>
    rw [List.map_cons, List.nodup_cons] at hnd
    unfold removeState
    by_cases hx : x.loads = e.loads
    · rw [if_pos hx]
      have : e = x := by
        rcases List.mem_cons.1 he with h | h
        · exact h
        · exact absurd (hx ▸ List.mem_map.2 ⟨_, h, rfl⟩) hnd.1
      subst this
      exact ⟨q, rfl, .refl _⟩
    · rw [if_neg hx]
      have he' : e ∈ q := by
        rcases List.mem_cons.1 he with h | h
        · exact absurd (by rw [h]) hx
        · exact h
      obtain ⟨q', h1, h2⟩ := ih he' hnd.2
      rw [h1]
      exact ⟨x :: q', rfl, (h2.cons x).trans (.swap e x q')⟩

/-- the invariant after a change of one side -/
theorem JInv.change {ex : Bool → Placement ι α → Prop} {s : JamSt ι α O} (h : JInv c ex s) {rev : Bool} {x : JSide ι α}
    (hx : SideOk c rev x) (hv : x.visited = (s.side rev).visited) (hs : ∀ l, Seen (s.side rev) l → Seen x l)
    (hc : ∀ a, Seen x a → ∃ r ∈ c.roots rev, Reach (fun x y => (dirE s.mov.edge rev x y).isSome) r a) :
    JInv c ex (s.setSide rev x) ∧ Grows s (s.setSide rev x) := by
  have hgrow : Grows s (s.setSide rev x) := by
    refine ⟨side_cases rev ?_ ?_, side_cases rev ?_ ?_, ?_⟩
    · intro l hl; rw [side_setSide]; exact hs l hl
    · intro l hl; rw [side_setSide_other]; exact hl
    · rw [side_setSide]; exact hv
    · rw [side_setSide_other]
    · intro a b hab; rw [mov_setSide]; exact hab
  refine ⟨⟨by rw [mov_setSide]; exact h.movInv, by rw [mov_setSide]; exact h.recd, by rw [mov_setSide]; exact h.startIn, ?_, ?_, ?_, ?_⟩, hgrow⟩
  · refine side_cases (P := fun r => SideOk c r ((s.setSide rev x).side r)) rev ?_ ?_
    · rw [side_setSide]; exact hx
    · rw [side_setSide_other]; exact h.side _
  · intro r a ha hex t d ho
    rw [hgrow.visited] at ha
    exact hgrow.done (h.closed r a ha hex t d ho)
  · refine side_cases (P := fun r => ∀ a, Seen ((s.setSide rev x).side r) a →
      ∃ r0 ∈ c.roots r, Reach (fun x_1 y => (dirE (s.setSide rev x).mov.edge r x_1 y).isSome = true) r0 a) rev ?_ ?_
    · rw [side_setSide, mov_setSide]; exact hc
    · rw [side_setSide_other, mov_setSide]; exact h.chain _
  · intro r x hxr
    exact hgrow.seen r x (h.roots r x hxr)

theorem push_spec {ex : Bool → Placement ι α → Prop} {s : JamSt ι α O} (h : JInv c ex s) {rev : Bool} {n : JState ι α}
    (hn : c.InU n.loads ∧ c.Good rev n.loads)
    (hreach : ∃ r ∈ c.roots rev, Reach (fun x y => (dirE s.mov.edge rev x y).isSome) r n.loads) :
    ∃ s', c.push rev s n = some (.ok (false, s')) ∧ JInv c ex s' ∧ Grows s s' ∧
      (Seen (s'.side rev) n.loads ∨ n.loads ∈ (s'.side (!rev)).visited) := by
  have hside := h.side rev
  unfold JamCfg.push
  dsimp only
  cases hg : (s.side rev).edge.get? n.loads with
  | some e =>
    dsimp only
    obtain ⟨he1, he2⟩ := hside.keys _ _ hg
    split
    · obtain ⟨q', h1, h2⟩ := removeState_spec e he1 hside.qnd
      rw [h1]
      have hp : ((insortR JState.lt n q').map JState.loads).Perm ((s.side rev).q.map JState.loads) := by
        refine ((insortR_perm JState.lt n q').map _).trans ?_
        refine List.Perm.trans ?_ (h2.map _).symm
        simp only [List.map_cons, he2]
        exact .refl _
      have hq' : ∀ x, x ∈ insortR JState.lt n q' ↔ x = n ∨ x ∈ q' := fun x => by
        rw [(insortR_perm JState.lt n q').mem_iff, List.mem_cons]
      have hqq : ∀ x ∈ q', x ∈ (s.side rev).q ∧ x.loads ≠ n.loads := by
        intro x hx
        refine ⟨h2.mem_iff.2 (List.mem_cons_of_mem _ hx), ?_⟩
        have := (h2.map JState.loads).nodup_iff.1 hside.qnd
        rw [List.map_cons, List.nodup_cons, he2] at this
        intro heq
        exact this.1 (heq ▸ List.mem_map.2 ⟨_, hx, rfl⟩)
      refine ⟨_, rfl, ?_⟩
      have hseen : ∀ l, Seen ⟨insortR JState.lt n q', (s.side rev).edge.set n.loads n, (s.side rev).visited⟩ l ↔ Seen (s.side rev) l := by
        intro l; unfold Seen; dsimp only; rw [hp.mem_iff]
      suffices hx : SideOk c rev ⟨insortR JState.lt n q', (s.side rev).edge.set n.loads n, (s.side rev).visited⟩ by
        obtain ⟨h3, h4⟩ := h.change hx rfl
          (fun l hl => (hseen l).2 hl) (fun a ha => h.chain rev a ((hseen a).1 ha))
        refine ⟨h3, h4, .inl ?_⟩
        rw [side_setSide, hseen]
        exact .inr (he2 ▸ List.mem_map.2 ⟨_, he1, rfl⟩)
      refine ⟨hp.nodup_iff.2 hside.qnd, ?_, ?_, hside.wf.set _ _, ?_, hside.vnd, fun l hl => hside.uni l ((hseen l).1 hl)⟩
      · intro l e' he'
        dsimp only at he' ⊢
        rw [Dict.get?_set] at he'
        split at he'
        · rename_i hl
          cases he'; exact ⟨(hq' _).2 (.inl rfl), hl⟩
        · rename_i hl
          obtain ⟨a1, a2⟩ := hside.keys _ _ he'
          refine ⟨(hq' _).2 (.inr ?_), a2⟩
          rcases List.mem_cons.1 (h2.mem_iff.1 a1) with rfl | h
          · exact absurd (he2.symm.trans a2) hl
          · exact h
      · intro x hx
        dsimp only at hx ⊢
        rw [Dict.get?_set]
        split
        · exact ⟨_, rfl⟩
        · rename_i hl
          rcases (hq' _).1 hx with rfl | hx
          · exact absurd rfl hl
          · exact hside.keys' x (hqq x hx).1
      · intro x hx
        dsimp only at hx ⊢
        rcases (hq' _).1 hx with rfl | hx
        · rw [← he2]; exact hside.disj e he1
        · exact hside.disj x (hqq x hx).1
    · refine ⟨s, rfl, h, .refl s, .inl (.inr ?_)⟩
      exact he2 ▸ List.mem_map.2 ⟨_, he1, rfl⟩
  | none =>
    dsimp only
    by_cases hvis : n.loads ∈ (s.side rev).visited ∨ n.loads ∈ (s.side (!rev)).visited
    · rw [if_pos hvis]
      refine ⟨s, rfl, h, .refl s, ?_⟩
      rcases hvis with h1 | h1
      · exact .inl (.inl h1)
      · exact .inr h1
    · rw [if_neg hvis, if_neg (fun hh => hvis (.inr hh))]
      refine ⟨_, rfl, ?_⟩
      have hnq : n.loads ∉ (s.side rev).q.map JState.loads := by
        intro hm
        obtain ⟨e, he, hl⟩ := List.mem_map.1 hm
        obtain ⟨e', he'⟩ := hside.keys' e he
        rw [hl, hg] at he'
        cases he'
      have hq' : ∀ x, x ∈ insortR JState.lt n (s.side rev).q ↔ x = n ∨ x ∈ (s.side rev).q := fun x => by
        rw [(insortR_perm JState.lt n _).mem_iff, List.mem_cons]
      have hp : ((insortR JState.lt n (s.side rev).q).map JState.loads).Perm (n.loads :: (s.side rev).q.map JState.loads) :=
        (insortR_perm JState.lt n _).map _
      have hseen : ∀ l, Seen ⟨insortR JState.lt n (s.side rev).q, (s.side rev).edge.set n.loads n, (s.side rev).visited⟩ l ↔
          l = n.loads ∨ Seen (s.side rev) l := by
        intro l; unfold Seen; dsimp only; rw [hp.mem_iff, List.mem_cons]
        constructor
        · rintro (h | h | h)
          · exact .inr (.inl h)
          · exact .inl h
          · exact .inr (.inr h)
        · rintro (h | h | h)
          · exact .inr (.inl h)
          · exact .inl h
          · exact .inr (.inr h)
      suffices hx : SideOk c rev ⟨insortR JState.lt n (s.side rev).q, (s.side rev).edge.set n.loads n, (s.side rev).visited⟩ by
        obtain ⟨h3, h4⟩ := h.change hx rfl (fun l hl => (hseen l).2 (.inr hl)) (by
          intro a ha
          rcases (hseen a).1 ha with rfl | ha
          · exact hreach
          · exact h.chain rev a ha)
        refine ⟨h3, h4, .inl ?_⟩
        rw [side_setSide, hseen]
        exact .inl rfl
      refine ⟨hp.nodup_iff.2 (List.nodup_cons.2 ⟨hnq, hside.qnd⟩), ?_, ?_, hside.wf.set _ _, ?_, hside.vnd, ?_⟩
      · intro l e' he'
        dsimp only at he' ⊢
        rw [Dict.get?_set] at he'
        split at he'
        · rename_i hl
          cases he'; exact ⟨(hq' _).2 (.inl rfl), hl⟩
        · obtain ⟨a1, a2⟩ := hside.keys _ _ he'
          exact ⟨(hq' _).2 (.inr a1), a2⟩
      · intro x hx
        dsimp only at hx ⊢
        rw [Dict.get?_set]
        split
        · exact ⟨_, rfl⟩
        · rename_i hl
          rcases (hq' _).1 hx with rfl | hx
          · exact absurd rfl hl
          · exact hside.keys' x hx
      · intro x hx
        dsimp only at hx ⊢
        rcases (hq' _).1 hx with rfl | hx
        · exact fun hh => hvis (.inl hh)
        · exact hside.disj x hx
      · intro l hl
        rcases (hseen l).1 hl with rfl | hl
        · exact hn
        · exact hside.uni l hl

theorem try_spec (hok : JamOk c) {ex : Bool → Placement ι α → Prop} {s : JamSt ι α O} (h : JInv c ex s) {rev : Bool} {st : JState ι α}
    (hst : Seen (s.side rev) st.loads) {k : ι} {d : Rat} {y : α} (ho : c.Opt rev st.loads (moveTo k y st.loads) d) :
    ∃ s', c.try_ rev st s (k, d, y) = some (.ok (false, s')) ∧ JInv c ex s' ∧ Grows s s' ∧ Done s' rev st.loads (moveTo k y st.loads) := by
  obtain ⟨hu, hg⟩ := (h.side rev).uni _ hst
  obtain ⟨hu2, hg2, hr⟩ := opt_rec hok hu hg ho
  unfold JamCfg.try_
  dsimp only
  generalize ha : (if rev then moveTo k y st.loads else st.loads) = a at hr
  generalize hb : (if rev then st.loads else moveTo k y st.loads) = b at hr
  have hab : ∀ e : Placement ι α → Placement ι α → Option Rat, dirE e rev st.loads (moveTo k y st.loads) = e a b := by
    intro e; subst ha hb; unfold dirE; cases rev <;> rfl
  have hua : c.InU a ∧ c.InU b := by
    subst ha hb
    cases rev
    · exact ⟨hu, hu2⟩
    · exact ⟨hu2, hu⟩
  have hch : cheaper s.mov a b d = false := by
    unfold cheaper
    cases he : s.mov.edge a b with
    | none => rfl
    | some x =>
      have := rec_unique (InU.nodup hok hua.1) (h.recd _ _ _ he).2.2 hr
      subst this
      simp
  rw [hch]
  simp only [Bool.false_eq_true, if_false]
  have hedge : ∀ x y', ({ s with mov := s.mov.addEdge a b d } : JamSt ι α O).mov.edge x y' = if a = x ∧ b = y' then some d else s.mov.edge x y' :=
    fun x y' => edge_addEdge s.mov a b x y' d
  have hgrow : Grows s { s with mov := s.mov.addEdge a b d } := by
    refine ⟨fun r l hl => by cases r <;> exact hl, fun r => by cases r <;> rfl, ?_⟩
    intro x y' hx
    rw [hedge]
    split
    · rfl
    · exact hx
  have hside : ∀ r, ({ s with mov := s.mov.addEdge a b d } : JamSt ι α O).side r = s.side r := fun r => by cases r <;> rfl
  have hmono : ∀ r x y', (dirE s.mov.edge r x y').isSome → (dirE ({ s with mov := s.mov.addEdge a b d } : JamSt ι α O).mov.edge r x y').isSome := by
    intro r x y' hx
    unfold dirE at hx ⊢
    cases r
    · exact hgrow.edges _ _ hx
    · exact hgrow.edges _ _ hx
  have hinv : JInv c ex { s with mov := s.mov.addEdge a b d } := by
    refine ⟨h.movInv.addEdge a b d, ?_, ?_, fun r => by rw [hside]; exact h.side r, ?_, ?_, ?_⟩
    · intro x y' d' he
      rw [hedge] at he
      split at he
      · rename_i hxy; obtain ⟨rfl, rfl⟩ := hxy; cases he; exact ⟨hua.1, hua.2, hr⟩
      · exact h.recd _ _ _ he
    · have := h.startIn
      rw [has_iff] at this ⊢
      show c.start ∈ (s.mov.addEdge a b d).nodes.keys
      rw [addEdge_nodes, mem_keys_withEnds]
      exact .inr (.inr this)
    · intro r x hx hex t d' ho'
      rw [hside] at hx
      exact hgrow.done (h.closed r x hx hex t d' ho')
    · intro r x hx
      rw [hside] at hx
      obtain ⟨root, hroot, hre⟩ := h.chain r x hx
      exact ⟨root, hroot, hre.mono (hmono r)⟩
    · intro r x hx
      rw [hside]
      exact h.roots r x hx
  have hedge1 : (dirE ({ s with mov := s.mov.addEdge a b d } : JamSt ι α O).mov.edge rev st.loads (moveTo k y st.loads)).isSome := by
    rw [hab, hedge, if_pos ⟨rfl, rfl⟩]; rfl
  obtain ⟨root, hroot, hre⟩ := hinv.chain rev st.loads (by rw [hside]; exact hst)
  obtain ⟨s', h1, h2, h3, h4⟩ := push_spec hinv (rev := rev) (n := ⟨moveTo k y st.loads, st.dist + d, c.grad (moveTo k y st.loads)⟩) ⟨hu2, hg2⟩
    ⟨root, hroot, hre.tail hedge1⟩
  refine ⟨s', h1, h2, hgrow.trans h3, ?_, h4⟩
  have := hedge1
  rw [hab] at this ⊢
  exact h3.edges _ _ this

theorem tryAll_spec (hok : JamOk c) {ex : Bool → Placement ι α → Prop} {rev : Bool} {st : JState ι α} (opts : List (ι × Rat × α)) :
    ∀ s : JamSt ι α O, JInv c ex s → Seen (s.side rev) st.loads → (∀ k d y, (k, d, y) ∈ opts → c.Opt rev st.loads (moveTo k y st.loads) d) →
    ∃ s', c.tryAll rev st opts s = some (.ok (false, s')) ∧ JInv c ex s' ∧ Grows s s' ∧
      ∀ k d y, (k, d, y) ∈ opts → Done s' rev st.loads (moveTo k y st.loads) := by
  induction opts with
  | nil => intro s h _ _; exact ⟨s, rfl, h, .refl s, by simp⟩
  | cons o l ih =>
    obtain ⟨k, d, y⟩ := o
    intro s h hseen ho
    obtain ⟨s1, h1, h2, h3, h4⟩ := try_spec hok h hseen (ho k d y (by simp))
    obtain ⟨s2, h5, h6, h7, h8⟩ := ih s1 h2 (h3.seen _ _ hseen) (fun k' d' y' hm => ho k' d' y' (List.mem_cons_of_mem _ hm))
    unfold JamCfg.tryAll
    rw [h1]
    refine ⟨s2, h5, h6, h3.trans h7, ?_⟩
    intro k' d' y' hm
    rcases List.mem_cons.1 hm with hm | hm
    · cases hm; exact h7.done h4
    · exact h8 k' d' y' hm

/-- nothing is excluded -/
def noEx : Bool → Placement ι α → Prop := fun _ _ => False

theorem expand_spec (hok : JamOk c) {s : JamSt ι α O} (h : JInv c noEx s) (rev : Bool) :
    ∃ s', c.expand rev s = some (.ok (false, s')) ∧ JInv c noEx s' ∧
      (s'.side (!rev)).visited = (s.side (!rev)).visited ∧ (∀ r l, Seen (s.side r) l → Seen (s'.side r) l) ∧
      (((s.side rev).q = [] ∧ s' = s) ∨ (s'.side rev).visited.length = (s.side rev).visited.length + 1) := by
  unfold JamCfg.expand
  dsimp only
  have hside := h.side rev
  cases hq : (s.side rev).q with
  | nil => exact ⟨s, rfl, h, rfl, fun _ _ h => h, .inl ⟨rfl, rfl⟩⟩
  | cons st q =>
    dsimp only
    have hst : st ∈ (s.side rev).q := by rw [hq]; simp
    obtain ⟨e', he'⟩ := hside.keys' st hst
    have hdel : (s.side rev).edge.delE st.loads = .ok ((s.side rev).edge.del st.loads) := by
      unfold Dict.delE Dict.contains
      rw [he']; rfl
    rw [hdel]
    dsimp only
    obtain ⟨hu, hg⟩ := hside.uni st.loads (.inr (List.mem_map.2 ⟨_, hst, rfl⟩))
    obtain ⟨opts, h1, h2⟩ := allOptions_spec hok (rev := rev) (s := st.loads) st.loads (fun p hp => by
      rw [← hu.1]; exact List.mem_map.2 ⟨_, hp, rfl⟩)
    rw [h1]
    dsimp only
    have hnv : st.loads ∉ (s.side rev).visited := hside.disj st hst
    have hvis : sadd (s.side rev).visited st.loads = (s.side rev).visited ++ [st.loads] := by
      unfold sadd; rw [if_neg hnv]
    have hqnd := hside.qnd
    rw [hq, List.map_cons, List.nodup_cons] at hqnd
    generalize hs1 : s.setSide rev ⟨q, (s.side rev).edge.del st.loads, sadd (s.side rev).visited st.loads⟩ = s1
    have hown : s1.side rev = ⟨q, (s.side rev).edge.del st.loads, sadd (s.side rev).visited st.loads⟩ := by
      rw [← hs1, side_setSide]
    have hoth : s1.side (!rev) = s.side (!rev) := by rw [← hs1, side_setSide_other]
    have hmov : s1.mov = s.mov := by rw [← hs1, mov_setSide]
    have hseen1 : ∀ l, Seen (s1.side rev) l ↔ Seen (s.side rev) l := by
      intro l
      rw [hown]; unfold Seen; dsimp only; rw [hvis, hq]
      simp only [List.mem_append, List.map_cons, List.mem_cons, List.not_mem_nil, or_false]
      constructor
      · rintro ((h | h) | h)
        · exact .inl h
        · exact .inr (.inl h)
        · exact .inr (.inr h)
      · rintro (h | h | h)
        · exact .inl (.inl h)
        · exact .inl (.inr h)
        · exact .inr h
    have hseenAll : ∀ r l, Seen (s1.side r) l ↔ Seen (s.side r) l :=
      side_cases rev hseen1 (fun l => by rw [hoth])
    have hvmono : ∀ r l, l ∈ (s.side r).visited → l ∈ (s1.side r).visited := by
      refine side_cases (P := fun r => ∀ l, l ∈ (s.side r).visited → l ∈ (s1.side r).visited) rev ?_ ?_
      · intro l hl; rw [hown]; dsimp only; rw [hvis]; exact List.mem_append_left _ hl
      · intro l hl; rw [hoth]; exact hl
    have hdone : ∀ r a t, Done s r a t → Done s1 r a t := by
      intro r a t hd
      refine ⟨by rw [hmov]; exact hd.1, ?_⟩
      rcases hd.2 with h | h
      · exact .inl ((hseenAll r t).2 h)
      · exact .inr (hvmono _ _ h)
    have hinv : JInv c (fun r a => r = rev ∧ a = st.loads) s1 := by
      refine ⟨by rw [hmov]; exact h.movInv, by rw [hmov]; exact h.recd, by rw [hmov]; exact h.startIn, ?_, ?_, ?_, ?_⟩
      · refine side_cases (P := fun r => SideOk c r (s1.side r)) rev ?_ ?_
        · rw [hown]
          refine ⟨hqnd.2, ?_, ?_, hside.wf.del _, ?_, ?_, ?_⟩
          · intro l e he
            dsimp only at he ⊢
            rw [Dict.get?_del hside.wf] at he
            split at he
            · cases he
            · rename_i hne
              obtain ⟨a1, a2⟩ := hside.keys _ _ he
              rw [hq] at a1
              rcases List.mem_cons.1 a1 with rfl | a1
              · exact absurd a2 hne
              · exact ⟨a1, a2⟩
          · intro e he
            dsimp only at he ⊢
            rw [Dict.get?_del hside.wf, if_neg (fun heq : st.loads = e.loads => hqnd.1 (heq ▸ List.mem_map.2 ⟨_, he, rfl⟩))]
            exact hside.keys' e (by rw [hq]; exact List.mem_cons_of_mem _ he)
          · intro e he
            dsimp only at he ⊢
            rw [hvis, List.mem_append, List.mem_singleton]
            rintro (hh | hh)
            · exact hside.disj e (by rw [hq]; exact List.mem_cons_of_mem _ he) hh
            · exact hqnd.1 (hh ▸ List.mem_map.2 ⟨_, he, rfl⟩)
          · exact nodup_sadd hside.vnd
          · intro l hl
            exact hside.uni l ((hseen1 l).1 (by rw [hown]; exact hl))
        · rw [hoth]; exact h.side _
      · intro r a ha hex t d ho
        have ha' : a ∈ (s.side r).visited := by
          revert ha hex
          revert r
          refine side_cases (P := fun r => c.Opt r a t d → a ∈ (s1.side r).visited → ¬(r = rev ∧ a = st.loads) → a ∈ (s.side r).visited) rev ?_ ?_
          · intro ho ha hex
            rw [hown] at ha
            dsimp only at ha
            rw [hvis, List.mem_append, List.mem_singleton] at ha
            rcases ha with ha | ha
            · exact ha
            · exact absurd ⟨rfl, ha⟩ hex
          · intro ho ha hex; rw [hoth] at ha; exact ha
        exact hdone r a t (h.closed r a ha' (fun hf => hf) t d ho)
      · intro r a ha
        rw [hmov]
        exact h.chain r a ((hseenAll r a).1 ha)
      · intro r x hx
        exact (hseenAll r x).2 (h.roots r x hx)
    obtain ⟨s2, h3, h4, h5, h6⟩ := tryAll_spec hok (rev := rev) (st := st) opts s1 hinv
      (by rw [hseen1]; exact .inr (List.mem_map.2 ⟨_, hst, rfl⟩)) (by
        intro k d y hm
        obtain ⟨x, b1, b2, b3, b4⟩ := (h2 k d y).1 hm
        exact ⟨k, x, y, b1, b2, b3, b4, rfl⟩)
    refine ⟨s2, h3, ⟨h4.movInv, h4.recd, h4.startIn, h4.side, ?_, h4.chain, h4.roots⟩, by rw [h5.visited, hoth],
      fun r l hl => h5.seen r l ((hseenAll r l).2 hl), .inr ?_⟩
    · intro r a ha _ t d ho
      by_cases hex : r = rev ∧ a = st.loads
      · obtain ⟨rfl, rfl⟩ := hex
        obtain ⟨k, x, y, b1, b2, b3, b4, rfl⟩ := ho
        exact h6 k d y ((h2 k d y).2 ⟨x, b1, b2, b3, b4⟩)
      · exact h4.closed r a ha hex t d ho
    · rw [h5.visited, hown]
      dsimp only
      rw [hvis, List.length_append]
      rfl

end GT

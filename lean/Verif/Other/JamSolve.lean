import Verif.Sp.Loop
import Verif.Other.JamProof
/-
Proofs about the traffic jam solver, continued: the search as a whole.
-/
namespace GT
open Graph
variable {ι α O : Type} [DecidableEq ι] [DecidableEq α]
variable {c : JamCfg ι α O}

/-! ### the end states -/

/-- one end per load, in order -/
def EachAtEnd : List (Load ι α) → Placement ι α → Prop
  | [], [] => True
  | l :: ls, p :: s => p.1 = l.id ∧ p.2 ∈ l.ends ∧ EachAtEnd ls s
  | _, _ => False

omit [DecidableEq ι] [DecidableEq α] in
theorem mem_cartesian_zip (ls : List (Load ι α)) : ∀ s : Placement ι α,
    (∃ combo ∈ cartesian (ls.map Load.ends), s = (ls.map Load.id).zip combo) ↔ EachAtEnd ls s := by
  induction ls with
  | nil =>
    intro s
    constructor
    · rintro ⟨_, _, rfl⟩; simp [EachAtEnd]
    · intro h
      cases s with
      | nil => exact ⟨[], by simp [cartesian], rfl⟩
      | cons p s => exact h.elim
  | cons l ls ih =>
    intro s
    constructor
    · rintro ⟨combo, h1, rfl⟩
      simp only [List.map_cons, cartesian, List.mem_flatMap, List.mem_map] at h1
      obtain ⟨x, hx, r, hr, rfl⟩ := h1
      exact ⟨rfl, hx, (ih _).1 ⟨r, hr, rfl⟩⟩
    · intro h
      cases s with
      | nil => exact h.elim
      | cons p s =>
        obtain ⟨h1, h2, h3⟩ := h
        obtain ⟨r, hr, rfl⟩ := (ih s).2 h3
        refine ⟨p.2 :: r, ?_, ?_⟩
        · simp only [List.map_cons, cartesian, List.mem_flatMap, List.mem_map]
          exact ⟨_, h2, r, hr, rfl⟩
        · obtain ⟨k, x⟩ := p
          cases h1
          rfl

omit [DecidableEq ι] [DecidableEq α] in
theorem cartesian_length (ls : List (List α)) : ∀ x ∈ cartesian ls, x.length = ls.length := by
  induction ls with
  | nil => simp [cartesian]
  | cons l ls ih =>
    intro x hx
    simp only [cartesian, List.mem_flatMap, List.mem_map] at hx
    obtain ⟨a, _, r, hr, rfl⟩ := hx
    simp [ih r hr]

omit [DecidableEq ι] [DecidableEq α] in
theorem cartesian_nodup (ls : List (List α)) (h : ∀ l ∈ ls, l.Nodup) : (cartesian ls).Nodup := by
  induction ls with
  | nil => simp [cartesian]
  | cons l ls ih =>
    have ih' := ih (fun x hx => h x (List.mem_cons_of_mem _ hx))
    have hl := h l (by simp)
    unfold cartesian
    clear h ih
    induction l with
    | nil => simp
    | cons a l ihl =>
      rw [List.nodup_cons] at hl
      rw [List.flatMap_cons, List.nodup_append]
      refine ⟨List.Pairwise.map _ (fun x y (h : x ≠ y) he => h (List.cons.inj he).2) ih', ihl hl.2, ?_⟩
      intro x hx y hy he
      simp only [List.mem_map] at hx
      simp only [List.mem_flatMap, List.mem_map] at hy
      obtain ⟨r, _, rfl⟩ := hx
      obtain ⟨b, hb, r', _, rfl⟩ := hy
      injection he with h1 h2
      subst h1
      exact hl.1 hb

omit [DecidableEq ι] [DecidableEq α] in
theorem eachAtEnd_iff {ls : List (Load ι α)} (hnd : (ls.map Load.id).Nodup) : ∀ s : Placement ι α,
    EachAtEnd ls s ↔ s.map Prod.fst = ls.map Load.id ∧ ∀ p ∈ s, IsEnd ls p.1 p.2 := by
  induction ls with
  | nil =>
    intro s
    cases s with
    | nil => simp [EachAtEnd]
    | cons p s => simp [EachAtEnd]
  | cons l ls ih =>
    rw [List.map_cons, List.nodup_cons] at hnd
    intro s
    cases s with
    | nil => simp [EachAtEnd]
    | cons p s =>
      unfold EachAtEnd
      rw [ih hnd.2, List.map_cons, List.map_cons, List.cons.injEq]
      constructor
      · rintro ⟨h1, h2, h3, h4⟩
        refine ⟨⟨h1, h3⟩, ?_⟩
        intro q hq
        rcases List.mem_cons.1 hq with rfl | hq
        · exact ⟨l, by simp, h1.symm, h2⟩
        · obtain ⟨l', h5, h6⟩ := h4 q hq
          exact ⟨l', List.mem_cons_of_mem _ h5, h6⟩
      · rintro ⟨⟨h1, h3⟩, h4⟩
        refine ⟨h1, ?_, h3, ?_⟩
        · obtain ⟨l', h5, h6, h7⟩ := h4 p (by simp)
          rcases List.mem_cons.1 h5 with rfl | h5
          · exact h7
          · exact absurd (List.mem_map.2 ⟨l', h5, h6.trans h1⟩) hnd.1
        · intro q hq
          obtain ⟨l', h5, h6, h7⟩ := h4 q (List.mem_cons_of_mem _ hq)
          rcases List.mem_cons.1 h5 with rfl | h5
          · exfalso
            refine hnd.1 ?_
            rw [h6, ← h3]
            exact List.mem_map.2 ⟨q, hq, rfl⟩
          · exact ⟨l', h5, h6, h7⟩

/-- a placement of every load at one of its ends, no two at the same place -/
def JamCfg.IsFinal (c : JamCfg ι α O) (s : Placement ι α) : Prop :=
  s.map Prod.fst = c.loads.map Load.id ∧ (∀ p ∈ s, IsEnd c.loads p.1 p.2) ∧ (s.map Prod.snd).Nodup

omit [DecidableEq ι] in
theorem mem_finals (h : JamOk c) (s : Placement ι α) : s ∈ c.finals ↔ c.IsFinal s := by
  have hlen : ∀ combo ∈ cartesian (c.loads.map Load.ends), combo.length = (c.loads.map Load.id).length := by
    intro combo hc; rw [cartesian_length _ _ hc]; simp
  unfold JamCfg.finals JamCfg.IsFinal
  rw [← and_assoc, ← eachAtEnd_iff h.ids, ← mem_cartesian_zip]
  simp only [List.mem_map, List.mem_filter, decide_eq_true_eq]
  constructor
  · rintro ⟨combo, ⟨h1, h2⟩, rfl⟩
    refine ⟨⟨combo, h1, rfl⟩, ?_⟩
    rw [List.map_snd_zip (by rw [hlen _ h1]; exact Nat.le_refl _)]
    exact h2
  · rintro ⟨⟨combo, h1, rfl⟩, h2⟩
    rw [List.map_snd_zip (by rw [hlen _ h1]; exact Nat.le_refl _)] at h2
    exact ⟨combo, ⟨h1, h2⟩, rfl⟩

omit [DecidableEq ι] in
theorem finals_nodup (h : JamOk c) : c.finals.Nodup := by
  have hlen : ∀ combo ∈ cartesian (c.loads.map Load.ends), combo.length = (c.loads.map Load.id).length := by
    intro combo hc; rw [cartesian_length _ _ hc]; simp
  have hnd := cartesian_nodup (c.loads.map Load.ends) (by
    intro l hl; obtain ⟨x, hx, rfl⟩ := List.mem_map.1 hl; exact h.endsSet x hx)
  unfold JamCfg.finals
  have hsub : ∀ x ∈ (cartesian (c.loads.map Load.ends)).filter (fun combo => decide combo.Nodup), x.length = (c.loads.map Load.id).length :=
    fun x hx => hlen x (List.mem_filter.1 hx).1
  have hnd2 : (List.filter _ _).Nodup := hnd.filter (fun combo => decide combo.Nodup)
  generalize (cartesian (c.loads.map Load.ends)).filter (fun combo => decide combo.Nodup) = L at hsub hnd2
  clear hlen hnd
  induction L with
  | nil => simp
  | cons a L ih =>
    rw [List.nodup_cons] at hnd2
    rw [List.map_cons, List.nodup_cons]
    refine ⟨?_, ih (fun x hx => hsub x (List.mem_cons_of_mem _ hx)) hnd2.2⟩
    intro hm
    obtain ⟨b, hb, he⟩ := List.mem_map.1 hm
    have h1 := congrArg (List.map Prod.snd) he
    rw [List.map_snd_zip (by rw [hsub b (List.mem_cons_of_mem _ hb)]; exact Nat.le_refl _),
      List.map_snd_zip (by rw [hsub a (by simp)]; exact Nat.le_refl _)] at h1
    exact hnd2.1 (h1 ▸ hb)

/-- all placements on the network -/
def JamCfg.universe (c : JamCfg ι α O) : List (Placement ι α) :=
  (cartesian (c.loads.map (fun _ => c.graph.nodeList))).map (fun combo => (c.loads.map Load.id).zip combo)

omit [DecidableEq ι] in
theorem mem_universe (h : JamOk c) {s : Placement ι α} (hs : c.InU s) : s ∈ c.universe := by
  have h1 := mem_cartesian_zip (c.loads.map (fun l => ({ l with ends := c.graph.nodeList } : Load ι α))) s
  have h2 : EachAtEnd (c.loads.map (fun l => ({ l with ends := c.graph.nodeList } : Load ι α))) s := by
    rw [eachAtEnd_iff (by rw [List.map_map]; exact h.ids), List.map_map]
    refine ⟨hs.1, ?_⟩
    intro p hp
    have : p.1 ∈ c.loads.map Load.id := by rw [← hs.1]; exact List.mem_map.2 ⟨p, hp, rfl⟩
    obtain ⟨l, hl, he⟩ := List.mem_map.1 this
    exact ⟨_, List.mem_map.2 ⟨l, hl, rfl⟩, he, has_iff.1 (hs.2 p hp)⟩
  obtain ⟨combo, h3, h4⟩ := h1.2 h2
  unfold JamCfg.universe
  rw [List.map_map] at h3 h4
  exact List.mem_map.2 ⟨combo, h3, h4.symm⟩

/-! ### the initial state -/

omit [DecidableEq ι] [DecidableEq α] in
theorem foldl_states [DecidableEq (Placement ι α)] (es : List (JState ι α)) : ∀ d : Dict (Placement ι α) (JState ι α), d.WF →
    (es.foldl (fun d s => d.set s.loads s) d).WF ∧
    (∀ l e, (es.foldl (fun d s => d.set s.loads s) d).get? l = some e → (e ∈ es ∧ e.loads = l) ∨ d.get? l = some e) ∧
    (∀ l, (∃ e ∈ es, e.loads = l) ∨ (∃ e, d.get? l = some e) → ∃ e, (es.foldl (fun d s => d.set s.loads s) d).get? l = some e) := by
  induction es with
  | nil =>
    intro d hd
    refine ⟨hd, fun l e h => .inr h, ?_⟩
    rintro l (⟨e, he, _⟩ | h)
    · cases he
    · exact h
  | cons a es ih =>
    intro d hd
    obtain ⟨h1, h2, h3⟩ := ih (d.set a.loads a) (hd.set _ _)
    refine ⟨h1, ?_, ?_⟩
    · intro l e he
      rcases h2 l e he with ⟨a1, a2⟩ | h
      · exact .inl ⟨List.mem_cons_of_mem _ a1, a2⟩
      · rw [Dict.get?_set] at h
        split at h
        · rename_i hl; cases h; exact .inl ⟨by simp, hl⟩
        · exact .inr h
    · rintro l hl
      refine h3 l ?_
      rw [Dict.get?_set]
      by_cases heq : a.loads = l
      · rw [if_pos heq]; exact .inr ⟨_, rfl⟩
      · rw [if_neg heq]
        rcases hl with ⟨e, he, h⟩ | h
        · rcases List.mem_cons.1 he with rfl | he
          · exact absurd h heq
          · exact .inl ⟨e, he, h⟩
        · exact .inr h

theorem sideOk_init {rev : Bool} (es : List (JState ι α)) (hnd : (es.map JState.loads).Nodup)
    (hu : ∀ l ∈ es.map JState.loads, c.InU l ∧ c.Good rev l) :
    SideOk c rev ⟨es, es.foldl (fun d s => d.set s.loads s) Dict.empty, []⟩ := by
  obtain ⟨h1, h2, h3⟩ := foldl_states es Dict.empty Dict.wf_empty
  refine ⟨hnd, ?_, ?_, h1, by simp, by simp, ?_⟩
  · intro l e he
    rcases h2 l e he with h | h
    · exact h
    · simp [Dict.get?_empty] at h
  · intro e he
    exact h3 _ (.inl ⟨e, he, rfl⟩)
  · rintro l (h | h)
    · cases h
    · exact hu l h

theorem start_inU (h : JamOk c) : c.InU c.start := by
  unfold JamCfg.start
  refine ⟨by rw [List.map_map]; rfl, ?_⟩
  intro p hp
  obtain ⟨l, hl, rfl⟩ := List.mem_map.1 hp
  exact h.starts l hl

theorem final_good (h : JamOk c) {s : Placement ι α} (hs : c.IsFinal s) : c.InU s ∧ c.Good true s := by
  obtain ⟨h1, h2, h3⟩ := hs
  refine ⟨⟨h1, ?_⟩, fun _ => ⟨⟨by rw [h1]; exact h.ids, h3⟩, fun p hp => .inr (h2 p hp)⟩⟩
  intro p hp
  obtain ⟨l, hl, _, he⟩ := h2 p hp
  exact h.ends l hl _ he

theorem init_inv (h : JamOk c) : JInv c noEx c.init := by
  unfold JamCfg.init
  dsimp only
  have hme : ∀ a b, (Graph.empty.addNode c.start none : Graph (Placement ι α) Rat O).edge a b = none := by
    intro a b; unfold Graph.edge; rw [addNode_edges]; rfl
  refine ⟨inv_empty.addNode _ _, ?_, ?_, ?_, ?_, ?_, ?_⟩
  · intro a b d he; rw [hme] at he; cases he
  · rw [has_iff]; unfold nodeList; rw [addNode_nodes]; exact (Dict.mem_keys_set ..).2 (.inl rfl)
  · intro rev
    cases rev with
    | false =>
      exact sideOk_init [⟨c.start, 0, .inf⟩] (by simp) (by
        intro l hl; simp at hl; subst hl; exact ⟨start_inU h, fun hf => nomatch hf⟩)
    | true =>
      refine sideOk_init _ ?_ ?_
      · rw [List.map_map]
        have : (JState.loads ∘ fun l : Placement ι α => (⟨l, 0, .inf⟩ : JState ι α)) = id := rfl
        rw [this, List.map_id]
        exact finals_nodup h
      · rw [List.map_map]
        have : (JState.loads ∘ fun l : Placement ι α => (⟨l, 0, .inf⟩ : JState ι α)) = id := rfl
        rw [this, List.map_id]
        intro l hl
        exact final_good h ((mem_finals h l).1 hl)
  · intro rev a ha
    cases rev <;> simp [JamSt.side] at ha
  · intro rev a ha
    refine ⟨a, ?_, Reach.refl a⟩
    rcases ha with ha | ha
    · cases rev <;> simp [JamSt.side] at ha
    · cases rev with
      | false => simpa [JamSt.side, JamCfg.roots] using ha
      | true =>
        simp only [JamSt.side, JamCfg.roots, if_true, List.map_map] at ha ⊢
        have : (JState.loads ∘ fun l : Placement ι α => (⟨l, 0, .inf⟩ : JState ι α)) = id := rfl
        rw [this, List.map_id] at ha
        exact ha
  · intro rev r hr
    refine .inr ?_
    cases rev with
    | false => simpa [JamSt.side, JamCfg.roots] using hr
    | true =>
      simp only [JamSt.side, JamCfg.roots, if_true, List.map_map] at hr ⊢
      have : (JState.loads ∘ fun l : Placement ι α => (⟨l, 0, .inf⟩ : JState ι α)) = id := rfl
      rw [this, List.map_id]
      exact hr

/-! ### the search -/

theorem visited_le (h : JamOk c) {s : JamSt ι α O} (hs : JInv c noEx s) (rev : Bool) : (s.side rev).visited.length ≤ c.universe.length :=
  nodup_length_le (hs.side rev).vnd (fun x hx => mem_universe h ((hs.side rev).uni x (.inl hx)).1)

theorem check_spec (clock : Nat → Rat) (t : Timer) :
    (t.check clock).1 = t.expired ∧ (t.check clock).2.limit = t.limit ∧
    (t.limit = .inf → t.expired = false → (t.check clock).2.expired = false) ∧ (t.expired = true → (t.check clock).2.expired = true) := by
  unfold Timer.check
  split
  · rename_i h; exact ⟨h.symm, rfl, fun _ h2 => h2, fun _ => h⟩
  · rename_i h
    have h' : t.expired = false := by simpa using h
    split
    · exact ⟨h'.symm, rfl, fun _ _ => h', fun hh => absurd hh h⟩
    · refine ⟨h'.symm, rfl, ?_, fun hh => absurd hh h⟩
      intro hl _
      simp [hl]

theorem jamSearch_spec (h : JamOk c) (clock : Nat → Rat) (t : Timer) : ∃ s t', pyWhileD (c.searchStep clock) (c.init, t) = some (.ok (s, t')) ∧
    JInv c noEx s ∧ (t'.expired = false → s.f.q = [] ∧ s.r.q = []) ∧ (t.limit = .inf → t.expired = false → t'.expired = false) := by
  have key : ∃ r, pyWhileD (c.searchStep clock) (c.init, t) = some r ∧ ∃ s t', r = .ok (s, t') ∧
      JInv c noEx s ∧ (t'.expired = false → s.f.q = [] ∧ s.r.q = []) ∧ (t.limit = .inf → t.expired = false → t'.expired = false) := by
    refine pyWhileD_total (fun x => JInv c noEx x.1 ∧ x.2.limit = t.limit ∧ (t.limit = .inf → t.expired = false → x.2.expired = false))
      (fun r : Py (JamSt ι α O × Timer) => ∃ s t', r = .ok (s, t') ∧ JInv c noEx s ∧ (t'.expired = false → s.f.q = [] ∧ s.r.q = []) ∧
        (t.limit = .inf → t.expired = false → t'.expired = false))
      (· < ·) Nat.lt_wfRel.wf
      (fun x => 2 * c.universe.length - (x.1.f.visited.length + x.1.r.visited.length)) ?_ ⟨init_inv h, rfl, fun _ h => h⟩
    rintro ⟨s, tm⟩ ⟨hs, hlim, hexp⟩
    dsimp only at hs hlim hexp ⊢
    obtain ⟨k1, k2, k3, k4⟩ := check_spec clock tm
    unfold JamCfg.searchStep
    dsimp only
    generalize hch : tm.check clock = ch at k1 k2 k3 k4
    obtain ⟨late, t2⟩ := ch
    dsimp only at k1 k2 k3 k4 ⊢
    have hexp2 : t.limit = .inf → t.expired = false → t2.expired = false := fun a b => k3 (hlim.trans a) (hexp a b)
    by_cases hl : late = true
    · rw [if_pos hl]
      refine .inr ⟨_, rfl, s, t2, rfl, hs, ?_, hexp2⟩
      intro hf
      rw [k4 (k1 ▸ hl)] at hf
      cases hf
    · rw [if_neg hl]
      obtain ⟨s1, a1, a2, a3, a4, a5⟩ := expand_spec h hs false
      obtain ⟨s2, b1, b2, b3, b4, b5⟩ := expand_spec h a2 true
      rw [a1]; dsimp only; rw [b1]; dsimp only
      have f1 := visited_le h b2 false
      have f2 := visited_le h b2 true
      simp only [JamSt.side, Bool.not_false, Bool.not_true, if_true, Bool.false_eq_true, if_false] at a3 a5 b3 b5 f1 f2
      by_cases hq : s2.f.q = [] ∧ s2.r.q = []
      · rw [if_pos hq]
        exact .inr ⟨_, rfl, s2, t2, rfl, b2, fun _ => hq, hexp2⟩
      · rw [if_neg hq]
        refine .inl ⟨_, rfl, ⟨b2, k2.trans hlim, hexp2⟩, ?_⟩
        dsimp only
        rcases a5 with ⟨a5, rfl⟩ | a5
        · rcases b5 with ⟨b5, rfl⟩ | b5
          · exact absurd ⟨a5, b5⟩ hq
          · rw [b3] at f1 ⊢; omega
        · rw [b3] at f1 ⊢
          rcases b5 with ⟨b5, rfl⟩ | b5
          · rw [a3] at f2 ⊢; omega
          · rw [a3] at b5; omega
  obtain ⟨r, h1, s, t', rfl, h2⟩ := key
  exact ⟨s, t', h1, h2⟩

/-! ### the best path -/

theorem endsLoop_spec {mov : Graph (Placement ι α) Rat O} (hm : mov.Inv) (hw : NonNeg mov.edge) {start : Placement ι α} (hs : mov.has start = true)
    (L : List (Placement ι α)) : ∀ (d : Ext) (p : Option (List (Placement ι α))) (E : List (Placement ι α)),
    ((d = .inf ∧ p = none ∧ ∀ e ∈ E, ∀ q k, ¬ WalkOf mov.edge start e q k) ∨
      (∃ d0 p0 e0, d = .fin d0 ∧ p = some p0 ∧ e0 ∈ E ∧ WalkOf mov.edge start e0 p0 d0 ∧ p0.Nodup ∧ ∀ e ∈ E, ∀ q k, WalkOf mov.edge start e q k → d0 ≤ k)) →
    ∃ r, endsLoop mov start L d p = some (.ok r) ∧
      ((r = (.inf, none) ∧ ∀ e ∈ E ++ L, ∀ q k, ¬ WalkOf mov.edge start e q k) ∨
      (∃ d0 p0 e0, r = (.fin d0, some p0) ∧ e0 ∈ E ++ L ∧ WalkOf mov.edge start e0 p0 d0 ∧ p0.Nodup ∧
        ∀ e ∈ E ++ L, ∀ q k, WalkOf mov.edge start e q k → d0 ≤ k)) := by
  induction L with
  | nil =>
    intro d p E h
    refine ⟨(d, p), rfl, ?_⟩
    rw [List.append_nil]
    rcases h with ⟨rfl, rfl, h⟩ | ⟨d0, p0, e0, rfl, rfl, h⟩
    · exact .inl ⟨rfl, h⟩
    · exact .inr ⟨d0, p0, e0, rfl, h⟩
  | cons e L ih =>
    intro d p E h
    have happ : E ++ e :: L = (E ++ [e]) ++ L := by simp
    rw [happ]
    have hmem : ∀ x, x ∈ E ++ [e] ↔ x ∈ E ∨ x = e := by intro x; simp
    unfold endsLoop
    by_cases he : mov.has e = true
    · rw [if_pos he]
      obtain ⟨⟨d1, p1⟩, h1, h2⟩ := shortestPath_spec hm hw [] hs he
      rw [h1]
      dsimp only
      rcases h2 with ⟨d2, h3, h4, h5⟩ | ⟨h3, h4⟩
      · dsimp only at h3 h4; subst h3
        have h5' : ∀ q k, WalkOf mov.edge start e q k → d2 ≤ k := fun q k hq => h5 q k ⟨hq, by simp⟩
        rcases h with ⟨rfl, rfl, h⟩ | ⟨d0, p0, e0, rfl, rfl, g1, g2, gn, g3⟩
        · rw [if_pos (by rfl)]
          refine ih _ _ (E ++ [e]) (.inr ⟨d2, p1, e, rfl, rfl, by simp, h4.1, shortestPath_nodup h1, ?_⟩)
          intro x hx q k hq
          rcases (hmem x).1 hx with hx | rfl
          · exact absurd hq (h x hx q k)
          · exact h5' q k hq
        · by_cases hlt : d2 < d0
          · rw [if_pos (by simpa [extLt] using hlt)]
            refine ih _ _ (E ++ [e]) (.inr ⟨d2, p1, e, rfl, rfl, by simp, h4.1, shortestPath_nodup h1, ?_⟩)
            intro x hx q k hq
            rcases (hmem x).1 hx with hx | rfl
            · have := g3 x hx q k hq; grind
            · exact h5' q k hq
          · rw [if_neg (by simpa [extLt] using hlt)]
            refine ih _ _ (E ++ [e]) (.inr ⟨d0, p0, e0, rfl, rfl, (hmem _).2 (.inl g1), g2, gn, ?_⟩)
            intro x hx q k hq
            rcases (hmem x).1 hx with hx | rfl
            · exact g3 x hx q k hq
            · have := h5' q k hq; grind
      · cases h3
        rw [if_neg (by cases d <;> simp [extLt])]
        refine ih _ _ (E ++ [e]) ?_
        have hno : ∀ q k, ¬ WalkOf mov.edge start e q k := fun q k hq => h4 ⟨q, k, hq, by simp⟩
        rcases h with ⟨rfl, rfl, h⟩ | ⟨d0, p0, e0, rfl, rfl, g1, g2, gn, g3⟩
        · refine .inl ⟨rfl, rfl, ?_⟩
          intro x hx q k
          rcases (hmem x).1 hx with hx | rfl
          · exact h x hx q k
          · exact hno q k
        · refine .inr ⟨d0, p0, e0, rfl, rfl, (hmem _).2 (.inl g1), g2, gn, ?_⟩
          intro x hx q k hq
          rcases (hmem x).1 hx with hx | rfl
          · exact g3 x hx q k hq
          · exact absurd hq (hno q k)
    · rw [if_neg he]
      refine ih _ _ (E ++ [e]) ?_
      have hno : ∀ q k, ¬ WalkOf mov.edge start e q k := by
        intro q k hq
        exact he (walk_has hm hq hs e (List.mem_of_getLast? hq.2.1))
      rcases h with ⟨rfl, rfl, h⟩ | ⟨d0, p0, e0, rfl, rfl, g1, g2, gn, g3⟩
      · refine .inl ⟨rfl, rfl, ?_⟩
        intro x hx q k
        rcases (hmem x).1 hx with hx | rfl
        · exact h x hx q k
        · exact hno q k
      · refine .inr ⟨d0, p0, e0, rfl, rfl, (hmem _).2 (.inl g1), g2, gn, ?_⟩
        intro x hx q k hq
        rcases (hmem x).1 hx with hx | rfl
        · exact g3 x hx q k hq
        · exact absurd hq (hno q k)

theorem recd_nonneg (h : JamOk c) {s : JamSt ι α O} (hs : JInv c noEx s) : NonNeg s.mov.edge := by
  intro a b d he
  obtain ⟨_, _, k, x, y, _, h2, _⟩ := hs.recd a b d he
  exact h.nonneg _ _ _ h2

theorem bestPath_spec (h : JamOk c) {s : JamSt ι α O} (hs : JInv c noEx s) : ∃ r, c.bestPath s.mov = some (.ok r) ∧
    ((r = (.inf, none) ∧ ∀ e, c.IsFinal e → ∀ q k, ¬ WalkOf s.mov.edge c.start e q k) ∨
      (∃ d0 p0 e0, r = (.fin d0, some p0) ∧ c.IsFinal e0 ∧ WalkOf s.mov.edge c.start e0 p0 d0 ∧ p0.Nodup ∧
        ∀ e, c.IsFinal e → ∀ q k, WalkOf s.mov.edge c.start e q k → d0 ≤ k)) := by
  unfold JamCfg.bestPath
  have hmem : ∀ e, e ∈ c.ord c.finals ↔ c.IsFinal e := fun e => by rw [(h.ord _).mem_iff, mem_finals h]
  obtain ⟨r, h1, h2⟩ := endsLoop_spec hs.movInv (recd_nonneg h hs) hs.startIn (c.ord c.finals) .inf none [] (.inl ⟨rfl, rfl, by simp⟩)
  rw [List.nil_append] at h2
  refine ⟨r, h1, ?_⟩
  rcases h2 with ⟨h2, h3⟩ | ⟨d0, p0, e0, h2, h3, h4, hn, h5⟩
  · exact .inl ⟨h2, fun e he => h3 e ((hmem e).2 he)⟩
  · exact .inr ⟨d0, p0, e0, h2, (hmem e0).1 h3, h4, hn, fun e he => h5 e ((hmem e).2 he)⟩

/-- `x` may be entered by the load `k`: it is not prohibited, or it is one of its ends -/
def JamCfg.okEnd (c : JamCfg ι α O) (k : ι) (x : α) : Prop := ¬ Prohibited c.loads k x ∨ IsEnd c.loads k x

theorem walk_legal {s : JamSt ι α O} (hs : JInv c noEx s) : ∀ (p : List (Placement ι α)) (a e : Placement ι α) (d : Rat),
    WalkOf s.mov.edge a e p d →
    Consec (LegalMove (fun x y => (c.graph.edge x y).isSome = true) c.okEnd) p := by
  intro p
  induction p with
  | nil => intro a e d h; trivial
  | cons x l ih =>
    intro a e d hp
    rcases hp.inv with ⟨h1, _⟩ | ⟨b, q, k, d', h1, h2, h3, _⟩
    · cases h1; trivial
    · cases h1
      have ih' := ih b e d' h3
      have hq := h3.1
      cases l with
      | nil => trivial
      | cons y l =>
        simp only [List.head?_cons, Option.some.injEq] at hq
        subst hq
        refine ⟨?_, ih'⟩
        obtain ⟨_, _, i, u, v, g1, g2, g3, g4, g5⟩ := hs.recd _ _ _ h2
        exact ⟨i, u, v, g1, by simp [g2], g3, g4, g5⟩

theorem reach_walkOf {β : Type} {e : β → β → Option Rat} {a b : β} (h : Reach (fun x y => (e x y).isSome = true) a b) : ∃ p k, WalkOf e a b p k := by
  obtain ⟨n, h⟩ := h
  induction h with
  | zero => exact ⟨_, _, WalkOf.single _⟩
  | succ _ h2 ih =>
    obtain ⟨p, k, hp⟩ := ih
    obtain ⟨v, hv⟩ := Option.isSome_iff_exists.1 h2
    exact ⟨_, _, hp.snoc hv⟩

/-- with both queues empty every plan is found -/
theorem complete_of_empty {s : JamSt ι α O} (hs : JInv c noEx s) (hf : s.f.q = [])
    (moves : List (ι × α × α)) : ∀ a t, Plan (fun x y => (c.graph.edge x y).isSome = true) (fun k x => ¬ Prohibited c.loads k x) a moves t →
    t ∈ c.finals → a ∈ s.f.visited ∨ a ∈ s.r.visited →
    ∃ e ∈ c.finals, Reach (fun x y => (s.mov.edge x y).isSome = true) a e := by
  induction moves with
  | nil =>
    intro a t hp ht _
    cases hp
    exact ⟨a, ht, Reach.refl a⟩
  | cons m l ih =>
    obtain ⟨k, x, y⟩ := m
    intro a t hp ht ha
    rcases ha with ha | ha
    · obtain ⟨h1, h2, h3, h4, h5⟩ := hp
      obtain ⟨d, hd⟩ := Option.isSome_iff_exists.1 h2
      obtain ⟨g1, g2⟩ := hs.closed false a ha (fun hf => hf) (moveTo k y a) d ⟨k, x, y, h1, hd, h3, h4, rfl⟩
      have g3 : moveTo k y a ∈ s.f.visited ∨ moveTo k y a ∈ s.r.visited := by
        rcases g2 with (g2 | g2) | g2
        · exact .inl g2
        · simp [JamSt.side, hf] at g2
        · exact .inr g2
      obtain ⟨e, he, hre⟩ := ih _ t h5 ht g3
      exact ⟨e, he, Reach.head g1 hre⟩
    · obtain ⟨r, h1, h2⟩ := hs.chain true a (.inl ha)
      refine ⟨r, h1, ?_⟩
      exact h2.flip

theorem plan_end {adj : α → α → Prop} {ok : ι → α → Prop} (moves : List (ι × α × α)) : ∀ {s t : Placement ι α}, Distinct s →
    Plan adj ok s moves t → t.map Prod.fst = s.map Prod.fst ∧ Distinct t := by
  induction moves with
  | nil => intro s t hd hp; cases hp; exact ⟨rfl, hd⟩
  | cons m l ih =>
    obtain ⟨k, x, y⟩ := m
    intro s t hd hp
    obtain ⟨_, _, h3, _, h5⟩ := hp
    obtain ⟨g1, g2⟩ := ih (hd.moveTo h3) h5
    exact ⟨g1.trans (moveTo_fst ..), g2⟩

/-- `solve`: what it returns, with the timer's state afterwards -/
theorem solve_spec (h : JamOk c) (clock : Nat → Rat) (t : Timer) : ∃ r t', c.solve clock t = some (.ok (r, t')) ∧
    (t.limit = .inf → t.expired = false → t'.expired = false) ∧
    ((r = (.inf, none) ∧ (t'.expired = false → ∀ moves s, c.IsFinal s →
        ¬ Plan (fun x y => (c.graph.edge x y).isSome = true) (fun k x => ¬ Prohibited c.loads k x) c.start moves s)) ∨
      (∃ d p e, r = (.fin d, some p) ∧ c.IsFinal e ∧ p.head? = some c.start ∧ p.getLast? = some e ∧ p.Nodup ∧
        Consec (LegalMove (fun x y => (c.graph.edge x y).isSome = true) c.okEnd) p)) := by
  obtain ⟨s, t', h1, h2, h3, h4⟩ := jamSearch_spec h clock t
  obtain ⟨r, h5, h6⟩ := bestPath_spec h h2
  unfold JamCfg.solve
  rw [h1]; dsimp only; rw [h5]
  refine ⟨r, t', rfl, h4, ?_⟩
  rcases h6 with ⟨h6, h7⟩ | ⟨d0, p0, e0, h6, h7, h8, hn, _⟩
  · refine .inl ⟨h6, ?_⟩
    intro hx moves fin hfin hp
    have q1 := (h3 hx).1
    have hst : c.start ∈ s.f.visited ∨ c.start ∈ s.r.visited := by
      have := h2.roots false c.start (by simp [JamCfg.roots])
      rcases this with g | g
      · exact .inl g
      · simp [JamSt.side, q1] at g
    obtain ⟨e, he, hre⟩ := complete_of_empty h2 q1 moves c.start fin hp ((mem_finals h fin).2 hfin) hst
    obtain ⟨p, k, hw⟩ := reach_walkOf hre
    exact h7 e ((mem_finals h e).1 he) p k hw
  · exact .inr ⟨d0, p0, e0, h6, h7, h8.1, h8.2.1, hn, walk_legal h2 p0 _ _ _ h8⟩

end GT

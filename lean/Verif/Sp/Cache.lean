import Verif.Sp.Legs
/-
Model of `ShortestPathCache` (graph/shortest_path.py:245-316) and of `Graph.shortest_path(memoize=True)`
(graph/core.py:48-61).
-/
namespace GT
variable {α V O : Type} [DecidableEq α]
open Graph

/-- the state of a `ShortestPathCache` (shortest_path.py:251-256).  The keys of `repeated` contain
`hash(avoids)`, an integer. -/
structure SpCache (α : Type) where
  cache : Dict (α × α) (Ext × List α)
  repeated : Dict (α × α × Int) (Ext × List α)

def SpCache.empty : SpCache α := ⟨Dict.empty, Dict.empty⟩

/-- the sections of a path that `_update_cache` stores, in order (shortest_path.py:266-281):
`path` itself if it is short, `path[a : b - a]` for `a = 0, 1, …` while they have at least three nodes,
`path[ix:]` for all indices of `path[1:-1]` -/
def sections (path : List α) : List (List α) :=
  (if path.length ≤ 2 then [path] else []) ++
  ((List.range path.length).map (fun a => (path.take (path.length - a)).drop a)).takeWhile (fun s => decide (3 ≤ s.length)) ++
  (List.range (path.length - 2)).map (fun ix => path.drop ix)

/-- `dist = graph.distance_from_path(section); cache[(section[0], section[-1])] = (dist, section)` for
every section -/
def Graph.storeSections (g : Graph α Rat O) : List (List α) → Dict (α × α) (Ext × List α) →
    Option (Py (Dict (α × α) (Ext × List α)))
  | [], c => some (.ok c)
  | s :: l, c => match g.distanceFromPath s with
    | none => none
    | some (.error e) => some (.error e)
    | some (.ok d) => match s.head?, s.getLast? with
      | some x, some y => storeSections g l (c.set (x, y) (d, s))
      | _, _ => some (.error .indexError)

/-- `_update_cache(path)` (shortest_path.py:258-281) -/
def Graph.updateCache (g : Graph α Rat O) (path : List α) (c : Dict (α × α) (Ext × List α)) :
    Option (Py (Dict (α × α) (Ext × List α))) := g.storeSections (sections path) c

/-- the branch with `avoids` (shortest_path.py:296-304).  `hash` is `hash(frozenset(·))`. -/
def Graph.memoAvoid (srt : List (α × Rat) → List (α × Rat)) (hash : List α → Int) (g : Graph α Rat O)
    (c : SpCache α) (start fin : α) (av : List α) : Option (Py ((Ext × List α) × SpCache α)) :=
  match c.repeated.get? (start, fin, hash av) with
  | some r => some (.ok (r, c))
  | none => match g.shortestPathBi srt start fin av with
    | none => none
    | some (.error e) => some (.error e)
    | some (.ok r) => some (.ok (r, { c with repeated := c.repeated.set (start, fin, hash av) r }))

/-- the branch without `avoids` (shortest_path.py:305-314) -/
def Graph.memoPlain (srt : List (α × Rat) → List (α × Rat)) (g : Graph α Rat O)
    (c : SpCache α) (start fin : α) : Option (Py ((Ext × List α) × SpCache α)) :=
  match c.cache.get? (start, fin) with
  | some r => some (.ok (r, c))
  | none => match g.shortestPathBi srt start fin with
    | none => none
    | some (.error e) => some (.error e)
    | some (.ok (_, [])) => some (.ok ((.inf, []), { c with cache := c.cache.set (start, fin) (.inf, []) }))
    | some (.ok (_, p)) => match g.updateCache p c.cache with
      | none => none
      | some (.error e) => some (.error e)
      | some (.ok d) => match d.get? (start, fin) with
        | none => some (.error .keyError)
        | some r => some (.ok (r, { c with cache := d }))

/-- `graph.shortest_path(start, end, memoize=True, avoids=avoids)` (core.py:48-61, shortest_path.py:283-316).
The cache belongs to the graph object; `g` is the graph at the time of the call.
Simplification: when an exception is raised the state of the cache is not returned (it is unchanged when
`start` or `end` is missing, the only exceptions there are, theorem `memoSP_spec`). -/
def Graph.memoSP (srt : List (α × Rat) → List (α × Rat)) (hash : List α → Int) (g : Graph α Rat O)
    (c : SpCache α) (start fin : α) (avoids : Option (List α)) : Option (Py ((Ext × List α) × SpCache α)) :=
  if !g.has start then some (.error .valueError)
  else if !g.has fin then some (.error .valueError)
  else match avoids with
    | some av => g.memoAvoid srt hash c start fin av
    | none => g.memoPlain srt c start fin

/-- a query: start, end and the avoided nodes, or a change of the graph -/
inductive MemoEv (α O : Type) where
  | query (start fin : α) (avoids : Option (List α))
  | change (op : Op α Rat O)

/-- a history of memoised queries and changes of one graph object; the log contains the answers to the queries -/
def memoRun (srt : List (α × Rat) → List (α × Rat)) (hash : List α → Int) :
    Graph α Rat O → SpCache α → List (MemoEv α O) → Option (List (Py (Ext × List α)))
  | _, _, [] => some []
  | g, c, .change op :: l => memoRun srt hash (g.stepE op).1 c l
  | g, c, .query s f av :: l => match g.memoSP srt hash c s f av with
    | none => none
    | some (.error e) => (memoRun srt hash g c l).map (fun rs => .error e :: rs)
    | some (.ok (r, c)) => (memoRun srt hash g c l).map (fun rs => .ok r :: rs)

/-! ### correctness -/

/-- the contents of the cache are right for the graph -/
structure CacheOk (hash : List α → Int) (A : List α → Prop) (g : Graph α Rat O) (c : SpCache α) : Prop where
  plain : ∀ s f r, c.cache.get? (s, f) = some r → SpResult g.edge [] s f r
  repeated : ∀ s f av r, A av → c.repeated.get? (s, f, hash av) = some r → BiResult g.edge av s f r

theorem BiResult.spResult {w : α → α → Option Rat} {av : List α} {s f : α} {r : Ext × List α}
    (h : BiResult w av s f r) (hs : s ∉ av) (hf : f ∉ av) : SpResult w av s f r := by
  obtain ⟨h1, h2⟩ := h
  rcases h2 with rfl | ⟨d, h2, h3, h4⟩
  · refine .inr ⟨rfl, ?_⟩
    rintro ⟨p, c, hp⟩; exact h1 p c hp
  · refine .inl ⟨d, h2, ⟨h3, fun x hx => ?_⟩, fun p c hp => ?_⟩
    · rcases h4 x hx with h | rfl | rfl
      · exact h
      · exact hs
      · exact hf
    · have := h1 p c hp; rw [h2] at this; exact this

theorem BiResult.congr {w : α → α → Option Rat} {av av' : List α} {s f : α} {r : Ext × List α}
    (h : BiResult w av s f r) (he : ∀ x, x ∈ av ↔ x ∈ av') : BiResult w av' s f r := by
  obtain ⟨h1, h2⟩ := h
  refine ⟨fun p c hp => h1 p c ⟨hp.1, fun x hx hx' => hp.2 x hx ((he x).1 hx')⟩, ?_⟩
  rcases h2 with h2 | ⟨d, h2, h3, h4⟩
  · exact .inl h2
  · refine .inr ⟨d, h2, h3, fun x hx => ?_⟩
    rw [← he]; exact h4 x hx

theorem SpResult.dist_unique {w : α → α → Option Rat} {av : List α} {s f : α} {r r' : Ext × List α}
    (h : SpResult w av s f r) (h' : SpResult w av s f r') : r.1 = r'.1 := by
  rcases h with ⟨d, h1, h2, h3⟩ | ⟨h1, h2⟩ <;> rcases h' with ⟨d', h1', h2', h3'⟩ | ⟨h1', h2'⟩
  · rw [h1, h1']; have := h3 _ _ h2'; have := h3' _ _ h2; congr 1; grind
  · exact absurd ⟨_, _, h2⟩ h2'
  · exact absurd ⟨_, _, h2'⟩ h2
  · rw [h1, h1']

/-- every section of a shortest path is a shortest path -/
theorem section_shortest {w : α → α → Option Rat} {s f : α} {u t v : List α} {d : Rat}
    (h : AvoidWalk w [] s f (u ++ t ++ v) d) (hmin : ∀ p c, AvoidWalk w [] s f p c → d ≤ c) {x y : α}
    (hx : t.head? = some x) (hy : t.getLast? = some y) :
    ∃ c, walkCost w t = some c ∧ SpResult w [] x y (.fin c, t) := by
  obtain ⟨x', t1, rfl⟩ : ∃ x' t1, t = x' :: t1 := by cases t with
    | nil => simp at hx
    | cons a b => exact ⟨a, b, rfl⟩
  simp at hx; subst hx
  obtain ⟨hwalk, _⟩ := h
  rw [List.append_assoc, List.cons_append] at hwalk
  obtain ⟨d1, d2, h1, h2, h3⟩ := hwalk.split
  obtain ⟨t2, ht2⟩ : ∃ t2, x' :: t1 = t2 ++ [y] := by
    refine ⟨(x' :: t1).dropLast, ?_⟩
    rw [List.getLast?_eq_some_getLast (by simp)] at hy
    rw [← (Option.some.inj hy)]; exact (List.dropLast_concat_getLast (by simp)).symm
  have h2' : WalkOf w x' f (t2 ++ y :: v) d2 := by
    have : x' :: (t1 ++ v) = t2 ++ y :: v := by
      rw [← List.cons_append, ht2]; simp
    rw [← this]; exact h2
  obtain ⟨e1, e2, h4, h5, h6⟩ := h2'.split
  rw [← ht2] at h4
  refine ⟨e1, h4.2.2, .inl ⟨e1, rfl, ⟨h4, by simp⟩, fun p c hp => ?_⟩⟩
  obtain ⟨q, rfl⟩ : ∃ q, p = x' :: q := by
    cases p with
    | nil => exact absurd rfl hp.1.ne_nil
    | cons a q => have := hp.1.1; simp at this; subst this; exact ⟨q, rfl⟩
  have hh := (h1.append hp.1).append h5
  have := hmin _ _ ⟨hh, by simp⟩
  grind

theorem sections_sub {path s : List α} (hne : path ≠ []) (h : s ∈ sections path) :
    ∃ u v, path = u ++ s ++ v ∧ s ≠ [] := by
  unfold sections at h
  rw [List.mem_append, List.mem_append] at h
  rcases h with (h | h) | h
  · split at h
    · simp at h; subst h; exact ⟨[], [], by simp, hne⟩
    · simp at h
  · have h1 := List.all_eq_true.1 (List.all_takeWhile (l := (List.range path.length).map (fun a => (path.take (path.length - a)).drop a)) (p := fun s => decide (3 ≤ s.length))) s h
    have h2 := (List.takeWhile_sublist _).subset h
    rw [List.mem_map] at h2
    obtain ⟨a, _, rfl⟩ := h2
    refine ⟨(path.take (path.length - a)).take a, path.drop (path.length - a), ?_, ?_⟩
    · rw [List.take_append_drop, List.take_append_drop]
    · intro h3; rw [h3] at h1; simp at h1
  · rw [List.mem_map] at h
    obtain ⟨ix, h1, rfl⟩ := h
    refine ⟨path.take ix, [], by simp, ?_⟩
    intro h3
    have := congrArg List.length h3
    simp at this h1; omega

omit [DecidableEq α] in
theorem self_mem_sections {path : List α} : path ∈ sections path := by
  unfold sections
  by_cases h : path.length ≤ 2
  · rw [if_pos h]; simp
  · rw [List.mem_append]; right
    rw [List.mem_map]; exact ⟨0, by simp; omega, by simp⟩

theorem storeSections_spec {g : Graph α Rat O} (h : g.Inv) (hw : NonNeg g.edge) (l : List (List α)) :
    ∀ (c : Dict (α × α) (Ext × List α)),
    (∀ s ∈ l, s ≠ [] ∧ (∀ x ∈ s, g.has x = true) ∧
      ∀ x y, s.head? = some x → s.getLast? = some y → ∃ q, walkCost g.edge s = some q ∧ SpResult g.edge [] x y (.fin q, s)) →
    (∀ s f r, c.get? (s, f) = some r → SpResult g.edge [] s f r) →
    ∃ d, g.storeSections l c = some (.ok d) ∧ (∀ s f r, d.get? (s, f) = some r → SpResult g.edge [] s f r) ∧
      (∀ k, k ∈ c.keys → k ∈ d.keys) ∧
      ∀ s ∈ l, ∀ x y, s.head? = some x → s.getLast? = some y → (x, y) ∈ d.keys := by
  induction l with
  | nil => intro c _ hc; exact ⟨c, rfl, hc, fun _ h => h, by simp⟩
  | cons s l ih =>
    intro c hl hc
    obtain ⟨hne, hin, hs⟩ := hl s (by simp)
    obtain ⟨r, hr, hr2⟩ := distanceFromPath_spec h hw hin
    obtain ⟨x, hx⟩ : ∃ x, s.head? = some x := by cases s with
      | nil => exact absurd rfl hne
      | cons a b => exact ⟨a, rfl⟩
    obtain ⟨y, hy⟩ : ∃ y, s.getLast? = some y := ⟨_, List.getLast?_eq_some_getLast hne⟩
    obtain ⟨q, hq, hsp⟩ := hs x y hx hy
    have : r = .fin q := hr2.unique (SumLegs.of_walkCost hq)
    subst this
    obtain ⟨d, h1, h2, h3, h4⟩ := ih (c.set (x, y) (.fin q, s)) (fun s hs => hl s (List.mem_cons_of_mem _ hs)) (by
      intro s' f' r' hr'
      rw [Dict.get?_set] at hr'
      split at hr'
      · rename_i he; cases he; cases hr'; exact hsp
      · exact hc _ _ _ hr')
    refine ⟨d, ?_, h2, fun k hk => h3 k ((Dict.mem_keys_set _ _ _ _).2 (.inr hk)), fun t ht x' y' hx' hy' => ?_⟩
    · unfold storeSections; rw [hr]; dsimp only; rw [hx, hy]; exact h1
    · rcases List.mem_cons.1 ht with rfl | ht
      · rw [hx] at hx'; rw [hy] at hy'; cases hx'; cases hy'
        exact h3 _ ((Dict.mem_keys_set _ _ _ _).2 (.inl rfl))
      · exact h4 t ht x' y' hx' hy'

theorem memoPlain_spec {g : Graph α Rat O} (h : g.Inv) (hw : NonNeg g.edge) {srt : List (α × Rat) → List (α × Rat)}
    (hsrt : ∀ l, (srt l).Perm l) {hash : List α → Int} {A : List α → Prop} {c : SpCache α} (hc : CacheOk hash A g c) {start fin : α}
    (hs : g.has start = true) (hf : g.has fin = true) :
    ∃ r c', g.memoPlain srt c start fin = some (.ok (r, c')) ∧ CacheOk hash A g c' ∧ SpResult g.edge [] start fin r := by
  unfold memoPlain
  cases h1 : c.cache.get? (start, fin) with
  | some r => exact ⟨r, c, rfl, hc, hc.plain _ _ _ h1⟩
  | none =>
    dsimp only
    obtain ⟨⟨d, p⟩, h2, h3⟩ := shortestPathBi_spec h hw (start := start) (fin := fin) [] hsrt hs hf
    have h4 := h3.spResult (by simp) (by simp)
    rw [h2]
    cases p with
    | nil =>
      dsimp only
      have h5 : SpResult g.edge [] start fin (.inf, []) := by
        rcases h4 with ⟨d, _, h6, _⟩ | ⟨_, h6⟩
        · exact absurd rfl h6.1.ne_nil
        · exact .inr ⟨rfl, h6⟩
      refine ⟨_, _, rfl, ⟨fun s f r hr => ?_, hc.repeated⟩, h5⟩
      rw [Dict.get?_set] at hr
      split at hr
      · rename_i he; cases he; cases hr; exact h5
      · exact hc.plain _ _ _ hr
    | cons a p =>
      dsimp only
      rcases h4 with ⟨q, h5, h6, h7⟩ | ⟨h6, _⟩
      · dsimp only at h5 h6
        subst h5
        have hhas := walk_has h h6.1 hs
        obtain ⟨dd, h8, h9, h10, h11⟩ := storeSections_spec h hw (sections (a :: p)) c.cache (fun s hs => by
          obtain ⟨u, v, e1, e2⟩ := sections_sub (by simp) hs
          refine ⟨e2, fun x hx => hhas x (by rw [e1]; simp [hx]), fun x y hx hy => ?_⟩
          rw [e1] at h6
          exact section_shortest h6 h7 hx hy) hc.plain
        unfold updateCache
        rw [h8]
        dsimp only
        have hk := h11 _ self_mem_sections _ _ h6.1.1 h6.1.2.1
        obtain ⟨r, hr⟩ := Dict.exists_get?_of_mem_keys hk
        rw [hr]
        exact ⟨r, _, rfl, ⟨h9, hc.repeated⟩, h9 _ _ _ hr⟩
      · cases h6

theorem memoAvoid_spec {g : Graph α Rat O} (h : g.Inv) (hw : NonNeg g.edge) {srt : List (α × Rat) → List (α × Rat)}
    (hsrt : ∀ l, (srt l).Perm l) {hash : List α → Int} {A : List α → Prop} (hinj : ∀ a b, A a → A b → hash a = hash b → ∀ x, x ∈ a ↔ x ∈ b)
    {c : SpCache α} (hc : CacheOk hash A g c) {start fin : α} {av : List α} (hA : A av)
    (hs : g.has start = true) (hf : g.has fin = true) :
    ∃ r c', g.memoAvoid srt hash c start fin av = some (.ok (r, c')) ∧ CacheOk hash A g c' ∧ BiResult g.edge av start fin r := by
  unfold memoAvoid
  cases h1 : c.repeated.get? (start, fin, hash av) with
  | some r => exact ⟨r, c, rfl, hc, hc.repeated _ _ _ _ hA h1⟩
  | none =>
    dsimp only
    obtain ⟨r, h2, h3⟩ := shortestPathBi_spec h hw (start := start) (fin := fin) av hsrt hs hf
    rw [h2]
    refine ⟨r, _, rfl, ⟨hc.plain, fun s f av' r' hA' hr => ?_⟩, h3⟩
    rw [Dict.get?_set] at hr
    split at hr
    · rename_i he
      simp only [Prod.mk.injEq] at he
      obtain ⟨rfl, rfl, he⟩ := he
      cases hr; exact h3.congr (hinj _ _ hA hA' he)
    · exact hc.repeated _ _ _ _ hA' hr

/-- the right answer to a query -/
def RightAnswer (g : Graph α Rat O) (s f : α) (avoids : Option (List α)) (r : Py (Ext × List α)) : Prop :=
  (¬ (g.has s = true ∧ g.has f = true) → r = .error .valueError) ∧
  (g.has s = true → g.has f = true → ∃ x, r = .ok x ∧ BiResult g.edge (avoids.getD []) s f x)

theorem memoSP_spec {g : Graph α Rat O} (h : g.Inv) (hw : NonNeg g.edge) {srt : List (α × Rat) → List (α × Rat)}
    (hsrt : ∀ l, (srt l).Perm l) {hash : List α → Int} {A : List α → Prop}
    (hinj : ∀ a b, A a → A b → hash a = hash b → ∀ x, x ∈ a ↔ x ∈ b)
    {c : SpCache α} (hc : CacheOk hash A g c) (start fin : α) (avoids : Option (List α)) (hA : ∀ av, avoids = some av → A av) :
    (¬ (g.has start = true ∧ g.has fin = true) ∧ g.memoSP srt hash c start fin avoids = some (.error .valueError)) ∨
    (g.has start = true ∧ g.has fin = true ∧ ∃ r c', g.memoSP srt hash c start fin avoids = some (.ok (r, c')) ∧
      CacheOk hash A g c' ∧ BiResult g.edge (avoids.getD []) start fin r) := by
  unfold memoSP
  cases hs : g.has start with
  | false => exact .inl ⟨by simp, rfl⟩
  | true =>
    cases hf : g.has fin with
    | false => exact .inl ⟨by simp, rfl⟩
    | true =>
      refine .inr ⟨rfl, rfl, ?_⟩
      simp only [Bool.not_true, Bool.false_eq_true, if_false]
      cases avoids with
      | some av => exact memoAvoid_spec h hw hsrt hinj hc (hA av rfl) hs hf
      | none =>
        obtain ⟨r, c', h1, h2, h3⟩ := memoPlain_spec h hw hsrt hc hs hf
        refine ⟨r, c', h1, h2, ?_⟩
        rcases h3 with ⟨d, h3, h4, h5⟩ | ⟨h3, h4⟩
        · refine ⟨fun p c hp => by rw [h3]; exact h5 p c hp, .inr ⟨d, h3, h4.1, fun x hx => .inl (by simp)⟩⟩
        · exact ⟨fun p c hp => absurd ⟨p, c, hp⟩ h4, .inl h3⟩

/-- a history without changes -/
def queries (qs : List (α × α × Option (List α))) : List (MemoEv α O) := qs.map (fun q => .query q.1 q.2.1 q.2.2)

theorem memoRun_spec {g : Graph α Rat O} (h : g.Inv) (hw : NonNeg g.edge) {srt : List (α × Rat) → List (α × Rat)}
    (hsrt : ∀ l, (srt l).Perm l) {hash : List α → Int} {A : List α → Prop}
    (hinj : ∀ a b, A a → A b → hash a = hash b → ∀ x, x ∈ a ↔ x ∈ b) (qs : List (α × α × Option (List α))) :
    (∀ q ∈ qs, ∀ av, q.2.2 = some av → A av) → ∀ c : SpCache α, CacheOk hash A g c →
    ∃ rs, memoRun srt hash g c (queries qs) = some rs ∧ rs.length = qs.length ∧
      ∀ (i : Nat) q r, qs[i]? = some q → rs[i]? = some r → RightAnswer g q.1 q.2.1 q.2.2 r := by
  induction qs with
  | nil => intro _ c _; exact ⟨[], rfl, rfl, by simp⟩
  | cons q qs ih =>
    intro hA c hc
    obtain ⟨s, f, av⟩ := q
    have hcons : ∀ r0 rs, RightAnswer g s f av r0 →
        (∀ (i : Nat) q r, qs[i]? = some q → rs[i]? = some r → RightAnswer g q.1 q.2.1 q.2.2 r) →
        ∀ (i : Nat) q r, ((s, f, av) :: qs)[i]? = some q → (r0 :: rs)[i]? = some r → RightAnswer g q.1 q.2.1 q.2.2 r := by
      intro r0 rs h0 hrs i q r hq hr
      cases i with
      | zero => simp at hq hr; subst hq hr; exact h0
      | succ i => simp at hq hr; exact hrs i q r hq hr
    rcases memoSP_spec h hw hsrt hinj hc s f av (hA (s, f, av) (List.mem_cons_self ..)) with ⟨h1, h2⟩ | ⟨h1, h1', r, c', h2, h3, h4⟩
    · obtain ⟨rs, h5, h6, h7⟩ := ih (fun q hq => hA q (List.mem_cons_of_mem _ hq)) c hc
      unfold queries at h5
      refine ⟨.error .valueError :: rs, ?_, by simp [h6], hcons _ _ ⟨fun _ => rfl, fun a b => absurd ⟨a, b⟩ h1⟩ h7⟩
      simp only [queries, List.map_cons, memoRun, h2]
      rw [h5]; rfl
    · obtain ⟨rs, h5, h6, h7⟩ := ih (fun q hq => hA q (List.mem_cons_of_mem _ hq)) c' h3
      unfold queries at h5
      refine ⟨.ok r :: rs, ?_, by simp [h6], hcons _ _ ⟨fun a => absurd ⟨h1, h1'⟩ a, fun _ _ => ⟨r, rfl, h4⟩⟩ h7⟩
      simp only [queries, List.map_cons, memoRun, h2]
      rw [h5]; rfl

theorem cacheOk_empty (hash : List α → Int) (A : List α → Prop) (g : Graph α Rat O) : CacheOk hash A g SpCache.empty :=
  ⟨fun s f r h => by simp [SpCache.empty] at h, fun s f av r _ h => by simp [SpCache.empty] at h⟩

end GT

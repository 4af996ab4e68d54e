import Verif.Sp.Cache
import Verif.Sp.LegsFl
import Verif.Sp.BidirFl
import Verif.Props.LegsRound
import Verif.Props.BidirRound
/-
Model of `ShortestPathCache` (graph/shortest_path.py:245-316) in rounded arithmetic: the distances stored are those of `distance_from_path` (Sp/LegsFl) on the
sections of the paths that `shortest_path_bidirectional` (Sp/BidirFl) finds.
-/
namespace GT
variable {α V O : Type} [DecidableEq α]
open Graph

/-- `dist = graph.distance_from_path(section); cache[(section[0], section[-1])] = (dist, section)` for every section (shortest_path.py:266-281) -/
def Graph.storeSectionsFl (fl : Rat → Rat) (g : Graph α Rat O) : List (List α) → Dict (α × α) (Ext × List α) →
    Option (Py (Dict (α × α) (Ext × List α)))
  | [], c => some (.ok c)
  | s :: l, c => match g.distanceFromPathFl fl s with
    | none => none
    | some (.error e) => some (.error e)
    | some (.ok d) => match s.head?, s.getLast? with
      | some x, some y => storeSectionsFl fl g l (c.set (x, y) (d, s))
      | _, _ => some (.error .indexError)

/-- `_update_cache(path)` (shortest_path.py:258-281) -/
def Graph.updateCacheFl (fl : Rat → Rat) (g : Graph α Rat O) (path : List α) (c : Dict (α × α) (Ext × List α)) :
    Option (Py (Dict (α × α) (Ext × List α))) := g.storeSectionsFl fl (sections path) c

/-- the branch with `avoids` (shortest_path.py:296-304).  `hash` is `hash(frozenset(·))`. -/
def Graph.memoAvoidFl (fl : Rat → Rat) (srt : List (α × Rat) → List (α × Rat)) (hash : List α → Int) (g : Graph α Rat O)
    (c : SpCache α) (start fin : α) (av : List α) : Option (Py ((Ext × List α) × SpCache α)) :=
  match c.repeated.get? (start, fin, hash av) with
  | some r => some (.ok (r, c))
  | none => match g.shortestPathBiFl fl srt start fin av with
    | none => none
    | some (.error e) => some (.error e)
    | some (.ok r) => some (.ok (r, { c with repeated := c.repeated.set (start, fin, hash av) r }))

/-- the branch without `avoids` (shortest_path.py:305-314) -/
def Graph.memoPlainFl (fl : Rat → Rat) (srt : List (α × Rat) → List (α × Rat)) (g : Graph α Rat O)
    (c : SpCache α) (start fin : α) : Option (Py ((Ext × List α) × SpCache α)) :=
  match c.cache.get? (start, fin) with
  | some r => some (.ok (r, c))
  | none => match g.shortestPathBiFl fl srt start fin with
    | none => none
    | some (.error e) => some (.error e)
    | some (.ok (_, [])) => some (.ok ((.inf, []), { c with cache := c.cache.set (start, fin) (.inf, []) }))
    | some (.ok (_, p)) => match g.updateCacheFl fl p c.cache with
      | none => none
      | some (.error e) => some (.error e)
      | some (.ok d) => match d.get? (start, fin) with
        | none => some (.error .keyError)
        | some r => some (.ok (r, { c with cache := d }))

/-- `graph.shortest_path(start, end, memoize=True, avoids=avoids)` (core.py:48-61, shortest_path.py:283-316).  Simplification as in `Graph.memoSP`: the cache is
not returned with an exception. -/
def Graph.memoSPFl (fl : Rat → Rat) (srt : List (α × Rat) → List (α × Rat)) (hash : List α → Int) (g : Graph α Rat O)
    (c : SpCache α) (start fin : α) (avoids : Option (List α)) : Option (Py ((Ext × List α) × SpCache α)) :=
  if !g.has start then some (.error .valueError)
  else if !g.has fin then some (.error .valueError)
  else match avoids with
    | some av => g.memoAvoidFl fl srt hash c start fin av
    | none => g.memoPlainFl fl srt c start fin

/-- a history of memoised queries of one graph object that is not changed in between; the log contains the answers (core.py:48-61) -/
def memoRunFl (fl : Rat → Rat) (srt : List (α × Rat) → List (α × Rat)) (hash : List α → Int) (g : Graph α Rat O) :
    SpCache α → List (α × α × Option (List α)) → Option (List (Py (Ext × List α)))
  | _, [] => some []
  | c, (s, f, av) :: l => match g.memoSPFl fl srt hash c s f av with
    | none => none
    | some (.error e) => (memoRunFl fl srt hash g c l).map (fun rs => .error e :: rs)
    | some (.ok (r, c)) => (memoRunFl fl srt hash g c l).map (fun rs => .ok r :: rs)

/-! ### what the cache contains -/

/-- `r` answers the query from `s` to `f` without `avoids`: there is no walk, or the path is a section of the path found for one of the queries `H`, and the
distance is its length added from left to right -/
def PlainFl (fl : Rat → Rat) (srt : List (α × Rat) → List (α × Rat)) (g : Graph α Rat O) (H : List (α × α × Option (List α))) (s f : α) (r : Ext × List α) : Prop :=
  (r = (.inf, []) ∧ ¬ ∃ p c, WalkOf g.edge s f p c) ∨
  ∃ c s' f' u v d, r.1 = .fin c ∧ r.2.head? = some s ∧ r.2.getLast? = some f ∧ flCost fl g.edge 0 r.2 = some c ∧ (s', f', none) ∈ H ∧
    g.shortestPathBiFl fl srt s' f' = some (.ok (.fin d, u ++ r.2 ++ v))

structure CacheFl (fl : Rat → Rat) (srt : List (α × Rat) → List (α × Rat)) (hash : List α → Int) (g : Graph α Rat O) (H : List (α × α × Option (List α)))
    (c : SpCache α) : Prop where
  plain : ∀ s f r, c.cache.get? (s, f) = some r → PlainFl fl srt g H s f r
  repeated : ∀ s f h r, c.repeated.get? (s, f, h) = some r → ∃ av, (s, f, some av) ∈ H ∧ hash av = h ∧ g.shortestPathBiFl fl srt s f av = some (.ok r)

theorem PlainFl.mono {fl : Rat → Rat} {srt : List (α × Rat) → List (α × Rat)} {g : Graph α Rat O} {H H' : List (α × α × Option (List α))} {s f : α}
    {r : Ext × List α} (h : PlainFl fl srt g H s f r) (hH : ∀ q ∈ H, q ∈ H') : PlainFl fl srt g H' s f r := by
  rcases h with h | ⟨c, s', f', u, v, d, h1, h2, h3, h4, h5, h6⟩
  · exact .inl h
  · exact .inr ⟨c, s', f', u, v, d, h1, h2, h3, h4, hH _ h5, h6⟩

theorem CacheFl.mono {fl : Rat → Rat} {srt : List (α × Rat) → List (α × Rat)} {hash : List α → Int} {g : Graph α Rat O} {H H' : List (α × α × Option (List α))}
    {c : SpCache α} (h : CacheFl fl srt hash g H c) (hH : ∀ q ∈ H, q ∈ H') : CacheFl fl srt hash g H' c :=
  ⟨fun s f r hr => (h.plain s f r hr).mono hH, fun s f k r hr => let ⟨av, h1, h2⟩ := h.repeated s f k r hr; ⟨av, hH _ h1, h2⟩⟩

/-- a section of a walk has a rounded length -/
theorem flCost_section {fl : Rat → Rat} {w : α → α → Option Rat} {s f : α} {u t v : List α} {e : Rat} (h : WalkOf w s f (u ++ t ++ v) e) (hne : t ≠ []) :
    ∃ c, flCost fl w 0 t = some c := by
  have h1 := walkCost_edge _ h.2.2
  refine flCost_total t hne (fun i x y hx hy => ?_) 0
  refine h1 (u.length + i) x y ?_ ?_
  · rw [List.append_assoc, List.getElem?_append_right (by omega), Nat.add_sub_cancel_left, List.getElem?_append_left]
    · exact hx
    · exact (List.getElem?_eq_some_iff.1 hx).1
  · rw [List.append_assoc, List.getElem?_append_right (by omega), Nat.add_assoc, Nat.add_sub_cancel_left, List.getElem?_append_left]
    · exact hy
    · exact (List.getElem?_eq_some_iff.1 hy).1

theorem storeSectionsFl_spec {fl : Rat → Rat} (hfl : Rounding fl) {g : Graph α Rat O} (hg : g.Built) (hw : NonNeg g.edge) {P : α → α → Ext × List α → Prop} (l : List (List α)) :
    ∀ (c : Dict (α × α) (Ext × List α)),
    (∀ s ∈ l, s ≠ [] ∧ (∀ x ∈ s, g.has x = true) ∧ ∃ q, flCost fl g.edge 0 s = some q ∧ ∀ x y, s.head? = some x → s.getLast? = some y → P x y (.fin q, s)) →
    (∀ s f r, c.get? (s, f) = some r → P s f r) →
    ∃ d, g.storeSectionsFl fl l c = some (.ok d) ∧ (∀ s f r, d.get? (s, f) = some r → P s f r) ∧
      (∀ k, k ∈ c.keys → k ∈ d.keys) ∧
      ∀ s ∈ l, ∀ x y, s.head? = some x → s.getLast? = some y → (x, y) ∈ d.keys := by
  induction l with
  | nil => intro c _ hc; exact ⟨c, rfl, hc, fun _ h => h, by simp⟩
  | cons s l ih =>
    intro c hl hc
    obtain ⟨hne, hin, q, hq, hs⟩ := hl s (by simp)
    have hr := C133_walk hfl hg hw hin hq
    obtain ⟨x, hx⟩ : ∃ x, s.head? = some x := by cases s with
      | nil => exact absurd rfl hne
      | cons a b => exact ⟨a, rfl⟩
    obtain ⟨y, hy⟩ : ∃ y, s.getLast? = some y := ⟨_, List.getLast?_eq_some_getLast hne⟩
    obtain ⟨d, h1, h2, h3, h4⟩ := ih (c.set (x, y) (.fin q, s)) (fun s hs => hl s (List.mem_cons_of_mem _ hs)) (by
      intro s' f' r' hr'
      rw [Dict.get?_set] at hr'
      split at hr'
      · rename_i he; cases he; cases hr'; exact hs x y hx hy
      · exact hc _ _ _ hr')
    refine ⟨d, ?_, h2, fun k hk => h3 k ((Dict.mem_keys_set _ _ _ _).2 (.inr hk)), fun t ht x' y' hx' hy' => ?_⟩
    · unfold storeSectionsFl; rw [hr]; dsimp only; rw [hx, hy]; exact h1
    · rcases List.mem_cons.1 ht with rfl | ht
      · rw [hx] at hx'; rw [hy] at hy'; cases hx'; cases hy'
        exact h3 _ ((Dict.mem_keys_set _ _ _ _).2 (.inl rfl))
      · exact h4 t ht x' y' hx' hy'

theorem memoPlainFl_spec {fl : Rat → Rat} (hfl : Rounding fl) {g : Graph α Rat O} (hg : g.Built) (hw : NonNeg g.edge) {srt : List (α × Rat) → List (α × Rat)}
    (hsrt : ∀ l, (srt l).Perm l) {hash : List α → Int} {H : List (α × α × Option (List α))} {c : SpCache α} (hc : CacheFl fl srt hash g H c) {start fin : α}
    (hH : (start, fin, none) ∈ H) (hs : g.has start = true) (hf : g.has fin = true) :
    ∃ r c', g.memoPlainFl fl srt c start fin = some (.ok (r, c')) ∧ CacheFl fl srt hash g H c' ∧ PlainFl fl srt g H start fin r := by
  unfold memoPlainFl
  cases h1 : c.cache.get? (start, fin) with
  | some r => exact ⟨r, c, rfl, hc, hc.plain _ _ _ h1⟩
  | none =>
    dsimp only
    obtain ⟨d, p, h2, h3, h4⟩ := C135_bidirectional_rounded hfl hg hw hs hf (avoids := []) (by simp) (by simp) hsrt
    rw [h2]
    by_cases hwk : ∃ q e, AvoidWalk g.edge [] start fin q e
    · obtain ⟨x, rfl, ⟨e, he⟩, _⟩ := h3 hwk
      obtain ⟨a, p', rfl⟩ : ∃ a p', p = a :: p' := by cases p with
        | nil => exact absurd rfl he.1.ne_nil
        | cons a b => exact ⟨a, b, rfl⟩
      dsimp only
      have hhas := walk_has hg.inv he.1 hs
      obtain ⟨dd, h8, h9, h10, h11⟩ := storeSectionsFl_spec hfl hg hw (P := PlainFl fl srt g H) (sections (a :: p')) c.cache (fun s hs => by
        obtain ⟨u, v, e1, e2⟩ := sections_sub (by simp) hs
        have he' := he.1
        rw [e1] at he'
        obtain ⟨q, hq⟩ := flCost_section (fl := fl) he' e2
        refine ⟨e2, fun x hx => hhas x (by rw [e1]; simp [hx]), q, hq, fun x y hx hy => ?_⟩
        exact .inr ⟨q, start, fin, u, v, _, rfl, hx, hy, hq, hH, by rw [← e1]; exact h2⟩) hc.plain
      unfold updateCacheFl
      rw [h8]
      dsimp only
      have hk := h11 _ self_mem_sections _ _ he.1.1 he.1.2.1
      obtain ⟨r, hr⟩ := Dict.exists_get?_of_mem_keys hk
      rw [hr]
      exact ⟨r, _, rfl, ⟨h9, hc.repeated⟩, h9 _ _ _ hr⟩
    · obtain ⟨rfl, rfl⟩ := h4 hwk
      dsimp only
      have h5 : PlainFl fl srt g H start fin (.inf, []) := .inl ⟨rfl, fun ⟨p, c, h⟩ => hwk ⟨p, c, h, by simp⟩⟩
      refine ⟨_, _, rfl, ⟨fun s f r hr => ?_, hc.repeated⟩, h5⟩
      rw [Dict.get?_set] at hr
      split at hr
      · rename_i he; cases he; cases hr; exact h5
      · exact hc.plain _ _ _ hr

theorem memoAvoidFl_spec {fl : Rat → Rat} (hfl : Rounding fl) {g : Graph α Rat O} (hg : g.Built) (hw : NonNeg g.edge) {srt : List (α × Rat) → List (α × Rat)}
    (hsrt : ∀ l, (srt l).Perm l) {hash : List α → Int} {H : List (α × α × Option (List α))} {c : SpCache α} (hc : CacheFl fl srt hash g H c) {start fin : α} {av : List α}
    (hH : (start, fin, some av) ∈ H) (hs : g.has start = true) (hf : g.has fin = true) :
    ∃ r c', g.memoAvoidFl fl srt hash c start fin av = some (.ok (r, c')) ∧ CacheFl fl srt hash g H c' ∧
      ∃ av', (start, fin, some av') ∈ H ∧ hash av' = hash av ∧ g.shortestPathBiFl fl srt start fin av' = some (.ok r) := by
  unfold memoAvoidFl
  cases h1 : c.repeated.get? (start, fin, hash av) with
  | some r => exact ⟨r, c, rfl, hc, hc.repeated _ _ _ _ h1⟩
  | none =>
    dsimp only
    obtain ⟨r, h2, _⟩ := shortestPathBi_specFl hfl hg.inv hw (start := start) (fin := fin) av hsrt hs hf
    rw [h2]
    refine ⟨r, _, rfl, ⟨hc.plain, fun s f k r' hr => ?_⟩, av, hH, rfl, h2⟩
    rw [Dict.get?_set] at hr
    split at hr
    · rename_i he
      simp only [Prod.mk.injEq] at he
      obtain ⟨rfl, rfl, rfl⟩ := he
      cases hr; exact ⟨av, hH, rfl, h2⟩
    · exact hc.repeated _ _ _ _ hr

/-- the answer to a query -/
def AnswerFl (fl : Rat → Rat) (srt : List (α × Rat) → List (α × Rat)) (hash : List α → Int) (g : Graph α Rat O) (H : List (α × α × Option (List α))) (s f : α) :
    Option (List α) → Ext × List α → Prop
  | none, r => PlainFl fl srt g H s f r
  | some av, r => ∃ av', (s, f, some av') ∈ H ∧ hash av' = hash av ∧ g.shortestPathBiFl fl srt s f av' = some (.ok r)

theorem memoSPFl_spec {fl : Rat → Rat} (hfl : Rounding fl) {g : Graph α Rat O} (hg : g.Built) (hw : NonNeg g.edge) {srt : List (α × Rat) → List (α × Rat)}
    (hsrt : ∀ l, (srt l).Perm l) {hash : List α → Int} {H : List (α × α × Option (List α))} {c : SpCache α} (hc : CacheFl fl srt hash g H c) (start fin : α)
    (avoids : Option (List α)) (hH : (start, fin, avoids) ∈ H) :
    (¬ (g.has start = true ∧ g.has fin = true) ∧ g.memoSPFl fl srt hash c start fin avoids = some (.error .valueError)) ∨
    (g.has start = true ∧ g.has fin = true ∧ ∃ r c', g.memoSPFl fl srt hash c start fin avoids = some (.ok (r, c')) ∧
      CacheFl fl srt hash g H c' ∧ AnswerFl fl srt hash g H start fin avoids r) := by
  unfold memoSPFl
  cases hs : g.has start with
  | false => exact .inl ⟨by simp, rfl⟩
  | true =>
    cases hf : g.has fin with
    | false => exact .inl ⟨by simp, rfl⟩
    | true =>
      refine .inr ⟨rfl, rfl, ?_⟩
      simp only [Bool.not_true, Bool.false_eq_true, if_false]
      cases avoids with
      | some av => exact memoAvoidFl_spec hfl hg hw hsrt hc hH hs hf
      | none => exact memoPlainFl_spec hfl hg hw hsrt hc hH hs hf

theorem memoRunFl_spec {fl : Rat → Rat} (hfl : Rounding fl) {g : Graph α Rat O} (hg : g.Built) (hw : NonNeg g.edge) {srt : List (α × Rat) → List (α × Rat)}
    (hsrt : ∀ l, (srt l).Perm l) {hash : List α → Int} (qs : List (α × α × Option (List α))) : ∀ (H : List (α × α × Option (List α))) (c : SpCache α), CacheFl fl srt hash g H c →
    ∃ rs, memoRunFl fl srt hash g c qs = some rs ∧ rs.length = qs.length ∧
      ∀ (i : Nat) s f av r, qs[i]? = some (s, f, av) → rs[i]? = some r →
        (¬ (g.has s = true ∧ g.has f = true) → r = .error .valueError) ∧
        (g.has s = true → g.has f = true → ∃ x, r = .ok x ∧ AnswerFl fl srt hash g (H ++ qs.take (i + 1)) s f av x) := by
  induction qs with
  | nil => intro H c _; exact ⟨[], rfl, rfl, by simp⟩
  | cons q qs ih =>
    intro H c hc
    obtain ⟨s, f, av⟩ := q
    have hc' : CacheFl fl srt hash g (H ++ [(s, f, av)]) c := hc.mono (fun q hq => List.mem_append_left _ hq)
    have hcons : ∀ (r0 : Py (Ext × List α)) (rs : List (Py (Ext × List α))), ((¬ (g.has s = true ∧ g.has f = true) → r0 = .error .valueError) ∧
        (g.has s = true → g.has f = true → ∃ x, r0 = .ok x ∧ AnswerFl fl srt hash g (H ++ [(s, f, av)]) s f av x)) →
        (∀ (i : Nat) s' f' av' r, qs[i]? = some (s', f', av') → rs[i]? = some r →
          (¬ (g.has s' = true ∧ g.has f' = true) → r = .error .valueError) ∧
          (g.has s' = true → g.has f' = true → ∃ x, r = .ok x ∧ AnswerFl fl srt hash g ((H ++ [(s, f, av)]) ++ qs.take (i + 1)) s' f' av' x)) →
        ∀ (i : Nat) s' f' av' r, ((s, f, av) :: qs)[i]? = some (s', f', av') → (r0 :: rs)[i]? = some r →
          (¬ (g.has s' = true ∧ g.has f' = true) → r = .error .valueError) ∧
          (g.has s' = true → g.has f' = true → ∃ x, r = .ok x ∧ AnswerFl fl srt hash g (H ++ ((s, f, av) :: qs).take (i + 1)) s' f' av' x) := by
      intro r0 rs h0 hrs i s' f' av' r hq hr
      cases i with
      | zero => simp at hq hr; obtain ⟨rfl, rfl, rfl⟩ := hq; subst hr; simpa using h0
      | succ i => simp only [List.getElem?_cons_succ] at hq hr; simpa using hrs i s' f' av' r hq hr
    rcases memoSPFl_spec hfl hg hw hsrt hc' s f av (by simp) with ⟨h1, h2⟩ | ⟨h1, h1', r, c', h2, h3, h4⟩
    · obtain ⟨rs, h5, h6, h7⟩ := ih _ c hc'
      refine ⟨.error .valueError :: rs, ?_, by simp [h6], hcons _ _ ⟨fun _ => rfl, fun a b => absurd ⟨a, b⟩ h1⟩ h7⟩
      simp only [memoRunFl, h2]
      rw [h5]; rfl
    · obtain ⟨rs, h5, h6, h7⟩ := ih _ c' h3
      refine ⟨.ok r :: rs, ?_, by simp [h6], hcons _ _ ⟨fun a => absurd ⟨h1, h1'⟩ a, fun _ _ => ⟨r, rfl, h4⟩⟩ h7⟩
      simp only [memoRunFl, h2]
      rw [h5]; rfl

theorem cacheFl_empty (fl : Rat → Rat) (srt : List (α × Rat) → List (α × Rat)) (hash : List α → Int) (g : Graph α Rat O) : CacheFl fl srt hash g [] SpCache.empty :=
  ⟨fun s f r h => by simp [SpCache.empty] at h, fun s f h r h' => by simp [SpCache.empty] at h'⟩

/-- without rounding it is the model of Sp/Cache.lean -/
theorem storeSectionsFl_id (g : Graph α Rat O) (l : List (List α)) : ∀ c, g.storeSectionsFl id l c = g.storeSections l c := by
  induction l with
  | nil => intro c; rfl
  | cons s l ih =>
    intro c
    unfold storeSectionsFl storeSections
    rw [distanceFromPath_eq_fl]
    simp only [ih]
    rfl

theorem memoSPFl_id (srt : List (α × Rat) → List (α × Rat)) (hash : List α → Int) (g : Graph α Rat O) (c : SpCache α) (s f : α) (av : Option (List α)) :
    g.memoSPFl id srt hash c s f av = g.memoSP srt hash c s f av := by
  unfold memoSPFl memoSP memoAvoidFl memoAvoid memoPlainFl memoPlain updateCacheFl updateCache
  simp only [C135_exact, storeSectionsFl_id]
  rfl

end GT

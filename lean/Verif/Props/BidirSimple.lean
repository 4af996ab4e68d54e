import Verif.Sp.BidirSimple
import Verif.Props.BidirRound
/-
Property theorems C136: the paths that `shortest_path_bidirectional` and `shortest_path(memoize=True)` return are simple.
-/
namespace GT
open Graph
variable {α O : Type} [DecidableEq α]

theorem id_rounding : Rounding id := ⟨fun _ _ h => h, fun _ => rfl, rfl⟩

/-- **C136** for `shortest_path_bidirectional`, in exact arithmetic and with any rounding: with non-negative values (0 included) the path returned visits no node twice, whatever
`avoids` is. -/
theorem C136_simple_path {g : Graph α Rat O} (hg : g.Built) (hw : NonNeg g.edge) {start fin : α} {avoids : List α}
    {srt : List (α × Rat) → List (α × Rat)} (hsrt : ∀ l, (srt l).Perm l) {d : Ext} {p : List α} :
    (g.shortestPathBi srt start fin avoids = some (.ok (d, p)) → p.Nodup) ∧
    ∀ {fl : Rat → Rat}, Rounding fl → g.shortestPathBiFl fl srt start fin avoids = some (.ok (d, p)) → p.Nodup :=
  ⟨fun h => shortestPathBiFl_nodup (r := (d, p)) id_rounding hg.inv hw hsrt (by rw [C135_exact]; exact h),
    fun hfl h => shortestPathBiFl_nodup (r := (d, p)) hfl hg.inv hw hsrt h⟩

/-- the graph after a history -/
def graphAfter (g : Graph α Rat O) : List (MemoEv α O) → Graph α Rat O
  | [] => g
  | .change op :: l => graphAfter (g.stepE op).1 l
  | .query _ _ _ :: l => graphAfter g l

/-- a simple path from `s` to `f`, or no path -/
def GoodPath (s f : α) (p : List α) : Prop := p.Nodup ∧ (p = [] ∨ (p.head? = some s ∧ p.getLast? = some f))

/-- everything in the cache is a simple path between the nodes of its key -/
structure CacheSimple (c : SpCache α) : Prop where
  plain : ∀ s f r, c.cache.get? (s, f) = some r → GoodPath s f r.2
  repeated : ∀ s f h r, c.repeated.get? (s, f, h) = some r → GoodPath s f r.2

theorem bi_good {g : Graph α Rat O} (h : g.Inv) (hw : NonNeg g.edge) {srt : List (α × Rat) → List (α × Rat)} (hsrt : ∀ l, (srt l).Perm l) {s f : α} {av : List α}
    {r : Ext × List α} (hr : g.shortestPathBi srt s f av = some (.ok r)) : GoodPath s f r.2 := by
  refine ⟨shortestPathBiFl_nodup id_rounding h hw hsrt (by rw [C135_exact]; exact hr), ?_⟩
  have hsf : g.has s = true ∧ g.has f = true := Classical.byContradiction fun hn => by
    rw [shortestPathBi_error av srt hn] at hr; cases hr
  obtain ⟨r', h1, _, h2⟩ := shortestPathBi_spec h hw (start := s) (fin := f) av hsrt hsf.1 hsf.2
  rw [hr] at h1; cases h1
  rcases h2 with h2 | ⟨_, _, h3, _⟩
  · rw [h2]; exact .inl rfl
  · exact .inr ⟨h3.1, h3.2.1⟩

theorem storeSections_good {g : Graph α Rat O} (l : List (List α)) : ∀ {c c' : Dict (α × α) (Ext × List α)}, (∀ s ∈ l, s.Nodup) →
    (∀ s f r, c.get? (s, f) = some r → GoodPath s f r.2) → g.storeSections l c = some (.ok c') → ∀ s f r, c'.get? (s, f) = some r → GoodPath s f r.2 := by
  induction l with
  | nil => intro c c' _ hc h; simp only [storeSections, Option.some.injEq, Except.ok.injEq] at h; subst h; exact hc
  | cons t l ih =>
    intro c c' hl hc h
    unfold storeSections at h
    split at h
    · cases h
    · cases h
    · rename_i d hd
      split at h
      · rename_i x y hx hy
        refine ih (fun s hs => hl s (List.mem_cons_of_mem _ hs)) (fun s f r hr => ?_) h
        rw [Dict.get?_set] at hr
        split at hr
        · rename_i he; cases he; cases hr
          exact ⟨hl t (by simp), .inr ⟨hx, hy⟩⟩
        · exact hc _ _ _ hr
      · cases h

theorem memoSP_good {g : Graph α Rat O} (h : g.Inv) (hw : NonNeg g.edge) {srt : List (α × Rat) → List (α × Rat)} (hsrt : ∀ l, (srt l).Perm l) {hash : List α → Int}
    {c c' : SpCache α} (hc : CacheSimple c) {s f : α} {av : Option (List α)} {r : Ext × List α} (hr : g.memoSP srt hash c s f av = some (.ok (r, c'))) :
    GoodPath s f r.2 ∧ CacheSimple c' := by
  unfold memoSP at hr
  split at hr
  · cases hr
  · split at hr
    · cases hr
    · cases av with
      | some av =>
        dsimp only at hr
        unfold memoAvoid at hr
        split at hr
        · rename_i r' hr'; cases hr; exact ⟨hc.repeated _ _ _ _ hr', hc⟩
        · split at hr
          · cases hr
          · cases hr
          · rename_i r' hr'
            cases hr
            have hg := bi_good h hw hsrt hr'
            refine ⟨hg, hc.plain, fun s' f' k r'' hk => ?_⟩
            rw [Dict.get?_set] at hk
            split at hk
            · rename_i he; cases he; cases hk; exact hg
            · exact hc.repeated _ _ _ _ hk
      | none =>
        dsimp only at hr
        unfold memoPlain at hr
        split at hr
        · rename_i r' hr'; cases hr; exact ⟨hc.plain _ _ _ hr', hc⟩
        · split at hr
          · cases hr
          · cases hr
          · cases hr
            refine ⟨⟨by simp, .inl rfl⟩, fun s' f' r' hk => ?_, hc.repeated⟩
            rw [Dict.get?_set] at hk
            split at hk
            · cases hk; exact ⟨by simp, .inl rfl⟩
            · exact hc.plain _ _ _ hk
          · rename_i d p hp hbi
            split at hr
            · cases hr
            · cases hr
            · rename_i dd hdd
              have hg := bi_good h hw hsrt hbi
              have hd := storeSections_good (sections p) (fun t ht => by
                obtain ⟨u, v, e1, _⟩ := sections_sub (fun e => hp e) ht
                have := hg.1
                dsimp only at this
                rw [e1, List.append_assoc, List.nodup_append] at this
                exact (List.nodup_append.1 this.2.1).1) hc.plain hdd
              split at hr
              · cases hr
              · rename_i r' hr'
                cases hr
                exact ⟨hd _ _ _ hr', hd, hc.repeated⟩

/-- **C136** for `shortest_path(memoize=True)`, for all histories of queries and changes of the graph (as long as no value is negative), all hashes of the avoided nodes: although
answers can be outdated (C30), the path in every answer visits no node twice and leads from `start` to `end`, unless it is empty. -/
theorem C136_memoize {g : Graph α Rat O} (hg : g.Built) {srt : List (α × Rat) → List (α × Rat)} (hsrt : ∀ l, (srt l).Perm l) (hash : List α → Int)
    (evs : List (MemoEv α O)) (hw : ∀ pre suf, evs = pre ++ suf → NonNeg (graphAfter g pre).edge) {rs : List (Py (Ext × List α))}
    (h : memoRun srt hash g SpCache.empty evs = some rs) :
    ∀ (pre suf : List (MemoEv α O)) s f av r, evs = pre ++ .query s f av :: suf → rs[(pre.filter (fun e => match e with | .query _ _ _ => true | .change _ => false)).length]? = some (.ok r) →
      r.2.Nodup ∧ (r.2 = [] ∨ (r.2.head? = some s ∧ r.2.getLast? = some f)) := by
  suffices H : ∀ (evs : List (MemoEv α O)) (g : Graph α Rat O) (c : SpCache α), g.Inv → CacheSimple c → (∀ pre suf, evs = pre ++ suf → NonNeg (graphAfter g pre).edge) →
      ∀ rs, memoRun srt hash g c evs = some rs → ∀ (pre suf : List (MemoEv α O)) s f av r, evs = pre ++ .query s f av :: suf →
        rs[(pre.filter (fun e => match e with | .query _ _ _ => true | .change _ => false)).length]? = some (.ok r) → GoodPath s f r.2 from
    H evs g SpCache.empty hg.inv ⟨fun s f r hr => (nomatch hr), fun s f h r hr => (nomatch hr)⟩ hw rs h
  intro evs
  induction evs with
  | nil => intro g c _ _ _ rs _ pre suf s f av r he; cases pre <;> simp at he
  | cons ev evs ih =>
    intro g c hi hc hw rs h pre suf s f av r he hr
    cases ev with
    | change op =>
      cases pre with
      | nil => simp at he
      | cons e pre =>
        simp only [List.cons_append, List.cons.injEq] at he
        obtain ⟨rfl, he⟩ := he
        simp only [memoRun] at h
        refine ih (g.stepE op).1 c (stepE_inv hi op) hc (fun p q hpq => ?_) rs h pre suf s f av r he (by simpa using hr)
        exact hw (.change op :: p) q (by rw [hpq]; rfl)
    | query s' f' av' =>
      have hw' : ∀ p q, evs = p ++ q → NonNeg (graphAfter g p).edge := fun p q hpq => hw (.query s' f' av' :: p) q (by rw [hpq]; rfl)
      simp only [memoRun] at h
      cases hm : g.memoSP srt hash c s' f' av' with
      | none => rw [hm] at h; cases h
      | some x =>
        rw [hm] at h
        cases x with
        | error e =>
          dsimp only at h
          cases hl : memoRun srt hash g c evs with
          | none => rw [hl] at h; cases h
          | some rs' =>
            rw [hl] at h
            simp only [Option.map_some, Option.some.injEq] at h
            subst h
            cases pre with
            | nil => simp at hr
            | cons e' pre =>
              simp only [List.cons_append, List.cons.injEq] at he
              obtain ⟨rfl, he⟩ := he
              exact ih g c hi hc hw' rs' hl pre suf s f av r he (by simpa using hr)
        | ok y =>
          obtain ⟨r', c'⟩ := y
          dsimp only at h
          obtain ⟨hg1, hg2⟩ := memoSP_good hi (hw [] _ rfl) hsrt hc hm
          cases hl : memoRun srt hash g c' evs with
          | none => rw [hl] at h; cases h
          | some rs' =>
            rw [hl] at h
            simp only [Option.map_some, Option.some.injEq] at h
            subst h
            cases pre with
            | nil =>
              simp at he hr
              obtain ⟨⟨rfl, rfl, _⟩, _⟩ := he
              subst hr; exact hg1
            | cons e' pre =>
              simp only [List.cons_append, List.cons.injEq] at he
              obtain ⟨rfl, he⟩ := he
              exact ih g c' hi hg2 hw' rs' hl pre suf s f av r he (by simpa using hr)

/-- cycles of value 0 -/
def zeroG : Graph Nat Rat Nat := run [W 1 2 0, W 2 1 0, W 2 3 0, W 3 2 0, W 3 4 0, W 3 1 0]

example : zeroG.Built ∧ NonNeg zeroG.edge ∧ (∀ l : List (Nat × Rat), (id l).Perm l) ∧ zeroG.shortestPathBi id 1 4 = some (.ok (.fin 0, [1, 2, 3, 4])) ∧
    zeroG.shortestPathBiFl double id 1 4 = some (.ok (.fin 0, [1, 2, 3, 4])) ∧ Rounding double :=
  ⟨⟨_, rfl⟩, nonneg_of_edgeList ⟨_, rfl⟩ (by decide +kernel), fun _ => .rfl, bi_eval 20 (by decide +kernel) (by decide +kernel) (by decide +kernel),
    biFl_eval 20 (by decide +kernel) (by decide +kernel) (by decide +kernel), double_rounding⟩

/-- a history with a change, and an outdated answer -/
example : ∃ (g : Graph Nat Rat Nat) (evs : List (MemoEv Nat Nat)), g.Built ∧ (∀ pre suf, evs = pre ++ suf → NonNeg (graphAfter g pre).edge) ∧
    memoRun id (fun _ => 0) g SpCache.empty evs = some [.ok (.fin 9, [1, 2]), .ok (.fin 9, [1, 2])] := by
  refine ⟨run [W 1 2 9], [.query 1 2 none, .change (W 1 2 3), .query 1 2 none], ⟨_, rfl⟩, fun pre suf he => ?_, ?_⟩
  · have n1 : NonNeg (run [W 1 2 9] : Graph Nat Rat Nat).edge := nonneg_of_edgeList ⟨_, rfl⟩ (by decide +kernel)
    have n2 : NonNeg (run [W 1 2 9, W 1 2 3] : Graph Nat Rat Nat).edge := nonneg_of_edgeList ⟨_, rfl⟩ (by decide +kernel)
    match pre, he with
    | [], _ => exact n1
    | [a], he => simp at he; obtain ⟨rfl, _⟩ := he; exact n1
    | [a, b], he => simp at he; obtain ⟨rfl, rfl, _⟩ := he; exact n2
    | [a, b, c], he => simp at he; obtain ⟨rfl, rfl, rfl, _⟩ := he; exact n2
    | a :: b :: c :: d :: l, he => simp at he
  · have h1 : (run [W 1 2 9] : Graph Nat Rat Nat).shortestPathBi id 1 2 = some (.ok (.fin 9, [1, 2])) :=
      bi_eval 20 (by decide) (by decide) (by decide +kernel)
    have h2 : (run [W 1 2 9] : Graph Nat Rat Nat).memoSP id (fun _ => 0) SpCache.empty 1 2 none =
        some (.ok ((.fin 9, [1, 2]), ⟨Dict.empty.set (1, 2) (.fin 9, [1, 2]), Dict.empty⟩)) := by
      unfold memoSP
      rw [if_neg (by decide), if_neg (by decide)]
      dsimp only
      unfold memoPlain
      rw [show (SpCache.empty : SpCache Nat).cache.get? (1, 2) = none from rfl]
      dsimp only
      rw [h1]
      dsimp only
      rw [show (run [W 1 2 9] : Graph Nat Rat Nat).updateCache [1, 2] (SpCache.empty : SpCache Nat).cache =
        some (.ok (Dict.empty.set (1, 2) (.fin 9, [1, 2]))) by decide +kernel]
      rfl
    simp only [memoRun, h2]
    decide +kernel

end GT

import Verif.Sp.CacheFl
import Verif.Sp.BidirSimple
/-
Property theorems C137: `shortest_path(memoize=True)` in rounded (floating point) arithmetic.
-/
namespace GT
open Graph
variable {α O : Type} [DecidableEq α]

/-- **C137**. With any rounding, non-negative values and any history of memoised queries on an unchanged graph, every query terminates, and raises `ValueError` exactly if a node is
missing.  A query without `avoids` returns `(inf, [])` if there is no walk; otherwise it returns a simple walk from `start` to `end` together with its length added from left
to right with rounding, and this walk is a section of the path that `shortest_path_bidirectional` finds for this or an earlier query.  A query with `avoids` returns what
`shortest_path_bidirectional` returns, for this or an earlier query with the same nodes and the same hash. -/
theorem C137_memoize_rounded {fl : Rat → Rat} (hfl : Rounding fl) {g : Graph α Rat O} (hg : g.Built) (hw : NonNeg g.edge)
    {srt : List (α × Rat) → List (α × Rat)} (hsrt : ∀ l, (srt l).Perm l) (hash : List α → Int) (qs : List (α × α × Option (List α))) :
    ∃ rs, memoRunFl fl srt hash g SpCache.empty qs = some rs ∧ rs.length = qs.length ∧
      ∀ (i : Nat) s f av r, qs[i]? = some (s, f, av) → rs[i]? = some r →
        (¬ (g.has s = true ∧ g.has f = true) → r = .error .valueError) ∧
        (g.has s = true ∧ g.has f = true → ∃ d p, r = .ok (d, p) ∧
          (av = none → (¬ ∃ q e, WalkOf g.edge s f q e) → d = .inf ∧ p = []) ∧
          (av = none → (∃ q e, WalkOf g.edge s f q e) → ∃ c e, d = .fin c ∧ WalkOf g.edge s f p e ∧ p.Nodup ∧ flCost fl g.edge 0 p = some c ∧
            ∃ s' f' u v d', (s', f', none) ∈ qs.take (i + 1) ∧ g.shortestPathBiFl fl srt s' f' = some (.ok (d', u ++ p ++ v))) ∧
          (∀ a, av = some a → ∃ a', (s, f, some a') ∈ qs.take (i + 1) ∧ hash a' = hash a ∧ g.shortestPathBiFl fl srt s f a' = some (.ok (d, p)))) := by
  obtain ⟨rs, h1, h2, h3⟩ := memoRunFl_spec hfl hg hw hsrt (hash := hash) qs [] SpCache.empty (cacheFl_empty fl srt hash g)
  refine ⟨rs, h1, h2, fun i s f av r hi hr => ⟨(h3 i s f av r hi hr).1, fun ⟨hs, hf⟩ => ?_⟩⟩
  obtain ⟨⟨d, p⟩, rfl, h4⟩ := (h3 i s f av r hi hr).2 hs hf
  rw [List.nil_append] at h4
  have key : av = none → PlainFl fl srt g (qs.take (i + 1)) s f (d, p) := fun h => by subst h; exact h4
  refine ⟨d, p, rfl, fun ha hno => ?_, fun ha hyes => ?_, fun a ha => by subst ha; exact h4⟩
  · rcases key ha with ⟨h, _⟩ | ⟨c, s', f', u, v, d', h5, h6, h7, h8, _⟩
    · cases h; exact ⟨rfl, rfl⟩
    · obtain ⟨e, he⟩ := avoid_of_flWalk (av := []) ⟨h6, h7, h8, by simp⟩
      exact absurd ⟨_, e, he.1⟩ hno
  · rcases key ha with ⟨_, h⟩ | ⟨c, s', f', u, v, d', h5, h6, h7, h8, h9, h10⟩
    · exact absurd hyes h
    · obtain ⟨e, he⟩ := avoid_of_flWalk (av := []) ⟨h6, h7, h8, by simp⟩
      have hn := shortestPathBiFl_nodup hfl hg.inv hw hsrt h10
      dsimp only at hn
      rw [List.append_assoc, List.nodup_append] at hn
      exact ⟨c, e, h5, he.1, (List.nodup_append.1 hn.2.1).1, h8, s', f', u, v, _, h9, h10⟩

/-- a section of a walk can be replaced -/
theorem replace_section {w : α → α → Option Rat} {s f s' f' : α} {u p v q : List α} {e E : Rat} (h : WalkOf w s' f' (u ++ p ++ v) E) (hp : WalkOf w s f p e) {c : Rat}
    (hq : WalkOf w s f q c) : ∃ q', WalkOf w s' f' q' (E - e + c) ∧ q'.length + p.length = u.length + p.length + v.length + q.length := by
  obtain ⟨x', t1, rfl⟩ : ∃ x' t1, p = x' :: t1 := by cases p with
    | nil => exact absurd rfl hp.ne_nil
    | cons a b => exact ⟨a, b, rfl⟩
  have hx := hp.1
  simp at hx; subst hx
  rw [List.append_assoc, List.cons_append] at h
  obtain ⟨d1, d2, h1, h2, h3⟩ := h.split
  obtain ⟨t2, ht2⟩ : ∃ t2, x' :: t1 = t2 ++ [f] := by
    refine ⟨(x' :: t1).dropLast, ?_⟩
    have hy := hp.2.1
    rw [List.getLast?_eq_some_getLast (by simp)] at hy
    rw [← (Option.some.inj hy)]; exact (List.dropLast_concat_getLast (by simp)).symm
  have h2' : WalkOf w x' f' (t2 ++ f :: v) d2 := by
    have : x' :: (t1 ++ v) = t2 ++ f :: v := by
      rw [← List.cons_append, ht2]; simp
    rw [← this]; exact h2
  obtain ⟨e1, e2, h4, h5, h6⟩ := h2'.split
  rw [← ht2] at h4
  have he : e1 = e := by have := h4.2.2; rw [hp.2.2] at this; exact (Option.some.inj this).symm
  subst he
  obtain ⟨q1, rfl⟩ : ∃ q1, q = x' :: q1 := by
    cases q with
    | nil => exact absurd rfl hq.ne_nil
    | cons a q => have := hq.1; simp at this; subst this; exact ⟨q, rfl⟩
  have hh := (h1.append hq).append h5
  refine ⟨u ++ [x'] ++ q1 ++ v, ?_, ?_⟩
  · rw [show E - e1 + c = d1 + c + e2 by grind]; exact hh
  · simp; omega

/-- **C137**, accuracy: if the relative error of one rounding is at most `ε`, the number returned for a query without `avoids` is the length `e` of the walk returned up to one relative
error per edge; and there is this or an earlier query without `avoids` whose path has some length `E` such that `e` exceeds the length `c'` of any walk `q` from `start` to `end` at
most by the accumulated relative errors *of the length `E`* (`m` is a bound for the number of nodes of the paths involved).  The error is not relative to the distance between `start` and `end`
(`C137_cached_section_counterexample`). -/
theorem C137_accuracy {fl : Rat → Rat} (hfl : Rounding fl) {ε : Rat} (h0 : 0 ≤ ε) (h1 : ε ≤ 1) (hε : RelErr fl ε) {g : Graph α Rat O} (hg : g.Built) (hw : NonNeg g.edge)
    {srt : List (α × Rat) → List (α × Rat)} (hsrt : ∀ l, (srt l).Perm l) (hash : List α → Int) {qs : List (α × α × Option (List α))} {rs : List (Py (Ext × List α))}
    (h : memoRunFl fl srt hash g SpCache.empty qs = some rs) {i : Nat} {s f : α} {d : Rat} {p : List α} (hi : qs[i]? = some (s, f, none)) (hr : rs[i]? = some (.ok (.fin d, p))) :
    ∃ e, WalkOf g.edge s f p e ∧ (1 - ε) ^ (p.length - 1) * e ≤ d ∧ d ≤ (1 + ε) ^ (p.length - 1) * e ∧
      ∃ s' f' P E, (s', f', none) ∈ qs.take (i + 1) ∧ WalkOf g.edge s' f' P E ∧ (∃ d', g.shortestPathBiFl fl srt s' f' = some (.ok (d', P))) ∧
        ∀ q c' m, WalkOf g.edge s f q c' → P.length + q.length ≤ m → (1 - ε) ^ m * (e - c') ≤ ((1 + ε) ^ m - (1 - ε) ^ m) * E := by
  obtain ⟨rs', k1, k2, k3⟩ := C137_memoize_rounded hfl hg hw hsrt hash qs
  rw [h] at k1; cases k1
  have hsf : g.has s = true ∧ g.has f = true := Classical.byContradiction fun hn => by
    have := (k3 i s f none _ hi hr).1 hn; cases this
  obtain ⟨d1, p1, e1, k4, k5, _⟩ := (k3 i s f none _ hi hr).2 hsf
  cases e1
  have hyes : ∃ q e, WalkOf g.edge s f q e := Classical.byContradiction fun hn => by
    have := (k4 rfl hn).1; cases this
  obtain ⟨c, e, hc, he, _, hfl', s', f', u, v, d', hq, hbi⟩ := k5 rfl hyes
  cases hc
  obtain ⟨b1, b2⟩ := flCost_bounds h0 h1 hε hw _ Rat.le_refl hfl' he.2.2
  rw [Rat.zero_add] at b1 b2
  have hsf' : g.has s' = true ∧ g.has f' = true := Classical.byContradiction fun hn => by
    rw [shortestPathBi_errorFl fl [] srt hn] at hbi; cases hbi
  have hd' : ∃ x, d' = .fin x := by
    obtain ⟨r, j1, _, j2⟩ := shortestPathBi_specFl hfl hg.inv hw (start := s') (fin := f') [] hsrt hsf'.1 hsf'.2
    rw [hbi] at j1; cases j1
    rcases j2 with j2 | ⟨x, j2, _⟩
    · simp only [Prod.mk.injEq] at j2
      have := congrArg List.length j2.2
      have := he.ne_nil
      cases p with
      | nil => exact absurd rfl this
      | cons => simp at *
    · exact ⟨x, j2⟩
  obtain ⟨x, rfl⟩ := hd'
  obtain ⟨E, j1, j2, j3, j4⟩ := C135_accuracy hfl h0 h1 hε hg hw hsf'.1 hsf'.2 hsrt hbi
  refine ⟨e, he, b1, b2, s', f', _, E, hq, j1, ⟨_, hbi⟩, fun q c' m hq' hm => ?_⟩
  have hE := walkCost_nonneg hw j1.2.2
  have p0 : 0 ≤ (1 - ε) ^ m := Rat.pow_nonneg (by grind)
  have p1 : (1 - ε) ^ m ≤ 1 := by have := pow_le_pow_down (x := 1 - ε) (by grind) (by grind) (Nat.zero_le m); simpa using this
  have p2 : 1 ≤ (1 + ε) ^ m := by have := pow_le_pow_up (x := 1 + ε) (by grind) (Nat.zero_le m); simpa using this
  by_cases hle : e ≤ c'
  · have t1 := Rat.mul_nonneg p0 (show 0 ≤ c' - e by grind)
    have t2 := Rat.mul_nonneg (show 0 ≤ (1 + ε) ^ m - (1 - ε) ^ m by grind) hE
    grind
  · obtain ⟨q', r1, r2⟩ := replace_section j1 he hq'
    have r3 := j4 q' _ ⟨r1, by simp⟩
    have hE' := walkCost_nonneg hw r1.2.2
    simp only [List.length_append] at r2 hm
    have t1 := Rat.mul_le_mul_of_nonneg_right (pow_le_pow_down (x := 1 - ε) (by grind) (by grind) (show (u ++ p ++ v).length ≤ m by simp only [List.length_append]; omega)) hE
    have t2 := Rat.mul_le_mul_of_nonneg_right (pow_le_pow_up (x := 1 + ε) (by grind) (show q'.length ≤ m by omega)) hE'
    have t3 := Rat.mul_nonneg (show 0 ≤ (1 + ε) ^ m - (1 - ε) ^ m by grind) (show 0 ≤ e - c' by grind)
    grind

/-- **C137**, integers: if all values are integers between 0 and `M`, `M` times the number of nodes is less than `2^53` (for doubles), and the hash separates the sets of avoided nodes of
the history, the memoised answers on floats are right, as in C30. -/
theorem C137_integers {fl : Rat → Rat} (hfl : Rounding fl) {M N : Nat} (hN : ExactUpTo fl N) {g : Graph α Rat O} (hg : g.Built)
    (hw : ∀ a b v, g.edge a b = some v → ∃ z : Nat, v = (z : Rat) ∧ z ≤ M) (hM : g.nodeList.length * M < N)
    {srt : List (α × Rat) → List (α × Rat)} (hsrt : ∀ l, (srt l).Perm l) (hash : List α → Int) (qs : List (α × α × Option (List α)))
    (hhash : ∀ a b, (∃ q ∈ qs, q.2.2 = some a) → (∃ q ∈ qs, q.2.2 = some b) → hash a = hash b → ∀ x, x ∈ a ↔ x ∈ b) :
    ∃ rs, memoRunFl fl srt hash g SpCache.empty qs = some rs ∧ rs.length = qs.length ∧
      ∀ (i : Nat) s f av r, qs[i]? = some (s, f, av) → rs[i]? = some r →
        (¬ (g.has s = true ∧ g.has f = true) → r = .error .valueError) ∧
        (g.has s = true ∧ g.has f = true → s ∉ av.getD [] → f ∉ av.getD [] →
          ∃ d p q, r = .ok (d, p) ∧ g.shortestPath s f (av.getD []) = some (.ok (d, q)) ∧ SpResult g.edge (av.getD []) s f (d, p)) := by
  have hwz : ∀ a b v, g.edge a b = some v → ∃ z : Nat, v = (z : Rat) := fun a b v h => let ⟨z, h1, _⟩ := hw a b v h; ⟨z, h1⟩
  have hw0 : NonNeg g.edge := fun a b c h => by obtain ⟨z, rfl⟩ := hwz a b c h; exact Rat.natCast_nonneg
  obtain ⟨rs, h1, h2, h3⟩ := C137_memoize_rounded hfl hg hw0 hsrt hash qs
  refine ⟨rs, h1, h2, fun i s f av r hi hr => ⟨(h3 i s f av r hi hr).1, fun hsf hsa hfa => ?_⟩⟩
  obtain ⟨d, p, rfl, k1, k2, k3⟩ := (h3 i s f av r hi hr).2 hsf
  suffices hsp : SpResult g.edge (av.getD []) s f (d, p) by
    obtain ⟨⟨e, q⟩, h7, h8⟩ := shortestPath_spec hg.inv hw0 (start := s) (fin := f) (av.getD []) hsf.1 hsf.2
    have h9 : e = d := h8.dist_unique hsp
    subst h9
    exact ⟨e, p, q, rfl, h7, hsp⟩
  cases av with
  | some a =>
    obtain ⟨a', j1, j2, j3⟩ := k3 a rfl
    have hmem : ∀ x, x ∈ a' ↔ x ∈ a := hhash a' a ⟨_, List.mem_of_mem_take j1, rfl⟩ ⟨_, List.mem_of_getElem? hi, rfl⟩ j2
    simp only [Option.getD_some] at hsa hfa ⊢
    obtain ⟨d1, p1, q, e1, _, e2⟩ := C135_integers hfl hN hg hw hM hsf.1 hsf.2 (avoids := a') (fun h => hsa ((hmem _).1 h)) (fun h => hfa ((hmem _).1 h)) hsrt
    rw [j3] at e1; cases e1
    have hav : ∀ q c, AvoidWalk g.edge a s f q c ↔ AvoidWalk g.edge a' s f q c := fun q c =>
      ⟨fun h => ⟨h.1, fun x hx hx' => h.2 x hx ((hmem x).1 hx')⟩, fun h => ⟨h.1, fun x hx hx' => h.2 x hx ((hmem x).2 hx')⟩⟩
    rcases e2 with ⟨x, e3, e4, e5⟩ | ⟨e3, e4⟩
    · exact .inl ⟨x, e3, (hav _ _).2 e4, fun q c hq => e5 q c ((hav _ _).1 hq)⟩
    · exact .inr ⟨e3, fun ⟨q, c, hq⟩ => e4 ⟨q, c, (hav _ _).1 hq⟩⟩
  | none =>
    simp only [Option.getD_none] at hsa hfa ⊢
    by_cases hyes : ∃ q e, WalkOf g.edge s f q e
    · obtain ⟨c, e, rfl, he, hnd, hc, s', f', u, v, d', _, hbi⟩ := k2 rfl hyes
      have hsf' : g.has s' = true ∧ g.has f' = true := Classical.byContradiction fun hn => by
        rw [shortestPathBi_errorFl fl [] srt hn] at hbi; cases hbi
      obtain ⟨d1, p1, q, e1, _, e2⟩ := C135_integers hfl hN hg hw hM hsf'.1 hsf'.2 (avoids := []) (by simp) (by simp) hsrt
      rw [hbi] at e1; cases e1
      rcases e2 with ⟨x, e3, e4, e5⟩ | ⟨e3, e4⟩
      · dsimp only at e4
        obtain ⟨c1, f1, f2⟩ := section_shortest e4 e5 he.1 he.2.1
        obtain ⟨z, rfl, hz⟩ := walkCost_int_le hw p f1
        have hp : p.length ≤ g.nodeList.length := nodup_length_le hnd (fun y hy => walk_in_nodes hg.inv he hsf.1 y hy)
        have hzN : z < N := Nat.lt_of_le_of_lt (Nat.le_trans hz (Nat.mul_le_mul_right _ (by omega))) hM
        have := flCost_int_le hN hwz p (z := 0) hc f1 (by omega)
        rw [show ((0 : Nat) : Rat) = 0 from rfl, Rat.zero_add] at this
        rw [this]; exact f2
      · simp only [Prod.mk.injEq] at e3
        have := congrArg List.length e3.2
        simp only [List.length_append, List.length_nil] at this
        exact absurd (List.length_eq_zero_iff.1 (by omega)) he.ne_nil
    · obtain ⟨rfl, rfl⟩ := k1 rfl hyes
      exact .inr ⟨rfl, fun ⟨q, c, hq⟩ => hyes ⟨q, c, hq.1⟩⟩

/-- **C137**, without rounding this is the function of C30 -/
theorem C137_exact (srt : List (α × Rat) → List (α × Rat)) (hash : List α → Int) (g : Graph α Rat O) (qs : List (α × α × Option (List α))) :
    ∀ c : SpCache α, memoRunFl id srt hash g c qs = memoRun srt hash g c (queries qs) := by
  induction qs with
  | nil => intro c; rfl
  | cons q qs ih =>
    intro c
    obtain ⟨s, f, av⟩ := q
    simp only [queries, List.map_cons, memoRunFl, memoRun, memoSPFl_id]
    have ih' : ∀ c : SpCache α, memoRunFl id srt hash g c qs = memoRun srt hash g c (qs.map (fun q => .query q.1 q.2.1 q.2.2)) := ih
    simp only [ih']
    rfl

/-- two long roads `1 → 2` and `4 → 5` with a choice between a short way `2 → 6 → 4` and a longer one `2 → 3 → 4` in the middle -/
def farG : Graph Nat Rat Nat := run [W 1 2 (2 ^ 53), W 2 3 1, W 3 4 1, W 2 6 (1/4), W 6 4 (1/4), W 4 5 (2 ^ 53)]

/-- **C137**: on doubles an earlier query can spoil the answer to a later one.  On a fresh cache the distance from 2 to 4 is `0.5`; after the query from 1 to 5, whose
path need not care about the middle section, it is `2`. -/
theorem C137_cached_section_counterexample : farG.Built ∧ NonNeg farG.edge ∧
    memoRunFl double id (fun _ => 0) farG SpCache.empty [(2, 4, none)] = some [.ok (.fin (1/2), [2, 6, 4])] ∧
    memoRunFl double id (fun _ => 0) farG SpCache.empty [(1, 5, none), (2, 4, none)] = some [.ok (.fin (2 ^ 54), [1, 2, 3, 4, 5]), .ok (.fin 2, [2, 3, 4])] := by
  have hb : farG.Built := ⟨_, rfl⟩
  have hw : NonNeg farG.edge := nonneg_of_edgeList hb (by decide +kernel)
  have b1 : farG.shortestPathBiFl double id 2 4 = some (.ok (.fin (1/2), [2, 6, 4])) := biFl_eval 20 (by decide +kernel) (by decide +kernel) (by decide +kernel)
  have b2 : farG.shortestPathBiFl double id 1 5 = some (.ok (.fin (2 ^ 54), [1, 2, 3, 4, 5])) := biFl_eval 20 (by decide +kernel) (by decide +kernel) (by decide +kernel)
  have hh : ∀ x, x ∈ [1, 2, 3, 4, 5, 6] → farG.has x = true := by decide +kernel
  have dfp : ∀ p c, (∀ x ∈ p, x ∈ [1, 2, 3, 4, 5, 6]) → flCost double farG.edge 0 p = some c → farG.distanceFromPathFl double p = some (.ok (.fin c)) :=
    fun p c hp hc => C133_walk double_rounding hb hw (fun x hx => hh x (hp x hx)) hc
  have d1 := dfp [2, 6, 4] (1/2) (by decide) (by decide +kernel)
  have d2 := dfp [1, 2, 3, 4, 5] (2 ^ 54) (by decide) (by decide +kernel)
  have d3 := dfp [2, 3, 4] 2 (by decide) (by decide +kernel)
  have d4 := dfp [2, 3, 4, 5] (2 ^ 53 + 2) (by decide) (by decide +kernel)
  have d5 := dfp [3, 4, 5] (2 ^ 53) (by decide) (by decide +kernel)
  have s1 : sections [2, 6, 4] = [[2, 6, 4], [2, 6, 4]] := by decide +kernel
  have s2 : sections [1, 2, 3, 4, 5] = [[1, 2, 3, 4, 5], [2, 3, 4], [1, 2, 3, 4, 5], [2, 3, 4, 5], [3, 4, 5]] := by decide +kernel
  have hash2 : farG.has 2 = true := hh 2 (by decide)
  have hash4 : farG.has 4 = true := hh 4 (by decide)
  have hash1 : farG.has 1 = true := hh 1 (by decide)
  have hash5 : farG.has 5 = true := hh 5 (by decide)
  refine ⟨hb, hw, ?_, ?_⟩
  · simp only [memoRunFl, memoSPFl, hash2, hash4, Bool.not_true, Bool.false_eq_true, if_false, memoPlainFl]
    rw [show (SpCache.empty : SpCache Nat).cache.get? (2, 4) = none from rfl]
    dsimp only
    rw [b1]
    dsimp only
    unfold updateCacheFl
    rw [s1]
    simp only [storeSectionsFl, d1]
    rfl
  · simp only [memoRunFl, memoSPFl, hash1, hash2, hash4, hash5, Bool.not_true, Bool.false_eq_true, if_false, memoPlainFl]
    rw [show (SpCache.empty : SpCache Nat).cache.get? (1, 5) = none from rfl]
    dsimp only
    rw [b2]
    dsimp only
    unfold updateCacheFl
    rw [s2]
    simp only [storeSectionsFl, d2, d3, d4, d5]
    rfl

/-- the hypotheses of `C137_memoize_rounded` and `C137_accuracy` are met by the history of the counterexample -/
example : Rounding double ∧ (0 : Rat) ≤ pow2 (-53) ∧ pow2 (-53) ≤ 1 ∧ RelErr double (pow2 (-53)) ∧ farG.Built ∧ NonNeg farG.edge ∧ (∀ l : List (Nat × Rat), (id l).Perm l) ∧
    ∃ rs, memoRunFl double id (fun _ => 0) farG SpCache.empty [(1, 5, none), (2, 4, none)] = some rs ∧ rs[1]? = some (.ok (.fin 2, [2, 3, 4])) :=
  ⟨double_rounding, by decide +kernel, by decide +kernel, double_relErr, C137_cached_section_counterexample.1, C137_cached_section_counterexample.2.1, fun _ => .rfl,
    _, C137_cached_section_counterexample.2.2.2, rfl⟩

/-- the hypotheses of `C137_integers`: the graph of C135, a history with and without avoided nodes -/
example : ∃ g : Graph Nat Rat Nat, g.Built ∧ (∀ a b v, g.edge a b = some v → ∃ z : Nat, v = (z : Rat) ∧ z ≤ 4) ∧ g.nodeList.length * 4 < 2 ^ 53 ∧ ExactUpTo double (2 ^ 53) ∧
    (∀ a b : List Nat, (∃ q ∈ [((1 : Nat), (3 : Nat), none), (1, 3, some [2]), (9, 3, none)], q.2.2 = some a) →
      (∃ q ∈ [((1 : Nat), (3 : Nat), none), (1, 3, some [2]), (9, 3, none)], q.2.2 = some b) → (0 : Int) = 0 → ∀ x, x ∈ a ↔ x ∈ b) := by
  refine ⟨run [W 1 3 4, W 1 2 1, W 2 3 2], ⟨_, rfl⟩, fun a b v h => ?_, by decide +kernel, double_exactUpTo, fun a b ha hb _ => ?_⟩
  · have hb : (run [W 1 3 4, W 1 2 1, W 2 3 2]).Built := ⟨_, rfl⟩
    have h1 : ∀ e ∈ (run [W 1 3 4, W 1 2 1, W 2 3 2]).edgeList, e.2.2 = 4 ∨ e.2.2 = 1 ∨ e.2.2 = 2 := by decide +kernel
    have h2 := h1 (a, b, v) (hb.inv.mem_edgeList.2 h)
    rcases h2 with h2 | h2 | h2
    · exact ⟨4, h2, by decide⟩
    · exact ⟨1, h2, by decide⟩
    · exact ⟨2, h2, by decide⟩
  · simp at ha hb; subst ha hb; simp

end GT

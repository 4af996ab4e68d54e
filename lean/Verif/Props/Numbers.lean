import Verif.Sp.DijkstraNum
import Verif.Spec.Double
import Verif.Props.Round
/-
C111: `shortest_path` with values of any number type, with `float('inf')` and with overflow.
-/
namespace GT
variable {α V O C : Type} [DecidableEq α]
open Graph

/-- **C111**, any number type: if sums are ordered by `<` and `==`, adding a value respects the order, and the values of the edges make no sum
smaller (`good`), then — whichever of several smallest entries the heap hands out first — `shortest_path(start, end, avoids)` returns; what
it returns is a simple walk that avoids `avoids`, with its values added from left to right, and no other such walk adds up to less; it
returns `inf, []` exactly when there is no such walk. -/
theorem C111_any_number_type {N : NumType C V} {ok : C → Prop} {good : V → Prop} (hN : N.Laws ok good)
    {pop : List (EntA α C) → Option (EntA α C × List (EntA α C))} (hpo : PopOk pop)
    (hpm : ∀ q m r, pop q = some (m, r) → ∀ e ∈ q, N.le m.cost e.cost)
    {g : Graph α V O} (hg : g.Built) (hw : ∀ a b v, g.edge a b = some v → good v)
    {start fin : α} (hs : g.has start = true) (hf : g.has fin = true) (avoids : List α) :
    ∃ d p, g.shortestPathNum N pop start fin avoids = some (.ok (d, p)) ∧ p.Nodup ∧
      ((∃ q c, AnyWalk N g.edge avoids start fin q c) →
        ∃ c, d = some c ∧ AnyWalk N g.edge avoids start fin p c ∧ ∀ q c', AnyWalk N g.edge avoids start fin q c' → N.le c c') ∧
      ((¬ ∃ q c, AnyWalk N g.edge avoids start fin q c) → d = none ∧ p = []) := by
  obtain ⟨⟨d, p⟩, h1, h2⟩ := shortestPathNum_spec (DijOrd.of_laws hN) hpo hpm hg.inv hw (start := start) (fin := fin) avoids hs hf
  refine ⟨d, p, h1, shortestPathNum_nodup hpo h1, fun hex => ?_, fun hno => ?_⟩
  · rcases h2 with ⟨c, h3, h4, h5⟩ | ⟨_, h4⟩
    · exact ⟨c, h3, h4, h5⟩
    · exact absurd hex h4
  · rcases h2 with ⟨c, h3, h4, h5⟩ | ⟨h3, _⟩
    · exact absurd ⟨_, _, h4⟩ hno
    · cases h3; exact ⟨rfl, rfl⟩

/-- **C111**, no assumption on the values at all — negative numbers, `nan`, objects of any class with `+` and `<` — and none on the order in
which the heap hands out its entries: `shortest_path` returns; it returns a simple walk that avoids `avoids` and the sum of its values if
there is such a walk, and `inf, []` otherwise; `ValueError` exactly when `start` or `end` is missing. -/
theorem C111_whatever_values (N : NumType C V) {pop : List (EntA α C) → Option (EntA α C × List (EntA α C))} (hpo : PopOk pop)
    {g : Graph α V O} (hg : g.Built) (start fin : α) (avoids : List α) :
    ((g.has start = true ∧ g.has fin = true) →
      ∃ d p, g.shortestPathNum N pop start fin avoids = some (.ok (d, p)) ∧ p.Nodup ∧
      ((∃ q c, AnyWalk N g.edge avoids start fin q c) → ∃ c, d = some c ∧ AnyWalk N g.edge avoids start fin p c) ∧
      ((¬ ∃ q c, AnyWalk N g.edge avoids start fin q c) → d = none ∧ p = [])) ∧
    (¬ (g.has start = true ∧ g.has fin = true) → g.shortestPathNum N pop start fin avoids = some (.error .valueError)) := by
  refine ⟨fun ⟨hs, hf⟩ => ?_, shortestPathNum_error avoids⟩
  obtain ⟨⟨d, p⟩, h1, h2⟩ := shortestPathNum_spec (DijOrd.trivial N) hpo (fun _ _ _ _ _ _ => True.intro) hg.inv
    (fun _ _ _ _ => True.intro) (start := start) (fin := fin) avoids hs hf
  refine ⟨d, p, h1, shortestPathNum_nodup hpo h1, fun hex => ?_, fun hno => ?_⟩
  · rcases h2 with ⟨c, h3, h4, h5⟩ | ⟨_, h4⟩
    · exact ⟨c, h3, h4⟩
    · exact absurd hex h4
  · rcases h2 with ⟨c, h3, h4, h5⟩ | ⟨h3, _⟩
    · exact absurd ⟨_, _, h4⟩ hno
    · cases h3; exact ⟨rfl, rfl⟩

/-- a heap that hands out a smallest entry -/
theorem C111_heap {N : NumType C V} {ok : C → Prop} {good : V → Prop} (hN : N.Laws ok good) :
    PopOk (popMinA (α := α) N) ∧ ∀ q m r, popMinA (α := α) N q = some (m, r) → ∀ e ∈ q, N.le m.cost e.cost :=
  ⟨popMinA_ok N, popMinA_min hN⟩

/-- the edges with a finite value -/
def finiteEdges (w : α → α → Option Ext) (a b : α) : Option Rat := match w a b with
  | some (.fin v) => some v
  | _ => none

omit [DecidableEq α] in
/-- along finite edges the sum with infinities is the sum -/
theorem anyCost_finite {w : α → α → Option Ext} (p : List α) : ∀ (acc : Rat) (c : Rat),
    anyCost (extNum id .inf) w (.fin acc) p = some (.fin c) ↔ ∃ d, walkCost (finiteEdges w) p = some d ∧ c = acc + d := by
  have hinf : ∀ (p : List α) c, anyCost (extNum id .inf) w .inf p ≠ some (.fin c) := by
    intro p
    induction p with
    | nil => intro c; simp [anyCost]
    | cons a l ih =>
      intro c
      cases l with
      | nil => simp [anyCost]
      | cons b l =>
        simp only [anyCost]
        split
        · exact ih c
        · simp
  induction p with
  | nil => intro acc c; simp [anyCost, walkCost]
  | cons a l ih =>
    intro acc c
    cases l with
    | nil =>
      simp only [anyCost, walkCost, Option.some.injEq, Ext.fin.injEq]
      constructor
      · rintro rfl; exact ⟨0, rfl, by grind⟩
      · rintro ⟨d, rfl, rfl⟩; grind
    | cons b l =>
      simp only [anyCost, walkCost]
      unfold finiteEdges
      cases w a b with
      | none => simp
      | some v =>
        cases v with
        | inf => simp only [reduceCtorEq, false_and, exists_false, iff_false]; exact hinf (b :: l) c
        | fin v =>
          simp only
          have := ih (acc + v) c
          rw [show (extNum id .inf).add (.fin acc) (.fin v) = .fin (acc + v) from rfl, this]
          show (∃ d, walkCost (finiteEdges w) (b :: l) = some d ∧ _) ↔
            ∃ d, (match some v, walkCost (finiteEdges w) (b :: l) with | some c, some d => some (c + d) | _, _ => none) = some d ∧ _
          cases walkCost (finiteEdges w) (b :: l) with
          | none => simp
          | some e =>
            simp only [Option.some.injEq]
            constructor
            · rintro ⟨_, rfl, rfl⟩; exact ⟨_, rfl, by grind⟩
            · rintro ⟨_, rfl, rfl⟩; exact ⟨_, rfl, by grind⟩

/-- **C111**, infinite values (exact numbers and `float('inf')`): if some walk has finite values only, `shortest_path` returns the shortest
of these and its length; if every walk uses an edge of value `inf`, it returns `inf` and some walk; `inf, []` if there is no walk. -/
theorem C111_infinite_values {g : Graph α Ext O} (hg : g.Built) (hw : ∀ a b v, g.edge a b = some v → v.NonNeg)
    {pop : List (EntA α Ext) → Option (EntA α Ext × List (EntA α Ext))} (hpo : PopOk pop)
    (hpm : ∀ q m r, pop q = some (m, r) → ∀ e ∈ q, m.cost.le e.cost)
    {start fin : α} (hs : g.has start = true) (hf : g.has fin = true) (avoids : List α) :
    ∃ d p, g.shortestPathNum (extNum id .inf) pop start fin avoids = some (.ok (d, p)) ∧ p.Nodup ∧
      ((∃ q c, AvoidWalk (finiteEdges g.edge) avoids start fin q c) →
        ∃ c, d = some (.fin c) ∧ AvoidWalk (finiteEdges g.edge) avoids start fin p c ∧
          ∀ q c', AvoidWalk (finiteEdges g.edge) avoids start fin q c' → c ≤ c') ∧
      ((¬ ∃ q c, AvoidWalk (finiteEdges g.edge) avoids start fin q c) →
        (∃ q c, AnyWalk (extNum id .inf) g.edge avoids start fin q c) →
          d = some .inf ∧ ∃ c, AnyWalk (extNum id .inf) g.edge avoids start fin p c) ∧
      ((¬ ∃ q c, AnyWalk (extNum id .inf) g.edge avoids start fin q c) → d = none ∧ p = []) := by
  have hfin : ∀ q c, AnyWalk (extNum id .inf) g.edge avoids start fin q (.fin c) ↔ AvoidWalk (finiteEdges g.edge) avoids start fin q c := by
    intro q c
    unfold AnyWalk AvoidWalk WalkOf
    have := anyCost_finite (w := g.edge) q 0 c
    rw [show (extNum id .inf).zero = .fin 0 from rfl, this]
    constructor
    · rintro ⟨h1, h2, ⟨d, h3, rfl⟩, h4⟩; exact ⟨⟨h1, h2, by rw [h3]; congr 1; grind⟩, h4⟩
    · rintro ⟨⟨h1, h2, h3⟩, h4⟩; exact ⟨h1, h2, ⟨c, h3, by grind⟩, h4⟩
  have hle : ∀ a b : Ext, (extNum id .inf).le a b ↔ a.le b := fun a b => Ext.below_false
  obtain ⟨d, p, h1, h2, h3, h4⟩ := C111_any_number_type
    (extNum_laws (fl := id) ⟨fun _ _ h => h, fun _ => rfl, rfl⟩ (M := .inf) (by simp [Ext.le])) hpo
    (fun q m r h e he => (hle _ _).2 (hpm q m r h e he)) hg hw hs hf avoids
  refine ⟨d, p, h1, h2, fun ⟨q, c, hq⟩ => ?_, fun hno hex => ?_, h4⟩
  · obtain ⟨c', rfl, h5, h6⟩ := h3 ⟨q, _, (hfin q c).2 hq⟩
    have h7 := (hle _ _).1 (h6 _ _ ((hfin q c).2 hq))
    cases c' with
    | inf => simp [Ext.le] at h7
    | fin c' => exact ⟨c', rfl, (hfin _ _).1 h5, fun q c hq => (hle _ _).1 (h6 _ _ ((hfin q c).2 hq))⟩
  · obtain ⟨c', rfl, h5, h6⟩ := h3 hex
    cases c' with
    | inf => exact ⟨rfl, _, h5⟩
    | fin c' => exact absurd ⟨_, _, (hfin _ _).1 h5⟩ hno

/-- the largest `float`: `sys.float_info.max` -/
def floatMax : Ext := .fin ((2 ^ 53 - 1) * pow2 971)

/-- **C111** for Python's `float` including overflow: sums are rounded to the nearest double and become `inf` above `sys.float_info.max`.
With non-negative or infinite values the walk that `shortest_path` returns is one whose computed length is smallest. -/
theorem C111_float {g : Graph α Ext O} (hg : g.Built) (hw : ∀ a b v, g.edge a b = some v → v.NonNeg)
    {start fin : α} (hs : g.has start = true) (hf : g.has fin = true) (avoids : List α) :
    ∃ d p, g.shortestPathNum (extNum double floatMax) (popMinA (extNum double floatMax)) start fin avoids = some (.ok (d, p)) ∧ p.Nodup ∧
      ((∃ q c, AnyWalk (extNum double floatMax) g.edge avoids start fin q c) →
        ∃ c, d = some c ∧ AnyWalk (extNum double floatMax) g.edge avoids start fin p c ∧
          ∀ q c', AnyWalk (extNum double floatMax) g.edge avoids start fin q c' → c.le c') ∧
      ((¬ ∃ q c, AnyWalk (extNum double floatMax) g.edge avoids start fin q c) → d = none ∧ p = []) := by
  have hN := extNum_laws double_rounding (M := floatMax) (by show (0 : Rat) ≤ _; decide +kernel)
  have hle : ∀ a b : Ext, (extNum double floatMax).le a b ↔ a.le b := fun a b => Ext.below_false
  have := C111_any_number_type hN (C111_heap hN).1 (C111_heap hN).2 hg hw hs hf avoids
  simpa only [hle] using this

/-- **C111**: the rounded rationals of C94, and with `fl = id` the exact ones of C28, are one of these number types. -/
theorem C111_rationals (fl : Rat → Rat) {g : Graph α Rat O} (hg : g.Built) (start fin : α) (avoids : List α) :
    g.shortestPathFl fl start fin avoids = match g.shortestPathNum (flNum fl) (popMinA (flNum fl)) start fin avoids with
      | some (.ok r) => some (.ok (orInf r.1, r.2))
      | some (.error e) => some (.error e)
      | none => none := shortestPathNum_fl fl hg.inv start fin avoids

/-! ### concrete cases -/

/-- an edge of value `v` -/
def X (a b : Nat) (v : Ext) : Op Nat Ext Nat := .addEdge a b (.scalar v) false

/-- `1 → 4` is infinitely long, `1 → 2 → 4` is not; the only way to 5 is infinitely long; nothing leads to 6 -/
def infG : Graph Nat Ext Nat := run [X 1 4 .inf, X 1 2 (.fin 1), X 2 4 (.fin 1), X 4 5 .inf, X 6 1 (.fin 1)]

theorem values_of_edgeList {g : Graph α V O} (hg : g.Built) {P : V → Prop} (h : ∀ e ∈ g.edgeList, P e.2.2) :
    ∀ a b v, g.edge a b = some v → P v := fun a b v hv => h (a, b, v) (hg.inv.mem_edgeList.2 hv)

instance (v : Ext) : Decidable v.NonNeg := by
  cases v <;> simp only [Ext.NonNeg] <;> infer_instance

example : infG.Built ∧ (∀ a b v, infG.edge a b = some v → v.NonNeg) ∧
    infG.shortestPathNum (extNum id .inf) (popMinA (extNum id .inf)) 1 4 = some (.ok (some (.fin 2), [1, 2, 4])) ∧
    infG.shortestPathNum (extNum id .inf) (popMinA (extNum id .inf)) 1 5 = some (.ok (some .inf, [1, 2, 4, 5])) ∧
    infG.shortestPathNum (extNum id .inf) (popMinA (extNum id .inf)) 1 6 = some (.ok (none, [])) :=
  ⟨⟨_, rfl⟩, values_of_edgeList (g := infG) ⟨_, rfl⟩ (by decide +kernel),
    spNum_eval 20 (by decide +kernel) (by decide +kernel) (by decide +kernel), spNum_eval 20 (by decide +kernel) (by decide +kernel) (by decide +kernel),
    spNum_eval 20 (by decide +kernel) (by decide +kernel) (by decide +kernel)⟩

/-- `1e308 + 1e308` overflows, `0.1 + 0.2` does not: the way `1 → 2 → 3` counts as infinitely long -/
def overflowG : Graph Nat Ext Nat :=
  run [X 1 2 (.fin (double (10 ^ 308))), X 2 3 (.fin (double (10 ^ 308))), X 1 4 (.fin (double (1/10))), X 4 5 (.fin (double (2/10)))]

example : overflowG.Built ∧ (∀ a b v, overflowG.edge a b = some v → v.NonNeg) ∧
    overflowG.shortestPathNum (extNum double floatMax) (popMinA (extNum double floatMax)) 1 3 = some (.ok (some .inf, [1, 2, 3])) ∧
    overflowG.shortestPathNum (extNum double floatMax) (popMinA (extNum double floatMax)) 1 5 =
      some (.ok (some (.fin (double (30000000000000004 / 100000000000000000))), [1, 4, 5])) :=
  ⟨⟨_, rfl⟩, values_of_edgeList (g := overflowG) ⟨_, rfl⟩ (by decide +kernel),
    spNum_eval 20 (by decide +kernel) (by decide +kernel) (by decide +kernel), spNum_eval 20 (by decide +kernel) (by decide +kernel) (by decide +kernel)⟩

/-- a user-defined number type: pairs (hops, length), compared first by hops; and the laws it satisfies -/
def hopNum : NumType (Nat × Nat) Nat where
  zero := (0, 0)
  add a v := (a.1 + 1, a.2 + v)
  lt a b := decide (a.1 < b.1) || (decide (a.1 = b.1) && decide (a.2 < b.2))
  eq a b := decide (a = b)

theorem hopNum_laws : hopNum.Laws (fun _ => True) (fun _ => True) := by
  have hl : ∀ a b : Nat × Nat, hopNum.le a b ↔ a.1 < b.1 ∨ (a.1 = b.1 ∧ a.2 ≤ b.2) := by
    intro a b; simp [NumType.le, hopNum]; omega
  refine ⟨fun a => ?_, fun a b hab => ?_, fun a b c => ?_, fun a b => ?_, fun a b v _ => ?_, fun a v _ _ => ?_, True.intro, fun _ _ _ _ => True.intro⟩
  · simp [hopNum]
  · simp [hopNum] at *; omega
  · simp only [hl]; omega
  · simp only [hl]; simp only [hopNum, decide_eq_true_eq, Prod.ext_iff]; omega
  · simp only [hl]; simp only [hopNum]; omega
  · simp only [hl]; simp only [hopNum]; omega

/-- three hops of length 1 against one of length 100 -/
def hopG : Graph Nat Nat Nat := run [.addEdge 1 2 (.scalar 1) false, .addEdge 2 3 (.scalar 1) false, .addEdge 3 4 (.scalar 1) false, .addEdge 1 4 (.scalar 100) false]

example : hopG.Built ∧ hopG.shortestPathNum hopNum (popMinA hopNum) 1 4 = some (.ok (some (1, 100), [1, 4])) ∧
    AnyWalk hopNum hopG.edge [] 1 4 [1, 2, 3, 4] (3, 3) ∧ hopNum.le (1, 100) (3, 3) :=
  ⟨⟨_, rfl⟩, spNum_eval 20 (by decide +kernel) (by decide +kernel) (by decide +kernel), by
    refine ⟨rfl, rfl, by decide +kernel, by simp⟩, rfl⟩

omit [DecidableEq α] in
theorem pop_one {pop : List (EntA α C) → Option (EntA α C × List (EntA α C))} (h : PopOk pop) (a : EntA α C) : pop [a] = some (a, []) := by
  cases hp : pop [a] with
  | none => rw [h.none] at hp; cases hp
  | some mr =>
    obtain ⟨m, r⟩ := mr
    have h1 := h.some _ _ _ hp
    have h2 := h1.length_eq
    cases r with
    | nil => rw [List.perm_singleton.1 h1.symm |> List.cons.inj |>.1]
    | cons => simp at h2

omit [DecidableEq α] in
theorem pop_two {pop : List (EntA α C) → Option (EntA α C × List (EntA α C))} (h : PopOk pop) (a b : EntA α C) :
    pop [a, b] = some (a, [b]) ∨ pop [a, b] = some (b, [a]) := by
  cases hp : pop [a, b] with
  | none => rw [h.none] at hp; cases hp
  | some mr =>
    obtain ⟨m, r⟩ := mr
    have h1 := h.some _ _ _ hp
    have h2 := h1.length_eq
    match r, h2 with
    | [x], _ =>
      have hm : m ∈ [a, b] := h1.mem_iff.2 (by simp)
      have hm' : m = a ∨ m = b := by simpa using hm
      rcases hm' with rfl | rfl
      · have := (List.perm_cons _).1 h1
        have := List.singleton_perm_singleton.1 this
        subst this; exact .inl rfl
      · have := (List.perm_cons _).1 ((List.Perm.swap ..).trans h1)
        have := List.singleton_perm_singleton.1 this
        subst this; exact .inr rfl

/-- an edge of value `v`, possibly `nan` -/
def Y (a b : Nat) (v : Option Ext) : Op Nat (Option Ext) Nat := .addEdge a b (.scalar v) false

/-- the direct edge has the value `nan` -/
def nanG : Graph Nat (Option Ext) Nat := run [Y 1 4 none, Y 1 2 (some (.fin 1)), Y 2 4 (some (.fin 1))]

/-- **C111** needs its hypothesis: with a `nan` among the values, in whatever order the heap hands out its entries, `shortest_path(1, 4)`
returns `(nan, [1, 4])`, although there is a way of length 2: a sum that is `nan` is never replaced, because nothing is `<` it. -/
theorem C111_nan {pop : List (EntA Nat (Option Ext)) → Option (EntA Nat (Option Ext) × List (EntA Nat (Option Ext)))} (hpo : PopOk pop) :
    nanG.shortestPathNum nanNum pop 1 4 = some (.ok (some none, [1, 4])) ∧
    AnyWalk nanNum nanG.edge [] 1 4 [1, 2, 4] (some (.fin 2)) := by
  refine ⟨?_, rfl, rfl, by decide +kernel, by simp⟩
  have st : ∀ {q : List (EntA Nat (Option Ext))} {e q'} mins vis i, pop q = some (e, q') →
      dijStepNum nanNum pop nanG.outNbr 4 ⟨q, mins, vis, i⟩ = dijStepNum nanNum (fun _ => some (e, q')) nanG.outNbr 4 ⟨q, mins, vis, i⟩ := by
    intro q e q' mins vis i h
    unfold dijStepNum
    simp only [h]
  have s1 : dijStepNum nanNum pop nanG.outNbr 4 ⟨[⟨nanNum.zero, 0, 1, []⟩], Dict.empty.set 1 nanNum.zero, [], 1⟩ =
      .inl ⟨[⟨some (.fin 1), 2, 2, [1]⟩, ⟨none, 1, 4, [1]⟩], ((Dict.empty.set 1 nanNum.zero).set 4 none).set 2 (some (.fin 1)), [1], 3⟩ := by
    rw [st _ _ _ (pop_one hpo _)]
    decide +kernel
  unfold shortestPathNum
  rw [if_neg (by decide +kernel), if_neg (by decide +kernel), pyWhile_inl s1]
  have last : ∀ mins vis i, (4 : Nat) ∉ vis →
      pyWhile (dijStepNum nanNum pop nanG.outNbr 4) ⟨[⟨none, 1, 4, [1]⟩], mins, vis, i⟩ = some (some none, [1, 4]) := by
    intro mins vis i hv
    refine pyWhile_inr ?_
    rw [st _ _ _ (pop_one hpo _)]
    unfold dijStepNum
    simp [hv]
  rcases pop_two hpo ⟨some (.fin 1), 2, 2, [1]⟩ ⟨none, 1, 4, [1]⟩ with h | h
  · have s2 : dijStepNum nanNum pop nanG.outNbr 4
        ⟨[⟨some (.fin 1), 2, 2, [1]⟩, ⟨none, 1, 4, [1]⟩], ((Dict.empty.set 1 nanNum.zero).set 4 none).set 2 (some (.fin 1)), [1], 3⟩ =
        .inl ⟨[⟨none, 1, 4, [1]⟩], ((Dict.empty.set 1 nanNum.zero).set 4 none).set 2 (some (.fin 1)), [1, 2], 3⟩ := by
      rw [st _ _ _ h]
      decide +kernel
    rw [pyWhile_inl s2, last _ _ _ (by decide)]
  · have s2 : dijStepNum nanNum pop nanG.outNbr 4
        ⟨[⟨some (.fin 1), 2, 2, [1]⟩, ⟨none, 1, 4, [1]⟩], ((Dict.empty.set 1 nanNum.zero).set 4 none).set 2 (some (.fin 1)), [1], 3⟩ =
        .inr (some none, [1, 4]) := by
      rw [st _ _ _ h]
      decide +kernel
    rw [pyWhile_inr s2]

end GT

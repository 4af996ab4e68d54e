import Verif.Sp.DijkstraHeap
import Verif.Props.Numbers
import Verif.Props.Round
import Verif.Props.Sp
/-
Property theorems C124: `shortest_path` keeps its queue in a list with `heapq.heappush` and `heapq.heappop`.  `shortestPathH` is the program with the binary
heap of Python's library (Heapq), whose comparisons of entries raise when they get past the cost and the counter.
-/
namespace GT
open Graph
variable {α V O C β : Type} [DecidableEq α]

/-- **C124**, the heap: if no two elements are such that comparing them raises, then pushing an element onto a heap makes a heap of the same elements and the
new one, and popping a heap takes out an element that no other is smaller than and leaves a heap of the others. -/
theorem C124_heap {ltE : β → β → Py Bool} {lt : β → β → Bool} (L : LtLaws lt) {h : List β} (hh : IsHeap lt h) (x : β)
    (hc : (x :: h).Pairwise (fun a b => ltE a b = .ok (lt a b) ∧ ltE b a = .ok (lt b a))) :
    (∃ h', heappush ltE h x = .ok h' ∧ h'.Perm (x :: h) ∧ IsHeap lt h') ∧
    (h ≠ [] → ∃ m h', heappop ltE h = .ok (m, h') ∧ h.Perm (m :: h') ∧ IsHeap lt h' ∧ ∀ b ∈ h, lt b m = false) ∧
    (h = [] → heappop ltE h = .error .indexError) := by
  refine ⟨?_, fun hne => ?_, fun h0 => by rw [h0]; rfl⟩
  · obtain ⟨h', e1, e2, e3⟩ := heappush_spec (ltE := ltE) (lt := lt) hc
    exact ⟨h', e1, e2, e3 L hh⟩
  · obtain ⟨m, h', e1, e2, e3⟩ := heappop_spec (ltE := ltE) (lt := lt) hne (List.pairwise_cons.1 hc).2
    exact ⟨m, h', e1, e2, e3 L hh⟩

/-- **C124**, any number type whose sums are ordered by `<` and `==` (`good` may be empty: negative values are allowed): with the binary heap `shortest_path`
returns what it returns with a queue that hands out its smallest entry; nodes are never compared. -/
theorem C124_any_number_type {N : NumType C V} {ok : C → Prop} {good : V → Prop} (hN : N.Laws ok good) {g : Graph α V O} (hg : g.Built) (start fin : α)
    (avoids : List α) : g.shortestPathH N (EntA.lt N) start fin avoids = g.shortestPathNum N (popMinA N) start fin avoids :=
  shortestPathH_eq hN hg.inv start fin avoids

/-- the order of the numbers alone -/
theorem flNum_ordered (fl : Rat → Rat) : (flNum fl).Laws (fun _ => True) (fun _ => False) := by
  have hl : ∀ a b : Rat, (flNum fl).le a b ↔ a ≤ b := fun a b => by
    simp only [NumType.le, flNum, decide_eq_false_iff_not]; grind
  refine ⟨fun a => ?_, fun a b hab => ?_, fun a b c => ?_, fun a b => ?_, fun a b v hv => hv.elim, fun a v ha hv => hv.elim, True.intro, fun _ _ _ _ => True.intro⟩
  · simp only [flNum, decide_eq_false_iff_not]; grind
  · simp only [flNum, decide_eq_true_eq, decide_eq_false_iff_not] at *; grind
  · simp only [hl]; grind
  · simp only [hl]; simp only [flNum, decide_eq_true_eq]; grind

/-- **C124**: for all graphs, also with negative values, the result with the binary heap is that of C28's `shortest_path`. -/
theorem C124_shortest_path {g : Graph α Rat O} (hg : g.Built) (start fin : α) (avoids : List α) :
    g.shortestPath start fin avoids = match g.shortestPathH (flNum id) (EntA.lt (flNum id)) start fin avoids with
      | some (.ok r) => some (.ok (orInf r.1, r.2))
      | some (.error e) => some (.error e)
      | none => none := by
  rw [C124_any_number_type (flNum_ordered id) hg]
  exact (shortestPath_eq_fl g start fin avoids).symm.trans ((C111_rationals id hg start fin avoids).trans rfl)

/-- **C124**, no assumption on the values or on the order of the entries (`lt`; with `nan` among the values the heap is no heap): `shortest_path` with the
binary heap returns; it returns a simple walk that avoids `avoids` and the sum of its values if there is such a walk, and `inf, []` otherwise; nodes are never
compared. -/
theorem C124_whatever_values (N : NumType C V) (lt : EntA α C → EntA α C → Bool) {g : Graph α V O} (hg : g.Built) (start fin : α) (avoids : List α) :
    ((g.has start = true ∧ g.has fin = true) →
      ∃ d p, g.shortestPathH N lt start fin avoids = some (.ok (d, p)) ∧ p.Nodup ∧
      ((∃ q c, AnyWalk N g.edge avoids start fin q c) → ∃ c, d = some c ∧ AnyWalk N g.edge avoids start fin p c) ∧
      ((¬ ∃ q c, AnyWalk N g.edge avoids start fin q c) → d = none ∧ p = [])) ∧
    (¬ (g.has start = true ∧ g.has fin = true) → g.shortestPathH N lt start fin avoids = some (.error .valueError)) := by
  refine ⟨fun ⟨hs, hf⟩ => ?_, fun hn => ?_⟩
  · obtain ⟨⟨d, p⟩, h1, h2, h3⟩ := shortestPathH_whatever N lt hg.inv (start := start) (fin := fin) avoids hs hf
    refine ⟨d, p, h1, h3, fun hex => ?_, fun hno => ?_⟩
    · rcases h2 with ⟨c, h3, h4, h5⟩ | ⟨_, h4⟩
      · exact ⟨c, h3, h4⟩
      · exact absurd hex h4
    · rcases h2 with ⟨c, h3, h4, h5⟩ | ⟨h3, _⟩
      · exact absurd ⟨_, _, h4⟩ hno
      · cases h3; exact ⟨rfl, rfl⟩
  · unfold shortestPathH
    split
    · rfl
    · split
      · rfl
      · rename_i h1 h2; simp at h1 h2; exact absurd ⟨h1, h2⟩ hn

/-- **C124**: the counter in the entries is needed: two entries of the same cost and the same counter cannot be in a heap -/
theorem C124_counter_needed_counterexample :
    heappush (entLtE (EntA.lt (flNum id))) [⟨1, 0, "a", []⟩] ⟨1, 0, "b", []⟩ = .error .typeError := by decide +kernel

/-- what the heap is like in the middle of a run; a list that is no heap hands out the wrong element -/
example : heappush (fun a b : Nat => .ok (decide (a < b))) [1, 4, 2, 9, 5, 3] 0 = .ok [0, 4, 1, 9, 5, 3, 2] ∧
    heappop (fun a b : Nat => .ok (decide (a < b))) [0, 4, 1, 9, 5, 3, 2] = .ok (0, [1, 4, 2, 9, 5, 3]) ∧
    heappop (fun a b : Nat => .ok (decide (a < b))) [3, 1, 2] = .ok (3, [1, 2]) := by decide +kernel

/-- the hypotheses of `C124_heap` are met -/
example : LtLaws (fun a b : Nat => decide (a < b)) ∧ IsHeap (fun a b : Nat => decide (a < b)) [1, 4, 2] := by
  refine ⟨⟨fun a b c h1 h2 => ?_, fun a b h => ?_⟩, fun i a b hi ha hb => ?_⟩
  · simp at *; omega
  · simp at *; omega
  · have := (List.getElem?_eq_some_iff.1 hb).1
    simp at this
    rcases (by omega : i = 1 ∨ i = 2) with rfl | rfl <;> simp at ha hb <;> subst ha hb <;> rfl

/-- a graph with negative values: 1 → 2 costs 4, 1 → 3 costs 6, 3 → 2 costs -5, 2 → 4 and 3 → 4 -/
def negH : Graph Nat Rat Nat := run [W 1 2 4, W 1 3 6, W 3 2 (-5), W 2 4 1, W 3 4 2]

example : negH.shortestPathH (flNum id) (EntA.lt (flNum id)) 1 4 = some (.ok (some 5, [1, 2, 4])) := by
  unfold shortestPathH
  rw [if_neg (by decide +kernel), if_neg (by decide +kernel)]
  exact pyWhile_of_runFuel (n := 20) (by decide +kernel)

end GT

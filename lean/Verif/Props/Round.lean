import Verif.Props.Checks
import Verif.Sp.DijkstraFl
import Verif.Sp.FlInt
/-
Property theorems C94: `shortest_path` in rounded (floating point) arithmetic.

`Rounding fl`: `fl` is a rounding function; `cost + dist` of the library is `fl (cost + dist)`.
`FlWalk fl w av a b p c`: `p` is a walk from `a` to `b` outside `av`, and adding up its values from left to right with rounding gives `c`.
`RelErr fl ε`: the relative error of one rounding is at most `ε`.  All three are in Spec/Round.
`double`: rounding to the nearest IEEE 754 double, the arithmetic of Python's `float` (Spec/Double, where it is shown that the result is the
nearest double).
-/
namespace GT
open Graph
variable {α V O : Type} [DecidableEq α]

/-- rounding down to an integer from 1000 on: four significant digits -/
def trunc4 (x : Rat) : Rat := if 1000 ≤ x then (x.floor : Rat) else x

theorem trunc4_rounding : Rounding trunc4 := by
  refine ⟨fun x y h => ?_, fun x => ?_, by decide +kernel⟩
  · unfold trunc4
    by_cases hx : 1000 ≤ x
    · rw [if_pos hx, if_pos (by grind)]
      exact Rat.intCast_le_intCast.2 (Rat.floor_monotone h)
    · rw [if_neg hx]
      by_cases hy : 1000 ≤ y
      · rw [if_pos hy]
        have : ((1000 : Int) : Rat) ≤ (y.floor : Rat) := Rat.intCast_le_intCast.2 (Rat.le_floor_iff.2 hy)
        have e : ((1000 : Int) : Rat) = 1000 := rfl
        grind
      · rw [if_neg hy]; exact h
  · by_cases hx : 1000 ≤ x
    · have : ((1000 : Int) : Rat) ≤ (x.floor : Rat) := Rat.intCast_le_intCast.2 (Rat.le_floor_iff.2 hx)
      have e : ((1000 : Int) : Rat) = 1000 := rfl
      have e1 : trunc4 x = (x.floor : Rat) := if_pos hx
      rw [e1]
      unfold trunc4
      rw [if_pos (by grind), Rat.floor_intCast]
    · have e1 : trunc4 x = x := if_neg hx
      rw [e1, e1]

theorem trunc4_relErr : RelErr trunc4 (1 / 1000) := by
  intro x hx
  unfold trunc4
  split
  · have h1 := Rat.floor_le x
    have h2 := Rat.lt_floor_add_one x
    rw [Rat.intCast_add] at h2
    have e : ((1 : Int) : Rat) = 1 := rfl
    constructor <;> grind
  · constructor <;> grind

/-! ### C94 -/

/-- **C94**. Whatever the rounding, with non-negative edge values `shortest_path(start, end, avoids)` always returns: a simple walk from
`start` to `end` outside `avoids` together with its length as the machine computes it, and no such walk has a smaller computed length;
`(inf, [])` is returned exactly if there is no such walk. -/
theorem C94_shortest_path_rounded {fl : Rat → Rat} (hfl : Rounding fl) {g : Graph α Rat O} (hg : g.Built) (hw : NonNeg g.edge)
    {start fin : α} (hs : g.has start = true) (hf : g.has fin = true) (avoids : List α) :
    ∃ d p, g.shortestPathFl fl start fin avoids = some (.ok (d, p)) ∧ p.Nodup ∧
      ((∃ q c, AvoidWalk g.edge avoids start fin q c) →
        ∃ c, d = .fin c ∧ FlWalk fl g.edge avoids start fin p c ∧ ∀ q c', FlWalk fl g.edge avoids start fin q c' → c ≤ c') ∧
      ((¬ ∃ q c, AvoidWalk g.edge avoids start fin q c) → d = .inf ∧ p = []) := by
  obtain ⟨⟨d, p⟩, h1, h2⟩ := shortestPathFl_spec hfl hg.inv hw (start := start) (fin := fin) avoids hs hf
  refine ⟨d, p, h1, shortestPathFl_nodup h1, fun ⟨q, c, hq⟩ => ?_, fun hno => ?_⟩
  · rcases h2 with ⟨c, h3, h4, h5⟩ | ⟨_, h4⟩
    · exact ⟨c, h3, h4, h5⟩
    · obtain ⟨d, hd⟩ := flWalk_of_avoid (fl := fl) hq
      exact absurd ⟨q, d, hd⟩ h4
  · rcases h2 with ⟨c, h3, h4, h5⟩ | ⟨h3, _⟩
    · obtain ⟨c', hc'⟩ := avoid_of_flWalk h4
      exact absurd ⟨_, _, hc'⟩ hno
    · cases h3; exact ⟨rfl, rfl⟩

/-- evaluation -/
theorem spFl_eval {fl : Rat → Rat} {g : Graph α Rat O} {s f : α} {av : List α} {r : Ext × List α} (n : Nat)
    (hs : g.has s = true) (hf : g.has f = true)
    (h : runFuel (dijStepFl fl g.outNbr f) n ⟨[⟨0, 0, s, []⟩], Dict.empty.set s 0, av, 1⟩ = some r) :
    g.shortestPathFl fl s f av = some (.ok r) := by
  unfold shortestPathFl
  simp only [hs, hf, Bool.not_true, Bool.false_eq_true, if_false]
  rw [pyWhile_of_runFuel h]

/-- `1 → 2 → 3 → 4` with `1000 + 0.9 + 0.9` is computed as 1000, the shorter way `1 → 4` with 1001.5 as 1001 -/
def flG : Graph Nat Rat Nat := run [W 1 4 (2003/2), W 1 2 1000, W 2 3 (9/10), W 3 4 (9/10)]

/-- the machine takes the way that is shorter in its arithmetic, exact arithmetic the other one -/
example : Rounding trunc4 ∧ flG.Built ∧ NonNeg flG.edge ∧ flG.has 1 = true ∧ flG.has 4 = true ∧
    flG.shortestPathFl trunc4 1 4 = some (.ok (.fin 1000, [1, 2, 3, 4])) ∧
    flG.shortestPath 1 4 = some (.ok (.fin (2003/2), [1, 4])) :=
  ⟨trunc4_rounding, ⟨_, rfl⟩, nonneg_of_edgeList ⟨_, rfl⟩ (by decide +kernel), by decide, by decide,
    spFl_eval 20 (by decide) (by decide) (by decide +kernel), sp_eval 20 (by decide) (by decide) (by decide +kernel)⟩

/-- **C94**, accuracy: if the relative error of one rounding is at most `ε ≤ 1`, the walk that `shortest_path` returns has a length `c` (exactly
computed) that exceeds the length `c'` of any other walk `q` at most by the accumulated rounding errors:
`(1 - ε)^(edges of p) * c ≤ (1 + ε)^(edges of q) * c'`; and the reported distance lies within the rounding errors of `c`. -/
theorem C94_accuracy {fl : Rat → Rat} (hfl : Rounding fl) {ε : Rat} (h0 : 0 ≤ ε) (h1 : ε ≤ 1) (hε : RelErr fl ε)
    {g : Graph α Rat O} (hg : g.Built) (hw : NonNeg g.edge) {start fin : α} {avoids : List α} {d : Rat} {p : List α}
    (h : g.shortestPathFl fl start fin avoids = some (.ok (.fin d, p))) :
    ∃ c, AvoidWalk g.edge avoids start fin p c ∧
      (1 - ε) ^ (p.length - 1) * c ≤ d ∧ d ≤ (1 + ε) ^ (p.length - 1) * c ∧
      ∀ q c', AvoidWalk g.edge avoids start fin q c' → (1 - ε) ^ (p.length - 1) * c ≤ (1 + ε) ^ (q.length - 1) * c' := by
  have hsf : g.has start = true ∧ g.has fin = true := Classical.byContradiction fun hn => by
    rw [shortestPathFl_error avoids hn] at h; cases h
  obtain ⟨r, h2, h3⟩ := shortestPathFl_spec hfl hg.inv hw (start := start) (fin := fin) avoids hsf.1 hsf.2
  rw [h] at h2
  cases h2
  rcases h3 with ⟨d', h4, h5, h6⟩ | ⟨h4, _⟩
  · cases h4
    obtain ⟨c, hc⟩ := avoid_of_flWalk h5
    obtain ⟨b1, b2⟩ := flCost_bounds h0 h1 hε hw p Rat.le_refl h5.2.2.1 hc.1.2.2
    rw [Rat.zero_add] at b1 b2
    refine ⟨c, hc, b1, b2, fun q c' hq => ?_⟩
    obtain ⟨d2, hd2⟩ := flWalk_of_avoid (fl := fl) hq
    obtain ⟨_, b3⟩ := flCost_bounds h0 h1 hε hw q Rat.le_refl hd2.2.2.1 hq.1.2.2
    rw [Rat.zero_add] at b3
    exact Rat.le_trans b1 (Rat.le_trans (h6 q d2 hd2) b3)
  · cases h4

/-- the bound in the example: `(1 - 1/1000)^3 * 1001.8 ≤ 1000 ≤ (1 + 1/1000) * 1001.5` -/
example : ∃ c, AvoidWalk flG.edge [] 1 4 [1, 2, 3, 4] c ∧ c = 5009/5 ∧
    (1 - 1/1000 : Rat) ^ 3 * c ≤ (1 + 1/1000 : Rat) ^ 1 * (2003/2) := by
  obtain ⟨c, hc, _, _, h⟩ := C94_accuracy (O := Nat) trunc4_rounding (by decide +kernel) (by decide +kernel) trunc4_relErr
    (g := flG) ⟨_, rfl⟩ (nonneg_of_edgeList ⟨_, rfl⟩ (by decide +kernel)) (start := 1) (fin := 4) (avoids := [])
    (spFl_eval 20 (r := (.fin 1000, [1, 2, 3, 4])) (by decide) (by decide) (by decide +kernel))
  have e : c = 5009/5 := by
    have : walkCost flG.edge [1, 2, 3, 4] = some (5009/5) := by decide +kernel
    rw [hc.1.2.2] at this
    exact Option.some.inj this
  exact ⟨c, hc, e, h [1, 4] (2003/2) ⟨⟨rfl, rfl, by decide +kernel⟩, by simp⟩⟩

/-- **C94**, without rounding this is the function of C28 -/
theorem C94_exact (g : Graph α Rat O) (start fin : α) (avoids : List α) :
    g.shortestPathFl id start fin avoids = g.shortestPath start fin avoids := shortestPath_eq_fl g start fin avoids

example : Rounding id := ⟨fun _ _ h => h, fun _ => rfl, rfl⟩

/-- **C94** for Python's `float`: with non-negative values `shortest_path(start, end, avoids)` always returns, and a distance `d` it returns is
the computed length of the returned simple walk `p`, not larger than the computed length of any other walk; the true length of `p` exceeds
that of any other walk `q` at most by the factor `(1 + 2^-53)^(edges of q) / (1 - 2^-53)^(edges of p)`. -/
theorem C94_double {g : Graph α Rat O} (hg : g.Built) (hw : NonNeg g.edge)
    {start fin : α} (hs : g.has start = true) (hf : g.has fin = true) (avoids : List α) :
    ∃ d p, g.shortestPathFl double start fin avoids = some (.ok (d, p)) ∧ p.Nodup ∧
      ((∃ q c, AvoidWalk g.edge avoids start fin q c) →
        ∃ c, d = .fin c ∧ FlWalk double g.edge avoids start fin p c ∧
          (∀ q c', FlWalk double g.edge avoids start fin q c' → c ≤ c') ∧
          ∃ e, AvoidWalk g.edge avoids start fin p e ∧ ∀ q e', AvoidWalk g.edge avoids start fin q e' →
            (1 - pow2 (-53)) ^ (p.length - 1) * e ≤ (1 + pow2 (-53)) ^ (q.length - 1) * e') ∧
      ((¬ ∃ q c, AvoidWalk g.edge avoids start fin q c) → d = .inf ∧ p = []) := by
  obtain ⟨d, p, h1, h2, h3, h4⟩ := C94_shortest_path_rounded double_rounding hg hw hs hf avoids
  refine ⟨d, p, h1, h2, fun h => ?_, h4⟩
  obtain ⟨c, rfl, h5, h6⟩ := h3 h
  obtain ⟨e, h7, _, _, h8⟩ := C94_accuracy double_rounding (by decide +kernel) (by decide +kernel) double_relErr hg hw h1
  exact ⟨c, rfl, h5, h6, e, h7, h8⟩

/-- **C94**, integers: if all values are integers between 0 and `M`, and `M` times the number of nodes is at most `2^53`, the answer of
`shortest_path` with `float`s is the exact one. -/
theorem C94_integers {g : Graph α Rat O} (hg : g.Built) {M : Nat} (hw : ∀ a b v, g.edge a b = some v → ∃ z : Nat, v = (z : Rat) ∧ z ≤ M)
    (hM : g.nodeList.length * M ≤ 2 ^ 53) (start fin : α) (avoids : List α) :
    g.shortestPathFl double start fin avoids = g.shortestPath start fin avoids :=
  shortestPathFl_int hg.inv double_exactUpTo hw hM start fin avoids

/-- `0.1 + 0.2` against `0.3`: in floats the direct way is shorter -/
def tenthsG : Graph Nat Rat Nat := run [W 1 3 (double (3/10)), W 1 2 (double (1/10)), W 2 3 (double (2/10))]

example : tenthsG.Built ∧ NonNeg tenthsG.edge ∧ tenthsG.has 1 = true ∧ tenthsG.has 3 = true ∧
    tenthsG.shortestPathFl double 1 3 = some (.ok (.fin (double (3/10)), [1, 3])) ∧
    FlWalk double tenthsG.edge [] 1 3 [1, 2, 3] (double (30000000000000004 / 100000000000000000)) :=
  ⟨⟨_, rfl⟩, nonneg_of_edgeList ⟨_, rfl⟩ (by decide +kernel), by decide +kernel, by decide +kernel,
    spFl_eval 20 (by decide +kernel) (by decide +kernel) (by decide +kernel), rfl, rfl, by decide +kernel, by simp⟩

example : ∃ g : Graph Nat Rat Nat, g.Built ∧ (∀ a b v, g.edge a b = some v → ∃ z : Nat, v = (z : Rat) ∧ z ≤ 4) ∧ g.nodeList.length * 4 ≤ 2 ^ 53 ∧
    g.shortestPathFl double 1 3 = some (.ok (.fin 3, [1, 2, 3])) := by
  refine ⟨run [W 1 3 4, W 1 2 1, W 2 3 2], ⟨_, rfl⟩, fun a b v h => ?_, by decide +kernel, ?_⟩
  · have hb : (run [W 1 3 4, W 1 2 1, W 2 3 2]).Built := ⟨_, rfl⟩
    have h1 : ∀ e ∈ (run [W 1 3 4, W 1 2 1, W 2 3 2]).edgeList, e.2.2 = 4 ∨ e.2.2 = 1 ∨ e.2.2 = 2 := by decide +kernel
    have h2 := h1 (a, b, v) (hb.inv.mem_edgeList.2 h)
    rcases h2 with h2 | h2 | h2
    · exact ⟨4, h2, by decide⟩
    · exact ⟨1, h2, by decide⟩
    · exact ⟨2, h2, by decide⟩
  · exact spFl_eval 20 (by decide +kernel) (by decide +kernel) (by decide +kernel)

end GT

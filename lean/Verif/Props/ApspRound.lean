import Verif.Sp.ApspFl
import Verif.Sp.ApspInt
import Verif.Props.Round
/-
Property theorems C115: `all_pairs_shortest_paths`, `minmax`, `minsum` and `shortest_tree_all_pairs` in rounded (floating point) arithmetic.

`RelErr fl ε`: the relative error of one rounding is at most `ε` (Spec/Round; `ε = 2^-53` for `double`).
`WithinErr ε n d x`: `x` is `d` up to `n` relative errors; `inf` is reported exactly for `inf`.
-/
namespace GT
open Graph
variable {α O : Type} [DecidableEq α]

theorem NearlyLe.of {ε : Rat} {n : Nat} {d e x y : Ext} (h : WithinErr ε n d x) (h' : WithinErr ε n e y) (hle : x.le y) : NearlyLe ε n d e := by
  cases d <;> cases x <;> cases e <;> cases y <;> simp only [WithinErr, Ext.le, NearlyLe] at *
  grind

theorem ClearlyLe.le {ε : Rat} {n : Nat} {d e x y : Ext} (h : WithinErr ε n d x) (h' : WithinErr ε n e y) (hle : ClearlyLe ε n d e) : x.le y := by
  cases d <;> cases x <;> cases e <;> cases y <;> simp only [WithinErr, Ext.le, ClearlyLe] at *
  grind

/-- **C115**. With non-negative values, `all_pairs_shortest_paths()` has exactly the nodes as row and column keys, and the entry of `(a, b)` is the
distance from `a` to `b` up to as many relative errors as the graph has nodes; it is `inf` exactly if there is no walk. -/
theorem C115_accuracy {fl : Rat → Rat} {ε : Rat} (h0 : 0 ≤ ε) (h1 : ε ≤ 1) (hε : RelErr fl ε) {g : Graph α Rat O} (hg : g.Built) (hw : NonNeg g.edge) :
    (g.allPairsFl fl).keys = g.nodeList ∧
    ∀ a ∈ g.nodeList, ∃ row, (g.allPairsFl fl).get? a = some row ∧ row.keys = g.nodeList ∧
      ∀ b ∈ g.nodeList, ∃ x d, row.get? b = some x ∧ IsDist g.edge a b d ∧ WithinErr ε g.nodeList.length d x := by
  obtain ⟨hm, h2⟩ := allPairsFl_within h0 h1 hε hg.inv hw
  have hV : g.nodeList.Nodup := hg.inv.nodesWF
  obtain ⟨_, i2, i3⟩ := hm.items hV
  refine ⟨i2, fun a ha => ⟨_, i3 a ha, Dict.comp_keys hV _, fun b hb => ⟨_, _, ?_, (allPairs_spec hg.inv (noNegCycle_of_nonneg hw)).2 a b ha hb, h2 a b ha hb⟩⟩⟩
  rw [Dict.comp_get?, if_pos hb]

/-- **C115**, whatever the values and the rounding: a finite entry is the value of a walk, added up in some order of brackets. -/
theorem C115_bracket (fl : Rat → Rat) {g : Graph α Rat O} (hg : g.Built) :
    (g.allPairsFl fl).keys = g.nodeList ∧
    ∀ a ∈ g.nodeList, ∃ row, (g.allPairsFl fl).get? a = some row ∧ row.keys = g.nodeList ∧
      ∀ b ∈ g.nodeList, ∃ x, row.get? b = some x ∧ ∀ c, x = .fin c → BracketSum fl g.edge a b c := by
  obtain ⟨hm, h2⟩ := allPairsFl_sound fl hg.inv
  have hV : g.nodeList.Nodup := hg.inv.nodesWF
  obtain ⟨_, i2, i3⟩ := hm.items hV
  refine ⟨i2, fun a ha => ⟨_, i3 a ha, Dict.comp_keys hV _, fun b hb => ⟨at2 (g.allPairsFl fl) a b, ?_, fun c hc => h2 a b c ha hb hc⟩⟩⟩
  rw [Dict.comp_get?, if_pos hb]

theorem apFl_within {fl : Rat → Rat} {ε : Rat} (h0 : 0 ≤ ε) (h1 : ε ≤ 1) (hε : RelErr fl ε) {g : Graph α Rat O} (hg : g.Built) (hw : NonNeg g.edge)
    {D : α → α → Ext} (hD : ∀ a b, a ∈ g.nodeList → b ∈ g.nodeList → IsDist g.edge a b (D a b)) {a b : α} (ha : a ∈ g.nodeList) (hb : b ∈ g.nodeList) :
    WithinErr ε g.nodeList.length (D a b) (at2 (g.allPairsFl fl) a b) := by
  have := (allPairsFl_within h0 h1 hε hg.inv hw).2 a b ha hb
  rw [at2_eq_dist hg (noNegCycle_of_nonneg hw) hD ha hb] at this
  exact this

theorem dist_nonneg {w : α → α → Option Rat} (hw : NonNeg w) {a b : α} {d : Ext} (h : IsDist w a b d) : (Ext.fin 0).le d := by
  cases d with
  | inf => trivial
  | fin d =>
    obtain ⟨p, hp⟩ := h.1
    exact walkCost_nonneg hw hp.2.2

/-- **C115**, `minmax`: with non-negative values it returns some node; the largest distance from a returned node is not larger than that from any
other node, up to the rounding errors; and a node that is clearly the best one is returned. -/
theorem C115_minmax {fl : Rat → Rat} {ε : Rat} (h0 : 0 ≤ ε) (h1 : ε ≤ 1) (hε : RelErr fl ε) {g : Graph α Rat O} (hg : g.Built) (hw : NonNeg g.edge)
    (hne : g.nodeList ≠ []) (D : α → α → Ext) (hD : ∀ a b, a ∈ g.nodeList → b ∈ g.nodeList → IsDist g.edge a b (D a b)) :
    ∃ r, g.minmaxFl fl = .ok r ∧ r ≠ [] ∧ r.Nodup ∧
      (∀ n ∈ r, n ∈ g.nodeList ∧ ∀ m ∈ g.nodeList, ∀ e e', IsMaxOf (g.nodeList.map (D n)) e → IsMaxOf (g.nodeList.map (D m)) e' →
        NearlyLe ε g.nodeList.length e e') ∧
      (∀ n ∈ g.nodeList, (∀ m ∈ g.nodeList, m ≠ n → ∀ e e', IsMaxOf (g.nodeList.map (D n)) e → IsMaxOf (g.nodeList.map (D m)) e' →
        ClearlyLe ε g.nodeList.length e e') → n ∈ r) := by
  obtain ⟨r, hr, hnd, hmem⟩ := minmaxFl_spec (fl := fl) hg.inv hne
  have hwi : ∀ n ∈ g.nodeList, ∀ e x, IsMaxOf (g.nodeList.map (D n)) e → IsMaxOf (g.nodeList.map (at2 (g.allPairsFl fl) n)) x →
      WithinErr ε g.nodeList.length e x := fun n hn e x he hx => WithinErr.max h0 (fun k hk => apFl_within h0 h1 hε hg hw hD hn hk) he hx
  have hmx : ∀ (f : α → Ext), ∃ e, IsMaxOf (g.nodeList.map f) e := fun f => by
    obtain ⟨e, _, he⟩ := extMax_spec (l := g.nodeList.map f) (by simpa using hne); exact ⟨e, he⟩
  refine ⟨r, hr, ?_, hnd, fun n hn => ?_, fun n hn hcl => ?_⟩
  · -- some node has the smallest computed eccentricity
    obtain ⟨x, hx1, hx2⟩ : ∃ n ∈ g.nodeList, ∀ m ∈ g.nodeList,
        (Classical.choose (hmx (at2 (g.allPairsFl fl) n))).le (Classical.choose (hmx (at2 (g.allPairsFl fl) m))) := by
      obtain ⟨e, _, he1, he2⟩ := extMin_spec (l := g.nodeList.map (fun n => Classical.choose (hmx (at2 (g.allPairsFl fl) n)))) (by simpa using hne)
      obtain ⟨n, hn, rfl⟩ := List.mem_map.1 he1
      exact ⟨n, hn, fun m hm => he2 _ (List.mem_map.2 ⟨m, hm, rfl⟩)⟩
    have : x ∈ r := (hmem x).2 ⟨hx1, _, Classical.choose_spec (hmx (at2 (g.allPairsFl fl) x)), fun m hm e' he' => by
      rw [he'.unique (Classical.choose_spec (hmx (at2 (g.allPairsFl fl) m)))]; exact hx2 m hm⟩
    intro hnil; rw [hnil] at this; cases this
  · obtain ⟨hn1, x, hx, hx2⟩ := (hmem n).1 hn
    refine ⟨hn1, fun m hm e e' he he' => ?_⟩
    obtain ⟨y, hy⟩ := hmx (at2 (g.allPairsFl fl) m)
    exact NearlyLe.of (hwi n hn1 e x he hx) (hwi m hm e' y he' hy) (hx2 m hm y hy)
  · obtain ⟨x, hx⟩ := hmx (at2 (g.allPairsFl fl) n)
    refine (hmem n).2 ⟨hn, x, hx, fun m hm y hy => ?_⟩
    by_cases hmn : m = n
    · subst hmn; rw [hx.unique hy]; exact Ext.le_refl _
    · obtain ⟨e, he⟩ := hmx (D n)
      obtain ⟨e', he'⟩ := hmx (D m)
      exact ClearlyLe.le (hwi n hn e x he hx) (hwi m hm e' y he' hy) (hcl m hm hmn e e' he he')

/-- **C115**, `minsum`: the same for the sums of the distances, whatever way of summation is used as long as its error is at most one relative error
for each of the summands. -/
theorem C115_minsum {fl : Rat → Rat} {ε : Rat} (h0 : 0 ≤ ε) (h1 : ε ≤ 1) (hε : RelErr fl ε) {sm : List Ext → Ext}
    (hsm : ∀ l, (∀ x ∈ l, (Ext.fin 0).le x) → WithinErr ε l.length (Ext.sum l) (sm l))
    {g : Graph α Rat O} (hg : g.Built) (hw : NonNeg g.edge)
    (hne : g.nodeList ≠ []) (D : α → α → Ext) (hD : ∀ a b, a ∈ g.nodeList → b ∈ g.nodeList → IsDist g.edge a b (D a b)) :
    ∃ r, g.minsumFl fl sm = .ok r ∧ r ≠ [] ∧ r.Nodup ∧
      (∀ n ∈ r, n ∈ g.nodeList ∧ ∀ m ∈ g.nodeList,
        NearlyLe ε (g.nodeList.length + g.nodeList.length) (Ext.sum (g.nodeList.map (D n))) (Ext.sum (g.nodeList.map (D m)))) ∧
      (∀ n ∈ g.nodeList, (∀ m ∈ g.nodeList, m ≠ n →
        ClearlyLe ε (g.nodeList.length + g.nodeList.length) (Ext.sum (g.nodeList.map (D n))) (Ext.sum (g.nodeList.map (D m)))) → n ∈ r) := by
  obtain ⟨r, hr, hnd, hmem⟩ := minsumFl_spec (fl := fl) sm hg.inv hne
  have hwi : ∀ n ∈ g.nodeList, WithinErr ε (g.nodeList.length + g.nodeList.length) (Ext.sum (g.nodeList.map (D n)))
      (sm (g.nodeList.map (at2 (g.allPairsFl fl) n))) := fun n hn => by
    have a := WithinErr.sum (ε := ε) (D n) (at2 (g.allPairsFl fl) n) g.nodeList (fun k hk => apFl_within h0 h1 hε hg hw hD hn hk)
    have b := hsm (g.nodeList.map (at2 (g.allPairsFl fl) n)) (fun x hx => by
      obtain ⟨k, hk, rfl⟩ := List.mem_map.1 hx
      exact (apFl_within h0 h1 hε hg hw hD hn hk).nonneg h1 (dist_nonneg hw (hD n k hn hk)))
    rw [List.length_map] at b
    exact a.trans h0 h1 b
  refine ⟨r, hr, ?_, hnd, fun n hn => ?_, fun n hn hcl => ?_⟩
  · obtain ⟨e, _, he1, he2⟩ := extMin_spec (l := g.nodeList.map (fun n => sm (g.nodeList.map (at2 (g.allPairsFl fl) n)))) (by simpa using hne)
    obtain ⟨n, hn, rfl⟩ := List.mem_map.1 he1
    have : n ∈ r := (hmem n).2 ⟨hn, fun m hm => he2 _ (List.mem_map.2 ⟨m, hm, rfl⟩)⟩
    intro hnil; rw [hnil] at this; cases this
  · obtain ⟨hn1, hx2⟩ := (hmem n).1 hn
    exact ⟨hn1, fun m hm => NearlyLe.of (hwi n hn1) (hwi m hm) (hx2 m hm)⟩
  · refine (hmem n).2 ⟨hn, fun m hm => ?_⟩
    by_cases hmn : m = n
    · subst hmn; exact Ext.le_refl _
    · exact ClearlyLe.le (hwi n hn) (hwi m hm) (hcl m hm hmn)

/-- `sum` from left to right is such a summation -/
theorem C115_left_to_right {fl : Rat → Rat} {ε : Rat} (h0 : 0 ≤ ε) (h1 : ε ≤ 1) (hε : RelErr fl ε) (l : List Ext) (hl : ∀ x ∈ l, (Ext.fin 0).le x) :
    WithinErr ε l.length (Ext.sum l) (extSumFl fl l) := extSumFl_within h0 h1 hε l hl

/-- **C115**, `shortest_tree_all_pairs`: with non-negative values it raises `KeyError` exactly if no node reaches all nodes; otherwise it returns all
nodes, sorted by their distance from the last node that reaches all, up to rounding errors. -/
theorem C115_tree {fl : Rat → Rat} {ε : Rat} (h0 : 0 ≤ ε) (h1 : ε ≤ 1) (hε : RelErr fl ε) {g : Graph α Rat O} (hg : g.Built) (hw : NonNeg g.edge)
    {ord : List α → List α} (hord : ∀ l, (ord l).Perm l) (m1 : α) (hm1 : g.has m1 = false)
    (D : α → α → Ext) (hD : ∀ a b, a ∈ g.nodeList → b ∈ g.nodeList → IsDist g.edge a b (D a b)) :
    ((∀ n ∈ g.nodeList, ∃ k ∈ g.nodeList, D n k = .inf) ∧ g.shortestTreeFl fl m1 ord = some (.error .keyError)) ∨
    (∃ s b t p, g.nodeList = s ++ b :: t ∧ (∀ k ∈ g.nodeList, D b k ≠ .inf) ∧
      (∀ n ∈ t, ∃ k ∈ g.nodeList, D n k = .inf) ∧
      g.shortestTreeFl fl m1 ord = some (.ok p) ∧ p.Perm g.nodeList ∧
      p.Pairwise (fun x y => NearlyLe ε g.nodeList.length (D b x) (D b y))) := by
  have hwi : ∀ {a b}, a ∈ g.nodeList → b ∈ g.nodeList → WithinErr ε g.nodeList.length (D a b) (at2 (g.allPairsFl fl) a b) :=
    fun ha hb => apFl_within h0 h1 hε hg hw hD ha hb
  rcases shortestTreeFl_spec (fl := fl) hg.inv hord m1 hm1 with ⟨a1, a2⟩ | ⟨s, b, t, p, a1, a2, a3, a4, a5, a6⟩
  · refine .inl ⟨fun n hn => ?_, a1⟩
    obtain ⟨k, hk, hi⟩ := a2 n hn
    exact ⟨k, hk, (hwi hn hk).inf_iff.1 hi⟩
  · have hb : b ∈ g.nodeList := by rw [a1]; simp
    refine .inr ⟨s, b, t, p, a1, fun k hk hi => a2 k hk ((hwi hb hk).inf_iff.2 hi), fun n hn => ?_, a4, a5, ?_⟩
    · have hn' : n ∈ g.nodeList := by rw [a1]; simp [hn]
      obtain ⟨k, hk, hi⟩ := a3 n hn
      exact ⟨k, hk, (hwi hn' hk).inf_iff.1 hi⟩
    · refine a6.imp_of_mem (fun {x y} hx hy hle => ?_)
      exact NearlyLe.of (hwi hb (a5.mem_iff.1 hx)) (hwi hb (a5.mem_iff.1 hy)) hle

/-- **C115**, sanity: without rounding these are the functions of C33–C35. -/
theorem C115_exact (g : Graph α Rat O) : g.allPairsFl id = g.allPairs ∧ g.minmaxFl id = g.minmax ∧ g.minsumFl id extSum = g.minsum ∧
    (∀ m1 ord, g.shortestTreeFl id m1 ord = g.shortestTree m1 ord) ∧ ∀ l, extSumFl id l = extSum l := by
  refine ⟨allPairsFl_id g, ?_, ?_, fun m1 ord => ?_, extSumFl_id⟩
  · unfold minmaxFl minmax; rw [allPairsFl_id]; rfl
  · unfold minsumFl minsum; rw [allPairsFl_id]; rfl
  · unfold shortestTreeFl shortestTree; rw [allPairsFl_id]; rfl

/-- **C115**, integers: if all values are integers between 0 and `M`, and `2·M` times the number of nodes is at most `2^53`, the table of
`all_pairs_shortest_paths`, and so the answers of `minmax`, `shortest_tree_all_pairs` and of `minsum` (as far as the addition `sm` of a column is
exact), are the exact ones. -/
theorem C115_integers {g : Graph α Rat O} (hg : g.Built) {M : Nat} (hw : ∀ a b v, g.edge a b = some v → ∃ z : Nat, v = (z : Rat) ∧ z ≤ M)
    (hM : 2 * (g.nodeList.length * M) ≤ 2 ^ 53) : g.allPairsFl double = g.allPairs ∧ g.minmaxFl double = g.minmax ∧
      g.minsumFl double extSum = g.minsum ∧ ∀ m1 ord, g.shortestTreeFl double m1 ord = g.shortestTree m1 ord := by
  have h := allPairsFl_int hg.inv double_exactUpTo hw hM
  refine ⟨h, ?_, ?_, fun m1 ord => ?_⟩
  · unfold minmaxFl minmax; rw [h]; rfl
  · unfold minsumFl minsum; rw [h]; rfl
  · unfold shortestTreeFl shortestTree; rw [h]; rfl

example : ∃ g : Graph Nat Rat Nat, g.Built ∧ (∀ a b v, g.edge a b = some v → ∃ z : Nat, v = (z : Rat) ∧ z ≤ 4) ∧
    2 * (g.nodeList.length * 4) ≤ 2 ^ 53 ∧ at2 (g.allPairsFl double) 1 3 = .fin 3 := by
  refine ⟨run [W 1 3 4, W 1 2 1, W 2 3 2], ⟨_, rfl⟩, fun a b v h => ?_, by decide +kernel, by decide +kernel⟩
  have hb : (run [W 1 3 4, W 1 2 1, W 2 3 2]).Built := ⟨_, rfl⟩
  have h1 : ∀ e ∈ (run [W 1 3 4, W 1 2 1, W 2 3 2]).edgeList, e.2.2 = 4 ∨ e.2.2 = 1 ∨ e.2.2 = 2 := by decide +kernel
  have h2 := h1 (a, b, v) (hb.inv.mem_edgeList.2 h)
  rcases h2 with h2 | h2 | h2
  · exact ⟨4, h2, by decide⟩
  · exact ⟨1, h2, by decide⟩
  · exact ⟨2, h2, by decide⟩

/-- `1 → 2 → 3 → 4` with 0.1, 0.2, 0.3, the node 3 before the node 2 -/
def chainFl : Graph Nat Rat Nat := run [W 3 4 (double (3/10)), W 2 3 (double (1/5)), W 1 2 (double (1/10))]

/-- **C115**, the distance functions disagree: `shortest_path` computes `(0.1 + 0.2) + 0.3 = 0.6000000000000001`, `all_pairs_shortest_paths`
`0.1 + (0.2 + 0.3) = 0.6`. -/
theorem C115_disagree_counterexample : chainFl.Built ∧ NonNeg chainFl.edge ∧
    ∃ x y, at2 (chainFl.allPairsFl double) 1 4 = .fin x ∧ chainFl.shortestPathFl double 1 4 = some (.ok (.fin y, [1, 2, 3, 4])) ∧ x < y :=
  ⟨⟨_, rfl⟩, nonneg_of_edgeList ⟨_, rfl⟩ (by decide +kernel), double (6/10), double (6/10) + pow2 (-53), by decide +kernel,
    spFl_eval 20 (by decide +kernel) (by decide +kernel) (by decide +kernel), by decide +kernel⟩

/-- a directed cycle with the values 0.3, 0.1, 0.2, 0.3 -/
def cycFl : Graph Nat Rat Nat := run [W 1 2 (double (3/10)), W 4 1 (double (3/10)), W 2 3 (double (1/10)), W 3 4 (double (1/5))]

/-- **C115**, ties are lost: the nodes 1 and 2 have the same largest distance `0.1 + 0.2 + 0.3`; in exact arithmetic `minmax` returns both, with
`float`s only one. -/
theorem C115_tie_counterexample : cycFl.Built ∧ NonNeg cycFl.edge ∧ cycFl.minmax = .ok [1, 2] ∧ cycFl.minmaxFl double = .ok [2] :=
  ⟨⟨_, rfl⟩, nonneg_of_edgeList ⟨_, rfl⟩ (by decide +kernel), by decide +kernel, by decide +kernel⟩

/-- the hypotheses are met by Python's `float` and the cycle -/
example : RelErr double (pow2 (-53)) ∧ (0 : Rat) ≤ pow2 (-53) ∧ pow2 (-53) ≤ 1 ∧ cycFl.Built ∧ NonNeg cycFl.edge ∧ cycFl.nodeList ≠ [] ∧
    cycFl.has 99 = false ∧ ∃ D : Nat → Nat → Ext, ∀ a b, a ∈ cycFl.nodeList → b ∈ cycFl.nodeList → IsDist cycFl.edge a b (D a b) :=
  have hb : cycFl.Built := ⟨_, rfl⟩
  have hn : NonNeg cycFl.edge := nonneg_of_edgeList ⟨_, rfl⟩ (by decide +kernel)
  ⟨double_relErr, by decide +kernel, by decide +kernel, hb, hn, by decide +kernel, by decide +kernel,
    at2 cycFl.allPairs, (allPairs_spec hb.inv (noNegCycle_of_nonneg hn)).2⟩

/-- the computed distance from 1 to 4 in the chain is within `(1 ± 2^-53)^4` of the exact sum -/
example : at2 (chainFl.allPairsFl double) 1 4 = .fin (double (6/10)) ∧ chainFl.nodeList.length = 4 := by decide +kernel

end GT

import Verif.Flow.MaxFlow
import Verif.Flow.Cut
import Verif.Props.Flow
/-
Property theorems C129: how far `maximum_flow` can be from the maximum.
-/
namespace GT
open Graph
variable {α V O : Type} [DecidableEq α]

/-- a blocking flow is at most its volume away from the maximum -/
theorem blocking_le_volume {V : List α} (hV : V.Nodup) {cap : α → α → Option Rat} {s t : α} (hs : s ∈ V) {F : α → α → Rat}
    (hF0 : ∀ a b, 0 ≤ F a b) (hb : Blocking cap s t F) {G : α → α → Rat} {v : Rat} (hG : IsFlow V cap s t G v) : v ≤ flowVolume V F := by
  classical
  have h1 := hG.le_cut hV hs (fun x => decide (Reach (fun a b => ∃ d, cap a b = some d ∧ F a b < d) s x)) (decide_eq_true ⟨0, .zero _⟩) (decide_eq_false hb)
  refine Rat.le_trans h1 ?_
  unfold cutCapacity flowVolume
  refine sumL_le (fun x _ => sumL_le (fun y _ => ?_))
  split
  · rename_i h
    simp only [decide_eq_true_eq, decide_eq_false_iff_not] at h
    unfold capOf
    cases hc : cap x y with
    | none => exact hF0 x y
    | some d =>
      show d ≤ F x y
      rw [← Rat.not_lt]
      exact fun hlt => h.2 (h.1.imp' (fun n => n + 1) (fun n hn => .succ hn ⟨d, hc, hlt⟩))
  · exact hF0 x y

/-- **C129**: if no path from start to end has more than `L` edges, the flow that `maximum_flow` returns is at least `1/L` of every feasible flow. -/
theorem C129_short_routes {g : Graph α Rat O} (hg : g.Built) (hc : NonNeg g.edge) {start fin : α} (hne : start ≠ fin)
    (hs : g.has start = true) (hf : g.has fin = true) {L : Nat} (hL : ∀ p, WalkFT g.Adj start fin p → p.Nodup → p.length ≤ L + 1) :
    ∃ total f, g.maximumFlow start fin = some (.ok (total, f)) ∧
      ∀ F v, IsFlow g.nodeList g.edge start fin F v → v ≤ L * total := by
  have hI := hg.inv
  obtain ⟨r, h1, ⟨total, f, rfl, h2, h3, h4, h5, h6, h7, h8⟩, hvol⟩ := maximumFlow_main_vol hI hc hne hs hf
  refine ⟨total, f, h1, fun F v hF => ?_⟩
  rcases h8 with h8 | h8
  · have h9 := MfPost.maximal hI hne hs hf h8 hF
    have h10 : total ≤ flowVolume g.nodeList (flowOf f) := by
      have h11 := h4.value
      have h12 : 0 ≤ sumL g.nodeList (fun y => flowOf f y start) := sumL_nonneg (fun y _ => h4.nonneg y start)
      have h13 : sumL g.nodeList (fun y => flowOf f start y) ≤ flowVolume g.nodeList (flowOf f) :=
        sumL_le_single (f := fun a => sumL g.nodeList (fun b => flowOf f a b)) (fun x _ => sumL_nonneg (fun y _ => h4.nonneg x y)) (has_iff.1 hs)
      grind
    exact Rat.le_trans h9 (Rat.le_trans h10 (hvol total f rfl L hL))
  · exact Rat.le_trans (blocking_le_volume hI.nodesWF (has_iff.1 hs) h4.nonneg h8 hF) (hvol total f rfl L hL)

/-- **C129**: it is at least `1/(n-1)` of every feasible flow, where `n` is the number of nodes. -/
theorem C129_at_least_share {g : Graph α Rat O} (hg : g.Built) (hc : NonNeg g.edge) {start fin : α} (hne : start ≠ fin)
    (hs : g.has start = true) (hf : g.has fin = true) :
    ∃ total f, g.maximumFlow start fin = some (.ok (total, f)) ∧
      ∀ F v, IsFlow g.nodeList g.edge start fin F v → v ≤ ((g.nodeList.length - 1 : Nat) : Rat) * total := by
  have hI := hg.inv
  refine C129_short_routes hg hc hne hs hf (fun p hp hn => ?_)
  have h1 : ∀ x ∈ p, x ∈ g.nodeList := by
    intro x hx
    by_cases hl : 2 ≤ p.length
    · obtain ⟨y, hy | hy⟩ := mem_pairs_of_mem hx hl
      · obtain ⟨v, hv⟩ := Option.isSome_iff_exists.1 (pairs_rel hp.1 hy)
        exact (hI.edge_mem hv).1
      · obtain ⟨v, hv⟩ := Option.isSome_iff_exists.1 (pairs_rel hp.1 hy)
        exact (hI.edge_mem hv).2
    · match p, hl with
      | [], _ => cases hx
      | [z], _ =>
        have := hp.2.1
        simp at this hx
        subst this hx
        exact has_iff.1 hs
      | _ :: _ :: _, hl => simp at hl
  have h2 := nodup_sub_len hn h1
  omega

/-- a road of three narrow bridges `1 → 2`, `3 → 4`, `5 → 6` (capacity 1) with wide pieces between them, and side roads around all other bridges for each bridge -/
def bridgeG : Graph Nat Rat Nat := run [W 0 1 100, W 1 2 1, W 2 3 100, W 3 4 1, W 4 5 100, W 5 6 1, W 6 9 100, W 2 11 1, W 11 12 1, W 12 9 1, W 4 13 1, W 13 9 1, W 0 14 1, W 14 3 1, W 0 15 1, W 15 16 1, W 16 5 1]

/-- the edges of three routes over one bridge each -/
def bridgeRoutes : List (Nat × Nat) := [(0, 1), (0, 14), (0, 15), (1, 2), (2, 11), (3, 4), (4, 13), (5, 6), (6, 9), (11, 12), (12, 9), (13, 9), (14, 3), (15, 16), (16, 5)]

/-- one unit along each of the three routes -/
def bridgeFlow (a b : Nat) : Rat := if (a, b) ∈ bridgeRoutes then 1 else 0

theorem bridgeG_nonneg : NonNeg bridgeG.edge := nonneg_of_edgeList ⟨_, rfl⟩ (by decide +kernel)

set_option maxRecDepth 2000 in
theorem bridgeFlow_isFlow : IsFlow bridgeG.nodeList bridgeG.edge 0 9 bridgeFlow 3 := by
  have key : ∀ p ∈ bridgeRoutes, bridgeFlow p.1 p.2 ≤ capOf bridgeG.edge p.1 p.2 := by decide +kernel
  refine ⟨fun a b => ?_, fun a b => ?_, by decide +kernel, by decide +kernel⟩
  · unfold bridgeFlow; split
    · decide
    · exact Rat.le_refl
  · by_cases h : (a, b) ∈ bridgeRoutes
    · exact key (a, b) h
    · unfold bridgeFlow; rw [if_neg h]; exact capOf_nonneg bridgeG_nonneg a b

/-- **C129**: the share can be small: here the road over all three bridges is taken first, and blocks everything else: 1 is returned where 3 is possible. -/
theorem C129_a_third : bridgeG.Built ∧ NonNeg bridgeG.edge ∧ (∃ f, bridgeG.maximumFlow 0 9 = some (.ok (1, f))) ∧
    IsFlow bridgeG.nodeList bridgeG.edge 0 9 bridgeFlow 3 := by
  refine ⟨⟨_, rfl⟩, bridgeG_nonneg, ?_, bridgeFlow_isFlow⟩
  have : ((mfF 60 bridgeG 0 9).map (fun r => match r with | .ok (t, _) => decide (t = 1) | .error _ => false)) = some true := by decide +kernel
  cases h : mfF 60 bridgeG 0 9 with
  | none => rw [h] at this; cases this
  | some r =>
    rw [h] at this
    cases r with
    | error e => cases this
    | ok x =>
      obtain ⟨t, f⟩ := x
      simp at this
      subst this
      exact ⟨f, mfF_ok h⟩

/-- the hypotheses are met by `bridgeG` (for `C129_at_least_share`) and, with `L = 2`, by a network of two routes of two edges -/
example : bridgeG.Built ∧ NonNeg bridgeG.edge ∧ (0 : Nat) ≠ 9 ∧ bridgeG.has 0 = true ∧ bridgeG.has 9 = true ∧ bridgeG.nodeList.length = 14 :=
  ⟨⟨_, rfl⟩, bridgeG_nonneg, by decide, by decide +kernel, by decide +kernel, by decide +kernel⟩

end GT

import Verif.Flow.MaxFlowFp
import Verif.Flow.MinCostFl
import Verif.Flow.OneDemand
import Verif.Flow.Cut
import Verif.Flow.Integral
import Verif.Sp.FlInt
import Verif.Other.BnbBis
/-
How far the flow that is recorded in floats is from an exact flow, and: on integers nothing is rounded.
-/
namespace GT
variable {α V O : Type} [DecidableEq α]
open Graph

theorem sentFl_near {fl : Rat → Rat} {ε : Rat} (he : RelErr fl ε) (h0 : 0 ≤ ε) (h1 : ε ≤ 1) (L : List (List α × Rat)) (hL : ∀ pq ∈ L, 0 < pq.2) (a b : α) :
    0 ≤ sentOf L a b ∧ NearTo ε L.length (sentOf L a b) ((sentFl fl L a b).getD 0) := by
  have key : ∀ (L : List (List α × Rat)), (∀ pq ∈ L, 0 < pq.2) → ∀ (o : Option Rat) (x : Rat) (k : Nat), (o = none → x = 0) → 0 ≤ x → NearTo ε k x (o.getD 0) →
      0 ≤ sentOf L a b ∧ NearTo ε (k + L.length) (x + sentOf L a b) ((L.foldl (fun o pq => if (a, b) ∈ pq.1.zip pq.1.tail then some (match o with
        | none => pq.2
        | some v => fl (v + pq.2)) else o) o).getD 0) := by
    intro L
    induction L with
    | nil =>
      intro _ o x k _ _ h3
      refine ⟨Rat.le_refl, ?_⟩
      show NearTo ε k (x + 0) (o.getD 0)
      rw [show x + 0 = x by grind]; exact h3
    | cons pq L ih =>
      intro hL o x k hn hx h3
      have hq := hL pq List.mem_cons_self
      have hs : sentOf (pq :: L) a b = (if (a, b) ∈ pq.1.zip pq.1.tail then pq.2 else 0) + sentOf L a b := by
        unfold sentOf; rw [sumL_cons]
      rw [hs]
      rw [List.foldl_cons, List.length_cons, show k + (L.length + 1) = (k + 1) + L.length by omega]
      by_cases hm : (a, b) ∈ pq.1.zip pq.1.tail
      · rw [if_pos hm, if_pos hm]
        have hstep : NearTo ε (k + 1) (x + pq.2) (addFl fl o pq.2) := by
          unfold addFl
          cases o with
          | none =>
            dsimp only
            rw [hn rfl, show 0 + pq.2 = pq.2 by grind]
            exact NearTo.refl.mono h0 h1 (by grind) (by omega)
          | some v =>
            dsimp only
            have := NearTo.add h0 h1 he (L := pq.2) hx (by grind) h3
            rw [show pq.2 + (some v).getD 0 = v + pq.2 by show pq.2 + v = _; grind] at this
            exact this
        obtain ⟨h4, h5⟩ := ih (fun pq h => hL pq (List.mem_cons_of_mem _ h)) (some (addFl fl o pq.2)) (x + pq.2) (k + 1) (fun h => nomatch h) (by grind) hstep
        refine ⟨by grind, ?_⟩
        rw [show x + (pq.2 + sentOf L a b) = x + pq.2 + sentOf L a b by grind]
        exact h5
      · rw [if_neg hm, if_neg hm]
        obtain ⟨h4, h5⟩ := ih (fun pq h => hL pq (List.mem_cons_of_mem _ h)) o x (k + 1) hn hx (h3.succ h0 h1 hx)
        refine ⟨by grind, ?_⟩
        rw [show x + (0 + sentOf L a b) = x + sentOf L a b by grind]
        exact h5
  obtain ⟨h2, h3⟩ := key L hL none 0 0 (fun _ => rfl) Rat.le_refl (by
    unfold NearTo; exact ⟨by show _ * 0 ≤ (0 : Rat); grind, by show (0 : Rat) ≤ _ * 0; grind⟩)
  refine ⟨h2, ?_⟩
  rw [show (0 : Rat) + sentOf L a b = sentOf L a b by grind, Nat.zero_add] at h3
  exact h3

theorem flTotal_near {fl : Rat → Rat} {ε : Rat} (he : RelErr fl ε) (h0 : 0 ≤ ε) (h1 : ε ≤ 1) (L : List (List α × Rat)) (hL : ∀ pq ∈ L, 0 < pq.2) :
    0 ≤ sumL L (·.2) ∧ NearTo ε L.length (sumL L (·.2)) (flTotal fl (L.map (·.2))) := by
  have key : ∀ (L : List (List α × Rat)), (∀ pq ∈ L, 0 < pq.2) → ∀ (t x : Rat) (k : Nat), 0 ≤ x → NearTo ε k x t →
      0 ≤ sumL L (·.2) ∧ NearTo ε (k + L.length) (x + sumL L (·.2)) ((L.map (·.2)).foldl (fun t x => fl (t + x)) t) := by
    intro L
    induction L with
    | nil =>
      intro _ t x k _ h3
      refine ⟨Rat.le_refl, ?_⟩
      show NearTo ε k (x + 0) t
      rw [show x + 0 = x by grind]; exact h3
    | cons pq L ih =>
      intro hL t x k hx h3
      have hq := hL pq List.mem_cons_self
      rw [sumL_cons, List.map_cons, List.foldl_cons, List.length_cons, show k + (L.length + 1) = (k + 1) + L.length by omega]
      have := NearTo.add h0 h1 he (L := pq.2) hx (by grind) h3
      rw [show pq.2 + t = t + pq.2 by grind] at this
      obtain ⟨h4, h5⟩ := ih (fun pq h => hL pq (List.mem_cons_of_mem _ h)) _ (x + pq.2) (k + 1) (by grind) this
      refine ⟨by grind, ?_⟩
      rw [show x + (pq.2 + sumL L (·.2)) = x + pq.2 + sumL L (·.2) by grind]
      exact h5
  obtain ⟨h2, h3⟩ := key L hL 0 0 0 Rat.le_refl (by unfold NearTo; exact ⟨by grind, by grind⟩)
  refine ⟨h2, ?_⟩
  rw [show (0 : Rat) + sumL L (·.2) = sumL L (·.2) by grind, Nat.zero_add] at h3
  exact h3

/-- the exact flow along the paths is conserved -/
theorem sentOf_flow {U : List α} (hU : U.Nodup) {s t : α} (hne : s ≠ t) (L : List (List α × Rat))
    (hL : ∀ pq ∈ L, pq.1.head? = some s ∧ pq.1.getLast? = some t ∧ pq.1.Nodup ∧ ∀ x ∈ pq.1, x ∈ U) :
    (∀ x, x ≠ s → x ≠ t → sumL U (fun y => sentOf L x y) = sumL U (fun y => sentOf L y x)) ∧
    sumL U (fun y => sentOf L s y) - sumL U (fun y => sentOf L y s) = sumL L (·.2) := by
  induction L with
  | nil =>
    refine ⟨fun x _ _ => rfl, ?_⟩
    show sumL U (fun _ => (0 : Rat)) - sumL U (fun _ => (0 : Rat)) = 0
    grind
  | cons pq L ih =>
    obtain ⟨h1, h2⟩ := ih (fun pq h => hL pq (List.mem_cons_of_mem _ h))
    obtain ⟨p1, p2, p3, p4⟩ := hL pq List.mem_cons_self
    have hs : ∀ a b, sentOf (pq :: L) a b = if (a, b) ∈ pairs pq.1 then sentOf L a b + pq.2 else sentOf L a b := by
      intro a b
      unfold sentOf; rw [sumL_cons, pairs_eq_zip]
      split <;> grind
    have hsum := sumL_fun_add (U := U) hs p3 p4 hU
    obtain ⟨ht1, ht2, ht3, ht4⟩ := walk_tail_dropLast p1 p2 p3 hne
    refine ⟨fun x hxs hxt => ?_, ?_⟩
    · rw [(hsum x).1, (hsum x).2, h1 x hxs hxt]
      congr 1
      have := ht4 x hxs hxt
      by_cases h5 : x ∈ pq.1.dropLast
      · rw [if_pos h5, if_pos (this.2 h5)]
      · rw [if_neg h5, if_neg (fun h => h5 (this.1 h))]
    · rw [(hsum s).1, (hsum s).2, if_pos ht2, if_neg ht1, sumL_cons]
      grind

theorem PathsOf.nodes {g : Graph α Rat O} (hg : g.Inv) {start fin : α} (hne : start ≠ fin) {L : List (List α × Rat)} (h : PathsOf g.edge start fin L) :
    ∀ pq ∈ L, pq.1.head? = some start ∧ pq.1.getLast? = some fin ∧ pq.1.Nodup ∧ ∀ x ∈ pq.1, x ∈ g.nodeList := by
  intro pq hpq
  obtain ⟨_, ⟨hc, h1, h2⟩, hnd⟩ := h pq hpq
  refine ⟨h1, h2, hnd, fun x hx => ?_⟩
  have hedge : ∀ a b, 0 < capOf g.edge a b → a ∈ g.nodeList ∧ b ∈ g.nodeList := by
    intro a b hab
    unfold capOf at hab
    cases he : g.edge a b with
    | none => rw [he] at hab; exact absurd hab (by simp)
    | some v => exact hg.edge_mem he
  have hlen : 2 ≤ pq.1.length := by
    match hp : pq.1 with
    | [] => rw [hp] at h1; cases h1
    | [y] => rw [hp] at h1 h2; simp at h1 h2; exact absurd (h1.symm.trans h2) hne
    | _ :: _ :: _ => simp
  obtain ⟨y, hy | hy⟩ := mem_pairs_of_mem hx hlen
  · exact (hedge _ _ (pairs_rel hc hy)).1
  · exact (hedge _ _ (pairs_rel hc hy)).2

/-- an exact flow close to the recorded one -/
theorem MfPostFp.exact {fl : Rat → Rat} {ε : Rat} (he : RelErr fl ε) (h0 : 0 ≤ ε) (h1 : ε ≤ 1) {g : Graph α Rat O} (hg : g.Inv)
    (hc : NonNeg g.edge) {start fin : α} (hne : start ≠ fin) {U0 : Rat} {total : Rat} {f : Graph α Rat O}
    (h : MfPostFp fl ε g start fin U0 (.ok (total, f))) :
    ∃ F val, IsFlow g.nodeList (fun a b => (g.edge a b).map ((1 + ε) ^ 2 * ·)) start fin F val ∧
      (∀ a b, F a b ≤ flowOf f a b ∧ (1 - ε) ^ (2 * g.edgeList.length) * flowOf f a b ≤ (1 + ε) ^ (2 * g.edgeList.length) * F a b) ∧
      val ≤ total ∧ (1 - ε) ^ (2 * g.edgeList.length) * total ≤ (1 + ε) ^ (2 * g.edgeList.length) * val := by
  obtain ⟨t', f', L, hr, hfi, hp, hflow, rfl, hv, hlen, _⟩ := h
  cases hr
  generalize hk : 2 * g.edgeList.length = k at hlen ⊢
  have hpos : ∀ pq ∈ L, 0 < pq.2 := fun pq hpq => (hp pq hpq).1
  obtain ⟨hc1, hc2⟩ := sentOf_flow (U := g.nodeList) hg.nodesWF hne L (hp.nodes hg hne)
  have hP := (pow_le_one' (x := 1 - ε) (by grind) (by grind) k).1
  have hQ := one_le_pow' (x := 1 + ε) (by grind) k
  have hn : ∀ a b, 0 ≤ sentOf L a b ∧ NearTo ε k (sentOf L a b) (flowOf f a b) := by
    intro a b
    obtain ⟨h2, h3⟩ := sentFl_near he h0 h1 L hpos a b
    unfold flowOf; rw [hflow a b]
    exact ⟨h2, h3.mono h0 h1 h2 hlen⟩
  obtain ⟨hs1, hs2⟩ := flTotal_near he h0 h1 L hpos
  have hs3 := hs2.mono h0 h1 hs1 hlen
  have hcap : ∀ a b, capOf (fun a b => (g.edge a b).map ((1 + ε) ^ 2 * ·)) a b = (1 + ε) ^ 2 * capOf g.edge a b := by
    intro a b
    show ((g.edge a b).map _).getD 0 = _ * (g.edge a b).getD 0
    cases g.edge a b with
    | none => show (0 : Rat) = _ * 0; grind
    | some d => rfl
  refine ⟨fun a b => (1 - ε) ^ k * sentOf L a b, (1 - ε) ^ k * sumL L (·.2), ⟨?_, ?_, ?_, ?_⟩, ?_, hs3.1, ?_⟩
  · intro a b; exact Rat.mul_nonneg hP (hn a b).1
  · intro a b
    rw [hcap]
    refine Rat.le_trans (hn a b).2.1 ?_
    have hcp := capOf_nonneg hc a b
    unfold flowOf
    cases hfe : f.edge a b with
    | none =>
      show (0 : Rat) ≤ _
      exact Rat.mul_nonneg (by rw [show (2 : Nat) = 1 + 1 from rfl, Rat.pow_succ, Rat.pow_succ, Rat.pow_zero]; exact Rat.mul_nonneg (by grind) (by grind)) hcp
    | some v =>
      show v ≤ _
      have h5 := (hv a b v hfe).2.2
      have h6 := (he ((1 + ε) * capOf g.edge a b) (Rat.mul_nonneg (by grind) hcp)).2
      rw [show (2 : Nat) = 1 + 1 from rfl, Rat.pow_succ, Rat.pow_succ, Rat.pow_zero]
      grind
  · intro x _ hxs hxt
    show sumL _ (fun y => (1 - ε) ^ k * sentOf L x y) = sumL _ (fun y => (1 - ε) ^ k * sentOf L y x)
    rw [sumL_mul, sumL_mul]
    exact congrArg _ (hc1 x hxs hxt)
  · show sumL _ (fun y => (1 - ε) ^ k * sentOf L start y) - sumL _ (fun y => (1 - ε) ^ k * sentOf L y start) = _
    rw [sumL_mul, sumL_mul, ← hc2]
    show _ * sumL _ (fun y => sentOf L start y) - _ = _
    grind
  · intro a b
    refine ⟨(hn a b).2.1, ?_⟩
    have h5 := Rat.mul_le_mul_of_nonneg_left (hn a b).2.2 hP
    show _ ≤ (1 + ε) ^ k * ((1 - ε) ^ k * sentOf L a b)
    generalize (1 - ε) ^ k = P at *
    generalize (1 + ε) ^ k = Q at *
    grind
  · have h5 := Rat.mul_le_mul_of_nonneg_left hs3.2 hP
    generalize (1 - ε) ^ k = P at *
    generalize (1 + ε) ^ k = Q at *
    grind

theorem cutCapacity_scale {U : List α} {cap : α → α → Option Rat} (c : Rat) (S : α → Bool) :
    cutCapacity U (fun a b => (cap a b).map (c * ·)) S = c * cutCapacity U cap S := by
  have hcap : ∀ a b, capOf (fun a b => (cap a b).map (c * ·)) a b = c * capOf cap a b := by
    intro a b
    show ((cap a b).map _).getD 0 = _ * (cap a b).getD 0
    cases cap a b with
    | none => show (0 : Rat) = _ * 0; grind
    | some d => rfl
  unfold cutCapacity
  rw [← sumL_mul]
  refine sumL_congr (fun x _ => ?_)
  rw [← sumL_mul]
  refine sumL_congr (fun y _ => ?_)
  rw [hcap]
  split <;> grind

end GT

import Verif.Flow.FpBounds
/-
On integers `maximum_flow` rounds nothing but the reciprocals and the lengths of the paths.
-/
namespace GT
variable {α V O : Type} [DecidableEq α]
open Graph

/-- an integer -/
def Whole (x : Rat) : Prop := ∃ z : Int, x = (z : Rat)

theorem Whole.sumClosed : SumClosed Whole :=
  ⟨⟨0, rfl⟩, fun _ _ ⟨a, ha⟩ ⟨b, hb⟩ => ⟨a + b, by rw [ha, hb, Rat.intCast_add]⟩, fun _ _ ⟨a, ha⟩ ⟨b, hb⟩ => ⟨a - b, by rw [ha, hb, Rat.intCast_sub]⟩⟩

theorem Whole.upTo {x : Rat} (h : Whole x) (h0 : 0 ≤ x) {N : Nat} (hN : x ≤ (N : Rat)) : IntUpTo N x := by
  obtain ⟨z, rfl⟩ := h
  have hz : 0 ≤ z := by
    have : ((0 : Int) : Rat) ≤ (z : Rat) := by simpa using h0
    exact Rat.intCast_le_intCast.1 this
  obtain ⟨n, rfl⟩ := Int.eq_ofNat_of_zero_le hz
  refine ⟨n, Rat.intCast_natCast n, ?_⟩
  rw [Rat.intCast_natCast] at hN
  exact Rat.natCast_le_natCast.1 hN

/-- `sum` does not round sums of natural numbers up to `N` -/
def SumExactUpTo (sum : List Rat → Rat) (N : Nat) : Prop := ∀ l, (∀ x ∈ l, ∃ z : Nat, x = (z : Rat)) → l.sum ≤ (N : Rat) → sum l = l.sum

theorem flTotal_exactUpTo {fl : Rat → Rat} {N : Nat} (hfl : ExactUpTo fl N) : SumExactUpTo (flTotal fl) N := by
  have key : ∀ (l : List Rat), (∀ x ∈ l, ∃ z : Nat, x = (z : Rat)) → ∀ t : Nat, (t : Rat) + l.sum ≤ (N : Rat) →
      0 ≤ l.sum ∧ l.foldl (fun t x => fl (t + x)) (t : Rat) = (t : Rat) + l.sum := by
    intro l
    induction l with
    | nil => intro _ t _; exact ⟨Rat.le_refl, by show (t : Rat) = t + 0; grind⟩
    | cons a l ih =>
      intro hl t ht
      obtain ⟨z, rfl⟩ := hl a List.mem_cons_self
      have hz : (0 : Rat) ≤ (z : Rat) := by have : ((0 : Nat) : Rat) ≤ (z : Rat) := Rat.natCast_le_natCast.2 (Nat.zero_le z); simpa using this
      rw [List.sum_cons] at ht ⊢
      have hc : ((t + z : Nat) : Rat) = (t : Rat) + (z : Rat) := Rat.natCast_add t z
      obtain ⟨h1, h2⟩ := ih (fun x hx => hl x (List.mem_cons_of_mem _ hx)) (t + z) (by rw [hc]; grind)
      refine ⟨by grind, ?_⟩
      rw [List.foldl_cons, hfl ((t : Rat) + (z : Rat)) ⟨t + z, hc.symm, ?_⟩, ← hc, h2, hc]
      · grind
      · rw [← Rat.natCast_le_natCast, hc]; grind
  intro l hl hN
  have := (key l hl 0 (by simpa using (show (0 : Rat) + l.sum ≤ N by grind))).2
  unfold flTotal
  rw [show ((0 : Nat) : Rat) = 0 from rfl] at this
  rw [this]; grind

theorem edgesAlong_ok {g : Graph α V O} : ∀ (p : List α) (r : List (α × α × V)), g.edgesAlong p = .ok r →
    r.map (fun e => (e.1, e.2.1)) = pairs p ∧ ∀ e ∈ r, g.edge e.1 e.2.1 = some e.2.2 := by
  intro p
  induction p with
  | nil => intro r hr; simp only [edgesAlong] at hr; cases hr; exact ⟨rfl, by simp⟩
  | cons a l ih =>
    cases l with
    | nil => intro r hr; simp only [edgesAlong] at hr; cases hr; exact ⟨rfl, by simp⟩
    | cons b l =>
      intro r hr
      simp only [edgesAlong] at hr
      split at hr
      · cases hr
      · rename_i d hd
        split at hr
        · cases hr
        · rename_i v hv
          split at hr
          · cases hr
          · rename_i r' hr'
            cases hr
            obtain ⟨h1, h2⟩ := ih _ hr'
            refine ⟨by rw [List.map_cons, h1]; rfl, fun e he => ?_⟩
            rcases List.mem_cons.1 he with rfl | he
            · unfold Graph.edge; rw [hd]; exact hv
            · exact h2 e he

theorem mfRecordFp_int {fl : Rat → Rat} {g : Graph α Rat O} (pf : Rat) (es : List (α × α × Rat)) :
    ∀ (s : Graph α Rat O × Graph α Rat O × Graph α Rat O), (∀ e ∈ es, g.edge e.1 e.2.1 = some e.2.2) →
    (es.map (fun e => (e.1, e.2.1))).Nodup →
    (∀ e ∈ es, fl (flowOf s.1 e.1 e.2.1 + pf) = flowOf s.1 e.1 e.2.1 + pf ∧
      fl (e.2.2 - (flowOf s.1 e.1 e.2.1 + pf)) = e.2.2 - (flowOf s.1 e.1 e.2.1 + pf)) →
    forE es s (mfRecordFp fl g pf) = forE es s (mfRecordFl fl g pf) := by
  induction es with
  | nil => intro s _ _ _; rfl
  | cons e es ih =>
    obtain ⟨x, y, d⟩ := e
    rintro ⟨f, c, i⟩ hv hnd hx
    rw [List.map_cons, List.nodup_cons] at hnd
    have hd : g.edge x y = some d := hv _ List.mem_cons_self
    obtain ⟨h1, h2⟩ := hx _ List.mem_cons_self
    dsimp only at h1 h2
    have hr1 : mfRecordFl fl g pf (f, c, i) (x, y, d) = .ok (f.addEdge x y (flowOf f x y + pf), c.addEdge x y (d - (flowOf f x y + pf)),
        if 0 < d - (flowOf f x y + pf) then i.addEdge x y (fl (1 / (d - (flowOf f x y + pf)))) else i.delEdge x y) := by
      
      unfold mfRecordFl flowOf; dsimp only; rw [hd]
      clear h1 h2 hx
      cases f.edge x y with
      | none => rw [show (none : Option Rat).getD 0 + pf = pf by show (0 : Rat) + pf = pf; grind]
      | some v => rfl
    have hr2 : mfRecordFp fl g pf (f, c, i) (x, y, d) = .ok (f.addEdge x y (flowOf f x y + pf), c.addEdge x y (d - (flowOf f x y + pf)),
        if 0 < d - (flowOf f x y + pf) then i.addEdge x y (fl (1 / (d - (flowOf f x y + pf)))) else i.delEdge x y) := by
      
      unfold flowOf at h1 h2
      unfold mfRecordFp flowOf; dsimp only; rw [hd]
      clear hx
      cases hf : f.edge x y with
      | none =>
        rw [hf] at h1 h2
        rw [show (none : Option Rat).getD 0 + pf = pf by show (0 : Rat) + pf = pf; grind] at h1 h2 ⊢
        simp only [h2]
      | some v =>
        rw [hf] at h1 h2
        dsimp only [Option.getD] at h1 h2 ⊢
        simp only [h1, h2]
    unfold forE
    rw [hr1, hr2]
    dsimp only
    refine ih _ (fun e he => hv e (List.mem_cons_of_mem _ he)) hnd.2 (fun e he => ?_)
    have hsame : flowOf (f.addEdge x y (flowOf f x y + pf)) e.1 e.2.1 = flowOf f e.1 e.2.1 := by
      unfold flowOf
      rw [edge_addEdge, if_neg]
      rintro ⟨h3, h4⟩
      exact hnd.1 (List.mem_map.2 ⟨e, he, by rw [h3, h4]⟩)
    dsimp only
    rw [hsame]
    exact hx e (List.mem_cons_of_mem _ he)

theorem mfStepFl_in {K : Rat → Prop} (hK : SumClosed K) {fl : Rat → Rat} {g : Graph α Rat O} (hg : ValuesIn K g) {start fin : α} {s s' : MfSt α O}
    (h : K s.total ∧ ValuesIn K s.flow ∧ ValuesIn K s.capg) (hst : mfStepFl fl g start fin s = some (.inl s')) :
    K s'.total ∧ ValuesIn K s'.flow ∧ ValuesIn K s'.capg := by
  obtain ⟨h1, h2, h3⟩ := h
  unfold mfStepFl at hst
  split at hst
  · cases hst
  · split at hst
    · cases hst
    · cases hst
    · cases hst
    · split at hst
      · cases hst
      · rename_i es hes
        split at hst
        · cases hst
        · rename_i pf hpf
          split at hst
          · cases hst
          · rename_i flow capg inv hfor
            cases hst
            have hval : ∀ e ∈ es, K e.2.2 := by
              unfold edgesPath at hes
              split at hes
              · cases hes
              · exact edgesAlong_in hg _ _ hes
            have hk : K pf := by
              obtain ⟨e, he, rfl⟩ := List.mem_map.1 (ratMin_mem hpf)
              unfold mfLeft
              split
              · exact hval e he
              · rename_i c hc
                split
                · exact h3 _ _ _ hc
                · exact hval e he
            obtain ⟨h4, h5⟩ := mfRecordFl_in hK hg hk es _ _ _ _ _ _ h2 h3 hfor
            exact ⟨hK.add _ _ h1 hk, h4, h5⟩

theorem mfStepFp_int {fl : Rat → Rat} (hfl : Rounding fl) {N : Nat} (hN : ExactUpTo fl N) {g : Graph α Rat O} (hg : g.Inv)
    (hint : ∀ a b d, g.edge a b = some d → IntUpTo N d) (hc : NonNeg g.edge) (hw : ValuesIn Whole g)
    {start fin : α} (hne : start ≠ fin) (hs : g.has start = true) (hf : g.has fin = true)
    (hb : g.mfBound start fin ≤ (N : Rat)) (hbw : Whole (g.mfBound start fin)) {s : MfSt α O}
    (h : MfInvFl fl g start fin (g.mfBound start fin) s) (hi : Whole s.total ∧ ValuesIn Whole s.flow ∧ ValuesIn Whole s.capg) :
    mfStepFl fl g start fin s = mfStepFp fl g start fin s := by
  have hinv := mfStepFl_inv hfl hg hc hne h
  have hin := fun s' => mfStepFl_in (s' := s') Whole.sumClosed (fl := fl) hw (start := start) (fin := fin) hi
  unfold mfStepFl at hinv hin ⊢
  unfold mfStepFp
  by_cases hu : s.unassigned = 0
  · rw [if_pos hu, if_pos hu]
  rw [if_neg hu] at hinv hin ⊢
  rw [if_neg hu]
  rcases hsp : s.inv.shortestPathFl fl start fin with _ | (e | ⟨_ | d, path⟩)
  · rfl
  · rfl
  all_goals try rfl
  rw [hsp] at hinv hin
  have hnd := shortestPathFl_nodup hsp
  dsimp only at hinv hin hnd ⊢
  rcases hes : g.edgesPath path with e | es
  · rfl
  rw [hes] at hinv hin
  dsimp only at hinv hin ⊢
  rcases hpf : ratMin (es.map (mfLeft s.capg)) with e | pf
  · rfl
  rw [hpf] at hinv hin
  dsimp only at hinv hin ⊢
  obtain ⟨hpairs, hval⟩ := edgesAlong_ok path es (by
    unfold edgesPath at hes
    split at hes
    · cases hes
    · exact hes)
  have hnd2 : (es.map (fun e => (e.1, e.2.1))).Nodup := by rw [hpairs]; exact pairs_nodup hnd
  obtain ⟨f', c', i', hfor, hf1, hi1, _, hih, hfe, hce, hie⟩ := mfRecordFl_fold (fl := fl) (g := g) pf es s.flow s.capg s.inv h.finv h.iinv hval hnd2
  rw [hfor] at hinv hin
  dsimp only at hinv hin
  obtain ⟨hw1, hw2, hw3⟩ := hin _ rfl
  dsimp only at hw1 hw2 hw3
  have hI : MfInvFl fl g start fin (g.mfBound start fin) ⟨i', c', f', s.unassigned - pf, s.total + pf⟩ := by
    rcases hinv with ⟨s', h1, h2, _⟩ | ⟨r, h1, _⟩
    · cases h1; exact h2
    · cases h1
  have hrec : forE es (s.flow, s.capg, s.inv) (mfRecordFp fl g pf) = forE es (s.flow, s.capg, s.inv) (mfRecordFl fl g pf) := by
    refine mfRecordFp_int pf es _ hval hnd2 (fun e he => ?_)
    have hmem : (e.1, e.2.1) ∈ es.map (fun e => (e.1, e.2.1)) := List.mem_map_of_mem he
    have h1 : flowOf f' e.1 e.2.1 = flowOf s.flow e.1 e.2.1 + pf := by
      conv => lhs; unfold flowOf
      rw [hfe, if_pos hmem]; rfl
    have h2 : capOf g.edge e.1 e.2.1 = e.2.2 := by unfold capOf; rw [hval e he]; rfl
    have h3 := hI.nonneg e.1 e.2.1
    have h4 := hI.within e.1 e.2.1
    dsimp only at h3 h4
    obtain ⟨z, hz1, hz2⟩ := hint _ _ _ (hval e he)
    have hz3 : e.2.2 ≤ (N : Rat) := by rw [hz1]; exact Rat.natCast_le_natCast.2 hz2
    have h5 : Whole (flowOf f' e.1 e.2.1) := flowOf_in Whole.sumClosed hw2 _ _
    rw [h1] at h3 h4 h5
    rw [h2] at h4
    dsimp only
    refine ⟨hN _ (h5.upTo h3 (by grind)), hN _ ((Whole.sumClosed.sub _ _ (hw _ _ _ (hval e he)) h5).upTo (by grind) (by grind))⟩
  rw [hrec, hfor]
  dsimp only
  have hflow : IsFlow g.nodeList g.edge start fin (flowOf f') (s.total + pf) := ⟨hI.nonneg, hI.within, hI.cons, hI.value⟩
  have hle := MfPost.maximal hg hne hs hf (total := g.mfBound start fin) rfl hflow
  have h0 : 0 ≤ s.total + pf := by
    rcases hI.zero with h0 | h0
    · exact Rat.le_of_lt h0
    · have := h0.1; dsimp only at this; grind
  have hsum := hI.sum
  dsimp only at hsum
  rw [hN (s.total + pf) (hw1.upTo h0 (by grind)),
    hN (s.unassigned - pf) (by
      rw [show s.unassigned - pf = g.mfBound start fin - (s.total + pf) by grind]
      exact (Whole.sumClosed.sub _ _ hbw hw1).upTo (by grind) (by grind))]

theorem list_nat_sum {l : List Rat} (h : ∀ x ∈ l, ∃ z : Nat, x = (z : Rat)) : ∃ z : Nat, l.sum = (z : Rat) := by
  induction l with
  | nil => exact ⟨0, rfl⟩
  | cons a l ih =>
    obtain ⟨z, hz⟩ := h a List.mem_cons_self
    obtain ⟨w, hw⟩ := ih (fun x hx => h x (List.mem_cons_of_mem _ hx))
    exact ⟨z + w, by rw [List.sum_cons, hz, hw, Rat.natCast_add]⟩

theorem maximumFlowFp_int {fl : Rat → Rat} (hfl : Rounding fl) {N : Nat} (hN : ExactUpTo fl N) {sum : List Rat → Rat} (hsum : SumExactUpTo sum N)
    {g : Graph α Rat O} (hg : g.Inv)
    (hint : ∀ a b d, g.edge a b = some d → IntUpTo N d) {start fin : α} (hne : start ≠ fin)
    (hout : sumL g.nodeList (fun y => capOf g.edge start y) ≤ (N : Rat)) (hin : sumL g.nodeList (fun y => capOf g.edge y fin) ≤ (N : Rat)) :
    g.maximumFlowFp fl sum start fin = g.maximumFlowFl fl start fin := by
  have hc : NonNeg g.edge := by
    intro a b d hd
    obtain ⟨z, rfl, _⟩ := hint a b d hd
    have : ((0 : Nat) : Rat) ≤ (z : Rat) := Rat.natCast_le_natCast.2 (Nat.zero_le z)
    simpa using this
  have hw : ValuesIn Whole g := by
    intro a b d hd
    obtain ⟨z, rfl, _⟩ := hint a b d hd
    exact ⟨(z : Int), (Rat.intCast_natCast z).symm⟩
  unfold maximumFlowFp maximumFlowFl
  cases hs : g.has start with
  | false => rfl
  | true =>
  cases hf : g.has fin with
  | false => rfl
  | true =>
  have n1 : ∀ x ∈ (g.edgesFrom start).map (fun e => e.2.2), ∃ z : Nat, x = (z : Rat) := by
    intro x hx
    obtain ⟨⟨a, b, v⟩, he, rfl⟩ := List.mem_map.1 hx
    obtain ⟨z, hz, _⟩ := hint _ _ _ (hg.mem_edgesFrom.1 he).2
    exact ⟨z, hz⟩
  have n2 : ∀ x ∈ (g.edgesTo fin).map (fun e => e.2.2), ∃ z : Nat, x = (z : Rat) := by
    intro x hx
    obtain ⟨⟨a, b, v⟩, he, rfl⟩ := List.mem_map.1 hx
    obtain ⟨z, hz, _⟩ := hint _ _ _ (hg.mem_edgesTo.1 he).2
    exact ⟨z, hz⟩
  have e1 := hsum _ n1 (by have := sumL_edgesFrom hg start; unfold sumL at this hout; rw [this]; exact hout)
  have e2 := hsum _ n2 (by have := sumL_edgesTo hg fin; unfold sumL at this hin; rw [this]; exact hin)
  have hbound : g.mfBoundFp sum start fin = g.mfBound start fin := by
    unfold mfBoundFp mfBound sumL
    dsimp only
    rw [e1, e2]
  have hbw : Whole (g.mfBound start fin) := by
    unfold mfBound sumL
    dsimp only
    obtain ⟨z1, h1⟩ := list_nat_sum n1
    obtain ⟨z2, h2⟩ := list_nat_sum n2
    rw [h1, h2]
    split
    · exact ⟨z2, (Rat.intCast_natCast _).symm⟩
    · exact ⟨z1, (Rat.intCast_natCast _).symm⟩
  have hb : g.mfBound start fin ≤ (N : Rat) := by
    have := (mfBound_eq hg start fin).2.1
    grind
  simp only [Bool.not_true, Bool.false_eq_true, if_false]
  rw [hbound]
  refine (pyWhileD_congr (fun s => MfInvFl fl g start fin (g.mfBound start fin) s ∧ Whole s.total ∧ ValuesIn Whole s.flow ∧ ValuesIn Whole s.capg)
    (fun s ⟨h, hi⟩ => mfStepFp_int hfl hN hg hint hc hw hne hs hf hb hbw h hi) ?_ ?_).symm
  · rintro s s' ⟨h, hi⟩ hst
    refine ⟨?_, mfStepFl_in Whole.sumClosed hw hi hst⟩
    rcases mfStepFl_inv hfl hg hc hne h with ⟨s2, h1, h2, _⟩ | ⟨r, h1, _⟩
    · rw [hst] at h1; cases h1; exact h2
    · rw [hst] at h1; cases h1
  · refine ⟨maximumFlowFl_start hg hc, ⟨0, rfl⟩, (fun a b v h => nomatch h), (fun a b v h => nomatch h)⟩

end GT

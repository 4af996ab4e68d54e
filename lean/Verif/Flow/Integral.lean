import Verif.Flow.MaxFlowFl
import Verif.Flow.MinCost
/-
The values that `maximum_flow` and `minimum_cost_flow` compute with are sums and differences of the given ones: whatever holds of
0 and is kept by addition and subtraction (such as being an integer) holds of all flows.
-/
namespace GT
variable {α V O : Type} [DecidableEq α]
open Graph

/-- closed under sums and differences -/
structure SumClosed (K : Rat → Prop) : Prop where
  zero : K 0
  add : ∀ x y, K x → K y → K (x + y)
  sub : ∀ x y, K x → K y → K (x - y)

/-- all values of a graph are in `K` -/
def ValuesIn (K : Rat → Prop) (g : Graph α Rat O) : Prop := ∀ a b v, g.edge a b = some v → K v

theorem ValuesIn.addEdge {K : Rat → Prop} {g : Graph α Rat O} (h : ValuesIn K g) (a b : α) {v : Rat} (hv : K v) :
    ValuesIn K (g.addEdge a b v) := by
  intro x y w hw
  rw [edge_addEdge] at hw
  split at hw
  · cases hw; exact hv
  · exact h x y w hw

theorem ratMin_mem {l : List Rat} {m : Rat} (h : ratMin l = .ok m) : m ∈ l := by
  cases l with
  | nil => cases h
  | cons x l =>
    obtain ⟨m', h1, h2, _⟩ := ratMin_spec (l := x :: l) (by simp)
    rw [h] at h1; cases h1; exact h2

theorem flowOf_in {K : Rat → Prop} (hK : SumClosed K) {f : Graph α Rat O} (h : ValuesIn K f) (a b : α) : K (flowOf f a b) := by
  unfold flowOf
  cases he : f.edge a b with
  | none => exact hK.zero
  | some v => exact h a b v he

theorem edgesAlong_in {K : Rat → Prop} {g : Graph α Rat O} (h : ValuesIn K g) : ∀ (p : List α) (r : List (α × α × Rat)),
    g.edgesAlong p = .ok r → ∀ e ∈ r, K e.2.2 := by
  intro p
  induction p with
  | nil => intro r hr; simp only [edgesAlong] at hr; cases hr; simp
  | cons a l ih =>
    cases l with
    | nil => intro r hr; simp only [edgesAlong] at hr; cases hr; simp
    | cons b l =>
      intro r hr
      simp only [edgesAlong] at hr
      split at hr
      · cases hr
      · rename_i d hd
        split at hr
        · cases hr
        · rename_i v hv
          split at hr
          · cases hr
          · rename_i r' hr'
            cases hr
            intro e he
            rcases List.mem_cons.1 he with rfl | he
            · exact h a b v (by unfold Graph.edge; rw [hd]; exact hv)
            · exact ih _ hr' e he

theorem mfRecordFl_in {K : Rat → Prop} (hK : SumClosed K) {fl : Rat → Rat} {g : Graph α Rat O} (hg : ValuesIn K g) {pf : Rat} (hpf : K pf)
    (es : List (α × α × Rat)) : ∀ (f c i f' c' i' : Graph α Rat O), ValuesIn K f → ValuesIn K c →
    forE es (f, c, i) (mfRecordFl fl g pf) = .ok (f', c', i') → ValuesIn K f' ∧ ValuesIn K c' := by
  induction es with
  | nil => intro f c i f' c' i' h1 h2 h; simp only [forE] at h; cases h; exact ⟨h1, h2⟩
  | cons e es ih =>
    intro f c i f' c' i' h1 h2 h
    simp only [forE] at h
    unfold mfRecordFl at h
    split at h
    · cases h
    · rename_i s hs
      split at hs
      · cases hs
      · rename_i d hd
        dsimp only at hs
        cases hs
        have hv : K (match f.edge e.1 e.2.1 with
            | none => pf
            | some v => v + pf) := by
          split
          · exact hpf
          · rename_i v hv; exact hK.add _ _ (h1 _ _ _ hv) hpf
        exact ih _ _ _ _ _ _ (h1.addEdge _ _ hv) (h2.addEdge _ _ (hK.sub _ _ (hg _ _ _ hd) hv)) h

theorem maximumFlowFl_in {K : Rat → Prop} (hK : SumClosed K) {fl : Rat → Rat} {g : Graph α Rat O} (hg : ValuesIn K g) {start fin : α}
    {total : Rat} {f : Graph α Rat O} (h : g.maximumFlowFl fl start fin = some (.ok (total, f))) : K total ∧ ValuesIn K f := by
  unfold maximumFlowFl at h
  split at h
  · cases h
  · split at h
    · cases h
    · refine pyWhileD_inv (step := mfStepFl fl g start fin) (fun s => K s.total ∧ ValuesIn K s.flow ∧ ValuesIn K s.capg)
        (fun r => ∀ t f, r = .ok (t, f) → K t ∧ ValuesIn K f) ?_ ?_ ?_ h _ _ rfl
      · intro s s' ⟨h1, h2, h3⟩ hst
        unfold mfStepFl at hst
        split at hst
        · cases hst
        · split at hst
          · cases hst
          · cases hst
          · cases hst
          · split at hst
            · cases hst
            · rename_i es hes
              split at hst
              · cases hst
              · rename_i pf hpf
                split at hst
                · cases hst
                · rename_i flow capg inv hfor
                  cases hst
                  have hval : ∀ e ∈ es, K e.2.2 := by
                    unfold edgesPath at hes
                    split at hes
                    · cases hes
                    · exact edgesAlong_in hg _ _ hes
                  have hk : K pf := by
                    obtain ⟨e, he, rfl⟩ := List.mem_map.1 (ratMin_mem hpf)
                    unfold mfLeft
                    split
                    · exact hval e he
                    · rename_i c hc
                      split
                      · exact h3 _ _ _ hc
                      · exact hval e he
                  obtain ⟨h4, h5⟩ := mfRecordFl_in hK hg hk es _ _ _ _ _ _ h2 h3 hfor
                  exact ⟨hK.add _ _ h1 hk, h4, h5⟩
      · intro s r ⟨h1, h2, h3⟩ hst t f hr
        unfold mfStepFl at hst
        split at hst
        · cases hst; cases hr; exact ⟨h1, h2⟩
        · split at hst
          · cases hst
          · cases hst; cases hr
          · cases hst; cases hr; exact ⟨h1, h2⟩
          · split at hst
            · cases hst; cases hr
            · split at hst
              · cases hst; cases hr
              · split at hst
                · cases hst; cases hr
                · cases hst
      · exact ⟨hK.zero, (fun a b v h => nomatch h), (fun a b v h => nomatch h)⟩

/-! ### minimum cost flow -/

/-- a capacity is infinite or in `K` -/
def ExtIn (K : Rat → Prop) (x : Ext) : Prop := ∀ q, x = .fin q → K q

def CapsIn (K : Rat → Prop) (c : Graph α Ext O) : Prop := ∀ a b x, c.edge a b = some x → ExtIn K x

theorem mcfCap_in {K : Rat → Prop} {capacity caps : Graph α Ext O} (h1 : CapsIn K capacity) (h2 : CapsIn K caps) {a b : α} {x : Ext}
    (h : mcfCap capacity caps a b = some x) : ExtIn K x := by
  unfold mcfCap at h
  split at h
  · rename_i c hc; cases h; exact h2 _ _ _ hc
  · exact h1 _ _ _ h

theorem mcfLimit_in {K : Rat → Prop} {capacity caps : Graph α Ext O} (h1 : CapsIn K capacity) (h2 : CapsIn K caps) (l : List (α × α)) :
    ∀ x, mcfLimit capacity caps l = .ok x → ExtIn K x := by
  induction l with
  | nil => intro x h; simp only [mcfLimit] at h; cases h
  | cons p l ih =>
    obtain ⟨a, b⟩ := p
    intro x h
    cases l with
    | nil =>
      simp only [mcfLimit] at h
      split at h
      · cases h
      · rename_i c hc; cases h; exact mcfCap_in h1 h2 hc
    | cons q l =>
      rw [mcfLimit] at h
      · split at h
        · cases h
        · rename_i c hc
          split at h
          · cases h
          · rename_i d hd
            cases h
            have hx := mcfCap_in h1 h2 hc
            have hy := ih _ hd
            unfold Ext.min
            split <;> assumption
      · intro h; cases h

theorem mcfL_in {K : Rat → Prop} (hK : SumClosed K) {e d : Rat} {lim : Ext} (he : K e) (hd : K d) (hl : ExtIn K lim) : K (mcfL e d lim) := by
  have hn : K (-d) := by have := hK.sub 0 d hK.zero hd; rw [show 0 - d = -d by grind] at this; exact this
  have hm : K (if -d < e then -d else e) := by split <;> assumption
  unfold mcfL
  revert hm
  generalize (if -d < e then -d else e) = m
  intro hm
  cases lim with
  | inf => exact hm
  | fin c =>
    dsimp only
    by_cases h : c < m
    · rw [if_pos h]; exact hl _ rfl
    · rw [if_neg h]; exact hm

theorem mcfEdge_in {K : Rat → Prop} (hK : SumClosed K) {capacity : Graph α Ext O} (h1 : CapsIn K capacity) {L : Rat} (hL : K L)
    (l : List (α × α)) : ∀ (s s' : McfSt α O), ValuesIn K s.flows ∧ s.flows.Inv → CapsIn K s.caps → forE l s (mcfEdge capacity L) = .ok s' →
    (ValuesIn K s'.flows ∧ s'.flows.Inv) ∧ CapsIn K s'.caps ∧ s'.balance = s.balance := by
  induction l with
  | nil => intro s s' h2 h3 h; simp only [forE] at h; cases h; exact ⟨h2, h3, rfl⟩
  | cons p l ih =>
    intro s s' h2 h3 h
    simp only [forE] at h
    split at h
    · cases h
    · rename_i s1 hs1
      unfold mcfEdge at hs1
      split at hs1
      · cases hs1
      · rename_i c hc
        have hflow := And.intro (h2.1.addEdge p.1 p.2 (hK.add _ _ hL (flowOf_in hK h2.1 p.1 p.2))) (h2.2.addEdge p.1 p.2 (L + flowOf s.flows p.1 p.2))
        have hcaps : CapsIn K (s.caps.addEdge p.1 p.2 (c.subR L)) := by
          intro x y w hw q hq
          rw [edge_addEdge] at hw
          split at hw
          · cases hw
            cases c with
            | inf => cases hq
            | fin a => cases hq; exact hK.sub _ _ (mcfCap_in h1 h3 hc _ rfl) hL
          · exact h3 x y w hw q hq
        dsimp only at hs1
        split at hs1
        · cases hs1
          obtain ⟨a, b, c⟩ := ih _ _ (by exact hflow) (by exact hcaps) h
          exact ⟨a, b, c⟩
        · cases hs1
          obtain ⟨a, b, c⟩ := ih _ _ (by exact hflow) (by exact hcaps) h
          exact ⟨a, b, c⟩

theorem mcfSites_mem {m : Dict α (Dict α Ext)} {dn : α} (l : List (Rat × α)) : ∀ sites, mcfSites m dn l = .ok sites →
    ∀ d e en, (d, e, en) ∈ sites → (e, en) ∈ l := by
  induction l with
  | nil => intro sites h; simp only [mcfSites] at h; cases h; simp
  | cons p l ih =>
    obtain ⟨e0, en0⟩ := p
    intro sites h d e en hm
    simp only [mcfSites] at h
    split at h
    · split at h
      · cases h
      · split at h
        · cases h
        · rename_i r hr
          cases h
          rcases List.mem_cons.1 hm with h' | h'
          · cases h'; simp
          · exact List.mem_cons_of_mem _ (ih _ hr _ _ _ h')
    · exact List.mem_cons_of_mem _ (ih _ h _ _ _ hm)

/-- the loop of `minimum_cost_flow` -/
theorem mcfLoop_in {K : Rat → Prop} (hK : SumClosed K) {nlt : α → α → Bool} {capacity : Graph α Ext O} (hc : CapsIn K capacity)
    {s : McfSt α O} (h1 : ValuesIn K s.flows ∧ s.flows.Inv) (h2 : CapsIn K s.caps) (h3 : ∀ p ∈ s.balance, K p.1) {f : Graph α Rat O}
    (h : pyWhileD (mcfStep nlt capacity) s = some (.ok f)) : ValuesIn K f ∧ f.Inv := by
  refine pyWhileD_inv (step := mcfStep nlt capacity) (fun s => (ValuesIn K s.flows ∧ s.flows.Inv) ∧ CapsIn K s.caps ∧ ∀ p ∈ s.balance, K p.1)
    (fun r => ∀ f, r = .ok f → ValuesIn K f ∧ f.Inv) ?_ ?_ ⟨h1, h2, h3⟩ h _ rfl
  · intro s s' ⟨h1, h2, h3⟩ hst
    unfold mcfStep at hst
    split at hst
    · cases hst
    · rename_i D dn bal hbal
      split at hst
      · cases hst
      · split at hst
        · cases hst
        · rename_i sites hsites
          split at hst
          · cases hst
          · rename_i dist E en rest hsort
            dsimp only at hst
            split at hst
            · cases hst
            · split at hst
              · cases hst
              · split at hst
                · cases hst
                · cases hst
                · split at hst
                  · cases hst
                  · rename_i lim hlim
                    split at hst
                    · cases hst
                    · rename_i s2 hs2
                      cases hst
                      have hsm : (dist, E, en) ∈ sites := (pySort_perm _ sites).mem_iff.1 (by rw [hsort]; simp)
                      have hEm := mcfSites_mem _ _ hsites _ _ _ hsm
                      have hE : K E := h3 (E, en) (by rw [hbal]; exact List.mem_cons_of_mem _ hEm)
                      have hD : K D := h3 (D, dn) (by rw [hbal]; simp)
                      have hL := mcfL_in hK hE hD (mcfLimit_in hc h2 _ _ hlim)
                      obtain ⟨a, b, _⟩ := mcfEdge_in hK hc hL _ _ _ h1 h2 hs2
                      refine ⟨a, b, ?_⟩
                      have hb1 : ∀ p ∈ (if 0 < E - mcfL E D lim then insSorted (balLt nlt) (E - mcfL E D lim, en) (bal.erase (E, en))
                          else bal.erase (E, en)), K p.1 := by
                        have hb0 : ∀ p ∈ bal.erase (E, en), K p.1 := fun p hp => h3 p (by rw [hbal]; exact List.mem_cons_of_mem _ (List.mem_of_mem_erase hp))
                        split
                        · intro p hp
                          rcases List.mem_cons.1 ((insSorted_perm _ _ _).mem_iff.1 hp) with rfl | hp
                          · exact hK.sub _ _ hE hL
                          · exact hb0 p hp
                        · exact hb0
                      intro p hp
                      dsimp only at hp
                      split at hp
                      · rcases List.mem_cons.1 ((insSorted_perm _ _ _).mem_iff.1 hp) with rfl | hp
                        · exact hK.add _ _ hD hL
                        · exact hb1 p hp
                      · exact hb1 p hp
  · intro s r ⟨h1, h2, h3⟩ hst f hr
    unfold mcfStep at hst
    split at hst
    · cases hst; cases hr; exact h1
    · split at hst
      · cases hst; cases hr; exact h1
      · split at hst
        · cases hst; cases hr
        · split at hst
          · cases hst; cases hr; exact h1
          · dsimp only at hst
            split at hst
            · cases hst; cases hr; exact h1
            · split at hst
              · cases hst; cases hr
              · split at hst
                · cases hst
                · cases hst; cases hr
                · split at hst
                  · cases hst; cases hr
                  · split at hst
                    · cases hst; cases hr
                    · cases hst

end GT

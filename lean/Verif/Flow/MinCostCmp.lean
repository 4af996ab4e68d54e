import Verif.Flow.MinCost
import Verif.Bisect
import Verif.Other.JamCmp
import Verif.Other.GraphHash
/-
`minimum_cost_flow_using_successive_shortest_path` on nodes that cannot be compared, with `bisect.insort` as binary search.
-/
namespace GT
variable {α O : Type} [DecidableEq α]
open Graph

/-! ### model -/

/-- `(v, n) < (v', n')`: the nodes are compared if the stocks are equal and the nodes are not; `cmp n n'`: the nodes can be compared -/
def balLtE (cmp nlt : α → α → Bool) (a b : Rat × α) : Py Bool :=
  if a.1 = b.1 then
    if a.2 = b.2 then .ok false
    else if cmp a.2 b.2 then .ok (nlt a.2 b.2) else .error .typeError
  else .ok (decide (a.1 < b.1))

/-- one iteration of `while balance` (min_cost_flow.py:54-92), where `sort` and `insort` can raise -/
def mcfStepE (cmp nlt : α → α → Bool) (capacity : Graph α Ext O) (s : McfSt α O) : Option (McfSt α O ⊕ Py (Graph α Rat O)) :=
  match s.balance with
  | [] => some (.inr (.ok s.flows))
  | (D, dn) :: bal =>
    if 0 < D then some (.inr (.ok s.flows))
    else match mcfSites s.distances dn bal with
      | .error e => some (.inr (.error e))
      | .ok sites =>
        if ∃ a ∈ sites, ∃ b ∈ sites, a.1 = b.1 ∧ a.2.1 = b.2.1 ∧ a.2.2 ≠ b.2.2 ∧ cmp a.2.2 b.2.2 = false then some (.inr (.error .typeError))
        else match pySort (siteLt nlt) sites with
        | [] => some (.inr (.ok s.flows))
        | (dist, E, en) :: _ =>
          let bal := bal.erase (E, en)
          if E < 0 then some (.inr (.ok s.flows))
          else if dist = .inf then some (.inr (.error .exception))
          else match s.paths.shortestPath en dn with
            | none => none
            | some (.error e) => some (.inr (.error e))
            | some (.ok (_, path)) => match mcfLimit capacity s.caps (pairs path) with
              | .error e => some (.inr (.error e))
              | .ok lim =>
                let L := mcfL E D lim
                match forE (pairs path) s (mcfEdge capacity L) with
                | .error e => some (.inr (.error e))
                | .ok s =>
                  match (if 0 < E - L then insortE (balLtE cmp nlt) (E - L, en) bal else .ok bal) with
                  | .error e => some (.inr (.error e))
                  | .ok bal => match (if D + L < 0 then insortE (balLtE cmp nlt) (D + L, dn) bal else .ok bal) with
                    | .error e => some (.inr (.error e))
                    | .ok bal => some (.inl { s with balance := bal })

/-- `minimum_cost_flow_using_successive_shortest_path(costs, inventory, capacity)` (min_cost_flow.py:7-95), where the sorts can raise -/
def Graph.minCostFlowE (cmp nlt : α → α → Bool) (costs : Graph α Rat O) (inventory : Dict α Rat) (capacity : Option (Graph α Ext O)) :
    Option (Py (Rat × Graph α Rat O)) :=
  if costs.edgeList.any (fun e => decide (e.2.2 < 0)) then some (.error .valueError)
  else match mcfCapacity costs capacity with
    | .error e => some (.error e)
    | .ok capacity =>
      let l := (inventory.items.filter (fun p => decide (p.2 ≠ 0))).map (fun p => (p.2, p.1))
      if ∃ a ∈ l, ∃ b ∈ l, a.1 = b.1 ∧ a.2 ≠ b.2 ∧ cmp a.2 b.2 = false then some (.error .typeError)
      else
      let balance := pySort (balLt nlt) l
      let paths := costs.copy
      match pyWhileD (mcfStepE cmp nlt capacity) ⟨paths, Graph.empty, Graph.empty, balance, paths.allPairs⟩ with
      | none => none
      | some (.error e) => some (.error e)
      | some (.ok flows) =>
        match forE flows.edgeList (0 : Rat) (fun acc e => match costs.edge e.1 e.2.1 with
          | none => .error .typeError
          | some c => .ok (acc + e.2.2 * c)) with
        | .error e => some (.error e)
        | .ok total => some (.ok (total, flows))

/-! ### proofs -/

/-- like `pyWhileD_cut`, with an invariant -/
theorem pyWhileD_cutI {σ ρ : Type} {step stepE : σ → Option (σ ⊕ ρ)} {bad : ρ} (I : σ → Prop)
    (h : ∀ s, I s → stepE s = step s ∨ stepE s = some (.inr bad)) (hI : ∀ s s', I s → step s = some (.inl s') → I s') {s : σ} (hs : I s) {r : ρ}
    (hr : pyWhileD step s = some r) : pyWhileD stepE s = some r ∨ pyWhileD stepE s = some bad := by
  refine pyWhileD_inv (step := step) (fun s' => I s' ∧ (pyWhileD stepE s = pyWhileD stepE s' ∨ pyWhileD stepE s = some bad))
    (fun r => pyWhileD stepE s = some r ∨ pyWhileD stepE s = some bad) ?_ ?_ ⟨hs, .inl rfl⟩ hr
  · rintro s1 s2 ⟨hi, hI' | hI'⟩ hst
    · refine ⟨hI _ _ hi hst, ?_⟩
      rcases h s1 hi with h1 | h1
      · rw [hst] at h1; left; rw [hI', pyWhileD_eq, h1]
      · right; rw [hI', pyWhileD_eq, h1]
    · exact ⟨hI _ _ hi hst, .inr hI'⟩
  · rintro s1 r ⟨hi, hI' | hI'⟩ hst
    · rcases h s1 hi with h1 | h1
      · rw [hst] at h1; left; rw [hI', pyWhileD_eq, h1]
      · right; rw [hI', pyWhileD_eq, h1]
    · exact .inr hI'

/-- two nodes with stock of the same sign that cannot be compared -/
def StockTied (cmp : α → α → Bool) (P : Rat → α → Prop) : Prop :=
  ∃ v n v' n', P v n ∧ P v' n' ∧ n ≠ n' ∧ cmp n n' = false ∧ ((0 < v ∧ 0 < v') ∨ (v < 0 ∧ v' < 0))

theorem TotalOrder.node {nlt : α → α → Bool} (h : TotalOrder nlt) : NodeOrder nlt :=
  ⟨h.asymm, h.ntrans⟩

theorem balLt_anti {nlt : α → α → Bool} (ho : TotalOrder nlt) : ∀ a b : Rat × α, balLt nlt a b = false → balLt nlt b a = false → a = b := by
  intro a b h1 h2
  unfold balLt at h1 h2
  simp only [Bool.or_eq_false_iff, decide_eq_false_iff_not, Bool.and_eq_false_iff] at h1 h2
  have he : a.1 = b.1 := by grind
  refine Prod.ext he ?_
  refine ho.anti ?_ ?_
  · rcases h1.2 with h | h
    · exact absurd he h
    · exact h
  · rcases h2.2 with h | h
    · exact absurd he.symm h
    · exact h

theorem balLtE_ok {cmp nlt : α → α → Bool} (ho : TotalOrder nlt) {a b : Rat × α} {r : Bool} (h : balLtE cmp nlt a b = .ok r) : r = balLt nlt a b := by
  unfold balLtE at h
  unfold balLt
  split at h
  · rename_i he
    rw [he]
    split at h
    · rename_i he2
      cases h
      rw [he2, ho.irrefl]; simp [Rat.lt_irrefl]
    · split at h
      · cases h; simp [Rat.lt_irrefl]
      · cases h
  · rename_i he
    cases h
    simp [he]

theorem balLtE_error {cmp nlt : α → α → Bool} {a b : Rat × α} {e : Err} (h : balLtE cmp nlt a b = .error e) :
    e = .typeError ∧ a.1 = b.1 ∧ a.2 ≠ b.2 ∧ cmp a.2 b.2 = false := by
  unfold balLtE at h
  split at h
  · rename_i he
    split at h
    · cases h
    · rename_i hne
      split at h
      · cases h
      · rename_i hc
        cases h
        exact ⟨rfl, he, hne, by simpa using hc⟩
  · cases h

/-- `insort` into the sorted balance -/
theorem insort_bal {cmp nlt : α → α → Bool} (ho : TotalOrder nlt) (x : Rat × α) {l : List (Rat × α)}
    (hs : l.Pairwise (fun a b => balLt nlt b a = false)) :
    insortE (balLtE cmp nlt) x l = .ok (insSorted (balLt nlt) x l) ∨
    (∃ y ∈ l, x.1 = y.1 ∧ x.2 ≠ y.2 ∧ cmp x.2 y.2 = false ∧ insortE (balLtE cmp nlt) x l = .error .typeError) := by
  have hon := ho.node
  rcases insortE_cut (lt := balLtE cmp nlt) (ltB := balLt nlt) (x := x) (l := l) (fun y _ b hb => balLtE_ok ho hb) with h | ⟨y, hy, e, h1, h2⟩
  · left
    rw [h, insortB_eq (balLt_trans hon) (balLt_asymm hon) x hs, insertBehind_eq_insSorted (balLt_anti ho) (balLt_asymm hon) x hs]
  · obtain ⟨rfl, h3, h4, h5⟩ := balLtE_error h1
    exact .inr ⟨y, hy, h3, h4, h5, h2⟩

theorem mcfSites_posMem {m : Dict α (Dict α Ext)} {dn : α} (l : List (Rat × α)) : ∀ sites, mcfSites m dn l = .ok sites →
    ∀ d e en, (d, e, en) ∈ sites → 0 < e ∧ (e, en) ∈ l := by
  induction l with
  | nil => intro sites h d e en hm; cases h; cases hm
  | cons x l ih =>
    obtain ⟨e0, en0⟩ := x
    intro sites h d e en hm
    unfold mcfSites at h
    split at h
    · rename_i h0
      split at h
      · cases h
      · split at h
        · cases h
        · rename_i r hr
          cases h
          rcases List.mem_cons.1 hm with hm | hm
          · cases hm; exact ⟨h0, by simp⟩
          · have := ih _ hr _ _ _ hm
            exact ⟨this.1, List.mem_cons_of_mem _ this.2⟩
    · have := ih _ h _ _ _ hm
      exact ⟨this.1, List.mem_cons_of_mem _ this.2⟩

/-- what is needed of the balance: it is sorted, and every entry belongs to a node with stock of the same sign -/
def BalOk (nlt : α → α → Bool) (P : Rat → α → Prop) (l : List (Rat × α)) : Prop :=
  l.Pairwise (fun a b => balLt nlt b a = false) ∧ ∀ v n, (v, n) ∈ l → v ≠ 0 ∧ ∃ v0, P v0 n ∧ ((0 < v ∧ 0 < v0) ∨ (v < 0 ∧ v0 < 0))

theorem BalOk.ins {nlt : α → α → Bool} (ho : TotalOrder nlt) {P : Rat → α → Prop} {l : List (Rat × α)} (h : BalOk nlt P l) {v v0 : Rat} {n : α}
    (hP : P v0 n) (hv : (0 < v ∧ 0 < v0) ∨ (v < 0 ∧ v0 < 0)) : BalOk nlt P (insSorted (balLt nlt) (v, n) l) := by
  refine ⟨insSorted_pairwise (balLt_trans ho.node) (balLt_asymm ho.node) _ _ h.1, ?_⟩
  intro v' n' hm
  rcases List.mem_cons.1 ((insSorted_perm _ _ _).mem_iff.1 hm) with hm | hm
  · cases hm
    exact ⟨by grind, v0, hP, hv⟩
  · exact h.2 v' n' hm

theorem BalOk.sub {nlt : α → α → Bool} {P : Rat → α → Prop} {l l' : List (Rat × α)} (h : BalOk nlt P l) (hs : l'.Sublist l) : BalOk nlt P l' :=
  ⟨h.1.sublist hs, fun v n hm => h.2 v n (hs.subset hm)⟩

theorem BalOk.tied {nlt cmp : α → α → Bool} {P : Rat → α → Prop} {l : List (Rat × α)} (h : BalOk nlt P l) {v v0 : Rat} {n : α}
    (hP : P v0 n) (hv : (0 < v ∧ 0 < v0) ∨ (v < 0 ∧ v0 < 0)) {y : Rat × α} (hy : y ∈ l) (h1 : v = y.1) (h2 : n ≠ y.2) (h3 : cmp n y.2 = false) :
    StockTied cmp P := by
  obtain ⟨y1, y2⟩ := y
  obtain ⟨_, w0, hw, hs⟩ := h.2 y1 y2 hy
  dsimp only at h1 h2 h3
  exact ⟨v0, n, w0, y2, hP, hw, h2, h3, by grind⟩

theorem mcfStepE_cut {cmp nlt : α → α → Bool} (ho : TotalOrder nlt) (capacity : Graph α Ext O) {P : Rat → α → Prop} (s : McfSt α O)
    (h : BalOk nlt P s.balance) :
    (mcfStepE cmp nlt capacity s = mcfStep nlt capacity s ∨
      (StockTied cmp P ∧ mcfStepE cmp nlt capacity s = some (.inr (.error .typeError)))) ∧
    (∀ s', mcfStep nlt capacity s = some (.inl s') → BalOk nlt P s'.balance) := by
  unfold mcfStepE mcfStep
  cases hb : s.balance with
  | nil => exact ⟨.inl rfl, fun s' hs => by cases hs⟩
  | cons x bal =>
    obtain ⟨D, dn⟩ := x
    rw [hb] at h
    have hbal : BalOk nlt P bal := h.sub (List.sublist_cons_self _ _)
    obtain ⟨hD0, vD, hPD, hsD⟩ := h.2 D dn (by simp)
    dsimp only
    by_cases hD : 0 < D
    · rw [if_pos hD, if_pos hD]; exact ⟨.inl rfl, fun s' hs => by cases hs⟩
    · rw [if_neg hD, if_neg hD]
      cases hsit : mcfSites s.distances dn bal with
      | error e => exact ⟨.inl rfl, fun s' hs => by cases hs⟩
      | ok sites =>
        dsimp only
        have hsm := mcfSites_posMem bal sites hsit
        -- the first part: the sort of the sites
        have hsort : (if ∃ a ∈ sites, ∃ b ∈ sites, a.1 = b.1 ∧ a.2.1 = b.2.1 ∧ a.2.2 ≠ b.2.2 ∧ cmp a.2.2 b.2.2 = false then True else False) →
            StockTied cmp P := by
          intro hx
          split at hx
          · rename_i hx'
            obtain ⟨⟨d1, e1, n1⟩, ha, ⟨d2, e2, n2⟩, hb', _, h5, h6, h7⟩ := hx'
            dsimp only at h5 h6 h7
            obtain ⟨p1, q1⟩ := hsm _ _ _ ha
            obtain ⟨p2, q2⟩ := hsm _ _ _ hb'
            obtain ⟨_, v1, r1, t1⟩ := hbal.2 _ _ q1
            obtain ⟨_, v2, r2, t2⟩ := hbal.2 _ _ q2
            exact ⟨v1, n1, v2, n2, r1, r2, h6, h7, .inl ⟨by grind, by grind⟩⟩
          · exact hx.elim
        -- the second part
        cases hps : pySort (siteLt nlt) sites with
        | nil =>
          dsimp only
          refine ⟨?_, fun s' hs => by cases hs⟩
          split
          · rename_i hx; exact .inr ⟨hsort (by rw [if_pos hx]; trivial), rfl⟩
          · exact .inl rfl
        | cons x rest =>
          obtain ⟨dist, E, en⟩ := x
          dsimp only
          have hmem : (dist, E, en) ∈ sites := mem_pySort.1 (by rw [hps]; simp)
          obtain ⟨hE, hEb⟩ := hsm _ _ _ hmem
          obtain ⟨_, vE, hPE, hsE⟩ := hbal.2 _ _ hEb
          have hbal' : BalOk nlt P (bal.erase (E, en)) := hbal.sub List.erase_sublist
          generalize bal.erase (E, en) = bal1 at hbal'
          have hE' : ¬ E < 0 := by grind
          rw [if_neg hE', if_neg hE']
          by_cases hdist : dist = .inf
          · rw [if_pos hdist, if_pos hdist]
            refine ⟨?_, fun s' hs => by cases hs⟩
            split
            · rename_i hx; exact .inr ⟨hsort (by rw [if_pos hx]; trivial), rfl⟩
            · exact .inl rfl
          · rw [if_neg hdist, if_neg hdist]
            cases s.paths.shortestPath en dn with
            | none =>
              refine ⟨?_, fun s' hs => by cases hs⟩
              split
              · rename_i hx; exact .inr ⟨hsort (by rw [if_pos hx]; trivial), rfl⟩
              · exact .inl rfl
            | some r =>
              cases r with
              | error e =>
                refine ⟨?_, fun s' hs => by cases hs⟩
                split
                · rename_i hx; exact .inr ⟨hsort (by rw [if_pos hx]; trivial), rfl⟩
                · exact .inl rfl
              | ok r =>
                obtain ⟨cst, path⟩ := r
                dsimp only
                cases mcfLimit capacity s.caps (pairs path) with
                | error e =>
                  refine ⟨?_, fun s' hs => by cases hs⟩
                  split
                  · rename_i hx; exact .inr ⟨hsort (by rw [if_pos hx]; trivial), rfl⟩
                  · exact .inl rfl
                | ok lim =>
                  dsimp only
                  generalize mcfL E D lim = L
                  cases forE (pairs path) s (mcfEdge capacity L) with
                  | error e =>
                    refine ⟨?_, fun s' hs => by cases hs⟩
                    split
                    · rename_i hx; exact .inr ⟨hsort (by rw [if_pos hx]; trivial), rfl⟩
                    · exact .inl rfl
                  | ok s1 =>
                    dsimp only
                    have hEs : 0 < E - L → (0 < E - L ∧ 0 < vE) ∨ (E - L < 0 ∧ vE < 0) := fun h => .inl ⟨h, by grind⟩
                    have hDs : D + L < 0 → (0 < D + L ∧ 0 < vD) ∨ (D + L < 0 ∧ vD < 0) := fun h => .inr ⟨h, by grind⟩
                    have hbal2 : BalOk nlt P (if 0 < E - L then insSorted (balLt nlt) (E - L, en) bal1 else bal1) := by
                      split
                      · rename_i hx; exact hbal'.ins ho hPE (hEs hx)
                      · exact hbal'
                    have hi1 : (if 0 < E - L then insortE (balLtE cmp nlt) (E - L, en) bal1 else .ok bal1) =
                          .ok (if 0 < E - L then insSorted (balLt nlt) (E - L, en) bal1 else bal1) ∨
                        (StockTied cmp P ∧ (if 0 < E - L then insortE (balLtE cmp nlt) (E - L, en) bal1 else .ok bal1) = .error .typeError) := by
                      by_cases hx : 0 < E - L
                      · simp only [if_pos hx]
                        rcases insort_bal (cmp := cmp) ho (E - L, en) hbal'.1 with h1 | ⟨y, hy, h1, h2, h3, h4⟩
                        · exact .inl h1
                        · exact .inr ⟨hbal'.tied hPE (hEs hx) hy h1 h2 h3, h4⟩
                      · simp only [if_neg hx]; exact .inl trivial
                    generalize (if 0 < E - L then insSorted (balLt nlt) (E - L, en) bal1 else bal1) = bal2 at hbal2 hi1 ⊢
                    have hi2 : (if D + L < 0 then insortE (balLtE cmp nlt) (D + L, dn) bal2 else .ok bal2) =
                          .ok (if D + L < 0 then insSorted (balLt nlt) (D + L, dn) bal2 else bal2) ∨
                        (StockTied cmp P ∧ (if D + L < 0 then insortE (balLtE cmp nlt) (D + L, dn) bal2 else .ok bal2) = .error .typeError) := by
                      by_cases hx : D + L < 0
                      · simp only [if_pos hx]
                        rcases insort_bal (cmp := cmp) ho (D + L, dn) hbal2.1 with h1 | ⟨y, hy, h1, h2, h3, h4⟩
                        · exact .inl h1
                        · exact .inr ⟨hbal2.tied hPD (hDs hx) hy h1 h2 h3, h4⟩
                      · simp only [if_neg hx]; exact .inl trivial
                    refine ⟨?_, ?_⟩
                    · split
                      · rename_i hx; exact .inr ⟨hsort (by rw [if_pos hx]; trivial), rfl⟩
                      · rcases hi1 with hi1 | ⟨ht, hi1⟩
                        · rw [hi1]
                          dsimp only
                          rcases hi2 with hi2 | ⟨ht, hi2⟩
                          · rw [hi2]; exact .inl rfl
                          · rw [hi2]; exact .inr ⟨ht, rfl⟩
                        · rw [hi1]; exact .inr ⟨ht, rfl⟩
                    · intro s' hs
                      cases hs
                      show BalOk nlt P (if D + L < 0 then insSorted (balLt nlt) (D + L, dn) bal2 else bal2)
                      split
                      · rename_i hx; exact hbal2.ins ho hPD (hDs hx)
                      · exact hbal2

/-- it raises `TypeError` and there are incomparable nodes with stock of the same sign, or it does what it does on comparable nodes -/
theorem minCostFlowE_cut {cmp nlt : α → α → Bool} (ho : TotalOrder nlt) {costs : Graph α Rat O} {inventory : Dict α Rat} (hwf : inventory.WF)
    {capacity : Option (Graph α Ext O)} {r : Py (Rat × Graph α Rat O)} (hr : costs.minCostFlow nlt inventory capacity = some r) :
    costs.minCostFlowE cmp nlt inventory capacity = some r ∨
    (StockTied cmp (fun v n => inventory.get? n = some v) ∧ costs.minCostFlowE cmp nlt inventory capacity = some (.error .typeError)) := by
  unfold minCostFlowE
  unfold minCostFlow at hr
  split
  · rename_i h; rw [if_pos h] at hr; exact .inl hr
  · rename_i h
    rw [if_neg h] at hr
    cases hcap : mcfCapacity costs capacity with
    | error e => rw [hcap] at hr; exact .inl hr
    | ok capg =>
      rw [hcap] at hr
      dsimp only at hr ⊢
      have hmem : ∀ v n, (v, n) ∈ (inventory.items.filter (fun p => decide (p.2 ≠ 0))).map (fun p => (p.2, p.1)) ↔
          inventory.get? n = some v ∧ v ≠ 0 := by
        intro v n
        rw [Dict.get?_eq_some_iff hwf]
        simp only [List.mem_map, List.mem_filter, decide_eq_true_eq, Prod.mk.injEq, Prod.exists]
        constructor
        · rintro ⟨a, b, ⟨h1, h2⟩, rfl, rfl⟩; exact ⟨h1, h2⟩
        · rintro ⟨h1, h2⟩; exact ⟨n, v, ⟨h1, h2⟩, rfl, rfl⟩
      have hsgn : ∀ v : Rat, v ≠ 0 → 0 < v ∨ v < 0 := by intro v hv; grind
      split
      · rename_i hx
        obtain ⟨⟨v, n⟩, h1, ⟨v', n'⟩, h2, h3, h4, h5⟩ := hx
        dsimp only at h3 h4 h5
        subst h3
        obtain ⟨a1, a2⟩ := (hmem _ _).1 h1
        obtain ⟨b1, b2⟩ := (hmem _ _).1 h2
        exact .inr ⟨⟨v, n, v, n', a1, b1, h4, h5, by rcases hsgn v a2 with h | h <;> grind⟩, rfl⟩
      · generalize hB : pySort (balLt nlt) ((inventory.items.filter (fun p => decide (p.2 ≠ 0))).map (fun p => (p.2, p.1))) = B at hr ⊢
        have hI : BalOk nlt (fun v n => inventory.get? n = some v) B := by
          refine ⟨by rw [← hB]; exact pySort_pairwise (balLt_trans ho.node) (balLt_asymm ho.node) _, ?_⟩
          intro v n hv
          rw [← hB, mem_pySort] at hv
          obtain ⟨h1, h2⟩ := (hmem _ _).1 hv
          exact ⟨h2, v, h1, by rcases hsgn v h2 with h | h <;> grind⟩
        by_cases ht : StockTied cmp (fun v n => inventory.get? n = some v)
        · cases hl : pyWhileD (mcfStep nlt capg) (⟨costs.copy, Graph.empty, Graph.empty, B, costs.copy.allPairs⟩ : McfSt α O) with
          | none => rw [hl] at hr; cases hr
          | some x =>
            rw [hl] at hr
            rcases pyWhileD_cutI (stepE := mcfStepE cmp nlt capg) (bad := .error .typeError)
              (fun s : McfSt α O => BalOk nlt (fun v n => inventory.get? n = some v) s.balance)
              (fun s hs => (mcfStepE_cut (cmp := cmp) ho capg s hs).1.imp id And.right)
              (fun s s' hs hst => (mcfStepE_cut (cmp := cmp) ho capg s hs).2 s' hst)
              (s := ⟨costs.copy, Graph.empty, Graph.empty, B, costs.copy.allPairs⟩) hI hl with h' | h'
            · rw [h']; exact .inl hr
            · rw [h']; exact .inr ⟨ht, rfl⟩
        · left
          have key : ∀ r', pyWhileD (mcfStep nlt capg) (⟨costs.copy, Graph.empty, Graph.empty, B, costs.copy.allPairs⟩ : McfSt α O) = some r' →
              pyWhileD (mcfStepE cmp nlt capg) (⟨costs.copy, Graph.empty, Graph.empty, B, costs.copy.allPairs⟩ : McfSt α O) = some r' := by
            intro r' hr'
            have := pyWhileD_cutI (step := mcfStep nlt capg) (stepE := mcfStepE cmp nlt capg) (bad := r')
              (fun s : McfSt α O => BalOk nlt (fun v n => inventory.get? n = some v) s.balance)
              (fun s hs => by
                rcases (mcfStepE_cut (cmp := cmp) ho capg s hs).1 with h | ⟨h, _⟩
                · exact .inl h
                · exact absurd h ht)
              (fun s s' hs hst => (mcfStepE_cut (cmp := cmp) ho capg s hs).2 s' hst)
              (s := ⟨costs.copy, Graph.empty, Graph.empty, B, costs.copy.allPairs⟩) hI hr'
            rcases this with h | h <;> exact h
          cases hl : pyWhileD (mcfStep nlt capg) (⟨costs.copy, Graph.empty, Graph.empty, B, costs.copy.allPairs⟩ : McfSt α O) with
          | none => rw [hl] at hr; cases hr
          | some x => rw [hl] at hr; rw [key x hl]; exact hr

/-- equal stocks of incomparable nodes always raise, if the input passes the checks -/
theorem minCostFlowE_tied {cmp nlt : α → α → Bool} {costs : Graph α Rat O} (hc : costs.Inv) (hnn : NonNeg costs.edge) {inventory : Dict α Rat}
    (hwf : inventory.WF) {capacity : Option (Graph α Ext O)} {capg : Graph α Ext O} (hcap : mcfCapacity costs capacity = .ok capg)
    {v : Rat} {n n' : α} (h1 : inventory.get? n = some v) (h2 : inventory.get? n' = some v) (hv : v ≠ 0) (hne : n ≠ n') (hcmp : cmp n n' = false) :
    costs.minCostFlowE cmp nlt inventory capacity = some (.error .typeError) := by
  unfold minCostFlowE
  have hneg : (costs.edgeList.any (fun e => decide (e.2.2 < 0))) = false := by
    rw [List.any_eq_false]
    rintro ⟨a, b, v⟩ he
    have := hnn a b v (hc.mem_edgeList.1 he)
    simp; grind
  rw [hneg, if_neg (by simp), hcap]
  dsimp only
  rw [if_pos]
  have hm : ∀ v n, inventory.get? n = some v → v ≠ 0 → (v, n) ∈ (inventory.items.filter (fun p => decide (p.2 ≠ 0))).map (fun p => (p.2, p.1)) := by
    intro v n h hv
    rw [Dict.get?_eq_some_iff hwf] at h
    exact List.mem_map.2 ⟨(n, v), List.mem_filter.2 ⟨h, by simpa using hv⟩, rfl⟩
  exact ⟨(v, n), hm v n h1 hv, (v, n'), hm v n' h2 hv, rfl, hne, hcmp⟩

end GT

import Verif.Flow.MinCost
import Verif.Spec.ShipRound
import Verif.Sp.DijkstraFl
import Verif.Sp.ApspFl
import Verif.Spec.TourRound
/-
Model of `minimum_cost_flow_using_successive_shortest_path` (graph/min_cost_flow.py) on floats: a rounding `fl` after every operation.
-/
namespace GT
variable {α O : Type} [DecidableEq α]
open Graph

/-- `x - L` on floats -/
def Ext.subFl (fl : Rat → Rat) : Ext → Rat → Ext
  | .fin a, r => .fin (fl (a - r))
  | .inf, _ => .inf

/-- the body of the loop over the edges of the path (min_cost_flow.py:79-86), every operation rounded by `fl` -/
def mcfEdgeFl (fl : Rat → Rat) (capacity : Graph α Ext O) (L : Rat) (s : McfSt α O) (p : α × α) : Py (McfSt α O) :=
  match mcfCap capacity s.caps p.1 p.2 with
  | none => .error .typeError
  | some c =>
    let nc := c.subFl fl L
    let s := { s with flows := s.flows.addEdge p.1 p.2 (fl (L + flowOf s.flows p.1 p.2)), caps := s.caps.addEdge p.1 p.2 nc }
    if nc = .fin 0 then
      let paths := s.paths.delEdge p.1 p.2
      .ok { s with paths := paths, distances := paths.allPairsFl fl }
    else .ok s

/-- one iteration of `while balance` (min_cost_flow.py:54-92), every operation rounded by `fl` -/
def mcfStepFl (fl : Rat → Rat) (nlt : α → α → Bool) (capacity : Graph α Ext O) (s : McfSt α O) : Option (McfSt α O ⊕ Py (Graph α Rat O)) :=
  match s.balance with
  | [] => some (.inr (.ok s.flows))
  | (D, dn) :: bal =>
    if 0 < D then some (.inr (.ok s.flows))
    else match mcfSites s.distances dn bal with
      | .error e => some (.inr (.error e))
      | .ok sites => match pySort (siteLt nlt) sites with
        | [] => some (.inr (.ok s.flows))
        | (dist, E, en) :: _ =>
          let bal := bal.erase (E, en)
          if E < 0 then some (.inr (.ok s.flows))
          else if dist = .inf then some (.inr (.error .exception))
          else match s.paths.shortestPathFl fl en dn with
            | none => none
            | some (.error e) => some (.inr (.error e))
            | some (.ok (_, path)) => match mcfLimit capacity s.caps (pairs path) with
              | .error e => some (.inr (.error e))
              | .ok lim =>
                let L := mcfL E D lim
                match forE (pairs path) s (mcfEdgeFl fl capacity L) with
                | .error e => some (.inr (.error e))
                | .ok s =>
                  let bal := if 0 < fl (E - L) then insSorted (balLt nlt) (fl (E - L), en) bal else bal
                  let bal := if fl (D + L) < 0 then insSorted (balLt nlt) (fl (D + L), dn) bal else bal
                  some (.inl { s with balance := bal })

/-- the products `d * costs.edge(s, e)` of min_cost_flow.py:94 -/
def mcfProducts (fl : Rat → Rat) (costs : Graph α Rat O) : List (α × α × Rat) → Py (List Rat)
  | [] => .ok []
  | e :: l => match costs.edge e.1 e.2.1 with
    | none => .error .typeError
    | some c => match mcfProducts fl costs l with
      | .error er => .error er
      | .ok r => .ok (fl (e.2.2 * c) :: r)

/-- `minimum_cost_flow_using_successive_shortest_path(costs, inventory, capacity)` (min_cost_flow.py:7-95) on floats: every addition, subtraction and multiplication is
rounded by `fl`; `sumf` is the builtin `sum`.  Simplifications as in `Graph.minCostFlow`. -/
def Graph.minCostFlowFl (fl : Rat → Rat) (sumf : List Rat → Rat) (nlt : α → α → Bool) (costs : Graph α Rat O) (inventory : Dict α Rat)
    (capacity : Option (Graph α Ext O)) : Option (Py (Rat × Graph α Rat O)) :=
  if costs.edgeList.any (fun e => decide (e.2.2 < 0)) then some (.error .valueError)
  else match mcfCapacity costs capacity with
    | .error e => some (.error e)
    | .ok capacity =>
      let balance := pySort (balLt nlt) ((inventory.items.filter (fun p => decide (p.2 ≠ 0))).map (fun p => (p.2, p.1)))
      let paths := costs.copy
      match pyWhileD (mcfStepFl fl nlt capacity) ⟨paths, Graph.empty, Graph.empty, balance, paths.allPairsFl fl⟩ with
      | none => none
      | some (.error e) => some (.error e)
      | some (.ok flows) =>
        match mcfProducts fl costs flows.edgeList with
        | .error e => some (.error e)
        | .ok l => some (.ok (sumf l, flows))

/-! ### rounding errors -/

theorem pow_le_one' {x : Rat} (h0 : 0 ≤ x) (h1 : x ≤ 1) : ∀ n : Nat, 0 ≤ x ^ n ∧ x ^ n ≤ 1 := by
  intro n
  induction n with
  | zero => rw [Rat.pow_zero]; exact ⟨by decide, Rat.le_refl⟩
  | succ n ih =>
    rw [Rat.pow_succ]
    have := Rat.mul_nonneg ih.1 h0
    have h2 := Rat.mul_le_mul_of_nonneg_left h1 ih.1
    rw [Rat.mul_one] at h2
    exact ⟨this, Rat.le_trans h2 ih.2⟩

theorem one_le_pow' {x : Rat} (h1 : 1 ≤ x) : ∀ n : Nat, 1 ≤ x ^ n := by
  intro n
  induction n with
  | zero => rw [Rat.pow_zero]; exact Rat.le_refl
  | succ n ih =>
    rw [Rat.pow_succ]
    have h2 := Rat.mul_le_mul_of_nonneg_left h1 (show 0 ≤ x ^ n by grind)
    rw [Rat.mul_one] at h2
    exact Rat.le_trans ih h2

theorem NearTo.refl {ε x : Rat} : NearTo ε 0 x x := by
  unfold NearTo; rw [Rat.pow_zero, Rat.pow_zero, Rat.one_mul]; exact ⟨Rat.le_refl, Rat.le_refl⟩

section
variable {ε : Rat} (h0 : 0 ≤ ε) (h1 : ε ≤ 1)
include h0 h1

theorem NearTo.succ {n : Nat} {x y : Rat} (hx : 0 ≤ x) (h : NearTo ε n x y) : NearTo ε (n + 1) x y := by
  obtain ⟨a, b⟩ := h
  unfold NearTo
  rw [Rat.pow_succ, Rat.pow_succ]
  have p1 := (pow_le_one' (x := 1 - ε) (by grind) (by grind) n).1
  have p2 := one_le_pow' (x := 1 + ε) (by grind) n
  have q1 : 0 ≤ (1 - ε) ^ n * x := Rat.mul_nonneg p1 hx
  have q2 : 0 ≤ (1 + ε) ^ n * x := Rat.mul_nonneg (by grind) hx
  have m1 := Rat.mul_nonneg h0 q1
  have m2 := Rat.mul_nonneg h0 q2
  generalize (1 - ε) ^ n = P at *
  generalize (1 + ε) ^ n = Q at *
  constructor <;> grind

theorem NearTo.mono {n m : Nat} {x y : Rat} (hx : 0 ≤ x) (h : NearTo ε n x y) (hnm : n ≤ m) : NearTo ε m x y := by
  induction hnm with
  | refl => exact h
  | step _ ih => exact ih.succ h0 h1 hx

/-- a part `L` of what is left is used -/
theorem NearTo.use {fl : Rat → Rat} (hε : RelErr fl ε) {n : Nat} {c u r L : Rat} (hu : 0 ≤ u) (hL : 0 ≤ L) (hr : L ≤ r) (h : NearTo ε n c (u + r)) :
    NearTo ε (n + 1) c (u + L + fl (r - L)) := by
  obtain ⟨a, b⟩ := h
  obtain ⟨e1, e2⟩ := hε (r - L) (by grind)
  unfold NearTo
  rw [Rat.pow_succ, Rat.pow_succ]
  have m0 : 0 ≤ ε * (u + L) := Rat.mul_nonneg h0 (by grind)
  have m1 := Rat.mul_le_mul_of_nonneg_left a (show 0 ≤ 1 - ε by grind)
  have m2 := Rat.mul_le_mul_of_nonneg_left b (show 0 ≤ 1 + ε by grind)
  generalize (1 - ε) ^ n = P at *
  generalize (1 + ε) ^ n = Q at *
  constructor <;> grind

/-- `L` is added -/
theorem NearTo.add {fl : Rat → Rat} (hε : RelErr fl ε) {n : Nat} {F f L : Rat} (hF : 0 ≤ F) (hL : 0 ≤ L) (h : NearTo ε n F f) :
    NearTo ε (n + 1) (F + L) (fl (L + f)) := by
  obtain ⟨a, b⟩ := h
  have p1 := pow_le_one' (x := 1 - ε) (by grind) (by grind) n
  have p2 := one_le_pow' (x := 1 + ε) (by grind) n
  have q1 : 0 ≤ (1 - ε) ^ n * F := Rat.mul_nonneg p1.1 hF
  obtain ⟨e1, e2⟩ := hε (L + f) (by grind)
  unfold NearTo
  rw [Rat.pow_succ, Rat.pow_succ]
  have l1 : (1 - ε) ^ n * (F + L) ≤ L + f := by
    have := Rat.mul_le_mul_of_nonneg_right p1.2 hL
    grind
  have l2 : L + f ≤ (1 + ε) ^ n * (F + L) := by
    have := Rat.mul_le_mul_of_nonneg_right p2 hL
    grind
  have m1 := Rat.mul_le_mul_of_nonneg_left l1 (show 0 ≤ 1 - ε by grind)
  have m2 := Rat.mul_le_mul_of_nonneg_left l2 (show 0 ≤ 1 + ε by grind)
  generalize (1 - ε) ^ n = P at *
  generalize (1 + ε) ^ n = Q at *
  constructor <;> grind

end

/-! ### the parts of one iteration -/

theorem mcfEdgeFl_fold {fl : Rat → Rat} {capacity : Graph α Ext O} (L : Rat) (ps : List (α × α)) : ∀ (s : McfSt α O), ps.Nodup →
    (∀ p ∈ ps, ∃ c, mcfCap capacity s.caps p.1 p.2 = some c) → s.paths.Inv → s.flows.Inv → s.distances = s.paths.allPairsFl fl →
    ∃ s', forE ps s (mcfEdgeFl fl capacity L) = .ok s' ∧ s'.paths.Inv ∧ s'.flows.Inv ∧ s'.distances = s'.paths.allPairsFl fl ∧
      s'.balance = s.balance ∧ s'.paths.nodes = s.paths.nodes ∧
      (∀ a b, s'.flows.edge a b = if (a, b) ∈ ps then some (fl (L + flowOf s.flows a b)) else s.flows.edge a b) ∧
      (∀ a b, mcfCap capacity s'.caps a b = if (a, b) ∈ ps then (mcfCap capacity s.caps a b).map (fun c => c.subFl fl L)
        else mcfCap capacity s.caps a b) ∧
      (∀ a b, s'.paths.edge a b = if (a, b) ∈ ps ∧ mcfCap capacity s'.caps a b = some (.fin 0) then none else s.paths.edge a b) := by
  induction ps with
  | nil => intro s _ _ h1 h2 h3; exact ⟨s, rfl, h1, h2, h3, rfl, rfl, by simp, by simp, by simp⟩
  | cons p ps ih =>
    obtain ⟨x, y⟩ := p
    intro s hnd hs h1 h2 h3
    rw [List.nodup_cons] at hnd
    obtain ⟨c, hc⟩ := hs (x, y) (by simp)
    dsimp only at hc
    unfold forE
    -- the state after the first edge
    have hstep : ∃ s1, mcfEdgeFl fl capacity L s (x, y) = .ok s1 ∧ s1.paths.Inv ∧ s1.flows = s.flows.addEdge x y (fl (L + flowOf s.flows x y)) ∧
        s1.caps = s.caps.addEdge x y (c.subFl fl L) ∧ s1.balance = s.balance ∧ s1.distances = s1.paths.allPairsFl fl ∧ s1.paths.nodes = s.paths.nodes ∧
        (∀ a b, s1.paths.edge a b = if x = a ∧ y = b ∧ c.subFl fl L = .fin 0 then none else s.paths.edge a b) := by
      unfold mcfEdgeFl
      dsimp only
      rw [hc]
      dsimp only
      by_cases h0 : c.subFl fl L = .fin 0
      · rw [if_pos h0]
        refine ⟨_, rfl, h1.delEdge _ _, rfl, rfl, rfl, rfl, delEdge_nodes .., fun a b => ?_⟩
        dsimp only
        rw [edge_delEdge h1]
        simp [h0]
      · rw [if_neg h0]
        refine ⟨_, rfl, h1, rfl, rfl, rfl, h3, rfl, fun a b => ?_⟩
        rw [if_neg (fun h => h0 h.2.2)]
    obtain ⟨s1, e1, e2, e3, e4, e5, e6, e7, e8⟩ := hstep
    rw [e1]
    dsimp only
    have hcap1 : ∀ a b, mcfCap capacity s1.caps a b = if x = a ∧ y = b then some (c.subFl fl L) else mcfCap capacity s.caps a b := by
      intro a b
      unfold mcfCap
      rw [e4, edge_addEdge]
      by_cases hab : x = a ∧ y = b
      · rw [if_pos hab, if_pos hab]
      · rw [if_neg hab, if_neg hab]
    have hne : ∀ a b, (a, b) ∈ ps → ¬ (x = a ∧ y = b) := by
      rintro a b hab ⟨rfl, rfl⟩; exact hnd.1 hab
    obtain ⟨s', g1, g2, g3, g4, g5, g6, g7, g8, g9⟩ := ih s1 hnd.2 (fun p hp => by
      rw [hcap1, if_neg (hne p.1 p.2 hp)]; exact hs p (List.mem_cons_of_mem _ hp)) e2 (by rw [e3]; exact h2.addEdge _ _ _) e6
    refine ⟨s', g1, g2, g3, g4, g5.trans e5, g6.trans e7, fun a b => ?_, ?_⟩
    · rw [g7, e3]
      by_cases hab : (a, b) ∈ ps
      · rw [if_pos hab, if_pos (List.mem_cons_of_mem _ hab)]
        unfold flowOf
        rw [edge_addEdge, if_neg (hne a b hab)]
      · rw [if_neg hab, edge_addEdge]
        by_cases hxy : x = a ∧ y = b
        · rw [if_pos hxy, if_pos (by rw [hxy.1, hxy.2]; simp), hxy.1, hxy.2]
        · rw [if_neg hxy, if_neg]
          rw [List.mem_cons, Prod.mk.injEq]
          rintro (h | h)
          · exact hxy ⟨h.1.symm, h.2.symm⟩
          · exact hab h
    · have hcap' : ∀ a b, mcfCap capacity s'.caps a b = if (a, b) ∈ (x, y) :: ps then (mcfCap capacity s.caps a b).map (fun c => c.subFl fl L)
          else mcfCap capacity s.caps a b := by
        intro a b
        rw [g8, hcap1]
        by_cases hab : (a, b) ∈ ps
        · rw [if_pos hab, if_pos (List.mem_cons_of_mem _ hab), if_neg (hne a b hab)]
        · rw [if_neg hab]
          by_cases hxy : x = a ∧ y = b
          · obtain ⟨rfl, rfl⟩ := hxy
            rw [if_pos ⟨rfl, rfl⟩, if_pos (by simp), hc]; rfl
          · rw [if_neg hxy, if_neg]
            rw [List.mem_cons, Prod.mk.injEq]
            rintro (h | h)
            · exact hxy ⟨h.1.symm, h.2.symm⟩
            · exact hab h
      refine ⟨hcap', fun a b => ?_⟩
      rw [g9, e8]
      by_cases hab : (a, b) ∈ ps
      · have hm : (a, b) ∈ (x, y) :: ps := List.mem_cons_of_mem _ hab
        simp only [hab, hm, true_and]
        have := hne a b hab
        rw [if_neg (c := x = a ∧ y = b ∧ c.subFl fl L = .fin 0) (fun h => this ⟨h.1, h.2.1⟩)]
      · rw [if_neg (fun h => hab h.1)]
        by_cases hxy : x = a ∧ y = b
        · obtain ⟨rfl, rfl⟩ := hxy
          have hm : (x, y) ∈ (x, y) :: ps := by simp
          rw [hcap' x y, if_pos hm, hc]
          simp only [true_and, hm, Option.map_some, Option.some.injEq]
        · rw [if_neg (fun h => hxy ⟨h.1, h.2.1⟩), if_neg]
          rintro ⟨h, -⟩
          rw [List.mem_cons, Prod.mk.injEq] at h
          rcases h with h | h
          · exact hxy ⟨h.1.symm, h.2.symm⟩
          · exact hab h


/-! ### the invariant -/

/-- after `k` iterations: `F` is the exact sum of what was moved -/
structure McfInvFl (fl : Rat → Rat) (ε : Rat) (nlt : α → α → Bool) (costs : Graph α Rat O) (capacity : Graph α Ext O) (stock : α → Rat) (s : McfSt α O)
    (F : α → α → Rat) (k : Nat) : Prop where
  pinv : s.paths.Inv
  finv : s.flows.Inv
  pnodes : ∀ x, x ∈ s.paths.nodeList ↔ x ∈ costs.nodeList
  dist : s.distances = s.paths.allPairsFl fl
  psub : ∀ a b c, s.paths.edge a b = some c → costs.edge a b = some c
  pall : ∀ a b c, costs.edge a b = some c → mcfCap capacity s.caps a b ≠ some (.fin 0) → s.paths.edge a b = some c
  nonneg : ∀ a b, 0 ≤ F a b
  Fedge : ∀ a b, F a b ≠ 0 → (costs.edge a b).isSome
  near : ∀ a b, NearTo ε k (F a b) (flowOf s.flows a b)
  fedge : ∀ a b v, s.flows.edge a b = some v → (costs.edge a b).isSome
  cap : ∀ a b c, capacity.edge a b = some c → ∃ r, mcfCap capacity s.caps a b = some r ∧
    ((c = .inf ∧ r = .inf) ∨ ∃ q x, c = .fin q ∧ r = .fin x ∧ 0 ≤ x ∧ NearTo ε k q (F a b + x))
  bnodup : (s.balance.map (·.2)).Nodup
  bmem : ∀ v n, (v, n) ∈ s.balance → n ∈ costs.nodeList ∧ v ≠ 0
  bsorted : s.balance.Pairwise (fun a b => balLt nlt b a = false)
  left : ∀ n ∈ costs.nodeList, ∀ r, Left s.balance n r →
    (0 ≤ stock n ∧ 0 ≤ r ∧ 0 ≤ netOut costs.nodeList F n ∧ NearTo ε k (stock n) (netOut costs.nodeList F n + r)) ∨
    (stock n ≤ 0 ∧ r ≤ 0 ∧ netOut costs.nodeList F n ≤ 0 ∧ NearTo ε k (-stock n) (-netOut costs.nodeList F n + -r))

/-- what the loop returns after at most `K` iterations -/
def McfPostFl (ε : Rat) (K : Nat) (costs : Graph α Rat O) (capacity : Graph α Ext O) (stock : α → Rat) (r : Py (Graph α Rat O)) : Prop :=
  ∃ F, IsShipmentUpTo ε K costs.nodeList costs.edge capacity.edge stock F ∧
  ((∃ f, r = .ok f ∧ f.Inv ∧ (∀ a b v, f.edge a b = some v → (costs.edge a b).isSome) ∧ (∀ a b, NearTo ε K (F a b) (flowOf f a b)) ∧
    ShipDoneUpTo ε K costs.nodeList stock F) ∨
  (r = .error .exception ∧ ShipStuckUpTo ε K costs.nodeList costs.edge capacity.edge stock F))

theorem zero_of_near {ε : Rat} {n : Nat} {y : Rat} (h : NearTo ε n 0 y) : y = 0 := by
  obtain ⟨a, b⟩ := h
  rw [Rat.mul_zero] at a b; grind

section
variable {ε : Rat} (h0 : 0 ≤ ε) (h1 : ε ≤ 1)
include h0 h1

theorem McfInvFl.cap0 {fl : Rat → Rat} {nlt : α → α → Bool} {costs : Graph α Rat O} {capacity : Graph α Ext O} {stock : α → Rat} {s : McfSt α O}
    {F : α → α → Rat} {k : Nat} (h : McfInvFl fl ε nlt costs capacity stock s F k) {a b : α} {q : Rat} (hq : capacity.edge a b = some (.fin q)) : 0 ≤ q := by
  obtain ⟨r, _, h2 | ⟨q', x, h2, rfl, h3, h4⟩⟩ := h.cap a b _ hq
  · cases h2.1
  · cases h2
    have p2 := one_le_pow' (x := 1 + ε) (by grind) k
    have hF := h.nonneg a b
    have := h4.2
    by_cases hq0 : 0 ≤ q
    · exact hq0
    · have : (1 + ε) ^ k * q < 0 := by
        have := Rat.mul_lt_mul_of_pos_left (show q < 0 by grind) (show 0 < (1 + ε) ^ k by grind)
        rwa [Rat.mul_zero] at this
      grind

theorem McfInvFl.shipment {fl : Rat → Rat} {nlt : α → α → Bool} {costs : Graph α Rat O} {capacity : Graph α Ext O} {stock : α → Rat} {s : McfSt α O}
    {F : α → α → Rat} {k K : Nat} (hk : k ≤ K)
    (h : McfInvFl fl ε nlt costs capacity stock s F k) (hlinks : ∀ a b, (costs.edge a b).isSome → (capacity.edge a b).isSome) :
    IsShipmentUpTo ε K costs.nodeList costs.edge capacity.edge stock F := by
  refine ⟨h.nonneg, h.Fedge, ?_, ?_, ?_⟩
  · intro a b hab
    obtain ⟨c, hc⟩ := Option.isSome_iff_exists.1 (hlinks a b (h.Fedge a b hab))
    refine ⟨c, hc, fun q hq => ?_⟩
    subst hq
    have hq0 := h.cap0 h0 h1 hc
    obtain ⟨r, _, h2 | ⟨q', x, h2, rfl, h3, h4⟩⟩ := h.cap a b _ hc
    · cases h2.1
    · cases h2
      have := (h4.mono h0 h1 hq0 hk).2
      grind
  · intro n hn hs
    obtain ⟨r, hr⟩ := left_exists s.balance n
    rcases h.left n hn r hr with ⟨a1, a2, a3, a4⟩ | ⟨a1, a2, a3, a4⟩
    · have := (a4.mono h0 h1 a1 hk).2
      exact ⟨a3, by grind⟩
    · have : stock n = 0 := by grind
      rw [this] at a4 ⊢
      have := zero_of_near (show NearTo ε k 0 _ by simpa using a4)
      rw [Rat.mul_zero]
      grind
  · intro n hn hs
    obtain ⟨r, hr⟩ := left_exists s.balance n
    rcases h.left n hn r hr with ⟨a1, a2, a3, a4⟩ | ⟨a1, a2, a3, a4⟩
    · have : stock n = 0 := by grind
      rw [this] at a4 ⊢
      have := zero_of_near a4
      rw [Rat.mul_zero]
      grind
    · have := (a4.mono h0 h1 (by grind) hk).2
      exact ⟨by grind, a3⟩

end

theorem FlWalk.walkOf {fl : Rat → Rat} {w : α → α → Option Rat} {av : List α} {a b : α} {p : List α} {c : Rat} (h : FlWalk fl w av a b p c) :
    ∃ d, WalkOf w a b p d := by
  have key : ∀ (p : List α) (acc c : Rat), flCost fl w acc p = some c → ∃ d, walkCost w p = some d := by
    intro p
    induction p with
    | nil => intro acc c h; simp [flCost] at h
    | cons x l ih =>
      cases l with
      | nil => intro acc c _; exact ⟨0, rfl⟩
      | cons y l =>
        intro acc c h
        simp only [flCost] at h
        split at h
        · rename_i d hd
          obtain ⟨e, he⟩ := ih _ _ h
          refine ⟨d + e, ?_⟩
          simp only [walkCost, hd, he]
        · cases h
  obtain ⟨h1, h2, h3, _⟩ := h
  obtain ⟨d, hd⟩ := key _ _ _ h3
  exact ⟨d, h1, h2, hd⟩

omit [DecidableEq α] in
theorem WalkOf.flWalk (fl : Rat → Rat) {w : α → α → Option Rat} {a b : α} {p : List α} {d : Rat} (h : WalkOf w a b p d) : ∃ c, FlWalk fl w [] a b p c := by
  have key : ∀ (p : List α) (acc d : Rat), walkCost w p = some d → ∃ c, flCost fl w acc p = some c := by
    intro p
    induction p with
    | nil => intro acc d h; cases h
    | cons x l ih =>
      cases l with
      | nil => intro acc c _; exact ⟨acc, rfl⟩
      | cons y l =>
        intro acc d h
        simp only [walkCost] at h
        split at h
        · rename_i c e hc he
          obtain ⟨r, hr⟩ := ih (fl (acc + c)) _ he
          exact ⟨r, by simp only [flCost, hc]; exact hr⟩
        · cases h
  obtain ⟨h1, h2, h3⟩ := h
  obtain ⟨c, hc⟩ := key _ 0 _ h3
  exact ⟨c, h1, h2, hc, by simp⟩

/-- the balance after one transfer -/
theorem mcfBalFl_eq (nlt : α → α → Bool) (d e : Rat) (dn en : α) (rest : List (Rat × α)) :
    (let bal := if 0 < e then insSorted (balLt nlt) (e, en) rest else rest
     if d < 0 then insSorted (balLt nlt) (d, dn) bal else bal) = mcfBal nlt d dn e en 0 rest := by
  unfold mcfBal
  rw [Rat.add_zero, show e - 0 = e by grind]

theorem RelErr.pos {fl : Rat → Rat} {ε : Rat} (h1 : ε < 1) (hε : RelErr fl ε) {x : Rat} (hx : 0 < x) : 0 < fl x := by
  have := (hε x (by grind)).1
  have h2 := Rat.mul_pos (show 0 < 1 - ε by grind) hx
  grind

theorem mcfStepFl_inv {fl : Rat → Rat} (hfl : Rounding fl) (hodd : ∀ x, fl (-x) = -fl x) {ε : Rat} (h0 : 0 ≤ ε) (h1 : ε < 1) (hε : RelErr fl ε)
    {nlt : α → α → Bool} (ho : NodeOrder nlt) {costs : Graph α Rat O} (hc : costs.Inv) (hnn : NonNeg costs.edge)
    {capacity : Graph α Ext O} (hlinks : ∀ a b, (costs.edge a b).isSome → (capacity.edge a b).isSome) {stock : α → Rat} {s : McfSt α O}
    {F : α → α → Rat} {k K : Nat} (hk : k ≤ K)
    (h : McfInvFl fl ε nlt costs capacity stock s F k) :
    (∃ s' F', mcfStepFl fl nlt capacity s = some (.inl s') ∧ McfInvFl fl ε nlt costs capacity stock s' F' (k + 1) ∧ mcfMeasure costs s' < mcfMeasure costs s) ∨
    (∃ r, mcfStepFl fl nlt capacity s = some (.inr r) ∧ McfPostFl ε K costs capacity stock r) := by
  have h1' : ε ≤ 1 := by grind
  have hship := h.shipment h0 h1' hk hlinks
  have hpK1 := pow_le_one' (x := 1 - ε) (by grind) (by grind) K
  have hpK2 := one_le_pow' (x := 1 + ε) (by grind) K
  have hdone : ShipDoneUpTo ε K costs.nodeList stock F → McfPostFl ε K costs capacity stock (.ok s.flows) :=
    fun hd => ⟨F, hship, .inl ⟨_, rfl, h.finv, h.fedge, fun a b => (h.near a b).mono h0 h1' (h.nonneg a b) hk, hd⟩⟩
  unfold mcfStepFl
  have hleft := h.left
  have hbm := h.bmem
  have hbs := h.bsorted
  have hbn := h.bnodup
  generalize hbal : s.balance = B at hleft hbm hbs hbn
  -- a demand with nothing left is met
  have hmet : ∀ n ∈ costs.nodeList, stock n < 0 → ∀ r, Left B n r → 0 ≤ r → netOut costs.nodeList F n ≤ (1 - ε) ^ K * stock n := by
    intro n hn hst r hr hr0
    rcases hleft n hn r hr with ⟨a1, a2, a3, a4⟩ | ⟨a1, a2, a3, a4⟩
    · grind
    · have := (a4.mono h0 h1' (by grind) hk).1
      grind
  have hsent : ∀ n ∈ costs.nodeList, 0 < stock n → ∀ r, Left B n r → r ≤ 0 → (1 - ε) ^ K * stock n ≤ netOut costs.nodeList F n := by
    intro n hn hst r hr hr0
    rcases hleft n hn r hr with ⟨a1, a2, a3, a4⟩ | ⟨a1, a2, a3, a4⟩
    · have := (a4.mono h0 h1' (by grind) hk).1
      grind
    · grind
  cases B with
  | nil =>
    exact .inr ⟨_, rfl, hdone (.inl fun n hn hst => hmet n hn hst 0 (.inr ⟨by simp, rfl⟩) Rat.le_refl)⟩
  | cons x bal =>
    obtain ⟨D, dn⟩ := x
    dsimp only
    have hdV := (hbm D dn (by simp)).1
    have hD0 := (hbm D dn (by simp)).2
    by_cases hDp : 0 < D
    · rw [if_pos hDp]
      refine .inr ⟨_, rfl, hdone (.inl fun n hn hst => ?_)⟩
      obtain ⟨r, hr⟩ := left_exists ((D, dn) :: bal) n
      refine hmet n hn hst r hr ?_
      rcases hr with hr | ⟨_, hr⟩
      · rcases List.mem_cons.1 hr with e | hr
        · cases e; grind
        · have := balLt_head hbs hr; grind
      · rw [hr]; exact Rat.le_refl
    rw [if_neg hDp]
    have hDn : D < 0 := by grind
    -- the distances
    have hpw : NonNeg s.paths.edge := fun a b c hab => hnn a b c (h.psub a b c hab)
    have hncyc : NoNegCycle s.paths.edge := fun a p c hw => hw.nonneg hpw
    obtain ⟨hmat0, hdist0⟩ := allPairs_spec h.pinv hncyc
    obtain ⟨hmat, hwithin⟩ := allPairsFl_within h0 h1' hε h.pinv hpw
    rw [← h.dist] at hmat hwithin
    have hreachable : ∀ n, n ∈ s.paths.nodeList → (at2 s.distances n dn = .inf ↔ ¬ ∃ p c, WalkOf s.paths.edge n dn p c) := by
      intro n hn
      have hdm := (h.pnodes dn).2 hdV
      rw [(hwithin n dn hn hdm).inf_iff]
      have := hdist0 n dn hn hdm
      cases hd : at2 s.paths.allPairs n dn with
      | inf =>
        rw [hd] at this
        exact Iff.intro (fun _ => this) (fun _ => rfl)
      | fin q =>
        rw [hd] at this
        obtain ⟨⟨p, hp⟩, _⟩ := this
        exact ⟨fun e => (nomatch e), fun e => absurd ⟨p, q, hp⟩ e⟩
    have hmemV : ∀ v n, (v, n) ∈ bal → n ∈ s.paths.nodeList := fun v n hv => (h.pnodes n).2 (hbm v n (List.mem_cons_of_mem _ hv)).1
    obtain ⟨sites, hsites, hsm⟩ := mcfSites_spec hmat ((h.pnodes dn).2 hdV) bal hmemV
    rw [hsites]
    dsimp only
    have hperm := pySort_perm (siteLt nlt) sites
    have hpw2 := pySort_pairwise (siteLt_trans ho) (siteLt_asymm ho) sites
    generalize pySort (siteLt nlt) sites = sorted at hperm hpw2
    cases sorted with
    | nil =>
      refine .inr ⟨_, rfl, hdone (.inr fun n hn hst => ?_)⟩
      have hs0 : sites = [] := hperm.nil_eq.symm
      obtain ⟨r, hr⟩ := left_exists ((D, dn) :: bal) n
      refine hsent n hn hst r hr ?_
      rcases hr with hr | ⟨_, hr⟩
      · rcases List.mem_cons.1 hr with e | hr
        · cases e; grind
        · by_cases hr0 : 0 < r
          · have := (hsm (at2 s.distances n dn) r n).2 ⟨hr, hr0, rfl⟩
            rw [hs0] at this; cases this
          · grind
      · rw [hr]; exact Rat.le_refl
    | cons x rest' =>
      obtain ⟨dist, E, en⟩ := x
      dsimp only
      have hx := hperm.mem_iff.1 (List.mem_cons_self : (dist, E, en) ∈ (dist, E, en) :: rest')
      obtain ⟨hEb, hE0, hdisteq⟩ := (hsm dist E en).1 hx
      rw [if_neg (by grind)]
      have henV := (hbm E en (List.mem_cons_of_mem _ hEb)).1
      have hlE : 0 ≤ stock en ∧ 0 ≤ netOut costs.nodeList F en ∧ NearTo ε k (stock en) (netOut costs.nodeList F en + E) := by
        rcases hleft en henV E (.inl (List.mem_cons_of_mem _ hEb)) with ⟨a1, a2, a3, a4⟩ | ⟨a1, a2, a3, a4⟩
        · exact ⟨a1, a3, a4⟩
        · grind
      have hlD : stock dn ≤ 0 ∧ netOut costs.nodeList F dn ≤ 0 ∧ NearTo ε k (-stock dn) (-netOut costs.nodeList F dn + -D) := by
        rcases hleft dn hdV D (.inl (by simp)) with ⟨a1, a2, a3, a4⟩ | ⟨a1, a2, a3, a4⟩
        · grind
        · exact ⟨a1, a3, a4⟩
      by_cases hinf : dist = .inf
      · rw [if_pos hinf]
        have hEst : 0 < stock en := by
          by_cases hz : stock en = 0
          · rw [hz] at hlE; have := zero_of_near hlE.2.2; grind
          · grind
        have hDst : stock dn < 0 := by
          by_cases hz : stock dn = 0
          · rw [hz] at hlD
            have := zero_of_near (show NearTo ε k 0 _ by simpa using hlD.2.2)
            grind
          · grind
        refine .inr ⟨_, rfl, F, hship, .inr ⟨rfl, ⟨en, henV, hEst, ?_⟩, dn, hdV, ?_, hDst, ?_⟩⟩
        · have := (hlE.2.2.mono h0 h1' hlE.1 hk).2; grind
        · have := (hlD.2.2.mono h0 h1' (by grind) hk).2; grind
        · intro n hn hst hnet hreach
          obtain ⟨r, hr⟩ := left_exists ((D, dn) :: bal) n
          have hr0 : 0 < r := by
            by_cases hle : r ≤ 0
            · have := hsent n hn hst r hr hle; grind
            · grind
          rcases hr with hr | ⟨_, hr⟩
          · rcases List.mem_cons.1 hr with e | hr
            · cases e; grind
            · have hin := (hsm (at2 s.distances n dn) r n).2 ⟨hr, hr0, rfl⟩
              rw [← hperm.mem_iff] at hin
              have hall : at2 s.distances n dn = .inf := by
                rcases List.mem_cons.1 hin with e | hin
                · cases e; exact hinf
                · have := (List.pairwise_cons.1 hpw2).1 _ hin
                  simp only [siteLt, Bool.or_eq_false_iff, Ext.ltB, hinf] at this
                  have h3 := this.1
                  rw [← Bool.not_eq_true, Ext.gt_iff, Classical.not_not] at h3
                  cases hd : at2 s.distances n dn with
                  | inf => rfl
                  | fin q => rw [hd] at h3; exact absurd h3 (by simp [Ext.le])
              apply (hreachable n (hmemV r n hr)).1 hall
              obtain ⟨p, hp⟩ := (reach_iff_walk).1 hreach
              have hp2 : WalkFT (fun a b => (s.paths.edge a b).isSome) n dn p := by
                refine ⟨hp.1.mono (fun a b hab => ?_), hp.2⟩
                obtain ⟨h4, c, h5, h6⟩ := hab
                obtain ⟨w, hw⟩ := Option.isSome_iff_exists.1 h4
                rw [h.pall a b w hw]; · rfl
                intro e
                obtain ⟨r', hr', hcase⟩ := h.cap a b c h5
                rw [e] at hr'
                cases hr'
                rcases hcase with ⟨_, hcase⟩ | ⟨q, x, hq, hx', _, hnear⟩
                · cases hcase
                · cases hx'
                  subst hq
                  have := h6 q rfl
                  have := (hnear.mono h0 h1' (h.cap0 h0 h1' h5) hk).1
                  grind
              obtain ⟨c, hc⟩ := hp2.walkOf
              exact ⟨p, c, hc⟩
          · grind
      · rw [if_neg hinf]
        -- the path
        have hex : ∃ p c, WalkOf s.paths.edge en dn p c := by
          refine Classical.not_not.1 (fun hno => hinf ?_)
          rw [hdisteq]; exact (hreachable en (hmemV E en hEb)).2 hno
        obtain ⟨p0, q0, hp0⟩ := hex
        have hhe : s.paths.has en = true := has_iff.2 (hmemV E en hEb)
        have hhd : s.paths.has dn = true := has_iff.2 ((h.pnodes dn).2 hdV)
        obtain ⟨r, hspr, hsp⟩ := shortestPathFl_spec hfl h.pinv hpw [] hhe hhd
        have hnd := shortestPathFl_nodup hspr
        rw [hspr]
        clear hspr
        have hsp' : ∃ d', WalkOf s.paths.edge en dn r.2 d' := by
          rcases hsp with ⟨d', hd', hw, hmin⟩ | ⟨_, hno⟩
          · exact hw.walkOf
          · obtain ⟨c, hc⟩ := hp0.flWalk fl
            exact absurd ⟨p0, c, hc⟩ hno
        obtain ⟨d', hw⟩ := hsp'
        obtain ⟨rd, path⟩ := r
        dsimp only at hw hnd ⊢
        have hnodes : (dn :: (bal.map (·.2))).Nodup := by simpa using hbn
        have hne : en ≠ dn := by
          rintro rfl
          exact (List.nodup_cons.1 hnodes).1 (List.mem_map.2 ⟨(E, en), hEb, rfl⟩)
        have hcon : Consec (fun a b => (s.paths.edge a b).isSome) path := hw.walkFT.1
        have hlen : 2 ≤ path.length := by
          obtain ⟨h1, h2, _⟩ := hw
          match path with
          | [] => cases h1
          | [x] => simp at h1 h2; exact absurd (h1.symm.trans h2) hne
          | _ :: _ :: _ => simp
        have hpne : pairs path ≠ [] := by
          match path, hlen with
          | _ :: _ :: _, _ => simp [pairs]
        have hpedge : ∀ a b, (a, b) ∈ pairs path → ∃ w, s.paths.edge a b = some w ∧ costs.edge a b = some w := by
          intro a b hab
          obtain ⟨w, hw⟩ := Option.isSome_iff_exists.1 (pairs_rel hcon hab)
          exact ⟨w, hw, h.psub a b w hw⟩
        have hpcap : ∀ a b, (a, b) ∈ pairs path → ∃ c, capacity.edge a b = some c := by
          intro a b hab
          obtain ⟨w, _, hw⟩ := hpedge a b hab
          exact Option.isSome_iff_exists.1 (hlinks a b (by rw [hw]; rfl))
        have hpleft : ∀ p ∈ pairs path, ∃ c, mcfCap capacity s.caps p.1 p.2 = some c := by
          rintro ⟨a, b⟩ hab
          obtain ⟨c, hcc⟩ := hpcap a b hab
          obtain ⟨r, hr, _⟩ := h.cap a b c hcc
          exact ⟨r, hr⟩
        obtain ⟨lim, hlim, ⟨p1, hp1, hp1c⟩, hlimle⟩ := mcfLimit_spec (capacity := capacity) (caps := s.caps) (pairs path) hpne hpleft
        rw [hlim]
        dsimp only
        have hlim0 : Ext.le (.fin 0) lim := by
          obtain ⟨c, hcc⟩ := hpcap p1.1 p1.2 hp1
          obtain ⟨r, h1, h2⟩ := h.cap p1.1 p1.2 c hcc
          rw [h1] at hp1c; cases hp1c
          rcases h2 with ⟨_, rfl⟩ | ⟨q, x, _, rfl, hx0, _⟩
          · trivial
          · exact hx0
        obtain ⟨hL0, hLE, hLD, hLlim, hLcase⟩ := mcfL_spec hE0 hDn hlim0
        generalize mcfL E D lim = L at hL0 hLE hLD hLlim hLcase
        obtain ⟨s', hfor, g1, g2, g3, g4, g5, g6, g7, g8⟩ := mcfEdgeFl_fold (fl := fl) (capacity := capacity) L (pairs path) s (pairs_nodup hnd)
          hpleft h.pinv h.finv h.dist
        rw [hfor]
        dsimp only
        -- the balance
        have hrestp : bal.Perm ((E, en) :: bal.erase (E, en)) := List.perm_cons_erase hEb
        have hrestn : (dn :: en :: (bal.erase (E, en)).map (·.2)).Nodup := by
          have : (bal.map (·.2)).Perm (en :: (bal.erase (E, en)).map (·.2)) := hrestp.map (·.2)
          exact (this.cons dn).nodup_iff.1 hnodes
        have hrests : (bal.erase (E, en)).Pairwise (fun a b => balLt nlt b a = false) :=
          (List.pairwise_cons.1 hbs).2.sublist List.erase_sublist
        have hflD : fl (D + L) = -fl (-D - L) := by rw [← hodd]; congr 1; grind
        have hpE : 0 ≤ fl (E - L) := by have := hfl.mono 0 (E - L) (by grind); rwa [hfl.zero] at this
        have hpD : 0 ≤ fl (-D - L) := by have := hfl.mono 0 (-D - L) (by grind); rwa [hfl.zero] at this
        obtain ⟨b1, b2, b3, b4⟩ := mcfBal_spec (D := fl (D + L)) (E := fl (E - L)) (L := 0) ho hrests hrestn
        have hb := mcfBalFl_eq nlt (fl (D + L)) (fl (E - L)) dn en (bal.erase (E, en))
        dsimp only at hb
        rw [hb]
        generalize hrest : bal.erase (E, en) = rest at *
        generalize hBeq : mcfBal nlt (fl (D + L)) dn (fl (E - L)) en 0 rest = B' at *
        rw [Rat.add_zero, show fl (E - L) - 0 = fl (E - L) by grind] at b3 b4
        let F' : α → α → Rat := fun a b => if (a, b) ∈ pairs path then F a b + L else F a b
        have hflow : ∀ a b, F' a b = if (a, b) ∈ pairs path then F a b + L else F a b := fun _ _ => rfl
        have hpU : ∀ x ∈ path, x ∈ costs.nodeList := by
          intro x hx
          obtain ⟨y, hy | hy⟩ := mem_pairs_of_mem hx hlen
          · obtain ⟨w, _, hw⟩ := hpedge _ _ hy; exact (hc.edge_mem hw).1
          · obtain ⟨w, _, hw⟩ := hpedge _ _ hy; exact (hc.edge_mem hw).2
        have hsum := sumL_fun_add (U := costs.nodeList) hflow hnd hpU hc.nodesWF
        obtain ⟨ht1, ht2, ht3, ht4⟩ := walk_tail_dropLast hw.1 hw.2.1 hnd hne
        have ht5 : dn ∈ path.tail := by
          have hm := List.mem_of_getLast? hw.2.1
          have hh := hw.1
          cases path with
          | nil => cases hm
          | cons a l =>
            simp at hh; subst hh
            rcases List.mem_cons.1 hm with e | e
            · exact absurd e.symm hne
            · exact e
        have hnet : ∀ n, netOut costs.nodeList F' n = netOut costs.nodeList F n +
            ((if n ∈ path.dropLast then L else 0) - (if n ∈ path.tail then L else 0)) := by
          intro n; unfold netOut; rw [(hsum n).1, (hsum n).2]; grind
        refine .inl ⟨_, F', rfl, ⟨g1, g2, ?_, g3, ?_, ?_, ?_, ?_, ?_, ?_, ?_, b2, ?_, b1, ?_⟩, ?_⟩
        · intro x
          show x ∈ s'.paths.nodes.keys ↔ _
          rw [g5]; exact h.pnodes x
        · intro a b c hab
          have hab : s'.paths.edge a b = some c := hab
          rw [g8] at hab
          split at hab
          · cases hab
          · exact h.psub a b c hab
        · intro a b c hab hcap
          show s'.paths.edge a b = some c
          have hcap : mcfCap capacity s'.caps a b ≠ some (.fin 0) := hcap
          rw [g8, if_neg (fun h => hcap h.2)]
          by_cases hm : (a, b) ∈ pairs path
          · obtain ⟨w, hw1, hw2⟩ := hpedge a b hm
            rw [hab] at hw2; cases hw2; exact hw1
          · rw [g7, if_neg hm] at hcap
            exact h.pall a b c hab hcap
        · intro a b
          rw [hflow]; have := h.nonneg a b; split <;> grind
        · intro a b hab
          rw [hflow] at hab
          split at hab
          · rename_i hm; obtain ⟨w, _, hw⟩ := hpedge a b hm; rw [hw]; rfl
          · exact h.Fedge a b hab
        · intro a b
          rw [hflow]
          show NearTo _ _ _ (flowOf s'.flows a b)
          by_cases hm : (a, b) ∈ pairs path
          · have : flowOf s'.flows a b = fl (L + flowOf s.flows a b) := by
              conv => lhs; unfold flowOf
              rw [g6, if_pos hm]; rfl
            rw [if_pos hm, this]
            exact (h.near a b).add h0 h1' hε (h.nonneg a b) hL0
          · have : flowOf s'.flows a b = flowOf s.flows a b := by unfold flowOf; rw [g6, if_neg hm]
            rw [if_neg hm, this]
            exact (h.near a b).succ h0 h1' (h.nonneg a b)
        · intro a b v hv
          have hv : s'.flows.edge a b = some v := hv
          rw [g6] at hv
          split at hv
          · rename_i hm; obtain ⟨w, _, hw⟩ := hpedge a b hm; rw [hw]; rfl
          · exact h.fedge a b v hv
        · intro a b c hcc
          obtain ⟨r, hr, hcase⟩ := h.cap a b c hcc
          show ∃ r, mcfCap capacity s'.caps a b = some r ∧ _
          rw [g7, hflow]
          by_cases hm : (a, b) ∈ pairs path
          · rw [if_pos hm, if_pos hm, hr]
            refine ⟨_, rfl, ?_⟩
            rcases hcase with ⟨rfl, rfl⟩ | ⟨q, x, rfl, rfl, hx0, hnear⟩
            · exact .inl ⟨rfl, rfl⟩
            · have hLx : L ≤ x := by
                have := Ext.le_trans hLlim (hlimle (a, b) hm _ hr)
                exact this
              refine .inr ⟨q, _, rfl, rfl, ?_, hnear.use h0 h1' hε (h.nonneg a b) hL0 hLx⟩
              have := hfl.mono 0 (x - L) (by grind)
              rwa [hfl.zero] at this
          · rw [if_neg hm, if_neg hm]
            refine ⟨r, hr, ?_⟩
            rcases hcase with hcase | ⟨q, x, rfl, rfl, hx0, hnear⟩
            · exact .inl hcase
            · exact .inr ⟨q, x, rfl, rfl, hx0, hnear.succ h0 h1' (h.cap0 h0 h1' hcc)⟩
        · intro v n hv
          have hv : (v, n) ∈ B' := hv
          rw [b3] at hv
          rcases hv with ⟨h1, rfl, rfl⟩ | ⟨h1, rfl, rfl⟩ | hv
          · exact ⟨hdV, by grind⟩
          · exact ⟨henV, by grind⟩
          · exact hbm v n (List.mem_cons_of_mem _ (hrestp.mem_iff.2 (List.mem_cons_of_mem _ hv)))
        · intro n hn r hr
          have hr : Left B' n r := hr
          rw [hnet]
          rw [List.nodup_cons, List.nodup_cons] at hrestn
          have hdr : ∀ v, (v, dn) ∉ rest := fun v hv => hrestn.1 (List.mem_cons_of_mem _ (List.mem_map.2 ⟨_, hv, rfl⟩))
          have her : ∀ v, (v, en) ∉ rest := fun v hv => hrestn.2.1 (List.mem_map.2 ⟨_, hv, rfl⟩)
          by_cases hnd' : n = dn
          · subst hnd'
            have hrr : r = fl (D + L) := by
              rcases hr with hr | ⟨hrn, hr0⟩
              · rw [b3] at hr
                rcases hr with ⟨_, h1, _⟩ | ⟨_, _, h1⟩ | hr
                · exact h1
                · exact absurd h1.symm hne
                · exact absurd hr (hdr r)
              · have : ¬ fl (D + L) < 0 := fun hlt => hrn _ ((b3 _ _).2 (.inl ⟨hlt, rfl, rfl⟩))
                grind
            rw [if_neg ht3, if_pos ht5, hrr, hflD]
            refine .inr ⟨hlD.1, by grind, by grind, ?_⟩
            have := hlD.2.2.use h0 h1' hε (by grind) hL0 hLD
            rw [show -(netOut costs.nodeList F n + (0 - L)) + - -fl (-D - L) = -netOut costs.nodeList F n + L + fl (-D - L) by grind]
            exact this
          · by_cases hne' : n = en
            · subst hne'
              have hrr : r = fl (E - L) := by
                rcases hr with hr | ⟨hrn, hr0⟩
                · rw [b3] at hr
                  rcases hr with ⟨_, _, h1⟩ | ⟨_, h1, _⟩ | hr
                  · exact absurd h1 hne
                  · exact h1
                  · exact absurd hr (her r)
                · have : ¬ 0 < fl (E - L) := fun hlt => hrn _ ((b3 _ _).2 (.inr (.inl ⟨hlt, rfl, rfl⟩)))
                  grind
              rw [if_pos ht2, if_neg ht1, hrr]
              refine .inl ⟨hlE.1, hpE, by grind, ?_⟩
              have := hlE.2.2.use h0 h1' hε hlE.2.1 hL0 hLE
              rw [show netOut costs.nodeList F n + (L - 0) + fl (E - L) = netOut costs.nodeList F n + L + fl (E - L) by grind]
              exact this
            · have hz : ((if n ∈ path.dropLast then L else 0) - (if n ∈ path.tail then L else 0)) = 0 := by
                have := ht4 n hne' hnd'
                by_cases h5 : n ∈ path.dropLast
                · rw [if_pos h5, if_pos (this.2 h5)]; grind
                · rw [if_neg h5, if_neg (fun h => h5 (this.1 h))]; grind
              rw [hz, Rat.add_zero]
              have hmr : ∀ v, (v, n) ∈ B' ↔ (v, n) ∈ (D, dn) :: bal := by
                intro v
                rw [b3, List.mem_cons, hrestp.mem_iff, List.mem_cons, Prod.mk.injEq, Prod.mk.injEq]
                simp [hnd', hne']
              have hr' : Left ((D, dn) :: bal) n r := by
                rcases hr with hr | ⟨hr, h0⟩
                · exact .inl ((hmr r).1 hr)
                · exact .inr ⟨fun v hv => hr v ((hmr v).2 hv), h0⟩
              rcases hleft n hn r hr' with ⟨a1, a2, a3, a4⟩ | ⟨a1, a2, a3, a4⟩
              · exact .inl ⟨a1, a2, a3, a4.succ h0 h1' a1⟩
              · exact .inr ⟨a1, a2, a3, a4.succ h0 h1' (by grind)⟩
        · -- the measure
          have hsub : ∀ e, (s'.paths.edge e.1 e.2.1).isSome = true → (s.paths.edge (e : α × α × Rat).1 e.2.1).isSome = true := by
            intro e he
            rw [g8] at he
            split at he
            · cases he
            · exact he
          have hle : (costs.edgeList.filter (fun e => (s'.paths.edge e.1 e.2.1).isSome)).length ≤
              (costs.edgeList.filter (fun e => (s.paths.edge e.1 e.2.1).isSome)).length := by
            rw [← List.countP_eq_length_filter, ← List.countP_eq_length_filter]
            exact List.countP_mono_left (fun e _ he => hsub e he)
          have hlenb : s.balance.length = rest.length + 2 := by
            rw [hbal, List.length_cons, hrestp.length_eq, List.length_cons]
          show (costs.edgeList.filter (fun e => (s'.paths.edge e.1 e.2.1).isSome)).length + B'.length <
            (costs.edgeList.filter (fun e => (s.paths.edge e.1 e.2.1).isSome)).length + s.balance.length
          rw [b4, hlenb]
          rcases hLcase with hL | hL | hL
          · rw [if_neg (c := 0 < fl (E - L)) (by rw [hL, show E - E = 0 by grind, hfl.zero]; grind)]
            split <;> omega
          · rw [if_neg (c := fl (D + L) < 0) (by rw [hL, show D + -D = 0 by grind, hfl.zero]; grind)]
            split <;> omega
          · -- an edge of the path is exhausted
            obtain ⟨w, hw1, hw2⟩ := hpedge p1.1 p1.2 hp1
            have hlt : (costs.edgeList.filter (fun e => (s'.paths.edge e.1 e.2.1).isSome)).length <
                (costs.edgeList.filter (fun e => (s.paths.edge e.1 e.2.1).isSome)).length := by
              refine filter_length_lt (y := (p1.1, p1.2, w)) (fun e _ he => hsub e he) (hc.mem_edgeList.2 hw2) ?_ ?_
              · dsimp only; rw [hw1]; rfl
              · dsimp only
                have hcz : mcfCap capacity s'.caps p1.1 p1.2 = some (.fin 0) := by
                  rw [g7, if_pos hp1, hp1c, hL]
                  show some (Ext.fin _) = _
                  rw [show L - L = 0 by grind, hfl.zero]
                rw [g8, if_pos ⟨hp1, hcz⟩]; rfl
            split <;> split <;> omega

/-! ### start and result -/

theorem mcfProducts_spec {fl : Rat → Rat} {costs : Graph α Rat O} (l : List (α × α × Rat)) (hl : ∀ e ∈ l, (costs.edge e.1 e.2.1).isSome) :
    mcfProducts fl costs l = .ok (l.map (fun e => fl (e.2.2 * capOf costs.edge e.1 e.2.1))) := by
  induction l with
  | nil => rfl
  | cons e l ih =>
    obtain ⟨c, hc⟩ := Option.isSome_iff_exists.1 (hl e (by simp))
    unfold mcfProducts
    rw [hc]
    dsimp only
    rw [ih (fun e he => hl e (List.mem_cons_of_mem _ he))]
    have : capOf costs.edge e.1 e.2.1 = c := by unfold capOf; rw [hc]; rfl
    rw [List.map_cons, this]

theorem minCostFlowFl_main {fl : Rat → Rat} (hfl : Rounding fl) (hodd : ∀ x, fl (-x) = -fl x) {ε : Rat} (h0 : 0 ≤ ε) (h1 : ε < 1) (hε : RelErr fl ε)
    (sumf : List Rat → Rat) {nlt : α → α → Bool} (ho : NodeOrder nlt) {costs : Graph α Rat O} (hc : costs.Inv) (hnn : NonNeg costs.edge)
    {inventory : Dict α Rat} (hwf : inventory.WF) (hin : ∀ n v, inventory.get? n = some v → v ≠ 0 → costs.has n = true)
    {capacity : Option (Graph α Ext O)} {capg : Graph α Ext O} (hcap : mcfCapacity costs capacity = .ok capg)
    (hlinks : ∀ a b, (costs.edge a b).isSome → (capg.edge a b).isSome) (hcnn : ∀ a b c, capg.edge a b = some c → Ext.le (.fin 0) c) :
    ∃ F, IsShipmentUpTo ε (costs.edgeList.length + inventory.items.length) costs.nodeList costs.edge capg.edge (stockOf inventory) F ∧
    ((∃ f, costs.minCostFlowFl fl sumf nlt inventory capacity =
        some (.ok (sumf (f.edgeList.map (fun e => fl (e.2.2 * capOf costs.edge e.1 e.2.1))), f)) ∧ f.Inv ∧
      (∀ a b v, f.edge a b = some v → (costs.edge a b).isSome) ∧
      (∀ a b, NearTo ε (costs.edgeList.length + inventory.items.length) (F a b) (flowOf f a b)) ∧
      ShipDoneUpTo ε (costs.edgeList.length + inventory.items.length) costs.nodeList (stockOf inventory) F) ∨
    (costs.minCostFlowFl fl sumf nlt inventory capacity = some (.error .exception) ∧
      ShipStuckUpTo ε (costs.edgeList.length + inventory.items.length) costs.nodeList costs.edge capg.edge (stockOf inventory) F)) := by
  unfold minCostFlowFl
  have hneg : (costs.edgeList.any (fun e => decide (e.2.2 < 0))) = false := by
    rw [List.any_eq_false]
    rintro ⟨a, b, v⟩ he
    have := hnn a b v (hc.mem_edgeList.1 he)
    simp; grind
  rw [hneg, if_neg (by simp), hcap]
  dsimp only
  generalize hB : pySort (balLt nlt) ((inventory.items.filter (fun p => decide (p.2 ≠ 0))).map (fun p => (p.2, p.1))) = B
  have hBm : ∀ v n, (v, n) ∈ B ↔ inventory.get? n = some v ∧ v ≠ 0 := by
    intro v n
    rw [← hB, mem_pySort, Dict.get?_eq_some_iff hwf]
    simp only [List.mem_map, List.mem_filter, decide_eq_true_eq, Prod.mk.injEq, Prod.exists]
    constructor
    · rintro ⟨a, b, ⟨h1, h2⟩, rfl, rfl⟩; exact ⟨h1, h2⟩
    · rintro ⟨h1, h2⟩; exact ⟨n, v, ⟨h1, h2⟩, rfl, rfl⟩
  have hBl : B.length ≤ inventory.items.length := by
    rw [← hB, (pySort_perm (balLt nlt) _).length_eq, List.length_map]
    exact List.length_filter_le ..
  have hI : McfInvFl fl ε nlt costs capg (stockOf inventory) (⟨costs.copy, Graph.empty, Graph.empty, B, costs.copy.allPairsFl fl⟩ : McfSt α O)
      (fun _ _ => 0) 0 := by
    refine ⟨(copy_built costs).inv, inv_empty, ?_, rfl, ?_, ?_, ?_, ?_, ?_, ?_, ?_, ?_, ?_, ?_, ?_⟩
    · intro x
      show x ∈ costs.copy.nodes.keys ↔ x ∈ costs.nodes.keys
      rw [← Dict.get?_isSome_iff, ← Dict.get?_isSome_iff, hc.copy_nodes]
    · intro a b c hab
      have hab : costs.copy.edge a b = some c := hab
      rw [hc.copy_edge] at hab; exact hab
    · intro a b c hab _
      show costs.copy.edge a b = some c
      rw [hc.copy_edge]; exact hab
    · intro a b; exact Rat.le_refl
    · intro a b h; exact absurd rfl h
    · intro a b; exact .refl
    · intro a b v hv; cases hv
    · intro a b c hcc
      have : mcfCap capg (Graph.empty : Graph α Ext O) a b = capg.edge a b := rfl
      refine ⟨c, by rw [← hcc]; exact this, ?_⟩
      have := hcnn a b c hcc
      cases c with
      | inf => exact .inl ⟨rfl, rfl⟩
      | fin q => exact .inr ⟨q, q, rfl, rfl, this, by rw [Rat.zero_add]; exact .refl⟩
    · show (B.map (·.2)).Nodup
      rw [← hB]
      refine ((pySort_perm (balLt nlt) _).map (fun x : Rat × α => x.2)).nodup_iff.2 ?_
      rw [List.map_map]
      show ((inventory.items.filter _).map Prod.fst).Nodup
      exact List.Nodup.sublist (List.filter_sublist.map Prod.fst) hwf
    · intro v n hv
      obtain ⟨h1, h2⟩ := (hBm v n).1 hv
      exact ⟨has_iff.1 (hin n v h1 h2), h2⟩
    · show B.Pairwise _
      rw [← hB]
      exact pySort_pairwise (balLt_trans ho) (balLt_asymm ho) _
    · intro n hn r hr
      have hz : netOut costs.nodeList (fun _ _ => (0 : Rat)) n = 0 := by
        unfold netOut
        rw [sumL_zero]; grind
      rw [hz]
      have hr : Left B n r := hr
      have : r = stockOf inventory n := by
        rcases hr with hr | ⟨hr, h0⟩
        · have := ((hBm r n).1 hr).1
          unfold stockOf; rw [this]; rfl
        · rw [h0]; unfold stockOf
          cases hg : inventory.get? n with
          | none => rfl
          | some v =>
            by_cases hv : v = 0
            · rw [hv]; rfl
            · exact absurd ((hBm v n).2 ⟨hg, hv⟩) (hr v)
      rw [this]
      by_cases hs : 0 ≤ stockOf inventory n
      · exact .inl ⟨hs, hs, Rat.le_refl, by rw [Rat.zero_add]; exact .refl⟩
      · refine .inr ⟨by grind, by grind, Rat.le_refl, ?_⟩
        rw [show -(0 : Rat) + -stockOf inventory n = -stockOf inventory n by grind]
        exact .refl
  obtain ⟨r, hr, F, hF, hpost⟩ := pyWhileD_total
    (fun s => ∃ F k, McfInvFl fl ε nlt costs capg (stockOf inventory) s F k ∧ k + mcfMeasure costs s ≤ costs.edgeList.length + inventory.items.length)
    (fun r => McfPostFl ε (costs.edgeList.length + inventory.items.length) costs capg (stockOf inventory) r) (· < ·)
    Nat.lt_wfRel.wf (mcfMeasure costs) (fun s hs => by
      obtain ⟨F, k, hs, hm⟩ := hs
      rcases mcfStepFl_inv hfl hodd h0 h1 hε ho hc hnn hlinks (K := costs.edgeList.length + inventory.items.length) (by omega) hs with
        ⟨s', F', a1, a2, a3⟩ | h
      · exact .inl ⟨s', a1, ⟨F', k + 1, a2, by omega⟩, a3⟩
      · exact .inr h) ⟨_, 0, hI, by
        have := List.length_filter_le (fun e : α × α × Rat => (costs.copy.edge e.1 e.2.1).isSome) costs.edgeList
        show 0 + ((costs.edgeList.filter (fun e => (costs.copy.edge e.1 e.2.1).isSome)).length + B.length) ≤ _
        omega⟩
  rw [hr]
  refine ⟨F, hF, ?_⟩
  rcases hpost with ⟨f, rfl, h2, h3, h4, h5⟩ | ⟨rfl, h2⟩
  · dsimp only
    left
    rw [mcfProducts_spec f.edgeList (fun e he => h3 e.1 e.2.1 e.2.2 (h2.mem_edgeList.1 he))]
    exact ⟨f, rfl, h2, h3, h4, h5⟩
  · exact .inr ⟨rfl, h2⟩

end GT

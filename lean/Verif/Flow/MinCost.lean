import Verif.Flow.MaxFlow
import Verif.Sp.Apsp
import Verif.Sort
/-
Model of `minimum_cost_flow_using_successive_shortest_path` (graph/min_cost_flow.py).
-/
namespace GT
variable {α O : Type} [DecidableEq α]
open Graph

/-- the locals of the loop: `paths`, `flows`, `capacities`, `balance`, `distances` -/
structure McfSt (α O : Type) where
  paths : Graph α Rat O
  flows : Graph α Rat O
  caps : Graph α Ext O
  balance : List (Rat × α)
  distances : Dict α (Dict α Ext)

/-- `x - L` -/
def Ext.subR : Ext → Rat → Ext
  | .fin a, r => .fin (a - r)
  | .inf, _ => .inf

/-- `a < b` -/
def Ext.ltB (a b : Ext) : Bool := b.gt a

/-- comparison of the tuples `(stock, node)` -/
def balLt (nlt : α → α → Bool) (a b : Rat × α) : Bool := decide (a.1 < b.1) || (decide (a.1 = b.1) && nlt a.2 b.2)

/-- comparison of the tuples `(distance, stock, node)` -/
def siteLt (nlt : α → α → Bool) (a b : Ext × Rat × α) : Bool := a.1.ltB b.1 || (decide (a.1 = b.1) && balLt nlt a.2 b.2)

/-- `distances[a][b]` -/
def at2E (m : Dict α (Dict α Ext)) (a b : α) : Py Ext :=
  match m.get? a with
  | none => .error .keyError
  | some r => match r.get? b with
    | none => .error .keyError
    | some x => .ok x

/-- `[(distances[En][Dn], E, En) for E, En in balance if E > 0]` (min_cost_flow.py:60) -/
def mcfSites (m : Dict α (Dict α Ext)) (dn : α) : List (Rat × α) → Py (List (Ext × Rat × α))
  | [] => .ok []
  | (e, en) :: l =>
    if 0 < e then
      match at2E m en dn with
      | .error er => .error er
      | .ok d => match mcfSites m dn l with
        | .error er => .error er
        | .ok r => .ok ((d, e, en) :: r)
    else mcfSites m dn l

/-- `capacities.edge(s, e, default=capacity.edge(s, e))` -/
def mcfCap (capacity caps : Graph α Ext O) (a b : α) : Option Ext :=
  match caps.edge a b with
  | some c => some c
  | none => capacity.edge a b

/-- `min(...)` over the capacities of the path (min_cost_flow.py:75); `None` cannot be compared -/
def mcfLimit (capacity caps : Graph α Ext O) : List (α × α) → Py Ext
  | [] => .error .valueError
  | [(a, b)] => match mcfCap capacity caps a b with
    | none => .error .typeError
    | some c => .ok c
  | (a, b) :: l => match mcfCap capacity caps a b with
    | none => .error .typeError
    | some c => match mcfLimit capacity caps l with
      | .error e => .error e
      | .ok d => .ok (c.min d)

/-- `min(E, abs(D), capacity_limit)` (min_cost_flow.py:78) -/
def mcfL (e d : Rat) (lim : Ext) : Rat :=
  let m := if -d < e then -d else e
  match lim with
  | .inf => m
  | .fin c => if c < m then c else m

/-- the body of the loop over the edges of the path (min_cost_flow.py:79-86) -/
def mcfEdge (capacity : Graph α Ext O) (L : Rat) (s : McfSt α O) (p : α × α) : Py (McfSt α O) :=
  match mcfCap capacity s.caps p.1 p.2 with
  | none => .error .typeError
  | some c =>
    let nc := c.subR L
    let s := { s with flows := s.flows.addEdge p.1 p.2 (L + flowOf s.flows p.1 p.2), caps := s.caps.addEdge p.1 p.2 nc }
    if nc = .fin 0 then
      let paths := s.paths.delEdge p.1 p.2
      .ok { s with paths := paths, distances := paths.allPairs }
    else .ok s

/-- one iteration of `while balance` (min_cost_flow.py:54-92) -/
def mcfStep (nlt : α → α → Bool) (capacity : Graph α Ext O) (s : McfSt α O) : Option (McfSt α O ⊕ Py (Graph α Rat O)) :=
  match s.balance with
  | [] => some (.inr (.ok s.flows))
  | (D, dn) :: bal =>
    if 0 < D then some (.inr (.ok s.flows))
    else match mcfSites s.distances dn bal with
      | .error e => some (.inr (.error e))
      | .ok sites => match pySort (siteLt nlt) sites with
        | [] => some (.inr (.ok s.flows))
        | (dist, E, en) :: _ =>
          let bal := bal.erase (E, en)
          if E < 0 then some (.inr (.ok s.flows))
          else if dist = .inf then some (.inr (.error .exception))
          else match s.paths.shortestPath en dn with
            | none => none
            | some (.error e) => some (.inr (.error e))
            | some (.ok (_, path)) => match mcfLimit capacity s.caps (pairs path) with
              | .error e => some (.inr (.error e))
              | .ok lim =>
                let L := mcfL E D lim
                match forE (pairs path) s (mcfEdge capacity L) with
                | .error e => some (.inr (.error e))
                | .ok s =>
                  let bal := if 0 < E - L then insSorted (balLt nlt) (E - L, en) bal else bal
                  let bal := if D + L < 0 then insSorted (balLt nlt) (D + L, dn) bal else bal
                  some (.inl { s with balance := bal })

/-- the capacity graph that is used (min_cost_flow.py:31-40), or the exception of the checks -/
def mcfCapacity (costs : Graph α Rat O) : Option (Graph α Ext O) → Py (Graph α Ext O)
  | none => .ok (Graph.empty.addEdges (costs.edgeList.map (fun e => (e.1, e.2.1, Ext.inf))))
  | some c =>
    if c.edgeList.any (fun e => e.2.2.ltB (.fin 0)) then .error .valueError
    else if costs.edgeList.all (fun e => (c.edge e.1 e.2.1).isSome) && c.edgeList.all (fun e => (costs.edge e.1 e.2.1).isSome)
    then .ok c else .error .valueError

/-- `minimum_cost_flow_using_successive_shortest_path(costs, inventory, capacity)` (min_cost_flow.py:7-95).
`nlt` is the order `<` of the node ids that breaks ties in `sort`.  Simplifications: the type checks hold by typing; exact
rationals; `balance.remove((E, En))` finds the tuple, because it was taken from the list; `insort` inserts before equal
tuples (tuples in `balance` differ). -/
def Graph.minCostFlow (nlt : α → α → Bool) (costs : Graph α Rat O) (inventory : Dict α Rat) (capacity : Option (Graph α Ext O)) :
    Option (Py (Rat × Graph α Rat O)) :=
  if costs.edgeList.any (fun e => decide (e.2.2 < 0)) then some (.error .valueError)
  else match mcfCapacity costs capacity with
    | .error e => some (.error e)
    | .ok capacity =>
      let balance := pySort (balLt nlt) ((inventory.items.filter (fun p => decide (p.2 ≠ 0))).map (fun p => (p.2, p.1)))
      let paths := costs.copy
      match pyWhileD (mcfStep nlt capacity) ⟨paths, Graph.empty, Graph.empty, balance, paths.allPairs⟩ with
      | none => none
      | some (.error e) => some (.error e)
      | some (.ok flows) =>
        match forE flows.edgeList (0 : Rat) (fun acc e => match costs.edge e.1 e.2.1 with
          | none => .error .typeError
          | some c => .ok (acc + e.2.2 * c)) with
        | .error e => some (.error e)
        | .ok total => some (.ok (total, flows))

/-! ### the parts of one iteration -/

theorem isMatrix_at2E {V : List α} {m : Dict α (Dict α Ext)} (hm : IsMatrix V m) {a b : α} (ha : a ∈ V) (hb : b ∈ V) :
    at2E m a b = .ok (at2 m a b) := by
  obtain ⟨F, rfl⟩ := hm
  unfold at2E at2
  rw [Dict.comp_get?, if_pos ha]
  simp only [Option.bind_some]
  rw [Dict.comp_get?, if_pos hb]; rfl

theorem mcfSites_spec {V : List α} {m : Dict α (Dict α Ext)} (hm : IsMatrix V m) {dn : α} (hd : dn ∈ V) (l : List (Rat × α))
    (hl : ∀ e en, (e, en) ∈ l → en ∈ V) :
    ∃ sites, mcfSites m dn l = .ok sites ∧ ∀ d e en, (d, e, en) ∈ sites ↔ (e, en) ∈ l ∧ 0 < e ∧ d = at2 m en dn := by
  induction l with
  | nil => exact ⟨[], rfl, by simp⟩
  | cons x l ih =>
    obtain ⟨e, en⟩ := x
    obtain ⟨sites, h1, h2⟩ := ih (fun e en h => hl e en (List.mem_cons_of_mem _ h))
    unfold mcfSites
    by_cases he : 0 < e
    · rw [if_pos he, isMatrix_at2E hm (hl e en (by simp)) hd]
      dsimp only
      rw [h1]
      dsimp only
      refine ⟨_, rfl, fun d e' en' => ?_⟩
      rw [List.mem_cons, h2, List.mem_cons]
      simp only [Prod.mk.injEq]
      constructor
      · rintro (⟨rfl, rfl, rfl⟩ | ⟨h, h', h''⟩)
        · exact ⟨.inl ⟨rfl, rfl⟩, he, rfl⟩
        · exact ⟨.inr h, h', h''⟩
      · rintro ⟨⟨rfl, rfl⟩ | h, h', h''⟩
        · exact .inl ⟨h'', rfl, rfl⟩
        · exact .inr ⟨h, h', h''⟩
    · rw [if_neg he]
      refine ⟨sites, h1, fun d e' en' => ?_⟩
      rw [h2, List.mem_cons]
      constructor
      · rintro ⟨h, h', h''⟩; exact ⟨.inr h, h', h''⟩
      · rintro ⟨h | h, h', h''⟩
        · cases h; exact absurd h' he
        · exact ⟨h, h', h''⟩

theorem mcfLimit_spec {capacity caps : Graph α Ext O} (ps : List (α × α)) (hne : ps ≠ [])
    (hs : ∀ p ∈ ps, ∃ c, mcfCap capacity caps p.1 p.2 = some c) :
    ∃ lim, mcfLimit capacity caps ps = .ok lim ∧ (∃ p ∈ ps, mcfCap capacity caps p.1 p.2 = some lim) ∧
      ∀ p ∈ ps, ∀ c, mcfCap capacity caps p.1 p.2 = some c → lim.le c := by
  induction ps with
  | nil => exact absurd rfl hne
  | cons p ps ih =>
    obtain ⟨a, b⟩ := p
    obtain ⟨c, hc⟩ := hs (a, b) (by simp)
    cases ps with
    | nil =>
      refine ⟨c, ?_, ⟨(a, b), by simp, hc⟩, ?_⟩
      · unfold mcfLimit; dsimp only at hc; rw [hc]
      · intro p hp c' hc'
        simp at hp; subst hp; rw [hc] at hc'; cases hc'; exact Ext.le_refl _
    | cons q qs =>
      obtain ⟨lim, h1, ⟨p', hp', h2⟩, h3⟩ := ih (by simp) (fun p hp => hs p (List.mem_cons_of_mem _ hp))
      refine ⟨c.min lim, ?_, ?_, ?_⟩
      · unfold mcfLimit; dsimp only at hc; rw [hc]; dsimp only; rw [h1]
      · rcases Ext.min_eq c lim with h | h
        · rw [h]; exact ⟨(a, b), by simp, hc⟩
        · rw [h]; exact ⟨p', List.mem_cons_of_mem _ hp', h2⟩
      · intro p hp c' hc'
        rcases List.mem_cons.1 hp with rfl | hp
        · rw [hc] at hc'; cases hc'; exact Ext.min_le_left _ _
        · exact Ext.le_trans (Ext.min_le_right _ _) (h3 p hp c' hc')

theorem mcfL_spec {e d : Rat} {lim : Ext} (he : 0 < e) (hd : d < 0) (hl : Ext.le (.fin 0) lim) :
    0 ≤ mcfL e d lim ∧ mcfL e d lim ≤ e ∧ mcfL e d lim ≤ -d ∧ Ext.le (.fin (mcfL e d lim)) lim ∧
    (mcfL e d lim = e ∨ mcfL e d lim = -d ∨ lim = .fin (mcfL e d lim)) := by
  unfold mcfL
  cases lim with
  | inf =>
    dsimp only
    refine ⟨?_, ?_, ?_, trivial, ?_⟩
    · split <;> grind
    · split <;> grind
    · split <;> grind
    · split <;> simp
  | fin c =>
    have hl : 0 ≤ c := hl
    dsimp only
    refine ⟨?_, ?_, ?_, ?_, ?_⟩
    · split <;> split <;> grind
    · split <;> split <;> grind
    · split <;> split <;> grind
    · show _ ≤ c; split <;> split <;> grind
    · rw [Ext.fin.injEq]; split <;> split <;> grind

theorem mcfEdge_fold {capacity : Graph α Ext O} (L : Rat) (ps : List (α × α)) : ∀ (s : McfSt α O), ps.Nodup →
    (∀ p ∈ ps, ∃ c, mcfCap capacity s.caps p.1 p.2 = some c) → s.paths.Inv → s.flows.Inv → s.distances = s.paths.allPairs →
    ∃ s', forE ps s (mcfEdge capacity L) = .ok s' ∧ s'.paths.Inv ∧ s'.flows.Inv ∧ s'.distances = s'.paths.allPairs ∧
      s'.balance = s.balance ∧ s'.paths.nodes = s.paths.nodes ∧
      (∀ a b, s'.flows.edge a b = if (a, b) ∈ ps then some (L + flowOf s.flows a b) else s.flows.edge a b) ∧
      (∀ a b, mcfCap capacity s'.caps a b = if (a, b) ∈ ps then (mcfCap capacity s.caps a b).map (fun c => c.subR L)
        else mcfCap capacity s.caps a b) ∧
      (∀ a b, s'.paths.edge a b = if (a, b) ∈ ps ∧ mcfCap capacity s'.caps a b = some (.fin 0) then none else s.paths.edge a b) := by
  induction ps with
  | nil => intro s _ _ h1 h2 h3; exact ⟨s, rfl, h1, h2, h3, rfl, rfl, by simp, by simp, by simp⟩
  | cons p ps ih =>
    obtain ⟨x, y⟩ := p
    intro s hnd hs h1 h2 h3
    rw [List.nodup_cons] at hnd
    obtain ⟨c, hc⟩ := hs (x, y) (by simp)
    dsimp only at hc
    unfold forE
    -- the state after the first edge
    have hstep : ∃ s1, mcfEdge capacity L s (x, y) = .ok s1 ∧ s1.paths.Inv ∧ s1.flows = s.flows.addEdge x y (L + flowOf s.flows x y) ∧
        s1.caps = s.caps.addEdge x y (c.subR L) ∧ s1.balance = s.balance ∧ s1.distances = s1.paths.allPairs ∧ s1.paths.nodes = s.paths.nodes ∧
        (∀ a b, s1.paths.edge a b = if x = a ∧ y = b ∧ c.subR L = .fin 0 then none else s.paths.edge a b) := by
      unfold mcfEdge
      dsimp only
      rw [hc]
      dsimp only
      by_cases h0 : c.subR L = .fin 0
      · rw [if_pos h0]
        refine ⟨_, rfl, h1.delEdge _ _, rfl, rfl, rfl, rfl, delEdge_nodes .., fun a b => ?_⟩
        dsimp only
        rw [edge_delEdge h1]
        simp [h0]
      · rw [if_neg h0]
        refine ⟨_, rfl, h1, rfl, rfl, rfl, h3, rfl, fun a b => ?_⟩
        rw [if_neg (fun h => h0 h.2.2)]
    obtain ⟨s1, e1, e2, e3, e4, e5, e6, e7, e8⟩ := hstep
    rw [e1]
    dsimp only
    have hcap1 : ∀ a b, mcfCap capacity s1.caps a b = if x = a ∧ y = b then some (c.subR L) else mcfCap capacity s.caps a b := by
      intro a b
      unfold mcfCap
      rw [e4, edge_addEdge]
      by_cases hab : x = a ∧ y = b
      · rw [if_pos hab, if_pos hab]
      · rw [if_neg hab, if_neg hab]
    have hne : ∀ a b, (a, b) ∈ ps → ¬ (x = a ∧ y = b) := by
      rintro a b hab ⟨rfl, rfl⟩; exact hnd.1 hab
    obtain ⟨s', g1, g2, g3, g4, g5, g6, g7, g8, g9⟩ := ih s1 hnd.2 (fun p hp => by
      rw [hcap1, if_neg (hne p.1 p.2 hp)]; exact hs p (List.mem_cons_of_mem _ hp)) e2 (by rw [e3]; exact h2.addEdge _ _ _) e6
    refine ⟨s', g1, g2, g3, g4, g5.trans e5, g6.trans e7, fun a b => ?_, ?_⟩
    · rw [g7, e3]
      by_cases hab : (a, b) ∈ ps
      · rw [if_pos hab, if_pos (List.mem_cons_of_mem _ hab)]
        unfold flowOf
        rw [edge_addEdge, if_neg (hne a b hab)]
      · rw [if_neg hab, edge_addEdge]
        by_cases hxy : x = a ∧ y = b
        · rw [if_pos hxy, if_pos (by rw [hxy.1, hxy.2]; simp), hxy.1, hxy.2]
        · rw [if_neg hxy, if_neg]
          rw [List.mem_cons, Prod.mk.injEq]
          rintro (h | h)
          · exact hxy ⟨h.1.symm, h.2.symm⟩
          · exact hab h
    · have hcap' : ∀ a b, mcfCap capacity s'.caps a b = if (a, b) ∈ (x, y) :: ps then (mcfCap capacity s.caps a b).map (fun c => c.subR L)
          else mcfCap capacity s.caps a b := by
        intro a b
        rw [g8, hcap1]
        by_cases hab : (a, b) ∈ ps
        · rw [if_pos hab, if_pos (List.mem_cons_of_mem _ hab), if_neg (hne a b hab)]
        · rw [if_neg hab]
          by_cases hxy : x = a ∧ y = b
          · obtain ⟨rfl, rfl⟩ := hxy
            rw [if_pos ⟨rfl, rfl⟩, if_pos (by simp), hc]; rfl
          · rw [if_neg hxy, if_neg]
            rw [List.mem_cons, Prod.mk.injEq]
            rintro (h | h)
            · exact hxy ⟨h.1.symm, h.2.symm⟩
            · exact hab h
      refine ⟨hcap', fun a b => ?_⟩
      rw [g9, e8]
      by_cases hab : (a, b) ∈ ps
      · have hm : (a, b) ∈ (x, y) :: ps := List.mem_cons_of_mem _ hab
        simp only [hab, hm, true_and]
        have := hne a b hab
        rw [if_neg (c := x = a ∧ y = b ∧ c.subR L = .fin 0) (fun h => this ⟨h.1, h.2.1⟩)]
      · rw [if_neg (fun h => hab h.1)]
        by_cases hxy : x = a ∧ y = b
        · obtain ⟨rfl, rfl⟩ := hxy
          have hm : (x, y) ∈ (x, y) :: ps := by simp
          rw [hcap' x y, if_pos hm, hc]
          simp only [true_and, hm, Option.map_some, Option.some.injEq]
        · rw [if_neg (fun h => hxy ⟨h.1, h.2.1⟩), if_neg]
          rintro ⟨h, -⟩
          rw [List.mem_cons, Prod.mk.injEq] at h
          rcases h with h | h
          · exact hxy ⟨h.1.symm, h.2.symm⟩
          · exact hab h

/-! ### the invariant -/

/-- `r` is what is left of the stock of `n` -/
def Left (bal : List (Rat × α)) (n : α) (r : Rat) : Prop := (r, n) ∈ bal ∨ ((∀ v, (v, n) ∉ bal) ∧ r = 0)

/-- ties between node ids are broken by a strict weak order -/
structure NodeOrder (nlt : α → α → Bool) : Prop where
  asymm : ∀ a b, nlt a b = true → nlt b a = false
  trans : ∀ a b c, nlt b a = false → nlt c b = false → nlt c a = false

structure McfInv (nlt : α → α → Bool) (costs : Graph α Rat O) (capacity : Graph α Ext O) (stock : α → Rat) (s : McfSt α O) : Prop where
  pinv : s.paths.Inv
  finv : s.flows.Inv
  pnodes : ∀ x, x ∈ s.paths.nodeList ↔ x ∈ costs.nodeList
  dist : s.distances = s.paths.allPairs
  psub : ∀ a b c, s.paths.edge a b = some c → costs.edge a b = some c
  pall : ∀ a b c, costs.edge a b = some c → mcfCap capacity s.caps a b ≠ some (.fin 0) → s.paths.edge a b = some c
  nonneg : ∀ a b, 0 ≤ flowOf s.flows a b
  fedge : ∀ a b v, s.flows.edge a b = some v → (costs.edge a b).isSome
  cap : ∀ a b c, capacity.edge a b = some c → mcfCap capacity s.caps a b = some (c.subR (flowOf s.flows a b)) ∧
    Ext.le (.fin (flowOf s.flows a b)) c
  bnodup : (s.balance.map (·.2)).Nodup
  bmem : ∀ v n, (v, n) ∈ s.balance → n ∈ costs.nodeList ∧ v ≠ 0
  bsorted : s.balance.Pairwise (fun a b => balLt nlt b a = false)
  left : ∀ n ∈ costs.nodeList, ∀ r, Left s.balance n r → netOut costs.nodeList (flowOf s.flows) n = stock n - r ∧
    ((0 ≤ r ∧ r ≤ stock n) ∨ (stock n ≤ r ∧ r ≤ 0))

theorem left_exists (bal : List (Rat × α)) (n : α) : ∃ r, Left bal n r := by
  by_cases h : ∃ v, (v, n) ∈ bal
  · obtain ⟨v, hv⟩ := h; exact ⟨v, .inl hv⟩
  · exact ⟨0, .inr ⟨fun v hv => h ⟨v, hv⟩, rfl⟩⟩

theorem McfInv.shipment {nlt : α → α → Bool} {costs : Graph α Rat O} {capacity : Graph α Ext O} {stock : α → Rat} {s : McfSt α O}
    (h : McfInv nlt costs capacity stock s) (hlinks : ∀ a b, (costs.edge a b).isSome → (capacity.edge a b).isSome) :
    IsShipment costs.nodeList costs.edge capacity.edge stock (flowOf s.flows) := by
  have hE : ∀ a b, flowOf s.flows a b ≠ 0 → (costs.edge a b).isSome := by
    intro a b hab
    unfold flowOf at hab
    cases he : s.flows.edge a b with
    | none => rw [he] at hab; exact absurd rfl hab
    | some v => exact h.fedge a b v he
  refine ⟨h.nonneg, hE, ?_, ?_, ?_⟩
  · intro a b hab
    obtain ⟨c, hc⟩ := Option.isSome_iff_exists.1 (hlinks a b (hE a b hab))
    exact ⟨c, hc, (h.cap a b c hc).2⟩
  · intro n hn hs
    obtain ⟨r, hr⟩ := left_exists s.balance n
    obtain ⟨h1, h2⟩ := h.left n hn r hr
    grind
  · intro n hn hs
    obtain ⟨r, hr⟩ := left_exists s.balance n
    obtain ⟨h1, h2⟩ := h.left n hn r hr
    grind

/-- what the loop returns -/
def McfPost (costs : Graph α Rat O) (capacity : Graph α Ext O) (stock : α → Rat) (r : Py (Graph α Rat O)) : Prop :=
  (∃ f, r = .ok f ∧ f.Inv ∧ (∀ a b v, f.edge a b = some v → (costs.edge a b).isSome) ∧
    IsShipment costs.nodeList costs.edge capacity.edge stock (flowOf f) ∧ ShipDone costs.nodeList stock (flowOf f)) ∨
  (r = .error .exception ∧ ∃ F, IsShipment costs.nodeList costs.edge capacity.edge stock F ∧
    ShipStuck costs.nodeList costs.edge capacity.edge stock F)

omit [DecidableEq α] in
theorem balLt_trans {nlt : α → α → Bool} (ho : NodeOrder nlt) : ∀ a b c : Rat × α, balLt nlt b a = false → balLt nlt c b = false →
    balLt nlt c a = false := by
  rintro ⟨a, a'⟩ ⟨b, b'⟩ ⟨c, c'⟩ h1 h2
  simp only [balLt, Bool.or_eq_false_iff, decide_eq_false_iff_not, Bool.and_eq_false_iff] at h1 h2 ⊢
  refine ⟨by grind, ?_⟩
  by_cases hca : c = a
  · subst hca
    right
    have : b = c := by grind
    subst this
    rcases h1.2 with h | h
    · exact absurd rfl h
    · rcases h2.2 with h' | h'
      · exact absurd rfl h'
      · exact ho.trans _ _ _ h h'
  · exact .inl hca

omit [DecidableEq α] in
theorem balLt_asymm {nlt : α → α → Bool} (ho : NodeOrder nlt) : ∀ a b : Rat × α, balLt nlt a b = true → balLt nlt b a = false := by
  rintro ⟨a, a'⟩ ⟨b, b'⟩ h1
  simp only [balLt, Bool.or_eq_false_iff, decide_eq_false_iff_not, Bool.and_eq_false_iff, Bool.or_eq_true, Bool.and_eq_true,
    decide_eq_true_eq] at h1 ⊢
  rcases h1 with h | ⟨h, h'⟩
  · exact ⟨by grind, .inl (by grind)⟩
  · exact ⟨by grind, .inr (ho.asymm _ _ h')⟩

omit [DecidableEq α] in
theorem siteLt_trans {nlt : α → α → Bool} (ho : NodeOrder nlt) : ∀ a b c : Ext × Rat × α, siteLt nlt b a = false → siteLt nlt c b = false →
    siteLt nlt c a = false := by
  rintro ⟨a, a'⟩ ⟨b, b'⟩ ⟨c, c'⟩ h1 h2
  simp only [siteLt, Bool.or_eq_false_iff, decide_eq_false_iff_not, Bool.and_eq_false_iff, Ext.ltB] at h1 h2 ⊢
  have k : ∀ x y : Ext, Ext.gt x y = false ↔ x.le y := by
    intro x y
    rw [← Bool.not_eq_true, Ext.gt_iff, Classical.not_not]
  rw [k] at h1 h2 ⊢
  refine ⟨Ext.le_trans h1.1 h2.1, ?_⟩
  by_cases hca : c = a
  · subst hca
    right
    have : b = c := Ext.le_antisymm h2.1 h1.1
    subst this
    rcases h1.2 with h | h
    · exact absurd rfl h
    · rcases h2.2 with h' | h'
      · exact absurd rfl h'
      · exact balLt_trans ho _ _ _ h h'
  · exact .inl hca

omit [DecidableEq α] in
theorem siteLt_asymm {nlt : α → α → Bool} (ho : NodeOrder nlt) : ∀ a b : Ext × Rat × α, siteLt nlt a b = true → siteLt nlt b a = false := by
  rintro ⟨a, a'⟩ ⟨b, b'⟩ h1
  have k : ∀ x y : Ext, Ext.gt x y = false ↔ x.le y := by
    intro x y
    rw [← Bool.not_eq_true, Ext.gt_iff, Classical.not_not]
  simp only [siteLt, Bool.or_eq_false_iff, decide_eq_false_iff_not, Bool.and_eq_false_iff, Bool.or_eq_true, Bool.and_eq_true,
    decide_eq_true_eq, Ext.ltB] at h1 ⊢
  rw [k]
  rcases h1 with h | ⟨h, h'⟩
  · rw [Ext.gt_iff] at h
    exact ⟨Ext.le_of_not_le h, .inl (fun e => h (e ▸ Ext.le_refl _))⟩
  · exact ⟨h ▸ Ext.le_refl _, .inr (balLt_asymm ho _ _ h')⟩

/-- the edges that are still in `paths`, and the entries of `balance` -/
def mcfMeasure (costs : Graph α Rat O) (s : McfSt α O) : Nat :=
  (costs.edgeList.filter (fun e => (s.paths.edge e.1 e.2.1).isSome)).length + s.balance.length

omit [DecidableEq α] in
theorem balLt_head {nlt : α → α → Bool} {D : Rat} {dn : α} {bal : List (Rat × α)}
    (h : ((D, dn) :: bal).Pairwise (fun a b => balLt nlt b a = false)) {v : Rat} {n : α} (hv : (v, n) ∈ bal) : D ≤ v := by
  have := (List.pairwise_cons.1 h).1 _ hv
  simp only [balLt, Bool.or_eq_false_iff, decide_eq_false_iff_not] at this
  grind

/-- the balance after one transfer -/
def mcfBal (nlt : α → α → Bool) (D : Rat) (dn : α) (E : Rat) (en : α) (L : Rat) (rest : List (Rat × α)) : List (Rat × α) :=
  let bal := if 0 < E - L then insSorted (balLt nlt) (E - L, en) rest else rest
  if D + L < 0 then insSorted (balLt nlt) (D + L, dn) bal else bal

omit [DecidableEq α] in
theorem mcfBal_spec {nlt : α → α → Bool} (ho : NodeOrder nlt) {D E L : Rat} {dn en : α} {rest : List (Rat × α)}
    (hs : rest.Pairwise (fun a b => balLt nlt b a = false)) (hnd : (dn :: en :: rest.map (·.2)).Nodup) :
    (mcfBal nlt D dn E en L rest).Pairwise (fun a b => balLt nlt b a = false) ∧
    ((mcfBal nlt D dn E en L rest).map (·.2)).Nodup ∧
    (∀ v n, (v, n) ∈ mcfBal nlt D dn E en L rest ↔ (D + L < 0 ∧ v = D + L ∧ n = dn) ∨ (0 < E - L ∧ v = E - L ∧ n = en) ∨ (v, n) ∈ rest) ∧
    (mcfBal nlt D dn E en L rest).length = (if D + L < 0 then 1 else 0) + (if 0 < E - L then 1 else 0) + rest.length := by
  rw [List.nodup_cons, List.nodup_cons] at hnd
  obtain ⟨hnd1, hnd2, hnd3⟩ := hnd
  have hnd1' : dn ≠ en ∧ dn ∉ rest.map (·.2) := ⟨fun h => hnd1 (by rw [h]; simp), fun h => hnd1 (List.mem_cons_of_mem _ h)⟩
  have h1 : ∀ x l, l.Pairwise (fun a b => balLt nlt b a = false) → (insSorted (balLt nlt) x l).Pairwise (fun a b => balLt nlt b a = false) :=
    fun x l hl => insSorted_pairwise (balLt_trans ho) (balLt_asymm ho) x l hl
  have h2 : ∀ (x : Rat × α) l, ((insSorted (balLt nlt) x l).map (·.2)).Perm (x.2 :: l.map (·.2)) :=
    fun x l => (insSorted_perm _ x l).map (·.2)
  have h3 : ∀ (x y : Rat × α) l, y ∈ insSorted (balLt nlt) x l ↔ y = x ∨ y ∈ l := by
    intro x y l; rw [(insSorted_perm _ x l).mem_iff, List.mem_cons]
  have h4 : ∀ (x : Rat × α) l, (insSorted (balLt nlt) x l).length = l.length + 1 := by
    intro x l; rw [(insSorted_perm _ x l).length_eq, List.length_cons]
  unfold mcfBal
  dsimp only
  by_cases hD : D + L < 0 <;> by_cases hE : 0 < E - L
  · simp only [hD, hE, if_true]
    refine ⟨h1 _ _ (h1 _ _ hs), ?_, ?_, ?_⟩
    · refine ((h2 _ _).trans ((h2 _ _).cons _)).nodup_iff.2 ?_
      exact List.nodup_cons.2 ⟨hnd1, List.nodup_cons.2 ⟨hnd2, hnd3⟩⟩
    · intro v n; rw [h3, h3, Prod.mk.injEq, Prod.mk.injEq]; simp
    · rw [h4, h4]; omega
  · simp only [hD, hE, if_true, if_false]
    refine ⟨h1 _ _ hs, ?_, ?_, ?_⟩
    · refine (h2 _ _).nodup_iff.2 (List.nodup_cons.2 ⟨hnd1'.2, hnd3⟩)
    · intro v n; rw [h3, Prod.mk.injEq]; simp
    · rw [h4]; omega
  · simp only [hD, hE, if_true, if_false]
    refine ⟨h1 _ _ hs, ?_, ?_, ?_⟩
    · refine (h2 _ _).nodup_iff.2 (List.nodup_cons.2 ⟨hnd2, hnd3⟩)
    · intro v n; rw [h3, Prod.mk.injEq]; simp
    · rw [h4]; omega
  · simp only [hD, hE, if_false]
    exact ⟨hs, hnd3, by simp, by omega⟩

/-- one transfer: `L` units along a shortest path from the nearest node with supply left to a node with demand left -/
def McfMove (V : List α) (s s' : McfSt α O) : Prop :=
  ∃ D dn E en L q path, (D, dn) ∈ s.balance ∧ D < 0 ∧ (E, en) ∈ s.balance ∧ 0 < E ∧ 0 ≤ L ∧ path.Nodup ∧
    WalkOf s.paths.edge en dn path q ∧ (∀ v n, (v, n) ∈ s.balance → 0 < v → ∀ p c, WalkOf s.paths.edge n dn p c → q ≤ c) ∧
    (∀ a b, flowOf s'.flows a b = if (a, b) ∈ pairs path then flowOf s.flows a b + L else flowOf s.flows a b) ∧
    netOut V (flowOf s'.flows) en = netOut V (flowOf s.flows) en + L ∧
    ∀ n, n ≠ en → n ≠ dn → netOut V (flowOf s'.flows) n = netOut V (flowOf s.flows) n

theorem mcfStep_inv {nlt : α → α → Bool} (ho : NodeOrder nlt) {costs : Graph α Rat O} (hc : costs.Inv) (hnn : NonNeg costs.edge)
    {capacity : Graph α Ext O} (hlinks : ∀ a b, (costs.edge a b).isSome → (capacity.edge a b).isSome) {stock : α → Rat} {s : McfSt α O}
    (h : McfInv nlt costs capacity stock s) :
    (∃ s', mcfStep nlt capacity s = some (.inl s') ∧ McfInv nlt costs capacity stock s' ∧ mcfMeasure costs s' < mcfMeasure costs s ∧
      McfMove costs.nodeList s s') ∨
    (∃ r, mcfStep nlt capacity s = some (.inr r) ∧ McfPost costs capacity stock r) := by
  have hship := h.shipment hlinks
  have hdone : ShipDone costs.nodeList stock (flowOf s.flows) → McfPost costs capacity stock (.ok s.flows) :=
    fun hd => .inl ⟨_, rfl, h.finv, h.fedge, hship, hd⟩
  unfold mcfStep
  have hleft := h.left
  have hbm := h.bmem
  have hbs := h.bsorted
  have hbn := h.bnodup
  generalize hbal : s.balance = B at hleft hbm hbs hbn
  cases B with
  | nil =>
    refine .inr ⟨_, rfl, hdone (.inl fun n hn _ => ?_)⟩
    have := (hleft n hn 0 (.inr ⟨by simp, rfl⟩)).1
    grind
  | cons x bal =>
    obtain ⟨D, dn⟩ := x
    dsimp only
    have hdV := (hbm D dn (by simp)).1
    have hD0 := (hbm D dn (by simp)).2
    by_cases hDp : 0 < D
    · rw [if_pos hDp]
      refine .inr ⟨_, rfl, hdone (.inl fun n hn hst => ?_)⟩
      obtain ⟨r, hr⟩ := left_exists ((D, dn) :: bal) n
      obtain ⟨h1, h2⟩ := hleft n hn r hr
      rcases hr with hr | ⟨_, hr⟩
      · exfalso
        have : 0 < r := by
          rcases List.mem_cons.1 hr with e | hr
          · cases e; exact hDp
          · have := balLt_head hbs hr; grind
        grind
      · rw [hr] at h1; grind
    rw [if_neg hDp]
    have hDn : D < 0 := by grind
    -- the distances
    have hpw : NonNeg s.paths.edge := fun a b c hab => hnn a b c (h.psub a b c hab)
    have hncyc : NoNegCycle s.paths.edge := fun a p c hw => hw.nonneg hpw
    obtain ⟨hmat, hdist⟩ := allPairs_spec h.pinv hncyc
    rw [← h.dist] at hmat hdist
    have hmemV : ∀ v n, (v, n) ∈ bal → n ∈ s.paths.nodeList := fun v n hv => (h.pnodes n).2 (hbm v n (List.mem_cons_of_mem _ hv)).1
    obtain ⟨sites, hsites, hsm⟩ := mcfSites_spec hmat ((h.pnodes dn).2 hdV) bal hmemV
    rw [hsites]
    dsimp only
    have hperm := pySort_perm (siteLt nlt) sites
    have hpw2 := pySort_pairwise (siteLt_trans ho) (siteLt_asymm ho) sites
    generalize pySort (siteLt nlt) sites = sorted at hperm hpw2
    cases sorted with
    | nil =>
      refine .inr ⟨_, rfl, hdone (.inr fun n hn hst => ?_)⟩
      have hs0 : sites = [] := hperm.nil_eq.symm
      obtain ⟨r, hr⟩ := left_exists ((D, dn) :: bal) n
      obtain ⟨h1, h2⟩ := hleft n hn r hr
      rcases hr with hr | ⟨_, hr⟩
      · exfalso
        have hrne := (hbm r n hr).2
        rcases List.mem_cons.1 hr with e | hr
        · cases e; grind
        · have hr0 : 0 < r := by grind
          have := (hsm (at2 s.distances n dn) r n).2 ⟨hr, hr0, rfl⟩
          rw [hs0] at this; cases this
      · rw [hr] at h1; grind
    | cons x rest' =>
      obtain ⟨dist, E, en⟩ := x
      dsimp only
      have hx := hperm.mem_iff.1 (List.mem_cons_self : (dist, E, en) ∈ (dist, E, en) :: rest')
      obtain ⟨hEb, hE0, hdisteq⟩ := (hsm dist E en).1 hx
      rw [if_neg (by grind)]
      have henV := (hbm E en (List.mem_cons_of_mem _ hEb)).1
      have hlE := hleft en henV E (.inl (List.mem_cons_of_mem _ hEb))
      have hlD := hleft dn hdV D (.inl (by simp))
      by_cases hinf : dist = .inf
      · rw [if_pos hinf]
        refine .inr ⟨_, rfl, .inr ⟨rfl, flowOf s.flows, hship, ?_, dn, hdV, ?_, ?_, ?_⟩⟩
        · exact ⟨en, henV, by grind, by grind⟩
        · grind
        · grind
        · intro n hn hst hnet hreach
          obtain ⟨r, hr⟩ := left_exists ((D, dn) :: bal) n
          obtain ⟨h1, h2⟩ := hleft n hn r hr
          rcases hr with hr | ⟨_, hr⟩
          · rcases List.mem_cons.1 hr with e | hr
            · cases e; grind
            · have hr0 : 0 < r := by grind
              have hin := (hsm (at2 s.distances n dn) r n).2 ⟨hr, hr0, rfl⟩
              rw [← hperm.mem_iff] at hin
              have hall : at2 s.distances n dn = .inf := by
                rcases List.mem_cons.1 hin with e | hin
                · cases e; exact hinf
                · have := (List.pairwise_cons.1 hpw2).1 _ hin
                  simp only [siteLt, Bool.or_eq_false_iff, Ext.ltB, hinf] at this
                  have h3 := this.1
                  rw [← Bool.not_eq_true, Ext.gt_iff, Classical.not_not] at h3
                  cases hd : at2 s.distances n dn with
                  | inf => rfl
                  | fin q => rw [hd] at h3; exact absurd h3 (by simp [Ext.le])
              have hdd := hdist n dn (hmemV r n hr) ((h.pnodes dn).2 hdV)
              rw [hall] at hdd
              apply hdd
              obtain ⟨p, hp⟩ := (reach_iff_walk).1 hreach
              have hp2 : WalkFT (fun a b => (s.paths.edge a b).isSome) n dn p := by
                refine ⟨hp.1.mono (fun a b hab => ?_), hp.2⟩
                obtain ⟨h4, c, h5, h6⟩ := hab
                obtain ⟨w, hw⟩ := Option.isSome_iff_exists.1 h4
                rw [h.pall a b w hw]; · rfl
                rw [(h.cap a b c h5).1]
                intro e
                apply h6
                cases c with
                | inf => cases e
                | fin q =>
                  simp only [Ext.subR, Option.some.injEq, Ext.fin.injEq] at e
                  rw [Ext.fin.injEq]; grind
              obtain ⟨c, hc⟩ := hp2.walkOf
              exact ⟨p, c, hc⟩
          · rw [hr] at h1; grind
      · rw [if_neg hinf]
        -- the path
        have hend := hdist en dn (hmemV E en hEb) ((h.pnodes dn).2 hdV)
        rw [← hdisteq] at hend
        obtain ⟨q, rfl⟩ : ∃ q, dist = .fin q := by
          cases dist with
          | inf => exact absurd rfl hinf
          | fin q => exact ⟨q, rfl⟩
        obtain ⟨⟨p0, hp0⟩, _⟩ := hend
        have hhe : s.paths.has en = true := has_iff.2 (hmemV E en hEb)
        have hhd : s.paths.has dn = true := has_iff.2 ((h.pnodes dn).2 hdV)
        obtain ⟨r, hr, hsp⟩ := shortestPath_spec h.pinv hpw [] hhe hhd
        have hnd := shortestPath_nodup hr
        rw [hr]
        have hsp' : ∃ d', r.1 = .fin d' ∧ WalkOf s.paths.edge en dn r.2 d' ∧ d' ≤ q := by
          rcases hsp with ⟨d', hd', ⟨hw, _⟩, hmin⟩ | ⟨_, hno⟩
          · exact ⟨d', hd', hw, hmin p0 q ⟨hp0, by simp⟩⟩
          · exact absurd ⟨p0, q, hp0, by simp⟩ hno
        obtain ⟨d', hd', hw, hdq⟩ := hsp'
        obtain ⟨rd, path⟩ := r
        dsimp only at hw hnd hd' ⊢
        have hnodes : (dn :: (bal.map (·.2))).Nodup := by simpa using hbn
        have hne : en ≠ dn := by
          rintro rfl
          exact (List.nodup_cons.1 hnodes).1 (List.mem_map.2 ⟨(E, en), hEb, rfl⟩)
        have hcon : Consec (fun a b => (s.paths.edge a b).isSome) path := hw.walkFT.1
        have hlen : 2 ≤ path.length := by
          obtain ⟨h1, h2, _⟩ := hw
          match path with
          | [] => cases h1
          | [x] => simp at h1 h2; exact absurd (h1.symm.trans h2) hne
          | _ :: _ :: _ => simp
        have hpne : pairs path ≠ [] := by
          match path, hlen with
          | _ :: _ :: _, _ => simp [pairs]
        have hpedge : ∀ a b, (a, b) ∈ pairs path → ∃ w, s.paths.edge a b = some w ∧ costs.edge a b = some w := by
          intro a b hab
          obtain ⟨w, hw⟩ := Option.isSome_iff_exists.1 (pairs_rel hcon hab)
          exact ⟨w, hw, h.psub a b w hw⟩
        have hpcap : ∀ a b, (a, b) ∈ pairs path → ∃ c, capacity.edge a b = some c := by
          intro a b hab
          obtain ⟨w, _, hw⟩ := hpedge a b hab
          exact Option.isSome_iff_exists.1 (hlinks a b (by rw [hw]; rfl))
        obtain ⟨lim, hlim, ⟨p1, hp1, hp1c⟩, hlimle⟩ := mcfLimit_spec (capacity := capacity) (caps := s.caps) (pairs path) hpne (by
          rintro ⟨a, b⟩ hab
          obtain ⟨c, hcc⟩ := hpcap a b hab
          exact ⟨_, (h.cap a b c hcc).1⟩)
        rw [hlim]
        dsimp only
        have hlim0 : Ext.le (.fin 0) lim := by
          obtain ⟨c, hcc⟩ := hpcap p1.1 p1.2 hp1
          obtain ⟨h1, h2⟩ := h.cap p1.1 p1.2 c hcc
          rw [h1] at hp1c; cases hp1c
          cases c with
          | inf => trivial
          | fin x => have h2 : _ ≤ x := h2; show 0 ≤ x - _; grind
        obtain ⟨hL0, hLE, hLD, hLlim, hLcase⟩ := mcfL_spec hE0 hDn hlim0
        generalize mcfL E D lim = L at hL0 hLE hLD hLlim hLcase
        obtain ⟨s', hfor, g1, g2, g3, g4, g5, g6, g7, g8⟩ := mcfEdge_fold (capacity := capacity) L (pairs path) s (pairs_nodup hnd) (by
          rintro ⟨a, b⟩ hab
          obtain ⟨c, hcc⟩ := hpcap a b hab
          exact ⟨_, (h.cap a b c hcc).1⟩) h.pinv h.finv h.dist
        rw [hfor]
        dsimp only
        -- the balance
        have hrestp : bal.Perm ((E, en) :: bal.erase (E, en)) := List.perm_cons_erase hEb
        have hrestn : (dn :: en :: (bal.erase (E, en)).map (·.2)).Nodup := by
          have : (bal.map (·.2)).Perm (en :: (bal.erase (E, en)).map (·.2)) := hrestp.map (·.2)
          exact (this.cons dn).nodup_iff.1 hnodes
        have hrests : (bal.erase (E, en)).Pairwise (fun a b => balLt nlt b a = false) :=
          (List.pairwise_cons.1 hbs).2.sublist List.erase_sublist
        obtain ⟨b1, b2, b3, b4⟩ := mcfBal_spec (D := D) (E := E) (L := L) ho hrests hrestn
        show (∃ s'', some (Sum.inl { s' with balance := mcfBal nlt D dn E en L (bal.erase (E, en)) }) = some (.inl s'') ∧ _) ∨ _
        generalize hrest : bal.erase (E, en) = rest at *
        have hflow : ∀ a b, flowOf s'.flows a b = if (a, b) ∈ pairs path then flowOf s.flows a b + L else flowOf s.flows a b := by
          intro a b
          conv => lhs; unfold flowOf
          rw [g6]
          split
          · show L + _ = _; grind
          · rfl
        have hcapP : ∀ a b c, (a, b) ∈ pairs path → capacity.edge a b = some c → Ext.le (.fin (flowOf s.flows a b + L)) c := by
          intro a b c hab hcc
          have h1 := hlimle (a, b) hab _ (h.cap a b c hcc).1
          have h2 := Ext.le_trans hLlim h1
          cases c with
          | inf => trivial
          | fin x =>
            have h2 : L ≤ x - flowOf s.flows a b := h2
            show _ ≤ x
            grind
        have hpU : ∀ x ∈ path, x ∈ costs.nodeList := by
          intro x hx
          obtain ⟨y, hy | hy⟩ := mem_pairs_of_mem hx hlen
          · obtain ⟨w, _, hw⟩ := hpedge _ _ hy; exact (hc.edge_mem hw).1
          · obtain ⟨w, _, hw⟩ := hpedge _ _ hy; exact (hc.edge_mem hw).2
        have hsum := sumL_flow_add (g := costs) hflow hnd hpU hc.nodesWF
        obtain ⟨ht1, ht2, ht3, ht4⟩ := walk_tail_dropLast hw.1 hw.2.1 hnd hne
        have ht5 : dn ∈ path.tail := by
          have hm := List.mem_of_getLast? hw.2.1
          have hh := hw.1
          cases path with
          | nil => cases hm
          | cons a l =>
            simp at hh; subst hh
            rcases List.mem_cons.1 hm with e | e
            · exact absurd e.symm hne
            · exact e
        have hnet : ∀ n, netOut costs.nodeList (flowOf s'.flows) n = netOut costs.nodeList (flowOf s.flows) n +
            ((if n ∈ path.dropLast then L else 0) - (if n ∈ path.tail then L else 0)) := by
          intro n; unfold netOut; rw [(hsum n).1, (hsum n).2]; grind
        refine .inl ⟨_, rfl, ⟨g1, g2, ?_, g3, ?_, ?_, ?_, ?_, ?_, b2, ?_, b1, ?_⟩, ?_, ?_⟩
        · intro x
          show x ∈ s'.paths.nodes.keys ↔ _
          rw [g5]; exact h.pnodes x
        · intro a b c hab
          have hab : s'.paths.edge a b = some c := hab
          rw [g8] at hab
          split at hab
          · cases hab
          · exact h.psub a b c hab
        · intro a b c hab hcap
          show s'.paths.edge a b = some c
          have hcap : mcfCap capacity s'.caps a b ≠ some (.fin 0) := hcap
          rw [g8, if_neg (fun h => hcap h.2)]
          by_cases hm : (a, b) ∈ pairs path
          · obtain ⟨w, hw1, hw2⟩ := hpedge a b hm
            rw [hab] at hw2; cases hw2; exact hw1
          · rw [g7, if_neg hm] at hcap
            exact h.pall a b c hab hcap
        · intro a b
          show 0 ≤ flowOf s'.flows a b
          rw [hflow]; have := h.nonneg a b; split <;> grind
        · intro a b v hv
          have hv : s'.flows.edge a b = some v := hv
          rw [g6] at hv
          split at hv
          · rename_i hm; obtain ⟨w, _, hw⟩ := hpedge a b hm; rw [hw]; rfl
          · exact h.fedge a b v hv
        · intro a b c hcc
          show mcfCap capacity s'.caps a b = some (c.subR (flowOf s'.flows a b)) ∧ Ext.le (.fin (flowOf s'.flows a b)) c
          rw [g7, hflow]
          by_cases hm : (a, b) ∈ pairs path
          · rw [if_pos hm, if_pos hm, (h.cap a b c hcc).1]
            refine ⟨?_, hcapP a b c hm hcc⟩
            cases c with
            | inf => rfl
            | fin x =>
              show some (Ext.fin _) = some (Ext.fin _)
              congr 2; grind
          · rw [if_neg hm, if_neg hm]; exact h.cap a b c hcc
        · intro v n hv
          have hv : (v, n) ∈ mcfBal nlt D dn E en L rest := hv
          rw [b3] at hv
          rcases hv with ⟨h1, rfl, rfl⟩ | ⟨h1, rfl, rfl⟩ | hv
          · exact ⟨hdV, by grind⟩
          · exact ⟨henV, by grind⟩
          · exact hbm v n (List.mem_cons_of_mem _ (hrestp.mem_iff.2 (List.mem_cons_of_mem _ hv)))
        · intro n hn r hr
          show netOut costs.nodeList (flowOf s'.flows) n = stock n - r ∧ _
          have hr : Left (mcfBal nlt D dn E en L rest) n r := hr
          rw [hnet]
          rw [List.nodup_cons, List.nodup_cons] at hrestn
          have hdr : ∀ v, (v, dn) ∉ rest := fun v hv => hrestn.1 (List.mem_cons_of_mem _ (List.mem_map.2 ⟨_, hv, rfl⟩))
          have her : ∀ v, (v, en) ∉ rest := fun v hv => hrestn.2.1 (List.mem_map.2 ⟨_, hv, rfl⟩)
          by_cases hnd' : n = dn
          · subst hnd'
            have hrr : r = D + L := by
              rcases hr with hr | ⟨hrn, hr0⟩
              · rw [b3] at hr
                rcases hr with ⟨_, h1, _⟩ | ⟨_, _, h1⟩ | hr
                · exact h1
                · exact absurd h1.symm hne
                · exact absurd hr (hdr r)
              · have : ¬ D + L < 0 := fun hlt => hrn (D + L) ((b3 _ _).2 (.inl ⟨hlt, rfl, rfl⟩))
                grind
            rw [if_neg ht3, if_pos ht5, hrr]
            refine ⟨by grind, ?_⟩
            have := hlD.2
            grind
          · by_cases hne' : n = en
            · subst hne'
              have hrr : r = E - L := by
                rcases hr with hr | ⟨hrn, hr0⟩
                · rw [b3] at hr
                  rcases hr with ⟨_, _, h1⟩ | ⟨_, h1, _⟩ | hr
                  · exact absurd h1 hne
                  · exact h1
                  · exact absurd hr (her r)
                · have : ¬ 0 < E - L := fun hlt => hrn (E - L) ((b3 _ _).2 (.inr (.inl ⟨hlt, rfl, rfl⟩)))
                  grind
              rw [if_pos ht2, if_neg ht1, hrr]
              refine ⟨by grind, ?_⟩
              have := hlE.2
              grind
            · have hz : ((if n ∈ path.dropLast then L else 0) - (if n ∈ path.tail then L else 0)) = 0 := by
                have := ht4 n hne' hnd'
                by_cases h5 : n ∈ path.dropLast
                · rw [if_pos h5, if_pos (this.2 h5)]; grind
                · rw [if_neg h5, if_neg (fun h => h5 (this.1 h))]; grind
              rw [hz]
              have hmr : ∀ v, (v, n) ∈ mcfBal nlt D dn E en L rest ↔ (v, n) ∈ (D, dn) :: bal := by
                intro v
                rw [b3, List.mem_cons, hrestp.mem_iff, List.mem_cons, Prod.mk.injEq, Prod.mk.injEq]
                simp [hnd', hne']
              have hr' : Left ((D, dn) :: bal) n r := by
                rcases hr with hr | ⟨hr, h0⟩
                · exact .inl ((hmr r).1 hr)
                · exact .inr ⟨fun v hv => hr v ((hmr v).2 hv), h0⟩
              have := hleft n hn r hr'
              refine ⟨by grind, this.2⟩
        · -- the measure
          have hsub : ∀ e, (s'.paths.edge e.1 e.2.1).isSome = true → (s.paths.edge (e : α × α × Rat).1 e.2.1).isSome = true := by
            intro e he
            rw [g8] at he
            split at he
            · cases he
            · exact he
          have hle : (costs.edgeList.filter (fun e => (s'.paths.edge e.1 e.2.1).isSome)).length ≤
              (costs.edgeList.filter (fun e => (s.paths.edge e.1 e.2.1).isSome)).length := by
            rw [← List.countP_eq_length_filter, ← List.countP_eq_length_filter]
            exact List.countP_mono_left (fun e _ he => hsub e he)
          have hlenb : s.balance.length = rest.length + 2 := by
            rw [hbal, List.length_cons, hrestp.length_eq, List.length_cons]
          show (costs.edgeList.filter (fun e => (s'.paths.edge e.1 e.2.1).isSome)).length + (mcfBal nlt D dn E en L rest).length <
            (costs.edgeList.filter (fun e => (s.paths.edge e.1 e.2.1).isSome)).length + s.balance.length
          rw [b4, hlenb]
          rcases hLcase with hL | hL | hL
          · rw [if_neg (c := 0 < E - L) (by grind)]
            split <;> omega
          · rw [if_neg (c := D + L < 0) (by grind)]
            split <;> omega
          · -- an edge of the path is exhausted
            obtain ⟨w, hw1, hw2⟩ := hpedge p1.1 p1.2 hp1
            have hlt : (costs.edgeList.filter (fun e => (s'.paths.edge e.1 e.2.1).isSome)).length <
                (costs.edgeList.filter (fun e => (s.paths.edge e.1 e.2.1).isSome)).length := by
              refine filter_length_lt (y := (p1.1, p1.2, w)) (fun e _ he => hsub e he) (hc.mem_edgeList.2 hw2) ?_ ?_
              · dsimp only; rw [hw1]; rfl
              · dsimp only
                have hcz : mcfCap capacity s'.caps p1.1 p1.2 = some (.fin 0) := by
                  rw [g7, if_pos hp1, hp1c, hL]
                  show some (Ext.fin _) = _
                  congr 2; grind
                rw [g8, if_pos ⟨hp1, hcz⟩]; rfl
            split <;> split <;> omega
        · -- the move
          refine ⟨D, dn, E, en, L, d', path, by rw [hbal]; simp, hDn, by rw [hbal]; exact List.mem_cons_of_mem _ hEb, hE0, hL0, hnd, hw, ?_, hflow, ?_, ?_⟩
          · intro v n hv hv0 p c hp
            rw [hbal] at hv
            rcases List.mem_cons.1 hv with e | hv
            · cases e; grind
            · have hin := (hsm (at2 s.distances n dn) v n).2 ⟨hv, hv0, rfl⟩
              rw [← hperm.mem_iff] at hin
              have hdd := hdist n dn (hmemV v n hv) ((h.pnodes dn).2 hdV)
              have hle : Ext.le (.fin q) (at2 s.distances n dn) := by
                rcases List.mem_cons.1 hin with e | hin
                · rw [Prod.mk.injEq] at e; rw [e.1]; exact Ext.le_refl _
                · have := (List.pairwise_cons.1 hpw2).1 _ hin
                  simp only [siteLt, Bool.or_eq_false_iff, Ext.ltB] at this
                  have h3 := this.1
                  rw [← Bool.not_eq_true, Ext.gt_iff, Classical.not_not] at h3
                  exact h3
              cases hd : at2 s.distances n dn with
              | inf => rw [hd] at hdd; exact absurd ⟨p, c, hp⟩ hdd
              | fin x =>
                rw [hd] at hdd hle
                have h1 : q ≤ x := hle
                have h2 := hdd.2 p c hp
                grind
          · show netOut costs.nodeList (flowOf s'.flows) en = _
            rw [hnet, if_pos ht2, if_neg ht1]; grind
          · intro n hn1 hn2
            show netOut costs.nodeList (flowOf s'.flows) n = _
            rw [hnet]
            have := ht4 n hn1 hn2
            by_cases h5 : n ∈ path.dropLast
            · rw [if_pos h5, if_pos (this.2 h5)]; grind
            · rw [if_neg h5, if_neg (fun h => h5 (this.1 h))]; grind

/-! ### start and result -/

theorem sumL_flatMap {β γ : Type} (l : List β) (f : β → List γ) (h : γ → Rat) :
    sumL (l.flatMap f) h = sumL l (fun x => sumL (f x) h) := by
  induction l with
  | nil => rfl
  | cons a l ih => rw [List.flatMap_cons, sumL_append, sumL_cons, ih]

/-- the pairs of nodes -/
def allPairsOf (V : List α) : List (α × α) := V.flatMap (fun a => V.map (fun b => (a, b)))

omit [DecidableEq α] in
theorem sumL_allPairsOf (V : List α) (h : α × α → Rat) : sumL (allPairsOf V) h = sumL V (fun a => sumL V (fun b => h (a, b))) := by
  unfold allPairsOf; rw [sumL_flatMap]
  exact sumL_congr (fun a _ => by rw [sumL_map])

omit [DecidableEq α] in
theorem mem_allPairsOf {V : List α} {a b : α} : (a, b) ∈ allPairsOf V ↔ a ∈ V ∧ b ∈ V := by
  unfold allPairsOf
  simp

omit [DecidableEq α] in
theorem allPairsOf_nodup {V : List α} (h : V.Nodup) : (allPairsOf V).Nodup := by
  have key : ∀ W : List α, W.Nodup → (W.flatMap (fun a => V.map (fun b => (a, b)))).Nodup := by
    intro W hW
    induction W with
    | nil => exact List.nodup_nil
    | cons a W ih =>
      rw [List.nodup_cons] at hW
      rw [List.flatMap_cons, List.nodup_append]
      refine ⟨List.Pairwise.map _ (fun x y hxy e => hxy (by cases e; rfl)) h, ih hW.2, ?_⟩
      rintro ⟨x, y⟩ hx ⟨x', y'⟩ hx' e
      cases e
      simp at hx hx'
      grind
  exact key V h

/-- a sum over the edges of a graph -/
theorem sumL_edgeList {f : Graph α Rat O} (hf : f.Inv) {V : List α} (hV : V.Nodup) (hsub : ∀ a b v, f.edge a b = some v → a ∈ V ∧ b ∈ V)
    (w : α → α → Rat) :
    sumL f.edgeList (fun e => e.2.2 * w e.1 e.2.1) = sumL V (fun a => sumL V (fun b => flowOf f a b * w a b)) := by
  rw [← sumL_allPairsOf V (fun p => flowOf f p.1 p.2 * w p.1 p.2)]
  rw [sumL_subset (K := f.edgeList.map (fun e => (e.1, e.2.1))) hf.edgeList_pairs_nodup (allPairsOf_nodup hV)]
  · rw [sumL_map]
    refine sumL_congr (fun e he => ?_)
    have := hf.mem_edgeList.1 (show (e.1, e.2.1, e.2.2) ∈ f.edgeList from he)
    unfold flowOf; dsimp only; rw [this]; rfl
  · rintro ⟨a, b⟩ hx
    obtain ⟨e, he, hee⟩ := List.mem_map.1 hx
    cases hee
    exact mem_allPairsOf.2 (hsub _ _ _ (hf.mem_edgeList.1 (show (e.1, e.2.1, e.2.2) ∈ f.edgeList from he)))
  · rintro ⟨a, b⟩ _ hx
    have : f.edge a b = none := by
      cases he : f.edge a b with
      | none => rfl
      | some v => exact absurd (List.mem_map.2 ⟨(a, b, v), hf.mem_edgeList.2 he, rfl⟩) hx
    unfold flowOf; dsimp only; rw [this]; simp

theorem mcfCost_fold {costs : Graph α Rat O} (l : List (α × α × Rat)) (hl : ∀ e ∈ l, (costs.edge e.1 e.2.1).isSome) (acc : Rat) :
    forE l acc (fun acc e => match costs.edge e.1 e.2.1 with
      | none => .error .typeError
      | some c => .ok (acc + e.2.2 * c)) = .ok (acc + sumL l (fun e => e.2.2 * capOf costs.edge e.1 e.2.1)) := by
  induction l generalizing acc with
  | nil => unfold forE; rw [sumL_nil]; congr 1; grind
  | cons e l ih =>
    obtain ⟨c, hc⟩ := Option.isSome_iff_exists.1 (hl e (by simp))
    unfold forE
    rw [hc]
    dsimp only
    rw [ih (fun e he => hl e (List.mem_cons_of_mem _ he)), sumL_cons]
    have : capOf costs.edge e.1 e.2.1 = c := by unfold capOf; rw [hc]; rfl
    rw [this]; congr 1; grind

/-- the stock of a node according to the inventory -/
def stockOf (inventory : Dict α Rat) (n : α) : Rat := (inventory.get? n).getD 0

theorem mcfStep_flows {nlt : α → α → Bool} {capacity : Graph α Ext O} {s : McfSt α O} {f : Graph α Rat O}
    (h : mcfStep nlt capacity s = some (.inr (.ok f))) : f = s.flows := by
  unfold mcfStep at h
  repeat' (first | split at h | dsimp only at h)
  all_goals first | (cases h; rfl) | cases h

theorem McfInv.init {nlt : α → α → Bool} (ho : NodeOrder nlt) {costs : Graph α Rat O} (hc : costs.Inv)
    {inventory : Dict α Rat} (hwf : inventory.WF) (hin : ∀ n v, inventory.get? n = some v → v ≠ 0 → costs.has n = true)
    {capg : Graph α Ext O} (hcnn : ∀ a b c, capg.edge a b = some c → Ext.le (.fin 0) c) :
    McfInv nlt costs capg (stockOf inventory) (⟨costs.copy, Graph.empty, Graph.empty,
      pySort (balLt nlt) ((inventory.items.filter (fun p => decide (p.2 ≠ 0))).map (fun p => (p.2, p.1))), costs.copy.allPairs⟩ : McfSt α O) := by
  generalize hB : pySort (balLt nlt) ((inventory.items.filter (fun p => decide (p.2 ≠ 0))).map (fun p => (p.2, p.1))) = B
  have hBm : ∀ v n, (v, n) ∈ B ↔ inventory.get? n = some v ∧ v ≠ 0 := by
    intro v n
    rw [← hB, mem_pySort, Dict.get?_eq_some_iff hwf]
    simp only [List.mem_map, List.mem_filter, decide_eq_true_eq, Prod.mk.injEq, Prod.exists]
    constructor
    · rintro ⟨a, b, ⟨h1, h2⟩, rfl, rfl⟩; exact ⟨h1, h2⟩
    · rintro ⟨h1, h2⟩; exact ⟨n, v, ⟨h1, h2⟩, rfl, rfl⟩
  have hz : ∀ a b, flowOf (Graph.empty : Graph α Rat O) a b = 0 := fun _ _ => rfl
  refine ⟨(copy_built costs).inv, inv_empty, ?_, rfl, ?_, ?_, ?_, ?_, ?_, ?_, ?_, ?_, ?_⟩
  · intro x
    show x ∈ costs.copy.nodes.keys ↔ x ∈ costs.nodes.keys
    rw [← Dict.get?_isSome_iff, ← Dict.get?_isSome_iff, hc.copy_nodes]
  · intro a b c hab
    have hab : costs.copy.edge a b = some c := hab
    rw [hc.copy_edge] at hab; exact hab
  · intro a b c hab _
    show costs.copy.edge a b = some c
    rw [hc.copy_edge]; exact hab
  · intro a b; exact Rat.le_refl
  · intro a b v hv; cases hv
  · intro a b c hcc
    show (mcfCap capg Graph.empty a b = some (c.subR (flowOf Graph.empty a b))) ∧ Ext.le (.fin (flowOf Graph.empty a b)) c
    rw [hz]
    refine ⟨?_, hcnn a b c hcc⟩
    have : mcfCap capg (Graph.empty : Graph α Ext O) a b = capg.edge a b := rfl
    rw [this, hcc]
    cases c with
    | inf => rfl
    | fin x => show _ = some (Ext.fin _); congr 2; grind
  · show (B.map (·.2)).Nodup
    rw [← hB]
    refine ((pySort_perm (balLt nlt) _).map (fun x : Rat × α => x.2)).nodup_iff.2 ?_
    rw [List.map_map]
    show ((inventory.items.filter _).map Prod.fst).Nodup
    exact List.Nodup.sublist (List.filter_sublist.map Prod.fst) hwf
  · intro v n hv
    obtain ⟨h1, h2⟩ := (hBm v n).1 hv
    exact ⟨has_iff.1 (hin n v h1 h2), h2⟩
  · show B.Pairwise _
    rw [← hB]
    exact pySort_pairwise (balLt_trans ho) (balLt_asymm ho) _
  · intro n hn r hr
    have h0 : netOut costs.nodeList (flowOf (Graph.empty : Graph α Rat O)) n = 0 := by
      unfold netOut
      show sumL costs.nodeList (fun _ => (0 : Rat)) - sumL costs.nodeList (fun _ => (0 : Rat)) = 0
      rw [sumL_zero]; grind
    show netOut costs.nodeList (flowOf (Graph.empty : Graph α Rat O)) n = _ ∧ _
    rw [h0]
    have hr : Left B n r := hr
    have : r = stockOf inventory n := by
      rcases hr with hr | ⟨hr, h0⟩
      · have := ((hBm r n).1 hr).1
        unfold stockOf; rw [this]; rfl
      · rw [h0]; unfold stockOf
        cases hg : inventory.get? n with
        | none => rfl
        | some v =>
          by_cases hv : v = 0
          · rw [hv]; rfl
          · exact absurd ((hBm v n).2 ⟨hg, hv⟩) (hr v)
    rw [this]
    grind

theorem minCostFlow_with (X : Graph α Rat O → Prop) {nlt : α → α → Bool} (ho : NodeOrder nlt) {costs : Graph α Rat O} (hc : costs.Inv) (hnn : NonNeg costs.edge)
    {inventory : Dict α Rat} (hwf : inventory.WF) (hin : ∀ n v, inventory.get? n = some v → v ≠ 0 → costs.has n = true)
    {capacity : Option (Graph α Ext O)} {capg : Graph α Ext O} (hcap : mcfCapacity costs capacity = .ok capg)
    (hlinks : ∀ a b, (costs.edge a b).isSome → (capg.edge a b).isSome) (hcnn : ∀ a b c, capg.edge a b = some c → Ext.le (.fin 0) c)
    (hX0 : X Graph.empty)
    (hX : ∀ s s' : McfSt α O, McfInv nlt costs capg (stockOf inventory) s → McfInv nlt costs capg (stockOf inventory) s' →
      McfMove costs.nodeList s s' → X s.flows → X s'.flows) :
    (∃ total f, costs.minCostFlow nlt inventory capacity = some (.ok (total, f)) ∧ f.Inv ∧ X f ∧
      IsShipment costs.nodeList costs.edge capg.edge (stockOf inventory) (flowOf f) ∧
      ShipDone costs.nodeList (stockOf inventory) (flowOf f) ∧ total = shipCost costs.nodeList costs.edge (flowOf f)) ∨
    (costs.minCostFlow nlt inventory capacity = some (.error .exception) ∧
      ∃ F, IsShipment costs.nodeList costs.edge capg.edge (stockOf inventory) F ∧
        ShipStuck costs.nodeList costs.edge capg.edge (stockOf inventory) F) := by
  unfold minCostFlow
  have hneg : (costs.edgeList.any (fun e => decide (e.2.2 < 0))) = false := by
    rw [List.any_eq_false]
    rintro ⟨a, b, v⟩ he
    have := hnn a b v (hc.mem_edgeList.1 he)
    simp; grind
  rw [hneg, if_neg (by simp), hcap]
  dsimp only
  have hI := McfInv.init (capg := capg) ho hc hwf hin hcnn
  generalize pySort (balLt nlt) ((inventory.items.filter (fun p => decide (p.2 ≠ 0))).map (fun p => (p.2, p.1))) = B at hI ⊢
  obtain ⟨r, hr, hpost, hXf⟩ := pyWhileD_total (fun s => McfInv nlt costs capg (stockOf inventory) s ∧ X s.flows)
    (fun r => McfPost costs capg (stockOf inventory) r ∧ ∀ f, r = .ok f → X f) (· < ·)
    Nat.lt_wfRel.wf (mcfMeasure costs) (fun s hs => by
      rcases mcfStep_inv ho hc hnn hlinks hs.1 with ⟨s', h1, h2, h3, h4⟩ | ⟨r, h1, h2⟩
      · exact .inl ⟨s', h1, ⟨h2, hX s s' hs.1 h2 h4 hs.2⟩, h3⟩
      · refine .inr ⟨r, h1, h2, fun f hf => ?_⟩
        rw [hf] at h1
        rw [mcfStep_flows h1]; exact hs.2) ⟨hI, hX0⟩
  rw [hr]
  rcases hpost with ⟨f, rfl, h1, h2, h3, h4⟩ | ⟨rfl, F, h1, h2⟩
  · dsimp only
    left
    rw [mcfCost_fold f.edgeList (fun e he => h2 e.1 e.2.1 e.2.2 (h1.mem_edgeList.1 he))]
    refine ⟨_, f, rfl, h1, hXf f rfl, h3, h4, ?_⟩
    rw [sumL_edgeList h1 (V := costs.nodeList) hc.nodesWF (fun a b v hv => by
      obtain ⟨c, hcc⟩ := Option.isSome_iff_exists.1 (h2 a b v hv)
      exact hc.edge_mem hcc) (fun a b => capOf costs.edge a b)]
    unfold shipCost
    grind
  · exact .inr ⟨rfl, F, h1, h2⟩

theorem minCostFlow_main {nlt : α → α → Bool} (ho : NodeOrder nlt) {costs : Graph α Rat O} (hc : costs.Inv) (hnn : NonNeg costs.edge)
    {inventory : Dict α Rat} (hwf : inventory.WF) (hin : ∀ n v, inventory.get? n = some v → v ≠ 0 → costs.has n = true)
    {capacity : Option (Graph α Ext O)} {capg : Graph α Ext O} (hcap : mcfCapacity costs capacity = .ok capg)
    (hlinks : ∀ a b, (costs.edge a b).isSome → (capg.edge a b).isSome) (hcnn : ∀ a b c, capg.edge a b = some c → Ext.le (.fin 0) c) :
    (∃ total f, costs.minCostFlow nlt inventory capacity = some (.ok (total, f)) ∧ f.Inv ∧
      IsShipment costs.nodeList costs.edge capg.edge (stockOf inventory) (flowOf f) ∧
      ShipDone costs.nodeList (stockOf inventory) (flowOf f) ∧ total = shipCost costs.nodeList costs.edge (flowOf f)) ∨
    (costs.minCostFlow nlt inventory capacity = some (.error .exception) ∧
      ∃ F, IsShipment costs.nodeList costs.edge capg.edge (stockOf inventory) F ∧
        ShipStuck costs.nodeList costs.edge capg.edge (stockOf inventory) F) := by
  rcases minCostFlow_with (fun _ => True) ho hc hnn hwf hin hcap hlinks hcnn trivial (fun _ _ _ _ _ _ => trivial) with
    ⟨t, f, h1, h2, _, h3⟩ | h
  · exact .inl ⟨t, f, h1, h2, h3⟩
  · exact .inr h

/-! ### the checks of the input -/


theorem ext_lt_zero {x : Ext} : x.ltB (.fin 0) = false ↔ Ext.le (.fin 0) x := by
  cases x with
  | inf => exact ⟨fun _ => trivial, fun _ => rfl⟩
  | fin q =>
    show decide (q < 0) = false ↔ (0 : Rat) ≤ q
    rw [decide_eq_false_iff_not]
    constructor <;> intro h <;> grind

theorem mcfCapacity_ok {costs : Graph α Rat O} (hc : costs.Inv) {capacity : Option (Graph α Ext O)}
    (hcap : ∀ c, capacity = some c → c.Inv ∧ SameLinks costs.edge c.edge ∧ ∀ a b x, c.edge a b = some x → Ext.le (.fin 0) x) :
    ∃ capg, mcfCapacity costs capacity = .ok capg ∧
      capg.edge = effCap costs.edge (capacity.map (fun c => c.edge)) := by
  cases capacity with
  | none =>
    refine ⟨_, rfl, funext fun a => funext fun b => ?_⟩
    show _ = (costs.edge a b).map (fun _ => Ext.inf)
    have hF : Func (costs.edgeList.map (fun e => (e.1, e.2.1, Ext.inf))) := by
      intro a b v v' h1 h2
      simp only [List.mem_map, Prod.mk.injEq] at h1 h2
      obtain ⟨_, _, _, _, rfl⟩ := h1
      obtain ⟨_, _, _, _, rfl⟩ := h2
      rfl
    refine Option.ext fun v => ?_
    rw [addEdges_edge hF]
    have : (Graph.empty : Graph α Ext O).edge a b = none := rfl
    rw [this]
    simp only [List.mem_map, Prod.mk.injEq, Option.map_eq_some_iff, reduceCtorEq, and_false, or_false]
    constructor
    · rintro ⟨⟨x, y, c⟩, he, rfl, rfl, rfl⟩; exact ⟨c, hc.mem_edgeList.1 he, rfl⟩
    · rintro ⟨c, he, rfl⟩; exact ⟨(a, b, c), hc.mem_edgeList.2 he, rfl, rfl, rfl⟩
  | some c =>
    obtain ⟨h1, h2, h3⟩ := hcap c rfl
    refine ⟨c, ?_, rfl⟩
    unfold mcfCapacity
    have e1 : c.edgeList.any (fun e => e.2.2.ltB (.fin 0)) = false := by
      rw [List.any_eq_false]
      rintro ⟨a, b, x⟩ he
      rw [ext_lt_zero.2 (h3 a b x (h1.mem_edgeList.1 he))]; simp
    have e2 : costs.edgeList.all (fun e => (c.edge e.1 e.2.1).isSome) = true := by
      rw [List.all_eq_true]
      rintro ⟨a, b, x⟩ he
      dsimp only
      rw [← h2, hc.mem_edgeList.1 he]; rfl
    have e3 : c.edgeList.all (fun e => (costs.edge e.1 e.2.1).isSome) = true := by
      rw [List.all_eq_true]
      rintro ⟨a, b, x⟩ he
      dsimp only
      rw [h2, h1.mem_edgeList.1 he]; rfl
    dsimp only
    rw [e1, e2, e3]; rfl

theorem minCostFlow_bad {nlt : α → α → Bool} {costs : Graph α Rat O} (hc : costs.Inv) {inventory : Dict α Rat}
    {capacity : Option (Graph α Ext O)} (hci : ∀ c, capacity = some c → c.Inv)
    (h : ¬ (NonNeg costs.edge ∧ ∀ c, capacity = some c → SameLinks costs.edge c.edge ∧ ∀ a b x, c.edge a b = some x → Ext.le (.fin 0) x)) :
    costs.minCostFlow nlt inventory capacity = some (.error .valueError) := by
  unfold minCostFlow
  by_cases hneg : (costs.edgeList.any (fun e => decide (e.2.2 < 0))) = true
  · rw [if_pos hneg]
  · rw [if_neg hneg]
    have hnn : NonNeg costs.edge := by
      intro a b v hv
      rw [Bool.not_eq_true, List.any_eq_false] at hneg
      have := hneg (a, b, v) (hc.mem_edgeList.2 hv)
      simp at this; grind
    have : mcfCapacity costs capacity = .error .valueError := by
      cases capacity with
      | none => exact absurd ⟨hnn, fun c hc => nomatch hc⟩ h
      | some c =>
        have h1 := hci c rfl
        unfold mcfCapacity
        dsimp only
        by_cases e1 : c.edgeList.any (fun e => e.2.2.ltB (.fin 0)) = true
        · rw [if_pos e1]
        · rw [if_neg e1]
          refine if_neg (fun hl => h ⟨hnn, fun c' hc' => ?_⟩)
          cases hc'
          rw [Bool.and_eq_true, List.all_eq_true, List.all_eq_true] at hl
          refine ⟨fun a b => ?_, fun a b x hx => ?_⟩
          · cases h2 : costs.edge a b with
            | some v => exact (hl.1 (a, b, v) (hc.mem_edgeList.2 h2)).symm
            | none =>
              cases h3 : c.edge a b with
              | none => rfl
              | some v =>
                have := hl.2 (a, b, v) (h1.mem_edgeList.2 h3)
                dsimp only at this; rw [h2] at this; cases this
          · rw [Bool.not_eq_true, List.any_eq_false] at e1
            exact ext_lt_zero.1 (Bool.not_eq_true _ ▸ e1 (a, b, x) (h1.mem_edgeList.2 hx))
    rw [this]

end GT

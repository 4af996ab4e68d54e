import Verif.Flow.Sums
import Verif.Sp.Loop
import Verif.Graph.Serial
/-
Model of `maximum_flow` (graph/max_flow.py).
-/
namespace GT
variable {α V O : Type} [DecidableEq α]
open Graph

/-- the locals of the loop: `inverted_graph`, `capacity_graph`, `flow_graph`, `unassigned_flow`, `total_flow` -/
structure MfSt (α O : Type) where
  inv : Graph α Rat O
  capg : Graph α Rat O
  flow : Graph α Rat O
  unassigned : Rat
  total : Rat

/-- `min(l)` of numbers -/
def ratMin : List Rat → Py Rat
  | [] => .error .valueError
  | x :: l => .ok (l.foldl (fun m y => if y < m then y else m) x)

/-- `min(d, capacity_graph.edge(s, e, default=float("inf")))` (max_flow.py:60) -/
def mfLeft (capg : Graph α Rat O) (e : α × α × Rat) : Rat :=
  match capg.edge e.1 e.2.1 with
  | none => e.2.2
  | some c => if c < e.2.2 then c else e.2.2

/-- the body of the loop over the edges of the path (max_flow.py:68-86) -/
def mfRecord (g : Graph α Rat O) (pf : Rat) (s : Graph α Rat O × Graph α Rat O × Graph α Rat O) (e : α × α × Rat) :
    Py (Graph α Rat O × Graph α Rat O × Graph α Rat O) :=
  match g.edge e.1 e.2.1 with
  | none => .error .typeError
  | some d =>
    let v := match s.1.edge e.1 e.2.1 with
      | none => pf
      | some v => v + pf
    .ok (s.1.addEdge e.1 e.2.1 v, s.2.1.addEdge e.1 e.2.1 (d - v),
      if 0 < d - v then s.2.2.addEdge e.1 e.2.1 (1 / (d - v)) else s.2.2.delEdge e.1 e.2.1)

/-- one iteration of `while unassigned_flow` (max_flow.py:53-86) -/
def mfStep (g : Graph α Rat O) (start fin : α) (s : MfSt α O) : Option (MfSt α O ⊕ Py (Rat × Graph α Rat O)) :=
  if s.unassigned = 0 then some (.inr (.ok (s.total, s.flow)))
  else match s.inv.shortestPath start fin with
    | none => none
    | some (.error e) => some (.inr (.error e))
    | some (.ok (.inf, _)) => some (.inr (.ok (s.total, s.flow)))
    | some (.ok (.fin _, path)) => match g.edgesPath path with
      | .error e => some (.inr (.error e))
      | .ok es => match ratMin (es.map (mfLeft s.capg)) with
        | .error e => some (.inr (.error e))
        | .ok pf => match forE es (s.flow, s.capg, s.inv) (mfRecord g pf) with
          | .error e => some (.inr (.error e))
          | .ok (flow, capg, inv) => some (.inl ⟨inv, capg, flow, s.unassigned - pf, s.total + pf⟩)

/-- `min(inflow, outflow)` (max_flow.py:22-24) -/
def Graph.mfBound (g : Graph α Rat O) (start fin : α) : Rat :=
  let inflow := sumL (g.edgesFrom start) (fun e => e.2.2)
  let outflow := sumL (g.edgesTo fin) (fun e => e.2.2)
  if outflow < inflow then outflow else inflow

/-- `inverted_graph` (max_flow.py:48-49) -/
def Graph.mfInverted (g : Graph α Rat O) : Graph α Rat O :=
  Graph.empty.addEdges ((g.edgeList.filter (fun e => decide (0 < e.2.2))).map (fun e => (e.1, e.2.1, 1 / e.2.2)))

/-- `maximum_flow(graph, start, end)` (max_flow.py:5-87).  Simplification: exact rationals. -/
def Graph.maximumFlow (g : Graph α Rat O) (start fin : α) : Option (Py (Rat × Graph α Rat O)) :=
  if !g.has start then some (.error .valueError)
  else if !g.has fin then some (.error .valueError)
  else pyWhileD (mfStep g start fin) ⟨g.mfInverted, Graph.empty, Graph.empty, g.mfBound start fin, 0⟩

/-! ### paths -/

/-- the consecutive pairs of a path -/
def pairs : List α → List (α × α)
  | a :: b :: l => (a, b) :: pairs (b :: l)
  | _ => []

omit [DecidableEq α] in
theorem pairs_mem {p : List α} {a b : α} (h : (a, b) ∈ pairs p) : a ∈ p.dropLast ∧ b ∈ p.tail := by
  induction p with
  | nil => cases h
  | cons x l ih =>
    cases l with
    | nil => cases h
    | cons y l =>
      simp only [pairs, List.mem_cons, Prod.mk.injEq] at h
      rcases h with ⟨rfl, rfl⟩ | h
      · simp
      · have := ih h
        simp only [List.dropLast_cons_cons, List.tail_cons, List.mem_cons]
        exact ⟨.inr this.1, .inr this.2⟩

theorem pairs_out {U : List α} (hU : U.Nodup) {p : List α} (hp : p.Nodup) (hpU : ∀ x ∈ p, x ∈ U) (x : α) (c : Rat) :
    sumL U (fun y => if (x, y) ∈ pairs p then c else 0) = if x ∈ p.dropLast then c else 0 := by
  induction p with
  | nil => simp [pairs, sumL_zero]
  | cons a l ih =>
    cases l with
    | nil => simp [pairs, sumL_zero]
    | cons b l =>
      have hp' := hp
      rw [List.nodup_cons] at hp
      have ih := ih hp.2 (fun x hx => hpU x (List.mem_cons_of_mem _ hx))
      simp only [pairs, List.mem_cons, Prod.mk.injEq, List.dropLast_cons_cons]
      by_cases hx : x = a
      · subst hx
        have hno : ∀ y, (x, y) ∉ pairs (b :: l) := fun y h => hp.1 (List.dropLast_subset _ (pairs_mem h).1)
        rw [if_pos (.inl rfl)]
        rw [sumL_congr (g := fun y => if y = b then c else 0) (fun y _ => by
          by_cases hy : y = b
          · rw [if_pos (.inl ⟨rfl, hy⟩), if_pos hy]
          · rw [if_neg (fun h => h.elim (fun h => hy h.2) (hno y)), if_neg hy])]
        exact sumL_single hU (hpU b (by simp)) c
      · rw [sumL_congr (g := fun y => if (x, y) ∈ pairs (b :: l) then c else 0) (fun y _ => by
          by_cases hy : (x, y) ∈ pairs (b :: l)
          · rw [if_pos (.inr hy), if_pos hy]
          · rw [if_neg (fun h => h.elim (fun h => hx h.1) hy), if_neg hy])]
        rw [ih]
        by_cases h2 : x ∈ (b :: l).dropLast
        · rw [if_pos h2, if_pos (.inr h2)]
        · rw [if_neg h2, if_neg (fun h => h.elim hx h2)]

theorem pairs_in {U : List α} (hU : U.Nodup) {p : List α} (hp : p.Nodup) (hpU : ∀ x ∈ p, x ∈ U) (x : α) (c : Rat) :
    sumL U (fun y => if (y, x) ∈ pairs p then c else 0) = if x ∈ p.tail then c else 0 := by
  induction p with
  | nil => simp [pairs, sumL_zero]
  | cons a l ih =>
    cases l with
    | nil => simp [pairs, sumL_zero]
    | cons b l =>
      rw [List.nodup_cons] at hp
      have ih := ih hp.2 (fun x hx => hpU x (List.mem_cons_of_mem _ hx))
      simp only [pairs, List.mem_cons, Prod.mk.injEq, List.tail_cons]
      have hp2 := hp.2
      rw [List.nodup_cons] at hp2
      by_cases hx : x = b
      · subst hx
        have hno : ∀ y, (y, x) ∉ pairs (x :: l) := fun y h => hp2.1 (pairs_mem h).2
        rw [if_pos (.inl rfl)]
        rw [sumL_congr (g := fun y => if y = a then c else 0) (fun y _ => by
          by_cases hy : y = a
          · rw [if_pos (.inl ⟨hy, rfl⟩), if_pos hy]
          · rw [if_neg (fun h => h.elim (fun h => hy h.1) (hno y)), if_neg hy])]
        exact sumL_single hU (hpU a (by simp)) c
      · rw [sumL_congr (g := fun y => if (y, x) ∈ pairs (b :: l) then c else 0) (fun y _ => by
          by_cases hy : (y, x) ∈ pairs (b :: l)
          · rw [if_pos (.inr hy), if_pos hy]
          · rw [if_neg (fun h => h.elim (fun h => hx h.2) hy), if_neg hy])]
        rw [ih]
        by_cases h2 : x ∈ (b :: l).tail
        · rw [if_pos h2, if_pos (.inr h2)]
        · rw [if_neg h2, if_neg (fun h => h.elim hx h2)]

omit [DecidableEq α] in
theorem pairs_nodup {p : List α} (hp : p.Nodup) : (pairs p).Nodup := by
  induction p with
  | nil => exact List.nodup_nil
  | cons a l ih =>
    cases l with
    | nil => exact List.nodup_nil
    | cons b l =>
      rw [List.nodup_cons] at hp
      rw [pairs, List.nodup_cons]
      exact ⟨fun h => hp.1 (List.dropLast_subset _ (pairs_mem h).1), ih hp.2⟩

omit [DecidableEq α] in
theorem Consec.mono {R S : α → α → Prop} (h : ∀ a b, R a b → S a b) {p : List α} (hp : Consec R p) : Consec S p := by
  induction p with
  | nil => trivial
  | cons a l ih =>
    cases l with
    | nil => trivial
    | cons b l => exact ⟨h _ _ hp.1, ih hp.2⟩

omit [DecidableEq α] in
theorem pairs_rel {R : α → α → Prop} {p : List α} (hp : Consec R p) {a b : α} (h : (a, b) ∈ pairs p) : R a b := by
  induction p with
  | nil => cases h
  | cons x l ih =>
    cases l with
    | nil => cases h
    | cons y l =>
      simp only [pairs, List.mem_cons, Prod.mk.injEq] at h
      rcases h with ⟨rfl, rfl⟩ | h
      · exact hp.1
      · exact ih hp.2 h

omit [DecidableEq α] in
theorem mem_pairs_of_mem {p : List α} {x : α} (hx : x ∈ p) (hl : 2 ≤ p.length) : ∃ y, (x, y) ∈ pairs p ∨ (y, x) ∈ pairs p := by
  induction p with
  | nil => cases hx
  | cons a l ih =>
    cases l with
    | nil => simp at hl
    | cons b l =>
      rcases List.mem_cons.1 hx with rfl | hx
      · exact ⟨b, .inl (by simp [pairs])⟩
      · cases l with
        | nil => simp at hx; subst hx; exact ⟨a, .inr (by simp [pairs])⟩
        | cons c l =>
          obtain ⟨y, hy⟩ := ih hx (by simp)
          refine ⟨y, hy.imp ?_ ?_⟩ <;> (intro h; rw [pairs]; exact List.mem_cons_of_mem _ h)

/-- `edges(path=p)` of a walk -/
theorem edgesAlong_pairs {g : Graph α V O} {p : List α} (h : Consec g.Adj p) :
    ∃ es, g.edgesAlong p = .ok es ∧ es.map (fun e => (e.1, e.2.1)) = pairs p ∧ ∀ e ∈ es, g.edge e.1 e.2.1 = some e.2.2 := by
  induction p with
  | nil => exact ⟨[], rfl, rfl, by simp⟩
  | cons a l ih =>
    cases l with
    | nil => exact ⟨[], rfl, rfl, by simp⟩
    | cons b l =>
      obtain ⟨es, h1, h2, h3⟩ := ih h.2
      have hab := h.1
      unfold Adj at hab
      obtain ⟨v, hv⟩ := Option.isSome_iff_exists.1 hab
      refine ⟨(a, b, v) :: es, ?_, by simp [pairs, h2], ?_⟩
      · have hv' := hv
        unfold Graph.edge at hv
        unfold edgesAlong
        cases hr : g.edges.get? a with
        | none => rw [hr] at hv; cases hv
        | some d =>
          rw [hr] at hv
          have hv : d.get? b = some v := hv
          dsimp only
          rw [hv]
          dsimp only
          rw [h1]
      · intro e he
        rcases List.mem_cons.1 he with rfl | he
        · exact hv
        · exact h3 e he

theorem ratMin_spec {l : List Rat} (h : l ≠ []) : ∃ m, ratMin l = .ok m ∧ m ∈ l ∧ ∀ x ∈ l, m ≤ x := by
  cases l with
  | nil => exact absurd rfl h
  | cons a l =>
    refine ⟨_, rfl, ?_⟩
    clear h
    induction l generalizing a with
    | nil => simp
    | cons b l ih =>
      rw [List.foldl_cons]
      obtain ⟨h1, h2⟩ := ih (if b < a then b else a)
      generalize List.foldl (fun m y => if y < m then y else m) (if b < a then b else a) l = r at h1 h2
      constructor
      · rcases List.mem_cons.1 h1 with h | h
        · rw [h]; split <;> simp
        · simp [h]
      · intro x hx
        have h3 := h2 _ List.mem_cons_self
        rcases List.mem_cons.1 hx with rfl | hx
        · split at h3 <;> grind
        · rcases List.mem_cons.1 hx with rfl | hx
          · split at h3 <;> grind
          · exact h2 x (List.mem_cons_of_mem _ hx)

/-! ### recording a path -/

/-- the flow through a pair -/
def flowOf (f : Graph α Rat O) (a b : α) : Rat := (f.edge a b).getD 0

theorem mfRecord_fold {g : Graph α Rat O} (pf : Rat) (es : List (α × α × Rat)) :
    ∀ (f c i : Graph α Rat O), f.Inv → i.Inv → (∀ e ∈ es, g.edge e.1 e.2.1 = some e.2.2) →
    (es.map (fun e => (e.1, e.2.1))).Nodup →
    ∃ f' c' i', forE es (f, c, i) (mfRecord g pf) = .ok (f', c', i') ∧ f'.Inv ∧ i'.Inv ∧
      (∀ x, f.has x = true → f'.has x = true) ∧ (∀ x, i.has x = true → i'.has x = true) ∧
      (∀ a b, f'.edge a b = if (a, b) ∈ es.map (fun e => (e.1, e.2.1)) then some (flowOf f a b + pf) else f.edge a b) ∧
      (∀ a b, c'.edge a b = if (a, b) ∈ es.map (fun e => (e.1, e.2.1)) then some (capOf g.edge a b - (flowOf f a b + pf)) else c.edge a b) ∧
      (∀ a b, i'.edge a b = if (a, b) ∈ es.map (fun e => (e.1, e.2.1)) then
        (if 0 < capOf g.edge a b - (flowOf f a b + pf) then some (1 / (capOf g.edge a b - (flowOf f a b + pf))) else none)
        else i.edge a b) := by
  induction es with
  | nil => intro f c i hf hi _ _; exact ⟨f, c, i, rfl, hf, hi, fun _ h => h, fun _ h => h, by simp, by simp, by simp⟩
  | cons e es ih =>
    obtain ⟨x, y, d⟩ := e
    intro f c i hf hi he hnd
    rw [List.map_cons, List.nodup_cons] at hnd
    have hd : g.edge x y = some d := he _ List.mem_cons_self
    have hv : (match f.edge x y with
      | none => pf
      | some v => v + pf) = flowOf f x y + pf := by
      unfold flowOf; cases f.edge x y with
      | none => show pf = 0 + pf; grind
      | some v => rfl
    have hcap : capOf g.edge x y = d := by unfold capOf; rw [hd]; rfl
    unfold forE
    have hrec : mfRecord g pf (f, c, i) (x, y, d) = .ok (f.addEdge x y (flowOf f x y + pf), c.addEdge x y (d - (flowOf f x y + pf)),
        if 0 < d - (flowOf f x y + pf) then i.addEdge x y (1 / (d - (flowOf f x y + pf))) else i.delEdge x y) := by
      unfold mfRecord
      dsimp only
      rw [hd]
      dsimp only
      rw [hv]
    rw [hrec]
    dsimp only
    have hi' : (if 0 < d - (flowOf f x y + pf) then i.addEdge x y (1 / (d - (flowOf f x y + pf))) else i.delEdge x y).Inv := by
      split
      · exact hi.addEdge _ _ _
      · exact hi.delEdge _ _
    have hie : ∀ a b, (if 0 < d - (flowOf f x y + pf) then i.addEdge x y (1 / (d - (flowOf f x y + pf))) else i.delEdge x y).edge a b =
        if x = a ∧ y = b then (if 0 < d - (flowOf f x y + pf) then some (1 / (d - (flowOf f x y + pf))) else none) else i.edge a b := by
      intro a b
      by_cases h0 : 0 < d - (flowOf f x y + pf)
      · rw [if_pos h0, if_pos h0, edge_addEdge]
      · rw [if_neg h0, if_neg h0, edge_delEdge hi]
    have hih : ∀ z, i.has z = true → (if 0 < d - (flowOf f x y + pf) then i.addEdge x y (1 / (d - (flowOf f x y + pf))) else i.delEdge x y).has z = true := by
      intro z hz
      split
      · unfold Graph.has Dict.contains at hz ⊢
        rw [addEdge_nodes_get?]; split
        · rfl
        · exact hz
      · unfold Graph.has at hz ⊢; rw [delEdge_nodes]; exact hz
    obtain ⟨f', c', i', h1, h2, h3, h4, h5, h6, h7, h8⟩ := ih (f.addEdge x y (flowOf f x y + pf)) (c.addEdge x y (d - (flowOf f x y + pf)))
      _ (hf.addEdge _ _ _) hi' (fun e he' => he e (List.mem_cons_of_mem _ he')) hnd.2
    have hfl : ∀ a b, (a, b) ∈ es.map (fun e => (e.1, e.2.1)) →
        flowOf (f.addEdge x y (flowOf f x y + pf)) a b = flowOf f a b := by
      intro a b hab
      unfold flowOf
      rw [edge_addEdge, if_neg]
      rintro ⟨rfl, rfl⟩; exact hnd.1 hab
    refine ⟨f', c', i', h1, h2, h3, fun z hz => h4 z ?_, fun z hz => h5 z (hih z hz), fun a b => ?_, fun a b => ?_, fun a b => ?_⟩
    · unfold Graph.has Dict.contains at hz ⊢
      rw [addEdge_nodes_get?]; split
      · rfl
      · exact hz
    · rw [h6]
      by_cases hab : (a, b) ∈ es.map (fun e => (e.1, e.2.1))
      · rw [if_pos hab, if_pos (by rw [List.map_cons]; exact List.mem_cons_of_mem _ hab), hfl a b hab]
      · rw [if_neg hab, edge_addEdge]
        by_cases hxy : x = a ∧ y = b
        · obtain ⟨rfl, rfl⟩ := hxy
          rw [if_pos ⟨rfl, rfl⟩, if_pos (by simp)]
        · rw [if_neg hxy, if_neg]
          rw [List.map_cons, List.mem_cons, Prod.mk.injEq]
          rintro (h | h)
          · exact hxy ⟨h.1.symm, h.2.symm⟩
          · exact hab h
    · rw [h7]
      by_cases hab : (a, b) ∈ es.map (fun e => (e.1, e.2.1))
      · rw [if_pos hab, if_pos (by rw [List.map_cons]; exact List.mem_cons_of_mem _ hab), hfl a b hab]
      · rw [if_neg hab, edge_addEdge]
        by_cases hxy : x = a ∧ y = b
        · obtain ⟨rfl, rfl⟩ := hxy
          rw [if_pos ⟨rfl, rfl⟩, if_pos (by simp), hcap]
        · rw [if_neg hxy, if_neg]
          rw [List.map_cons, List.mem_cons, Prod.mk.injEq]
          rintro (h | h)
          · exact hxy ⟨h.1.symm, h.2.symm⟩
          · exact hab h
    · rw [h8]
      by_cases hab : (a, b) ∈ es.map (fun e => (e.1, e.2.1))
      · have hm : (a, b) ∈ List.map (fun e : α × α × Rat => (e.1, e.2.1)) ((x, y, d) :: es) := by
          rw [List.map_cons]; exact List.mem_cons_of_mem _ hab
        rw [if_pos hab, if_pos hm, hfl a b hab]
      · rw [if_neg hab, hie]
        by_cases hxy : x = a ∧ y = b
        · obtain ⟨rfl, rfl⟩ := hxy
          have hm : (x, y) ∈ List.map (fun e : α × α × Rat => (e.1, e.2.1)) ((x, y, d) :: es) := by simp
          rw [if_pos ⟨rfl, rfl⟩, if_pos hm, hcap]
        · rw [if_neg hxy, if_neg]
          rw [List.map_cons, List.mem_cons, Prod.mk.injEq]
          rintro (h | h)
          · exact hxy ⟨h.1.symm, h.2.symm⟩
          · exact hab h

/-! ### the loop -/

/-- the flow on all edges together -/
def flowVolume (V : List α) (F : α → α → Rat) : Rat := sumL V (fun a => sumL V (fun b => F a b))

/-- no path from `start` to `fin` (without repeated nodes) has more than `L` edges -/
def ShortRoutes (g : Graph α V O) (start fin : α) (L : Nat) : Prop := ∀ p, WalkFT g.Adj start fin p → p.Nodup → p.length ≤ L + 1

/-- nodes of a duplicate-free list, counted -/
theorem sumL_count {U l : List α} (hU : U.Nodup) (hl : l.Nodup) (hlU : ∀ x ∈ l, x ∈ U) (c : Rat) :
    sumL U (fun x => if x ∈ l then c else 0) = (l.length : Rat) * c := by
  induction l with
  | nil => simp only [List.not_mem_nil, if_false, sumL_zero]; simp
  | cons a l ih =>
    rw [List.nodup_cons] at hl
    rw [sumL_congr (g := fun x => (if x = a then c else 0) + (if x ∈ l then c else 0)) (fun x _ => ?_), sumL_add, sumL_single hU (hlU a (by simp)) c,
      ih hl.2 (fun x hx => hlU x (List.mem_cons_of_mem _ hx))]
    · rw [List.length_cons, Rat.natCast_add]; grind
    · by_cases hx : x = a
      · subst hx; simp [hl.1]; grind
      · simp [hx]; grind

theorem nodup_sub_len {γ : Type} [DecidableEq γ] : ∀ {l m : List γ}, l.Nodup → (∀ x ∈ l, x ∈ m) → l.length ≤ m.length
  | [], _, _, _ => by simp
  | a :: l, m, h, hs => by
    rw [List.nodup_cons] at h
    have h1 : l.length ≤ (m.erase a).length := nodup_sub_len h.2 (fun x hx => by
      have hxa : x ≠ a := fun he => h.1 (he ▸ hx)
      exact (List.mem_erase_of_ne hxa).2 (hs x (List.mem_cons_of_mem _ hx)))
    have h2 := List.length_erase_of_mem (hs a (by simp))
    have h3 : 0 < m.length := List.length_pos_of_mem (hs a (by simp))
    simp only [List.length_cons]
    omega

structure MfInv (g : Graph α Rat O) (start fin : α) (U0 : Rat) (s : MfSt α O) : Prop where
  finv : s.flow.Inv
  iinv : s.inv.Inv
  nonneg : ∀ a b, 0 ≤ flowOf s.flow a b
  within : ∀ a b, flowOf s.flow a b ≤ capOf g.edge a b
  cap : ∀ a b, (s.capg.edge a b = none ∧ s.flow.edge a b = none) ∨
    s.capg.edge a b = some (capOf g.edge a b - flowOf s.flow a b)
  inv : ∀ a b x, s.inv.edge a b = some x ↔ 0 < capOf g.edge a b - flowOf s.flow a b ∧ x = 1 / (capOf g.edge a b - flowOf s.flow a b)
  ends : s.unassigned ≠ 0 → s.inv.has start = true ∧ s.inv.has fin = true
  cons : ∀ x ∈ g.nodeList, x ≠ start → x ≠ fin →
    sumL g.nodeList (fun y => flowOf s.flow x y) = sumL g.nodeList (fun y => flowOf s.flow y x)
  value : sumL g.nodeList (fun y => flowOf s.flow start y) - sumL g.nodeList (fun y => flowOf s.flow y start) = s.total
  sum : s.unassigned + s.total = U0
  pos : ∀ a b v, s.flow.edge a b = some v → 0 < v
  outFin : ∀ b, s.flow.edge fin b = none
  inStart : ∀ a, s.flow.edge a start = none
  zero : 0 < s.total ∨ (s.total = 0 ∧ ∀ a b, s.flow.edge a b = none)
  vol : ∀ L : Nat, ShortRoutes g start fin L → flowVolume g.nodeList (flowOf s.flow) ≤ (L : Rat) * s.total

/-- the number of edges with capacity left -/
def mfMeasure (g : Graph α Rat O) (s : MfSt α O) : Nat :=
  (g.edgeList.filter (fun e => decide (0 < e.2.2 - flowOf s.flow e.1 e.2.1))).length

theorem filter_length_lt {β : Type} {l : List β} {p q : β → Bool} (hpq : ∀ x ∈ l, p x = true → q x = true)
    {y : β} (hy : y ∈ l) (h1 : q y = true) (h2 : p y = false) : (l.filter p).length < (l.filter q).length := by
  rw [← List.countP_eq_length_filter, ← List.countP_eq_length_filter]
  induction l with
  | nil => cases hy
  | cons a l ih =>
    rw [List.countP_cons, List.countP_cons]
    rcases List.mem_cons.1 hy with rfl | hy
    · have : l.countP p ≤ l.countP q := List.countP_mono_left (fun x hx h => hpq x (List.mem_cons_of_mem _ hx) h)
      rw [h1, h2]; simp; omega
    · have := ih (fun x hx => hpq x (List.mem_cons_of_mem _ hx)) hy
      have h3 := hpq a (by simp)
      cases hp : p a
      · simp; omega
      · rw [h3 hp]; simp; omega

/-- what `maximum_flow` returns: a feasible flow, and either all of the bound is used or the flow is blocking -/
def MfPost (g : Graph α Rat O) (start fin : α) (r : Py (Rat × Graph α Rat O)) : Prop :=
  ∃ total f, r = .ok (total, f) ∧ f.Inv ∧ (0 < total ∨ (total = 0 ∧ ∀ a b, f.edge a b = none)) ∧ IsFlow g.nodeList g.edge start fin (flowOf f) total ∧
    (∀ a b v, f.edge a b = some v → 0 < v) ∧ (∀ b, f.edge fin b = none) ∧ (∀ a, f.edge a start = none) ∧
    (total = g.mfBound start fin ∨ Blocking g.edge start fin (flowOf f))

theorem MfInv.post {g : Graph α Rat O} {start fin : α} {s : MfSt α O} (h : MfInv g start fin (g.mfBound start fin) s)
    (hq : s.unassigned = 0 ∨ Blocking g.edge start fin (flowOf s.flow)) : MfPost g start fin (.ok (s.total, s.flow)) := by
  refine ⟨_, _, rfl, h.finv, h.zero, ⟨h.nonneg, h.within, h.cons, h.value⟩, h.pos, h.outFin, h.inStart, ?_⟩
  rcases hq with hq | hq
  · left; have := h.sum; rw [hq] at this; grind
  · exact .inr hq

/-- every unit of value uses at most `L` units of flow -/
def MfVol (g : Graph α Rat O) (start fin : α) (r : Py (Rat × Graph α Rat O)) : Prop :=
  ∀ total f, r = .ok (total, f) → ∀ L : Nat, ShortRoutes g start fin L → flowVolume g.nodeList (flowOf f) ≤ (L : Rat) * total

theorem MfInv.mfVol {g : Graph α Rat O} {start fin : α} {U0 : Rat} {s : MfSt α O} (h : MfInv g start fin U0 s) : MfVol g start fin (.ok (s.total, s.flow)) := by
  intro total f hr; cases hr; exact h.vol

/-- adding `pf` along the pairs of a simple path -/
theorem sumL_fun_add {U : List α} {F F' : α → α → Rat} {p : List α} {pf : Rat}
    (hf : ∀ a b, F' a b = if (a, b) ∈ pairs p then F a b + pf else F a b)
    (hp : p.Nodup) (hpU : ∀ x ∈ p, x ∈ U) (hU : U.Nodup) (x : α) :
    sumL U (fun y => F' x y) = sumL U (fun y => F x y) + (if x ∈ p.dropLast then pf else 0) ∧
    sumL U (fun y => F' y x) = sumL U (fun y => F y x) + (if x ∈ p.tail then pf else 0) := by
  have h0 : ∀ a b, F' a b = F a b + (if (a, b) ∈ pairs p then pf else 0) := by
    intro a b; rw [hf]; split
    · rfl
    · grind
  constructor
  · rw [sumL_congr (fun y _ => h0 x y), sumL_add, pairs_out hU hp hpU]
  · rw [sumL_congr (fun y _ => h0 y x), sumL_add, pairs_in hU hp hpU]

theorem sumL_flow_add {g f f' : Graph α Rat O} {p : List α} {pf : Rat}
    (hf : ∀ a b, flowOf f' a b = if (a, b) ∈ pairs p then flowOf f a b + pf else flowOf f a b)
    (hp : p.Nodup) (hpU : ∀ x ∈ p, x ∈ g.nodeList) (hU : g.nodeList.Nodup) (x : α) :
    sumL g.nodeList (fun y => flowOf f' x y) = sumL g.nodeList (fun y => flowOf f x y) + (if x ∈ p.dropLast then pf else 0) ∧
    sumL g.nodeList (fun y => flowOf f' y x) = sumL g.nodeList (fun y => flowOf f y x) + (if x ∈ p.tail then pf else 0) :=
  sumL_fun_add hf hp hpU hU x

omit [DecidableEq α] in
/-- the inner nodes of a simple walk -/
theorem walk_tail_dropLast {p : List α} {a z : α} (h1 : p.head? = some a) (h2 : p.getLast? = some z) (hp : p.Nodup) (hne : a ≠ z) :
    a ∉ p.tail ∧ a ∈ p.dropLast ∧ z ∉ p.dropLast ∧ ∀ x, x ≠ a → x ≠ z → (x ∈ p.tail ↔ x ∈ p.dropLast) := by
  cases p with
  | nil => cases h1
  | cons b l =>
    simp at h1; subst h1
    have hl : l ≠ [] := by rintro rfl; simp at h2; exact hne h2
    have h3 : l = l.dropLast ++ [z] := by
      rw [List.getLast?_cons] at h2
      have h4 : l.getLast? = some z := by
        rw [List.getLast?_eq_some_getLast hl] at h2 ⊢; simpa using h2
      obtain ⟨ys, rfl⟩ := List.getLast?_eq_some_iff.1 h4
      rw [List.dropLast_concat]
    rw [List.nodup_cons] at hp
    have h5 : (b :: l).dropLast = b :: l.dropLast := by
      cases l with
      | nil => exact absurd rfl hl
      | cons c l => rfl
    rw [h5]
    have hnd := hp.2
    rw [h3, List.nodup_append] at hnd
    refine ⟨hp.1, by simp, ?_, ?_⟩
    · intro hz
      rcases List.mem_cons.1 hz with h | h
      · exact hne h.symm
      · exact hnd.2.2 z h z (by simp) rfl
    · intro x hxa hxz
      simp only [List.tail_cons, List.mem_cons]
      constructor
      · intro hx; rw [h3] at hx
        rcases List.mem_append.1 hx with h | h
        · exact .inr h
        · simp at h; exact absurd h hxz
      · rintro (h | h)
        · exact absurd h hxa
        · exact List.dropLast_subset _ h

theorem mfStep_inv {g : Graph α Rat O} (hg : g.Inv) (hc : NonNeg g.edge) {start fin : α} (hne : start ≠ fin)
    {s : MfSt α O} (h : MfInv g start fin (g.mfBound start fin) s) :
    (∃ s', mfStep g start fin s = some (.inl s') ∧ MfInv g start fin (g.mfBound start fin) s' ∧ mfMeasure g s' < mfMeasure g s) ∨
    (∃ r, mfStep g start fin s = some (.inr r) ∧ MfPost g start fin r ∧ MfVol g start fin r) := by
  unfold mfStep
  by_cases hu : s.unassigned = 0
  · rw [if_pos hu]; exact .inr ⟨_, rfl, h.post (.inl hu), h.mfVol⟩
  rw [if_neg hu]
  have hiw : NonNeg s.inv.edge := by
    intro a b x hx
    obtain ⟨h1, h2⟩ := (h.inv a b x).1 hx
    rw [h2, Rat.div_def]
    have := Rat.inv_pos.2 h1
    grind
  obtain ⟨r, hr, hsp⟩ := shortestPath_spec h.iinv hiw [] (h.ends hu).1 (h.ends hu).2
  have hnd := shortestPath_nodup hr
  rw [hr]
  rcases hsp with ⟨d, hd, ⟨hw, _⟩, _⟩ | ⟨rfl, hno⟩
  · obtain ⟨d', path⟩ := r
    dsimp only at hd hw hnd
    subst hd
    dsimp only
    have hcap0 : ∀ a b, 0 < capOf g.edge a b → g.edge a b = some (capOf g.edge a b) := by
      intro a b hab
      unfold capOf at hab ⊢
      cases he : g.edge a b with
      | none => rw [he] at hab; exact absurd hab (by simp)
      | some v => rfl
    have hedge : ∀ a b x, s.inv.edge a b = some x → g.edge a b = some (capOf g.edge a b) := by
      intro a b x hx
      have h1 := ((h.inv a b x).1 hx).1
      have h2 := h.nonneg a b
      exact hcap0 a b (by grind)
    have hcon : Consec (fun a b => (s.inv.edge a b).isSome) path := hw.walkFT.1
    have hcong : Consec g.Adj path := by
      refine hcon.mono (fun a b hab => ?_)
      obtain ⟨x, hx⟩ := Option.isSome_iff_exists.1 hab
      unfold Adj; rw [hedge a b x hx]; rfl
    have hlen : ¬ path.length < 2 := by
      intro hl
      obtain ⟨h1, h2, _⟩ := hw
      match path, hl with
      | [], _ => cases h1
      | [x], _ => simp at h1 h2; exact hne (h1.symm.trans h2)
      | _ :: _ :: _, hl => simp at hl; omega
    obtain ⟨es, hes, hpairs, hval⟩ := edgesAlong_pairs hcong
    have hesp : g.edgesPath path = .ok es := by unfold edgesPath; rw [if_neg hlen]; exact hes
    rw [hesp]
    dsimp only
    have hesne : es ≠ [] := by
      rintro rfl
      rw [List.map_nil] at hpairs
      match path, hlen with
      | [], hl => simp at hl
      | [x], hl => simp at hl
      | _ :: _ :: _, _ => simp [pairs] at hpairs
    obtain ⟨pf, hpf, hmem, hmin⟩ := ratMin_spec (l := es.map (mfLeft s.capg)) (by simpa using hesne)
    rw [hpf]
    dsimp only
    -- what is left on an edge of the path
    have hleft : ∀ e ∈ es, mfLeft s.capg e = capOf g.edge e.1 e.2.1 - flowOf s.flow e.1 e.2.1 := by
      intro e he
      have h1 := hval e he
      have h2 : capOf g.edge e.1 e.2.1 = e.2.2 := by unfold capOf; rw [h1]; rfl
      have h3 := h.nonneg e.1 e.2.1
      unfold mfLeft
      rcases h.cap e.1 e.2.1 with ⟨h4, h5⟩ | h4
      · rw [h4]; dsimp only; rw [h2]; unfold flowOf; rw [h5]; simp; grind
      · rw [h4]; dsimp only; rw [h2]; split <;> grind
    have hpos : ∀ a b, (a, b) ∈ pairs path → 0 < capOf g.edge a b - flowOf s.flow a b := by
      intro a b hab
      have : (s.inv.edge a b).isSome := pairs_rel hcon hab
      obtain ⟨x, hx⟩ := Option.isSome_iff_exists.1 this
      exact ((h.inv a b x).1 hx).1
    have hpair : ∀ e ∈ es, (e.1, e.2.1) ∈ pairs path := by
      intro e he; rw [← hpairs]; exact List.mem_map_of_mem he
    have hpf0 : 0 < pf := by
      obtain ⟨e, he, hee⟩ := List.mem_map.1 hmem
      rw [← hee, hleft e he]; exact hpos _ _ (hpair e he)
    have hle : ∀ a b, (a, b) ∈ pairs path → flowOf s.flow a b + pf ≤ capOf g.edge a b := by
      intro a b hab
      rw [← hpairs] at hab
      obtain ⟨e, he, hee⟩ := List.mem_map.1 hab
      simp at hee; obtain ⟨rfl, rfl⟩ := hee
      have := hmin _ (List.mem_map_of_mem he)
      rw [hleft e he] at this; grind
    have hnd2 : (es.map (fun e => (e.1, e.2.1))).Nodup := by rw [hpairs]; exact pairs_nodup hnd
    obtain ⟨f', c', i', hfor, hf1, hi1, _, hih, hfe, hce, hie⟩ := mfRecord_fold (g := g) pf es s.flow s.capg s.inv h.finv h.iinv hval hnd2
    rw [hpairs] at hfe hce hie
    rw [hfor]
    dsimp only
    have hflow : ∀ a b, flowOf f' a b = if (a, b) ∈ pairs path then flowOf s.flow a b + pf else flowOf s.flow a b := by
      intro a b
      conv => lhs; unfold flowOf
      rw [hfe]
      split <;> rfl
    have hpU : ∀ x ∈ path, x ∈ g.nodeList := by
      intro x hx
      have hl2 : ∃ y, (x, y) ∈ pairs path ∨ (y, x) ∈ pairs path := mem_pairs_of_mem hx (by omega)
      obtain ⟨y, hy | hy⟩ := hl2
      · have := hpos _ _ hy; have h2 := h.nonneg x y
        exact (hg.edge_mem (hcap0 x y (by grind))).1
      · have := hpos _ _ hy; have h2 := h.nonneg y x
        exact (hg.edge_mem (hcap0 y x (by grind))).2
    have hsum := sumL_flow_add (g := g) hflow hnd hpU hg.nodesWF
    obtain ⟨ht1, ht2, ht3, ht4⟩ := walk_tail_dropLast hw.1 hw.2.1 hnd hne
    refine .inl ⟨_, rfl, ⟨hf1, hi1, ?_, ?_, ?_, ?_, ?_, ?_, ?_, ?_, ?_, ?_, ?_, ?_, ?_⟩, ?_⟩
    · intro a b; show 0 ≤ flowOf f' a b
      rw [hflow]; have := h.nonneg a b; split <;> grind
    · intro a b; show flowOf f' a b ≤ _
      rw [hflow]; split
      · rename_i hab; exact hle a b hab
      · exact h.within a b
    · intro a b
      show (c'.edge a b = none ∧ f'.edge a b = none) ∨ c'.edge a b = some (capOf g.edge a b - flowOf f' a b)
      rw [hce, hfe, hflow]
      by_cases hab : (a, b) ∈ pairs path
      · rw [if_pos hab, if_pos hab, if_pos hab]; exact .inr rfl
      · rw [if_neg hab, if_neg hab, if_neg hab]; exact h.cap a b
    · intro a b x
      show i'.edge a b = some x ↔ 0 < capOf g.edge a b - flowOf f' a b ∧ x = 1 / (capOf g.edge a b - flowOf f' a b)
      rw [hie, hflow]
      by_cases hab : (a, b) ∈ pairs path
      · rw [if_pos hab, if_pos hab]
        by_cases h0 : 0 < capOf g.edge a b - (flowOf s.flow a b + pf)
        · rw [if_pos h0]; simp only [Option.some.injEq, h0, true_and]; exact eq_comm
        · rw [if_neg h0]; simp only [h0, false_and, iff_false]; exact (fun h => nomatch h)
      · rw [if_neg hab, if_neg hab]; exact h.inv a b x
    · intro _; exact ⟨hih _ (h.ends hu).1, hih _ (h.ends hu).2⟩
    · intro x hx hxs hxf
      show sumL g.nodeList (fun y => flowOf f' x y) = sumL g.nodeList (fun y => flowOf f' y x)
      rw [(hsum x).1, (hsum x).2, h.cons x hx hxs hxf]
      congr 1
      have := ht4 x hxs hxf
      by_cases h5 : x ∈ path.dropLast
      · rw [if_pos h5, if_pos (this.2 h5)]
      · rw [if_neg h5, if_neg (fun h => h5 (this.1 h))]
    · show sumL g.nodeList (fun y => flowOf f' start y) - sumL g.nodeList (fun y => flowOf f' y start) = s.total + pf
      rw [(hsum start).1, (hsum start).2, if_pos ht2, if_neg ht1]
      have := h.value
      grind
    · show s.unassigned - pf + (s.total + pf) = _
      have := h.sum; grind
    · intro a b v hv
      have hv : f'.edge a b = some v := hv
      rw [hfe] at hv
      split at hv
      · cases hv; have := h.nonneg a b; grind
      · exact h.pos a b v hv
    · intro b
      show f'.edge fin b = none
      rw [hfe, if_neg (fun hm => ht3 (pairs_mem hm).1)]; exact h.outFin b
    · intro a
      show f'.edge a start = none
      rw [hfe, if_neg (fun hm => ht1 (pairs_mem hm).2)]; exact h.inStart a
    · left; show 0 < s.total + pf
      rcases h.zero with h | ⟨h, _⟩ <;> grind
    · intro L hL
      show flowVolume g.nodeList (flowOf f') ≤ (L : Rat) * (s.total + pf)
      have hv := h.vol L hL
      unfold flowVolume at hv ⊢
      rw [sumL_congr (fun x _ => (hsum x).1), sumL_add, sumL_count (U := g.nodeList) hg.nodesWF (hnd.sublist (List.dropLast_sublist _)) (fun x hx => hpU x (List.dropLast_subset _ hx))]
      have hl2 : path.dropLast.length ≤ L := by
        have := hL path ⟨hcong, hw.1, hw.2.1⟩ hnd
        rw [List.length_dropLast]; omega
      have h4 := Rat.mul_le_mul_of_nonneg_right (Rat.natCast_le_natCast.2 hl2) (Rat.le_of_lt hpf0)
      grind
    · -- one edge of the path is saturated
      obtain ⟨e, he, hee⟩ := List.mem_map.1 hmem
      rw [hleft e he] at hee
      have hcape : capOf g.edge e.1 e.2.1 = e.2.2 := by unfold capOf; rw [hval e he]; rfl
      refine filter_length_lt (y := e) ?_ ?_ ?_ ?_
      · intro x _ hx
        simp only [decide_eq_true_eq] at hx ⊢
        have hx : 0 < x.2.2 - flowOf f' x.1 x.2.1 := hx
        rw [hflow] at hx
        split at hx <;> grind
      · have := hval e he
        rw [show e = (e.1, e.2.1, e.2.2) from rfl, hg.mem_edgeList]; exact this
      · simp only [decide_eq_true_eq]
        have := hpos _ _ (hpair e he)
        rw [hcape] at this; exact this
      · simp only [decide_eq_false_iff_not]
        show ¬ 0 < e.2.2 - flowOf f' e.1 e.2.1
        rw [hflow, if_pos (hpair e he)]
        rw [hcape] at hee; grind
  · dsimp only
    refine .inr ⟨_, rfl, h.post (.inr ?_), h.mfVol⟩
    intro hreach
    apply hno
    obtain ⟨p, hp⟩ := (reach_iff_walk).1 hreach
    have hp2 : WalkFT (fun a b => (s.inv.edge a b).isSome) start fin p := by
      refine ⟨hp.1.mono (fun a b hab => ?_), hp.2⟩
      obtain ⟨d, hd1, hd2⟩ := hab
      have : capOf g.edge a b = d := by unfold capOf; rw [hd1]; rfl
      rw [(h.inv a b _).2 ⟨by rw [this]; grind, rfl⟩]; rfl
    obtain ⟨c, hc⟩ := hp2.walkOf
    exact ⟨p, c, hc, by simp⟩

/-! ### start and result -/

theorem sumL_edgesFrom {g : Graph α Rat O} (h : g.Inv) (n : α) :
    sumL (g.edgesFrom n) (fun e => e.2.2) = sumL g.nodeList (fun y => capOf g.edge n y) := by
  rw [edgesFrom_eq_row, sumL_map]
  have h1 : sumL (rowOf g.edges n).items (fun p => p.2) = sumL (rowOf g.edges n).keys (fun y => capOf g.edge n y) := by
    unfold Dict.keys
    rw [sumL_map]
    refine sumL_congr (fun p hp => ?_)
    unfold capOf
    rw [edge_eq_row, (Dict.get?_eq_some_iff (h.rowWF n) p.1 p.2).2 hp]; rfl
  refine h1.trans (sumL_subset (h.rowWF n) h.nodesWF ?_ ?_).symm
  · intro x hx
    rw [← nodesFrom_eq_row, mem_nodesFrom] at hx
    obtain ⟨v, hv⟩ := Option.isSome_iff_exists.1 hx
    exact (h.edge_mem hv).2
  · intro x _ hx
    rw [← nodesFrom_eq_row, mem_nodesFrom] at hx
    unfold capOf
    rw [Option.not_isSome_iff_eq_none.1 hx]; rfl

theorem sumL_edgesTo {g : Graph α Rat O} (h : g.Inv) (n : α) :
    sumL (g.edgesTo n) (fun e => e.2.2) = sumL g.nodeList (fun y => capOf g.edge y n) := by
  rw [edgesTo_eq_row, sumL_map]
  have h1 : sumL (rowOf g.rev n).items (fun p => p.2) = sumL (rowOf g.rev n).keys (fun y => capOf g.edge y n) := by
    unfold Dict.keys
    rw [sumL_map]
    refine sumL_congr (fun p hp => ?_)
    unfold capOf
    rw [h.sym, reverseEdge_eq_row, (Dict.get?_eq_some_iff (h.colWF n) p.1 p.2).2 hp]; rfl
  refine h1.trans (sumL_subset (h.colWF n) h.nodesWF ?_ ?_).symm
  · intro x hx
    rw [← nodesTo_eq_row, h.mem_nodesTo] at hx
    obtain ⟨v, hv⟩ := Option.isSome_iff_exists.1 hx
    exact (h.edge_mem hv).1
  · intro x _ hx
    rw [← nodesTo_eq_row, h.mem_nodesTo] at hx
    unfold capOf
    rw [Option.not_isSome_iff_eq_none.1 hx]; rfl

theorem mfInverted_edge {g : Graph α Rat O} (h : g.Inv) (a b : α) (x : Rat) :
    g.mfInverted.edge a b = some x ↔ 0 < capOf g.edge a b ∧ x = 1 / capOf g.edge a b := by
  unfold mfInverted
  have hmem : ∀ a b x, (a, b, x) ∈ (g.edgeList.filter (fun e => decide (0 < e.2.2))).map (fun e => (e.1, e.2.1, 1 / e.2.2)) ↔
      ∃ d, g.edge a b = some d ∧ 0 < d ∧ x = 1 / d := by
    intro a b x
    simp only [List.mem_map, List.mem_filter, decide_eq_true_eq, Prod.mk.injEq, Prod.exists, h.mem_edgeList]
    constructor
    · rintro ⟨a', b', d, ⟨h1, h2⟩, rfl, rfl, h3⟩; exact ⟨d, h1, h2, h3.symm⟩
    · rintro ⟨d, h1, h2, h3⟩; exact ⟨a, b, d, ⟨h1, h2⟩, rfl, rfl, h3.symm⟩
  rw [addEdges_edge, hmem]
  · constructor
    · rintro (⟨d, h1, h2, h3⟩ | ⟨_, h1⟩)
      · have : capOf g.edge a b = d := by unfold capOf; rw [h1]; rfl
        rw [this]; exact ⟨h2, h3⟩
      · cases h1
    · rintro ⟨h1, h2⟩
      left
      unfold capOf at h1 h2
      cases he : g.edge a b with
      | none => rw [he] at h1; exact absurd h1 (by simp)
      | some d => rw [he] at h1 h2; exact ⟨d, rfl, h1, h2⟩
  · intro a b v w h1 h2
    rw [hmem] at h1 h2
    obtain ⟨d, h1, _, rfl⟩ := h1
    obtain ⟨d', h2, _, rfl⟩ := h2
    rw [h1] at h2; cases h2; rfl

theorem exists_pos_of_sumL_pos {β : Type} {l : List β} {f : β → Rat} (h : 0 < sumL l f) : ∃ x ∈ l, 0 < f x := by
  by_cases hx : ∃ x ∈ l, 0 < f x
  · exact hx
  · exfalso
    have : sumL l f ≤ sumL l (fun _ => 0) := sumL_le (fun x hx' => by
      have : ¬ 0 < f x := fun h => hx ⟨x, hx', h⟩
      grind)
    rw [sumL_zero] at this
    grind

theorem capOf_nonneg {cap : α → α → Option Rat} (hc : NonNeg cap) (a b : α) : 0 ≤ capOf cap a b := by
  unfold capOf
  cases h : cap a b with
  | none => exact Rat.le_refl
  | some v => exact hc a b v h

theorem mfBound_eq {g : Graph α Rat O} (h : g.Inv) (start fin : α) :
    (g.mfBound start fin = sumL g.nodeList (fun y => capOf g.edge start y) ∨
      g.mfBound start fin = sumL g.nodeList (fun y => capOf g.edge y fin)) ∧
    g.mfBound start fin ≤ sumL g.nodeList (fun y => capOf g.edge start y) ∧
    g.mfBound start fin ≤ sumL g.nodeList (fun y => capOf g.edge y fin) := by
  unfold mfBound
  rw [sumL_edgesFrom h, sumL_edgesTo h]
  dsimp only
  split <;> grind

theorem mfInverted_has {g : Graph α Rat O} (h : g.Inv) (hc : NonNeg g.edge) {start fin : α} (hb : g.mfBound start fin ≠ 0) :
    g.mfInverted.has start = true ∧ g.mfInverted.has fin = true := by
  have hinv : g.mfInverted.Inv := addEdges_inv inv_empty _
  obtain ⟨h1, h2, h3⟩ := mfBound_eq h start fin
  have h4 := sumL_nonneg (l := g.nodeList) (fun y _ => capOf_nonneg hc start y)
  have h5 := sumL_nonneg (l := g.nodeList) (fun y _ => capOf_nonneg hc y fin)
  have hb0 : 0 ≤ g.mfBound start fin := by rcases h1 with h1 | h1 <;> rw [h1] <;> assumption
  obtain ⟨y, _, hy⟩ := exists_pos_of_sumL_pos (l := g.nodeList) (f := fun y => capOf g.edge start y) (by grind)
  obtain ⟨z, _, hz⟩ := exists_pos_of_sumL_pos (l := g.nodeList) (f := fun y => capOf g.edge y fin) (by grind)
  have e1 := hinv.edge_mem ((mfInverted_edge h start y _).2 ⟨hy, rfl⟩)
  have e2 := hinv.edge_mem ((mfInverted_edge h z fin _).2 ⟨hz, rfl⟩)
  exact ⟨has_iff.2 e1.1, has_iff.2 e2.2⟩

theorem MfInv.init {g : Graph α Rat O} (h : g.Inv) (hc : NonNeg g.edge) {start fin : α} :
    MfInv g start fin (g.mfBound start fin) (⟨g.mfInverted, Graph.empty, Graph.empty, g.mfBound start fin, 0⟩ : MfSt α O) := by
  have hz : ∀ a b, flowOf (Graph.empty : Graph α Rat O) a b = 0 := fun a b => rfl
  refine ⟨inv_empty, addEdges_inv inv_empty _, ?_, ?_, ?_, ?_, ?_, ?_, ?_, ?_, ?_, fun _ => rfl, fun _ => rfl, .inr ⟨rfl, fun _ _ => rfl⟩, ?_⟩
  · intro a b; exact Rat.le_refl
  · intro a b; exact capOf_nonneg hc a b
  · intro a b; exact .inl ⟨rfl, rfl⟩
  · intro a b x
    show g.mfInverted.edge a b = some x ↔ 0 < capOf g.edge a b - flowOf Graph.empty a b ∧ x = 1 / (capOf g.edge a b - flowOf Graph.empty a b)
    rw [mfInverted_edge h, hz, show capOf g.edge a b - 0 = capOf g.edge a b by grind]
  · intro hb; exact mfInverted_has h hc hb
  · intro x _ _ _
    show sumL _ (fun y => flowOf Graph.empty x y) = sumL _ (fun y => flowOf Graph.empty y x)
    rfl
  · show sumL _ (fun y => flowOf Graph.empty start y) - sumL _ (fun y => flowOf Graph.empty y start) = 0
    have : sumL g.nodeList (fun _ => (0 : Rat)) = 0 := sumL_zero _
    show sumL g.nodeList (fun _ => (0 : Rat)) - sumL g.nodeList (fun _ => (0 : Rat)) = 0
    rw [this]; grind
  · show g.mfBound start fin + 0 = _; grind
  · intro a b v hv; cases hv
  · intro L _
    show flowVolume g.nodeList (fun _ _ => 0) ≤ (L : Rat) * 0
    unfold flowVolume
    rw [sumL_eq_zero (fun x _ => sumL_zero _)]; grind

theorem maximumFlow_main_vol {g : Graph α Rat O} (h : g.Inv) (hc : NonNeg g.edge) {start fin : α} (hne : start ≠ fin)
    (hs : g.has start = true) (hf : g.has fin = true) :
    ∃ r, g.maximumFlow start fin = some r ∧ MfPost g start fin r ∧ MfVol g start fin r := by
  unfold maximumFlow
  rw [if_neg (by simp [hs]), if_neg (by simp [hf])]
  refine pyWhileD_total (MfInv g start fin (g.mfBound start fin)) (fun r => MfPost g start fin r ∧ MfVol g start fin r) (· < ·) Nat.lt_wfRel.wf (mfMeasure g)
    (fun s hI => mfStep_inv h hc hne hI) (MfInv.init h hc)

theorem maximumFlow_main {g : Graph α Rat O} (h : g.Inv) (hc : NonNeg g.edge) {start fin : α} (hne : start ≠ fin)
    (hs : g.has start = true) (hf : g.has fin = true) :
    ∃ r, g.maximumFlow start fin = some r ∧ MfPost g start fin r := by
  obtain ⟨r, h1, h2, _⟩ := maximumFlow_main_vol h hc hne hs hf
  exact ⟨r, h1, h2⟩

/-- with the whole bound used the flow is maximal -/
theorem MfPost.maximal {g : Graph α Rat O} (h : g.Inv) {start fin : α} (hne : start ≠ fin)
    (hs : g.has start = true) (hf : g.has fin = true) {total : Rat} (ht : total = g.mfBound start fin) {F : α → α → Rat} {v : Rat}
    (hF : IsFlow g.nodeList g.edge start fin F v) : v ≤ total := by
  rw [ht]
  rcases (mfBound_eq h start fin).1 with h1 | h1 <;> rw [h1]
  · exact hF.le_out
  · exact hF.le_in h.nodesWF hne (has_iff.1 hs) (has_iff.1 hf)

theorem maximumFlow_same {g : Graph α Rat O} (h : g.Inv) (hc : NonNeg g.edge) {start : α} (hs : g.has start = true) :
    g.maximumFlow start start = if g.mfBound start start = 0 then some (.ok (0, Graph.empty)) else some (.error .valueError) := by
  unfold maximumFlow
  rw [if_neg (by simp [hs]), if_neg (by simp [hs]), pyWhileD_eq]
  unfold mfStep
  dsimp only
  by_cases hb : g.mfBound start start = 0
  · rw [if_pos hb, if_pos hb]
  · rw [if_neg hb, if_neg hb]
    have hinv : g.mfInverted.Inv := addEdges_inv inv_empty _
    have hiw : NonNeg g.mfInverted.edge := by
      intro a b x hx
      obtain ⟨h1, h2⟩ := (mfInverted_edge h a b x).1 hx
      rw [h2, Rat.div_def]
      have := Rat.inv_pos.2 h1
      grind
    obtain ⟨h3, h4⟩ := mfInverted_has h hc hb
    obtain ⟨r, hr, hsp⟩ := shortestPath_spec hinv hiw [] h3 h4
    have hnd := shortestPath_nodup hr
    rw [hr]
    rcases hsp with ⟨d, hd, ⟨hw, _⟩, _⟩ | ⟨rfl, hno⟩
    · obtain ⟨d', path⟩ := r
      dsimp only at hd hw hnd
      subst hd
      dsimp only
      have hp : path = [start] := by
        cases path with
        | nil => cases hw.1
        | cons a l =>
          have := hw.1
          simp at this; subst this
          cases l with
          | nil => rfl
          | cons b l =>
            exfalso
            have h2 := hw.2.1
            rw [List.getLast?_cons_cons] at h2
            rw [List.nodup_cons] at hnd
            exact hnd.1 (List.mem_of_getLast? h2)
      subst hp
      rfl
    · exact absurd ⟨[start], 0, WalkOf.single start, by simp⟩ hno

theorem maximumFlow_missing {g : Graph α Rat O} {start fin : α} (hne : ¬ (g.has start = true ∧ g.has fin = true)) :
    g.maximumFlow start fin = some (.error .valueError) := by
  unfold maximumFlow
  split
  · rfl
  · split
    · rfl
    · rename_i h1 h2; simp at h1 h2; exact absurd ⟨h1, h2⟩ hne

end GT

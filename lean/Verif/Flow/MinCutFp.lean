import Verif.Flow.FpInt
/-
Model of `maximum_flow_min_cut` (graph/max_flow_min_cut.py:5-38) on floating point capacities: the model of Flow/MinCut with `maximumFlowFp` and a rounded
difference.
-/
namespace GT
variable {α V O : Type} [DecidableEq α]
open Graph

/-- the body of the inner loop (max_flow_min_cut.py:29-33) with the difference rounded; `None - x` raises `TypeError` -/
def mcEdgeFp (fl : Rat → Rat) (g mfg : Graph α Rat O) (n1 : α) (s : Graph α Rat O × List (α × α)) (n2 : α) : Py (Graph α Rat O × List (α × α)) :=
  match g.edge n1 n2, mfg.edge n1 n2 with
  | some c, some v => if fl (c - v) = 0 then .ok (s.1.delEdge n1 n2, s.2 ++ [(n1, n2)]) else .ok s
  | _, _ => .error .typeError

/-- the part of `maximum_flow_min_cut` behind the test `flow == 0` (max_flow_min_cut.py:24-38).  The generator of the breadth first walk is
consumed before the loop: the loop does not change the graph that is walked. -/
def Graph.mcTailFp (fl : Rat → Rat) (g mfg : Graph α Rat O) (start fin : α) : Option (Py (List (α × α))) :=
  match mfg.breadthFirstWalk start (some fin) false with
  | none => none
  | some (.error e) => some (.error e)
  | some (.ok walk) =>
    match forE walk ((Graph.empty : Graph α Rat O).fromList 1 mfg.toList, [])
        (fun s n1 => forE (mfg.nodesFrom n1) s (mcEdgeFp fl g mfg n1)) with
    | .error e => some (.error e)
    | .ok (work, cut) =>
      let nodes := work.nodesOutDeg 0
      if fin ∈ nodes then some (.ok (cut.filter (fun p => decide (p.1 ∈ nodes ∧ p.1 ≠ fin))))
      else some (.error .keyError)

/-- `maximum_flow_min_cut(graph, start, end)` (max_flow_min_cut.py:5-38) on floating point capacities; `sum` is Python's `sum` on floats. -/
def Graph.maxFlowMinCutFp (fl : Rat → Rat) (sum : List Rat → Rat) (g : Graph α Rat O) (start fin : α) : Option (Py (List (α × α))) :=
  if !g.has start then some (.error .valueError)
  else if !g.has fin then some (.error .valueError)
  else match g.maximumFlowFp fl sum start fin with
    | none => none
    | some (.error e) => some (.error e)
    | some (.ok (flow, mfg)) => if flow = 0 then some (.ok []) else g.mcTailFp fl mfg start fin

/-! ### proofs -/

theorem mcEdgeFp_eq {fl : Rat → Rat} (hz : ∀ x, fl x = 0 ↔ x = 0) (g mfg : Graph α Rat O) (n1 : α) : mcEdgeFp fl g mfg n1 = mcEdge g mfg n1 := by
  funext s n2
  unfold mcEdgeFp mcEdge
  simp only [hz]
  rfl

theorem mcTailFp_main {fl : Rat → Rat} (hz : ∀ x, fl x = 0 ↔ x = 0) {g f : Graph α Rat O} (hfi : f.Inv) {start fin : α}
    (hfs : f.has start = true) (hff : f.has fin = true) (hsub : ∀ a b v, f.edge a b = some v → ∃ c, g.edge a b = some c) (hof : ∀ b, f.edge fin b = none) :
    ∃ cut walk, g.mcTailFp fl f start fin = some (.ok cut) ∧ f.breadthFirstWalk start (some fin) false = some (.ok walk) ∧ McPost g f fin walk cut := by
  unfold mcTailFp
  simp only [mcEdgeFp_eq hz]
  obtain ⟨full, hfull, hnd, -⟩ := bfw_none hfi.finiteFrom (has_iff.1 hfs)
  obtain ⟨walk, hwalk⟩ := bfw_some_total hfi.finiteFrom (has_iff.1 hfs) (some fin)
  have hpre := (bfw_some hfull (by simp) walk hwalk).1
  have hbw : f.breadthFirstWalk start (some fin) false = some (.ok walk) := by
    unfold breadthFirstWalk
    rw [if_neg (by simp [hfs])]
    simp [hff, hwalk]
  have hwnd : walk.Nodup := hnd.sublist hpre.sublist
  have hw0 : ((Graph.empty : Graph α Rat O).fromList 1 f.toList).Inv := (fromList_built 1 built_empty _).inv
  obtain ⟨w, cut, h1, h2, h3, h4, h5, h6⟩ := mcWalk_fold (g := g) hfi hsub walk hwnd _ [] hw0
  rw [hbw]
  dsimp only
  rw [h1]
  dsimp only
  have hwn : ∀ x, x ∈ w.nodes.keys ↔ f.has x = true := by
    intro x
    rw [h3, ← Dict.get?_isSome_iff, hfi.fromList_toList_nodes, has_iff]
    split <;> simp_all
  have hod : ∀ x, f.has x = true → (x ∈ w.nodesOutDeg 0 ↔ ∀ y, w.edge x y = none) := by
    intro x hx
    unfold nodesOutDeg
    rw [mem_degFilter h2.outWF, h2.outD x ((hwn x).2 hx)]
    constructor
    · intro h0 y
      have : (w.nodesFrom x).length = 0 := by simpa using h0
      have hnil := List.length_eq_zero_iff.1 this
      cases he : w.edge x y with
      | none => rfl
      | some v =>
        have : y ∈ w.nodesFrom x := mem_nodesFrom.2 (by rw [he]; rfl)
        rw [hnil] at this; cases this
    · intro hall
      have : w.nodesFrom x = [] := by
        rw [List.eq_nil_iff_forall_not_mem]
        intro y hy
        rw [mem_nodesFrom, hall y] at hy; cases hy
      rw [this]; rfl
  have hfin : fin ∈ w.nodesOutDeg 0 := by
    rw [hod fin hff]
    intro y
    rw [h6, hfi.fromList_toList_edge, hof y]
    split <;> rfl
  rw [if_pos hfin]
  refine ⟨_, walk, rfl, rfl, ?_, ?_⟩
  · exact h4.filter _
  · intro a b
    rw [List.mem_filter, List.nil_append, h5]
    simp only [decide_eq_true_eq]
    constructor
    · rintro ⟨⟨ha, hsat⟩, hn, hnf⟩
      refine ⟨ha, hsat, ?_⟩
      intro y hy
      have hfa : f.has a = true := by
        obtain ⟨v, hv⟩ := Option.isSome_iff_exists.1 hy
        exact has_iff.2 (hfi.edge_mem hv).1
      have := (hod a hfa).1 hn y
      rw [h6, hfi.fromList_toList_edge] at this
      split at this
      · rename_i hm; exact ((h5 a y).1 hm).2
      · rw [this] at hy; cases hy
    · rintro ⟨ha, hsat, hall⟩
      obtain ⟨d, hd1, hd2⟩ := hsat
      have hfa : f.has a = true := has_iff.2 (hfi.edge_mem hd2).1
      refine ⟨⟨ha, d, hd1, hd2⟩, ?_, ?_⟩
      · rw [hod a hfa]
        intro y
        rw [h6, hfi.fromList_toList_edge]
        split
        · rfl
        · rename_i hm
          cases he : f.edge a y with
          | none => rfl
          | some v => exact absurd ((h5 a y).2 ⟨ha, hall y (by rw [he]; rfl)⟩) hm
      · rintro rfl; rw [hof b] at hd2; cases hd2

/-- after paths have been recorded: which edges there are -/
theorem sentFl_some {fl : Rat → Rat} (L : List (List α × Rat)) (a b : α) :
    (sentFl fl L a b).isSome = true ↔ ∃ pq ∈ L, (a, b) ∈ pairs pq.1 := by
  have key : ∀ (F : Option Rat → List α × Rat → Option Rat), (∀ o pq, (F o pq).isSome = true ↔ o.isSome = true ∨ (a, b) ∈ pairs pq.1) →
      ∀ (L : List (List α × Rat)) (o : Option Rat), (L.foldl F o).isSome = true ↔ o.isSome = true ∨ ∃ pq ∈ L, (a, b) ∈ pairs pq.1 := by
    intro F hF L
    induction L with
    | nil => intro o; simp
    | cons pq L ih =>
      intro o
      rw [List.foldl_cons, ih, hF]
      simp [or_assoc]
  unfold sentFl
  rw [key _ ?_ L none]
  · simp
  · intro o pq
    rw [← pairs_eq_zip]
    split
    · rename_i h; simp [h]
    · rename_i h; simp [h]

theorem MfPostFp.facts {fl : Rat → Rat} {ε : Rat} {g : Graph α Rat O} {start fin : α} {U0 : Rat} {total : Rat} {f : Graph α Rat O} (hne : start ≠ fin)
    (h : MfPostFp fl ε g start fin U0 (.ok (total, f))) :
    f.Inv ∧ (total ≠ 0 → f.has start = true ∧ f.has fin = true) ∧ (∀ a b v, f.edge a b = some v → ∃ c, g.edge a b = some c) ∧ ∀ b, f.edge fin b = none := by
  obtain ⟨t, f', L, e, hfi, hp, hfl, ht, _⟩ := h
  cases e
  have hsome : ∀ a b, (f.edge a b).isSome = true ↔ ∃ pq ∈ L, (a, b) ∈ pairs pq.1 := fun a b => by rw [hfl, sentFl_some]
  refine ⟨hfi, fun hne0 => ?_, fun a b v hv => ?_, fun b => ?_⟩
  · cases L with
    | nil => exact absurd (by rw [ht]; rfl) hne0
    | cons pq L =>
      obtain ⟨hq, hw, hn⟩ := hp pq (by simp)
      have hlen : 2 ≤ pq.1.length := by
        match hm : pq.1, hw with
        | [], hw => exact absurd rfl hw.ne_nil
        | [x], hw =>
          have h1 := hw.2.1; have h2 := hw.2.2
          simp at h1 h2; exact absurd (h1.symm.trans h2) hne
        | _ :: _ :: _, _ => simp
      have hhas : ∀ x ∈ pq.1, f.has x = true := by
        intro x hx
        obtain ⟨y, hy⟩ := mem_pairs_of_mem hx hlen
        rcases hy with hy | hy
        · obtain ⟨v, hv⟩ := Option.isSome_iff_exists.1 ((hsome x y).2 ⟨pq, by simp, hy⟩)
          exact has_iff.2 (hfi.edge_mem hv).1
        · obtain ⟨v, hv⟩ := Option.isSome_iff_exists.1 ((hsome y x).2 ⟨pq, by simp, hy⟩)
          exact has_iff.2 (hfi.edge_mem hv).2
      exact ⟨hhas _ (List.mem_of_head? hw.2.1), hhas _ (List.mem_of_getLast? hw.2.2)⟩
  · obtain ⟨pq, h1, h2⟩ := (hsome a b).1 (by rw [hv]; rfl)
    have h3 := pairs_rel (hp pq h1).2.1.1 h2
    cases hc : g.edge a b with
    | some c => exact ⟨c, rfl⟩
    | none => unfold capOf at h3; rw [hc] at h3; exact absurd h3 (by simp)
  · cases hb : f.edge fin b with
    | none => rfl
    | some v =>
      exfalso
      obtain ⟨pq, h1, h2⟩ := (hsome fin b).1 (by rw [hb]; rfl)
      obtain ⟨_, hw, hn⟩ := hp pq h1
      have h3 := (pairs_mem h2).1
      have hpe := (List.dropLast_concat_getLast hw.ne_nil)
      have h4 := hw.2.2
      rw [List.getLast?_eq_some_getLast hw.ne_nil, Option.some.injEq] at h4
      rw [h4] at hpe
      rw [← hpe, List.nodup_append] at hn
      exact hn.2.2 fin h3 fin (by simp) rfl

theorem maxFlowMinCutFp_main {fl : Rat → Rat} {ε : Rat} (hfl : Rounding fl) (he : RelErr fl ε) (hst : Sterbenz fl) (hz : ∀ x, fl x = 0 ↔ x = 0) (he0 : 0 ≤ ε) (he1 : ε ≤ 1 / 4)
    {sum : List Rat → Rat} (hsum : SumLike sum) {g : Graph α Rat O} (h : g.Inv) (hc : NonNeg g.edge)
    (hfix : ∀ a b d, g.edge a b = some d → fl d = d) {start fin : α} (hne : start ≠ fin) (hs : g.has start = true) (hf : g.has fin = true) :
    ∃ total f cut, g.maximumFlowFp fl sum start fin = some (.ok (total, f)) ∧ g.maxFlowMinCutFp fl sum start fin = some (.ok cut) ∧
      (total = 0 → cut = []) ∧
      (total ≠ 0 → f.Inv ∧ f.has start = true ∧ f.has fin = true ∧
        ∃ walk, f.breadthFirstWalk start (some fin) false = some (.ok walk) ∧ McPost g f fin walk cut) := by
  obtain ⟨r, hr, hp⟩ := maximumFlowFp_main hfl he hst he0 he1 hsum h hc hfix hne hs hf
  obtain ⟨total, f, L, rfl, _⟩ := id hp
  obtain ⟨hfi, hhas, hsub, hof⟩ := hp.facts hne
  refine ⟨total, f, ?_⟩
  unfold maxFlowMinCutFp
  rw [if_neg (by simp [hs]), if_neg (by simp [hf]), hr]
  dsimp only
  by_cases ht : total = 0
  · rw [if_pos ht]; exact ⟨[], rfl, rfl, fun _ => rfl, fun h => absurd ht h⟩
  rw [if_neg ht]
  obtain ⟨hfs, hff⟩ := hhas ht
  obtain ⟨cut, walk, h1, h2, h3⟩ := mcTailFp_main hz hfi hfs hff hsub hof
  exact ⟨cut, rfl, h1, fun h => absurd h ht, fun _ => ⟨hfi, hfs, hff, walk, h2, h3⟩⟩

end GT

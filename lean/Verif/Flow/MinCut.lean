import Verif.Flow.MaxFlow
import Verif.Search.Bfs
import Verif.Search.Bridge
import Verif.Graph.Misc
/-
Model of `maximum_flow_min_cut` (graph/max_flow_min_cut.py; graph/maximum_flow_min_cut.py has the same text).
-/
namespace GT
variable {α O : Type} [DecidableEq α]
open Graph

/-- the body of the inner loop (max_flow_min_cut.py:29-33); `None - x` raises `TypeError` -/
def mcEdge (g mfg : Graph α Rat O) (n1 : α) (s : Graph α Rat O × List (α × α)) (n2 : α) : Py (Graph α Rat O × List (α × α)) :=
  match g.edge n1 n2, mfg.edge n1 n2 with
  | some c, some v => if c - v = 0 then .ok (s.1.delEdge n1 n2, s.2 ++ [(n1, n2)]) else .ok s
  | _, _ => .error .typeError

/-- `maximum_flow_min_cut(graph, start, end)` (max_flow_min_cut.py:5-38).  The generator of the breadth first walk is
consumed before the loop: the loop does not change the graph that is walked. -/
def Graph.maxFlowMinCut (g : Graph α Rat O) (start fin : α) : Option (Py (List (α × α))) :=
  if !g.has start then some (.error .valueError)
  else if !g.has fin then some (.error .valueError)
  else match g.maximumFlow start fin with
    | none => none
    | some (.error e) => some (.error e)
    | some (.ok (flow, mfg)) =>
      if flow = 0 then some (.ok [])
      else match mfg.breadthFirstWalk start (some fin) false with
        | none => none
        | some (.error e) => some (.error e)
        | some (.ok walk) =>
          match forE walk ((Graph.empty : Graph α Rat O).fromList 1 mfg.toList, [])
              (fun s n1 => forE (mfg.nodesFrom n1) s (mcEdge g mfg n1)) with
          | .error e => some (.error e)
          | .ok (work, cut) =>
            let nodes := work.nodesOutDeg 0
            if fin ∈ nodes then some (.ok (cut.filter (fun p => decide (p.1 ∈ nodes ∧ p.1 ≠ fin))))
            else some (.error .keyError)

/-- a flow edge is saturated -/
def SatEdge (g mfg : Graph α Rat O) (a b : α) : Prop := ∃ d, g.edge a b = some d ∧ mfg.edge a b = some d

theorem mcEdge_fold {g mfg : Graph α Rat O} (n1 : α) (l : List α) (hl : l.Nodup)
    (hsub : ∀ b ∈ l, ∃ c v, g.edge n1 b = some c ∧ mfg.edge n1 b = some v) :
    ∀ (w : Graph α Rat O) (cut : List (α × α)), w.Inv → ∃ w' add, forE l (w, cut) (mcEdge g mfg n1) = .ok (w', cut ++ add) ∧ w'.Inv ∧
      w'.nodes = w.nodes ∧ add.Nodup ∧ (∀ a b, (a, b) ∈ add ↔ a = n1 ∧ b ∈ l ∧ SatEdge g mfg a b) ∧
      (∀ a b, w'.edge a b = if (a, b) ∈ add then none else w.edge a b) := by
  induction l with
  | nil => intro w cut hw; exact ⟨w, [], by simp [forE], hw, rfl, List.nodup_nil, by simp, by simp⟩
  | cons b l ih =>
    intro w cut hw
    rw [List.nodup_cons] at hl
    obtain ⟨c, v, hc, hv⟩ := hsub b (by simp)
    have ih := ih hl.2 (fun x hx => hsub x (List.mem_cons_of_mem _ hx))
    unfold forE
    have hstep : mcEdge g mfg n1 (w, cut) b = if c - v = 0 then .ok (w.delEdge n1 b, cut ++ [(n1, b)]) else .ok (w, cut) := by
      unfold mcEdge; rw [hc, hv]
    rw [hstep]
    have hsat : SatEdge g mfg n1 b ↔ c - v = 0 := by
      unfold SatEdge; rw [hc, hv]
      constructor
      · rintro ⟨d, h1, h2⟩; cases h1; cases h2; grind
      · intro h; exact ⟨c, rfl, by rw [show v = c by grind]⟩
    by_cases h0 : c - v = 0
    · rw [if_pos h0]
      dsimp only
      obtain ⟨w', add, h1, h2, h3, h4, h5, h6⟩ := ih (w.delEdge n1 b) (cut ++ [(n1, b)]) (hw.delEdge _ _)
      refine ⟨w', (n1, b) :: add, by rw [h1]; simp, h2, by rw [h3, delEdge_nodes], ?_, ?_, ?_⟩
      · rw [List.nodup_cons]; exact ⟨fun hm => hl.1 ((h5 _ _).1 hm).2.1, h4⟩
      · intro x y
        rw [List.mem_cons, h5, Prod.mk.injEq, List.mem_cons]
        constructor
        · rintro (⟨rfl, rfl⟩ | ⟨rfl, h, h'⟩)
          · exact ⟨rfl, .inl rfl, hsat.2 h0⟩
          · exact ⟨rfl, .inr h, h'⟩
        · rintro ⟨rfl, rfl | h, h'⟩
          · exact .inl ⟨rfl, rfl⟩
          · exact .inr ⟨rfl, h, h'⟩
      · intro x y
        rw [h6, edge_delEdge hw]
        by_cases hm : (x, y) ∈ add
        · rw [if_pos hm, if_pos (List.mem_cons_of_mem _ hm)]
        · rw [if_neg hm]
          by_cases he : n1 = x ∧ b = y
          · rw [if_pos he, if_pos (by rw [he.1, he.2]; simp)]
          · rw [if_neg he, if_neg]
            rw [List.mem_cons, Prod.mk.injEq]
            rintro (⟨rfl, rfl⟩ | h)
            · exact he ⟨rfl, rfl⟩
            · exact hm h
    · rw [if_neg h0]
      dsimp only
      obtain ⟨w', add, h1, h2, h3, h4, h5, h6⟩ := ih w cut hw
      refine ⟨w', add, h1, h2, h3, h4, ?_, h6⟩
      intro x y
      rw [h5, List.mem_cons]
      constructor
      · rintro ⟨rfl, h, h'⟩; exact ⟨rfl, .inr h, h'⟩
      · rintro ⟨rfl, rfl | h, h'⟩
        · exact absurd (hsat.1 h') h0
        · exact ⟨rfl, h, h'⟩

theorem mcWalk_fold {g mfg : Graph α Rat O} (hm : mfg.Inv) (hsub : ∀ a b v, mfg.edge a b = some v → ∃ c, g.edge a b = some c)
    (walk : List α) (hw : walk.Nodup) :
    ∀ (w : Graph α Rat O) (cut : List (α × α)), w.Inv → ∃ w' add,
      forE walk (w, cut) (fun s n1 => forE (mfg.nodesFrom n1) s (mcEdge g mfg n1)) = .ok (w', cut ++ add) ∧ w'.Inv ∧
      w'.nodes = w.nodes ∧ add.Nodup ∧ (∀ a b, (a, b) ∈ add ↔ a ∈ walk ∧ SatEdge g mfg a b) ∧
      (∀ a b, w'.edge a b = if (a, b) ∈ add then none else w.edge a b) := by
  induction walk with
  | nil => intro w cut hw; exact ⟨w, [], by simp [forE], hw, rfl, List.nodup_nil, by simp, by simp⟩
  | cons n l ih =>
    intro w cut hwi
    rw [List.nodup_cons] at hw
    unfold forE
    obtain ⟨w1, add1, h1, h2, h3, h4, h5, h6⟩ := mcEdge_fold (g := g) (mfg := mfg) n (mfg.nodesFrom n) (hm.nodup_nodesFrom n) (by
      intro b hb
      rw [mem_nodesFrom] at hb
      obtain ⟨v, hv⟩ := Option.isSome_iff_exists.1 hb
      obtain ⟨c, hc⟩ := hsub n b v hv
      exact ⟨c, v, hc, hv⟩) w cut hwi
    rw [h1]
    dsimp only
    obtain ⟨w2, add2, g1, g2, g3, g4, g5, g6⟩ := ih hw.2 w1 (cut ++ add1) h2
    refine ⟨w2, add1 ++ add2, by rw [g1, List.append_assoc], g2, g3.trans h3, ?_, ?_, ?_⟩
    · rw [List.nodup_append]
      refine ⟨h4, g4, ?_⟩
      rintro ⟨a, b⟩ ha ⟨a', b'⟩ hb heq
      cases heq
      have := ((h5 a b).1 ha).1
      subst this
      exact hw.1 ((g5 a b).1 hb).1
    · intro a b
      rw [List.mem_append, h5, g5, List.mem_cons]
      constructor
      · rintro (⟨rfl, _, h⟩ | ⟨h, h'⟩)
        · exact ⟨.inl rfl, h⟩
        · exact ⟨.inr h, h'⟩
      · rintro ⟨rfl | h, h'⟩
        · refine .inl ⟨rfl, ?_, h'⟩
          rw [mem_nodesFrom]; obtain ⟨d, _, hd⟩ := h'; rw [hd]; rfl
        · exact .inr ⟨h, h'⟩
    · intro a b
      rw [g6, h6]
      by_cases ha : (a, b) ∈ add2
      · rw [if_pos ha, if_pos (List.mem_append_right _ ha)]
      · rw [if_neg ha]
        by_cases hb : (a, b) ∈ add1
        · rw [if_pos hb, if_pos (List.mem_append_left _ hb)]
        · rw [if_neg hb, if_neg (fun h => (List.mem_append.1 h).elim hb ha)]

/-- what `maximum_flow_min_cut` returns when the flow found is not zero -/
structure McPost (g mfg : Graph α Rat O) (fin : α) (walk : List α) (cut : List (α × α)) : Prop where
  nodup : cut.Nodup
  mem : ∀ a b, (a, b) ∈ cut ↔ a ∈ walk ∧ SatEdge g mfg a b ∧ ∀ y, (mfg.edge a y).isSome → SatEdge g mfg a y

theorem mc_has {g : Graph α Rat O} (hg : g.Inv) {start fin : α} (hne : start ≠ fin) (hs : g.has start = true) (hf : g.has fin = true)
    {total : Rat} {f : Graph α Rat O} (hfi : f.Inv) (hF : IsFlow g.nodeList g.edge start fin (flowOf f) total) (ht : total ≠ 0) :
    f.has start = true ∧ f.has fin = true := by
  have key : ∀ a b, flowOf f a b ≠ 0 → f.has a = true ∧ f.has b = true := by
    intro a b hab
    unfold flowOf at hab
    cases he : f.edge a b with
    | none => rw [he] at hab; exact absurd rfl hab
    | some v => have := hfi.edge_mem he; exact ⟨has_iff.2 this.1, has_iff.2 this.2⟩
  have hz : ∀ z, (∀ y, flowOf f z y = 0) → (∀ y, flowOf f y z = 0) → sumL g.nodeList (fun y => flowOf f z y) = 0 ∧ sumL g.nodeList (fun y => flowOf f y z) = 0 :=
    fun z h1 h2 => ⟨sumL_eq_zero (fun y _ => h1 y), sumL_eq_zero (fun y _ => h2 y)⟩
  constructor
  · cases hh : f.has start with
    | true => rfl
    | false =>
      exfalso
      have h1 : ∀ y, flowOf f start y = 0 := fun y => by
        by_cases h : flowOf f start y = 0
        · exact h
        · rw [(key _ _ h).1] at hh; cases hh
      have h2 : ∀ y, flowOf f y start = 0 := fun y => by
        by_cases h : flowOf f y start = 0
        · exact h
        · rw [(key _ _ h).2] at hh; cases hh
      have := hz start h1 h2
      have h3 := hF.value
      rw [this.1, this.2] at h3
      exact ht (by rw [← h3]; grind)
  · cases hh : f.has fin with
    | true => rfl
    | false =>
      exfalso
      have h1 : ∀ y, flowOf f fin y = 0 := fun y => by
        by_cases h : flowOf f fin y = 0
        · exact h
        · rw [(key _ _ h).1] at hh; cases hh
      have h2 : ∀ y, flowOf f y fin = 0 := fun y => by
        by_cases h : flowOf f y fin = 0
        · exact h
        · rw [(key _ _ h).2] at hh; cases hh
      have := hz fin h1 h2
      have h3 := hF.value_at_end (V := g.nodeList) hg.nodesWF hne (has_iff.1 hs) (has_iff.1 hf)
      rw [this.1, this.2] at h3
      exact ht (by rw [← h3]; grind)

theorem maxFlowMinCut_main {g : Graph α Rat O} (h : g.Inv) (hc : NonNeg g.edge) {start fin : α} (hne : start ≠ fin)
    (hs : g.has start = true) (hf : g.has fin = true) :
    ∃ flow mfg cut, g.maximumFlow start fin = some (.ok (flow, mfg)) ∧ g.maxFlowMinCut start fin = some (.ok cut) ∧
      (flow = 0 → cut = []) ∧
      (flow ≠ 0 → ∃ walk, mfg.breadthFirstWalk start (some fin) false = some (.ok walk) ∧ McPost g mfg fin walk cut) := by
  obtain ⟨r, hr, total, f, rfl, hfi, _, hF, hpos, hof, his, hopt⟩ := maximumFlow_main h hc hne hs hf
  refine ⟨total, f, ?_⟩
  unfold maxFlowMinCut
  rw [if_neg (by simp [hs]), if_neg (by simp [hf]), hr]
  dsimp only
  by_cases ht : total = 0
  · rw [if_pos ht]; exact ⟨[], rfl, rfl, fun _ => rfl, fun h => absurd ht h⟩
  rw [if_neg ht]
  obtain ⟨hfs, hff⟩ := mc_has h hne hs hf hfi hF ht
  obtain ⟨full, hfull, hnd, -⟩ := bfw_none hfi.finiteFrom (has_iff.1 hfs)
  obtain ⟨walk, hwalk⟩ := bfw_some_total hfi.finiteFrom (has_iff.1 hfs) (some fin)
  have hpre := (bfw_some hfull (by simp) walk hwalk).1
  have hbw : f.breadthFirstWalk start (some fin) false = some (.ok walk) := by
    unfold breadthFirstWalk
    rw [if_neg (by simp [hfs])]
    simp [hff, hwalk]
  have hwnd : walk.Nodup := hnd.sublist hpre.sublist
  have hsub : ∀ a b v, f.edge a b = some v → ∃ c, g.edge a b = some c := by
    intro a b v hv
    have h1 := hpos a b v hv
    have h2 := hF.within a b
    have h3 : flowOf f a b = v := by unfold flowOf; rw [hv]; rfl
    cases he : g.edge a b with
    | some c => exact ⟨c, rfl⟩
    | none =>
      have : capOf g.edge a b = 0 := by unfold capOf; rw [he]; rfl
      grind
  have hw0 : ((Graph.empty : Graph α Rat O).fromList 1 f.toList).Inv := (fromList_built 1 built_empty _).inv
  obtain ⟨w, cut, h1, h2, h3, h4, h5, h6⟩ := mcWalk_fold (g := g) hfi hsub walk hwnd _ [] hw0
  rw [hbw]
  dsimp only
  rw [h1]
  dsimp only
  have hwn : ∀ x, x ∈ w.nodes.keys ↔ f.has x = true := by
    intro x
    rw [h3, ← Dict.get?_isSome_iff, hfi.fromList_toList_nodes, has_iff]
    split <;> simp_all
  have hod : ∀ x, f.has x = true → (x ∈ w.nodesOutDeg 0 ↔ ∀ y, w.edge x y = none) := by
    intro x hx
    unfold nodesOutDeg
    rw [mem_degFilter h2.outWF, h2.outD x ((hwn x).2 hx)]
    constructor
    · intro h0 y
      have : (w.nodesFrom x).length = 0 := by simpa using h0
      have hnil := List.length_eq_zero_iff.1 this
      cases he : w.edge x y with
      | none => rfl
      | some v =>
        have : y ∈ w.nodesFrom x := mem_nodesFrom.2 (by rw [he]; rfl)
        rw [hnil] at this; cases this
    · intro hall
      have : w.nodesFrom x = [] := by
        rw [List.eq_nil_iff_forall_not_mem]
        intro y hy
        rw [mem_nodesFrom, hall y] at hy; cases hy
      rw [this]; rfl
  have hfin : fin ∈ w.nodesOutDeg 0 := by
    rw [hod fin hff]
    intro y
    rw [h6, hfi.fromList_toList_edge, hof y]
    split <;> rfl
  rw [if_pos hfin]
  refine ⟨_, rfl, rfl, fun h => absurd h ht, fun _ => ⟨walk, rfl, ?_, ?_⟩⟩
  · exact h4.filter _
  · intro a b
    rw [List.mem_filter, List.nil_append, h5]
    simp only [decide_eq_true_eq]
    constructor
    · rintro ⟨⟨ha, hsat⟩, hn, hnf⟩
      refine ⟨ha, hsat, ?_⟩
      intro y hy
      have hfa : f.has a = true := by
        obtain ⟨v, hv⟩ := Option.isSome_iff_exists.1 hy
        exact has_iff.2 (hfi.edge_mem hv).1
      have := (hod a hfa).1 hn y
      rw [h6, hfi.fromList_toList_edge] at this
      split at this
      · rename_i hm; exact ((h5 a y).1 hm).2
      · rw [this] at hy; cases hy
    · rintro ⟨ha, hsat, hall⟩
      obtain ⟨d, hd1, hd2⟩ := hsat
      have hfa : f.has a = true := has_iff.2 (hfi.edge_mem hd2).1
      refine ⟨⟨ha, d, hd1, hd2⟩, ?_, ?_⟩
      · rw [hod a hfa]
        intro y
        rw [h6, hfi.fromList_toList_edge]
        split
        · rfl
        · rename_i hm
          cases he : f.edge a y with
          | none => rfl
          | some v => exact absurd ((h5 a y).2 ⟨ha, hall y (by rw [he]; rfl)⟩) hm
      · rintro rfl; rw [hof b] at hd2; cases hd2

end GT

import Verif.Flow.MinCut
import Verif.Sp.DijkstraFl
/-
Model of `maximum_flow` (graph/max_flow.py) in which the reciprocals and the lengths of the paths are rounded.  With integer
capacities these are the only inexact operations: flows and capacities left are integers, `1 / c` is a float.
With `fl = id` it is the model of Flow/MaxFlow.lean (`maximumFlow_eq_fl`).
-/
namespace GT
variable {α V O : Type} [DecidableEq α]
open Graph

/-- the body of the loop over the edges of the path (max_flow.py:68-86) -/
def mfRecordFl (fl : Rat → Rat) (g : Graph α Rat O) (pf : Rat) (s : Graph α Rat O × Graph α Rat O × Graph α Rat O) (e : α × α × Rat) :
    Py (Graph α Rat O × Graph α Rat O × Graph α Rat O) :=
  match g.edge e.1 e.2.1 with
  | none => .error .typeError
  | some d =>
    let v := match s.1.edge e.1 e.2.1 with
      | none => pf
      | some v => v + pf
    .ok (s.1.addEdge e.1 e.2.1 v, s.2.1.addEdge e.1 e.2.1 (d - v),
      if 0 < d - v then s.2.2.addEdge e.1 e.2.1 (fl (1 / (d - v))) else s.2.2.delEdge e.1 e.2.1)

/-- one iteration of `while unassigned_flow` (max_flow.py:53-86) -/
def mfStepFl (fl : Rat → Rat) (g : Graph α Rat O) (start fin : α) (s : MfSt α O) : Option (MfSt α O ⊕ Py (Rat × Graph α Rat O)) :=
  if s.unassigned = 0 then some (.inr (.ok (s.total, s.flow)))
  else match s.inv.shortestPathFl fl start fin with
    | none => none
    | some (.error e) => some (.inr (.error e))
    | some (.ok (.inf, _)) => some (.inr (.ok (s.total, s.flow)))
    | some (.ok (.fin _, path)) => match g.edgesPath path with
      | .error e => some (.inr (.error e))
      | .ok es => match ratMin (es.map (mfLeft s.capg)) with
        | .error e => some (.inr (.error e))
        | .ok pf => match forE es (s.flow, s.capg, s.inv) (mfRecordFl fl g pf) with
          | .error e => some (.inr (.error e))
          | .ok (flow, capg, inv) => some (.inl ⟨inv, capg, flow, s.unassigned - pf, s.total + pf⟩)

/-- `inverted_graph` (max_flow.py:48-49) -/
def Graph.mfInvertedFl (fl : Rat → Rat) (g : Graph α Rat O) : Graph α Rat O :=
  Graph.empty.addEdges ((g.edgeList.filter (fun e => decide (0 < e.2.2))).map (fun e => (e.1, e.2.1, fl (1 / e.2.2))))

/-- `maximum_flow(graph, start, end)` (max_flow.py:5-87).  Simplification: capacities and
flows are exact numbers (as integers are), reciprocals and path lengths are rounded, nothing overflows. -/
def Graph.maximumFlowFl (fl : Rat → Rat) (g : Graph α Rat O) (start fin : α) : Option (Py (Rat × Graph α Rat O)) :=
  if !g.has start then some (.error .valueError)
  else if !g.has fin then some (.error .valueError)
  else pyWhileD (mfStepFl fl g start fin) ⟨g.mfInvertedFl fl, Graph.empty, Graph.empty, g.mfBound start fin, 0⟩

/-- `maximum_flow_min_cut(graph, start, end)` (max_flow_min_cut.py:5-38).  The generator of the breadth first walk is
consumed before the loop: the loop does not change the graph that is walked. -/
def Graph.maxFlowMinCutFl (fl : Rat → Rat) (g : Graph α Rat O) (start fin : α) : Option (Py (List (α × α))) :=
  if !g.has start then some (.error .valueError)
  else if !g.has fin then some (.error .valueError)
  else match g.maximumFlowFl fl start fin with
    | none => none
    | some (.error e) => some (.error e)
    | some (.ok (flow, mfg)) =>
      if flow = 0 then some (.ok [])
      else match mfg.breadthFirstWalk start (some fin) false with
        | none => none
        | some (.error e) => some (.error e)
        | some (.ok walk) =>
          match forE walk ((Graph.empty : Graph α Rat O).fromList 1 mfg.toList, [])
              (fun s n1 => forE (mfg.nodesFrom n1) s (mcEdge g mfg n1)) with
          | .error e => some (.error e)
          | .ok (work, cut) =>
            let nodes := work.nodesOutDeg 0
            if fin ∈ nodes then some (.ok (cut.filter (fun p => decide (p.1 ∈ nodes ∧ p.1 ≠ fin))))
            else some (.error .keyError)

/-! ### proofs -/

theorem mfRecordFl_fold {fl : Rat → Rat} {g : Graph α Rat O} (pf : Rat) (es : List (α × α × Rat)) :
    ∀ (f c i : Graph α Rat O), f.Inv → i.Inv → (∀ e ∈ es, g.edge e.1 e.2.1 = some e.2.2) →
    (es.map (fun e => (e.1, e.2.1))).Nodup →
    ∃ f' c' i', forE es (f, c, i) (mfRecordFl fl g pf) = .ok (f', c', i') ∧ f'.Inv ∧ i'.Inv ∧
      (∀ x, f.has x = true → f'.has x = true) ∧ (∀ x, i.has x = true → i'.has x = true) ∧
      (∀ a b, f'.edge a b = if (a, b) ∈ es.map (fun e => (e.1, e.2.1)) then some (flowOf f a b + pf) else f.edge a b) ∧
      (∀ a b, c'.edge a b = if (a, b) ∈ es.map (fun e => (e.1, e.2.1)) then some (capOf g.edge a b - (flowOf f a b + pf)) else c.edge a b) ∧
      (∀ a b, i'.edge a b = if (a, b) ∈ es.map (fun e => (e.1, e.2.1)) then
        (if 0 < capOf g.edge a b - (flowOf f a b + pf) then some (fl (1 / (capOf g.edge a b - (flowOf f a b + pf)))) else none)
        else i.edge a b) := by
  induction es with
  | nil => intro f c i hf hi _ _; exact ⟨f, c, i, rfl, hf, hi, fun _ h => h, fun _ h => h, by simp, by simp, by simp⟩
  | cons e es ih =>
    obtain ⟨x, y, d⟩ := e
    intro f c i hf hi he hnd
    rw [List.map_cons, List.nodup_cons] at hnd
    have hd : g.edge x y = some d := he _ List.mem_cons_self
    have hv : (match f.edge x y with
      | none => pf
      | some v => v + pf) = flowOf f x y + pf := by
      unfold flowOf; cases f.edge x y with
      | none => show pf = 0 + pf; grind
      | some v => rfl
    have hcap : capOf g.edge x y = d := by unfold capOf; rw [hd]; rfl
    unfold forE
    have hrec : mfRecordFl fl g pf (f, c, i) (x, y, d) = .ok (f.addEdge x y (flowOf f x y + pf), c.addEdge x y (d - (flowOf f x y + pf)),
        if 0 < d - (flowOf f x y + pf) then i.addEdge x y (fl (1 / (d - (flowOf f x y + pf)))) else i.delEdge x y) := by
      unfold mfRecordFl
      dsimp only
      rw [hd]
      dsimp only
      rw [hv]
    rw [hrec]
    dsimp only
    have hi' : (if 0 < d - (flowOf f x y + pf) then i.addEdge x y (fl (1 / (d - (flowOf f x y + pf)))) else i.delEdge x y).Inv := by
      split
      · exact hi.addEdge _ _ _
      · exact hi.delEdge _ _
    have hie : ∀ a b, (if 0 < d - (flowOf f x y + pf) then i.addEdge x y (fl (1 / (d - (flowOf f x y + pf)))) else i.delEdge x y).edge a b =
        if x = a ∧ y = b then (if 0 < d - (flowOf f x y + pf) then some (fl (1 / (d - (flowOf f x y + pf)))) else none) else i.edge a b := by
      intro a b
      by_cases h0 : 0 < d - (flowOf f x y + pf)
      · rw [if_pos h0, if_pos h0, edge_addEdge]
      · rw [if_neg h0, if_neg h0, edge_delEdge hi]
    have hih : ∀ z, i.has z = true → (if 0 < d - (flowOf f x y + pf) then i.addEdge x y (fl (1 / (d - (flowOf f x y + pf)))) else i.delEdge x y).has z = true := by
      intro z hz
      split
      · unfold Graph.has Dict.contains at hz ⊢
        rw [addEdge_nodes_get?]; split
        · rfl
        · exact hz
      · unfold Graph.has at hz ⊢; rw [delEdge_nodes]; exact hz
    obtain ⟨f', c', i', h1, h2, h3, h4, h5, h6, h7, h8⟩ := ih (f.addEdge x y (flowOf f x y + pf)) (c.addEdge x y (d - (flowOf f x y + pf)))
      _ (hf.addEdge _ _ _) hi' (fun e he' => he e (List.mem_cons_of_mem _ he')) hnd.2
    have hfl : ∀ a b, (a, b) ∈ es.map (fun e => (e.1, e.2.1)) →
        flowOf (f.addEdge x y (flowOf f x y + pf)) a b = flowOf f a b := by
      intro a b hab
      unfold flowOf
      rw [edge_addEdge, if_neg]
      rintro ⟨rfl, rfl⟩; exact hnd.1 hab
    refine ⟨f', c', i', h1, h2, h3, fun z hz => h4 z ?_, fun z hz => h5 z (hih z hz), fun a b => ?_, fun a b => ?_, fun a b => ?_⟩
    · unfold Graph.has Dict.contains at hz ⊢
      rw [addEdge_nodes_get?]; split
      · rfl
      · exact hz
    · rw [h6]
      by_cases hab : (a, b) ∈ es.map (fun e => (e.1, e.2.1))
      · rw [if_pos hab, if_pos (by rw [List.map_cons]; exact List.mem_cons_of_mem _ hab), hfl a b hab]
      · rw [if_neg hab, edge_addEdge]
        by_cases hxy : x = a ∧ y = b
        · obtain ⟨rfl, rfl⟩ := hxy
          rw [if_pos ⟨rfl, rfl⟩, if_pos (by simp)]
        · rw [if_neg hxy, if_neg]
          rw [List.map_cons, List.mem_cons, Prod.mk.injEq]
          rintro (h | h)
          · exact hxy ⟨h.1.symm, h.2.symm⟩
          · exact hab h
    · rw [h7]
      by_cases hab : (a, b) ∈ es.map (fun e => (e.1, e.2.1))
      · rw [if_pos hab, if_pos (by rw [List.map_cons]; exact List.mem_cons_of_mem _ hab), hfl a b hab]
      · rw [if_neg hab, edge_addEdge]
        by_cases hxy : x = a ∧ y = b
        · obtain ⟨rfl, rfl⟩ := hxy
          rw [if_pos ⟨rfl, rfl⟩, if_pos (by simp), hcap]
        · rw [if_neg hxy, if_neg]
          rw [List.map_cons, List.mem_cons, Prod.mk.injEq]
          rintro (h | h)
          · exact hxy ⟨h.1.symm, h.2.symm⟩
          · exact hab h
    · rw [h8]
      by_cases hab : (a, b) ∈ es.map (fun e => (e.1, e.2.1))
      · have hm : (a, b) ∈ List.map (fun e : α × α × Rat => (e.1, e.2.1)) ((x, y, d) :: es) := by
          rw [List.map_cons]; exact List.mem_cons_of_mem _ hab
        rw [if_pos hab, if_pos hm, hfl a b hab]
      · rw [if_neg hab, hie]
        by_cases hxy : x = a ∧ y = b
        · obtain ⟨rfl, rfl⟩ := hxy
          have hm : (x, y) ∈ List.map (fun e : α × α × Rat => (e.1, e.2.1)) ((x, y, d) :: es) := by simp
          rw [if_pos ⟨rfl, rfl⟩, if_pos hm, hcap]
        · rw [if_neg hxy, if_neg]
          rw [List.map_cons, List.mem_cons, Prod.mk.injEq]
          rintro (h | h)
          · exact hxy ⟨h.1.symm, h.2.symm⟩
          · exact hab h

structure MfInvFl (fl : Rat → Rat) (g : Graph α Rat O) (start fin : α) (U0 : Rat) (s : MfSt α O) : Prop where
  finv : s.flow.Inv
  iinv : s.inv.Inv
  nonneg : ∀ a b, 0 ≤ flowOf s.flow a b
  within : ∀ a b, flowOf s.flow a b ≤ capOf g.edge a b
  cap : ∀ a b, (s.capg.edge a b = none ∧ s.flow.edge a b = none) ∨
    s.capg.edge a b = some (capOf g.edge a b - flowOf s.flow a b)
  inv : ∀ a b x, s.inv.edge a b = some x ↔ 0 < capOf g.edge a b - flowOf s.flow a b ∧ x = fl (1 / (capOf g.edge a b - flowOf s.flow a b))
  ends : s.unassigned ≠ 0 → s.inv.has start = true ∧ s.inv.has fin = true
  cons : ∀ x ∈ g.nodeList, x ≠ start → x ≠ fin →
    sumL g.nodeList (fun y => flowOf s.flow x y) = sumL g.nodeList (fun y => flowOf s.flow y x)
  value : sumL g.nodeList (fun y => flowOf s.flow start y) - sumL g.nodeList (fun y => flowOf s.flow y start) = s.total
  sum : s.unassigned + s.total = U0
  pos : ∀ a b v, s.flow.edge a b = some v → 0 < v
  outFin : ∀ b, s.flow.edge fin b = none
  inStart : ∀ a, s.flow.edge a start = none
  zero : 0 < s.total ∨ (s.total = 0 ∧ ∀ a b, s.flow.edge a b = none)

theorem MfInvFl.post {fl : Rat → Rat} {g : Graph α Rat O} {start fin : α} {s : MfSt α O} (h : MfInvFl fl g start fin (g.mfBound start fin) s)
    (hq : s.unassigned = 0 ∨ Blocking g.edge start fin (flowOf s.flow)) : MfPost g start fin (.ok (s.total, s.flow)) := by
  refine ⟨_, _, rfl, h.finv, h.zero, ⟨h.nonneg, h.within, h.cons, h.value⟩, h.pos, h.outFin, h.inStart, ?_⟩
  rcases hq with hq | hq
  · left; have := h.sum; rw [hq] at this; grind
  · exact .inr hq

theorem mfStepFl_inv {fl : Rat → Rat} (hfl : Rounding fl) {g : Graph α Rat O} (hg : g.Inv) (hc : NonNeg g.edge) {start fin : α} (hne : start ≠ fin)
    {s : MfSt α O} (h : MfInvFl fl g start fin (g.mfBound start fin) s) :
    (∃ s', mfStepFl fl g start fin s = some (.inl s') ∧ MfInvFl fl g start fin (g.mfBound start fin) s' ∧ mfMeasure g s' < mfMeasure g s) ∨
    (∃ r, mfStepFl fl g start fin s = some (.inr r) ∧ MfPost g start fin r) := by
  unfold mfStepFl
  by_cases hu : s.unassigned = 0
  · rw [if_pos hu]; exact .inr ⟨_, rfl, h.post (.inl hu)⟩
  rw [if_neg hu]
  have hiw : NonNeg s.inv.edge := by
    intro a b x hx
    obtain ⟨h1, h2⟩ := (h.inv a b x).1 hx
    rw [h2, Rat.div_def]
    have := Rat.inv_pos.2 h1
    have h3 := hfl.mono 0 (1 * (capOf g.edge a b - flowOf s.flow a b)⁻¹) (by grind)
    rw [hfl.zero] at h3
    exact h3
  obtain ⟨r, hr, hsp⟩ := shortestPathFl_spec hfl h.iinv hiw [] (h.ends hu).1 (h.ends hu).2
  have hnd := shortestPathFl_nodup hr
  rw [hr]
  rcases hsp with ⟨d, hd, hfw, _⟩ | ⟨rfl, hno⟩
  · obtain ⟨d', path⟩ := r
    dsimp only at hd hfw hnd
    obtain ⟨cw, hw, _⟩ := avoid_of_flWalk hfw
    subst hd
    dsimp only
    have hcap0 : ∀ a b, 0 < capOf g.edge a b → g.edge a b = some (capOf g.edge a b) := by
      intro a b hab
      unfold capOf at hab ⊢
      cases he : g.edge a b with
      | none => rw [he] at hab; exact absurd hab (by simp)
      | some v => rfl
    have hedge : ∀ a b x, s.inv.edge a b = some x → g.edge a b = some (capOf g.edge a b) := by
      intro a b x hx
      have h1 := ((h.inv a b x).1 hx).1
      have h2 := h.nonneg a b
      exact hcap0 a b (by grind)
    have hcon : Consec (fun a b => (s.inv.edge a b).isSome) path := hw.walkFT.1
    have hcong : Consec g.Adj path := by
      refine hcon.mono (fun a b hab => ?_)
      obtain ⟨x, hx⟩ := Option.isSome_iff_exists.1 hab
      unfold Adj; rw [hedge a b x hx]; rfl
    have hlen : ¬ path.length < 2 := by
      intro hl
      obtain ⟨h1, h2, _⟩ := hw
      match path, hl with
      | [], _ => cases h1
      | [x], _ => simp at h1 h2; exact hne (h1.symm.trans h2)
      | _ :: _ :: _, hl => simp at hl; omega
    obtain ⟨es, hes, hpairs, hval⟩ := edgesAlong_pairs hcong
    have hesp : g.edgesPath path = .ok es := by unfold edgesPath; rw [if_neg hlen]; exact hes
    rw [hesp]
    dsimp only
    have hesne : es ≠ [] := by
      rintro rfl
      rw [List.map_nil] at hpairs
      match path, hlen with
      | [], hl => simp at hl
      | [x], hl => simp at hl
      | _ :: _ :: _, _ => simp [pairs] at hpairs
    obtain ⟨pf, hpf, hmem, hmin⟩ := ratMin_spec (l := es.map (mfLeft s.capg)) (by simpa using hesne)
    rw [hpf]
    dsimp only
    -- what is left on an edge of the path
    have hleft : ∀ e ∈ es, mfLeft s.capg e = capOf g.edge e.1 e.2.1 - flowOf s.flow e.1 e.2.1 := by
      intro e he
      have h1 := hval e he
      have h2 : capOf g.edge e.1 e.2.1 = e.2.2 := by unfold capOf; rw [h1]; rfl
      have h3 := h.nonneg e.1 e.2.1
      unfold mfLeft
      rcases h.cap e.1 e.2.1 with ⟨h4, h5⟩ | h4
      · rw [h4]; dsimp only; rw [h2]; unfold flowOf; rw [h5]; simp; grind
      · rw [h4]; dsimp only; rw [h2]; split <;> grind
    have hpos : ∀ a b, (a, b) ∈ pairs path → 0 < capOf g.edge a b - flowOf s.flow a b := by
      intro a b hab
      have : (s.inv.edge a b).isSome := pairs_rel hcon hab
      obtain ⟨x, hx⟩ := Option.isSome_iff_exists.1 this
      exact ((h.inv a b x).1 hx).1
    have hpair : ∀ e ∈ es, (e.1, e.2.1) ∈ pairs path := by
      intro e he; rw [← hpairs]; exact List.mem_map_of_mem he
    have hpf0 : 0 < pf := by
      obtain ⟨e, he, hee⟩ := List.mem_map.1 hmem
      rw [← hee, hleft e he]; exact hpos _ _ (hpair e he)
    have hle : ∀ a b, (a, b) ∈ pairs path → flowOf s.flow a b + pf ≤ capOf g.edge a b := by
      intro a b hab
      rw [← hpairs] at hab
      obtain ⟨e, he, hee⟩ := List.mem_map.1 hab
      simp at hee; obtain ⟨rfl, rfl⟩ := hee
      have := hmin _ (List.mem_map_of_mem he)
      rw [hleft e he] at this; grind
    have hnd2 : (es.map (fun e => (e.1, e.2.1))).Nodup := by rw [hpairs]; exact pairs_nodup hnd
    obtain ⟨f', c', i', hfor, hf1, hi1, _, hih, hfe, hce, hie⟩ := mfRecordFl_fold (fl := fl) (g := g) pf es s.flow s.capg s.inv h.finv h.iinv hval hnd2
    rw [hpairs] at hfe hce hie
    rw [hfor]
    dsimp only
    have hflow : ∀ a b, flowOf f' a b = if (a, b) ∈ pairs path then flowOf s.flow a b + pf else flowOf s.flow a b := by
      intro a b
      conv => lhs; unfold flowOf
      rw [hfe]
      split <;> rfl
    have hpU : ∀ x ∈ path, x ∈ g.nodeList := by
      intro x hx
      have hl2 : ∃ y, (x, y) ∈ pairs path ∨ (y, x) ∈ pairs path := mem_pairs_of_mem hx (by omega)
      obtain ⟨y, hy | hy⟩ := hl2
      · have := hpos _ _ hy; have h2 := h.nonneg x y
        exact (hg.edge_mem (hcap0 x y (by grind))).1
      · have := hpos _ _ hy; have h2 := h.nonneg y x
        exact (hg.edge_mem (hcap0 y x (by grind))).2
    have hsum := sumL_flow_add (g := g) hflow hnd hpU hg.nodesWF
    obtain ⟨ht1, ht2, ht3, ht4⟩ := walk_tail_dropLast hw.1 hw.2.1 hnd hne
    refine .inl ⟨_, rfl, ⟨hf1, hi1, ?_, ?_, ?_, ?_, ?_, ?_, ?_, ?_, ?_, ?_, ?_, ?_⟩, ?_⟩
    · intro a b; show 0 ≤ flowOf f' a b
      rw [hflow]; have := h.nonneg a b; split <;> grind
    · intro a b; show flowOf f' a b ≤ _
      rw [hflow]; split
      · rename_i hab; exact hle a b hab
      · exact h.within a b
    · intro a b
      show (c'.edge a b = none ∧ f'.edge a b = none) ∨ c'.edge a b = some (capOf g.edge a b - flowOf f' a b)
      rw [hce, hfe, hflow]
      by_cases hab : (a, b) ∈ pairs path
      · rw [if_pos hab, if_pos hab, if_pos hab]; exact .inr rfl
      · rw [if_neg hab, if_neg hab, if_neg hab]; exact h.cap a b
    · intro a b x
      show i'.edge a b = some x ↔ 0 < capOf g.edge a b - flowOf f' a b ∧ x = fl (1 / (capOf g.edge a b - flowOf f' a b))
      rw [hie, hflow]
      by_cases hab : (a, b) ∈ pairs path
      · rw [if_pos hab, if_pos hab]
        by_cases h0 : 0 < capOf g.edge a b - (flowOf s.flow a b + pf)
        · rw [if_pos h0]; simp only [Option.some.injEq, h0, true_and]; exact eq_comm
        · rw [if_neg h0]; simp only [h0, false_and, iff_false]; exact (fun h => nomatch h)
      · rw [if_neg hab, if_neg hab]; exact h.inv a b x
    · intro _; exact ⟨hih _ (h.ends hu).1, hih _ (h.ends hu).2⟩
    · intro x hx hxs hxf
      show sumL g.nodeList (fun y => flowOf f' x y) = sumL g.nodeList (fun y => flowOf f' y x)
      rw [(hsum x).1, (hsum x).2, h.cons x hx hxs hxf]
      congr 1
      have := ht4 x hxs hxf
      by_cases h5 : x ∈ path.dropLast
      · rw [if_pos h5, if_pos (this.2 h5)]
      · rw [if_neg h5, if_neg (fun h => h5 (this.1 h))]
    · show sumL g.nodeList (fun y => flowOf f' start y) - sumL g.nodeList (fun y => flowOf f' y start) = s.total + pf
      rw [(hsum start).1, (hsum start).2, if_pos ht2, if_neg ht1]
      have := h.value
      grind
    · show s.unassigned - pf + (s.total + pf) = _
      have := h.sum; grind
    · intro a b v hv
      have hv : f'.edge a b = some v := hv
      rw [hfe] at hv
      split at hv
      · cases hv; have := h.nonneg a b; grind
      · exact h.pos a b v hv
    · intro b
      show f'.edge fin b = none
      rw [hfe, if_neg (fun hm => ht3 (pairs_mem hm).1)]; exact h.outFin b
    · intro a
      show f'.edge a start = none
      rw [hfe, if_neg (fun hm => ht1 (pairs_mem hm).2)]; exact h.inStart a
    · left; show 0 < s.total + pf
      rcases h.zero with h | ⟨h, _⟩ <;> grind
    · -- one edge of the path is saturated
      obtain ⟨e, he, hee⟩ := List.mem_map.1 hmem
      rw [hleft e he] at hee
      have hcape : capOf g.edge e.1 e.2.1 = e.2.2 := by unfold capOf; rw [hval e he]; rfl
      refine filter_length_lt (y := e) ?_ ?_ ?_ ?_
      · intro x _ hx
        simp only [decide_eq_true_eq] at hx ⊢
        have hx : 0 < x.2.2 - flowOf f' x.1 x.2.1 := hx
        rw [hflow] at hx
        split at hx <;> grind
      · have := hval e he
        rw [show e = (e.1, e.2.1, e.2.2) from rfl, hg.mem_edgeList]; exact this
      · simp only [decide_eq_true_eq]
        have := hpos _ _ (hpair e he)
        rw [hcape] at this; exact this
      · simp only [decide_eq_false_iff_not]
        show ¬ 0 < e.2.2 - flowOf f' e.1 e.2.1
        rw [hflow, if_pos (hpair e he)]
        rw [hcape] at hee; grind
  · dsimp only
    refine .inr ⟨_, rfl, h.post (.inr ?_)⟩
    intro hreach
    apply hno
    obtain ⟨p, hp⟩ := (reach_iff_walk).1 hreach
    have hp2 : WalkFT (fun a b => (s.inv.edge a b).isSome) start fin p := by
      refine ⟨hp.1.mono (fun a b hab => ?_), hp.2⟩
      obtain ⟨d, hd1, hd2⟩ := hab
      have : capOf g.edge a b = d := by unfold capOf; rw [hd1]; rfl
      rw [(h.inv a b _).2 ⟨by rw [this]; grind, rfl⟩]; rfl
    obtain ⟨c, hc⟩ := hp2.walkOf
    obtain ⟨c', hc'⟩ := flWalk_of_avoid (fl := fl) (av := []) ⟨hc, by simp⟩
    exact ⟨p, c', hc'⟩

theorem mfInvertedFl_edge {fl : Rat → Rat} {g : Graph α Rat O} (h : g.Inv) (a b : α) (x : Rat) :
    (g.mfInvertedFl fl).edge a b = some x ↔ 0 < capOf g.edge a b ∧ x = fl (1 / capOf g.edge a b) := by
  unfold mfInvertedFl
  have hmem : ∀ a b x, (a, b, x) ∈ (g.edgeList.filter (fun e => decide (0 < e.2.2))).map (fun e => (e.1, e.2.1, fl (1 / e.2.2))) ↔
      ∃ d, g.edge a b = some d ∧ 0 < d ∧ x = fl (1 / d) := by
    intro a b x
    simp only [List.mem_map, List.mem_filter, decide_eq_true_eq, Prod.mk.injEq, Prod.exists, h.mem_edgeList]
    constructor
    · rintro ⟨a', b', d, ⟨h1, h2⟩, rfl, rfl, h3⟩; exact ⟨d, h1, h2, h3.symm⟩
    · rintro ⟨d, h1, h2, h3⟩; exact ⟨a, b, d, ⟨h1, h2⟩, rfl, rfl, h3.symm⟩
  rw [addEdges_edge, hmem]
  · constructor
    · rintro (⟨d, h1, h2, h3⟩ | ⟨_, h1⟩)
      · have : capOf g.edge a b = d := by unfold capOf; rw [h1]; rfl
        rw [this]; exact ⟨h2, h3⟩
      · cases h1
    · rintro ⟨h1, h2⟩
      left
      unfold capOf at h1 h2
      cases he : g.edge a b with
      | none => rw [he] at h1; exact absurd h1 (by simp)
      | some d => rw [he] at h1 h2; exact ⟨d, rfl, h1, h2⟩
  · intro a b v w h1 h2
    rw [hmem] at h1 h2
    obtain ⟨d, h1, _, rfl⟩ := h1
    obtain ⟨d', h2, _, rfl⟩ := h2
    rw [h1] at h2; cases h2; rfl

theorem mfInvertedFl_has {fl : Rat → Rat} {g : Graph α Rat O} (h : g.Inv) (hc : NonNeg g.edge) {start fin : α} (hb : g.mfBound start fin ≠ 0) :
    (g.mfInvertedFl fl).has start = true ∧ (g.mfInvertedFl fl).has fin = true := by
  have hinv : (g.mfInvertedFl fl).Inv := addEdges_inv inv_empty _
  obtain ⟨h1, h2, h3⟩ := mfBound_eq h start fin
  have h4 := sumL_nonneg (l := g.nodeList) (fun y _ => capOf_nonneg hc start y)
  have h5 := sumL_nonneg (l := g.nodeList) (fun y _ => capOf_nonneg hc y fin)
  have hb0 : 0 ≤ g.mfBound start fin := by rcases h1 with h1 | h1 <;> rw [h1] <;> assumption
  obtain ⟨y, _, hy⟩ := exists_pos_of_sumL_pos (l := g.nodeList) (f := fun y => capOf g.edge start y) (by grind)
  obtain ⟨z, _, hz⟩ := exists_pos_of_sumL_pos (l := g.nodeList) (f := fun y => capOf g.edge y fin) (by grind)
  have e1 := hinv.edge_mem ((mfInvertedFl_edge (fl := fl) h start y _).2 ⟨hy, rfl⟩)
  have e2 := hinv.edge_mem ((mfInvertedFl_edge (fl := fl) h z fin _).2 ⟨hz, rfl⟩)
  exact ⟨has_iff.2 e1.1, has_iff.2 e2.2⟩

theorem maximumFlowFl_start {fl : Rat → Rat} {g : Graph α Rat O} (h : g.Inv) (hc : NonNeg g.edge) {start fin : α} :
    MfInvFl fl g start fin (g.mfBound start fin) ⟨g.mfInvertedFl fl, Graph.empty, Graph.empty, g.mfBound start fin, 0⟩ := by
  have hz : ∀ a b, flowOf (Graph.empty : Graph α Rat O) a b = 0 := fun a b => rfl
  refine ⟨inv_empty, addEdges_inv inv_empty _, ?_, ?_, ?_, ?_, ?_, ?_, ?_, ?_, ?_, fun _ => rfl, fun _ => rfl, .inr ⟨rfl, fun _ _ => rfl⟩⟩
  · intro a b; exact Rat.le_refl
  · intro a b; exact capOf_nonneg hc a b
  · intro a b; exact .inl ⟨rfl, rfl⟩
  · intro a b x
    show (g.mfInvertedFl fl).edge a b = some x ↔ 0 < capOf g.edge a b - flowOf Graph.empty a b ∧ x = fl (1 / (capOf g.edge a b - flowOf Graph.empty a b))
    rw [mfInvertedFl_edge h, hz, show capOf g.edge a b - 0 = capOf g.edge a b by grind]
  · intro hb; exact mfInvertedFl_has h hc hb
  · intro x _ _ _
    show sumL _ (fun y => flowOf Graph.empty x y) = sumL _ (fun y => flowOf Graph.empty y x)
    rfl
  · show sumL _ (fun y => flowOf Graph.empty start y) - sumL _ (fun y => flowOf Graph.empty y start) = 0
    have : sumL g.nodeList (fun _ => (0 : Rat)) = 0 := sumL_zero _
    show sumL g.nodeList (fun _ => (0 : Rat)) - sumL g.nodeList (fun _ => (0 : Rat)) = 0
    rw [this]; grind
  · show g.mfBound start fin + 0 = _; grind
  · intro a b v hv; cases hv

theorem maximumFlowFl_main {fl : Rat → Rat} (hfl : Rounding fl) {g : Graph α Rat O} (h : g.Inv) (hc : NonNeg g.edge) {start fin : α} (hne : start ≠ fin)
    (hs : g.has start = true) (hf : g.has fin = true) :
    ∃ r, g.maximumFlowFl fl start fin = some r ∧ MfPost g start fin r := by
  unfold maximumFlowFl
  rw [if_neg (by simp [hs]), if_neg (by simp [hf])]
  refine pyWhileD_total (MfInvFl fl g start fin (g.mfBound start fin)) (MfPost g start fin) (· < ·) Nat.lt_wfRel.wf (mfMeasure g)
    (fun s hI => mfStepFl_inv hfl h hc hne hI) (maximumFlowFl_start h hc)

theorem maximumFlowFl_missing {fl : Rat → Rat} {g : Graph α Rat O} {start fin : α} (hne : ¬ (g.has start = true ∧ g.has fin = true)) :
    g.maximumFlowFl fl start fin = some (.error .valueError) := by
  unfold maximumFlowFl
  split
  · rfl
  · split
    · rfl
    · rename_i h1 h2; simp at h1 h2; exact absurd ⟨h1, h2⟩ hne

/-- without rounding -/
theorem maximumFlow_eq_fl (g : Graph α Rat O) (start fin : α) : g.maximumFlowFl id start fin = g.maximumFlow start fin := by
  have h1 : mfRecordFl id g = mfRecord g := rfl
  have h2 : mfStepFl id g start fin = mfStep g start fin := by
    funext s
    unfold mfStepFl mfStep
    rw [shortestPath_eq_fl, h1]
    by_cases hu : s.unassigned = 0
    · rw [if_pos hu, if_pos hu]
    · rw [if_neg hu, if_neg hu]
      rcases s.inv.shortestPath start fin with _ | (e | ⟨_ | d, path⟩)
      · rfl
      · rfl
      all_goals first | rfl | (dsimp only; rcases g.edgesPath path with e | es; rfl; dsimp only; rcases ratMin (es.map (mfLeft s.capg)) with e | pf; rfl; dsimp only; rcases forE es (s.flow, s.capg, s.inv) (mfRecord g pf) with e | ⟨a, b, c⟩ <;> rfl)
  unfold maximumFlowFl maximumFlow
  rw [h2]
  rfl

theorem maxFlowMinCutFl_main {fl : Rat → Rat} (hfl : Rounding fl) {g : Graph α Rat O} (h : g.Inv) (hc : NonNeg g.edge) {start fin : α} (hne : start ≠ fin)
    (hs : g.has start = true) (hf : g.has fin = true) :
    ∃ flow mfg cut, g.maximumFlowFl fl start fin = some (.ok (flow, mfg)) ∧ g.maxFlowMinCutFl fl start fin = some (.ok cut) ∧
      (flow = 0 → cut = []) ∧
      (flow ≠ 0 → ∃ walk, mfg.breadthFirstWalk start (some fin) false = some (.ok walk) ∧ McPost g mfg fin walk cut) := by
  obtain ⟨r, hr, total, f, rfl, hfi, _, hF, hpos, hof, his, hopt⟩ := maximumFlowFl_main hfl h hc hne hs hf
  refine ⟨total, f, ?_⟩
  unfold maxFlowMinCutFl
  rw [if_neg (by simp [hs]), if_neg (by simp [hf]), hr]
  dsimp only
  by_cases ht : total = 0
  · rw [if_pos ht]; exact ⟨[], rfl, rfl, fun _ => rfl, fun h => absurd ht h⟩
  rw [if_neg ht]
  obtain ⟨hfs, hff⟩ := mc_has h hne hs hf hfi hF ht
  obtain ⟨full, hfull, hnd, -⟩ := bfw_none hfi.finiteFrom (has_iff.1 hfs)
  obtain ⟨walk, hwalk⟩ := bfw_some_total hfi.finiteFrom (has_iff.1 hfs) (some fin)
  have hpre := (bfw_some hfull (by simp) walk hwalk).1
  have hbw : f.breadthFirstWalk start (some fin) false = some (.ok walk) := by
    unfold breadthFirstWalk
    rw [if_neg (by simp [hfs])]
    simp [hff, hwalk]
  have hwnd : walk.Nodup := hnd.sublist hpre.sublist
  have hsub : ∀ a b v, f.edge a b = some v → ∃ c, g.edge a b = some c := by
    intro a b v hv
    have h1 := hpos a b v hv
    have h2 := hF.within a b
    have h3 : flowOf f a b = v := by unfold flowOf; rw [hv]; rfl
    cases he : g.edge a b with
    | some c => exact ⟨c, rfl⟩
    | none =>
      have : capOf g.edge a b = 0 := by unfold capOf; rw [he]; rfl
      grind
  have hw0 : ((Graph.empty : Graph α Rat O).fromList 1 f.toList).Inv := (fromList_built 1 built_empty _).inv
  obtain ⟨w, cut, h1, h2, h3, h4, h5, h6⟩ := mcWalk_fold (g := g) hfi hsub walk hwnd _ [] hw0
  rw [hbw]
  dsimp only
  rw [h1]
  dsimp only
  have hwn : ∀ x, x ∈ w.nodes.keys ↔ f.has x = true := by
    intro x
    rw [h3, ← Dict.get?_isSome_iff, hfi.fromList_toList_nodes, has_iff]
    split <;> simp_all
  have hod : ∀ x, f.has x = true → (x ∈ w.nodesOutDeg 0 ↔ ∀ y, w.edge x y = none) := by
    intro x hx
    unfold nodesOutDeg
    rw [mem_degFilter h2.outWF, h2.outD x ((hwn x).2 hx)]
    constructor
    · intro h0 y
      have : (w.nodesFrom x).length = 0 := by simpa using h0
      have hnil := List.length_eq_zero_iff.1 this
      cases he : w.edge x y with
      | none => rfl
      | some v =>
        have : y ∈ w.nodesFrom x := mem_nodesFrom.2 (by rw [he]; rfl)
        rw [hnil] at this; cases this
    · intro hall
      have : w.nodesFrom x = [] := by
        rw [List.eq_nil_iff_forall_not_mem]
        intro y hy
        rw [mem_nodesFrom, hall y] at hy; cases hy
      rw [this]; rfl
  have hfin : fin ∈ w.nodesOutDeg 0 := by
    rw [hod fin hff]
    intro y
    rw [h6, hfi.fromList_toList_edge, hof y]
    split <;> rfl
  rw [if_pos hfin]
  refine ⟨_, rfl, rfl, fun h => absurd h ht, fun _ => ⟨walk, rfl, ?_, ?_⟩⟩
  · exact h4.filter _
  · intro a b
    rw [List.mem_filter, List.nil_append, h5]
    simp only [decide_eq_true_eq]
    constructor
    · rintro ⟨⟨ha, hsat⟩, hn, hnf⟩
      refine ⟨ha, hsat, ?_⟩
      intro y hy
      have hfa : f.has a = true := by
        obtain ⟨v, hv⟩ := Option.isSome_iff_exists.1 hy
        exact has_iff.2 (hfi.edge_mem hv).1
      have := (hod a hfa).1 hn y
      rw [h6, hfi.fromList_toList_edge] at this
      split at this
      · rename_i hm; exact ((h5 a y).1 hm).2
      · rw [this] at hy; cases hy
    · rintro ⟨ha, hsat, hall⟩
      obtain ⟨d, hd1, hd2⟩ := hsat
      have hfa : f.has a = true := has_iff.2 (hfi.edge_mem hd2).1
      refine ⟨⟨ha, d, hd1, hd2⟩, ?_, ?_⟩
      · rw [hod a hfa]
        intro y
        rw [h6, hfi.fromList_toList_edge]
        split
        · rfl
        · rename_i hm
          cases he : f.edge a y with
          | none => rfl
          | some v => exact absurd ((h5 a y).2 ⟨ha, hall y (by rw [he]; rfl)⟩) hm
      · rintro rfl; rw [hof b] at hd2; cases hd2

end GT

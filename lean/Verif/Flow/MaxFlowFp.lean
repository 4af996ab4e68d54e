import Verif.Flow.MaxFlowFl
import Verif.Spec.FlowRound
/-
Model of `maximum_flow` (graph/max_flow.py) on floats: flows, the capacities left, the unassigned flow, the total, the reciprocals and
the lengths of the paths are all rounded.
-/
namespace GT
variable {α V O : Type} [DecidableEq α]
open Graph

/-- the body of the loop over the edges of the path (max_flow.py:68-86) -/
def mfRecordFp (fl : Rat → Rat) (g : Graph α Rat O) (pf : Rat) (s : Graph α Rat O × Graph α Rat O × Graph α Rat O) (e : α × α × Rat) :
    Py (Graph α Rat O × Graph α Rat O × Graph α Rat O) :=
  match g.edge e.1 e.2.1 with
  | none => .error .typeError
  | some d =>
    let v := match s.1.edge e.1 e.2.1 with
      | none => pf
      | some v => fl (v + pf)
    .ok (s.1.addEdge e.1 e.2.1 v, s.2.1.addEdge e.1 e.2.1 (fl (d - v)),
      if 0 < fl (d - v) then s.2.2.addEdge e.1 e.2.1 (fl (1 / fl (d - v))) else s.2.2.delEdge e.1 e.2.1)

/-- one iteration of `while unassigned_flow` (max_flow.py:53-86) -/
def mfStepFp (fl : Rat → Rat) (g : Graph α Rat O) (start fin : α) (s : MfSt α O) : Option (MfSt α O ⊕ Py (Rat × Graph α Rat O)) :=
  if s.unassigned = 0 then some (.inr (.ok (s.total, s.flow)))
  else match s.inv.shortestPathFl fl start fin with
    | none => none
    | some (.error e) => some (.inr (.error e))
    | some (.ok (.inf, _)) => some (.inr (.ok (s.total, s.flow)))
    | some (.ok (.fin _, path)) => match g.edgesPath path with
      | .error e => some (.inr (.error e))
      | .ok es => match ratMin (es.map (mfLeft s.capg)) with
        | .error e => some (.inr (.error e))
        | .ok pf => match forE es (s.flow, s.capg, s.inv) (mfRecordFp fl g pf) with
          | .error e => some (.inr (.error e))
          | .ok (flow, capg, inv) => some (.inl ⟨inv, capg, flow, fl (s.unassigned - pf), fl (s.total + pf)⟩)

/-- `min(inflow, outflow)` (max_flow.py:22-24); `sum` is Python's `sum` of floats: from left to right, or with compensation (since
Python 3.12) -/
def Graph.mfBoundFp (sum : List Rat → Rat) (g : Graph α Rat O) (start fin : α) : Rat :=
  let inflow := sum ((g.edgesFrom start).map (fun e => e.2.2))
  let outflow := sum ((g.edgesTo fin).map (fun e => e.2.2))
  if outflow < inflow then outflow else inflow

/-- `maximum_flow(graph, start, end)` (max_flow.py:5-87) on floats.  Simplification: nothing overflows or underflows. -/
def Graph.maximumFlowFp (fl : Rat → Rat) (sum : List Rat → Rat) (g : Graph α Rat O) (start fin : α) : Option (Py (Rat × Graph α Rat O)) :=
  if !g.has start then some (.error .valueError)
  else if !g.has fin then some (.error .valueError)
  else pyWhileD (mfStepFp fl g start fin) ⟨g.mfInvertedFl fl, Graph.empty, Graph.empty, g.mfBoundFp sum start fin, 0⟩

/-! ### proofs -/

/-- the new flow on an edge -/
def addFl (fl : Rat → Rat) (o : Option Rat) (q : Rat) : Rat := match o with
  | none => q
  | some v => fl (v + q)

theorem mfRecordFp_fold {fl : Rat → Rat} {g : Graph α Rat O} (pf : Rat) (es : List (α × α × Rat)) :
    ∀ (f c i : Graph α Rat O), f.Inv → i.Inv → (∀ e ∈ es, g.edge e.1 e.2.1 = some e.2.2) →
    (es.map (fun e => (e.1, e.2.1))).Nodup →
    ∃ f' c' i', forE es (f, c, i) (mfRecordFp fl g pf) = .ok (f', c', i') ∧ f'.Inv ∧ i'.Inv ∧
      (∀ x, f.has x = true → f'.has x = true) ∧ (∀ x, i.has x = true → i'.has x = true) ∧
      (∀ a b, f'.edge a b = if (a, b) ∈ es.map (fun e => (e.1, e.2.1)) then some (addFl fl (f.edge a b) pf) else f.edge a b) ∧
      (∀ a b, c'.edge a b = if (a, b) ∈ es.map (fun e => (e.1, e.2.1)) then some (fl (capOf g.edge a b - addFl fl (f.edge a b) pf)) else c.edge a b) ∧
      (∀ a b, i'.edge a b = if (a, b) ∈ es.map (fun e => (e.1, e.2.1)) then
        (if 0 < fl (capOf g.edge a b - addFl fl (f.edge a b) pf) then some (fl (1 / (fl (capOf g.edge a b - addFl fl (f.edge a b) pf)))) else none)
        else i.edge a b) := by
  induction es with
  | nil => intro f c i hf hi _ _; exact ⟨f, c, i, rfl, hf, hi, fun _ h => h, fun _ h => h, by simp, by simp, by simp⟩
  | cons e es ih =>
    obtain ⟨x, y, d⟩ := e
    intro f c i hf hi he hnd
    rw [List.map_cons, List.nodup_cons] at hnd
    have hd : g.edge x y = some d := he _ List.mem_cons_self
    have hv : (match f.edge x y with
      | none => pf
      | some v => fl (v + pf)) = addFl fl (f.edge x y) pf := by
      unfold addFl; cases f.edge x y <;> rfl
    have hcap : capOf g.edge x y = d := by unfold capOf; rw [hd]; rfl
    unfold forE
    have hrec : mfRecordFp fl g pf (f, c, i) (x, y, d) = .ok (f.addEdge x y (addFl fl (f.edge x y) pf), c.addEdge x y (fl (d - addFl fl (f.edge x y) pf)),
        if 0 < fl (d - addFl fl (f.edge x y) pf) then i.addEdge x y (fl (1 / (fl (d - addFl fl (f.edge x y) pf)))) else i.delEdge x y) := by
      unfold mfRecordFp
      dsimp only
      rw [hd]
      dsimp only
      rw [hv]
    rw [hrec]
    dsimp only
    have hi' : (if 0 < fl (d - addFl fl (f.edge x y) pf) then i.addEdge x y (fl (1 / (fl (d - addFl fl (f.edge x y) pf)))) else i.delEdge x y).Inv := by
      split
      · exact hi.addEdge _ _ _
      · exact hi.delEdge _ _
    have hie : ∀ a b, (if 0 < fl (d - addFl fl (f.edge x y) pf) then i.addEdge x y (fl (1 / (fl (d - addFl fl (f.edge x y) pf)))) else i.delEdge x y).edge a b =
        if x = a ∧ y = b then (if 0 < fl (d - addFl fl (f.edge x y) pf) then some (fl (1 / (fl (d - addFl fl (f.edge x y) pf)))) else none) else i.edge a b := by
      intro a b
      by_cases h0 : 0 < fl (d - addFl fl (f.edge x y) pf)
      · rw [if_pos h0, if_pos h0, edge_addEdge]
      · rw [if_neg h0, if_neg h0, edge_delEdge hi]
    have hih : ∀ z, i.has z = true → (if 0 < fl (d - addFl fl (f.edge x y) pf) then i.addEdge x y (fl (1 / (fl (d - addFl fl (f.edge x y) pf)))) else i.delEdge x y).has z = true := by
      intro z hz
      split
      · unfold Graph.has Dict.contains at hz ⊢
        rw [addEdge_nodes_get?]; split
        · rfl
        · exact hz
      · unfold Graph.has at hz ⊢; rw [delEdge_nodes]; exact hz
    obtain ⟨f', c', i', h1, h2, h3, h4, h5, h6, h7, h8⟩ := ih (f.addEdge x y (addFl fl (f.edge x y) pf)) (c.addEdge x y (fl (d - addFl fl (f.edge x y) pf)))
      _ (hf.addEdge _ _ _) hi' (fun e he' => he e (List.mem_cons_of_mem _ he')) hnd.2
    have hfl : ∀ a b, (a, b) ∈ es.map (fun e => (e.1, e.2.1)) →
        (f.addEdge x y (addFl fl (f.edge x y) pf)).edge a b = f.edge a b := by
      intro a b hab
      rw [edge_addEdge, if_neg]
      rintro ⟨rfl, rfl⟩; exact hnd.1 hab
    refine ⟨f', c', i', h1, h2, h3, fun z hz => h4 z ?_, fun z hz => h5 z (hih z hz), fun a b => ?_, fun a b => ?_, fun a b => ?_⟩
    · unfold Graph.has Dict.contains at hz ⊢
      rw [addEdge_nodes_get?]; split
      · rfl
      · exact hz
    · rw [h6]
      by_cases hab : (a, b) ∈ es.map (fun e => (e.1, e.2.1))
      · rw [if_pos hab, if_pos (by rw [List.map_cons]; exact List.mem_cons_of_mem _ hab), hfl a b hab]
      · rw [if_neg hab, edge_addEdge]
        by_cases hxy : x = a ∧ y = b
        · obtain ⟨rfl, rfl⟩ := hxy
          rw [if_pos ⟨rfl, rfl⟩, if_pos (by simp)]
        · rw [if_neg hxy, if_neg]
          rw [List.map_cons, List.mem_cons, Prod.mk.injEq]
          rintro (h | h)
          · exact hxy ⟨h.1.symm, h.2.symm⟩
          · exact hab h
    · rw [h7]
      by_cases hab : (a, b) ∈ es.map (fun e => (e.1, e.2.1))
      · rw [if_pos hab, if_pos (by rw [List.map_cons]; exact List.mem_cons_of_mem _ hab), hfl a b hab]
      · rw [if_neg hab, edge_addEdge]
        by_cases hxy : x = a ∧ y = b
        · obtain ⟨rfl, rfl⟩ := hxy
          rw [if_pos ⟨rfl, rfl⟩, if_pos (by simp), hcap]
        · rw [if_neg hxy, if_neg]
          rw [List.map_cons, List.mem_cons, Prod.mk.injEq]
          rintro (h | h)
          · exact hxy ⟨h.1.symm, h.2.symm⟩
          · exact hab h
    · rw [h8]
      by_cases hab : (a, b) ∈ es.map (fun e => (e.1, e.2.1))
      · have hm : (a, b) ∈ List.map (fun e : α × α × Rat => (e.1, e.2.1)) ((x, y, d) :: es) := by
          rw [List.map_cons]; exact List.mem_cons_of_mem _ hab
        rw [if_pos hab, if_pos hm, hfl a b hab]
      · rw [if_neg hab, hie]
        by_cases hxy : x = a ∧ y = b
        · obtain ⟨rfl, rfl⟩ := hxy
          have hm : (x, y) ∈ List.map (fun e : α × α × Rat => (e.1, e.2.1)) ((x, y, d) :: es) := by simp
          rw [if_pos ⟨rfl, rfl⟩, if_pos hm, hcap]
        · rw [if_neg hxy, if_neg]
          rw [List.map_cons, List.mem_cons, Prod.mk.injEq]
          rintro (h | h)
          · exact hxy ⟨h.1.symm, h.2.symm⟩
          · exact hab h

/-- what the program takes to be left of the capacity -/
def leftFp (fl : Rat → Rat) (g f : Graph α Rat O) (a b : α) : Rat := match f.edge a b with
  | none => capOf g.edge a b
  | some v => fl (capOf g.edge a b - v)

/-- 2: less than half of the capacity is used; 1: more, but something is left; 0: nothing is left -/
def phaseFp (fl : Rat → Rat) (g f : Graph α Rat O) (e : α × α × Rat) : Nat :=
  if 0 < leftFp fl g f e.1 e.2.1 then (if flowOf f e.1 e.2.1 < capOf g.edge e.1 e.2.1 / 2 then 2 else 1) else 0

def measureFp (fl : Rat → Rat) (g : Graph α Rat O) (s : MfSt α O) : Nat := (g.edgeList.map (phaseFp fl g s.flow)).sum

theorem nat_sum_lt {β : Type} {l : List β} {p q : β → Nat} (h : ∀ x ∈ l, p x ≤ q x) {y : β} (hy : y ∈ l) (hlt : p y < q y) :
    (l.map p).sum < (l.map q).sum := by
  have hle : ∀ l : List β, (∀ x ∈ l, p x ≤ q x) → (l.map p).sum ≤ (l.map q).sum := by
    intro l
    induction l with
    | nil => intro _; exact Nat.le_refl _
    | cons a l ih =>
      intro h
      have h1 := h a List.mem_cons_self
      have h2 := ih (fun x hx => h x (List.mem_cons_of_mem _ hx))
      simp only [List.map_cons, List.sum_cons]; omega
  induction l with
  | nil => cases hy
  | cons a l ih =>
    simp only [List.map_cons, List.sum_cons]
    have h1 := h a List.mem_cons_self
    have h2 := hle l (fun x hx => h x (List.mem_cons_of_mem _ hx))
    rcases List.mem_cons.1 hy with rfl | hy
    · omega
    · have := ih (fun x hx => h x (List.mem_cons_of_mem _ hx)) hy; omega

omit [DecidableEq α] in
theorem pairs_eq_zip (p : List α) : p.zip p.tail = pairs p := by
  induction p with
  | nil => rfl
  | cons a l ih =>
    cases l with
    | nil => rfl
    | cons b l => simp only [List.tail_cons, List.zip_cons_cons, pairs]; rw [← ih]; rfl

structure MfInvFp (fl : Rat → Rat) (ε : Rat) (g : Graph α Rat O) (start fin : α) (U0 : Rat) (L : List (List α × Rat)) (s : MfSt α O) : Prop where
  finv : s.flow.Inv
  iinv : s.inv.Inv
  paths : PathsOf g.edge start fin L
  flow : ∀ a b, s.flow.edge a b = sentFl fl L a b
  total : s.total = flTotal fl (L.map (·.2))
  rest : s.unassigned = restFl fl U0 L
  val : ∀ a b v, s.flow.edge a b = some v → 0 < v ∧ fl v = v ∧ v ≤ fl ((1 + ε) * capOf g.edge a b)
  cap : ∀ a b, s.capg.edge a b = (s.flow.edge a b).map (fun v => fl (capOf g.edge a b - v))
  inv : ∀ a b x, s.inv.edge a b = some x ↔ 0 < leftFp fl g s.flow a b ∧ x = fl (1 / leftFp fl g s.flow a b)
  ends : s.unassigned ≠ 0 → s.inv.has start = true ∧ s.inv.has fin = true
  count : L.length + measureFp fl g s ≤ 2 * g.edgeList.length

/-- what is returned -/
def MfPostFp (fl : Rat → Rat) (ε : Rat) (g : Graph α Rat O) (start fin : α) (U0 : Rat) (r : Py (Rat × Graph α Rat O)) : Prop :=
  ∃ total f L, r = .ok (total, f) ∧ f.Inv ∧ PathsOf g.edge start fin L ∧ (∀ a b, f.edge a b = sentFl fl L a b) ∧
    total = flTotal fl (L.map (·.2)) ∧ (∀ a b v, f.edge a b = some v → 0 < v ∧ fl v = v ∧ v ≤ fl ((1 + ε) * capOf g.edge a b)) ∧
    L.length ≤ 2 * g.edgeList.length ∧ (restFl fl U0 L = 0 ∨ Blocking g.edge start fin (flowOf f))

theorem MfInvFp.post {fl : Rat → Rat} {ε : Rat} {g : Graph α Rat O} {start fin : α} {U0 : Rat} {L : List (List α × Rat)} {s : MfSt α O}
    (h : MfInvFp fl ε g start fin U0 L s)
    (hq : s.unassigned = 0 ∨ Blocking g.edge start fin (flowOf s.flow)) : MfPostFp fl ε g start fin U0 (.ok (s.total, s.flow)) := by
  have := h.count
  exact ⟨_, _, L, rfl, h.finv, h.paths, h.flow, h.total, h.val, by omega, by rw [← h.rest]; exact hq⟩

theorem pos_of_fl_pos {fl : Rat → Rat} (hfl : Rounding fl) {x : Rat} (h : 0 < fl x) : 0 < x := by
  by_cases hx : 0 < x
  · exact hx
  · have := hfl.mono x 0 (by grind)
    rw [hfl.zero] at this; grind

theorem fl_pos {fl : Rat → Rat} {ε : Rat} (he : RelErr fl ε) (h1 : ε < 1) {x : Rat} (h : 0 < x) : 0 < fl x := by
  have h2 := (he x (by grind)).1
  have := Rat.mul_pos (show 0 < 1 - ε by grind) h
  grind

theorem mfStepFp_inv {fl : Rat → Rat} {ε : Rat} (hfl : Rounding fl) (he : RelErr fl ε) (hst : Sterbenz fl) (he0 : 0 ≤ ε) (he1 : ε ≤ 1 / 4)
    {g : Graph α Rat O} (hg : g.Inv) (hfix : ∀ a b d, g.edge a b = some d → fl d = d)
    {start fin : α} (hne : start ≠ fin) {U0 : Rat}
    {s : MfSt α O} {L : List (List α × Rat)} (h : MfInvFp fl ε g start fin U0 L s) :
    (∃ s', mfStepFp fl g start fin s = some (.inl s') ∧ (∃ L', MfInvFp fl ε g start fin U0 L' s') ∧ measureFp fl g s' < measureFp fl g s) ∨
    (∃ r, mfStepFp fl g start fin s = some (.inr r) ∧ MfPostFp fl ε g start fin U0 r) := by
  have hcapfix : ∀ a b, fl (capOf g.edge a b) = capOf g.edge a b := by
    intro a b
    unfold capOf
    cases hd : g.edge a b with
    | none => exact hfl.zero
    | some d => exact hfix a b d hd
  unfold mfStepFp
  by_cases hu : s.unassigned = 0
  · rw [if_pos hu]; exact .inr ⟨_, rfl, h.post (.inl hu)⟩
  rw [if_neg hu]
  have hiw : NonNeg s.inv.edge := by
    intro a b x hx
    obtain ⟨h1, h2⟩ := (h.inv a b x).1 hx
    rw [h2, Rat.div_def]
    have := Rat.inv_pos.2 h1
    have h3 := hfl.mono 0 (1 * (leftFp fl g s.flow a b)⁻¹) (by grind)
    rw [hfl.zero] at h3
    exact h3
  obtain ⟨r, hr, hsp⟩ := shortestPathFl_spec hfl h.iinv hiw [] (h.ends hu).1 (h.ends hu).2
  have hnd := shortestPathFl_nodup hr
  rw [hr]
  rcases hsp with ⟨d, hd, hfw, _⟩ | ⟨rfl, hno⟩
  · obtain ⟨d', path⟩ := r
    dsimp only at hd hfw hnd
    obtain ⟨cw, hw, _⟩ := avoid_of_flWalk hfw
    subst hd
    dsimp only
    have hcap0 : ∀ a b, 0 < capOf g.edge a b → g.edge a b = some (capOf g.edge a b) := by
      intro a b hab
      unfold capOf at hab ⊢
      cases he : g.edge a b with
      | none => rw [he] at hab; exact absurd hab (by simp)
      | some v => rfl
    -- an edge with something left
    have hlc : ∀ a b, 0 < leftFp fl g s.flow a b → 0 < capOf g.edge a b ∧ flowOf s.flow a b < capOf g.edge a b := by
      intro a b hab
      unfold leftFp at hab
      unfold flowOf
      cases hv : s.flow.edge a b with
      | none => rw [hv] at hab; exact ⟨hab, hab⟩
      | some v =>
        rw [hv] at hab
        have h1 := pos_of_fl_pos hfl hab
        have h2 := (h.val a b v hv).1
        show _ ∧ v < _
        constructor <;> grind
    have hedge : ∀ a b x, s.inv.edge a b = some x → g.edge a b = some (capOf g.edge a b) := by
      intro a b x hx
      exact hcap0 a b (hlc a b ((h.inv a b x).1 hx).1).1
    have hcon : Consec (fun a b => (s.inv.edge a b).isSome) path := hw.walkFT.1
    have hcong : Consec g.Adj path := by
      refine hcon.mono (fun a b hab => ?_)
      obtain ⟨x, hx⟩ := Option.isSome_iff_exists.1 hab
      unfold Adj; rw [hedge a b x hx]; rfl
    have hlen : ¬ path.length < 2 := by
      intro hl
      obtain ⟨h1, h2, _⟩ := hw
      match path, hl with
      | [], _ => cases h1
      | [x], _ => simp at h1 h2; exact hne (h1.symm.trans h2)
      | _ :: _ :: _, hl => simp at hl; omega
    obtain ⟨es, hes, hpairs, hval⟩ := edgesAlong_pairs hcong
    have hesp : g.edgesPath path = .ok es := by unfold edgesPath; rw [if_neg hlen]; exact hes
    rw [hesp]
    dsimp only
    have hesne : es ≠ [] := by
      rintro rfl
      rw [List.map_nil] at hpairs
      match path, hlen with
      | [], hl => simp at hl
      | [x], hl => simp at hl
      | _ :: _ :: _, _ => simp [pairs] at hpairs
    obtain ⟨pf, hpf, hmem, hmin⟩ := ratMin_spec (l := es.map (mfLeft s.capg)) (by simpa using hesne)
    rw [hpf]
    dsimp only
    -- what is left on an edge of the path
    have hleft : ∀ e ∈ es, mfLeft s.capg e = leftFp fl g s.flow e.1 e.2.1 := by
      intro e he
      have h1 := hval e he
      have h2 : capOf g.edge e.1 e.2.1 = e.2.2 := by unfold capOf; rw [h1]; rfl
      unfold mfLeft leftFp
      rw [h.cap e.1 e.2.1]
      cases hv : s.flow.edge e.1 e.2.1 with
      | none => dsimp only [Option.map_none]; exact h2.symm
      | some v =>
        dsimp only [Option.map_some]
        have h3 := (h.val _ _ v hv).1
        have h4 := hfl.mono (capOf g.edge e.1 e.2.1 - v) (capOf g.edge e.1 e.2.1) (by grind)
        rw [hcapfix] at h4
        rw [h2] at h4 ⊢
        split <;> grind
    have hpos : ∀ a b, (a, b) ∈ pairs path → 0 < leftFp fl g s.flow a b := by
      intro a b hab
      have : (s.inv.edge a b).isSome := pairs_rel hcon hab
      obtain ⟨x, hx⟩ := Option.isSome_iff_exists.1 this
      exact ((h.inv a b x).1 hx).1
    have hpair : ∀ e ∈ es, (e.1, e.2.1) ∈ pairs path := by
      intro e he; rw [← hpairs]; exact List.mem_map_of_mem he
    have hpf0 : 0 < pf := by
      obtain ⟨e, he, hee⟩ := List.mem_map.1 hmem
      rw [← hee, hleft e he]; exact hpos _ _ (hpair e he)
    have hpffix : fl pf = pf := by
      obtain ⟨e, he, hee⟩ := List.mem_map.1 hmem
      rw [← hee, hleft e he]
      unfold leftFp
      cases s.flow.edge e.1 e.2.1 with
      | none => exact hcapfix _ _
      | some v => exact hfl.idem _
    have hle : ∀ a b, (a, b) ∈ pairs path → pf ≤ leftFp fl g s.flow a b := by
      intro a b hab
      rw [← hpairs] at hab
      obtain ⟨e, he, hee⟩ := List.mem_map.1 hab
      simp at hee; obtain ⟨rfl, rfl⟩ := hee
      have := hmin _ (List.mem_map_of_mem he)
      rw [hleft e he] at this; exact this
    have hnd2 : (es.map (fun e => (e.1, e.2.1))).Nodup := by rw [hpairs]; exact pairs_nodup hnd
    obtain ⟨f', c', i', hfor, hf1, hi1, _, hih, hfe, hce, hie⟩ := mfRecordFp_fold (fl := fl) (g := g) pf es s.flow s.capg s.inv h.finv h.iinv hval hnd2
    rw [hpairs] at hfe hce hie
    rw [hfor]
    dsimp only
    -- the new flow on an edge of the path
    have hnew : ∀ a b, (a, b) ∈ pairs path → 0 < addFl fl (s.flow.edge a b) pf ∧
        fl (addFl fl (s.flow.edge a b) pf) = addFl fl (s.flow.edge a b) pf ∧
        flowOf s.flow a b ≤ addFl fl (s.flow.edge a b) pf ∧
        addFl fl (s.flow.edge a b) pf ≤ fl ((1 + ε) * capOf g.edge a b) := by
      intro a b hab
      have h1 := hle a b hab
      have h2 := hlc a b (hpos a b hab)
      have h5 : 0 ≤ ε * capOf g.edge a b := Rat.mul_nonneg he0 (by grind)
      unfold leftFp at h1
      unfold addFl flowOf
      cases hv : s.flow.edge a b with
      | none =>
        rw [hv] at h1
        dsimp only at h1 ⊢
        refine ⟨hpf0, hpffix, by show (0 : Rat) ≤ pf; grind, ?_⟩
        have := hfl.mono pf ((1 + ε) * capOf g.edge a b) (by grind)
        rw [hpffix] at this; exact this
      | some v =>
        rw [hv] at h1
        dsimp only at h1 ⊢
        obtain ⟨h3, h4, _⟩ := h.val a b v hv
        have h6 : v < capOf g.edge a b := by have := h2.2; unfold flowOf at this; rw [hv] at this; exact this
        have h7 := hfl.mono v (v + pf) (by grind)
        rw [h4] at h7
        refine ⟨by grind, hfl.idem _, h7, hfl.mono _ _ ?_⟩
        have h8 := (he (capOf g.edge a b - v) (by grind)).2
        have h9 : 0 ≤ ε * v := Rat.mul_nonneg he0 (by grind)
        grind
    have hflow : ∀ a b, flowOf f' a b = if (a, b) ∈ pairs path then addFl fl (s.flow.edge a b) pf else flowOf s.flow a b := by
      intro a b
      conv => lhs; unfold flowOf
      rw [hfe]
      split <;> rfl
    have hleft' : ∀ a b, leftFp fl g f' a b = if (a, b) ∈ pairs path then fl (capOf g.edge a b - addFl fl (s.flow.edge a b) pf)
        else leftFp fl g s.flow a b := by
      intro a b
      conv => lhs; unfold leftFp
      rw [hfe]
      by_cases hab : (a, b) ∈ pairs path
      · rw [if_pos hab, if_pos hab]
      · rw [if_neg hab, if_neg hab]; rfl
    have hmono : ∀ e, phaseFp fl g f' e ≤ phaseFp fl g s.flow e := by
      intro e
      unfold phaseFp
      rw [hleft', hflow]
      by_cases hab : (e.1, e.2.1) ∈ pairs path
      · rw [if_pos hab, if_pos hab, if_pos (hpos _ _ hab)]
        have := (hnew _ _ hab).2.2.1
        repeat' split
        all_goals first | omega | (exfalso; grind)
      · rw [if_neg hab, if_neg hab]; exact Nat.le_refl _
    have hdrop : measureFp fl g ⟨i', c', f', fl (s.unassigned - pf), fl (s.total + pf)⟩ < measureFp fl g s := by
      obtain ⟨e, hes, hee⟩ := List.mem_map.1 hmem
      rw [hleft e hes] at hee
      refine nat_sum_lt (y := e) (fun x _ => hmono x) ?_ ?_
      · have := hval e hes
        rw [show e = (e.1, e.2.1, e.2.2) from rfl, hg.mem_edgeList]; exact this
      · have hab := hpair e hes
        unfold phaseFp
        dsimp only
        rw [hleft', hflow, if_pos hab, if_pos hab, if_pos (hpos _ _ hab)]
        obtain ⟨hc0, hc1⟩ := hlc _ _ (hpos _ _ hab)
        cases hv : s.flow.edge e.1 e.2.1 with
        | none =>
          unfold leftFp at hee; rw [hv] at hee; dsimp only at hee
          show (if 0 < fl (capOf g.edge e.1 e.2.1 - pf) then _ else 0) < _
          rw [hee, show pf - pf = 0 by grind, hfl.zero, if_neg (by grind)]
          split <;> omega
        | some v =>
          unfold leftFp at hee; rw [hv] at hee; dsimp only at hee
          have hfv : flowOf s.flow e.1 e.2.1 = v := by unfold flowOf; rw [hv]; rfl
          rw [hfv] at hc1 ⊢
          obtain ⟨h3, h4, _⟩ := h.val _ _ v hv
          rw [show addFl fl (some v) pf = fl (v + pf) from rfl]
          by_cases hhalf : v < capOf g.edge e.1 e.2.1 / 2
          · rw [if_pos hhalf]
            have h5 := (he (capOf g.edge e.1 e.2.1 - v) (by grind)).1
            rw [hee] at h5
            have h6 := (he (v + pf) (by grind)).1
            have h7 : 0 ≤ (1 / 4 - ε) * (v + pf) := Rat.mul_nonneg (by grind) (by grind)
            have h8 : 0 ≤ (1 / 4 - ε) * (capOf g.edge e.1 e.2.1 - v) := Rat.mul_nonneg (by grind) (by grind)
            rw [if_neg (show ¬ fl (v + pf) < capOf g.edge e.1 e.2.1 / 2 by grind)]
            split <;> omega
          · rw [if_neg hhalf]
            have h5 := hst (capOf g.edge e.1 e.2.1) v (hcapfix _ _) h4 (by grind) (by grind)
            rw [hee] at h5
            rw [show v + pf = capOf g.edge e.1 e.2.1 by grind, hcapfix, show capOf g.edge e.1 e.2.1 - capOf g.edge e.1 e.2.1 = 0 by grind, hfl.zero,
              if_neg (by grind)]
            omega
    refine .inl ⟨_, rfl, ⟨L ++ [(path, pf)], hf1, hi1, ?_, ?_, ?_, ?_, ?_, ?_, ?_, ?_, ?_⟩, hdrop⟩
    · intro pq hpq
      rcases List.mem_append.1 hpq with hpq | hpq
      · exact h.paths pq hpq
      · rw [List.mem_singleton] at hpq; subst hpq
        refine ⟨hpf0, ⟨hcon.mono (fun a b hab => ?_), hw.1, hw.2.1⟩, hnd⟩
        obtain ⟨x, hx⟩ := Option.isSome_iff_exists.1 hab
        exact (hlc a b ((h.inv a b x).1 hx).1).1
    · intro a b
      show f'.edge a b = _
      rw [hfe, sentFl_snoc, pairs_eq_zip, h.flow a b]
      split
      · unfold addFl; cases sentFl fl L a b <;> rfl
      · rfl
    · show fl (s.total + pf) = _
      rw [flTotal_snoc, h.total]
    · show fl (s.unassigned - pf) = _
      rw [restFl_snoc, h.rest]
    · intro a b v hv
      have hv : f'.edge a b = some v := hv
      rw [hfe] at hv
      split at hv
      · rename_i hab; cases hv; have := hnew a b hab; exact ⟨this.1, this.2.1, this.2.2.2⟩
      · exact h.val a b v hv
    · intro a b
      show c'.edge a b = (f'.edge a b).map _
      rw [hce, hfe]
      split
      · rfl
      · exact h.cap a b
    · intro a b x
      show i'.edge a b = some x ↔ 0 < leftFp fl g f' a b ∧ x = fl (1 / leftFp fl g f' a b)
      rw [hie, hleft']
      by_cases hab : (a, b) ∈ pairs path
      · rw [if_pos hab, if_pos hab]
        by_cases h0 : 0 < fl (capOf g.edge a b - addFl fl (s.flow.edge a b) pf)
        · rw [if_pos h0]; simp only [Option.some.injEq, h0, true_and]; exact eq_comm
        · rw [if_neg h0]; simp only [h0, false_and, iff_false]; exact (fun h => nomatch h)
      · rw [if_neg hab, if_neg hab]; exact h.inv a b x
    · intro _; exact ⟨hih _ (h.ends hu).1, hih _ (h.ends hu).2⟩
    · have := h.count
      rw [List.length_append, List.length_singleton]; omega
  · dsimp only
    refine .inr ⟨_, rfl, h.post (.inr ?_)⟩
    intro hreach
    apply hno
    obtain ⟨p, hp⟩ := (reach_iff_walk).1 hreach
    have hp2 : WalkFT (fun a b => (s.inv.edge a b).isSome) start fin p := by
      refine ⟨hp.1.mono (fun a b hab => ?_), hp.2⟩
      obtain ⟨d, hd1, hd2⟩ := hab
      have hcd : capOf g.edge a b = d := by unfold capOf; rw [hd1]; rfl
      have hl : 0 < leftFp fl g s.flow a b := by
        unfold leftFp
        unfold flowOf at hd2
        cases hv : s.flow.edge a b with
        | none => rw [hv] at hd2; dsimp only; rw [hcd]; exact hd2
        | some v =>
          rw [hv] at hd2; dsimp only; rw [hcd]
          have hd2 : v < d := hd2
          exact fl_pos he (by grind) (by grind)
      rw [(h.inv a b _).2 ⟨hl, rfl⟩]; rfl
    obtain ⟨c, hc⟩ := hp2.walkOf
    obtain ⟨c', hc'⟩ := flWalk_of_avoid (fl := fl) (av := []) ⟨hc, by simp⟩
    exact ⟨p, c', hc'⟩

theorem mfBoundFp_ends {fl : Rat → Rat} {sum : List Rat → Rat} (hsum : SumLike sum) {g : Graph α Rat O} (h : g.Inv) (hc : NonNeg g.edge)
    {start fin : α} (hb : g.mfBoundFp sum start fin ≠ 0) : (g.mfInvertedFl fl).has start = true ∧ (g.mfInvertedFl fl).has fin = true := by
  have hinv : (g.mfInvertedFl fl).Inv := addEdges_inv inv_empty _
  have key : ∀ l : List (α × α × Rat), (∀ e ∈ l, g.edge e.1 e.2.1 = some e.2.2) → 0 ≤ sum (l.map (fun e => e.2.2)) ∧
      (sum (l.map (fun e => e.2.2)) ≠ 0 → ∃ e ∈ l, 0 < e.2.2) := by
    intro l hl
    have h0 : ∀ e ∈ l, 0 ≤ e.2.2 := fun e he => hc _ _ _ (hl e he)
    obtain ⟨h1, h2⟩ := hsum (l.map (fun e => e.2.2)) (by simpa using fun x a b hab => h0 _ hab)
    refine ⟨h1, fun h3 => ?_⟩
    by_cases hx : ∃ e ∈ l, 0 < e.2.2
    · exact hx
    · exfalso
      apply h3
      rw [h2]
      intro x hx'
      obtain ⟨e, he, rfl⟩ := List.mem_map.1 hx'
      have h4 := h0 e he
      have h5 : ¬ 0 < e.2.2 := fun h6 => hx ⟨e, he, h6⟩
      grind
  have hf : ∀ e ∈ g.edgesFrom start, e.1 = start ∧ g.edge e.1 e.2.1 = some e.2.2 := by
    rintro ⟨a, b, v⟩ he
    have := h.mem_edgesFrom.1 he
    exact ⟨this.1, by obtain ⟨rfl, h⟩ := this; exact h⟩
  have ht : ∀ e ∈ g.edgesTo fin, e.2.1 = fin ∧ g.edge e.1 e.2.1 = some e.2.2 := by
    rintro ⟨a, b, v⟩ he
    have := h.mem_edgesTo.1 he
    exact ⟨this.1, by obtain ⟨rfl, h⟩ := this; exact h⟩
  obtain ⟨h1, h2⟩ := key _ (fun e he => (hf e he).2)
  obtain ⟨h3, h4⟩ := key _ (fun e he => (ht e he).2)
  have hb2 : sum ((g.edgesFrom start).map (fun e => e.2.2)) ≠ 0 ∧ sum ((g.edgesTo fin).map (fun e => e.2.2)) ≠ 0 := by
    unfold mfBoundFp at hb
    dsimp only at hb
    split at hb <;> constructor <;> grind
  obtain ⟨e1, he1, hp1⟩ := h2 hb2.1
  obtain ⟨e2, he2, hp2⟩ := h4 hb2.2
  have hc1 : capOf g.edge e1.1 e1.2.1 = e1.2.2 := by unfold capOf; rw [(hf e1 he1).2]; rfl
  have hc2 : capOf g.edge e2.1 e2.2.1 = e2.2.2 := by unfold capOf; rw [(ht e2 he2).2]; rfl
  have m1 := hinv.edge_mem ((mfInvertedFl_edge (fl := fl) h e1.1 e1.2.1 _).2 ⟨by rw [hc1]; exact hp1, rfl⟩)
  have m2 := hinv.edge_mem ((mfInvertedFl_edge (fl := fl) h e2.1 e2.2.1 _).2 ⟨by rw [hc2]; exact hp2, rfl⟩)
  rw [(hf e1 he1).1] at m1
  rw [(ht e2 he2).1] at m2
  exact ⟨has_iff.2 m1.1, has_iff.2 m2.2⟩

theorem MfInvFp.init {fl : Rat → Rat} {ε : Rat} {sum : List Rat → Rat} (hsum : SumLike sum) {g : Graph α Rat O} (h : g.Inv) (hc : NonNeg g.edge) {start fin : α} :
    MfInvFp fl ε g start fin (g.mfBoundFp sum start fin) [] (⟨g.mfInvertedFl fl, Graph.empty, Graph.empty, g.mfBoundFp sum start fin, 0⟩ : MfSt α O) := by
  refine ⟨inv_empty, addEdges_inv inv_empty _, (fun _ hx => nomatch hx), fun _ _ => rfl, rfl, rfl, (fun a b v hv => nomatch hv), fun _ _ => rfl, ?_, ?_, ?_⟩
  · intro a b x
    exact mfInvertedFl_edge h a b x
  · intro hb; exact mfBoundFp_ends hsum h hc hb
  · show 0 + measureFp fl g _ ≤ _
    unfold measureFp
    rw [Nat.zero_add]
    generalize g.edgeList = l
    induction l with
    | nil => exact Nat.le_refl _
    | cons a l ih =>
      simp only [List.map_cons, List.sum_cons, List.length_cons]
      have : phaseFp fl g Graph.empty a ≤ 2 := by unfold phaseFp; repeat' split <;> try omega
      dsimp only at ih ⊢
      omega

theorem maximumFlowFp_main {fl : Rat → Rat} {ε : Rat} (hfl : Rounding fl) (he : RelErr fl ε) (hst : Sterbenz fl) (he0 : 0 ≤ ε) (he1 : ε ≤ 1 / 4)
    {sum : List Rat → Rat} (hsum : SumLike sum) {g : Graph α Rat O} (h : g.Inv) (hc : NonNeg g.edge)
    (hfix : ∀ a b d, g.edge a b = some d → fl d = d) {start fin : α} (hne : start ≠ fin)
    (hs : g.has start = true) (hf : g.has fin = true) :
    ∃ r, g.maximumFlowFp fl sum start fin = some r ∧ MfPostFp fl ε g start fin (g.mfBoundFp sum start fin) r := by
  unfold maximumFlowFp
  rw [if_neg (by simp [hs]), if_neg (by simp [hf])]
  refine pyWhileD_total (fun s => ∃ L, MfInvFp fl ε g start fin (g.mfBoundFp sum start fin) L s) (MfPostFp fl ε g start fin (g.mfBoundFp sum start fin))
    (· < ·) Nat.lt_wfRel.wf (measureFp fl g)
    (fun s ⟨L, hI⟩ => mfStepFp_inv hfl he hst he0 he1 h hfix hne hI) ⟨[], MfInvFp.init hsum h hc⟩

end GT

import Verif.Sp.Legs
import Verif.Graph.Misc
import Verif.Spec.Tour
import Verif.Sort
/-
Model of graph/tsp.py: `tsp_greedy`, `tsp_2023` (`solve_tsp`), `brute_force` and the improvement heuristics.
-/
namespace GT
variable {α O : Type} [DecidableEq α]

/-- `sys.maxsize` on 64-bit platforms -/
def maxsize : Rat := 9223372036854775807

/-- `itertools.combinations(l, 2)` -/
def combos : List α → List (α × α)
  | [] => []
  | x :: l => l.map (fun y => (x, y)) ++ combos l

/-- the order of the tuples `(distance, a, b)` -/
def tripleLt (nlt : α → α → Bool) (x y : Rat × α × α) : Bool :=
  decide (x.1 < y.1) || (decide (x.1 = y.1) && (nlt x.2.1 y.2.1 || (decide (x.2.1 = y.2.1) && nlt x.2.2 y.2.2)))

/-- the segment joined by `_join_endpoints` (tsp.py:127-132) -/
def joinSeg (sa sb : List α) (a b : α) : List α :=
  (if sa.getLast? = some a then sa else sa.reverse) ++ (if sb.head? = some b then sb else sb.reverse)

/-- `_join_endpoints` (tsp.py:120-136): the segment and the updated `endpoints`.  `sa`, `sb` are `endpoints[a]`, `endpoints[b]`.
Every list object is stored under its two ends only and both entries are replaced, hence values are exact.  `is not` is modelled as `!=`
(the objects all come from `graph.nodes()`). -/
def joinEndpoints (ep : Dict α (List α)) (sa sb : List α) (a b : α) : List α × Dict α (List α) :=
  let seg := joinSeg sa sb a b
  let ep := (ep.del a).del b
  match seg.head?, seg.getLast? with
  | some h, some t => (seg, (ep.set h seg).set t seg)
  | _, _ => (seg, ep)

/-- the loop of `_greedy` (tsp.py:146-150) -/
def greedyLoop (n : Nat) : List (Rat × α × α) → List α → Dict α (List α) → List α
  | [], seg, _ => seg
  | (_, a, b) :: l, seg, ep =>
    match ep.get? a, ep.get? b with
    | some sa, some sb =>
      if sa ≠ sb then
        let r := joinEndpoints ep sa sb a b
        if r.1.length = n then r.1 else greedyLoop n l r.1 r.2
      else greedyLoop n l seg ep
    | _, _ => greedyLoop n l seg ep

/-- the list `distances` (tsp.py:140-142), sorted -/
def greedyPairs (nlt : α → α → Bool) (g : Graph α Rat O) : List (Rat × α × α) :=
  pySort (tripleLt nlt) ((combos g.nodeList).filterMap (fun p => (truthy (g.edge p.1 p.2)).map (fun d => (d, p.1, p.2))))

/-- `_greedy` (tsp.py:139-154) -/
def greedyTour (nlt : α → α → Bool) (g : Graph α Rat O) : Py (List α) :=
  let seg := greedyLoop g.nodeList.length (greedyPairs nlt g) [] ⟨g.nodeList.map (fun n => (n, [n]))⟩
  if seg.length = g.nodeList.length then .ok seg else .error .valueError

/-- `tour[i - 1]` -/
def before (t : List α) (i : Nat) : Option α := t[if i = 0 then t.length - 1 else i - 1]?

/-- `tour[i:j]` -/
def slice (t : List α) (i j : Nat) : List α := (t.take j).drop i

/-- `tour[i:j] = reversed(tour[i:j])` -/
def reverseSlice (t : List α) (i j : Nat) : List α := t.take i ++ (slice t i j).reverse ++ t.drop j

/-- `reverse_segment_if_improvement` (tsp.py:201-210) and its result.  The indices used are in range. -/
def opt2Try (g : Graph α Rat O) (s : List α × Bool) (ij : Nat × Nat) : List α × Bool :=
  match before s.1 ij.1, s.1[ij.1]?, s.1[ij.2 - 1]?, s.1[ij.2 % s.1.length]? with
  | some a, some b, some c, some d =>
    match truthy (g.edge a b), truthy (g.edge c d), truthy (g.edge a c), truthy (g.edge b d) with
    | some ab, some cd, some ac, some bd =>
      if ab + cd > ac + bd then (reverseSlice s.1 ij.1 ij.2, true) else s
    | _, _, _, _ => s
  | _, _, _, _ => s

/-- the pairs `g` (tsp.py:217) -/
def opt2Pairs (n : Nat) : List (Nat × Nat) :=
  (List.range' 2 (n - 2)).reverse.flatMap (fun len => (List.range (n - len + 1)).reverse.map (fun i => (i, i + len)))

/-- local state of `_opt2`; `hist` lists the tours counted by `counter` -/
structure Opt2St (α : Type) where
  tour : List α
  p0 : List α
  d0 : Rat
  hist : List (List α)
  inc : Nat

/-- the body of `while True` (tsp.py:223-239).  `sum(graph.edge(a, b) for …)` is the expression of `Graph.distance`. -/
def opt2Step (g : Graph α Rat O) (s : Opt2St α) : Opt2St α ⊕ Py (List α) :=
  let r := (opt2Pairs s.tour.length).foldl (opt2Try g) (s.tour, false)
  match g.distance r.1 false with
  | .error e => .inr (.error e)
  | .ok d1 =>
    let p0 := if d1 < s.d0 then r.1 else s.p0
    let d0 := if d1 < s.d0 then d1 else s.d0
    if r.2 = false then .inr (.ok p0)
    else
      let hist := r.1 :: s.hist
      if (s.inc + 1) % 100 = 0 ∧ hist.any (fun t => decide (2 < hist.count t)) = true then .inr (.ok p0)
      else .inl ⟨r.1, p0, d0, hist, s.inc + 1⟩

/-- `_opt2` (tsp.py:198-240) -/
def opt2 (g : Graph α Rat O) (t : List α) : Option (Py (List α)) :=
  match g.distance t false with
  | .error e => some (.error e)
  | .ok d0 => pyWhile (opt2Step g) ⟨t, t, d0, [t], 0⟩

/-- `tsp_greedy` (tsp.py:95-114) -/
def tspGreedy (nlt : α → α → Bool) (g : Graph α Rat O) : Option (Py (Rat × List α)) :=
  match greedyTour nlt g with
  | .error e => some (.error e)
  | .ok t1 => match g.distance t1 false with
    | .error e => some (.error e)
    | .ok d1 => match opt2 g t1 with
      | none => none
      | some (.error e) => some (.error e)
      | some (.ok t2) => match g.distance t2 false with
        | .error e => some (.error e)
        | .ok d2 => some (.ok (if d1 ≥ d2 then (d2, t2) else (d1, t1)))

/-! ### the distance of a tour -/

theorem distance_tour {g : Graph α Rat O} {nodes t : List α} (hc : CompletePos g.edge nodes) (hnd : nodes.Nodup)
    (h2 : 2 ≤ nodes.length) (ht : t.Perm nodes) :
    g.distance t false = .ok (clen (totW g.edge) t) ∧ ∃ d, g.distance t true = .ok d := by
  have hl := ht.length_eq
  have htn : t.Nodup := ht.nodup_iff.2 hnd
  match t, hl, htn, ht with
  | [], hl, _, _ => simp at hl; omega
  | [_], hl, _, _ => simp at hl; omega
  | x :: y :: l, _, htn, ht =>
    have hw := tourLen_eq_clen hc hnd h2 ht
    have hcl := consec_closed (R := fun a b => g.edge a b = some (totW g.edge a b)) (U := fun z => z ∈ nodes) htn (fun z hz => ht.mem_iff.1 hz)
      (fun a b ha hb hab => (hc.totW ha hb hab).1)
    have h1 : walkCost g.edge (x :: y :: l) = some (plen (totW g.edge) (x :: y :: l)) :=
      walkCost_eq_plen (by simp) (consec_of_nodup (U := fun z => z ∈ nodes) htn (fun z hz => ht.mem_iff.1 hz)
        (fun a b ha hb hab => (hc.totW ha hb hab).1))
    have hm : (y :: l).getLast (by simp) ∈ y :: l := List.getLast_mem _
    have he := (hc.totW (a := (y :: l).getLast (by simp)) (b := x) (ht.mem_iff.1 (List.mem_cons_of_mem _ hm)) (ht.mem_iff.1 (by simp))
      (fun h => (List.nodup_cons.1 htn).1 (h ▸ hm))).1
    have hd := fun r => Graph.distance_eq g h1 (e := totW g.edge ((y :: l).getLast (by simp)) x) (by simpa using he) r
    refine ⟨?_, _, hd true⟩
    rw [hd false]
    simp only [Bool.false_eq_true, if_false, clen]
    congr 1
    obtain ⟨m, z, hmz⟩ : ∃ m z, x :: y :: l = m ++ [z] := ⟨_, _, (List.dropLast_concat_getLast (by simp)).symm⟩
    have hz : (x :: y :: l).getLast (by simp) = z := by simp only [hmz]; simp
    have hz' : (y :: l).getLast (by simp) = z := by rw [← hz]; simp
    rw [hz', hmz, List.append_assoc]
    have := plen_append2 (totW g.edge) m z x []
    simp only [List.singleton_append] at *
    rw [this]
    simp [plen]; grind

/-! ### `_greedy` -/

/-- `s` starts or ends with `x` -/
def EndOf (x : α) (s : List α) : Prop := s.head? = some x ∨ s.getLast? = some x

structure GreedyInv (nodes : List α) (segs : List (List α)) (ep : Dict α (List α)) : Prop where
  perm : segs.flatten.Perm nodes
  ne : ∀ s ∈ segs, s ≠ []
  wf : ep.WF
  get : ∀ x s, ep.get? x = some s ↔ s ∈ segs ∧ EndOf x s

omit [DecidableEq α] in
theorem EndOf.mem {x : α} {s : List α} (h : EndOf x s) : x ∈ s := by
  rcases h with h | h
  · exact List.mem_of_mem_head? h
  · exact List.mem_of_getLast? h

theorem perm_two {β : Type} [DecidableEq β] {l : List β} {a b : β} (ha : a ∈ l) (hb : b ∈ l) (hab : a ≠ b) :
    l.Perm (a :: b :: (l.erase a).erase b) := by
  refine (List.perm_cons_erase ha).trans (.cons a (List.perm_cons_erase ?_))
  exact (List.mem_erase_of_ne (Ne.symm hab)).2 hb

omit [DecidableEq α] in
theorem joinSeg_ends [DecidableEq α] {sa sb : List α} {a b : α} (ha : EndOf a sa) (hb : EndOf b sb) :
    ∃ sa' sb', joinSeg sa sb a b = sa' ++ sb' ∧ sa'.Perm sa ∧ sb'.Perm sb ∧ sa'.getLast? = some a ∧ sb'.head? = some b ∧
      (∀ x, EndOf x sa' ↔ EndOf x sa) ∧ (∀ x, EndOf x sb' ↔ EndOf x sb) := by
  have hrev : ∀ (s : List α) x, EndOf x s.reverse ↔ EndOf x s := by
    intro s x; unfold EndOf; rw [List.head?_reverse, List.getLast?_reverse]; exact Or.comm
  refine ⟨_, _, rfl, ?_, ?_, ?_, ?_, ?_, ?_⟩
  · split <;> simp [List.reverse_perm]
  · split <;> simp [List.reverse_perm]
  · split
    · assumption
    · rename_i h; rw [List.getLast?_reverse]; exact ha.resolve_right h
  · split
    · assumption
    · rename_i h; rw [List.head?_reverse]; exact hb.resolve_left h
  · intro x; split <;> simp [hrev]
  · intro x; split <;> simp [hrev]

theorem GreedyInv.join {nodes : List α} {segs : List (List α)} {ep : Dict α (List α)} (hn : nodes.Nodup) (h : GreedyInv nodes segs ep)
    {a b : α} {sa sb : List α} (hsa : ep.get? a = some sa) (hsb : ep.get? b = some sb) (hab : sa ≠ sb) :
    ∃ segs', GreedyInv nodes segs' (joinEndpoints ep sa sb a b).2 ∧ (joinEndpoints ep sa sb a b).1 ∈ segs' ∧
      segs'.length + 1 = segs.length ∧
      (∀ x y s t, s ∈ segs' → t ∈ segs' → s ≠ t → EndOf x s → EndOf y t → ∃ s' ∈ segs, ∃ t' ∈ segs, s' ≠ t' ∧ EndOf x s' ∧ EndOf y t') := by
  obtain ⟨ha1, ha2⟩ := (h.get a sa).1 hsa
  obtain ⟨hb1, hb2⟩ := (h.get b sb).1 hsb
  obtain ⟨rest, hp⟩ : ∃ rest, segs.Perm (sa :: sb :: rest) := ⟨_, perm_two ha1 hb1 hab⟩
  obtain ⟨sa', sb', hj, hpa, hpb, hla, hhb, hea, heb⟩ := joinSeg_ends ha2 hb2
  have hflat : (sa ++ sb ++ rest.flatten).Perm nodes := by
    refine List.Perm.trans ?_ h.perm
    refine List.Perm.trans ?_ (List.Perm.flatten hp).symm
    simp [List.flatten_cons]
  have hnd : (sa ++ sb ++ rest.flatten).Nodup := hflat.nodup_iff.2 hn
  rw [List.nodup_append, List.nodup_append] at hnd
  obtain ⟨⟨_, _, hd1⟩, _, hd2⟩ := hnd
  -- the ends of the new segment
  have hsa'ne : sa' ≠ [] := by intro h0; rw [h0] at hla; simp at hla
  have hsb'ne : sb' ≠ [] := by intro h0; rw [h0] at hhb; simp at hhb
  obtain ⟨p, hp'⟩ : ∃ p, sa'.head? = some p := by cases sa' with
    | nil => exact absurd rfl hsa'ne
    | cons x l => exact ⟨x, rfl⟩
  obtain ⟨q, hq'⟩ : ∃ q, sb'.getLast? = some q := ⟨sb'.getLast hsb'ne, List.getLast?_eq_some_getLast hsb'ne⟩
  have hhead : (sa' ++ sb').head? = some p := by rw [List.head?_append, hp']; rfl
  have hlast : (sa' ++ sb').getLast? = some q := by rw [List.getLast?_append, hq']; rfl
  have hep : joinEndpoints ep sa sb a b = (sa' ++ sb', (((ep.del a).del b).set p (sa' ++ sb')).set q (sa' ++ sb')) := by
    unfold joinEndpoints
    rw [hj]; dsimp only; rw [hhead, hlast]
  have hendsNew : ∀ x, EndOf x (sa' ++ sb') ↔ x = p ∨ x = q := by
    intro x; unfold EndOf; rw [hhead, hlast]; simp [eq_comm]
  have hendsA : ∀ x, EndOf x sa ↔ x = p ∨ x = a := by
    intro x; rw [← hea]; unfold EndOf; rw [hp', hla]; simp [eq_comm]
  have hendsB : ∀ x, EndOf x sb ↔ x = b ∨ x = q := by
    intro x; rw [← heb]; unfold EndOf; rw [hhb, hq']; simp [eq_comm]
  have hmem : ∀ s, s ∈ segs ↔ s = sa ∨ s = sb ∨ s ∈ rest := by intro s; rw [hp.mem_iff]; simp
  have hpm : p ∈ sa := ((hendsA p).2 (.inl rfl)).mem
  have hqm : q ∈ sb := ((hendsB q).2 (.inr rfl)).mem
  have ham : a ∈ sa := ha2.mem
  have hbm : b ∈ sb := hb2.mem
  have hrestA : ∀ s ∈ rest, ∀ x, x ∈ sa ∨ x ∈ sb → ¬ EndOf x s := by
    intro s hs x hx he
    refine hd2 x (List.mem_append.2 hx) x (List.mem_flatten.2 ⟨s, hs, he.mem⟩) rfl
  have hwf2 : ((ep.del a).del b).WF := (h.wf.del a).del b
  rw [hep]
  dsimp only
  refine ⟨(sa' ++ sb') :: rest, ⟨?_, ?_, ?_, ?_⟩, by simp, ?_, ?_⟩
  · refine List.Perm.trans ?_ hflat
    rw [List.flatten_cons]
    exact (hpa.append hpb).append_right _
  · intro s hs
    rcases List.mem_cons.1 hs with rfl | hs
    · simp [hsa'ne]
    · exact h.ne s ((hmem s).2 (.inr (.inr hs)))
  · exact (hwf2.set _ _).set _ _
  · intro x s
    rw [Dict.get?_set, Dict.get?_set, Dict.get?_del (h.wf.del a), Dict.get?_del h.wf]
    by_cases hq : q = x
    · rw [if_pos hq]
      constructor
      · intro he; cases he; exact ⟨by simp, (hendsNew x).2 (.inr hq.symm)⟩
      · rintro ⟨h1, h2⟩
        rcases List.mem_cons.1 h1 with rfl | h1
        · rfl
        · exact absurd h2 (hrestA s h1 x (.inr (hq ▸ hqm)))
    · rw [if_neg hq]
      by_cases hpx : p = x
      · rw [if_pos hpx]
        constructor
        · intro he; cases he; exact ⟨by simp, (hendsNew x).2 (.inl hpx.symm)⟩
        · rintro ⟨h1, h2⟩
          rcases List.mem_cons.1 h1 with rfl | h1
          · rfl
          · exact absurd h2 (hrestA s h1 x (.inl (hpx ▸ hpm)))
      · rw [if_neg hpx]
        have hnew : ¬ EndOf x (sa' ++ sb') := by
          rw [hendsNew]; rintro (h0 | h0)
          · exact hpx h0.symm
          · exact hq h0.symm
        by_cases hbx : b = x
        · rw [if_pos hbx]
          constructor
          · intro he; cases he
          · rintro ⟨h1, h2⟩
            rcases List.mem_cons.1 h1 with rfl | h1
            · exact absurd h2 hnew
            · exact absurd h2 (hrestA s h1 x (.inr (hbx ▸ hbm)))
        · rw [if_neg hbx]
          by_cases hax : a = x
          · rw [if_pos hax]
            constructor
            · intro he; cases he
            · rintro ⟨h1, h2⟩
              rcases List.mem_cons.1 h1 with rfl | h1
              · exact absurd h2 hnew
              · exact absurd h2 (hrestA s h1 x (.inl (hax ▸ ham)))
          · rw [if_neg hax, h.get, hmem]
            constructor
            · rintro ⟨h1 | h1 | h1, h2⟩
              · subst h1
                rcases (hendsA x).1 h2 with h0 | h0
                · exact absurd h0.symm hpx
                · exact absurd h0.symm hax
              · subst h1
                rcases (hendsB x).1 h2 with h0 | h0
                · exact absurd h0.symm hbx
                · exact absurd h0.symm hq
              · exact ⟨List.mem_cons_of_mem _ h1, h2⟩
            · rintro ⟨h1, h2⟩
              rcases List.mem_cons.1 h1 with rfl | h1
              · exact absurd h2 hnew
              · exact ⟨.inr (.inr h1), h2⟩
  · rw [hp.length_eq]; simp
  · -- ends of different segments were ends of different segments before
    have hold : ∀ x s, s ∈ (sa' ++ sb') :: rest → EndOf x s → ∃ s' ∈ segs, EndOf x s' ∧ (s ∈ rest → s' = s) ∧
        (s = sa' ++ sb' → s ∉ rest → s' = sa ∨ s' = sb) := by
      intro x s hs he
      by_cases hr : s ∈ rest
      · exact ⟨s, (hmem s).2 (.inr (.inr hr)), he, fun _ => rfl, fun _ h0 => absurd hr h0⟩
      · have hs' : s = sa' ++ sb' := (List.mem_cons.1 hs).resolve_right hr
        subst hs'
        rcases (hendsNew x).1 he with h0 | h0
        · exact ⟨sa, ha1, (hendsA x).2 (.inl h0), fun h1 => absurd h1 hr, fun _ _ => .inl rfl⟩
        · exact ⟨sb, hb1, (hendsB x).2 (.inr h0), fun h1 => absurd h1 hr, fun _ _ => .inr rfl⟩
    have hnotrest : ∀ s ∈ rest, s ≠ sa ∧ s ≠ sb := by
      intro s hs
      constructor
      · intro h0; subst h0
        exact hrestA s hs a (.inl ham) ha2
      · intro h0; subst h0
        exact hrestA s hs b (.inr hbm) hb2
    intro x y s t hs ht hst hx hy
    obtain ⟨s', h1, h2, h3, h4⟩ := hold x s hs hx
    obtain ⟨t', h5, h6, h7, h8⟩ := hold y t ht hy
    refine ⟨s', h1, t', h5, ?_, h2, h6⟩
    by_cases hsr : s ∈ rest
    · by_cases htr : t ∈ rest
      · rw [h3 hsr, h7 htr]; exact hst
      · have := h8 ((List.mem_cons.1 ht).resolve_right htr) htr
        rw [h3 hsr]
        rcases this with h0 | h0 <;> rw [h0]
        · exact (hnotrest s hsr).1
        · exact (hnotrest s hsr).2
    · by_cases htr : t ∈ rest
      · have := h4 ((List.mem_cons.1 hs).resolve_right hsr) hsr
        rw [h7 htr]
        rcases this with h0 | h0 <;> rw [h0]
        · exact Ne.symm (hnotrest t htr).1
        · exact Ne.symm (hnotrest t htr).2
      · exact absurd (((List.mem_cons.1 hs).resolve_right hsr).trans ((List.mem_cons.1 ht).resolve_right htr).symm) hst

theorem GreedyInv.full {nodes : List α} {segs : List (List α)} {ep : Dict α (List α)} (h : GreedyInv nodes segs ep) {s : List α}
    (hs : s ∈ segs) (hl : s.length = nodes.length) : s.Perm nodes := by
  have hp := List.perm_cons_erase hs
  have h1 : (s ++ (segs.erase s).flatten).Perm nodes := by
    have := (List.Perm.flatten hp).symm.trans h.perm
    simpa using this
  have h2 := h1.length_eq
  rw [List.length_append] at h2
  have h3 : (segs.erase s).flatten = [] := List.eq_nil_of_length_eq_zero (by omega)
  rw [h3] at h1
  simpa using h1

/-- no two processed nodes end different segments -/
def Handled (segs : List (List α)) (a b : α) : Prop :=
  ∀ s ∈ segs, ∀ t ∈ segs, s ≠ t → EndOf a s → EndOf b t → False

theorem greedyLoop_spec {nodes : List α} (hn : nodes.Nodup) (l : List (Rat × α × α)) : ∀ seg segs ep (D : α → α → Prop),
    GreedyInv nodes segs ep → (seg ∈ segs ∨ seg = []) → (seg = [] → segs.length = nodes.length) →
    (∀ a b, D a b → Handled segs a b) →
    ((greedyLoop nodes.length l seg ep).length = nodes.length → (greedyLoop nodes.length l seg ep).Perm nodes) ∧
    ((∀ a ∈ nodes, ∀ b ∈ nodes, a ≠ b → D a b ∨ D b a ∨ ∃ v, (v, a, b) ∈ l ∨ (v, b, a) ∈ l) → 2 ≤ nodes.length →
      (greedyLoop nodes.length l seg ep).Perm nodes) := by
  induction l with
  | nil =>
    intro seg segs ep D hI hseg hseg0 hD
    simp only [greedyLoop]
    refine ⟨fun hl => ?_, fun hall h2 => ?_⟩
    · rcases hseg with hs | rfl
      · exact hI.full hs hl
      · simp only [List.length_nil] at hl
        rw [List.eq_nil_of_length_eq_zero hl.symm]
    · -- at most one segment
      have hlen : segs.length ≤ 1 := by
        match hsg : segs with
        | [] => simp
        | [_] => simp
        | s :: t :: rest =>
          exfalso
          have hsne := hI.ne s (by simp)
          have htne := hI.ne t (by simp)
          obtain ⟨a, s', rfl⟩ := List.exists_cons_of_ne_nil hsne
          obtain ⟨b, t', rfl⟩ := List.exists_cons_of_ne_nil htne
          have hnd : (((a :: s') :: (b :: t') :: rest).flatten).Nodup := hI.perm.nodup_iff.2 hn
          have hab : a ≠ b := by
            intro h0; subst h0
            simp [List.flatten_cons] at hnd
          have hst : a :: s' ≠ b :: t' := fun h0 => hab (List.cons.inj h0).1
          have ha : a ∈ nodes := hI.perm.mem_iff.1 (by simp)
          have hb : b ∈ nodes := hI.perm.mem_iff.1 (by simp [List.flatten_cons])
          rcases hall a ha b hb hab with h0 | h0 | ⟨v, h0 | h0⟩
          · exact hD a b h0 _ (by simp) _ (by simp) hst (.inl rfl) (.inl rfl)
          · exact hD b a h0 _ (by simp) _ (by simp) (Ne.symm hst) (.inl rfl) (.inl rfl)
          · simp at h0
          · simp at h0
      have hs : seg ∈ segs := by
        rcases hseg with hs | hs
        · exact hs
        · have := hseg0 hs; omega
      refine hI.full hs ?_
      match hsg : segs with
      | [] => simp at hs
      | [s] =>
        simp at hs; subst hs
        have := hI.perm.length_eq
        simpa using this
      | _ :: _ :: _ => simp at hlen
  | cons e l ih =>
    obtain ⟨v, a, b⟩ := e
    intro seg segs ep D hI hseg hseg0 hD
    -- skipping the pair
    have hskip : Handled segs a b → _ := fun hH => ih seg segs ep (fun x y => D x y ∨ (x = a ∧ y = b)) hI hseg hseg0 (by
      rintro x y (h0 | ⟨rfl, rfl⟩)
      · exact hD x y h0
      · exact hH)
    have hcov : ∀ {P : α → α → Prop}, (∀ x ∈ nodes, ∀ y ∈ nodes, x ≠ y → P x y ∨ P y x ∨ ∃ v', (v', x, y) ∈ (v, a, b) :: l ∨ (v', y, x) ∈ (v, a, b) :: l) →
        (∀ x ∈ nodes, ∀ y ∈ nodes, x ≠ y → (P x y ∨ (x = a ∧ y = b)) ∨ (P y x ∨ (y = a ∧ x = b)) ∨ ∃ v', (v', x, y) ∈ l ∨ (v', y, x) ∈ l) := by
      intro P h x hx y hy hxy
      rcases h x hx y hy hxy with h0 | h0 | ⟨v', h0 | h0⟩
      · exact .inl (.inl h0)
      · exact .inr (.inl (.inl h0))
      · rcases List.mem_cons.1 h0 with h0 | h0
        · cases h0; exact .inl (.inr ⟨rfl, rfl⟩)
        · exact .inr (.inr ⟨v', .inl h0⟩)
      · rcases List.mem_cons.1 h0 with h0 | h0
        · cases h0; exact .inr (.inl (.inr ⟨rfl, rfl⟩))
        · exact .inr (.inr ⟨v', .inr h0⟩)
    unfold greedyLoop
    split
    · rename_i sa sb hsa hsb
      split
      · rename_i hne
        obtain ⟨segs', hI', hmem, hlen, hmono⟩ := hI.join hn hsa hsb hne
        dsimp only
        have hne' : (joinEndpoints ep sa sb a b).1 ≠ [] := hI'.ne _ hmem
        split
        · rename_i hl
          exact ⟨fun _ => hI'.full hmem hl, fun _ _ => hI'.full hmem hl⟩
        · have hH : Handled segs' a b := by
            intro s hs t ht hst ha hb
            -- if both are still ends, they end the joined segment
            obtain ⟨ha1, ha2⟩ := (hI.get a sa).1 hsa
            obtain ⟨hb1, hb2⟩ := (hI.get b sb).1 hsb
            have hga := (hI'.get a s).2 ⟨hs, ha⟩
            have hgb := (hI'.get b t).2 ⟨ht, hb⟩
            obtain ⟨sa', sb', hj, hpa, hpb, hla, hhb, hea, heb⟩ := joinSeg_ends ha2 hb2
            -- `a` and `b` both occur in the new segment, and segments are disjoint
            have hin : a ∈ (joinEndpoints ep sa sb a b).1 ∧ b ∈ (joinEndpoints ep sa sb a b).1 := by
              have h1 : (joinEndpoints ep sa sb a b).1 = sa' ++ sb' := by
                unfold joinEndpoints; rw [hj]; dsimp only; split <;> rfl
              rw [h1]
              exact ⟨List.mem_append_left _ (List.mem_of_getLast? hla), List.mem_append_right _ (List.mem_of_mem_head? hhb)⟩
            have huniq : ∀ x s1 s2, s1 ∈ segs' → s2 ∈ segs' → x ∈ s1 → x ∈ s2 → s1 = s2 := by
              intro x s1 s2 h1 h2 h3 h4
              by_cases h0 : s1 = s2
              · exact h0
              · exfalso
                have hp := perm_two h1 h2 h0
                have hnd : segs'.flatten.Nodup := hI'.perm.nodup_iff.2 hn
                have hnd := (List.Perm.flatten hp).nodup_iff.1 hnd
                simp only [List.flatten_cons] at hnd
                rw [List.nodup_append] at hnd
                exact hnd.2.2 x h3 x (List.mem_append_left _ h4) rfl
            have e1 := huniq a s _ hs hmem ha.mem hin.1
            have e2 := huniq b t _ ht hmem hb.mem hin.2
            exact hst (e1.trans e2.symm)
          have := ih (joinEndpoints ep sa sb a b).1 segs' (joinEndpoints ep sa sb a b).2 (fun x y => D x y ∨ (x = a ∧ y = b)) hI' (.inl hmem)
            (fun h0 => absurd h0 hne') (by
              rintro x y (h0 | ⟨rfl, rfl⟩)
              · intro s hs t ht hst hx hy
                obtain ⟨s', h1, t', h2, h3, h4, h5⟩ := hmono x y s t hs ht hst hx hy
                exact hD x y h0 s' h1 t' h2 h3 h4 h5
              · exact hH)
          exact ⟨this.1, fun h1 h2 => this.2 (hcov h1) h2⟩
      · rename_i heq
        have heq : sa = sb := Classical.byContradiction (fun h => heq h)
        have := hskip (by
          intro s hs t ht hst ha hb
          have h1 := (hI.get a s).2 ⟨hs, ha⟩
          have h2 := (hI.get b t).2 ⟨ht, hb⟩
          rw [hsa] at h1; rw [hsb] at h2
          cases h1; cases h2; exact hst heq)
        exact ⟨this.1, fun h1 h2 => this.2 (hcov h1) h2⟩
    · rename_i hnone
      have := hskip (by
        intro s hs t ht hst ha hb
        exact hnone s t ((hI.get a s).2 ⟨hs, ha⟩) ((hI.get b t).2 ⟨ht, hb⟩))
      exact ⟨this.1, fun h1 h2 => this.2 (hcov h1) h2⟩

theorem greedyInv_init {nodes : List α} (hn : nodes.Nodup) :
    GreedyInv nodes (nodes.map (fun n => [n])) ⟨nodes.map (fun n => (n, [n]))⟩ := by
  have hwf : (⟨nodes.map (fun n => (n, [n]))⟩ : Dict α (List α)).WF := by
    unfold Dict.WF Dict.keys
    rw [List.map_map]; simpa [Function.comp_def] using hn
  refine ⟨?_, ?_, hwf, ?_⟩
  · have : (nodes.map (fun n => [n])).flatten = nodes := by
      rw [← List.flatMap_def]; simp
    rw [this]
  · intro s hs
    obtain ⟨n, _, rfl⟩ := List.mem_map.1 hs
    simp
  · intro x s
    rw [Dict.get?_eq_some_iff hwf]
    simp only [List.mem_map, Prod.mk.injEq]
    constructor
    · rintro ⟨n, h1, rfl, rfl⟩; exact ⟨⟨n, h1, rfl⟩, .inl rfl⟩
    · rintro ⟨⟨n, h1, rfl⟩, h2⟩
      have : n = x := by rcases h2 with h2 | h2 <;> simpa using h2
      exact ⟨n, h1, this, by rw [this]⟩

theorem mem_combos {l : List α} (hn : l.Nodup) {a b : α} (ha : a ∈ l) (hb : b ∈ l) (hab : a ≠ b) :
    (a, b) ∈ combos l ∨ (b, a) ∈ combos l := by
  induction l with
  | nil => simp at ha
  | cons x l ih =>
    rw [List.nodup_cons] at hn
    simp only [combos, List.mem_append, List.mem_map, Prod.mk.injEq]
    rcases List.mem_cons.1 ha with ha | ha
    · rcases List.mem_cons.1 hb with hb | hb
      · exact absurd (ha.trans hb.symm) hab
      · exact .inl (.inl ⟨b, hb, ha.symm, rfl⟩)
    · rcases List.mem_cons.1 hb with hb | hb
      · exact .inr (.inl ⟨a, ha, hb.symm, rfl⟩)
      · rcases ih hn.2 ha hb with h | h
        · exact .inl (.inr h)
        · exact .inr (.inr h)

theorem truthy_of_pos {v : Rat} (h : 0 < v) : truthy (some v) = some v := by
  unfold truthy
  dsimp only
  rw [if_neg]
  intro h0; rw [h0] at h; exact absurd h (by decide)

/-- whatever the graph: a permutation of the nodes, or `ValueError` -/
theorem greedyTour_sound {nlt : α → α → Bool} {g : Graph α Rat O} (h : g.Inv) :
    (∃ t, greedyTour nlt g = .ok t ∧ t.Perm g.nodeList) ∨ greedyTour nlt g = .error .valueError := by
  have hn : g.nodeList.Nodup := h.nodesWF
  have hs := (greedyLoop_spec hn (greedyPairs nlt g) [] _ _ (fun _ _ => False) (greedyInv_init hn) (.inr rfl)
    (fun _ => by simp) (fun _ _ h0 => h0.elim)).1
  unfold greedyTour
  dsimp only
  split
  · rename_i hl; exact .inl ⟨_, rfl, hs hl⟩
  · exact .inr rfl

theorem greedyTour_complete {nlt : α → α → Bool} {g : Graph α Rat O} (h : g.Inv) (hc : CompletePos g.edge g.nodeList)
    (h2 : 2 ≤ g.nodeList.length) : ∃ t, greedyTour nlt g = .ok t ∧ t.Perm g.nodeList := by
  have hn : g.nodeList.Nodup := h.nodesWF
  have hs := (greedyLoop_spec hn (greedyPairs nlt g) [] _ _ (fun _ _ => False) (greedyInv_init hn) (.inr rfl)
    (fun _ => by simp) (fun _ _ h0 => h0.elim)).2 (by
      intro a ha b hb hab
      refine .inr (.inr ?_)
      have hmem : ∀ a b, (a, b) ∈ combos g.nodeList → a ∈ g.nodeList → b ∈ g.nodeList → a ≠ b → ∃ v, (v, a, b) ∈ greedyPairs nlt g := by
        intro a b hab' ha hb hne
        obtain ⟨v, h1, h2⟩ := hc a ha b hb hne
        refine ⟨v, ?_⟩
        unfold greedyPairs
        rw [mem_pySort, List.mem_filterMap]
        exact ⟨(a, b), hab', by simp [h1, truthy_of_pos h2]⟩
      rcases mem_combos hn ha hb hab with h0 | h0
      · obtain ⟨v, hv⟩ := hmem a b h0 ha hb hab; exact ⟨v, .inl hv⟩
      · obtain ⟨v, hv⟩ := hmem b a h0 hb ha (Ne.symm hab); exact ⟨v, .inr hv⟩) h2
  unfold greedyTour
  dsimp only
  rw [if_pos hs.length_eq]
  exact ⟨_, rfl, hs⟩

end GT

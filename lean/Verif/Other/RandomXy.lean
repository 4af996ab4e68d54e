import Verif.Graph.FuncLemmas
import Verif.Graph.Misc
/-
Model of `random_xy_graph` (graph/random.py:16-91).
-/
namespace GT
open Graph
variable {V : Type}

/-- a node: a pair of integers -/
abbrev XY := Int × Int

/-- the random numbers: `rnd t` is the `t`-th pair of `randint(1, x_max), randint(1, y_max)`, the others are the shuffles -/
structure XyRandom where
  rnd : Nat → XY
  shX : List Int → List Int
  shY : List Int → List Int
  shN1 : List XY → List XY
  shN2 : List XY → List XY

/-- the locals of step 1 -/
structure XySt (V : Type) where
  t : Nat
  g : Graph XY V Unit
  space : List XY
  count : Int

/-- one iteration of the random search (random.py:42-52).  `randint` of an empty range raises `ValueError`;
`len(xy_space) > (x_max * y_max) / 2` is `2 * len(xy_space) > x_max * y_max` -/
def xyStep (R : XyRandom) (nodes xmax ymax : Int) (s : XySt V) : XySt V ⊕ Py (XySt V) :=
  if s.count < nodes then
    if xmax < 1 ∨ ymax < 1 then .inr (.error .valueError)
    else
      let xy := R.rnd s.t
      if xy ∉ s.space then .inl ⟨s.t + 1, s.g.addNode xy none, s.space ++ [xy], s.count + 1⟩
      else if 2 * (s.space.length : Int) > xmax * ymax then .inr (.ok s)
      else .inl { s with t := s.t + 1 }
  else .inr (.ok s)

/-- the loop over `y_range` (random.py:63-73); the flag is `quit` -/
def xyRow (nodes x : Int) : List Int → XySt V → XySt V × Bool
  | [], s => (s, false)
  | y :: l, s =>
    if (x, y) ∈ s.space then xyRow nodes x l s
    else
      let s' : XySt V := ⟨s.t, s.g.addNode (x, y) none, s.space ++ [(x, y)], s.count + 1⟩
      if (s'.space.length : Int) = nodes then (s', true) else xyRow nodes x l s'

/-- the loop over `x_range` (random.py:60-73) -/
def xyRows (nodes : Int) (ys : List Int) : List Int → XySt V → XySt V
  | [], s => s
  | x :: l, s => match xyRow nodes x ys s with
    | (s', true) => s'
    | (s', false) => xyRows nodes ys l s'

/-- `range(1, m + 1)` -/
def range1 (m : Int) : List Int := (List.range m.toNat).map (fun (i : Nat) => (i : Int) + 1)

/-- the edge loop (random.py:80-86) over `product(n1s, n2s)` -/
def xyEdges (dist : XY → XY → V) (edges : Int) : List (XY × XY) → Int → Graph XY V Unit → Graph XY V Unit
  | [], _, g => g
  | (a, b) :: l, k, g => if k = edges then g else xyEdges dist edges l (k + 1) (g.addEdge a b (dist a b))

/-- `random_xy_graph(nodes, x_max, y_max, edges)` (random.py:16-91); `dist` is `xy_distance` (random.py:7-12) -/
def randomXyGraph (R : XyRandom) (dist : XY → XY → V) (nodes xmax ymax : Int) (edges : Option Int) : Option (Py (Graph XY V Unit)) :=
  if xmax * ymax < nodes then some (.error .valueError)
  else
    let edges := edges.getD (nodes * nodes)
    if nodes * nodes < edges then some (.error .valueError)
    else match pyWhile (xyStep R nodes xmax ymax) ⟨0, Graph.empty, [], 0⟩ with
      | none => none
      | some (.error e) => some (.error e)
      | some (.ok s) =>
        let s := if (s.g.nodeList.length : Int) < nodes then xyRows nodes (R.shY (range1 ymax)) (R.shX (range1 xmax)) s else s
        let n1s := R.shN1 s.g.nodeList
        let n2s := R.shN2 n1s
        some (.ok (xyEdges dist edges (n1s.flatMap (fun a => n2s.map (fun b => (a, b)))) 0 s.g))

/-! ### proofs -/

/-- the pairs in the frame -/
def InFrame (xmax ymax : Int) (p : XY) : Prop := 1 ≤ p.1 ∧ p.1 ≤ xmax ∧ 1 ≤ p.2 ∧ p.2 ≤ ymax

/-- random numbers as documented -/
structure XyRandom.Ok (R : XyRandom) (xmax ymax : Int) : Prop where
  frame : 1 ≤ xmax → 1 ≤ ymax → ∀ t, InFrame xmax ymax (R.rnd t)
  x : ∀ l, (R.shX l).Perm l
  y : ∀ l, (R.shY l).Perm l
  n1 : ∀ l, (R.shN1 l).Perm l
  n2 : ∀ l, (R.shN2 l).Perm l

structure XyInv (nodes xmax ymax : Int) (s : XySt V) : Prop where
  inv : s.g.Inv
  keys : s.g.nodeList = s.space
  nd : s.space.Nodup
  count : s.count = s.space.length
  frame : ∀ p ∈ s.space, InFrame xmax ymax p
  edges : ∀ a b, s.g.edge a b = none
  le : 0 ≤ nodes → s.count ≤ nodes

theorem XyInv.add {nodes xmax ymax : Int} {s : XySt V} (h : XyInv nodes xmax ymax s) {xy : XY} (hf : InFrame xmax ymax xy) (hn : xy ∉ s.space)
    (hc : s.count < nodes) (t : Nat) : XyInv nodes xmax ymax (⟨t, s.g.addNode xy none, s.space ++ [xy], s.count + 1⟩ : XySt V) where
  inv := h.inv.addNode _ _
  keys := by
    show (s.g.addNode xy none).nodes.keys = _
    rw [addNode_nodes, Dict.keys_set_of_not_mem _ (by show xy ∉ s.g.nodeList; rw [h.keys]; exact hn)]
    show s.g.nodeList ++ [xy] = _
    rw [h.keys]
  nd := by
    rw [List.nodup_append]
    exact ⟨h.nd, by simp, fun a ha b hb he => by simp at hb; subst hb; subst he; exact hn ha⟩
  count := by have := h.count; simp; omega
  frame := fun p hp => by
    rcases List.mem_append.1 hp with hp | hp
    · exact h.frame p hp
    · simp at hp; subst hp; exact hf
  edges := fun a b => by
    have := h.edges a b
    unfold edge at this ⊢
    rw [addNode_edges]; exact this
  le := fun _ => by dsimp only; omega

/-- step 1 keeps the invariant -/
theorem XyInv.step {R : XyRandom} {nodes xmax ymax : Int} (hR : R.Ok xmax ymax) {s : XySt V} (h : XyInv nodes xmax ymax s) :
    (∀ s', xyStep R nodes xmax ymax s = .inl s' → XyInv nodes xmax ymax s') ∧
    (∀ r, xyStep R nodes xmax ymax s = .inr r → r = .ok s ∨ r = .error .valueError ∧ (xmax < 1 ∨ ymax < 1)) := by
  unfold xyStep
  split
  · rename_i hc
    split
    · rename_i hm
      exact ⟨(fun _ h => nomatch h), fun r hr => by cases hr; exact .inr ⟨rfl, hm⟩⟩
    · rename_i hm
      dsimp only
      split
      · rename_i hn
        exact ⟨fun s' hs => by cases hs; exact h.add (hR.frame (by omega) (by omega) _) hn hc _, (fun _ h => nomatch h)⟩
      · split
        · exact ⟨(fun _ h => nomatch h), fun r hr => by cases hr; exact .inl rfl⟩
        · refine ⟨fun s' hs => ?_, (fun _ h => nomatch h)⟩
          cases hs
          exact ⟨h.inv, h.keys, h.nd, h.count, h.frame, h.edges, h.le⟩
  · exact ⟨(fun _ h => nomatch h), fun r hr => by cases hr; exact .inl rfl⟩

theorem mem_range1 {m i : Int} : i ∈ range1 m ↔ 1 ≤ i ∧ i ≤ m := by
  unfold range1
  rw [List.mem_map]
  constructor
  · rintro ⟨k, hk, rfl⟩
    rw [List.mem_range] at hk; omega
  · rintro ⟨h1, h2⟩
    exact ⟨(i - 1).toNat, by rw [List.mem_range]; omega, by omega⟩

/-- a row: the count is reached, or all pairs of the row are taken -/
theorem xyRow_spec {nodes xmax ymax x : Int} (hx : 1 ≤ x ∧ x ≤ xmax) (l : List Int) : ∀ s : XySt V, (∀ y ∈ l, 1 ≤ y ∧ y ≤ ymax) → XyInv nodes xmax ymax s →
    s.count < nodes → XyInv nodes xmax ymax (xyRow nodes x l s).1 ∧ (∀ p ∈ s.space, p ∈ (xyRow nodes x l s).1.space) ∧
      ((xyRow nodes x l s).2 = true → (xyRow nodes x l s).1.count = nodes) ∧
      ((xyRow nodes x l s).2 = false → (xyRow nodes x l s).1.count < nodes ∧ ∀ y ∈ l, (x, y) ∈ (xyRow nodes x l s).1.space) := by
  induction l with
  | nil => intro s _ h hc; exact ⟨h, fun _ h => h, (fun h => nomatch h), fun _ => ⟨hc, (fun _ h => nomatch h)⟩⟩
  | cons y l ih =>
    intro s hl h hc
    have hl' := fun y hy => hl y (List.mem_cons_of_mem _ hy)
    unfold xyRow
    split
    · rename_i hm
      obtain ⟨h1, h2, h3, h4⟩ := ih s hl' h hc
      refine ⟨h1, h2, h3, fun hf => ⟨(h4 hf).1, fun y' hy => ?_⟩⟩
      rcases List.mem_cons.1 hy with rfl | hy
      · exact h2 _ hm
      · exact (h4 hf).2 y' hy
    · rename_i hm
      have hy := hl y (by simp)
      have h' := h.add (xy := (x, y)) ⟨hx.1, hx.2, hy.1, hy.2⟩ hm hc s.t
      dsimp only
      split
      · rename_i he
        exact ⟨h', fun p hp => by simp [hp], fun _ => by rw [h'.count]; exact he, (fun h => nomatch h)⟩
      · rename_i he
        have hlt : s.count + 1 < nodes := by
          have := h'.count
          dsimp only at this
          rw [← this] at he
          omega
        obtain ⟨h1, h2, h3, h4⟩ := ih _ hl' h' hlt
        refine ⟨h1, fun p hp => h2 p (by simp [hp]), h3, fun hf => ⟨(h4 hf).1, fun y' hy => ?_⟩⟩
        rcases List.mem_cons.1 hy with rfl | hy
        · exact h2 _ (by simp)
        · exact (h4 hf).2 y' hy

theorem xyRows_spec {nodes xmax ymax : Int} {ys : List Int} (hys : ∀ y ∈ ys, 1 ≤ y ∧ y ≤ ymax) (l : List Int) : ∀ s : XySt V,
    (∀ x ∈ l, 1 ≤ x ∧ x ≤ xmax) → XyInv nodes xmax ymax s → s.count < nodes →
    XyInv nodes xmax ymax (xyRows nodes ys l s) ∧ (∀ p ∈ s.space, p ∈ (xyRows nodes ys l s).space) ∧
      ((xyRows nodes ys l s).count = nodes ∨ ∀ x ∈ l, ∀ y ∈ ys, (x, y) ∈ (xyRows nodes ys l s).space) := by
  induction l with
  | nil => intro s _ h _; exact ⟨h, fun _ h => h, .inr (fun _ h => nomatch h)⟩
  | cons x l ih =>
    intro s hl h hc
    obtain ⟨h1, h2, h3, h4⟩ := xyRow_spec (hl x (by simp)) ys s hys h hc
    unfold xyRows
    generalize xyRow nodes x ys s = r at *
    obtain ⟨s', b⟩ := r
    cases b with
    | true => exact ⟨h1, h2, .inl (h3 rfl)⟩
    | false =>
      dsimp only at *
      obtain ⟨i1, i2, i3⟩ := ih s' (fun x hx => hl x (List.mem_cons_of_mem _ hx)) h1 (h4 rfl).1
      refine ⟨i1, fun p hp => i2 p (h2 p hp), i3.imp id (fun h x' hx y hy => ?_)⟩
      rcases List.mem_cons.1 hx with rfl | hx
      · exact i2 _ ((h4 rfl).2 y hy)
      · exact h x' hx y hy

theorem range1_length (m : Int) : (range1 m).length = m.toNat := by simp [range1]

theorem range1_nodup (m : Int) : (range1 m).Nodup := by
  unfold range1
  unfold List.Nodup
  rw [List.pairwise_map]
  exact List.Pairwise.imp (fun h he => h (by omega)) List.nodup_range

theorem product_nodup {β γ : Type} {l : List β} {m : List γ} (hl : l.Nodup) (hm : m.Nodup) : (l.flatMap (fun a => m.map (fun b => (a, b)))).Nodup := by
  induction l with
  | nil => simp
  | cons a l ih =>
    rw [List.nodup_cons] at hl
    rw [List.flatMap_cons, List.nodup_append]
    refine ⟨?_, ih hl.2, ?_⟩
    · unfold List.Nodup; rw [List.pairwise_map]; exact List.Pairwise.imp (fun h he => h (by cases he; rfl)) hm
    · rintro x hx y hy rfl
      obtain ⟨b, _, rfl⟩ := List.mem_map.1 hx
      obtain ⟨a', ha', h⟩ := List.mem_flatMap.1 hy
      obtain ⟨b', _, he⟩ := List.mem_map.1 h
      cases he
      exact hl.1 ha'

theorem product_length {β γ : Type} (l : List β) (m : List γ) : (l.flatMap (fun a => m.map (fun b => (a, b)))).length = l.length * m.length := by
  induction l with
  | nil => simp
  | cons a l ih => rw [List.flatMap_cons, List.length_append, ih, List.length_map, List.length_cons, Nat.succ_mul]; omega

theorem nodup_sub_length {γ : Type} [DecidableEq γ] : ∀ {l m : List γ}, l.Nodup → (∀ x ∈ l, x ∈ m) → l.length ≤ m.length
  | [], _, _, _ => Nat.zero_le _
  | a :: l, m, hnd, h => by
    rw [List.nodup_cons] at hnd
    have := nodup_sub_length (m := m.erase a) hnd.2 (fun x hx => (List.mem_erase_of_ne (fun he => hnd.1 (by rw [← he]; exact hx))).2 (h x (List.mem_cons_of_mem _ hx)))
    rw [List.length_erase_of_mem (h a (by simp))] at this
    have := List.length_pos_of_mem (h a (by simp))
    simp only [List.length_cons]; omega

/-- the frame contains `xmax * ymax` pairs -/
theorem frame_count {xmax ymax : Int} (hx : 0 ≤ xmax) (hy : 0 ≤ ymax) {l : List XY} (hl : ∀ x y, 1 ≤ x → x ≤ xmax → 1 ≤ y → y ≤ ymax → (x, y) ∈ l) :
    xmax * ymax ≤ l.length := by
  have := nodup_sub_length (product_nodup (range1_nodup xmax) (range1_nodup ymax)) (m := l) (fun p hp => by
    obtain ⟨a, ha, h⟩ := List.mem_flatMap.1 hp
    obtain ⟨b, hb, rfl⟩ := List.mem_map.1 h
    rw [mem_range1] at ha hb
    exact hl a b ha.1 ha.2 hb.1 hb.2)
  rw [product_length, range1_length, range1_length] at this
  have h2 : ((xmax.toNat * ymax.toNat : Nat) : Int) = xmax * ymax := by
    rw [Int.natCast_mul, Int.toNat_of_nonneg hx, Int.toNat_of_nonneg hy]
  omega

/-- the edge loop: the first pairs become edges -/
theorem xyEdges_spec (dist : XY → XY → V) {edges : Int} (l : List (XY × XY)) : ∀ (k : Int) (g : Graph XY V Unit), k ≤ edges →
    xyEdges dist edges l k g = g.addEdges ((l.take (edges - k).toNat).map (fun p => (p.1, p.2, dist p.1 p.2))) := by
  induction l with
  | nil => intro k g _; simp [xyEdges, addEdges]
  | cons p l ih =>
    obtain ⟨a, b⟩ := p
    intro k g hk
    unfold xyEdges
    split
    · rename_i he
      rw [he, Int.sub_self]; rfl
    · rename_i he
      rw [ih (k + 1) _ (by omega)]
      have : (edges - k).toNat = (edges - (k + 1)).toNat + 1 := by omega
      rw [this, List.take_succ_cons, List.map_cons]
      rfl

/-- the shape of the graph -/
structure XyPost (dist : XY → XY → V) (nodes xmax ymax edges : Int) (g : Graph XY V Unit) : Prop where
  inv : g.Inv
  count : (g.nodeList.length : Int) = nodes
  frame : ∀ p, g.has p = true → InFrame xmax ymax p
  edgeCount : (g.edgeList.length : Int) = edges
  value : ∀ a b v, g.edge a b = some v → v = dist a b

/-- whatever is returned has the right shape -/
theorem randomXy_post {R : XyRandom} {dist : XY → XY → V} {nodes xmax ymax : Int} {edges : Option Int} (hR : R.Ok xmax ymax) (hn : 0 ≤ nodes)
    (he : ∀ e, edges = some e → 0 ≤ e) {r : Py (Graph XY V Unit)} (h : randomXyGraph R dist nodes xmax ymax edges = some r) :
    (r = .error .valueError ∧ (xmax * ymax < nodes ∨ (∃ e, edges = some e ∧ nodes * nodes < e) ∨ xmax < 1 ∨ ymax < 1)) ∨
    ∃ g, r = .ok g ∧ XyPost dist nodes xmax ymax (edges.getD (nodes * nodes)) g := by
  unfold randomXyGraph at h
  split at h
  · rename_i h1; cases h; exact .inl ⟨rfl, .inl h1⟩
  · rename_i h1
    dsimp only at h
    split at h
    · rename_i h2
      cases h
      refine .inl ⟨rfl, .inr (.inl ?_)⟩
      cases edges with
      | none => simp at h2
      | some e => exact ⟨e, rfl, by simpa using h2⟩
    · rename_i h2
      have hinit : XyInv nodes xmax ymax (⟨0, Graph.empty, [], 0⟩ : XySt V) :=
        ⟨inv_empty, rfl, by simp, rfl, (fun _ h => nomatch h), fun _ _ => rfl, fun h => h⟩
      cases hw : pyWhile (xyStep R nodes xmax ymax) (⟨0, Graph.empty, [], 0⟩ : XySt V) with
      | none => rw [hw] at h; cases h
      | some r1 =>
        rw [hw] at h
        have hr1 := pyWhile_inv (XyInv nodes xmax ymax)
          (fun r => (∃ s, r = .ok s ∧ XyInv nodes xmax ymax s ∧ (s.count < nodes → 1 ≤ xmax ∧ 1 ≤ ymax)) ∨ r = .error .valueError ∧ (xmax < 1 ∨ ymax < 1))
          (fun s s' hs h => (hs.step hR).1 s' h)
          (fun s r hs h => by
            rcases (hs.step hR).2 r h with h3 | h3
            · refine .inl ⟨s, h3, hs, fun hc => ?_⟩
              unfold xyStep at h
              rw [if_pos hc] at h
              by_cases hm : xmax < 1 ∨ ymax < 1
              · rw [if_pos hm, h3] at h; cases h
              · omega
            · exact .inr h3) hinit hw
        rcases hr1 with ⟨s, rfl, hs, hfr⟩ | ⟨rfl, h3⟩
        · refine .inr ?_
          dsimp only at h
          -- after step 2
          have key : ∃ s', XyInv nodes xmax ymax s' ∧ s'.count = nodes ∧
              (if (s.g.nodeList.length : Int) < nodes then xyRows nodes (R.shY (range1 ymax)) (R.shX (range1 xmax)) s else s) = s' := by
            have hlen : (s.g.nodeList.length : Int) = s.count := by rw [hs.keys, hs.count]
            split
            · rename_i hc
              rw [hlen] at hc
              obtain ⟨i1, i2, i3⟩ := xyRows_spec (nodes := nodes) (ymax := ymax) (xmax := xmax) (ys := R.shY (range1 ymax))
                (fun y hy => mem_range1.1 ((hR.y _).mem_iff.1 hy)) (R.shX (range1 xmax)) s
                (fun x hx => mem_range1.1 ((hR.x _).mem_iff.1 hx)) hs hc
              refine ⟨_, i1, ?_, rfl⟩
              rcases i3 with i3 | i3
              · exact i3
              · have hpos := hfr hc
                have := frame_count (xmax := xmax) (ymax := ymax) (by omega) (by omega) (l := (xyRows nodes (R.shY (range1 ymax)) (R.shX (range1 xmax)) s).space)
                  (fun x y h1 h2 h3 h4 => i3 x ((hR.x _).mem_iff.2 (mem_range1.2 ⟨h1, h2⟩)) y ((hR.y _).mem_iff.2 (mem_range1.2 ⟨h3, h4⟩)))
                rw [← i1.count] at this
                have := i1.le hn
                omega
            · rename_i hc
              have := hs.le hn
              exact ⟨s, hs, by omega, rfl⟩
          obtain ⟨s', hs', hcnt, heq⟩ := key
          rw [heq] at h
          cases h
          refine ⟨_, rfl, ?_⟩
          have hee : 0 ≤ edges.getD (nodes * nodes) := by
            cases edges with
            | none => exact Int.mul_nonneg hn hn
            | some e => exact he e rfl
          rw [xyEdges_spec dist _ _ _ hee]
          have hp1 := hR.n1 s'.g.nodeList
          have hp2 := hR.n2 (R.shN1 s'.g.nodeList)
          generalize hn1 : R.shN1 s'.g.nodeList = n1s at *
          generalize hn2 : R.shN2 n1s = n2s at *
          have hnd1 : n1s.Nodup := hp1.nodup_iff.2 (hs'.keys ▸ hs'.nd)
          have hnd2 : n2s.Nodup := hp2.nodup_iff.2 hnd1
          have hprod := product_nodup hnd1 hnd2
          have hplen := product_length n1s n2s
          have hlen1 : (n1s.length : Int) = nodes := by rw [hp1.length_eq, hs'.keys, ← hs'.count, hcnt]
          have hlen2 : n2s.length = n1s.length := hp2.length_eq
          rw [hlen2] at hplen
          have hplen' : ((n1s.flatMap (fun a => n2s.map (fun b => (a, b)))).length : Int) = nodes * nodes := by
            rw [hplen, Int.natCast_mul, hlen1]
          have hmemp : ∀ p ∈ n1s.flatMap (fun a => n2s.map (fun b => (a, b))), p.1 ∈ s'.space ∧ p.2 ∈ s'.space := by
            intro p hp
            obtain ⟨a, ha, h⟩ := List.mem_flatMap.1 hp
            obtain ⟨b, hb, rfl⟩ := List.mem_map.1 h
            rw [hp1.mem_iff, hs'.keys] at ha
            rw [hp2.mem_iff, hp1.mem_iff, hs'.keys] at hb
            exact ⟨ha, hb⟩
          generalize n1s.flatMap (fun a => n2s.map (fun b => (a, b))) = prod at *
          generalize hE : edges.getD (nodes * nodes) = E at *
          rw [Int.sub_zero]
          let L := (prod.take E.toNat).map (fun p => (p.1, p.2, dist p.1 p.2))
          have hL : L.Nodup := by
            show List.Pairwise _ _
            rw [List.pairwise_map]
            exact List.Pairwise.imp (fun {a b} h he => h (by simp only [Prod.mk.injEq] at he; exact Prod.ext he.1 he.2.1)) (List.Nodup.sublist (List.take_sublist _ _) hprod)
          have hfunc : Func L := by
            intro a b v w hv hw
            obtain ⟨p, _, hp⟩ := List.mem_map.1 hv
            obtain ⟨q, _, hq⟩ := List.mem_map.1 hw
            simp only [Prod.mk.injEq] at hp hq
            rw [← hp.2.2, ← hq.2.2, hp.1, hp.2.1, hq.1, hq.2.1]
          have hinv := addEdges_inv hs'.inv L
          have hedge : ∀ a b v, (s'.g.addEdges L).edge a b = some v ↔ (a, b, v) ∈ L := by
            intro a b v
            rw [addEdges_edge hfunc, hs'.edges]
            simp
          have hkeys : ∀ x, x ∈ (s'.g.addEdges L).nodeList ↔ x ∈ s'.space := by
            intro x
            show x ∈ (s'.g.addEdges L).nodes.keys ↔ _
            rw [← Dict.get?_isSome_iff, addEdges_nodes]
            split
            · rename_i hx
              obtain ⟨e, hel, hx⟩ := hx
              obtain ⟨p, hp, rfl⟩ := List.mem_map.1 hel
              have := hmemp p (List.mem_of_mem_take hp)
              simp
              rcases hx with rfl | rfl
              · exact this.1
              · exact this.2
            · rw [Dict.get?_isSome_iff]
              show x ∈ s'.g.nodeList ↔ _
              rw [hs'.keys]
          refine ⟨hinv, ?_, fun p hp => hs'.frame p ((hkeys p).1 ((Dict.contains_iff_keys _ _).1 hp)), ?_, fun a b v hv => ?_⟩
          · have hperm : (s'.g.addEdges L).nodeList.Perm s'.space := (List.perm_ext_iff_of_nodup hinv.nodesWF hs'.nd).2 hkeys
            rw [hperm.length_eq, ← hs'.count, hcnt]
          · have hperm : (s'.g.addEdges L).edgeList.Perm L := by
              classical
              exact (List.perm_ext_iff_of_nodup hinv.edgeList_nodup hL).2 (fun ⟨a, b, v⟩ => by rw [hinv.mem_edgeList, hedge])
            rw [hperm.length_eq]
            show ((List.map _ (List.take E.toNat prod)).length : Int) = E
            rw [List.length_map, List.length_take]
            omega
          · obtain ⟨p, _, hp⟩ := List.mem_map.1 ((hedge a b v).1 hv)
            cases hp; rfl
        · cases h
          exact .inl ⟨rfl, .inr (.inr h3)⟩

/-- every point of the frame is drawn again and again -/
def XyRandom.Fair (R : XyRandom) (xmax ymax : Int) : Prop := ∀ p, InFrame xmax ymax p → ∀ t, ∃ t', t ≤ t' ∧ R.rnd t' = p

theorem exists_least {P : Nat → Prop} (h : ∃ n, P n) : ∃ n, P n ∧ ∀ m, P m → n ≤ m := by
  obtain ⟨n, hn⟩ := h
  induction n using Nat.strongRecOn with
  | _ n ih =>
    by_cases h : ∃ m, m < n ∧ P m
    · obtain ⟨m, hm, hp⟩ := h; exact ih m hm hp
    · exact ⟨n, hn, fun m hm => by
        apply Classical.byContradiction
        intro hlt; exact h ⟨m, by omega, hm⟩⟩

open Classical in
/-- the time until a point outside of the list is drawn -/
noncomputable def waiting (R : XyRandom) (space : List XY) (t : Nat) : Nat :=
  if h : ∃ d, R.rnd (t + d) ∉ space then Classical.choose (exists_least h) else 0

/-- with a fair source of random numbers, the function returns -/
theorem randomXy_terminates {R : XyRandom} {dist : XY → XY → V} {nodes xmax ymax : Int} {edges : Option Int} (hR : R.Ok xmax ymax) (hfair : R.Fair xmax ymax) :
    ∃ r, randomXyGraph R dist nodes xmax ymax edges = some r := by
  unfold randomXyGraph
  split
  · exact ⟨_, rfl⟩
  · rename_i hg
    dsimp only
    split
    · exact ⟨_, rfl⟩
    · have : ∃ r, pyWhile (xyStep R nodes xmax ymax) (⟨0, Graph.empty, [], 0⟩ : XySt V) = some r ∧ True := by
        refine pyWhile_totalW (XyInv nodes xmax ymax) (fun _ => True) lexNat lexNat_wf
          (fun s => ((nodes - s.count).toNat, waiting R s.space s.t)) (fun s s' hs h => ?_) (fun _ _ _ _ => trivial)
          ⟨inv_empty, rfl, by simp, rfl, (fun _ h => nomatch h), fun _ _ => rfl, fun h => h⟩
        refine ⟨(hs.step hR).1 s' h, ?_⟩
        unfold xyStep at h
        split at h
        · rename_i hc
          split at h
          · cases h
          · rename_i hm
            dsimp only at h
            split at h
            · cases h
              exact lexNat_left (by dsimp only; omega)
            · rename_i hin
              split at h
              · cases h
              · cases h
                refine lexNat_right (Nat.le_refl _) ?_
                -- some point is not in the list
                have hex : ∃ p, InFrame xmax ymax p ∧ p ∉ s.space := by
                  apply Classical.byContradiction
                  intro hno
                  have := frame_count (xmax := xmax) (ymax := ymax) (by omega) (by omega) (l := s.space) (fun x y h1 h2 h3 h4 => by
                    apply Classical.byContradiction
                    intro hn
                    exact hno ⟨(x, y), ⟨h1, h2, h3, h4⟩, hn⟩)
                  rw [← hs.count] at this
                  omega
                obtain ⟨p, hp, hps⟩ := hex
                have h1 : ∃ d, R.rnd (s.t + d) ∉ s.space := by
                  obtain ⟨t', ht, he⟩ := hfair p hp s.t
                  exact ⟨t' - s.t, by rw [show s.t + (t' - s.t) = t' by omega, he]; exact hps⟩
                have h2 : ∃ d, R.rnd (s.t + 1 + d) ∉ s.space := by
                  obtain ⟨t', ht, he⟩ := hfair p hp (s.t + 1)
                  exact ⟨t' - (s.t + 1), by rw [show s.t + 1 + (t' - (s.t + 1)) = t' by omega, he]; exact hps⟩
                unfold waiting
                dsimp only
                rw [dif_pos h1, dif_pos h2]
                have hs1 := Classical.choose_spec (exists_least h1)
                have hs2 := Classical.choose_spec (exists_least h2)
                generalize Classical.choose (exists_least h1) = n1 at *
                generalize Classical.choose (exists_least h2) = n2 at *
                have h0 : n1 ≠ 0 := by
                  rintro rfl; simp at hin; exact hs1.1 hin
                have := hs2.2 (n1 - 1) (by
                  rw [show s.t + 1 + (n1 - 1) = s.t + n1 by omega]; exact hs1.1)
                omega
        · cases h
      obtain ⟨r, hr, _⟩ := this
      rw [hr]
      cases r with
      | error e => exact ⟨_, rfl⟩
      | ok s => exact ⟨_, rfl⟩

end GT

import Verif.Graph.Misc
import Verif.Graph.FuncLemmas
import Verif.Spec.Hash
/-
Model of `merkle_tree` (graph/hash_methods.py:77-133).
-/
namespace GT
variable {B : Type} [DecidableEq B]
open Graph

/-- one iteration of `while leaves` (hash_methods.py:120-133).  `H` is `sha3_256(.).hexdigest()`; digests are texts of
one-byte characters, so `bytes(c, 'utf-8')` is the text itself. -/
def mkStep (H : List B → List B) (s : Graph (List B) Unit Unit × List (List B)) :
    (Graph (List B) Unit Unit × List (List B)) ⊕ Option (Graph (List B) Unit Unit) :=
  match s.2 with
  | [] => .inr none
  | [_] => .inr (some s.1)
  | c1 :: c2 :: leaves =>
    let u := H (c1 ++ c2)
    .inl ((((s.1.addNode u none).addEdge c1 u ()).addEdge c2 u ()), leaves ++ [u])

/-- the initial loop (hash_methods.py:111-117) -/
def mkLeaf (H : List B → List B) (s : Graph (List B) Unit Unit × List (List B)) (block : List B) : Graph (List B) Unit Unit × List (List B) :=
  (s.1.addNode (H block) none, s.2 ++ [H block])

/-- `merkle_tree(data_blocks)` (hash_methods.py:77-133).  `assert isinstance(block, bytes)` holds by typing; the edge value 1 is `()`. -/
def merkleTree (H : List B → List B) (blocks : List (List B)) : Option (Option (Graph (List B) Unit Unit)) :=
  pyWhile (mkStep H) (blocks.foldl (mkLeaf H) (Graph.empty, []))

/-! ### proofs -/

/-- the last digest -/
def merkleRoot (H : List B → List B) : List (List B) → Option (List B)
  | a :: b :: q => merkleRoot H (q ++ [H (a ++ b)])
  | [] => none
  | [r] => some r
  termination_by q => q.length

structure MkPost (H : List B → List B) (g : Graph (List B) Unit Unit) (q : List (List B)) (g' : Graph (List B) Unit Unit) : Prop where
  inv : g'.Inv
  ph : g'.NoPhantom
  nodes : ∀ x, x ∈ g'.nodeList ↔ x ∈ g.nodeList ∨ ∃ p ∈ merklePairs H q, x = H (p.1 ++ p.2)
  edges : ∀ c u, (g'.edge c u).isSome ↔ (g.edge c u).isSome ∨ ∃ p ∈ merklePairs H q, u = H (p.1 ++ p.2) ∧ (c = p.1 ∨ c = p.2)

theorem mkLoop (H : List B → List B) (n : Nat) : ∀ (g : Graph (List B) Unit Unit) (q : List (List B)), q.length ≤ n → q ≠ [] → g.Inv → g.NoPhantom →
    (∀ x ∈ q, x ∈ g.nodeList) → ∃ g', pyWhile (mkStep H) (g, q) = some (some g') ∧ MkPost H g q g' := by
  induction n with
  | zero => intro g q h h0; simp at h; exact absurd h h0
  | succ n ih =>
    intro g q hl h0 hg hp hq
    match q, hl, h0, hq with
    | [r], _, _, hq =>
      refine ⟨g, pyWhile_inr rfl, hg, hp, fun x => ?_, fun c u => ?_⟩
      · unfold merklePairs; simp
      · unfold merklePairs; simp
    | a :: b :: q, hl, _, hq =>
      have hlen : (q ++ [H (a ++ b)]).length ≤ n := by simp at hl ⊢; omega
      generalize hu : H (a ++ b) = u at hlen
      have hg1 := ((hg.addNode u none).addEdge a u ()).addEdge b u ()
      have hkeys : ∀ x, x ∈ (((g.addNode u none).addEdge a u ()).addEdge b u ()).nodeList ↔ x ∈ g.nodeList ∨ x = u := by
        intro x
        unfold nodeList
        rw [addEdge_nodes, mem_keys_withEnds, addEdge_nodes, mem_keys_withEnds, addNode_nodes, Dict.mem_keys_set]
        have ha := hq a (by simp)
        have hb := hq b (by simp)
        unfold nodeList at ha hb
        constructor
        · rintro (rfl | rfl | rfl | rfl | rfl | h)
          · exact .inl hb
          · exact .inr rfl
          · exact .inl ha
          · exact .inr rfl
          · exact .inr rfl
          · exact .inl h
        · rintro (h | rfl)
          · exact .inr (.inr (.inr (.inr (.inr h))))
          · exact .inr (.inl rfl)
      obtain ⟨g', h1, h2⟩ := ih _ (q ++ [u]) hlen (by simp) hg1 (noPhantom_addEdge (noPhantom_addEdge (noPhantom_addNode hp _ _) _ _ _) _ _ _)
        (fun x hx => by
          rw [hkeys]
          rw [List.mem_append, List.mem_singleton] at hx
          rcases hx with hx | hx
          · exact .inl (hq x (by simp [hx]))
          · exact .inr hx)
      refine ⟨g', ?_, h2.inv, h2.ph, fun x => ?_, fun c v => ?_⟩
      · rw [pyWhile_inl (s' := ((((g.addNode u none).addEdge a u ()).addEdge b u ()), q ++ [u])) (by rw [← hu]; rfl)]; exact h1
      · rw [h2.nodes, hkeys]
        rw [merklePairs.eq_1, hu]
        simp only [List.mem_cons, exists_eq_or_imp]
        rw [hu, or_assoc]
      · rw [h2.edges, edge_addEdge, edge_addEdge]
        rw [merklePairs.eq_1, hu]
        simp only [List.mem_cons, exists_eq_or_imp]
        rw [hu]
        have he : (g.addNode u none).edge c v = g.edge c v := edge_congr (addNode_edges _ _ _) c v
        rw [he]
        by_cases h3 : b = c ∧ u = v
        · rw [if_pos h3]; simp [h3.1, h3.2]
        · rw [if_neg h3]
          by_cases h4 : a = c ∧ u = v
          · rw [if_pos h4]; simp [h4.1, h4.2]
          · rw [if_neg h4]
            constructor
            · rintro (h | h)
              · exact .inl h
              · exact .inr (.inr h)
            · rintro (h | ⟨rfl, rfl | rfl⟩ | h)
              · exact .inl h
              · exact absurd ⟨rfl, rfl⟩ h4
              · exact absurd ⟨rfl, rfl⟩ h3
              · exact .inr h

theorem mkLeaves (H : List B → List B) (blocks : List (List B)) : ∀ (g : Graph (List B) Unit Unit) (q : List (List B)), g.Inv → g.NoPhantom →
    (blocks.foldl (mkLeaf H) (g, q)).2 = q ++ blocks.map H ∧ (blocks.foldl (mkLeaf H) (g, q)).1.Inv ∧
    (blocks.foldl (mkLeaf H) (g, q)).1.NoPhantom ∧
    (∀ x, x ∈ (blocks.foldl (mkLeaf H) (g, q)).1.nodeList ↔ x ∈ g.nodeList ∨ x ∈ blocks.map H) ∧
    (blocks.foldl (mkLeaf H) (g, q)).1.edges = g.edges := by
  induction blocks with
  | nil => intro g q hg hp; simp [hg, hp]
  | cons b blocks ih =>
    intro g q hg hp
    rw [List.foldl_cons]
    obtain ⟨h1, h2, h3, h4, h5⟩ := ih (g.addNode (H b) none) (q ++ [H b]) (hg.addNode _ _) (noPhantom_addNode hp _ _)
    refine ⟨by unfold mkLeaf at *; rw [h1]; simp, h2, h3, fun x => ?_, h5.trans (addNode_edges _ _ _)⟩
    have := h4 x
    unfold mkLeaf at *
    rw [this]
    unfold nodeList
    rw [addNode_nodes, Dict.mem_keys_set, List.map_cons, List.mem_cons]
    constructor
    · rintro ((h | h) | h)
      · exact .inr (.inl h)
      · exact .inl h
      · exact .inr (.inr h)
    · rintro (h | h | h)
      · exact .inl (.inr h)
      · exact .inl (.inl h)
      · exact .inr h

/-- what `merkle_tree` builds -/
theorem merkleTree_main (H : List B → List B) (blocks : List (List B)) (h0 : blocks ≠ []) :
    ∃ g, merkleTree H blocks = some (some g) ∧ g.Inv ∧ g.NoPhantom ∧
      (∀ x, x ∈ g.nodeList ↔ ∃ y ∈ merkleInputs H blocks, x = H y) ∧
      (∀ c u, (g.edge c u).isSome ↔ ∃ p ∈ merklePairs H (blocks.map H), u = H (p.1 ++ p.2) ∧ (c = p.1 ∨ c = p.2)) := by
  obtain ⟨h1, h2, h3, h4, h5⟩ := mkLeaves H blocks Graph.empty [] inv_empty (by intro n _; exact ⟨rfl, rfl⟩)
  obtain ⟨g, h6, h7⟩ := mkLoop H _ (blocks.foldl (mkLeaf H) (Graph.empty, [])).1 (blocks.map H) (Nat.le_refl _) (by simpa using h0) h2 h3
    (fun x hx => (h4 x).2 (.inr hx))
  refine ⟨g, ?_, h7.inv, h7.ph, fun x => ?_, fun c u => ?_⟩
  · unfold merkleTree
    rw [← h6]
    have : blocks.foldl (mkLeaf H) (Graph.empty, []) = ((blocks.foldl (mkLeaf H) (Graph.empty, [])).1, blocks.map H) :=
      Prod.ext rfl (by rw [h1]; rfl)
    rw [← this]
  · rw [h7.nodes, h4]
    unfold merkleInputs
    simp only [List.mem_append, List.mem_map]
    constructor
    · rintro ((h | ⟨b, hb, rfl⟩) | ⟨p, hp, rfl⟩)
      · cases h
      · exact ⟨b, .inl hb, rfl⟩
      · exact ⟨_, .inr ⟨p, hp, rfl⟩, rfl⟩
    · rintro ⟨y, hy | ⟨p, hp, rfl⟩, rfl⟩
      · exact .inl (.inr ⟨y, hy, rfl⟩)
      · exact .inr ⟨p, hp, rfl⟩
  · rw [h7.edges, edge_congr h5]
    simp [Graph.edge, Graph.empty, Dict.get?_empty]

theorem mem_nodesOutDeg_zero {V O α : Type} [DecidableEq α] {g : Graph α V O} (hg : g.Inv) (hp : g.NoPhantom) (n : α) :
    n ∈ g.nodesOutDeg 0 ↔ n ∈ g.nodeList ∧ ∀ m, g.edge n m = none := by
  unfold nodesOutDeg
  rw [mem_degFilter hg.outWF]
  constructor
  · intro h
    have hn : n ∈ g.nodeList := by
      refine Decidable.byContradiction fun hn => ?_
      rw [(hp n hn).2] at h; cases h
    refine ⟨hn, fun m => ?_⟩
    rw [hg.outD n hn] at h
    have h : g.nodesFrom n = [] := by
      have := Option.some.inj h
      exact List.length_eq_zero_iff.1 (by omega)
    cases he : g.edge n m with
    | none => rfl
    | some v => have : m ∈ g.nodesFrom n := mem_nodesFrom.2 (by rw [he]; rfl)
                rw [h] at this; cases this
  · rintro ⟨h1, h2⟩
    rw [hg.outD n h1]
    have : g.nodesFrom n = [] := by
      rw [List.eq_nil_iff_forall_not_mem]
      intro m hm
      have := mem_nodesFrom.1 hm
      rw [h2] at this; cases this
    rw [this]; rfl

omit [DecidableEq B] in
/-- every digest except the root is combined with another one -/
theorem merkle_used (H : List B → List B) (n : Nat) : ∀ q : List (List B), q.length ≤ n → ∀ r, merkleRoot H q = some r →
    (∀ x ∈ q, x = r ∨ ∃ p ∈ merklePairs H q, x = p.1 ∨ x = p.2) ∧
    (∀ p' ∈ merklePairs H q, H (p'.1 ++ p'.2) = r ∨ ∃ p ∈ merklePairs H q, H (p'.1 ++ p'.2) = p.1 ∨ H (p'.1 ++ p'.2) = p.2) ∧
    (r ∈ q ∨ ∃ p ∈ merklePairs H q, r = H (p.1 ++ p.2)) := by
  induction n with
  | zero =>
    intro q h r hr
    have : q = [] := by simpa using h
    subst this
    unfold merkleRoot at hr; cases hr
  | succ n ih =>
    intro q hl r hr
    match q, hl, hr with
    | [], _, hr => unfold merkleRoot at hr; cases hr
    | [x], _, hr =>
      unfold merkleRoot at hr; cases hr
      unfold merklePairs
      simp
    | a :: b :: q, hl, hr =>
      rw [merkleRoot.eq_1] at hr
      obtain ⟨h1, h2, h3⟩ := ih (q ++ [H (a ++ b)]) (by simp at hl ⊢; omega) r hr
      rw [merklePairs.eq_1]
      refine ⟨fun x hx => ?_, fun p' hp' => ?_, ?_⟩
      · rw [List.mem_cons, List.mem_cons] at hx
        rcases hx with rfl | rfl | hx
        · exact .inr ⟨_, List.mem_cons_self .., .inl rfl⟩
        · exact .inr ⟨_, List.mem_cons_self .., .inr rfl⟩
        · rcases h1 x (by simp [hx]) with h | ⟨p, hp, h⟩
          · exact .inl h
          · exact .inr ⟨p, List.mem_cons_of_mem _ hp, h⟩
      · rw [List.mem_cons] at hp'
        rcases hp' with rfl | hp'
        · rcases h1 (H (a ++ b)) (by simp) with h | ⟨p, hp, h⟩
          · exact .inl h
          · exact .inr ⟨p, List.mem_cons_of_mem _ hp, h⟩
        · rcases h2 p' hp' with h | ⟨p, hp, h⟩
          · exact .inl h
          · exact .inr ⟨p, List.mem_cons_of_mem _ hp, h⟩
      · rcases h3 with h | ⟨p, hp, h⟩
        · rw [List.mem_append, List.mem_singleton] at h
          rcases h with h | h
          · exact .inl (by simp [h])
          · exact .inr ⟨_, List.mem_cons_self .., h⟩
        · exact .inr ⟨p, List.mem_cons_of_mem _ hp, h⟩

omit [DecidableEq B] in
theorem merkleRoot_some (H : List B → List B) (n : Nat) : ∀ q : List (List B), q.length ≤ n → q ≠ [] → ∃ r, merkleRoot H q = some r := by
  induction n with
  | zero => intro q h h0; simp at h; exact absurd h h0
  | succ n ih =>
    intro q hl h0
    match q, hl, h0 with
    | [x], _, _ => exact ⟨x, by unfold merkleRoot; rfl⟩
    | a :: b :: q, hl, _ =>
      rw [merkleRoot.eq_1]
      exact ih _ (by simp at hl ⊢; omega) (by simp)

/-- only the last digest can be a root -/
theorem merkleTree_root (H : List B → List B) {blocks : List (List B)} {g : Graph (List B) Unit Unit} (h : merkleTree H blocks = some (some g))
    {r : List B} (hr : r ∈ g.nodesOutDeg 0) : merkleRoot H (blocks.map H) = some r := by
  have h0 : blocks ≠ [] := by
    rintro rfl
    unfold merkleTree at h
    rw [pyWhile_eq] at h
    cases h
  obtain ⟨g', h1, h2, h3, h4, h5⟩ := merkleTree_main H blocks h0
  rw [h] at h1; cases h1
  rw [mem_nodesOutDeg_zero h2 h3] at hr
  obtain ⟨r', hr'⟩ := merkleRoot_some H _ (blocks.map H) (Nat.le_refl _) (by simpa using h0)
  obtain ⟨a1, a2, _⟩ := merkle_used H _ _ (Nat.le_refl _) r' hr'
  have hno : ¬ ∃ p ∈ merklePairs H (blocks.map H), r = p.1 ∨ r = p.2 := by
    rintro ⟨p, hp, hp'⟩
    have := (h5 r (H (p.1 ++ p.2))).2 ⟨p, hp, rfl, hp'⟩
    rw [hr.2] at this; cases this
  rw [hr']
  obtain ⟨y, hy, rfl⟩ := (h4 r).1 hr.1
  unfold merkleInputs at hy
  rw [List.mem_append] at hy
  rcases hy with hy | hy
  · rcases a1 (H y) (List.mem_map.2 ⟨y, hy, rfl⟩) with h | h
    · rw [h]
    · exact absurd h hno
  · obtain ⟨p, hp, rfl⟩ := List.mem_map.1 hy
    rcases a2 p hp with h | h
    · rw [h]
    · exact absurd h hno

omit [DecidableEq B] in
/-- equal last digests of queues of the same length come from equal queues -/
theorem merkleRoot_inj {H : List B → List B} {L : Nat} (hL : ∀ x, (H x).length = L) (n : Nat) : ∀ q q' : List (List B), q.length ≤ n →
    q.length = q'.length → (∀ x ∈ q, x.length = L) → (∀ x ∈ q', x.length = L) →
    (∀ p ∈ merklePairs H q, ∀ p' ∈ merklePairs H q', H (p.1 ++ p.2) = H (p'.1 ++ p'.2) → p.1 ++ p.2 = p'.1 ++ p'.2) →
    merkleRoot H q = merkleRoot H q' → q = q' := by
  induction n with
  | zero =>
    intro q q' h hl _ _ _ _
    have h : q = [] := by simpa using h
    subst h
    exact (List.length_eq_zero_iff.1 hl.symm).symm
  | succ n ih =>
    intro q q' h hl hq hq' hc hr
    match q, q', hl, h, hq, hq', hc, hr with
    | [], [], _, _, _, _, _, _ => rfl
    | [x], [y], _, _, _, _, _, hr => unfold merkleRoot at hr; rw [Option.some.inj hr]
    | a :: b :: q, a' :: b' :: q', hl, h, hq, hq', hc, hr =>
      rw [merkleRoot.eq_1, merkleRoot.eq_1] at hr
      rw [merklePairs.eq_1, merklePairs.eq_1] at hc
      have := ih (q ++ [H (a ++ b)]) (q' ++ [H (a' ++ b')]) (by simp at h ⊢; omega) (by simp at hl ⊢; omega)
        (fun x hx => by
          rw [List.mem_append, List.mem_singleton] at hx
          rcases hx with hx | rfl
          · exact hq x (by simp [hx])
          · exact hL _)
        (fun x hx => by
          rw [List.mem_append, List.mem_singleton] at hx
          rcases hx with hx | rfl
          · exact hq' x (by simp [hx])
          · exact hL _)
        (fun p hp p' hp' => hc p (List.mem_cons_of_mem _ hp) p' (List.mem_cons_of_mem _ hp')) hr
      have hlq : q.length = q'.length := by simpa using hl
      obtain ⟨h1, h2⟩ := List.append_inj this hlq
      have h2 := List.cons.inj h2 |>.1
      have h3 : a ++ b = a' ++ b' := hc (a, b) (List.mem_cons_self ..) (a', b') (List.mem_cons_self ..) h2
      have hla : a.length = a'.length := by rw [hq a (by simp), hq' a' (by simp)]
      obtain ⟨h4, h5⟩ := List.append_inj h3 hla
      rw [h1, h4, h5]

omit [DecidableEq B] in
theorem map_inj_of {H : List B → List B} : ∀ (l m : List (List B)), (∀ x ∈ l, ∀ y ∈ m, H x = H y → x = y) → l.map H = m.map H → l = m
  | [], [], _, _ => rfl
  | [], _ :: _, _, h => nomatch h
  | _ :: _, [], _, h => nomatch h
  | x :: l, y :: m, hc, h => by
    rw [List.map_cons, List.map_cons, List.cons.injEq] at h
    rw [hc x (by simp) y (by simp) h.1, map_inj_of l m (fun x hx y hy => hc x (List.mem_cons_of_mem _ hx) y (List.mem_cons_of_mem _ hy)) h.2]

/-- the root determines the blocks -/
theorem merkleTree_binding {H : List B → List B} {L : Nat} (hL : ∀ x, (H x).length = L) {bs bs' : List (List B)} (hlen : bs.length = bs'.length)
    (hc : NoCollision H (merkleInputs H bs ++ merkleInputs H bs')) {g g' : Graph (List B) Unit Unit} (h : merkleTree H bs = some (some g))
    (h' : merkleTree H bs' = some (some g')) {r : List B} (hr : r ∈ g.nodesOutDeg 0) (hr' : r ∈ g'.nodesOutDeg 0) : bs = bs' := by
  have e1 := merkleTree_root H h hr
  have e2 := merkleTree_root H h' hr'
  have hm : ∀ (l : List (List B)), ∀ x ∈ l.map H, x.length = L := by
    intro l x hx
    obtain ⟨y, _, rfl⟩ := List.mem_map.1 hx
    exact hL y
  have := merkleRoot_inj hL _ (bs.map H) (bs'.map H) (Nat.le_refl _) (by simpa using hlen) (hm bs) (hm bs')
    (fun p hp p' hp' he => hc _ (by
      unfold merkleInputs
      exact List.mem_append_left _ (List.mem_append_right _ (List.mem_map.2 ⟨p, hp, rfl⟩))) _ (by
      unfold merkleInputs
      exact List.mem_append_right _ (List.mem_append_right _ (List.mem_map.2 ⟨p', hp', rfl⟩))) he) (by rw [e1, e2])
  refine map_inj_of bs bs' (fun x hx y hy he => hc x ?_ y ?_ he) this
  · unfold merkleInputs; simp [hx]
  · unfold merkleInputs; simp [hy]

/-! ### there is a root -/

/-- hash trees -/
inductive MT (B : Type) where
  | leaf (b : List B)
  | node (l r : MT B)

/-- the digest of a tree -/
def MT.val (H : List B → List B) : MT B → List B
  | .leaf b => H b
  | .node l r => H (l.val H ++ r.val H)

/-- the number of blocks -/
def MT.size : MT B → Nat
  | .leaf _ => 1
  | .node l r => l.size + r.size

/-- all blocks of the tree are in `bs` and all combined strings in `S` -/
def MT.Within (H : List B → List B) (bs S : List (List B)) : MT B → Prop
  | .leaf b => b ∈ bs
  | .node l r => l.Within H bs S ∧ r.Within H bs S ∧ l.val H ++ r.val H ∈ S

omit [DecidableEq B] in
theorem MT.size_pos (t : MT B) : 0 < t.size := by
  induction t with
  | leaf b => exact Nat.one_pos
  | node l r h1 _ => simp only [MT.size]; omega

omit [DecidableEq B] in
theorem MT.val_inj {H : List B → List B} {L : Nat} (hL : ∀ x, (H x).length = L) {bs S : List (List B)} (hc : NoCollision H (bs ++ S))
    (hb : ∀ b ∈ bs, b.length ≠ 2 * L) : ∀ (t u : MT B), t.Within H bs S → u.Within H bs S → t.val H = u.val H → t = u := by
  have hvl : ∀ t : MT B, (t.val H).length = L := by
    intro t; cases t <;> exact hL _
  have hpair : ∀ l r : MT B, (l.val H ++ r.val H).length = 2 * L := by
    intro l r; rw [List.length_append, hvl, hvl]; omega
  intro t
  induction t with
  | leaf b =>
    intro u ht hu he
    cases u with
    | leaf b' => rw [hc b (by simp [show b ∈ bs from ht]) b' (by simp [show b' ∈ bs from hu]) he]
    | node l r =>
      have := hc b (by simp [show b ∈ bs from ht]) (l.val H ++ r.val H) (by simp [hu.2.2]) he
      exact absurd (by rw [this, hpair]) (hb b ht)
  | node l r ihl ihr =>
    intro u ht hu he
    cases u with
    | leaf b' =>
      have := hc (l.val H ++ r.val H) (by simp [ht.2.2]) b' (by simp [show b' ∈ bs from hu]) he
      exact absurd (by rw [← this, hpair]) (hb b' hu)
    | node l' r' =>
      have h3 := hc (l.val H ++ r.val H) (by simp [ht.2.2]) (l'.val H ++ r'.val H) (by simp [hu.2.2]) he
      obtain ⟨h4, h5⟩ := List.append_inj h3 (by rw [hvl, hvl])
      rw [ihl l' ht.1 hu.1 h4, ihr r' ht.2.1 hu.2.1 h5]

omit [DecidableEq B] in
/-- the last digest belongs to a tree that is larger than the trees of all digests that are combined -/
theorem merkle_trees {H : List B → List B} {bs S : List (List B)} (n : Nat) : ∀ (Q : List (MT B)), Q.length ≤ n → Q ≠ [] →
    (∀ t ∈ Q, t.Within H bs S) → (∀ p ∈ merklePairs H (Q.map (fun t => t.val H)), p.1 ++ p.2 ∈ S) →
    ∃ T : MT B, T.Within H bs S ∧ merkleRoot H (Q.map (fun t => t.val H)) = some (T.val H) ∧ T.size = (Q.map (fun t => t.size)).sum ∧
      ∀ p ∈ merklePairs H (Q.map (fun t => t.val H)), ∃ l r : MT B, l.Within H bs S ∧ r.Within H bs S ∧ p.1 = l.val H ∧ p.2 = r.val H ∧
        l.size < T.size ∧ r.size < T.size := by
  induction n with
  | zero => intro Q h h0; simp at h; exact absurd h h0
  | succ n ih =>
    intro Q hl h0 hw hS
    match Q, hl, h0, hw, hS with
    | [t], _, _, hw, _ =>
      refine ⟨t, hw t (by simp), by unfold merkleRoot; rfl, by simp, ?_⟩
      intro p hp
      unfold merklePairs at hp
      cases hp
    | a :: b :: Q, hl, _, hw, hS =>
      rw [List.map_cons, List.map_cons, merklePairs.eq_1] at hS ⊢
      have ha := hw a (by simp)
      have hb := hw b (by simp)
      have hab := hS (a.val H, b.val H) (List.mem_cons_self ..)
      have hmap : (Q ++ [MT.node a b]).map (fun t => t.val H) = Q.map (fun t => t.val H) ++ [H (a.val H ++ b.val H)] := by simp [MT.val]
      obtain ⟨T, h1, h2, h3, h4⟩ := ih (Q ++ [MT.node a b]) (by simp at hl ⊢; omega) (by simp) (fun t ht => by
        rw [List.mem_append, List.mem_singleton] at ht
        rcases ht with ht | rfl
        · exact hw t (by simp [ht])
        · exact ⟨ha, hb, hab⟩) (by
        rw [hmap]
        exact fun p hp => hS p (List.mem_cons_of_mem _ hp))
      rw [hmap] at h2 h4
      have hsz : T.size = ((a :: b :: Q).map (fun t => t.size)).sum := by rw [h3]; simp [MT.size]; omega
      refine ⟨T, h1, by rw [merkleRoot.eq_1]; exact h2, hsz, fun p hp => ?_⟩
      rw [List.mem_cons] at hp
      rcases hp with rfl | hp
      · have := a.size_pos
        have := b.size_pos
        simp at hsz
        exact ⟨a, b, ha, hb, rfl, rfl, by omega, by omega⟩
      · exact h4 p hp

/-- exactly one node has no outgoing edge -/
theorem merkleTree_single {H : List B → List B} {L : Nat} (hL : ∀ x, (H x).length = L) {bs : List (List B)} (h0 : bs ≠ [])
    (hc : NoCollision H (merkleInputs H bs)) (hb : ∀ b ∈ bs, b.length ≠ 2 * L) :
    ∃ g r, merkleTree H bs = some (some g) ∧ g.nodesOutDeg 0 = [r] := by
  obtain ⟨g, h1, h2, h3, h4, h5⟩ := merkleTree_main H bs h0
  have hmap : (bs.map MT.leaf).map (fun t => t.val H) = bs.map H := by rw [List.map_map]; rfl
  obtain ⟨T, t1, t2, t3, t4⟩ := merkle_trees (H := H) (bs := bs) (S := (merklePairs H (bs.map H)).map (fun p => p.1 ++ p.2)) _ (bs.map MT.leaf)
    (Nat.le_refl _) (by simpa using h0)
    (fun t ht => by obtain ⟨b, hb, rfl⟩ := List.mem_map.1 ht; exact hb)
    (fun p hp => by rw [hmap] at hp; exact List.mem_map.2 ⟨p, hp, rfl⟩)
  rw [hmap] at t2 t4
  have hroot : T.val H ∈ g.nodesOutDeg 0 := by
    rw [mem_nodesOutDeg_zero h2 h3]
    refine ⟨?_, fun m => ?_⟩
    · obtain ⟨_, _, a3⟩ := merkle_used H _ _ (Nat.le_refl _) _ t2
      rw [h4]
      unfold merkleInputs
      rcases a3 with h | ⟨p, hp, h⟩
      · obtain ⟨b, hb, h⟩ := List.mem_map.1 h
        exact ⟨b, by simp [hb], h.symm⟩
      · exact ⟨_, List.mem_append_right _ (List.mem_map.2 ⟨p, hp, rfl⟩), h⟩
    · cases he : g.edge (T.val H) m with
      | none => rfl
      | some v =>
        obtain ⟨p, hp, _, h⟩ := (h5 _ _).1 (by rw [he]; rfl)
        obtain ⟨l, r, w1, w2, e1, e2, s1, s2⟩ := t4 p hp
        rcases h with h | h
        · have := MT.val_inj hL hc hb T l t1 w1 (h.trans e1)
          rw [← this] at s1; omega
        · have := MT.val_inj hL hc hb T r t1 w2 (h.trans e2)
          rw [← this] at s2; omega
  refine ⟨g, T.val H, h1, ?_⟩
  have hall : ∀ x ∈ g.nodesOutDeg 0, x = T.val H := by
    intro x hx
    have := merkleTree_root H h1 hx
    rw [t2] at this; exact (Option.some.inj this).symm
  have hnd : (g.nodesOutDeg 0).Nodup := nodup_degFilter h2.outWF 0
  match hl : g.nodesOutDeg 0, hroot, hall, hnd with
  | [x], _, hall, _ => rw [hall x (by simp)]
  | x :: y :: l, _, hall, hnd =>
    rw [List.nodup_cons] at hnd
    exact absurd (by rw [hall x (by simp), hall y (by simp)]; simp) hnd.1

end GT

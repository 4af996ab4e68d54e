import Verif.Graph.HeapProofs
import Verif.Graph.FuncLemmas
import Verif.Graph.Serial
/-
Programs that hold several graph objects and dictionaries of their own: nothing is shared.
-/
namespace GT
namespace Mem
variable {α V O : Type} [DecidableEq α]

/-- two objects share no dictionary -/
structure Apart (h : Heap α V O) (o o' : Ref) : Prop where
  self : o.self ≠ o'.self
  nodes : o.nodes ≠ o'.nodes
  ee : o.edges ≠ o'.edges
  er : o.edges ≠ o'.rev
  re : o.rev ≠ o'.edges
  rr : o.rev ≠ o'.rev
  ii : o.inDeg ≠ o'.inDeg
  io : o.inDeg ≠ o'.outDeg
  oi : o.outDeg ≠ o'.inDeg
  oo : o.outDeg ≠ o'.outDeg
  own : ∀ r ∈ own h o, r ∉ own h o'

omit [DecidableEq α] in
theorem Apart.symm {h : Heap α V O} {o o' : Ref} (a : Apart h o o') : Apart h o' o :=
  ⟨a.self.symm, a.nodes.symm, a.ee.symm, a.re.symm, a.er.symm, a.rr.symm, a.ii.symm, a.oi.symm,
   a.io.symm, a.oo.symm, fun r h1 h2 => a.own r h2 h1⟩

omit [DecidableEq α] in
theorem own_congr {h h' : Heap α V O} {o : Ref} (h1 : h'.out o.edges = h.out o.edges)
    (h2 : h'.out o.rev = h.out o.rev) : own h' o = own h o := by unfold own; rw [h1, h2]

omit [DecidableEq α] in
theorem OK.congr {h h' : Heap α V O} {o : Ref} (k : OK h o) (hn : h.next ≤ h'.next)
    (h1 : h'.out o.edges = h.out o.edges) (h2 : h'.out o.rev = h.out o.rev) : OK h' o where
  pair := ⟨k.pair.ne, by rw [h1, h2]; exact k.pair.nodup,
    by rw [h1, h2]; exact fun r hr => Nat.lt_of_lt_of_le (k.pair.lt r hr) hn⟩
  degs := k.degs
  self := Nat.lt_of_lt_of_le k.self hn
  nodes := Nat.lt_of_lt_of_le k.nodes hn
  edges := Nat.lt_of_lt_of_le k.edges hn
  rev := Nat.lt_of_lt_of_le k.rev hn
  inDeg := Nat.lt_of_lt_of_le k.inDeg hn
  outDeg := Nat.lt_of_lt_of_le k.outDeg hn

omit [DecidableEq α] in
theorem view_congr {h h' : Heap α V O} {o : Ref} (hn : h'.nds o.nodes = h.nds o.nodes)
    (h1 : h'.out o.edges = h.out o.edges) (h2 : h'.out o.rev = h.out o.rev)
    (hr : ∀ r ∈ own h o, h'.row r = h.row r) (hi : h'.deg o.inDeg = h.deg o.inDeg)
    (ho : h'.deg o.outDeg = h.deg o.outDeg) (hc : h'.cnt o.self = h.cnt o.self) :
    h'.view o = h.view o := by
  unfold Heap.view
  rw [hn, nested_congr h1 (fun r h => hr r (List.mem_append.2 (Or.inl h))),
    nested_congr h2 (fun r h => hr r (List.mem_append.2 (Or.inr h))), hi, ho, hc]

omit [DecidableEq α] in
/-- what a method of `o` does to another object: nothing -/
theorem Local.frame {h h' : Heap α V O} {o o' : Ref} (l : Local o h h') (a : Apart h o o')
    (k : OK h o') : h'.view o' = h.view o' ∧ OK h' o' ∧ Mem.own h' o' = Mem.own h o' ∧ Apart h' o o' := by
  have h1 := l.out o'.edges a.ee.symm a.re.symm
  have h2 := l.out o'.rev a.er.symm a.rr.symm
  refine ⟨view_congr (l.nds _ a.nodes.symm) h1 h2 ?_ (l.deg _ a.ii.symm a.oi.symm)
    (l.deg _ a.io.symm a.oo.symm) (l.cnt _ a.self.symm), k.congr l.next h1 h2, own_congr h1 h2,
    ⟨a.self, a.nodes, a.ee, a.er, a.re, a.rr, a.ii, a.io, a.oi, a.oo, ?_⟩⟩
  · intro r hr
    exact l.row r (k.pair.lt r hr) (fun h3 => a.own r h3 hr)
  · rw [own_congr h1 h2]
    intro r hr hr'
    rcases l.own r hr with h3 | h3
    · exact a.own r h3 hr'
    · exact absurd (k.pair.lt r hr') (Nat.not_lt.2 h3)

/-- `h'` has all of `h`, unchanged, and new memory -/
structure Ext (h h' : Heap α V O) : Prop where
  next : h.next ≤ h'.next
  nds : ∀ a, a < h.next → h'.nds a = h.nds a
  out : ∀ a, a < h.next → h'.out a = h.out a
  row : ∀ a, a < h.next → h'.row a = h.row a
  deg : ∀ a, a < h.next → h'.deg a = h.deg a
  cnt : ∀ a, a < h.next → h'.cnt a = h.cnt a

omit [DecidableEq α] in
theorem Ext.refl (h : Heap α V O) : Ext h h :=
  ⟨Nat.le_refl _, fun _ _ => rfl, fun _ _ => rfl, fun _ _ => rfl, fun _ _ => rfl, fun _ _ => rfl⟩

omit [DecidableEq α] in
theorem Ext.frame {h h' : Heap α V O} (e : Ext h h') {o : Ref} (k : OK h o) :
    h'.view o = h.view o ∧ OK h' o ∧ own h' o = own h o := by
  have h1 := e.out _ k.edges
  have h2 := e.out _ k.rev
  exact ⟨view_congr (e.nds _ k.nodes) h1 h2 (fun r hr => e.row r (k.pair.lt r hr))
    (e.deg _ k.inDeg) (e.deg _ k.outDeg) (e.cnt _ k.self), k.congr e.next h1 h2, own_congr h1 h2⟩

/-- the object `o` is made of memory that is new with respect to `h` -/
structure Above (h : Heap α V O) (h' : Heap α V O) (o : Ref) : Prop where
  self : h.next ≤ o.self
  nodes : h.next ≤ o.nodes
  edges : h.next ≤ o.edges
  rev : h.next ≤ o.rev
  inDeg : h.next ≤ o.inDeg
  outDeg : h.next ≤ o.outDeg
  own : ∀ r ∈ own h' o, h.next ≤ r

omit [DecidableEq α] in
theorem Ext.local {h h1 h2 : Heap α V O} {o : Ref} (e : Ext h h1) (a : Above h h1 o)
    (l : Local o h1 h2) : Ext h h2 ∧ Above h h2 o := by
  have lt : ∀ {x y : Nat}, x < h.next → h.next ≤ y → x ≠ y := fun h1 h2 h3 => by omega
  refine ⟨⟨Nat.le_trans e.next l.next, ?_, ?_, ?_, ?_, ?_⟩,
    ⟨a.self, a.nodes, a.edges, a.rev, a.inDeg, a.outDeg, ?_⟩⟩
  · exact fun x hx => (l.nds x (lt hx a.nodes)).trans (e.nds x hx)
  · exact fun x hx => (l.out x (lt hx a.edges) (lt hx a.rev)).trans (e.out x hx)
  · exact fun x hx => (l.row x (Nat.lt_of_lt_of_le hx e.next)
      (fun h3 => absurd hx (Nat.not_lt.2 (a.own x h3)))).trans (e.row x hx)
  · exact fun x hx => (l.deg x (lt hx a.inDeg) (lt hx a.outDeg)).trans (e.deg x hx)
  · exact fun x hx => (l.cnt x (lt hx a.self)).trans (e.cnt x hx)
  · intro r hr
    rcases l.own r hr with h3 | h3
    · exact a.own r h3
    · exact Nat.le_trans e.next h3

/-! ### building a new graph -/

omit [DecidableEq α] in
theorem newGraph_spec (h : Heap α V O) :
    Ext h (newGraph h).1 ∧ Above h (newGraph h).1 (newGraph h).2 ∧ OK (newGraph h).1 (newGraph h).2 ∧
      (newGraph h).1.view (newGraph h).2 = Graph.empty := by
  have hne : h.next + 2 ≠ h.next + 3 := by omega
  have he : (newGraph h).1.out (newGraph h).2.edges = .empty := by
    simp [newGraph, upd]
  have hr : (newGraph h).1.out (newGraph h).2.rev = .empty := by
    simp [newGraph, upd]
  have hown : own (newGraph h).1 (newGraph h).2 = [] := by
    unfold own; rw [he, hr]; rfl
  refine ⟨⟨by simp [newGraph], ?_, ?_, ?_, ?_, ?_⟩,
    ⟨by simp [newGraph], by simp [newGraph], by simp [newGraph], by simp [newGraph],
      by simp [newGraph], by simp [newGraph], by simp [hown]⟩,
    ⟨⟨by simp [newGraph], ?_, ?_⟩, by simp [newGraph], by simp [newGraph], by simp [newGraph],
      by simp [newGraph], by simp [newGraph], by simp [newGraph], by simp [newGraph]⟩, ?_⟩
  · intro a ha; simp only [newGraph, upd]; rw [if_neg (by omega)]
  · intro a ha; simp only [newGraph, upd]; rw [if_neg (by omega), if_neg (by omega)]
  · intro a ha; rfl
  · intro a ha; simp only [newGraph, upd]; rw [if_neg (by omega), if_neg (by omega)]
  · intro a ha; simp only [newGraph, upd]; rw [if_neg (by omega)]
  · have := hown; unfold own at this; rw [this]; exact List.nodup_nil
  · have := hown; unfold own at this; rw [this]; simp
  · unfold Heap.view Heap.nested
    rw [he, hr]
    simp [newGraph, upd, Graph.empty, Dict.empty]

theorem foldl_keys_items {σ : Type} {W : Type} (d : Dict α W) (hd : d.WF) (f : σ → α → Option W → σ)
    (s : σ) : d.keys.foldl (fun s n => f s n (d.get? n)) s
      = d.items.foldl (fun s p => f s p.1 (some p.2)) s := by
  unfold Dict.keys
  rw [List.foldl_map]
  suffices H : ∀ l : List (α × W), (∀ p ∈ l, p ∈ d.items) → ∀ s,
      l.foldl (fun s p => f s p.1 (d.get? p.1)) s = l.foldl (fun s p => f s p.1 (some p.2)) s from
    H _ (fun _ h => h) s
  intro l
  induction l with
  | nil => intros; rfl
  | cons p l ih =>
    intro hl s
    have : d.get? p.1 = some p.2 := aget_of_mem hd (hl p (by simp))
    simp only [List.foldl_cons, this]
    exact ih (fun q hq => hl q (List.mem_cons_of_mem _ hq)) _

theorem copy_spec {h : Heap α V O} {src : Ref} (k : OK h src) (hi : (h.view src).Inv) :
    ∃ h' o, copy h src = .ok (h', o) ∧ Ext h h' ∧ Above h h' o ∧ OK h' o ∧
      h'.view o = (h.view src).copy := by
  obtain ⟨e0, a0, k0, v0⟩ := newGraph_spec h
  unfold copy
  revert e0 a0 k0 v0
  generalize newGraph h = no
  obtain ⟨h0, o⟩ := no
  intro e0 a0 k0 v0
  simp only at e0 a0 k0 v0 ⊢
  have i0 : (h0.view o).Inv := by rw [v0]; exact Graph.inv_empty
  have hP : ∀ h1 h2, (Ext h h1 ∧ Above h h1 o) → Local o h1 h2 → OK h2 o → (Ext h h2 ∧ Above h h2 o) :=
    fun _ _ p l _ => p.1.local p.2 l
  have hsrc0 : h0.nds src.nodes = (h.view src).nodes := e0.nds _ k.nodes
  obtain ⟨h1, e1, s1⟩ := st_forE (o := o) (h0.nds src.nodes).keys
    (f := copyNode src o)
    (g := fun g n => g.addNode n ((h.view src).nodes.get? n).join)
    (fun h1 => Ext h h1 ∧ Above h h1 o) hP
    (by
      intro h1 n p hn k1 _
      have hs : h1.nds src.nodes = (h.view src).nodes := p.1.nds _ k.nodes
      rw [hsrc0] at hn
      obtain ⟨v, hv⟩ := Dict.exists_get?_of_mem_keys hn
      refine ⟨_, by simp only [copyNode, hs, Dict.getE, hv]; rfl, ?_⟩
      rw [hv]
      exact st_addNode k1 n v)
    (fun k x _ hk => hk.addNode x _) ⟨e0, a0⟩ k0 i0
  simp only [e1]
  obtain ⟨e1', a1⟩ := e0.local a0 s1.loc
  have hv1 : h1.view src = h.view src := (e1'.frame k).1
  have i1 : (h1.view o).Inv := by
    rw [s1.val]
    have : ∀ (l : List α) (g : Graph α V O), g.Inv →
        (l.foldl (fun g n => g.addNode n ((h.view src).nodes.get? n).join) g).Inv := by
      intro l
      induction l with
      | nil => intro g hg; exact hg
      | cons x l ih => intro g hg; exact ih _ (hg.addNode x _)
    exact this _ _ i0
  obtain ⟨h2, e2, s2⟩ := st_forE (o := o) (h1.view src).edgeList
    (f := fun h e => addEdge1 h o e.1 e.2.1 e.2.2)
    (g := fun g e => g.addEdge e.1 e.2.1 e.2.2)
    (fun h1 => Ext h h1 ∧ Above h h1 o) hP
    (fun h1 e _ _ k1 i1 => st_addEdge1 k1 i1 e.1 e.2.1 e.2.2)
    (fun k x _ hk => hk.addEdge _ _ _) ⟨e1', a1⟩ s1.ok i1
  simp only [e2]
  obtain ⟨e2', a2⟩ := e1'.local a1 s2.loc
  refine ⟨h2, o, rfl, e2', a2, s2.ok, ?_⟩
  rw [s2.val, s1.val, v0, hv1, hsrc0]
  unfold Graph.copy Graph.addEdges
  rw [foldl_keys_items _ hi.nodesWF (fun (g : Graph α V O) n w => g.addNode n w.join)]
  rfl

theorem foldl_inv {β : Type} (l : List β) (f : Graph α V O → β → Graph α V O)
    (hf : ∀ g x, g.Inv → (f g x).Inv) (g : Graph α V O) (hg : g.Inv) : (l.foldl f g).Inv := by
  induction l generalizing g with
  | nil => exact hg
  | cons x l ih => exact ih _ (hf g x hg)

theorem subgraph_spec {h : Heap α V O} {src : Ref} (k : OK h src) (nodes : List α) :
    ∃ h' o, subgraph h src nodes = .ok (h', o) ∧ Ext h h' ∧ Above h h' o ∧ OK h' o ∧
      h'.view o = (h.view src).subgraph nodes := by
  obtain ⟨e0, a0, k0, v0⟩ := newGraph_spec h
  unfold subgraph
  revert e0 a0 k0 v0
  generalize newGraph h = no
  obtain ⟨h0, o⟩ := no
  intro e0 a0 k0 v0
  simp only at e0 a0 k0 v0 ⊢
  have i0 : (h0.view o).Inv := by rw [v0]; exact Graph.inv_empty
  have hP : ∀ h1 h2, (Ext h h1 ∧ Above h h1 o) → Local o h1 h2 → OK h2 o → (Ext h h2 ∧ Above h h2 o) :=
    fun _ _ p l _ => p.1.local p.2 l
  have hstep : ∀ (g : Graph α V O) (n1 : α) (e : α × α × V), g.Inv →
      (if e.2.1 ∈ nodes then g.addEdge n1 e.2.1 e.2.2 else g).Inv := by
    intro g n1 e hg; split
    · exact hg.addEdge _ _ _
    · exact hg
  obtain ⟨h1, e1, s1⟩ := st_forE (o := o) nodes
    (f := subStep src o nodes)
    (g := fun g n1 => ((h.view src).edgesFrom n1).foldl
      (fun (g : Graph α V O) (e : α × α × V) => if e.2.1 ∈ nodes then g.addEdge n1 e.2.1 e.2.2 else g)
      (g.addNode n1 ((h.view src).node n1)))
    (fun h1 => Ext h h1 ∧ Above h h1 o) hP
    (by
      intro h1 n p _ k1 i1
      have hv1 : h1.view src = h.view src := (p.1.frame k).1
      have t := st_addNode k1 n ((h1.view src).node n)
      have p2 := p.1.local p.2 t.loc
      have hv2 : (addNode h1 o n ((h1.view src).node n)).view src = h.view src := (p2.1.frame k).1
      obtain ⟨h2, e2, s2⟩ := st_forE (o := o) ((h.view src).edgesFrom n)
        (f := fun h e => if e.2.1 ∈ nodes then addEdge1 h o n e.2.1 e.2.2 else .ok h)
        (g := fun g e => if e.2.1 ∈ nodes then g.addEdge n e.2.1 e.2.2 else g)
        (fun h1 => Ext h h1 ∧ Above h h1 o) hP
        (by
          intro h3 e _ _ k3 i3
          by_cases hm : e.2.1 ∈ nodes
          · simp only [if_pos hm]; exact st_addEdge1 k3 i3 _ _ _
          · simp only [if_neg hm]; exact ⟨_, rfl, St.refl k3⟩)
        (fun k x _ hk => hstep k n x hk) p2 t.ok (by rw [t.val]; exact i1.addNode _ _)
      refine ⟨h2, by simp only [subStep, hv2]; exact e2, ?_⟩
      have s := t.trans s2
      rw [t.val, hv1] at s
      exact s)
    (fun k x _ hk => foldl_inv _ _ (fun g e hg => hstep g x e hg) _ (hk.addNode _ _)) ⟨e0, a0⟩ k0 i0
  simp only [e1]
  obtain ⟨e1', a1⟩ := e0.local a0 s1.loc
  refine ⟨h1, o, rfl, e1', a1, s1.ok, ?_⟩
  rw [s1.val, v0]
  rfl

/-! ### to_dict, from_dict -/

theorem toDict_loop_heap (l : List (α × α × V)) {A : Nat} {h : Heap α V O} (p : One h A)
    {d : Dict α (Dict α V)}
    (hd : Graph.forE l (h.nested A) (fun (d : Dict α (Dict α V)) e => match d.get? e.1 with
      | none => .error .keyError
      | some row => .ok (d.set e.1 (row.set e.2.1 e.2.2))) = .ok d) :
    ∃ h', Graph.forE l h (fun h e => setInRow h A e.1 e.2.1 e.2.2) = .ok h' ∧ Eff1 h A h' d := by
  induction l generalizing h with
  | nil =>
    simp only [Graph.forE, Except.ok.injEq] at hd
    subst hd
    exact ⟨h, rfl, Eff1.refl p⟩
  | cons e l ih =>
    simp only [Graph.forE] at hd ⊢
    cases hk : (h.out A).get? e.1 with
    | none =>
      rw [nested_get?, hk] at hd
      simp at hd
    | some r =>
      rw [nested_get?, hk] at hd
      simp only [Option.map_some] at hd
      have t := eff1_updRow p hk ((h.row r).set e.2.1 e.2.2)
      simp only [setInRow, hk]
      obtain ⟨h', e', s'⟩ := ih t.one (by rw [t.here]; exact hd)
      exact ⟨h', e', t.trans s'⟩

theorem toDict_init_heap (l : List α) {A : Nat} {h : Heap α V O} (p : One h A) :
    Eff1 h A (newRows A l h)
      (l.foldl (fun (d : Dict α (Dict α V)) n => d.set n .empty) (h.nested A)) := by
  induction l generalizing h with
  | nil => exact Eff1.refl p
  | cons n l ih =>
    unfold newRows at ih ⊢
    have t := eff1_newRow p n (Dict.empty : Dict α V)
    have := t.trans (ih t.one)
    rw [t.here] at this
    exact this

omit [DecidableEq α] in
theorem Eff1.ext {h h' : Heap α V O} {A : Nat} {d : Dict α (Dict α V)} (e : Eff1 h A h' d)
    {n : Nat} (hn : n ≤ A) (hA : (h.out A).values = []) :
    (∀ a, a < n → h'.nds a = h.nds a ∧ h'.out a = h.out a ∧ h'.deg a = h.deg a ∧ h'.cnt a = h.cnt a) ∧
      ∀ r, r < h.next → h'.row r = h.row r :=
  ⟨fun a ha => ⟨by rw [e.nds], e.out a (by omega), by rw [e.deg], by rw [e.cnt]⟩,
   fun r hr => e.row r hr (by rw [hA]; simp)⟩

theorem toDict_spec {h : Heap α V O} {src : Ref} (k : OK h src) (hi : (h.view src).Inv) :
    ∃ h' A, toDict h src = .ok (h', A) ∧ Ext h h' ∧ h.next ≤ A ∧ A < h'.next ∧
      (∀ r ∈ (h'.out A).values, h.next ≤ r ∧ r < h'.next) ∧
      (h.view src).toDictE = .ok (h'.nested A) := by
  obtain ⟨d, hd, _⟩ := hi.toDict_spec
  unfold toDict
  simp only
  have h0out : (allocDict h).out h.next = .empty := upd_self _ _ _
  have h0next : (allocDict h).next = h.next + 1 := rfl
  have x0 : Ext h (allocDict h) := ⟨Nat.le_succ _, fun _ _ => rfl, fun a ha => upd_ne _ _ (Nat.ne_of_lt ha),
    fun _ _ => rfl, fun _ _ => rfl, fun _ _ => rfl⟩
  revert h0out h0next x0
  generalize allocDict h = h0
  intro h0out h0next x0
  have n0 : h0.nested h.next = .empty := by unfold Heap.nested; rw [h0out]; rfl
  have p0 : One h0 h.next := ⟨by rw [h0out]; exact List.nodup_nil, by rw [h0out]; simp [Dict.empty, Dict.values]⟩
  have v0 : h0.view src = h.view src := (x0.frame k).1
  have t1 := toDict_init_heap (h.view src).nodeList p0
  rw [v0]
  revert t1
  generalize newRows h.next (h.view src).nodeList h0 = h1
  intro t1
  have hA0 : (h0.out h.next).values = [] := by rw [h0out]; rfl
  have x1 : Ext h h1 := by
    have f := t1.ext (n := h.next) (Nat.le_refl _) hA0
    exact ⟨Nat.le_trans x0.next t1.next, fun a ha => ((f.1 a ha).1).trans (x0.nds a ha),
      fun a ha => ((f.1 a ha).2.1).trans (x0.out a ha),
      fun a ha => (f.2 a (by omega)).trans (x0.row a ha),
      fun a ha => ((f.1 a ha).2.2.1).trans (x0.deg a ha),
      fun a ha => ((f.1 a ha).2.2.2).trans (x0.cnt a ha)⟩
  have v1 : h1.view src = h.view src := (x1.frame k).1
  rw [v1]
  have hd' := hd
  unfold Graph.toDictE at hd'
  rw [← n0, ← t1.here] at hd'
  obtain ⟨h2, e2, t2⟩ := toDict_loop_heap _ t1.one hd'
  have t := t1.trans t2
  rw [e2]
  refine ⟨h2, h.next, rfl, ?_, Nat.le_refl _, by have := t.next; omega, ?_, ?_⟩
  · have f := t.ext (n := h.next) (Nat.le_refl _) hA0
    exact ⟨Nat.le_trans x0.next t.next, fun a ha => ((f.1 a ha).1).trans (x0.nds a ha),
      fun a ha => ((f.1 a ha).2.1).trans (x0.out a ha),
      fun a ha => (f.2 a (by omega)).trans (x0.row a ha),
      fun a ha => ((f.1 a ha).2.2.1).trans (x0.deg a ha),
      fun a ha => ((f.1 a ha).2.2.2).trans (x0.cnt a ha)⟩
  · intro r hr
    refine ⟨?_, t.lt r hr⟩
    rcases t.own r hr with h3 | h3
    · rw [hA0] at h3; cases h3
    · exact Nat.le_trans x0.next h3
  · rw [hd, t.here]

/-- the dictionary at `A` is not part of `o` -/
structure Foreign (h : Heap α V O) (o : Ref) (A : Nat) : Prop where
  ne : A ≠ o.edges ∧ A ≠ o.rev
  rows : ∀ r ∈ (h.out A).values, r < h.next ∧ r ∉ own h o

theorem fromDict_spec {h : Heap α V O} {o : Ref} (k : OK h o) (hi : (h.view o).Inv) {A : Nat}
    (hA : Foreign h o A) :
    ∃ h', fromDict h o A = .ok h' ∧ St o h h' ((h.view o).fromDict (h.nested A)) := by
  unfold fromDict
  have hP : ∀ h1 h2 : Heap α V O, (Local o h h1) → Local o h1 h2 → OK h2 o → Local o h h2 :=
    fun _ _ p l _ => p.trans l
  obtain ⟨h', e', s'⟩ := st_forE (o := o) (h.out A).items
    (f := fun h p =>
      if (h.row p.2).isEmpty then .ok (addNode h o p.1 none)
      else Graph.forE (h.row p.2).items h (fun h q => addEdge1 h o p.1 q.1 q.2))
    (g := fun g p => if (h.row p.2).isEmpty then g.addNode p.1 none
      else (h.row p.2).items.foldl (fun g q => g.addEdge p.1 q.1 q.2) g)
    (fun h1 => Local o h h1) hP
    (by
      intro h1 p l hp k1 i1
      have hr := hA.rows p.2 (List.mem_map.2 ⟨p, hp, rfl⟩)
      have hrow : h1.row p.2 = h.row p.2 := l.row p.2 hr.1 hr.2
      simp only [hrow]
      by_cases hem : (h.row p.2).isEmpty = true
      · simp only [hem, if_true]; exact ⟨_, rfl, st_addNode k1 _ _⟩
      · simp only [hem]
        exact st_forE (o := o) (h.row p.2).items
          (f := fun h q => addEdge1 h o p.1 q.1 q.2) (g := fun g q => g.addEdge p.1 q.1 q.2)
          (fun _ => True) (fun _ _ _ _ _ => trivial)
          (fun h1 q _ _ k1 i1 => st_addEdge1 k1 i1 _ _ _) (fun k x _ hk => hk.addEdge _ _ _)
          trivial k1 i1)
    (by
      intro k x _ hk
      split
      · exact hk.addNode _ _
      · exact foldl_inv _ _ (fun g e hg => hg.addEdge _ _ _) _ hk)
    (Local.refl o h) k hi
  refine ⟨h', e', ?_⟩
  have : (h.view o).fromDict (h.nested A) = (h.out A).items.foldl (fun g p =>
      if (h.row p.2).isEmpty then g.addNode p.1 none
      else (h.row p.2).items.foldl (fun g q => g.addEdge p.1 q.1 q.2) g) (h.view o) := by
    unfold Graph.fromDict Heap.nested
    rw [List.foldl_map]
  rw [this]
  exact s'

/-! ### programs -/

/-- nothing is shared between graph objects, or between a graph object and the caller -/
structure WOK (w : World α V O) : Prop where
  ok : ∀ o ∈ w.objs, OK w.heap o
  built : ∀ o ∈ w.objs, (w.heap.view o).Built
  sep : ∀ (i j : Nat) (o o' : Ref), w.objs[i]? = some o → w.objs[j]? = some o' → i ≠ j → Apart w.heap o o'
  dictLt : ∀ A ∈ w.dicts, A < w.heap.next
  rowLt : ∀ r ∈ w.rows, r < w.heap.next
  dictRows : ∀ A ∈ w.dicts, ∀ r ∈ (w.heap.out A).values, r ∈ w.rows
  dictApart : ∀ A ∈ w.dicts, ∀ o ∈ w.objs, A ≠ o.edges ∧ A ≠ o.rev
  rowApart : ∀ r ∈ w.rows, ∀ o ∈ w.objs, r ∉ own w.heap o

theorem wok_start : WOK (World.start : World α V O) := by
  constructor <;> simp [World.start]

/-- a method of object `i` -/
theorem wok_local {w : World α V O} (k : WOK w) {i : Nat} {o : Ref} (ho : w.objs[i]? = some o)
    {h' : Heap α V O} {g : Graph α V O} (s : St o w.heap h' g) (hg : g.Built) :
    WOK { w with heap := h' } ∧ SameDicts w { w with heap := h' } ∧
      (∀ j o', w.objs[j]? = some o' → h'.view o' = if j = i then g else w.heap.view o') := by
  have hmem := List.mem_of_getElem? ho
  have other : ∀ j o', w.objs[j]? = some o' → j ≠ i → _ := fun j o' hj hji =>
    s.loc.frame (k.sep i j o o' ho hj (Ne.symm hji)) (k.ok o' (List.mem_of_getElem? hj))
  have each : ∀ o' ∈ w.objs, ∃ j, w.objs[j]? = some o' := fun o' ho' => List.mem_iff_getElem?.1 ho'
  refine ⟨⟨?_, ?_, ?_, ?_, ?_, ?_, k.dictApart, ?_⟩, ⟨?_, ?_⟩, ?_⟩
  · intro o' ho'
    obtain ⟨j, hj⟩ := each o' ho'
    by_cases hji : j = i
    · subst hji; rw [ho] at hj; cases hj; exact s.ok
    · exact (other j o' hj hji).2.1
  · intro o' ho'
    obtain ⟨j, hj⟩ := each o' ho'
    by_cases hji : j = i
    · subst hji; rw [ho] at hj; cases hj; show (h'.view o).Built; rw [s.val]; exact hg
    · show (h'.view o').Built; rw [(other j o' hj hji).1]; exact k.built o' ho'
  · intro a b oa ob ha hb hab
    show Apart h' oa ob
    by_cases hai : a = i
    · subst hai; rw [ho] at ha; cases ha
      exact (other b ob hb (Ne.symm hab)).2.2.2
    · by_cases hbi : b = i
      · subst hbi; rw [ho] at hb; cases hb
        exact (other a oa ha hai).2.2.2.symm
      · have h1 := (other a oa ha hai).2.2.1
        have h2 := (other b ob hb hbi).2.2.1
        have := k.sep a b oa ob ha hb hab
        exact ⟨this.self, this.nodes, this.ee, this.er, this.re, this.rr, this.ii, this.io, this.oi,
          this.oo, by rw [h1, h2]; exact this.own⟩
  · exact fun A hA => Nat.lt_of_lt_of_le (k.dictLt A hA) s.loc.next
  · exact fun r hr => Nat.lt_of_lt_of_le (k.rowLt r hr) s.loc.next
  · intro A hA r hr
    have := k.dictApart A hA o hmem
    rw [show ({ w with heap := h' } : World α V O).heap = h' from rfl, s.loc.out A this.1 this.2] at hr
    exact k.dictRows A hA r hr
  · intro r hr o' ho'
    obtain ⟨j, hj⟩ := each o' ho'
    by_cases hji : j = i
    · subst hji; rw [ho] at hj; cases hj
      intro h1
      rcases s.loc.own r h1 with h2 | h2
      · exact k.rowApart r hr o hmem h2
      · exact absurd (k.rowLt r hr) (Nat.not_lt.2 h2)
    · show r ∉ own h' o'
      rw [(other j o' hj hji).2.2.1]; exact k.rowApart r hr o' ho'
  · intro A hA
    have := k.dictApart A hA o hmem
    exact s.loc.out A this.1 this.2
  · intro r hr
    exact s.loc.row r (k.rowLt r hr) (k.rowApart r hr o hmem)
  · intro j o' hj
    by_cases hji : j = i
    · subst hji; rw [ho] at hj; cases hj; simp [s.val]
    · rw [if_neg hji]; exact (other j o' hj hji).1

theorem ext_same {w : World α V O} (k : WOK w) {h' : Heap α V O} (e : Ext w.heap h') :
    (∀ A ∈ w.dicts, h'.out A = w.heap.out A) ∧ ∀ r ∈ w.rows, h'.row r = w.heap.row r :=
  ⟨fun A hA => e.out A (k.dictLt A hA), fun r hr => e.row r (k.rowLt r hr)⟩

/-- a new graph object -/
theorem wok_newObj {w : World α V O} (k : WOK w) {h' : Heap α V O} (e : Ext w.heap h') {o : Ref}
    (a : Above w.heap h' o) (ko : OK h' o) (hb : (h'.view o).Built) :
    WOK { w with heap := h', objs := w.objs ++ [o] } := by
  have old : ∀ o' ∈ w.objs, _ := fun o' ho' => e.frame (k.ok o' ho')
  have apart : ∀ o' ∈ w.objs, Apart h' o o' := by
    intro o' ho'
    have k' := k.ok o' ho'
    have lt : ∀ {x y : Nat}, w.heap.next ≤ x → y < w.heap.next → x ≠ y := fun h1 h2 h3 => by omega
    exact ⟨lt a.self k'.self, lt a.nodes k'.nodes, lt a.edges k'.edges, lt a.edges k'.rev,
      lt a.rev k'.edges, lt a.rev k'.rev, lt a.inDeg k'.inDeg, lt a.inDeg k'.outDeg,
      lt a.outDeg k'.inDeg, lt a.outDeg k'.outDeg, by
        intro r hr hr'
        rw [(old o' ho').2.2] at hr'
        exact absurd (k'.pair.lt r hr') (Nat.not_lt.2 (a.own r hr))⟩
  refine ⟨?_, ?_, ?_, ?_, ?_, ?_, ?_, ?_⟩
  · intro o' ho'
    rcases List.mem_append.1 ho' with h1 | h1
    · exact (old o' h1).2.1
    · simp only [List.mem_singleton] at h1; subst h1; exact ko
  · intro o' ho'
    rcases List.mem_append.1 ho' with h1 | h1
    · show (h'.view o').Built; rw [(old o' h1).1]; exact k.built o' h1
    · simp only [List.mem_singleton] at h1; subst h1; exact hb
  · intro i j oi oj hi hj hij
    show Apart h' oi oj
    simp only [List.getElem?_append] at hi hj
    split at hi <;> split at hj
    · have := k.sep i j oi oj hi hj hij
      have m1 := (old oi (List.mem_of_getElem? hi)).2.2
      have m2 := (old oj (List.mem_of_getElem? hj)).2.2
      exact ⟨this.self, this.nodes, this.ee, this.er, this.re, this.rr, this.ii, this.io, this.oi,
          this.oo, by rw [m1, m2]; exact this.own⟩
    · have : oj = o := by
        have := List.mem_of_getElem? hj; simpa using this
      subst this
      exact (apart oi (List.mem_of_getElem? hi)).symm
    · have : oi = o := by
        have := List.mem_of_getElem? hi; simpa using this
      subst this
      exact apart oj (List.mem_of_getElem? hj)
    · exfalso
      have h1 := (List.getElem?_eq_some_iff.1 hi).1
      have h2 := (List.getElem?_eq_some_iff.1 hj).1
      simp only [List.length_singleton] at h1 h2
      omega
  · exact fun A hA => Nat.lt_of_lt_of_le (k.dictLt A hA) e.next
  · exact fun r hr => Nat.lt_of_lt_of_le (k.rowLt r hr) e.next
  · intro A hA r hr
    rw [(ext_same k e).1 A hA] at hr
    exact k.dictRows A hA r hr
  · intro A hA o' ho'
    rcases List.mem_append.1 ho' with h1 | h1
    · exact k.dictApart A hA o' h1
    · simp only [List.mem_singleton] at h1; subst h1
      have := k.dictLt A hA
      exact ⟨fun h2 => absurd a.edges (by omega), fun h2 => absurd a.rev (by omega)⟩
  · intro r hr o' ho'
    rcases List.mem_append.1 ho' with h1 | h1
    · show r ∉ own h' o'
      rw [(old o' h1).2.2]; exact k.rowApart r hr o' h1
    · simp only [List.mem_singleton] at h1; subst h1
      intro h2
      exact absurd (k.rowLt r hr) (Nat.not_lt.2 (a.own r h2))

/-- new dictionaries and rows of the caller -/
theorem wok_newDicts {w : World α V O} (k : WOK w) {h' : Heap α V O} (e : Ext w.heap h')
    (ds rs : List Nat) (hds : ∀ A ∈ ds, w.heap.next ≤ A ∧ A < h'.next)
    (hrs : ∀ r ∈ rs, w.heap.next ≤ r ∧ r < h'.next)
    (hdr : ∀ A ∈ ds, ∀ r ∈ (h'.out A).values, r ∈ rs ∨ r ∈ w.rows) :
    WOK { w with heap := h', dicts := ds ++ w.dicts, rows := rs ++ w.rows } := by
  have old : ∀ o' ∈ w.objs, _ := fun o' ho' => e.frame (k.ok o' ho')
  refine ⟨fun o' ho' => (old o' ho').2.1, ?_, ?_, ?_, ?_, ?_, ?_, ?_⟩
  · intro o' h1
    show (h'.view o').Built; rw [(old o' h1).1]; exact k.built o' h1
  · intro i j oi oj hi hj hij
    have := k.sep i j oi oj hi hj hij
    have m1 := (old oi (List.mem_of_getElem? hi)).2.2
    have m2 := (old oj (List.mem_of_getElem? hj)).2.2
    show Apart h' oi oj
    exact ⟨this.self, this.nodes, this.ee, this.er, this.re, this.rr, this.ii, this.io, this.oi,
          this.oo, by rw [m1, m2]; exact this.own⟩
  · intro A hA
    rcases List.mem_append.1 hA with h1 | h1
    · exact (hds A h1).2
    · exact Nat.lt_of_lt_of_le (k.dictLt A h1) e.next
  · intro A hA
    rcases List.mem_append.1 hA with h1 | h1
    · exact (hrs A h1).2
    · exact Nat.lt_of_lt_of_le (k.rowLt A h1) e.next
  · intro A hA r hr
    rcases List.mem_append.1 hA with h1 | h1
    · exact List.mem_append.2 (hdr A h1 r hr)
    · rw [(ext_same k e).1 A h1] at hr
      exact List.mem_append.2 (Or.inr (k.dictRows A h1 r hr))
  · intro A hA o' ho'
    rcases List.mem_append.1 hA with h1 | h1
    · have h2 := (hds A h1).1
      have k' := k.ok o' ho'
      have h3 := k'.edges
      have h4 := k'.rev
      exact ⟨by omega, by omega⟩
    · exact k.dictApart A h1 o' ho'
  · intro r hr o' ho'
    show r ∉ own h' o'
    rw [(old o' ho').2.2]
    rcases List.mem_append.1 hr with h1 | h1
    · intro h2
      exact absurd ((k.ok o' ho').pair.lt r h2) (Nat.not_lt.2 (hrs r h1).1)
    · exact k.rowApart r h1 o' ho'

/-- a statement of the caller on dictionaries it holds -/
theorem wok_user {w : World α V O} (k : WOK w) {h' : Heap α V O} (hn : h'.next = w.heap.next)
    (h1 : h'.nds = w.heap.nds) (h2 : h'.deg = w.heap.deg) (h3 : h'.cnt = w.heap.cnt)
    (ho : ∀ a, a ∉ w.dicts → h'.out a = w.heap.out a) (hr : ∀ r, r ∉ w.rows → h'.row r = w.heap.row r)
    (hd : ∀ A ∈ w.dicts, ∀ r ∈ (h'.out A).values, r ∈ w.rows) :
    WOK { w with heap := h' } ∧ ∀ o ∈ w.objs, h'.view o = w.heap.view o := by
  have oe : ∀ o ∈ w.objs, h'.out o.edges = w.heap.out o.edges := fun o m =>
    ho _ (fun hA => (k.dictApart _ hA o m).1 rfl)
  have or : ∀ o ∈ w.objs, h'.out o.rev = w.heap.out o.rev := fun o m =>
    ho _ (fun hA => (k.dictApart _ hA o m).2 rfl)
  have ov : ∀ o ∈ w.objs, h'.view o = w.heap.view o := fun o m =>
    view_congr (by rw [h1]) (oe o m) (or o m)
      (fun r hr' => hr r (fun h4 => k.rowApart r h4 o m hr')) (by rw [h2]) (by rw [h2]) (by rw [h3])
  refine ⟨⟨fun o m => (k.ok o m).congr (Nat.le_of_eq hn.symm) (oe o m) (or o m), fun o m => ?_, ?_,
    fun A hA => by rw [show ({ w with heap := h' } : World α V O).heap = h' from rfl, hn]; exact k.dictLt A hA,
    fun A hA => by rw [show ({ w with heap := h' } : World α V O).heap = h' from rfl, hn]; exact k.rowLt A hA,
    hd, k.dictApart, ?_⟩, ov⟩
  · show (h'.view o).Built; rw [ov o m]; exact k.built o m
  · intro i j oi oj hi hj hij
    have := k.sep i j oi oj hi hj hij
    have m1 := List.mem_of_getElem? hi
    have m2 := List.mem_of_getElem? hj
    show Apart h' oi oj
    exact ⟨this.self, this.nodes, this.ee, this.er, this.re, this.rr, this.ii, this.io, this.oi,
          this.oo, by rw [own_congr (oe _ m1) (or _ m1), own_congr (oe _ m2) (or _ m2)]; exact this.own⟩
  · intro r hr' o m
    show r ∉ own h' o
    rw [own_congr (oe _ m) (or _ m)]
    exact k.rowApart r hr' o m


omit [DecidableEq α] in
theorem graph_eq {w : World α V O} {i : Nat} {g : Graph α V O} (h : w.graph i = some g) :
    ∃ o, w.objs[i]? = some o ∧ w.heap.view o = g := by
  unfold World.graph at h
  cases ho : w.objs[i]? with
  | none => rw [ho] at h; cases h
  | some o => rw [ho] at h; exact ⟨o, rfl, by simpa using h⟩

omit [DecidableEq α] in
theorem graphs_congr {w : World α V O} {h' : Heap α V O} {os : List Ref}
    (hv : ∀ o ∈ w.objs, h'.view o = w.heap.view o) {ds rs : List Nat} (j : Nat) (hj : j < w.objs.length) :
    (⟨h', w.objs ++ os, ds, rs⟩ : World α V O).graph j = w.graph j := by
  unfold World.graph
  simp only
  rw [List.getElem?_append_left hj, List.getElem?_eq_getElem hj]
  simp only [Option.map_some]
  rw [hv _ (List.getElem_mem hj)]

theorem wok_new {w : World α V O} (k : WOK w) :
    ∃ w', w.step .new = .ok w' ∧ WOK w' ∧ w'.graph w.objs.length = some Graph.empty ∧
      (∀ j, j < w.objs.length → w'.graph j = w.graph j) ∧ SameDicts w w' := by
  obtain ⟨e, a, ko, v⟩ := newGraph_spec w.heap
  refine ⟨{ w with heap := (newGraph w.heap).1, objs := w.objs ++ [(newGraph w.heap).2] }, rfl,
    wok_newObj k e a ko (by rw [v]; exact Graph.built_empty), ?_, ?_, ext_same k e⟩
  · simp [World.graph, v]
  · exact graphs_congr (fun o ho => (e.frame (k.ok o ho)).1)

theorem wok_copy {w : World α V O} (k : WOK w) {i : Nat} {g : Graph α V O} (hg : w.graph i = some g) :
    ∃ w', w.step (.copy i) = .ok w' ∧ WOK w' ∧ w'.graph w.objs.length = some g.copy ∧
      (∀ j, j < w.objs.length → w'.graph j = w.graph j) ∧ SameDicts w w' := by
  obtain ⟨o, ho, rfl⟩ := graph_eq hg
  have m := List.mem_of_getElem? ho
  obtain ⟨h', o', e1, e, a, ko, v⟩ := copy_spec (k.ok o m) (k.built o m).inv
  refine ⟨{ w with heap := h', objs := w.objs ++ [o'] }, by simp only [World.step, ho, e1],
    wok_newObj k e a ko (by rw [v]; exact Graph.copy_built _), ?_, ?_, ext_same k e⟩
  · simp [World.graph, v]
  · exact graphs_congr (fun o ho => (e.frame (k.ok o ho)).1)

theorem wok_subgraph {w : World α V O} (k : WOK w) {i : Nat} {g : Graph α V O}
    (hg : w.graph i = some g) (ns : List α) :
    ∃ w', w.step (.subgraph i ns) = .ok w' ∧ WOK w' ∧ w'.graph w.objs.length = some (g.subgraph ns) ∧
      (∀ j, j < w.objs.length → w'.graph j = w.graph j) ∧ SameDicts w w' := by
  obtain ⟨o, ho, rfl⟩ := graph_eq hg
  have m := List.mem_of_getElem? ho
  obtain ⟨h', o', e1, e, a, ko, v⟩ := subgraph_spec (k.ok o m) ns
  refine ⟨{ w with heap := h', objs := w.objs ++ [o'] }, by simp only [World.step, ho, e1],
    wok_newObj k e a ko (by rw [v]; exact (Graph.subgraph_inv (k.built o m).inv ns).built), ?_, ?_,
    ext_same k e⟩
  · simp [World.graph, v]
  · exact graphs_congr (fun o ho => (e.frame (k.ok o ho)).1)

theorem wok_on {w : World α V O} (k : WOK w) {i : Nat} {g : Graph α V O} (hg : w.graph i = some g)
    (op : Op α V O) :
    (∃ w', w.step (.on i op) = .ok w' ∧ WOK w' ∧ (g.stepE op).2 = none ∧
      w'.objs.length = w.objs.length ∧ w'.graph i = some (g.stepE op).1 ∧
      (∀ j, j ≠ i → w'.graph j = w.graph j) ∧ SameDicts w w') ∨
    (∃ e, w.step (.on i op) = .error e ∧ g.stepE op = (g, some e)) := by
  obtain ⟨o, ho, rfl⟩ := graph_eq hg
  have m := List.mem_of_getElem? ho
  rcases st_opStep (k.ok o m) (k.built o m).inv op with ⟨h', e1, s, e2⟩ | ⟨e, e1, e2⟩
  · left
    obtain ⟨k', sd, hv⟩ := wok_local k ho s ((k.built o m).step op)
    refine ⟨{ w with heap := h' }, by simp only [World.step, ho, e1], k', e2, rfl, ?_, ?_, sd⟩
    · have := hv i o ho
      simp only [World.graph, ho, Option.map_some]
      rw [this, if_pos rfl]
    · intro j hj
      unfold World.graph
      simp only
      cases hoj : w.objs[j]? with
      | none => rfl
      | some o' =>
        simp only [Option.map_some]
        rw [hv j o' hoj, if_neg hj]
  · exact Or.inr ⟨e, by simp only [World.step, ho, e1], e2⟩

theorem wok_fromDict {w : World α V O} (k : WOK w) {i : Nat} {g : Graph α V O}
    (hg : w.graph i = some g) {A : Nat} (hA : A ∈ w.dicts) :
    ∃ w', w.step (.fromDict i A) = .ok w' ∧ WOK w' ∧ w'.objs.length = w.objs.length ∧
      w'.graph i = some (g.fromDict (w.heap.nested A)) ∧
      (∀ j, j ≠ i → w'.graph j = w.graph j) ∧ SameDicts w w' := by
  obtain ⟨o, ho, rfl⟩ := graph_eq hg
  have m := List.mem_of_getElem? ho
  obtain ⟨h', e1, s⟩ := fromDict_spec (k.ok o m) (k.built o m).inv (A := A)
    ⟨k.dictApart A hA o m, fun r hr =>
      ⟨k.rowLt r (k.dictRows A hA r hr), k.rowApart r (k.dictRows A hA r hr) o m⟩⟩
  obtain ⟨k', sd, hv⟩ := wok_local k ho s (Graph.fromDict_built (k.built o m) _)
  refine ⟨{ w with heap := h' }, by simp only [World.step, ho, hA, if_true, e1], k', rfl, ?_, ?_, sd⟩
  · have := hv i o ho
    simp only [World.graph, ho, Option.map_some]
    rw [this, if_pos rfl]
  · intro j hj
    unfold World.graph
    simp only
    cases hoj : w.objs[j]? with
    | none => rfl
    | some o' =>
      simp only [Option.map_some]
      rw [hv j o' hoj, if_neg hj]

theorem wok_toDict {w : World α V O} (k : WOK w) {i : Nat} {g : Graph α V O}
    (hg : w.graph i = some g) :
    ∃ w' A, w.step (.toDict i) = .ok w' ∧ WOK w' ∧ w'.dicts = A :: w.dicts ∧ A ∉ w.dicts ∧
      g.toDictE = .ok (w'.heap.nested A) ∧ (∀ r ∈ (w'.heap.out A).values, r ∉ w.rows) ∧
      w'.objs.length = w.objs.length ∧ (∀ j, w'.graph j = w.graph j) ∧ SameDicts w w' := by
  obtain ⟨o, ho, rfl⟩ := graph_eq hg
  have m := List.mem_of_getElem? ho
  obtain ⟨h', A, e1, e, a1, a2, hr, hd⟩ := toDict_spec (k.ok o m) (k.built o m).inv
  refine ⟨{ w with heap := h', dicts := A :: w.dicts, rows := (h'.out A).values ++ w.rows }, A,
    by simp only [World.step, ho, e1],
    wok_newDicts k e [A] (h'.out A).values (by simp; exact ⟨a1, a2⟩) hr
      (by simp only [List.mem_singleton]; rintro A' rfl r hr'; exact Or.inl hr'),
    rfl, fun h => absurd (k.dictLt A h) (Nat.not_lt.2 a1), hd,
    fun r h1 h2 => absurd (k.rowLt r h2) (Nat.not_lt.2 (hr r h1).1), rfl, ?_, ext_same k e⟩
  intro j
  unfold World.graph
  simp only
  cases hoj : w.objs[j]? with
  | none => rfl
  | some o' =>
    simp only [Option.map_some]
    rw [(e.frame (k.ok o' (List.mem_of_getElem? hoj))).1]

theorem wok_caller {w : World α V O} (k : WOK w) (a : Act α V O) (ha : a.ofCaller = true) :
    ∃ w', w.step a = .ok w' ∧ WOK w' ∧ w'.objs = w.objs ∧ ∀ j, w'.graph j = w.graph j := by
  have done : ∀ {h' : Heap α V O} {ds rs}, (∀ o ∈ w.objs, h'.view o = w.heap.view o) →
      ∀ j, (⟨h', w.objs, ds, rs⟩ : World α V O).graph j = w.graph j := by
    intro h' ds rs hv j
    unfold World.graph
    simp only
    cases hoj : w.objs[j]? with
    | none => rfl
    | some o' =>
      simp only [Option.map_some]
      rw [hv o' (List.mem_of_getElem? hoj)]
  cases a with
  | new => cases ha
  | on i op => cases ha
  | copy i => cases ha
  | subgraph i ns => cases ha
  | toDict i => cases ha
  | fromDict i A => cases ha
  | newRow d =>
    have e : Ext w.heap { w.heap with row := upd w.heap.row w.heap.next d, next := w.heap.next + 1 } :=
      ⟨Nat.le_succ _, fun _ _ => rfl, fun _ _ => rfl, fun a ha => upd_ne _ _ (Nat.ne_of_lt ha),
        fun _ _ => rfl, fun _ _ => rfl⟩
    exact ⟨_, rfl, wok_newDicts k e [] [w.heap.next] (by simp) (by simp) (by simp), rfl,
      done (fun o ho => (e.frame (k.ok o ho)).1)⟩
  | newDict d =>
    simp only [World.step]
    by_cases hc : d.values.all (· ∈ w.rows) = true
    · have e : Ext w.heap { w.heap with out := upd w.heap.out w.heap.next d, next := w.heap.next + 1 } :=
        ⟨Nat.le_succ _, fun _ _ => rfl, fun a ha => upd_ne _ _ (Nat.ne_of_lt ha), fun _ _ => rfl,
          fun _ _ => rfl, fun _ _ => rfl⟩
      rw [if_pos hc]
      refine ⟨_, rfl, wok_newDicts k e [w.heap.next] [] (by simp) (by simp) ?_, rfl,
        done (fun o ho => (e.frame (k.ok o ho)).1)⟩
      simp only [List.mem_singleton]
      rintro A rfl r hr
      simp only [upd_self] at hr
      rw [List.all_eq_true] at hc
      exact Or.inr (by simpa using hc r hr)
    · rw [if_neg hc]
      exact ⟨w, rfl, k, rfl, fun _ => rfl⟩
  | setRow r d =>
    simp only [World.step]
    by_cases hc : r ∈ w.rows
    · rw [if_pos hc]
      have := wok_user k (h' := { w.heap with row := upd w.heap.row r d }) rfl rfl rfl rfl
        (fun _ _ => rfl) (fun r' hr' => upd_ne _ _ (fun h => hr' (h ▸ hc))) k.dictRows
      exact ⟨_, rfl, this.1, rfl, done this.2⟩
    · rw [if_neg hc]
      exact ⟨w, rfl, k, rfl, fun _ => rfl⟩
  | setDict A d =>
    simp only [World.step]
    by_cases hc : A ∈ w.dicts ∧ d.values.all (· ∈ w.rows) = true
    · rw [if_pos hc]
      have := wok_user k (h' := { w.heap with out := upd w.heap.out A d }) rfl rfl rfl rfl
        (fun a ha => upd_ne _ _ (fun h => ha (h ▸ hc.1))) (fun _ _ => rfl) (by
          intro B hB r hr
          by_cases hBA : B = A
          · subst hBA
            simp only [upd_self] at hr
            have := List.all_eq_true.1 hc.2 r hr
            simpa using this
          · simp only [upd_ne _ _ hBA] at hr
            exact k.dictRows B hB r hr)
      exact ⟨_, rfl, this.1, rfl, done this.2⟩
    · rw [if_neg hc]
      exact ⟨w, rfl, k, rfl, fun _ => rfl⟩

omit [DecidableEq α] in
theorem graph_none {w : World α V O} {i : Nat} (h : w.graph i = none) : w.objs[i]? = none := by
  unfold World.graph at h
  simpa using h

/-- every step keeps the separation -/
theorem wok_step {w : World α V O} (k : WOK w) (a : Act α V O) {w' : World α V O}
    (h : w.step a = .ok w') : WOK w' := by
  cases a with
  | new => obtain ⟨w1, e, k1, _⟩ := wok_new k; rw [e] at h; cases h; exact k1
  | on i op =>
    cases hg : w.graph i with
    | none => simp only [World.step, graph_none hg] at h; cases h; exact k
    | some g =>
      rcases wok_on k hg op with ⟨w1, e, k1, _⟩ | ⟨e, e1, _⟩
      · rw [e] at h; cases h; exact k1
      · rw [e1] at h; cases h
  | copy i =>
    cases hg : w.graph i with
    | none => simp only [World.step, graph_none hg] at h; cases h; exact k
    | some g => obtain ⟨w1, e, k1, _⟩ := wok_copy k hg; rw [e] at h; cases h; exact k1
  | subgraph i ns =>
    cases hg : w.graph i with
    | none => simp only [World.step, graph_none hg] at h; cases h; exact k
    | some g => obtain ⟨w1, e, k1, _⟩ := wok_subgraph k hg ns; rw [e] at h; cases h; exact k1
  | toDict i =>
    cases hg : w.graph i with
    | none => simp only [World.step, graph_none hg] at h; cases h; exact k
    | some g => obtain ⟨w1, A, e, k1, _⟩ := wok_toDict k hg; rw [e] at h; cases h; exact k1
  | fromDict i A =>
    cases hg : w.graph i with
    | none => simp only [World.step, graph_none hg] at h; cases h; exact k
    | some g =>
      by_cases hA : A ∈ w.dicts
      · obtain ⟨w1, e, k1, _⟩ := wok_fromDict k hg hA; rw [e] at h; cases h; exact k1
      · obtain ⟨o, ho, _⟩ := graph_eq hg
        simp only [World.step, ho, hA, if_false] at h; cases h; exact k
  | newRow d => obtain ⟨w1, e, k1, _⟩ := wok_caller k (.newRow d) rfl; rw [e] at h; cases h; exact k1
  | newDict d => obtain ⟨w1, e, k1, _⟩ := wok_caller k (.newDict d) rfl; rw [e] at h; cases h; exact k1
  | setRow r d => obtain ⟨w1, e, k1, _⟩ := wok_caller k (.setRow r d) rfl; rw [e] at h; cases h; exact k1
  | setDict A d => obtain ⟨w1, e, k1, _⟩ := wok_caller k (.setDict A d) rfl; rw [e] at h; cases h; exact k1

theorem run_wok {w : World α V O} (k : WOK w) (prog : List (Act α V O)) : WOK (World.run prog w) := by
  unfold World.run
  induction prog generalizing w with
  | nil => exact k
  | cons a prog ih =>
    simp only [List.foldl_cons]
    cases h : w.step a with
    | error e => exact ih k
    | ok w' => exact ih (wok_step k a h)

theorem World.Reachable.wok {w : World α V O} (h : w.Reachable) : WOK w := by
  obtain ⟨prog, rfl⟩ := h; exact run_wok wok_start prog

theorem step_other {w : World α V O} (k : WOK w) {a : Act α V O} {i : Nat} {g : Graph α V O}
    (hg : w.graph i = some g) (ha : a.on? i = false) {w' : World α V O} (h : w.step a = .ok w') :
    w'.graph i = some g := by
  have hi : i < w.objs.length := by
    obtain ⟨o, ho, _⟩ := graph_eq hg
    exact (List.getElem?_eq_some_iff.1 ho).1
  cases a with
  | new => obtain ⟨w1, e, _, _, h1, _⟩ := wok_new k; rw [e] at h; cases h; rw [h1 i hi, hg]
  | on j op =>
    have hji : i ≠ j := by simp only [Act.on?, decide_eq_false_iff_not] at ha; exact Ne.symm ha
    cases hj : w.graph j with
    | none => simp only [World.step, graph_none hj] at h; cases h; exact hg
    | some gj =>
      rcases wok_on k hj op with ⟨w1, e, _, _, _, _, h1, _⟩ | ⟨e, e1, _⟩
      · rw [e] at h; cases h; rw [h1 i hji, hg]
      · rw [e1] at h; cases h
  | copy j =>
    cases hj : w.graph j with
    | none => simp only [World.step, graph_none hj] at h; cases h; exact hg
    | some gj => obtain ⟨w1, e, _, _, h1, _⟩ := wok_copy k hj; rw [e] at h; cases h; rw [h1 i hi, hg]
  | subgraph j ns =>
    cases hj : w.graph j with
    | none => simp only [World.step, graph_none hj] at h; cases h; exact hg
    | some gj =>
      obtain ⟨w1, e, _, _, h1, _⟩ := wok_subgraph k hj ns; rw [e] at h; cases h; rw [h1 i hi, hg]
  | toDict j =>
    cases hj : w.graph j with
    | none => simp only [World.step, graph_none hj] at h; cases h; exact hg
    | some gj =>
      obtain ⟨w1, A, e, _, _, _, _, _, _, h1, _⟩ := wok_toDict k hj; rw [e] at h; cases h; rw [h1 i, hg]
  | fromDict j A =>
    have hji : i ≠ j := by simp only [Act.on?, decide_eq_false_iff_not] at ha; exact Ne.symm ha
    cases hj : w.graph j with
    | none => simp only [World.step, graph_none hj] at h; cases h; exact hg
    | some gj =>
      by_cases hA : A ∈ w.dicts
      · obtain ⟨w1, e, _, _, _, h1, _⟩ := wok_fromDict k hj hA; rw [e] at h; cases h; rw [h1 i hji, hg]
      · obtain ⟨o, ho, _⟩ := graph_eq hj
        simp only [World.step, ho, hA, if_false] at h; cases h; exact hg
  | newRow d =>
    obtain ⟨w1, e, _, _, h1⟩ := wok_caller k (.newRow d) rfl; rw [e] at h; cases h; rw [h1 i, hg]
  | newDict d =>
    obtain ⟨w1, e, _, _, h1⟩ := wok_caller k (.newDict d) rfl; rw [e] at h; cases h; rw [h1 i, hg]
  | setRow r d =>
    obtain ⟨w1, e, _, _, h1⟩ := wok_caller k (.setRow r d) rfl; rw [e] at h; cases h; rw [h1 i, hg]
  | setDict A d =>
    obtain ⟨w1, e, _, _, h1⟩ := wok_caller k (.setDict A d) rfl; rw [e] at h; cases h; rw [h1 i, hg]

end Mem
end GT

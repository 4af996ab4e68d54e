import Verif.Graph.Serial
/- `distance`, degree filters, multi-object store. -/
namespace GT
namespace Graph
variable {α V O : Type} [DecidableEq α]

/-! ### distance -/

theorem distTerm_error (g : Graph α Rat O) (nodes : List α) (e : Err) (l : List Nat) :
    l.foldl (g.distTerm nodes) (.error e) = .error e := by
  induction l with
  | nil => rfl
  | cons i l ih => simpa [distTerm] using ih

theorem dist_fold (g : Graph α Rat O) (t : List α) : ∀ (s : List α) (x : α) (acc c : Rat),
    walkCost g.edge (x :: t) = some c →
    (List.range' (s.length + 1) t.length).foldl (g.distTerm (s ++ x :: t)) (.ok acc) = .ok (acc + c) := by
  induction t with
  | nil => intro s x acc c h; simp [walkCost] at h; subst h; simp; grind
  | cons y t ih =>
    intro s x acc c h
    simp only [walkCost] at h
    split at h
    · rename_i c1 c2 h1 h2
      cases h
      have := ih (s ++ [x]) y (acc + c1) c2 h2
      simp only [List.length_append, List.length_cons, List.length_nil, List.append_assoc,
        List.cons_append, List.nil_append] at this
      rw [List.length_cons, List.range'_succ, List.foldl_cons]
      have ht : g.distTerm (s ++ x :: y :: t) (.ok acc) (s.length + 1) = .ok (acc + c1) := by
        unfold distTerm
        simp [h1]
      rw [ht, this]; congr 1; grind
    · cases h

theorem distance_eq (g : Graph α Rat O) {x : α} {t : List α} {c e : Rat}
    (hc : walkCost g.edge (x :: t) = some c)
    (he : g.edge ((x :: t).getLast (by simp)) x = some e) (r : Bool) :
    g.distance (x :: t) r = .ok (if r then c + e + e else c + e) := by
  unfold distance
  have h1 : (List.range (x :: t).length).foldl (g.distTerm (x :: t)) (.ok 0) = .ok (c + e) := by
    rw [List.range_eq_range', List.length_cons, List.range'_succ, List.foldl_cons]
    have ht : g.distTerm (x :: t) (.ok 0) 0 = .ok (0 + e) := by
      unfold distTerm
      have : (x :: t)[(x :: t).length - 1]? = some ((x :: t).getLast (by simp)) := by
        rw [← List.getLast?_eq_getElem?, List.getLast?_eq_some_getLast]
      simp only [if_true, this, List.getElem?_cons_zero, he]
    rw [ht]
    have := dist_fold g t [] x (0 + e) c hc
    simp only [List.length_nil, Nat.zero_add, List.nil_append] at this
    rw [this]; congr 1; grind
  rw [h1]
  simp only
  cases r with
  | false => rfl
  | true =>
    simp only [if_true, List.head?_cons]
    rw [List.getLast?_eq_some_getLast (by simp)]
    simp [he]

/-! ### degrees -/

theorem length_eq_of_same_mem {β : Type} {l m : List β} (hl : l.Nodup) (hm : m.Nodup)
    (h : ∀ x, x ∈ l ↔ x ∈ m) : l.length = m.length := by
  have h1 := hl.length_le_of_subset (l₂ := m) (fun x hx => (h x).1 hx)
  have h2 := hm.length_le_of_subset (l₂ := l) (fun x hx => (h x).2 hx)
  omega

theorem Inv.inDegree_eq {g : Graph α V O} (h : g.Inv) (n : α) :
    (g.inDegree n).1 = ((g.nodesTo n).length : Int) := by
  unfold Graph.inDegree ddRead
  by_cases hn : n ∈ g.nodes.keys
  · rw [h.inD n hn]
  · rw [h.nodesTo_of_not_mem hn]
    rcases h.inPh n hn with h2 | h2 <;> rw [h2] <;> rfl

theorem Inv.outDegree_eq {g : Graph α V O} (h : g.Inv) (n : α) :
    (g.outDegree n).1 = ((g.nodesFrom n).length : Int) := by
  unfold Graph.outDegree ddRead
  by_cases hn : n ∈ g.nodes.keys
  · rw [h.outD n hn]
  · rw [h.nodesFrom_of_not_mem hn]
    rcases h.outPh n hn with h2 | h2 <;> rw [h2] <;> rfl

theorem mem_degFilter {d : Dict α Int} (hd : d.WF) (k : Int) (n : α) :
    n ∈ d.items.filterMap (fun p => if p.2 = k then some p.1 else none) ↔ d.get? n = some k := by
  rw [Dict.get?_eq_some_iff hd]
  simp only [List.mem_filterMap, Prod.exists]
  constructor
  · rintro ⟨a, c, h1, h2⟩
    split at h2
    · rename_i h3; simp at h2; subst h2 h3; exact h1
    · cases h2
  · intro h1; exact ⟨n, k, h1, by simp⟩

omit [DecidableEq α] in
theorem nodup_degFilter {d : Dict α Int} (hd : d.WF) (k : Int) :
    (d.items.filterMap (fun p => if p.2 = k then some p.1 else none)).Nodup := by
  have : d.items.filterMap (fun p => if p.2 = k then some p.1 else none)
      = (d.items.filter (fun p => p.2 = k)).map Prod.fst := by
    induction d.items with
    | nil => rfl
    | cons p l ih => by_cases hp : p.2 = k <;> simp [hp, ih]
  rw [this]
  exact List.Nodup.sublist (List.Sublist.map _ List.filter_sublist) hd

/-- no phantom keys in the degree tables -/
def NoPhantom (g : Graph α V O) : Prop :=
  ∀ n, n ∉ g.nodes.keys → g.inDeg.get? n = none ∧ g.outDeg.get? n = none

/-- a degree read of a node that is not in the graph -/
def ForeignRead (g : Graph α V O) : Op α V O → Prop
  | .inDegree n => g.has n = false
  | .outDegree n => g.has n = false
  | _ => False

/-- a history in which `in_degree`/`out_degree` are only asked for nodes of the graph -/
def NoForeignReads : Graph α V O → List (Op α V O) → Prop
  | _, [] => True
  | g, op :: ops => ¬ g.ForeignRead op ∧ NoForeignReads (g.stepE op).1 ops

theorem noPhantom_addNode {g : Graph α V O} (h : g.NoPhantom) (n : α) (o : Option O) :
    (g.addNode n o).NoPhantom := by
  intro x hx
  rw [addNode_nodes, Dict.mem_keys_set, not_or] at hx
  have := h x hx.2
  unfold Graph.addNode; split
  · exact this
  · simp only [Dict.get?_set_ne _ _ (Ne.symm hx.1)]; exact this

theorem noPhantom_ensureNode {g : Graph α V O} (h : g.NoPhantom) (n : α) :
    (g.ensureNode n).NoPhantom := by
  unfold Graph.ensureNode; split
  · exact h
  · exact noPhantom_addNode h n none

theorem noPhantom_addEdge {g : Graph α V O} (h : g.NoPhantom) (a b : α) (v : V) :
    (g.addEdge a b v).NoPhantom := by
  intro x hx
  rw [addEdge_nodes] at hx
  have hk := noPhantom_ensureNode (noPhantom_ensureNode h a) b x hx
  rw [mem_keys_withEnds, not_or, not_or] at hx
  rw [addEdge_inDeg, addEdge_outDeg]
  split
  · exact hk
  · rw [ddAdd_get?, ddAdd_get?, if_neg (Ne.symm hx.1), if_neg (Ne.symm hx.2.1)]; exact hk

theorem noPhantom_delEdge {g : Graph α V O} (hi : g.Inv) (h : g.NoPhantom) (a b : α) :
    (g.delEdge a b).NoPhantom := by
  intro x hx
  rw [delEdge_nodes] at hx
  have := h x hx
  unfold Graph.delEdge; split
  · rename_i hs
    obtain ⟨v, hv⟩ := Option.isSome_iff_exists.1 hs
    have hd := hi.dom a b v hv
    have h1 : a ≠ x := by rintro rfl; exact hx hd.1
    have h2 : b ≠ x := by rintro rfl; exact hx hd.2
    simp only [ddAdd_get?, if_neg h1, if_neg h2]; exact this
  · exact this

theorem noPhantom_delEdges_from {g : Graph α V O} (hi : g.Inv) (h : g.NoPhantom) (n : α) (l : List α) :
    (l.foldl (fun g n2 => g.delEdge n n2) g).NoPhantom := by
  induction l generalizing g with
  | nil => exact h
  | cons b l ih => exact ih (hi.delEdge n b) (noPhantom_delEdge hi h n b)

theorem noPhantom_delEdges_to {g : Graph α V O} (hi : g.Inv) (h : g.NoPhantom) (n : α) (l : List α) :
    (l.foldl (fun g n1 => g.delEdge n1 n) g).NoPhantom := by
  induction l generalizing g with
  | nil => exact h
  | cons b l ih => exact ih (hi.delEdge b n) (noPhantom_delEdge hi h b n)

theorem noPhantom_delNode {g : Graph α V O} (hi : g.Inv) (h : g.NoPhantom) (n : α) :
    (g.delNode n).NoPhantom := by
  unfold Graph.delNode; split
  · have h1 := noPhantom_delEdges_from hi h n (g.nodesFrom n)
    have hi1 := (delEdges_from hi n (g.nodesFrom n)).1
    have h2 := noPhantom_delEdges_to hi1 h1 n
      (((g.nodesFrom n).foldl (fun g n2 => g.delEdge n n2) g).nodesTo n)
    have hi2 := (delEdges_to hi1 n
      (((g.nodesFrom n).foldl (fun g n2 => g.delEdge n n2) g).nodesTo n)).1
    revert h2 hi2
    simp only
    generalize (List.foldl (fun (g : Graph α V O) n1 => g.delEdge n1 n) _ _) = k
    intro h2 hi2 x hx
    have hk : ¬ (x ≠ n ∧ x ∈ k.nodes.keys) := fun h3 => hx ((Dict.mem_keys_del hi2.nodesWF n x).2 h3)
    show (k.inDeg.del n).get? x = none ∧ (k.outDeg.del n).get? x = none
    rw [Dict.get?_del hi2.inWF, Dict.get?_del hi2.outWF]
    by_cases hxn : n = x
    · simp [hxn]
    · simp only [hxn, if_false]; exact h2 x (fun h3 => hk ⟨Ne.symm hxn, h3⟩)
  · exact h

theorem noPhantom_step {g : Graph α V O} (hi : g.Inv) (h : g.NoPhantom) (op : Op α V O)
    (hop : ¬ g.ForeignRead op) : (g.stepE op).1.NoPhantom := by
  cases op with
  | addNode n o => exact noPhantom_addNode h n o
  | addEdge a b v bi =>
    cases v with
    | container => exact h
    | scalar v =>
      simp only [stepE, addEdgeE, addEdge1E_eq hi, bind, Except.bind]
      cases bi with
      | false => exact noPhantom_addEdge h a b v
      | true =>
        simp only [if_true, addEdge1E_eq (hi.addEdge a b v)]
        exact noPhantom_addEdge (noPhantom_addEdge h a b v) b a v
  | delEdge a b => simp only [stepE, delEdgeE_eq hi]; exact noPhantom_delEdge hi h a b
  | delNode n => simp only [stepE, delNodeE_eq hi]; exact noPhantom_delNode hi h n
  | inDegree n =>
    simp only [ForeignRead, has, Bool.not_eq_false, Dict.contains_iff_keys] at hop
    have : (g.inDegree n).2 = g := by
      unfold Graph.inDegree ddRead; rw [hi.inD n hop]
    simp only [stepE, this]; exact h
  | outDegree n =>
    simp only [ForeignRead, has, Bool.not_eq_false, Dict.contains_iff_keys] at hop
    have : (g.outDegree n).2 = g := by
      unfold Graph.outDegree ddRead; rw [hi.outD n hop]
    simp only [stepE, this]; exact h

theorem noPhantom_run (ops : List (Op α V O)) (h : NoForeignReads empty ops) :
    (run ops).NoPhantom := by
  have : ∀ (g : Graph α V O), g.Inv → g.NoPhantom → NoForeignReads g ops →
      (ops.foldl (fun g op => (g.stepE op).1) g).NoPhantom := by
    clear h
    induction ops with
    | nil => intro g _ h _; exact h
    | cons op ops ih =>
      intro g hi h hf
      exact ih _ (stepE_inv hi op) (noPhantom_step hi h op hf.1) hf.2
  exact this _ inv_empty (fun n _ => ⟨rfl, rfl⟩) h

/-! ### several graph objects -/

/-- A program holding several graph objects: operations on object `i`, or `g = objects[i].copy()`
which creates a new object (base.py:65-72 builds it from scratch with `add_node`/`add_edge`, so it
shares no dictionary with the original). -/
inductive StoreOp (α V O : Type) where
  | on (i : Nat) (op : Op α V O)
  | copy (i : Nat)

def storeStep (s : List (Graph α V O)) : StoreOp α V O → List (Graph α V O)
  | .on i op => match s[i]? with
    | some g => s.set i (g.stepE op).1
    | none => s
  | .copy i => match s[i]? with
    | some g => s ++ [g.copy]
    | none => s

theorem storeStep_other (s : List (Graph α V O)) (i : Nat) (g : Graph α V O) (hg : s[i]? = some g)
    (o : StoreOp α V O) (ho : ∀ op, o ≠ .on i op) : (storeStep s o)[i]? = some g := by
  cases o with
  | on j op =>
    have hij : j ≠ i := by rintro rfl; exact ho op rfl
    simp only [storeStep]; split
    · rw [List.getElem?_set_ne hij]; exact hg
    · exact hg
  | copy j =>
    simp only [storeStep]; split
    · rw [List.getElem?_append_left]; exact hg
      have := (List.getElem?_eq_some_iff.1 hg); exact this.1
    · exact hg

end Graph
end GT

import Verif.Search.Bfs
import Verif.Search.Dfs
import Verif.Search.Paths
import Verif.Sp.FlInt
/-
Graphs in which `None` is a node.  `add_node(None)` and `add_edge(1, None)` are accepted, but `nodes(from_node=None)` and `edges(from_node=None)` are the calls
without arguments.  `nn` is the node `None`.
-/
namespace GT
variable {α V O : Type} [DecidableEq α]
open Graph

/-- `graph.nodes(from_node=n)` where `n` may be `None` (base.py:204-241): `None` is no argument at all -/
def Graph.nodesFromN (nn : α) (g : Graph α V O) (n : α) : List α := match g.nodesQ (if n = nn then none else some n) none none none with
  | .ok l => l
  | .error _ => []

/-- `(n2, d) for _, n2, d in graph.edges(from_node=n)` where `n` may be `None` (base.py:243-280) -/
def Graph.outNbrN (nn : α) (g : Graph α V O) (n : α) : List (α × V) := match g.edgesQ none (if n = nn then none else some n) none with
  | .ok l => l.map (fun e => (e.2.1, e.2.2))
  | .error _ => []

/-- `shortest_path(graph, start, end, avoids)` (shortest_path.py:11-58) where `None` may be a node -/
def Graph.shortestPathN (nn : α) (g : Graph α Rat O) (start fin : α) (avoids : List α := []) : Option (Py (Ext × List α)) :=
  if !g.has start then some (.error .valueError)
  else if !g.has fin then some (.error .valueError)
  else match pyWhile (dijStep (g.outNbrN nn) fin) ⟨[⟨0, 0, start, []⟩], Dict.empty.set start 0, avoids, 1⟩ with
    | none => none
    | some r => some (.ok r)

/-- `depth_first_search(graph, start, end)` (dfs.py:7-49) where `None` may be a node -/
def Graph.depthFirstSearchN (nn : α) (g : Graph α V O) (start e : α) : Option (Py (Option (List α))) :=
  if !g.has start then some (.error .valueError)
  else if !g.has e then some (.error .valueError)
  else match pyWhile (dfsStep (g.nodesFromN nn) e) ([start], [], []) with
    | none => none
    | some r => some (.ok r)

/-- `all_simple_paths(graph, start, end)` (all_simple_paths.py:7-38) where `None` may be a node -/
def Graph.allSimplePathsN (nn : α) (g : Graph α V O) (start e : α) : Option (Py (List (List α))) :=
  if !g.has start then some (.error .valueError)
  else if !g.has e then some (.error .valueError)
  else if start = e then some (.error .valueError)
  else match g.isConnected start e with
    | none => none
    | some false => some (.ok [])
    | some true => match pyWhile (aspStep (fun n => (g.outNbrN nn n).map (·.1)) e) ([[start]], []) with
      | none => none
      | some (.error er) => some (.error er)
      | some (.ok paths) => some (.ok (paths.map List.reverse))

/-- the `for next_node in …` loop (bfs.py:31-34); `visited` maps to the predecessor or to `None`, which may be a predecessor too -/
def bfsScanN (node : α) : List α → Dict α α × List α → Dict α α × List α
  | [], s => s
  | c :: cs, (visited, q) =>
    if visited.contains c then bfsScanN node cs (visited, q)
    else bfsScanN node cs (visited.set c node, q ++ [c])

/-- one iteration of `while q` of `breadth_first_search` (bfs.py:23-35) where `None` may be a node -/
def bfsStepN (succ : α → List α) (e : α) : Dict α α × List α →
    (Dict α α × List α) ⊕ Option (α × Dict α α)
  | (_, []) => .inr none
  | (visited, node :: q) =>
    if node = e then .inr (some (node, visited))
    else .inl (bfsScanN node (succ node) (visited, q))

/-- the path reconstruction `while node is not None` (bfs.py:26-30) where `None` may be a node -/
def bfsPathStepN (nn : α) (visited : Dict α α) : α × List α → (α × List α) ⊕ Py (List α)
  | (n, path) =>
    if n = nn then .inr (.ok path)
    else match visited.getE n with
      | .error er => .inr (.error er)
      | .ok p => .inl (p, n :: path)

/-- `breadth_first_search(graph, start, end)` (bfs.py:7-35) where `None` may be a node -/
def Graph.breadthFirstSearchN (nn : α) (g : Graph α V O) (start e : α) : Option (Py (List α)) :=
  if !g.has start then some (.error .valueError)
  else if !g.has e then some (.error .valueError)
  else match pyWhile (bfsStepN (g.nodesFromN nn) e) (Dict.empty.set start nn, [start]) with
    | none => none
    | some none => some (.ok [])
    | some (some (node, visited)) => pyWhile (bfsPathStepN nn visited) (node, [])

/-! ### proofs -/

theorem nodesFromN_some {nn : α} (g : Graph α V O) {n : α} (hn : n ≠ nn) : g.nodesFromN nn n = g.nodesFrom n := by
  unfold nodesFromN
  rw [if_neg hn]
  simp [nodesQ]

theorem nodesFromN_none (nn : α) (g : Graph α V O) : g.nodesFromN nn nn = g.nodeList := by
  unfold nodesFromN
  rw [if_pos rfl]
  simp [nodesQ]

theorem outNbrN_some {nn : α} (g : Graph α V O) {n : α} (hn : n ≠ nn) : g.outNbrN nn n = g.outNbr n := by
  unfold outNbrN
  rw [if_neg hn]
  simp [edgesQ, outNbr]

theorem outNbrN_none (nn : α) (g : Graph α V O) : g.outNbrN nn nn = g.edgeList.map (fun e => (e.2.1, e.2.2)) := by
  unfold outNbrN
  rw [if_pos rfl]
  simp [edgesQ]

/-- `None` cannot be reached from `start` along the edges, or it is the end -/
def NoneHarmless (nn : α) (g : Graph α V O) (start e : α) : Prop :=
  e = nn ∨ ¬ Reach (fun a b => ∃ v, g.edge a b = some v) start nn

omit [DecidableEq α] in
theorem reach_step {R : α → α → Prop} {a b c : α} (h : Reach R a b) (hbc : R b c) : Reach R a c := by
  obtain ⟨n, hn⟩ := h
  exact ⟨n + 1, .succ hn hbc⟩

theorem shortestPathN_eq {nn : α} {g : Graph α Rat O} (h : g.Inv) {start fin : α} (avoids : List α) (hH : NoneHarmless nn g start fin) :
    g.shortestPathN nn start fin avoids = g.shortestPath start fin avoids := by
  unfold shortestPathN shortestPath
  rw [pyWhile_congr (step' := dijStep g.outNbr fin)
    (fun s => ∀ e ∈ s.q, Reach (fun a b => ∃ v, g.edge a b = some v) start e.node) ?_ ?_ ?_]
  · rfl
  · intro s hI
    unfold dijStep
    cases hp : popMin s.q with
    | none => rfl
    | some x =>
      obtain ⟨e, q⟩ := x
      dsimp only
      split
      · rfl
      · split
        · rfl
        · rename_i hf
          have hr := hI e ((popMin_some hp).1.mem_iff.2 (List.mem_cons_self ..))
          have : e.node ≠ nn := by
            intro hn
            rcases hH with h1 | h1
            · exact hf (hn.trans h1.symm)
            · exact h1 (hn ▸ hr)
          rw [outNbrN_some g this]
  · intro s s' hI hst
    unfold dijStep at hst
    cases hp : popMin s.q with
    | none => rw [hp] at hst; cases hst
    | some x =>
      obtain ⟨e, q⟩ := x
      rw [hp] at hst
      dsimp only at hst
      have hm := (popMin_some hp).1
      have hr := hI e (hm.mem_iff.2 (List.mem_cons_self ..))
      split at hst
      · cases hst
        exact fun e' he' => hI e' (hm.mem_iff.2 (List.mem_cons_of_mem _ he'))
      · split at hst
        · cases hst
        · rename_i hf
          have hne : e.node ≠ nn := by
            intro hn
            rcases hH with h1 | h1
            · exact hf (hn.trans h1.symm)
            · exact h1 (hn ▸ hr)
          rw [outNbrN_some g hne] at hst
          generalize hrr : dijRelax e.cost (e.node :: e.path) (sadd s.visited e.node) (g.outNbr e.node) (q, s.mins, s.i) = rr at hst
          obtain ⟨q', mins', i'⟩ := rr
          cases hst
          obtain ⟨_, h2, _⟩ := dijRelax_spec _ _ _ _ _ _ _ hrr
          intro e' he'
          rcases h2 e' he' with h3 | ⟨_, _, d, h3, _⟩
          · exact hI e' (hm.mem_iff.2 (List.mem_cons_of_mem _ h3))
          · exact reach_step hr ⟨d, h.mem_outNbr.1 h3⟩
  · intro e he
    simp at he; subst he
    exact ⟨0, .zero _⟩

theorem dfsFirst_mem {visited l : List α} {x : α} (h : dfsFirst visited l = some x) : x ∈ l := by
  induction l with
  | nil => cases h
  | cons a l ih =>
    unfold dfsFirst at h
    split at h
    · exact List.mem_cons_of_mem _ (ih h)
    · cases h; exact List.mem_cons_self ..

theorem dfsBack_congr {succ succ' : α → List α} {visited : List α} (l : List α) (h : ∀ x ∈ l, succ x = succ' x) :
    dfsBack succ visited l = dfsBack succ' visited l := by
  induction l with
  | nil => rfl
  | cons a l ih =>
    unfold dfsBack
    rw [h a (List.mem_cons_self ..), ih (fun x hx => h x (List.mem_cons_of_mem _ hx))]

theorem dfsBack_mem {succ : α → List α} {visited : List α} (l : List α) :
    (∀ y ∈ (dfsBack succ visited l).2, y ∈ l) ∧ ∀ x, (dfsBack succ visited l).1 = some x → ∃ p ∈ l, x ∈ succ p := by
  induction l with
  | nil => exact ⟨fun y hy => hy, fun x hx => by cases hx⟩
  | cons a l ih =>
    unfold dfsBack
    cases hf : dfsFirst visited (succ a) with
    | some n2 =>
      dsimp only
      refine ⟨fun y hy => hy, fun x hx => ?_⟩
      cases hx
      exact ⟨a, List.mem_cons_self .., dfsFirst_mem hf⟩
    | none =>
      dsimp only
      refine ⟨fun y hy => List.mem_cons_of_mem _ (ih.1 y hy), fun x hx => ?_⟩
      obtain ⟨p, h1, h2⟩ := ih.2 x hx
      exact ⟨p, List.mem_cons_of_mem _ h1, h2⟩

theorem depthFirstSearchN_eq {nn : α} {g : Graph α V O} {start e : α} (hH : NoneHarmless nn g start e) :
    g.depthFirstSearchN nn start e = g.depthFirstSearch start e := by
  unfold depthFirstSearchN depthFirstSearch
  let R : α → α → Prop := fun a b => ∃ v, g.edge a b = some v
  have good : ∀ x, Reach R start x → x ≠ e → x ≠ nn := by
    intro x hr hne hn
    rcases hH with h1 | h1
    · exact hne (hn.trans h1.symm)
    · exact h1 (hn ▸ hr)
  have succR : ∀ x y, Reach R start x → y ∈ g.nodesFrom x → Reach R start y := by
    intro x y hr hy
    exact reach_step hr (Option.isSome_iff_exists.1 (mem_nodesFrom.1 hy))
  rw [pyWhile_congr (step' := dfsStep g.nodesFrom e)
    (fun s => (∀ x ∈ s.1, Reach R start x) ∧ ∀ x ∈ s.2.1, Reach R start x ∧ x ≠ nn) ?_ ?_ ?_]
  · rfl
  · rintro ⟨q, path, visited⟩ ⟨h1, h2⟩
    cases q with
    | nil => rfl
    | cons n q =>
      unfold dfsStep
      dsimp only at h1 h2 ⊢
      split
      · rfl
      · rename_i hne
        have hn := good n (h1 n (List.mem_cons_self ..)) hne
        rw [nodesFromN_some g hn, dfsBack_congr (succ' := g.nodesFrom)]
        · intro x hx
          have := List.mem_of_mem_erase (List.mem_reverse.1 hx)
          rcases List.mem_append.1 this with h3 | h3
          · exact nodesFromN_some g (h2 x h3).2
          · simp at h3; subst h3; exact nodesFromN_some g hn
  · rintro ⟨q, path, visited⟩ s' ⟨h1, h2⟩ hst
    cases q with
    | nil => cases hst
    | cons n q =>
      unfold dfsStep at hst
      dsimp only at h1 h2 hst
      split at hst
      · cases hst
      · rename_i hne
        have hr := h1 n (List.mem_cons_self ..)
        have hn := good n hr hne
        have hpath : ∀ x ∈ path ++ [n], Reach R start x ∧ x ≠ nn := by
          intro x hx
          rcases List.mem_append.1 hx with h3 | h3
          · exact h2 x h3
          · simp at h3; subst h3; exact ⟨hr, hn⟩
        rw [nodesFromN_some g hn, dfsBack_congr (succ' := g.nodesFrom)
          (h := fun x hx => nodesFromN_some g (hpath x (List.mem_of_mem_erase (List.mem_reverse.1 hx))).2)] at hst
        split at hst
        · rename_i n2 hf
          cases hst
          refine ⟨fun x hx => ?_, hpath⟩
          rcases List.mem_cons.1 hx with rfl | hx
          · exact succR n _ hr (dfsFirst_mem hf)
          · exact h1 x (List.mem_cons_of_mem _ hx)
        · split at hst
          · cases hst
            obtain ⟨m1, m2⟩ := dfsBack_mem (succ := g.nodesFrom) (visited := sadd visited n) ((path ++ [n]).erase n).reverse
            refine ⟨fun x hx => ?_, fun x hx => ?_⟩
            · obtain ⟨p, h3, h4⟩ := m2 x (by simpa using hx)
              exact succR p x (hpath p (List.mem_of_mem_erase (List.mem_reverse.1 h3))).1 h4
            · exact hpath x (List.mem_of_mem_erase (List.mem_reverse.1 (m1 x (List.mem_reverse.1 hx))))
          · cases hst
            exact ⟨fun x hx => h1 x (List.mem_cons_of_mem _ hx), fun x hx => hpath x (List.mem_of_mem_erase hx)⟩
  · refine ⟨fun x hx => ?_, fun x hx => by simp at hx⟩
    simp at hx; subst hx
    exact ⟨0, .zero _⟩

theorem aspScan_mem {e : α} {path : List α} (l : List α) : ∀ (q paths : List (List α)),
    ∀ p ∈ (aspScan e path l (q, paths)).1, p ∈ q ∨ ∃ c ∈ l, c ≠ e ∧ p = c :: path := by
  induction l with
  | nil => intro q paths p hp; exact .inl hp
  | cons a l ih =>
    intro q paths p hp
    unfold aspScan at hp
    split at hp
    · exact (ih q paths p hp).imp id (fun ⟨c, h1, h2⟩ => ⟨c, List.mem_cons_of_mem _ h1, h2⟩)
    · split at hp
      · exact (ih _ _ p hp).imp id (fun ⟨c, h1, h2⟩ => ⟨c, List.mem_cons_of_mem _ h1, h2⟩)
      · rename_i hne
        rcases ih _ _ p hp with h1 | ⟨c, h1, h2⟩
        · rcases List.mem_append.1 h1 with h1 | h1
          · exact .inl h1
          · simp at h1; subst h1; exact .inr ⟨a, List.mem_cons_self .., hne, rfl⟩
        · exact .inr ⟨c, List.mem_cons_of_mem _ h1, h2⟩

theorem allSimplePathsN_eq {nn : α} {g : Graph α V O} {start e : α} (hH : NoneHarmless nn g start e) :
    g.allSimplePathsN nn start e = g.allSimplePaths start e := by
  unfold allSimplePathsN allSimplePaths
  by_cases hse : start = e
  · simp only [hse, if_true]
  let R : α → α → Prop := fun a b => ∃ v, g.edge a b = some v
  have good : ∀ x, Reach R start x → x ≠ e → x ≠ nn := by
    intro x hr hne hn
    rcases hH with h1 | h1
    · exact hne (hn.trans h1.symm)
    · exact h1 (hn ▸ hr)
  have hsucc : ∀ x, x ≠ nn → (g.outNbrN nn x).map (·.1) = g.edgeTargets x := by
    intro x hx
    rw [outNbrN_some g hx]
    unfold outNbr edgeTargets
    rw [List.map_map]; rfl
  rw [pyWhile_congr (step' := aspStep g.edgeTargets e)
    (fun s => ∀ p ∈ s.1, ∀ x l, p = x :: l → Reach R start x ∧ x ≠ nn) ?_ ?_ ?_]
  · rfl
  · rintro ⟨q, paths⟩ hI
    cases q with
    | nil => rfl
    | cons p q =>
      cases p with
      | nil => rfl
      | cons x p =>
        unfold aspStep
        dsimp only
        rw [hsucc x (hI _ (List.mem_cons_self ..) x p rfl).2]
  · rintro ⟨q, paths⟩ s' hI hst
    cases q with
    | nil => cases hst
    | cons p q =>
      cases p with
      | nil => cases hst
      | cons x p =>
        obtain ⟨hr, hn⟩ := hI _ (List.mem_cons_self ..) x p rfl
        unfold aspStep at hst
        dsimp only at hst
        rw [hsucc x hn] at hst
        cases hst
        intro p' hp' y l hy
        rcases aspScan_mem _ _ _ p' hp' with h1 | ⟨c, h1, h2, h3⟩
        · exact hI p' (List.mem_cons_of_mem _ h1) y l hy
        · rw [h3] at hy
          cases hy
          rw [edgeTargets_eq] at h1
          have := reach_step hr (Option.isSome_iff_exists.1 (mem_nodesFrom.1 h1))
          exact ⟨this, good y this h2⟩
  · intro p hp x l hx
    simp at hp; subst hp
    cases hx
    exact ⟨⟨0, .zero _⟩, good _ ⟨0, .zero _⟩ hse⟩

/-! ### breadth_first_search -/

/-- `visited` as the code has it: `None` for no predecessor -/
def predN (nn : α) (d : Dict α (Option α)) : Dict α α := ⟨d.items.map (fun p => (p.1, p.2.getD nn))⟩

theorem predN_get (nn : α) (d : Dict α (Option α)) (k : α) : (predN nn d).get? k = (d.get? k).map (·.getD nn) := by
  obtain ⟨l⟩ := d
  show aget k (l.map _) = (aget k l).map _
  induction l with
  | nil => rfl
  | cons a l ih =>
    obtain ⟨k', v⟩ := a
    simp only [List.map_cons, aget]
    split
    · rfl
    · exact ih

theorem predN_set (nn : α) (d : Dict α (Option α)) (k : α) (v : Option α) : predN nn (d.set k v) = (predN nn d).set k (v.getD nn) := by
  obtain ⟨l⟩ := d
  show Dict.mk ((aset k v l).map _) = Dict.mk (aset k (v.getD nn) (l.map _))
  congr 1
  induction l with
  | nil => rfl
  | cons a l ih =>
    obtain ⟨k', w⟩ := a
    simp only [List.map_cons, aset]
    split
    · rfl
    · rw [List.map_cons, ih]

theorem bfsScanN_eq (nn node : α) (cs : List α) : ∀ (vis : Dict α (Option α)) (q : List α),
    bfsScanN node cs (predN nn vis, q) = (predN nn (bfsScan node cs (vis, q)).1, (bfsScan node cs (vis, q)).2) := by
  induction cs with
  | nil => intro vis q; rfl
  | cons c cs ih =>
    intro vis q
    unfold bfsScanN bfsScan
    have hc : (predN nn vis).contains c = vis.contains c := by
      unfold Dict.contains
      rw [predN_get, Option.isSome_map]
    rw [hc]
    split
    · exact ih vis q
    · rw [← ih, predN_set]; rfl

/-- all that is pending or a predecessor can be reached -/
def BfsReach (R : α → α → Prop) (start : α) (s : Dict α (Option α) × List α) : Prop :=
  (∀ x ∈ s.2, Reach R start x) ∧ ∀ c x, (c, some x) ∈ s.1.items → Reach R start x

theorem bfsReach_step {g : Graph α V O} {start e : α} {s s' : Dict α (Option α) × List α}
    (hI : BfsReach (fun a b => ∃ v, g.edge a b = some v) start s) (hst : bfsStep g.nodesFrom e s = .inl s') :
    BfsReach (fun a b => ∃ v, g.edge a b = some v) start s' := by
  obtain ⟨vis, q⟩ := s
  cases q with
  | nil => cases hst
  | cons n q =>
    unfold bfsStep at hst
    dsimp only at hst
    split at hst
    · cases hst
    · cases hst
      have hr := hI.1 n (List.mem_cons_self ..)
      obtain ⟨new, h1, h2, _, h4, _⟩ := bfsScan_spec n (g.nodesFrom n) vis q
      refine ⟨fun x hx => ?_, fun c x hx => ?_⟩
      · rw [h2] at hx
        rcases List.mem_append.1 hx with h3 | h3
        · exact hI.1 x (List.mem_cons_of_mem _ h3)
        · exact reach_step hr (Option.isSome_iff_exists.1 (mem_nodesFrom.1 (h4 x h3).1))
      · rw [h1] at hx
        rcases List.mem_append.1 hx with h3 | h3
        · exact hI.2 c x h3
        · obtain ⟨y, _, hy⟩ := List.mem_map.1 h3
          cases hy; exact hr

theorem breadthFirstSearchN_eq {nn : α} {g : Graph α V O} {start e : α} (hH : ¬ Reach (fun a b => ∃ v, g.edge a b = some v) start nn) {p : List α}
    (hr : g.breadthFirstSearch start e = some (.ok p)) : g.breadthFirstSearchN nn start e = some (.ok p) := by
  unfold breadthFirstSearch at hr
  unfold breadthFirstSearchN
  let R : α → α → Prop := fun a b => ∃ v, g.edge a b = some v
  by_cases hs : g.has start = true
  · by_cases he : g.has e = true
    · simp only [hs, he, Bool.not_true, Bool.false_eq_true, if_false] at hr ⊢
      have hI0 : BfsReach R start (Dict.empty.set start none, [start]) := by
        refine ⟨fun x hx => ?_, fun c x hx => ?_⟩
        · simp at hx; subst hx; exact ⟨0, .zero _⟩
        · simp [Dict.set, Dict.empty, aset] at hx
      have e0 : ((Dict.empty : Dict α α).set start nn, [start]) = (predN nn ((Dict.empty : Dict α (Option α)).set start none), [start]) := by
        rw [predN_set]; rfl
      cases hl : pyWhile (bfsStep g.nodesFrom e) (Dict.empty.set start none, [start]) with
      | none => rw [hl] at hr; cases hr
      | some r =>
        -- the loop of the code follows the loop of the model
        obtain ⟨l1, l2⟩ : pyWhile (bfsStepN (g.nodesFromN nn) e) (Dict.empty.set start nn, [start]) = some (r.map (fun x => (x.1, predN nn x.2))) ∧
            ∀ x, r = some x → Reach R start x.1 ∧ ∀ c y, (c, some y) ∈ x.2.items → Reach R start y := by
          refine pyWhile_inv (step := bfsStep g.nodesFrom e)
            (fun s => BfsReach R start s ∧ pyWhile (bfsStepN (g.nodesFromN nn) e) (Dict.empty.set start nn, [start]) =
              pyWhile (bfsStepN (g.nodesFromN nn) e) (predN nn s.1, s.2))
            (fun r => pyWhile (bfsStepN (g.nodesFromN nn) e) (Dict.empty.set start nn, [start]) = some (r.map (fun x => (x.1, predN nn x.2))) ∧
              ∀ x, r = some x → Reach R start x.1 ∧ ∀ c y, (c, some y) ∈ x.2.items → Reach R start y) ?_ ?_ ⟨hI0, by rw [e0]⟩ hl
          · rintro s s' ⟨hI, hw⟩ hst
            refine ⟨bfsReach_step hI hst, ?_⟩
            obtain ⟨vis, q⟩ := s
            cases q with
            | nil => cases hst
            | cons n q =>
              unfold bfsStep at hst
              dsimp only at hst hw
              rw [hw]
              split at hst
              · cases hst
              · rename_i hne
                cases hst
                refine pyWhile_inl ?_
                have hn : n ≠ nn := fun hn => hH (hn ▸ hI.1 n (List.mem_cons_self ..))
                unfold bfsStepN
                dsimp only
                rw [if_neg hne, nodesFromN_some g hn, bfsScanN_eq]
          · rintro s r' ⟨hI, hw⟩ hst
            obtain ⟨vis, q⟩ := s
            rw [hw]
            cases q with
            | nil => cases hst; exact ⟨pyWhile_inr rfl, fun x hx => by cases hx⟩
            | cons n q =>
              unfold bfsStep at hst
              dsimp only at hst
              split at hst
              · rename_i hne
                cases hst
                refine ⟨pyWhile_inr ?_, fun x hx => ?_⟩
                · unfold bfsStepN
                  dsimp only
                  rw [if_pos hne]; rfl
                · cases hx; exact ⟨hI.1 n (List.mem_cons_self ..), hI.2⟩
              · cases hst
        rw [hl] at hr
        rw [l1]
        cases r with
        | none => exact hr
        | some x =>
          obtain ⟨node, vis⟩ := x
          obtain ⟨k1, k2⟩ := l2 _ rfl
          dsimp only [Option.map_some] at hr ⊢
          refine pyWhile_inv (step := bfsPathStep vis)
            (fun s => s.1 ≠ some nn ∧ pyWhile (bfsPathStepN nn (predN nn vis)) (node, []) = pyWhile (bfsPathStepN nn (predN nn vis)) (s.1.getD nn, s.2))
            (fun r => pyWhile (bfsPathStepN nn (predN nn vis)) (node, []) = some r) ?_ ?_ ⟨fun h => ?_, rfl⟩ hr
          · rintro ⟨n, path⟩ s' ⟨hn, hw⟩ hst
            cases n with
            | none => cases hst
            | some n =>
              unfold bfsPathStep at hst
              dsimp only at hst hw hn
              have hn' : n ≠ nn := fun h => hn (by rw [h])
              rw [hw]
              cases hg : vis.get? n with
              | none => simp only [Dict.getE, hg] at hst; cases hst
              | some p' =>
                simp only [Dict.getE, hg, Sum.inl.injEq] at hst
                subst hst
                refine ⟨?_, pyWhile_inl ?_⟩
                · show p' ≠ some nn
                  intro hp
                  subst hp
                  exact hH (k2 n nn (mem_of_aget hg))
                · unfold bfsPathStepN
                  simp only [Option.getD_some, if_neg hn', Dict.getE, predN_get, hg, Option.map_some]
          · rintro ⟨n, path⟩ r' ⟨hn, hw⟩ hst
            rw [hw]
            refine pyWhile_inr ?_
            cases n with
            | none =>
              cases hst
              unfold bfsPathStepN
              simp only [Option.getD_none, if_true]
            | some n =>
              have hn' : n ≠ nn := fun h => hn (by rw [h])
              unfold bfsPathStep at hst
              dsimp only at hst
              unfold bfsPathStepN
              cases hg : vis.get? n with
              | none =>
                simp only [Dict.getE, hg] at hst; cases hst
                simp only [Option.getD_some, if_neg hn', Dict.getE, predN_get, hg, Option.map_none]
              | some p' => simp only [Dict.getE, hg] at hst; cases hst
          · have : node = nn := Option.some.inj h
            exact hH (this ▸ k1)
    · simp only [Bool.not_eq_true] at he
      simp [hs, he] at hr
  · simp only [Bool.not_eq_true] at hs
    simp [hs] at hr

end GT

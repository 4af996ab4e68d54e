import Verif.Search.Connected
import Verif.Search.Bfs
import Verif.Search.Dfs
import Verif.Search.Network
import Verif.Search.Paths
import Verif.Sp.DistMap
import Verif.Dag.Topo
/-
How many passes the `while` loops take.  `XUpTo k` is the function `X` whose `while` loop is cut after `k` passes: the result `none` means that it is not over
by then.  (`runFuel step k s` is the result of the loop `pyWhile step s`, if it is over after at most `k` passes.)
-/
namespace GT
variable {α V O : Type} [DecidableEq α]
open Graph

/-- `is_connected(n1, n2)` (base.py:338-354), cut after `k` passes of `while q` (line 343) -/
def Graph.isConnectedUpTo (k : Nat) (g : Graph α V O) (n1 n2 : α) : Option Bool :=
  if g.edges.contains n1 then runFuel (connStep g.nodesFrom n2) k ([n1], []) else some false

/-- `breadth_first_search(graph, start, end)` (bfs.py:7-35), cut after `k` passes of `while q` (line 23) or of `while node is not None` (line 27) -/
def Graph.breadthFirstSearchUpTo (k : Nat) (g : Graph α V O) (start e : α) : Option (Py (List α)) :=
  if !g.has start then some (.error .valueError)
  else if !g.has e then some (.error .valueError)
  else match runFuel (bfsStep g.nodesFrom e) k (Dict.empty.set start none, [start]) with
    | none => none
    | some none => some (.ok [])
    | some (some (node, visited)) => runFuel (bfsPathStep visited) k (some node, [])

/-- `list(breadth_first_walk(graph, start, end, reversed_walk))` (bfs.py:38-67), cut after `k` passes of `while q` (line 58) -/
def Graph.breadthFirstWalkUpTo (k : Nat) (g : Graph α V O) (start : α) (e : Option α) (reversedWalk : Bool) : Option (Py (List α)) :=
  if !g.has start then some (.error .valueError)
  else if (match e with | some x => !g.has x | none => false) then some (.error .valueError)
  else match runFuel (bfwStep (if reversedWalk then g.nodesTo else g.nodesFrom) e) k (Dict.empty.set start none, [start], []) with
    | none => none
    | some out => some (.ok out)

/-- `depth_first_search(graph, start, end)` (dfs.py:7-49), cut after `k` passes of `while q` (line 28) -/
def Graph.depthFirstSearchUpTo (k : Nat) (g : Graph α V O) (start e : α) : Option (Py (Option (List α))) :=
  if !g.has start then some (.error .valueError)
  else if !g.has e then some (.error .valueError)
  else match runFuel (dfsStep g.nodesFrom e) k ([start], [], []) with
    | none => none
    | some r => some (.ok r)

/-- `depth_scan(graph, start, criteria)` (dfs.py:52-97), cut after `k` passes of `while q` (line 72) -/
def Graph.depthScanUpTo (k : Nat) (g : Graph α V O) (start : α) (crit : α → Bool) : Option (Py (List α)) :=
  if !g.has start then some (.error .valueError)
  else if !crit start then some (.ok [])
  else match runFuel (scanStep g.nodesFrom crit) k ([start], [], []) with
    | none => none
    | some r => some (.ok r)

/-- `network_size(graph, n1, degrees_of_separation)` (base.py:455-494), cut after `k` passes of `while True` (line 476) -/
def Graph.networkSizeUpTo (k : Nat) (g : Graph α V O) (ord : Nat → List α → List α) (n1 : α) (d : Option Int) : Option (Py (List α)) :=
  if !g.has n1 then some (.error .valueError)
  else match runFuel (netStep g.nodesFrom ord d) k ([n1], saddAll [] (g.nodesFrom n1), 1) with
    | none => none
    | some r => some (.ok r)

/-- `sources(graph, n)` (dag.py:92-113), cut after `k` passes of `while q` (line 105) -/
def Graph.sourcesUpTo (k : Nat) (g : Graph α V O) (n : α) : Option (Py (List α)) :=
  if !g.has n then some (.error .valueError)
  else match runFuel (srcStep g.nodesTo) k ([n], [n]) with
    | none => none
    | some nodes => if n ∈ nodes then some (.ok (nodes.erase n)) else some (.error .keyError)

/-- `topological_sort(graph, key)` (topological_sort.py:4-36), cut after `k` passes of `while zero_in_degree` (line 27) -/
def Graph.topologicalSortUpTo (k : Nat) (srt : List α → List α) (g : Graph α V O) : Option (List α × Option Err) :=
  let g2 := g.copy
  runFuel (topoStep srt) k (g2, srt (g2.nodesInDeg 0), [])

/-- `shortest_path(graph, start, end, avoids)` (shortest_path.py:11-58), cut after `k` passes of `while q` (line 35) -/
def Graph.shortestPathUpTo (k : Nat) (g : Graph α Rat O) (start fin : α) (avoids : List α := []) : Option (Py (Ext × List α)) :=
  if !g.has start then some (.error .valueError)
  else if !g.has fin then some (.error .valueError)
  else match runFuel (dijStep g.outNbr fin) k ⟨[⟨0, 0, start, []⟩], Dict.empty.set start 0, avoids, 1⟩ with
    | none => none
    | some r => some (.ok r)

/-- the walk of `distance_map` (distance_map.py:46-71), cut after `k` passes of `while q` -/
def dmWalkUpTo (k : Nat) (ord : List α → List α) (nbr : α → List (α × Rat)) (S : List α) (T : Option (List α)) : Option (Py (Dict α Rat)) :=
  let S := ord (saddAll [] S)
  runFuel (dmStep nbr T) k ⟨[], S.foldl (fun d x => d.set x 0) Dict.empty, S⟩

/-- `distance_map(graph, starts, ends, reverse)` (distance_map.py:8-78), cut after `k` passes of `while q` (lines 50, 61) -/
def Graph.distanceMapUpTo (k : Nat) (ord : List α → List α) (g : Graph α Rat O) (starts ends : Option (List α)) (reverse : Bool) :
    Option (Py (Dict α Rat)) :=
  if starts.isNone && ends.isNone then some (.error .valueError)
  else if starts.isNone && !reverse then some (.error .valueError)
  else if ends.isNone && reverse then some (.error .valueError)
  else if (starts.getD []).any (fun s => !g.has s) then some (.error .valueError)
  else if (ends.getD []).any (fun s => !g.has s) then some (.error .valueError)
  else if reverse then dmWalkUpTo k ord g.inNbr (ends.getD []) starts
  else dmWalkUpTo k ord g.outNbr (starts.getD []) ends

/-! ### loops with a bound -/

theorem runFuel_mono {σ ρ : Type} {step : σ → σ ⊕ ρ} {n : Nat} : ∀ {k : Nat} {s : σ} {r : ρ}, runFuel step n s = some r → n ≤ k → runFuel step k s = some r := by
  induction n with
  | zero => intro k s r h; cases h
  | succ n ih =>
    intro k s r h hk
    obtain ⟨k, rfl⟩ : ∃ j, k = j + 1 := ⟨k - 1, by omega⟩
    unfold runFuel at h ⊢
    cases hs : step s with
    | inr r' => rw [hs] at h; exact h
    | inl s' => rw [hs] at h; exact ih h (by omega)

theorem runFuel_bound {σ ρ : Type} {step : σ → σ ⊕ ρ} (I : Nat → σ → Prop)
    (hI : ∀ m s s', I m s → step s = .inl s' → ∃ m', m' < m ∧ I m' s') : ∀ (k m : Nat) (s : σ), I m s → m < k → ∃ r, runFuel step k s = some r := by
  intro k
  induction k with
  | zero => intro m s _ h; omega
  | succ k ih =>
    intro m s hm hk
    unfold runFuel
    cases hs : step s with
    | inr r => exact ⟨r, rfl⟩
    | inl s' =>
      obtain ⟨m', h1, h2⟩ := hI m s s' hm hs
      exact ih m' s' h2 (by omega)

theorem runFuel_measure {σ ρ : Type} {step : σ → σ ⊕ ρ} (I : σ → Prop) (m : σ → Nat)
    (hI : ∀ s s', I s → step s = .inl s' → I s' ∧ m s' < m s) {k : Nat} {s : σ} (hs : I s) (hk : m s < k) : ∃ r, runFuel step k s = some r :=
  runFuel_bound (fun n s => I s ∧ m s = n) (fun _ s s' ⟨h, e⟩ hst => ⟨m s', e ▸ (hI s s' h hst).2, (hI s s' h hst).1, rfl⟩) k (m s) s ⟨hs, rfl⟩ hk

theorem runFuel_eq {σ ρ : Type} {step : σ → σ ⊕ ρ} {k : Nat} {s : σ} (h : ∃ r, runFuel step k s = some r) : runFuel step k s = pyWhile step s := by
  obtain ⟨r, h⟩ := h
  rw [h, pyWhile_of_runFuel h]

theorem unvis_single {U : List α} (hU : U.Nodup) {a : α} (ha : a ∈ U) : unvis U [a] + 1 = U.length := by
  induction U with
  | nil => cases ha
  | cons b U ih =>
    rw [List.nodup_cons] at hU
    unfold unvis at *
    rcases List.mem_cons.1 ha with rfl | ha
    · have : U.filter (fun x => !decide (x ∈ [a])) = U := by
        rw [List.filter_eq_self]; intro x hx; simp; rintro rfl; exact hU.1 hx
      simp only [List.filter_cons, List.mem_singleton, decide_true, Bool.not_true, List.length_cons]
      simpa using this
    · have hne : b ≠ a := by rintro rfl; exact hU.1 ha
      have := ih hU.2 ha
      simp only [List.filter_cons, List.mem_singleton, hne, decide_false, Bool.not_false, if_true, List.length_cons] at this ⊢
      omega

theorem unvis_nil (U : List α) : unvis U [] = U.length := by unfold unvis; simp

/-! ### breadth first -/

theorem bfs_passes {succ : α → List α} {U : List α} (hU : FiniteOn (fun a b => b ∈ succ a) U) {start : α} (hs : start ∈ U) (e : α) {k : Nat} (hk : U.length < k) :
    ∃ r, runFuel (bfsStep succ e) k (Dict.empty.set start none, [start]) = some r := by
  refine runFuel_measure (fun s => ∃ done D, BfsInv (fun a b => b ∈ succ a) start s.1 s.2 done D)
    (fun s => U.length + s.2.length - s.1.keys.length) ?_ ⟨[], fun _ => 0, ?_⟩ ?_
  · rintro ⟨vis, q⟩ ⟨vis', q'⟩ ⟨done, D, h⟩ hst
    cases q with
    | nil => simp [bfsStep] at hst
    | cons node q =>
      simp only [bfsStep] at hst
      by_cases hne : node = e
      · simp [hne] at hst
      · rw [if_neg hne] at hst
        simp only [Sum.inl.injEq] at hst
        obtain ⟨D', h'⟩ := h.step
        rw [hst] at h'
        refine ⟨⟨_, D', h'⟩, ?_⟩
        have h1 := h'.subset hU hs
        have h2 := bfsScan_lengths node (succ node) vis q
        have h3 := h.subset hU hs
        rw [hst] at h2
        simp only [List.length_cons] at *
        omega
  · exact bfsInv_init _ start
  · simp [Dict.set, Dict.empty, aset, Dict.keys]; omega


theorem BfsInv.depth_lt {R : α → α → Prop} {start : α} {vis : Dict α (Option α)} {q done : List α} {D : α → Nat}
    (h : BfsInv R start vis q done D) {x : α} (hx : x ∈ vis.keys) : D x < vis.keys.length := by
  have key : ∀ (n : Nat) (x : α), D x = n → x ∈ vis.keys → ∃ L : List α, L.Nodup ∧ (∀ y ∈ L, y ∈ vis.keys ∧ D y ≤ n) ∧ L.length = n + 1 := by
    intro n
    induction n with
    | zero => intro x h1 h2; exact ⟨[x], by simp, by simp [h1, h2], rfl⟩
    | succ n ih =>
      intro x h1 h2
      obtain ⟨par, hpar⟩ := Dict.exists_get?_of_mem_keys h2
      cases par with
      | none => have := h.root x hpar; subst this; rw [h.d0] at h1; cases h1
      | some m =>
        obtain ⟨h4, h5, h6⟩ := h.par x m hpar
        obtain ⟨L, l1, l2, l3⟩ := ih m (by omega) (by rw [h.keys]; simp [h4])
        refine ⟨x :: L, ?_, ?_, by simp [l3]⟩
        · rw [List.nodup_cons]
          refine ⟨fun hin => ?_, l1⟩
          have := (l2 x hin).2
          omega
        · intro y hy
          rcases List.mem_cons.1 hy with rfl | hy
          · exact ⟨h2, by omega⟩
          · exact ⟨(l2 y hy).1, by have := (l2 y hy).2; omega⟩
  obtain ⟨L, l1, l2, l3⟩ := key (D x) x rfl hx
  have := List.Nodup.length_le_of_subset l1 (fun y hy => (l2 y hy).1)
  omega

theorem bfsPath_passes {R : α → α → Prop} {start : α} {vis : Dict α (Option α)} {q done : List α} {D : α → Nat}
    (h : BfsInv R start vis q done D) {e : α} (he : e ∈ vis.keys) {U : List α} (hU : FiniteOn R U) (hs : start ∈ U) {k : Nat} (hk : U.length < k) :
    ∃ r, runFuel (bfsPathStep vis) k (some e, []) = some r := by
  have hd := h.depth_lt he
  have hsub := h.subset hU hs
  refine runFuel_measure (fun s => match s.1 with
      | none => True
      | some n => n ∈ vis.keys) (fun s => match s.1 with
      | none => 0
      | some n => D n + 1) ?_ he ?_
  · rintro ⟨n, path⟩ ⟨n', path'⟩ hI hst
    cases n with
    | none => simp [bfsPathStep] at hst
    | some n =>
      simp only at hI
      obtain ⟨par, hpar⟩ := Dict.exists_get?_of_mem_keys hI
      simp only [bfsPathStep, Dict.getE, hpar, Sum.inl.injEq, Prod.mk.injEq] at hst
      obtain ⟨rfl, rfl⟩ := hst
      cases par with
      | none => exact ⟨trivial, by simp⟩
      | some m =>
        obtain ⟨h4, h5, h6⟩ := h.par n m hpar
        exact ⟨by rw [h.keys]; simp [h4], by simp; omega⟩
  · simp only; omega

theorem bfw_passes {succ : α → List α} {U : List α} (hU : FiniteOn (fun a b => b ∈ succ a) U) {start : α} (hs : start ∈ U) (e : Option α) {k : Nat} (hk : U.length < k) :
    ∃ r, runFuel (bfwStep succ e) k (Dict.empty.set start none, [start], []) = some r := by
  refine runFuel_measure (fun s => ∃ D, BfsInv (fun a b => b ∈ succ a) start s.1 s.2.1 s.2.2 D)
    (fun s => U.length + s.2.1.length - s.1.keys.length) ?_ ⟨fun _ => 0, bfsInv_init _ start⟩ ?_
  · rintro ⟨vis, q, out⟩ ⟨vis', q', out'⟩ ⟨D, h⟩ hst
    cases q with
    | nil => simp [bfwStep] at hst
    | cons node q =>
      simp only [bfwStep] at hst
      by_cases hne : some node = e
      · rw [if_pos hne] at hst; cases hst
      · rw [if_neg hne] at hst
        simp only [Sum.inl.injEq, Prod.mk.injEq] at hst
        obtain ⟨rfl, rfl, rfl⟩ := hst
        obtain ⟨D', h'⟩ := h.step
        refine ⟨⟨D', h'⟩, ?_⟩
        have h1 := h'.subset hU hs
        have h2 := bfsScan_lengths node (succ node) vis q
        have h3 := h.subset hU hs
        simp only [List.length_cons] at *
        omega
  · simp [Dict.set, Dict.empty, aset, Dict.keys]; omega

theorem Graph.breadthFirstSearchUpTo_eq {g : Graph α V O} (hg : g.Built) (start e : α) :
    g.breadthFirstSearchUpTo (g.nodeList.length + 1) start e = g.breadthFirstSearch start e := by
  unfold breadthFirstSearchUpTo breadthFirstSearch
  cases hs : g.has start with
  | false => simp
  | true =>
    cases he : g.has e with
    | false => simp
    | true =>
      simp only [Bool.not_true, Bool.false_eq_true, if_false]
      have hU : FiniteOn (fun a b => b ∈ g.nodesFrom a) g.nodeList := by rw [rel_nodesFrom]; exact hg.inv.finite
      have hsU := has_iff.1 hs
      rw [runFuel_eq (bfs_passes hU hsU e (Nat.lt_succ_self _))]
      obtain ⟨r, h1, h2⟩ := bfs_loop hU hsU e
      rw [h1]
      cases r with
      | none => rfl
      | some x =>
        obtain ⟨node, vis⟩ := x
        obtain ⟨h3, q, done, D, hI, hk⟩ := h2
        dsimp only at h3 ⊢
        subst h3
        exact runFuel_eq (bfsPath_passes hI hk hU hsU (Nat.lt_succ_self _))

theorem Graph.breadthFirstWalkUpTo_eq {g : Graph α V O} (hg : g.Built) (start : α) (e : Option α) (rev : Bool) :
    g.breadthFirstWalkUpTo (g.nodeList.length + 1) start e rev = g.breadthFirstWalk start e rev := by
  unfold breadthFirstWalkUpTo breadthFirstWalk
  cases hs : g.has start with
  | false => simp
  | true =>
    have hsU := has_iff.1 hs
    have hU : FiniteOn (fun a b => b ∈ (if rev then g.nodesTo else g.nodesFrom) a) g.nodeList := by
      intro a b h
      cases rev with
      | false => have : FiniteOn (fun a b => b ∈ g.nodesFrom a) g.nodeList := by rw [rel_nodesFrom]; exact hg.inv.finite
                 exact this a b (by simpa using h)
      | true =>
        have : FiniteOn (fun a b => b ∈ g.nodesFrom a) g.nodeList := by rw [rel_nodesFrom]; exact hg.inv.finite
        have h' : b ∈ g.nodesTo a := by simpa using h
        obtain ⟨h1, h2⟩ := this b a (mem_nodesFrom.2 (hg.inv.mem_nodesTo.1 h'))
        exact ⟨h2, h1⟩
    rw [runFuel_eq (bfw_passes hU hsU e (Nat.lt_succ_self _))]
    rfl

/-! ### depth first -/

theorem Graph.depthScanUpTo_eq {g : Graph α V O} (hg : g.Built) (start : α) (crit : α → Bool) :
    g.depthScanUpTo (g.nodeList.length + 1) start crit = g.depthScan start crit := by
  unfold depthScanUpTo depthScan
  cases hs : g.has start with
  | false => simp
  | true =>
    cases hc : crit start with
    | false => simp
    | true =>
      simp only [Bool.not_true, Bool.false_eq_true, if_false]
      have hU : FiniteOn (fun a b => b ∈ g.nodesFrom a) g.nodeList := by rw [rel_nodesFrom]; exact hg.inv.finite
      have hsU := has_iff.1 hs
      rw [runFuel_eq (runFuel_measure (fun s => ScanI g.nodesFrom crit start s.1 s.2.1 s.2.2) (fun s => unvis g.nodeList s.2.2)
        (fun s s' hI hst => ⟨(hI.step hst).1, scanI_unvis hU hsU hI hst⟩) (scanI_init g.nodesFrom hc) (by rw [unvis_nil]; omega))]
      rfl

theorem Graph.depthFirstSearchUpTo_eq {g : Graph α V O} (hg : g.Built) (start e : α) :
    g.depthFirstSearchUpTo (g.nodeList.length + 1) start e = g.depthFirstSearch start e := by
  unfold depthFirstSearchUpTo depthFirstSearch
  cases hs : g.has start with
  | false => simp
  | true =>
    cases he : g.has e with
    | false => simp
    | true =>
      simp only [Bool.not_true, Bool.false_eq_true, if_false]
      have hU : FiniteOn (fun a b => b ∈ g.nodesFrom a) g.nodeList := by rw [rel_nodesFrom]; exact hg.inv.finite
      have hsU := has_iff.1 hs
      rw [runFuel_eq (runFuel_measure (fun s => ScanI g.nodesFrom (fun _ => true) start s.1 s.2.1 s.2.2) (fun s => unvis g.nodeList s.2.2)
        (fun s s' hI hst => ⟨(hI.step (dfsStep_eq hst)).1, scanI_unvis hU hsU hI (dfsStep_eq hst)⟩) (scanI_init g.nodesFrom rfl) (by rw [unvis_nil]; omega))]
      rfl

/-! ### shortest_path -/

theorem popMin_length {q r : List (Ent α)} {m : Ent α} (h : popMin q = some (m, r)) : q.length = r.length + 1 := by
  have := (popMin_some h).1.length_eq
  simpa using this

theorem dijRelax_length (cost : Rat) (path visited : List α) (l : List (α × Rat)) : ∀ (q : List (Ent α)) (mins : Dict α Rat) (i : Nat),
    (dijRelax cost path visited l (q, mins, i)).1.length ≤ q.length + l.length := by
  induction l with
  | nil => intro q mins i; simp [dijRelax]
  | cons x l ih =>
    intro q mins i
    obtain ⟨v2, dist⟩ := x
    unfold dijRelax
    split
    · have := ih q mins i; simp only [List.length_cons]; omega
    · split
      · have := ih (⟨cost + dist, i, v2, path⟩ :: q) (mins.set v2 (cost + dist)) (i + 1); simp only [List.length_cons] at *; omega
      · split
        · have := ih (⟨cost + dist, i, v2, path⟩ :: q) (mins.set v2 (cost + dist)) (i + 1); simp only [List.length_cons] at *; omega
        · have := ih q mins i; simp only [List.length_cons]; omega

/-- the edges that leave a node not in `vis` -/
def openEdges (g : Graph α V O) (vis : List α) : List (α × α × V) := g.edgeList.filter (fun e => !decide (e.1 ∈ vis))

theorem openEdges_visit {g : Graph α V O} (h : g.Inv) {vis : List α} {n : α} (hn : n ∉ vis) :
    (openEdges g (sadd vis n)).length + (g.outNbr n).length ≤ (openEdges g vis).length := by
  have h1 : (g.outNbr n).length = (g.edgesFrom n).length := by simp [outNbr]
  rw [h1, ← List.length_append]
  refine List.Nodup.length_le_of_subset ?_ ?_
  · rw [List.nodup_append]
    refine ⟨h.edgeList_nodup.sublist List.filter_sublist, h.edgesFrom_nodup n, ?_⟩
    rintro ⟨a, b, v⟩ hx ⟨a', b', v'⟩ hy he
    simp only [openEdges, List.mem_filter, Bool.not_eq_true', decide_eq_false_iff_not, mem_sadd, not_or] at hx
    obtain ⟨rfl, _⟩ := h.mem_edgesFrom.1 hy
    cases he
    exact hx.2.1 rfl
  · rintro ⟨a, b, v⟩ hx
    rcases List.mem_append.1 hx with hx | hx
    · simp only [openEdges, List.mem_filter, Bool.not_eq_true', decide_eq_false_iff_not, mem_sadd, not_or] at hx ⊢
      exact ⟨hx.1, hx.2.2⟩
    · obtain ⟨rfl, he⟩ := h.mem_edgesFrom.1 hx
      simp only [openEdges, List.mem_filter, Bool.not_eq_true', decide_eq_false_iff_not]
      exact ⟨h.mem_edgeList.2 he, hn⟩

theorem dij_passes {g : Graph α Rat O} (h : g.Inv) (fin : α) (s : DijSt α) {k : Nat} (hk : s.q.length + g.edgeList.length < k) :
    ∃ r, runFuel (dijStep g.outNbr fin) k s = some r := by
  refine runFuel_measure (fun _ => True) (fun s => s.q.length + (openEdges g s.visited).length) ?_ trivial ?_
  · intro s s' _ hst
    refine ⟨trivial, ?_⟩
    unfold dijStep at hst
    split at hst
    · cases hst
    · rename_i e q hp
      have hl := popMin_length hp
      split at hst
      · cases hst; simp only; omega
      · rename_i hv
        dsimp only at hst
        split at hst
        · cases hst
        · have h1 := dijRelax_length e.cost (e.node :: e.path) (sadd s.visited e.node) (g.outNbr e.node) q s.mins s.i
          have h2 := openEdges_visit h hv
          cases hst
          simp only
          omega
  · have : (openEdges g s.visited).length ≤ g.edgeList.length := List.length_filter_le _ _
    omega

theorem Graph.shortestPathUpTo_eq {g : Graph α Rat O} (hg : g.Built) (start fin : α) (avoids : List α) :
    g.shortestPathUpTo (g.edgeList.length + 2) start fin avoids = g.shortestPath start fin avoids := by
  unfold shortestPathUpTo shortestPath
  rw [runFuel_eq (dij_passes hg.inv fin _ (by simp only [List.length_singleton]; omega))]
  rfl

/-! ### distance_map -/

theorem unvis_add {U s t new : List α} (hU : U.Nodup) (hn : new.Nodup) (h1 : ∀ x ∈ new, x ∈ U ∧ x ∉ s) (h2 : ∀ x, x ∈ s → x ∈ t) (h3 : ∀ x ∈ new, x ∈ t) :
    unvis U t + new.length ≤ unvis U s := by
  unfold unvis
  rw [← List.length_append]
  refine List.Nodup.length_le_of_subset ?_ ?_
  · rw [List.nodup_append]
    refine ⟨hU.sublist List.filter_sublist, hn, ?_⟩
    rintro a ha b hb rfl
    simp only [List.mem_filter, Bool.not_eq_true', decide_eq_false_iff_not] at ha
    exact ha.2 (h3 a hb)
  · intro x hx
    simp only [List.mem_append, List.mem_filter, Bool.not_eq_true', decide_eq_false_iff_not] at hx ⊢
    rcases hx with ⟨a, b⟩ | hx
    · exact ⟨a, fun hs => b (h2 x hs)⟩
    · exact h1 x hx

theorem dm_passes {nbr : α → List (α × Rat)} {U : List α} (hU : U.Nodup) (hn : ∀ a b d, (b, d) ∈ nbr a → b ∈ U) {ord : List α → List α}
    (hord : ∀ l, (ord l).Perm l) {S : List α} (hS : ∀ x ∈ S, x ∈ U) (T : Option (List α)) : dmWalkUpTo (U.length + 1) ord nbr S T = dmWalk ord nbr S T := by
  unfold dmWalkUpTo dmWalk
  dsimp only
  refine runFuel_eq (runFuel_measure (fun _ => True) (fun s => s.q.length + unvis U s.visited.keys) ?_ trivial ?_)
  · intro s s' _ hst
    refine ⟨trivial, ?_⟩
    unfold dmStep at hst
    split at hst
    · cases hst
    · rename_i n1 q hq
      split at hst
      · cases hst
      · dsimp only at hst
        split at hst
        · cases hst
        · rename_i d1 hd
          obtain ⟨new, e1, e2, e3, e4, e5⟩ := (dmRelax_spec (d1 := d1) (nbr n1) q s.visited).queue
          have := unvis_add hU e2 (fun x hx => ⟨by obtain ⟨d, h⟩ := e5 x hx; exact hn _ _ _ h, e3 x hx⟩) (fun x hx => (e4 x).2 (.inl hx))
            (fun x hx => (e4 x).2 (.inr hx))
          cases hst
          dsimp only
          rw [e1, hq]
          simp only [List.length_append, List.length_cons]
          omega
  · obtain ⟨k1, k2, k3⟩ := foldSet_keys (ord (saddAll [] S)) Dict.empty Dict.wf_empty (by simp)
    have hnd : (ord (saddAll [] S)).Nodup := (hord _).nodup_iff.2 (nodup_saddAll (by simp))
    have hm : ∀ x, x ∈ ord (saddAll [] S) → x ∈ U := fun x hx => hS x (by simpa using (hord _).mem_iff.1 hx)
    have := unvis_add (s := []) hU hnd (fun x hx => ⟨hm x hx, by simp⟩) (t := (List.foldl (fun d x => d.set x 0) (Dict.empty : Dict α Rat) (ord (saddAll [] S))).keys)
      (by simp) (fun x hx => (k2 x).2 (.inr hx))
    rw [unvis_nil] at this
    dsimp only
    omega

theorem Graph.distanceMapUpTo_eq {g : Graph α Rat O} (hg : g.Built) {ord : List α → List α} (hord : ∀ l, (ord l).Perm l)
    (starts ends : Option (List α)) (reverse : Bool) :
    g.distanceMapUpTo (g.nodeList.length + 1) ord starts ends reverse = g.distanceMap ord starts ends reverse := by
  unfold distanceMapUpTo distanceMap
  have hmem : ∀ l : List α, ¬ (l.any (fun s => !g.has s)) = true → ∀ x ∈ l, x ∈ g.nodeList := by
    intro l hl x hx
    apply has_iff.1
    simp only [Bool.not_eq_true, List.any_eq_false, Bool.not_eq_true', Bool.not_eq_false] at hl
    exact hl x hx
  by_cases h1 : (starts.isNone && ends.isNone) = true
  · rw [if_pos h1, if_pos h1]
  rw [if_neg h1, if_neg h1]
  by_cases h2 : (starts.isNone && !reverse) = true
  · rw [if_pos h2, if_pos h2]
  rw [if_neg h2, if_neg h2]
  by_cases h3 : (ends.isNone && reverse) = true
  · rw [if_pos h3, if_pos h3]
  rw [if_neg h3, if_neg h3]
  by_cases h4 : ((starts.getD []).any (fun s => !g.has s)) = true
  · rw [if_pos h4, if_pos h4]
  rw [if_neg h4, if_neg h4]
  by_cases h5 : ((ends.getD []).any (fun s => !g.has s)) = true
  · rw [if_pos h5, if_pos h5]
  rw [if_neg h5, if_neg h5]
  have hN : g.nodeList.Nodup := hg.inv.nodesWF
  rw [dm_passes hN (fun a b d h => ?_) hord (hmem _ h5), dm_passes hN (fun a b d h => ?_) hord (hmem _ h4)]
  · exact (hg.inv.edge_mem (hg.inv.mem_outNbr.1 h)).2
  · exact (hg.inv.edge_mem (hg.inv.mem_inNbr.1 h)).1

/-! ### network_size -/

theorem Graph.networkSizeUpTo_eq {g : Graph α V O} (hg : g.Built) {ord : Nat → List α → List α} (hord : ∀ t l x, x ∈ ord t l ↔ x ∈ l) (n1 : α) (d : Option Int) :
    g.networkSizeUpTo (g.nodeList.length + 1) ord n1 d = g.networkSize ord n1 d := by
  unfold networkSizeUpTo networkSize
  cases hs : g.has n1 with
  | false => simp
  | true =>
    have hsU := has_iff.1 hs
    have hU : FiniteOn (fun a b => b ∈ g.nodesFrom a) g.nodeList := by rw [rel_nodesFrom]; exact hg.inv.finite
    have key : ∃ r, runFuel (netStep g.nodesFrom ord d) (g.nodeList.length + 1) ([n1], saddAll [] (g.nodesFrom n1), 1) = some r := by
     refine runFuel_measure (fun s => ∀ x ∈ s.2.1, x ∈ g.nodeList) (fun s => unvis g.nodeList s.1 + if s.2.1 = [] then 0 else 1) ?_ ?_ ?_
     · rintro ⟨net, q, t⟩ s' hI hst
       simp only at hI
       simp only [netStep] at hst
       by_cases hqe : q.isEmpty = true
       · simp [hqe] at hst
       rw [if_neg hqe] at hst
       have hqne : q ≠ [] := by simpa using hqe
       by_cases hkd : beyond d t = true
       · rw [if_pos hkd] at hst; simp at hst
       rw [if_neg hkd] at hst
       simp only [Sum.inl.injEq] at hst
       subst hst
       obtain ⟨h1, h2, h3, h4⟩ := netScan_spec g.nodesFrom (ord t q) net []
       generalize netScan g.nodesFrom (ord t q) (net, []) = r at *
       obtain ⟨net', q'⟩ := r
       simp only [hord] at h1 h2 h3 h4 ⊢
       refine ⟨fun x hx => ?_, ?_⟩
       · rcases h3 x hx with h5 | ⟨p, _, _, h5⟩
         · simp at h5
         · exact (hU _ _ h5).2
       · rw [if_neg hqne]
         have hmono : ∀ x, x ∈ net → x ∈ net' := fun x hx => (h1 x).2 (Or.inl hx)
         by_cases hall : ∀ x ∈ q, x ∈ net
         · have : q' = [] := by
             rw [List.eq_nil_iff_forall_not_mem]
             intro x hx
             rcases h3 x hx with h5 | ⟨p, hp, h6, _⟩
             · simp at h5
             · exact h6 (hall p hp)
           have h5 := unvis_le (U := g.nodeList) hmono
           simp only [this, if_true]; omega
         · simp only [Classical.not_forall] at hall
           obtain ⟨x, hx, hxn⟩ := hall
           have := unvis_lt hmono (hI x hx) hxn ((h1 x).2 (.inr hx))
           split <;> omega
     · intro x hx
       simp only [mem_saddAll, List.not_mem_nil, false_or] at hx
       exact (hU _ _ hx).2
     · have := unvis_single (U := g.nodeList) hg.inv.nodesWF hsU
       simp only
       split <;> omega
    rw [runFuel_eq key]
    rfl

/-! ### topological_sort -/

theorem Graph.topologicalSortUpTo_eq {g : Graph α V O} (hg : g.Built) {srt : List α → List α} (hs : ∀ l, (srt l).Perm l) :
    g.topologicalSortUpTo (g.nodeList.length + 1) srt = g.topologicalSort srt := by
  unfold topologicalSortUpTo topologicalSort
  dsimp only
  refine runFuel_eq (runFuel_measure (fun s => Remaining g s.1 s.2.2 ∧ s.2.1.Perm (s.1.nodesInDeg 0)) (fun s => unvis g.nodeList s.2.2) ?_ ⟨?_, hs _⟩ ?_)
  · rintro ⟨g2, zero, out⟩ ⟨g2', zero', out'⟩ ⟨hr, hz⟩ hst
    simp only [topoStep] at hst
    by_cases hz0 : zero = []
    · simp only [hz0, ne_eq, not_true_eq_false, if_false] at hst
      split at hst <;> simp at hst
    · rw [if_pos (by simpa using hz0)] at hst
      simp only [Sum.inl.injEq, Prod.mk.injEq] at hst
      obtain ⟨rfl, rfl, rfl⟩ := hst
      refine ⟨⟨hr.delNodes zero, hs _⟩, ?_⟩
      obtain ⟨x, hx⟩ := List.exists_mem_of_ne_nil _ hz0
      obtain ⟨h1, h2, _⟩ := (hr.mem_sources x).1 (hz.mem_iff.1 hx)
      exact unvis_lt (fun y hy => List.mem_append_left _ hy) (has_iff.1 h1) h2 (List.mem_append_right _ hx)
  · exact Remaining.copy hg.inv
  · rw [unvis_nil]; omega

/-! ### sources -/

theorem srcScan_queue (cs : List α) : ∀ (nodes q : List α), ∃ new, (srcScan cs (nodes, q)).2 = q ++ new ∧ (∀ x ∈ new, x ∈ cs) ∧ (q.Nodup → (q ++ new).Nodup) := by
  induction cs with
  | nil => intro nodes q; exact ⟨[], by simp [srcScan], by simp, by simp⟩
  | cons c cs ih =>
    intro nodes q
    unfold srcScan
    dsimp only
    by_cases hc : c ∈ q
    · rw [if_neg (by simpa using hc)]
      obtain ⟨new, h1, h2, h3⟩ := ih (if c ∉ nodes then sadd nodes c else nodes) q
      exact ⟨new, h1, fun x hx => List.mem_cons_of_mem _ (h2 x hx), h3⟩
    · rw [if_pos hc]
      obtain ⟨new, h1, h2, h3⟩ := ih (if c ∉ nodes then sadd nodes c else nodes) (q ++ [c])
      refine ⟨c :: new, by rw [h1]; simp, ?_, fun hq => ?_⟩
      · intro x hx
        rcases List.mem_cons.1 hx with rfl | hx
        · simp
        · exact List.mem_cons_of_mem _ (h2 x hx)
      · have := h3 (by
          rw [List.nodup_append]
          exact ⟨hq, by simp, by rintro a ha b hb rfl; simp at hb; subst hb; exact hc ha⟩)
        simpa using this

/-- in an acyclic finite relation no walk is longer than the number of nodes -/
theorem steps_lt_of_acyclic {P : α → α → Prop} {U : List α} (hU : FiniteOn P U) {n : α} (hn : n ∈ U)
    (hac : ∀ c, Reach P n c → ¬ ReachPlus P c c) {m : Nat} {x : α} (h : Steps P m n x) : m < U.length := by
  have key : ∀ m x, Steps P m n x → ∃ L : List α, L.Nodup ∧ (∀ y ∈ L, y ∈ U ∧ Reach P n y ∧ Reach P y x) ∧ L.length = m + 1 := by
    intro m
    induction m with
    | zero => intro x h; cases h; exact ⟨[n], by simp, by simp [hn, Reach.refl], rfl⟩
    | succ m ih =>
      intro c h
      cases h with
      | @succ _ _ b _ h1 h2 =>
      obtain ⟨L, l1, l2, l3⟩ := ih b h1
      have hc : Reach P n c := ⟨_, Steps.succ h1 h2⟩
      refine ⟨c :: L, ?_, ?_, by simp [l3]⟩
      · rw [List.nodup_cons]
        refine ⟨fun hin => ?_, l1⟩
        exact hac c hc ((l2 c hin).2.2.plus_tail h2)
      · intro y hy
        rcases List.mem_cons.1 hy with rfl | hy
        · exact ⟨(hU _ _ h2).2, hc, .refl _⟩
        · exact ⟨(l2 y hy).1, (l2 y hy).2.1, (l2 y hy).2.2.tail h2⟩
  obtain ⟨L, l1, l2, l3⟩ := key m x h
  have := List.Nodup.length_le_of_subset l1 (fun y hy => (l2 y hy).1)
  omega

/-- the queue of `sources`: the rest `A` of the nodes at `t` steps from `n` and nodes `B` at `t + 1` steps -/
def SrcGen (P : α → α → Prop) (U : List α) (n : α) (m : Nat) (s : List α × List α) : Prop :=
  ∃ (t : Nat) (A B : List α), s.2 = A ++ B ∧ s.2.Nodup ∧ (∀ x ∈ A, Steps P t n x) ∧ (∀ x ∈ B, Steps P (t + 1) n x) ∧ t < U.length ∧
    (A = [] → B = []) ∧ m = (U.length - 1 - t) * U.length + A.length

theorem src_passes {pred : α → List α} {U : List α} (hU : FiniteOn (fun a b => b ∈ pred a) U) {n : α} (hn : n ∈ U)
    (hac : ∀ c, Reach (fun a b => b ∈ pred a) n c → ¬ ReachPlus (fun a b => b ∈ pred a) c c) :
    ∃ r, runFuel (srcStep pred) (U.length * U.length + 1) ([n], [n]) = some r := by
  have hlen : ∀ t x, Steps (fun a b => b ∈ pred a) t n x → x ∈ U := by
    intro t x h
    exact Reach.closed (fun x => x ∈ U) hn (fun b c _ hc => (hU b c hc).2) ⟨_, h⟩
  have hpos : 0 < U.length := List.length_pos_of_mem hn
  have hsq : (U.length - 1) * U.length + U.length = U.length * U.length := by
    obtain ⟨k, hk⟩ : ∃ k, U.length = k + 1 := ⟨U.length - 1, by omega⟩
    rw [hk, Nat.add_sub_cancel, Nat.succ_mul]
  refine runFuel_bound (SrcGen (fun a b => b ∈ pred a) U n) ?_ _ ((U.length - 1 - 0) * U.length + 1) _
    ⟨0, [n], [], rfl, by simp, by simp [Steps.zero], by simp, hpos, by simp, by simp⟩ (by rw [Nat.sub_zero]; omega)
  rintro m ⟨nodes, q⟩ ⟨nodes', q'⟩ ⟨t, A, B, h1, h2, h3, h4, h5, h6, rfl⟩ hst
  simp only at h1 h2
  cases A with
  | nil => rw [h6 rfl] at h1; simp only [List.append_nil] at h1; subst h1; simp [srcStep] at hst
  | cons new A =>
    subst h1
    simp only [srcStep, List.cons_append, Sum.inl.injEq] at hst
    obtain ⟨extra, e1, e2, e3⟩ := srcScan_queue (pred new) nodes (A ++ B)
    rw [List.cons_append, List.nodup_cons] at h2
    have hq : q' = A ++ (B ++ extra) := by
      have := congrArg Prod.snd hst
      simp only at this
      rw [← this, e1, List.append_assoc]
    have hnd : (A ++ (B ++ extra)).Nodup := by rw [← List.append_assoc]; exact e3 h2.2
    have hB : ∀ x ∈ B ++ extra, Steps (fun a b => b ∈ pred a) (t + 1) n x := by
      intro x hx
      rcases List.mem_append.1 hx with hx | hx
      · exact h4 x hx
      · exact .succ (h3 new (by simp)) (e2 x hx)
    cases A with
    | cons a A =>
      exact ⟨(U.length - 1 - t) * U.length + (a :: A).length, by simp, t, a :: A, B ++ extra, hq, by rw [hq]; exact hnd,
        fun x hx => h3 x (List.mem_cons_of_mem _ hx), hB, h5, by simp, rfl⟩
    | nil =>
      simp only [List.nil_append] at hq hnd
      generalize hBx : B ++ extra = B' at *
      cases B' with
      | nil =>
        exact ⟨(U.length - 1 - t) * U.length + 0, by simp, t, [], [], by rw [hq]; rfl, by rw [hq]; exact hnd, by simp, by simp, h5, fun _ => rfl, rfl⟩
      | cons b B' =>
        have hlt := steps_lt_of_acyclic hU hn hac (hB b (by simp))
        have hle := List.Nodup.length_le_of_subset hnd (fun x hx => hlen _ _ (hB x hx))
        refine ⟨(U.length - 1 - (t + 1)) * U.length + (b :: B').length, ?_, t + 1, b :: B', [], by rw [hq]; simp, by rw [hq]; exact hnd, hB, by simp, hlt, by simp, rfl⟩
        have : (U.length - 1 - (t + 1)) * U.length + U.length = (U.length - 1 - t) * U.length := by
          obtain ⟨k, hk⟩ : ∃ k, U.length - 1 - t = k + 1 := ⟨U.length - 1 - (t + 1), by omega⟩
          rw [show U.length - 1 - (t + 1) = k from by omega, hk, Nat.succ_mul]
        simp only [List.length_cons, List.length_nil] at *
        omega

theorem Graph.sourcesUpTo_eq {g : Graph α V O} (hg : g.Built) (n : α) (hac : ∀ c, Reach g.Adj c n → ¬ ReachPlus g.Adj c c) :
    g.sourcesUpTo (g.nodeList.length * g.nodeList.length + 1) n = g.sources n := by
  have h := hg.inv
  unfold sourcesUpTo sources
  cases hs : g.has n with
  | false => simp
  | true =>
    rw [runFuel_eq (src_passes h.finiteTo (has_iff.1 hs) (by
      rw [h.rel_nodesTo]; intro c hc ⟨m, hp⟩
      exact hac c hc.flip ⟨m, hp.flip⟩))]
    rfl

/-! ### is_connected -/

/-- `a` passes through nodes that all have the same number `w` of successors, in the next layer -/
theorem conn_layer {succ : α → List α} {n2 : α} {layer : α → Nat} {t : Nat} {w : Nat} (hl : ∀ x, layer x = t → (succ x).length = w ∧ n2 ∉ succ x ∧ ∀ y ∈ succ x, layer y = t + 1) :
    ∀ (A B vis : List α), (∀ x ∈ A, layer x = t) → (∀ x ∈ B, layer x = t + 1) → (∀ x ∈ vis, layer x ≤ t) →
      ∃ B' vis', (∀ x ∈ B', layer x = t + 1) ∧ (∀ x ∈ vis', layer x ≤ t) ∧ B'.length = B.length + w * A.length ∧
        ∀ m, runFuel (connStep succ n2) (A.length + m) (A ++ B, vis) = runFuel (connStep succ n2) m (B', vis') := by
  intro A
  induction A with
  | nil => intro B vis _ hB hv; exact ⟨B, vis, hB, hv, by simp, fun m => by simp⟩
  | cons a A ih =>
    intro B vis hA hB hv
    have ha := hA a (by simp)
    obtain ⟨h1, h2, h3⟩ := hl a ha
    have hv' : ∀ x ∈ sadd vis a, layer x ≤ t := by
      intro x hx
      rcases mem_sadd.1 hx with rfl | hx
      · omega
      · exact hv x hx
    have hf : (succ a).filter (fun c => decide (c ∉ sadd vis a)) = succ a := by
      rw [List.filter_eq_self]
      intro y hy
      rw [decide_eq_true_eq]
      intro hin
      have := hv' y hin
      have := h3 y hy
      omega
    obtain ⟨B', vis', i1, i2, i3, i4⟩ := ih (B ++ succ a) (sadd vis a) (fun x hx => hA x (List.mem_cons_of_mem _ hx)) (by
      intro x hx
      rcases List.mem_append.1 hx with hx | hx
      · exact hB x hx
      · exact h3 x hx) hv'
    refine ⟨B', vis', i1, i2, ?_, fun m => ?_⟩
    · rw [i3, List.length_append, h1, List.length_cons, Nat.mul_succ]; omega
    · rw [← i4 m, List.length_cons, Nat.add_right_comm, List.cons_append]
      have : connStep succ n2 (a :: (A ++ B), vis) = .inl (A ++ (B ++ succ a), sadd vis a) := by
        unfold connStep
        simp only [connScan_eq, if_neg h2, hf, List.append_assoc]
      rw [runFuel, this]

/-- `d` further layers of width `w` and a last layer: not over after `|A| w^d` passes -/
theorem conn_slow {succ : α → List α} {n2 : α} {layer : α → Nat} {w K : Nat} 
    (hl : ∀ x, layer x < K → (succ x).length = w ∧ n2 ∉ succ x ∧ ∀ y ∈ succ x, layer y = layer x + 1) (hend : ∀ x, layer x = K → succ x = []) :
    ∀ (d t : Nat), t + d = K → ∀ (A vis : List α), (∀ x ∈ A, layer x = t) → (∀ x ∈ vis, layer x < t) →
      runFuel (connStep succ n2) (A.length * w ^ d) (A, vis) = none := by
  intro d
  induction d with
  | zero =>
    intro t ht A vis hA hv
    have := conn_layer (n2 := n2) (w := 0) (succ := succ) (layer := layer) (t := t) (fun x hx => by rw [hend x (by omega)]; simp) A [] vis hA (by simp)
      (fun x hx => by have := hv x hx; omega)
    obtain ⟨B', vis', _, _, _, i4⟩ := this
    have := i4 0
    simp only [List.append_nil, Nat.add_zero] at this
    simp only [Nat.pow_zero, Nat.mul_one]
    rw [this]; rfl
  | succ d ih =>
    intro t ht A vis hA hv
    obtain ⟨B', vis', i1, i2, i3, i4⟩ := conn_layer (n2 := n2) (w := w) (succ := succ) (layer := layer) (t := t) 
      (fun x hx => by have := hl x (by omega); rwa [hx] at this) A [] vis hA (by simp) (fun x hx => by have := hv x hx; omega)
    have h1 := ih (t + 1) (by omega) B' vis' i1 (fun x hx => by have := i2 x hx; omega)
    have h2 := i4 (B'.length * w ^ d)
    rw [h1, List.append_nil] at h2
    cases hr : runFuel (connStep succ n2) (A.length * w ^ (d + 1)) (A, vis) with
    | none => rfl
    | some r =>
      have := runFuel_mono hr (k := A.length + B'.length * w ^ d) (by
        rw [i3, List.length_nil, Nat.zero_add, Nat.pow_succ, Nat.mul_comm w A.length, Nat.mul_assoc, Nat.mul_comm (w ^ d) w]; omega)
      rw [this] at h2; cases h2

end GT

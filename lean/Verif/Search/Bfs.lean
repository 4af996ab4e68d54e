import Verif.Search.Util
import Verif.Graph.Model
/-
Model of graph/bfs.py (lines 7-67), graph/degree_of_separation.py (lines 5-16).
-/
namespace GT
variable {α V O : Type} [DecidableEq α]

/-- the `for next_node in …` loop (bfs.py:31-34 and 64-67); the state is `(visited, q)` -/
def bfsScan (node : α) : List α → Dict α (Option α) × List α → Dict α (Option α) × List α
  | [], s => s
  | c :: cs, (visited, q) =>
    if visited.contains c then bfsScan node cs (visited, q)
    else bfsScan node cs (visited.set c (some node), q ++ [c])

/-- one iteration of `while q` of `breadth_first_search` (bfs.py:23-35): leaves with the end node and the
predecessor map when the end is dequeued, with `none` when the queue is empty -/
def bfsStep (succ : α → List α) (e : α) :
    Dict α (Option α) × List α → (Dict α (Option α) × List α) ⊕ Option (α × Dict α (Option α))
  | (_, []) => .inr none
  | (visited, node :: q) =>
    if node = e then .inr (some (node, visited))
    else .inl (bfsScan node (succ node) (visited, q))

/-- the path reconstruction `while node is not None` (bfs.py:26-30) -/
def bfsPathStep (visited : Dict α (Option α)) :
    Option α × List α → (Option α × List α) ⊕ Py (List α)
  | (none, path) => .inr (.ok path)
  | (some n, path) => match visited.getE n with
    | .error er => .inr (.error er)
    | .ok p => .inl (p, n :: path)

/-- one iteration of `while q` of `breadth_first_walk` (bfs.py:58-67); the third component collects
the yielded nodes.  `end=None` is `none` (node ids are not `None`). -/
def bfwStep (succ : α → List α) (e : Option α) :
    Dict α (Option α) × List α × List α → (Dict α (Option α) × List α × List α) ⊕ List α
  | (_, [], out) => .inr out
  | (visited, node :: q, out) =>
    let out := out ++ [node]
    if some node = e then .inr out
    else
      let r := bfsScan node (succ node) (visited, q)
      .inl (r.1, r.2, out)

namespace Graph

/-- `breadth_first_search(graph, start, end)` (bfs.py:7-35) -/
def breadthFirstSearch (g : Graph α V O) (start e : α) : Option (Py (List α)) :=
  if !g.has start then some (.error .valueError)
  else if !g.has e then some (.error .valueError)
  else match pyWhile (bfsStep g.nodesFrom e) (Dict.empty.set start none, [start]) with
    | none => none
    | some none => some (.ok [])
    | some (some (node, visited)) => pyWhile (bfsPathStep visited) (some node, [])

/-- `list(breadth_first_walk(graph, start, end, reversed_walk))` (bfs.py:38-67) -/
def breadthFirstWalk (g : Graph α V O) (start : α) (e : Option α) (reversedWalk : Bool) :
    Option (Py (List α)) :=
  if !g.has start then some (.error .valueError)
  else if (match e with | some x => !g.has x | none => false) then some (.error .valueError)
  else match pyWhile (bfwStep (if reversedWalk then g.nodesTo else g.nodesFrom) e)
      (Dict.empty.set start none, [start], []) with
    | none => none
    | some out => some (.ok out)

/-- `degree_of_separation(graph, n1, n2)` (degree_of_separation.py:5-16) -/
def degreeOfSeparation (g : Graph α V O) (n1 n2 : α) : Option (Py Int) :=
  if !g.has n1 then some (.error .valueError)
  else if !g.has n2 then some (.error .valueError)
  else if n1 ∉ g.nodeList then some (.error .assertionError)
  else match g.breadthFirstSearch n1 n2 with
    | none => none
    | some (.error er) => some (.error er)
    | some (.ok p) => some (.ok ((p.length : Int) - 1))

end Graph

/-! ### the scan -/

theorem bfsScan_spec (node : α) (cs : List α) (vis : Dict α (Option α)) (q : List α) :
    ∃ new : List α, (bfsScan node cs (vis, q)).1.items = vis.items ++ new.map (fun c => (c, some node)) ∧
      (bfsScan node cs (vis, q)).2 = q ++ new ∧ new.Nodup ∧
      (∀ c ∈ new, c ∈ cs ∧ c ∉ vis.keys) ∧ (∀ c ∈ cs, c ∈ vis.keys ∨ c ∈ new) := by
  induction cs generalizing vis q with
  | nil => exact ⟨[], by simp [bfsScan]⟩
  | cons c cs ih =>
    unfold bfsScan
    by_cases hc : vis.contains c = true
    · rw [if_pos hc]
      obtain ⟨new, h1, h2, h3, h4, h5⟩ := ih vis q
      refine ⟨new, h1, h2, h3, fun x hx => ⟨List.mem_cons_of_mem _ (h4 x hx).1, (h4 x hx).2⟩, ?_⟩
      intro x hx
      rcases List.mem_cons.1 hx with rfl | hx
      · exact Or.inl ((Dict.contains_iff_keys _ _).1 hc)
      · exact h5 x hx
    · rw [if_neg hc]
      have hc' : c ∉ vis.keys := fun h => hc ((Dict.contains_iff_keys _ _).2 h)
      obtain ⟨new, h1, h2, h3, h4, h5⟩ := ih (vis.set c (some node)) (q ++ [c])
      have hk := Dict.keys_set_of_not_mem (some node) hc'
      refine ⟨c :: new, ?_, ?_, ?_, ?_, ?_⟩
      · rw [h1, Dict.items_set_of_not_mem _ hc']; simp
      · rw [h2]; simp
      · rw [List.nodup_cons]; refine ⟨fun h => ?_, h3⟩
        exact (h4 c h).2 (by rw [hk]; simp)
      · intro x hx
        rcases List.mem_cons.1 hx with rfl | hx
        · exact ⟨by simp, hc'⟩
        · refine ⟨List.mem_cons_of_mem _ (h4 x hx).1, fun h => (h4 x hx).2 ?_⟩
          rw [hk]; simp [h]
      · intro x hx
        rcases List.mem_cons.1 hx with rfl | hx
        · exact Or.inr (by simp)
        · rcases h5 x hx with h | h
          · rw [hk] at h
            rcases List.mem_append.1 h with h | h
            · exact Or.inl h
            · exact Or.inr (by simp at h; simp [h])
          · exact Or.inr (by simp [h])

/-! ### the invariant -/

/-- `done` are the dequeued nodes, `D` the depths -/
structure BfsInv (R : α → α → Prop) (start : α) (vis : Dict α (Option α)) (q done : List α)
    (D : α → Nat) : Prop where
  keys : vis.keys = done ++ q
  wf : vis.WF
  d0 : D start = 0
  mem0 : start ∈ vis.keys
  steps : ∀ x ∈ vis.keys, Steps R (D x) start x
  sorted : (done ++ q).Pairwise (fun x y => D x ≤ D y)
  near : ∀ x ∈ q, ∀ y ∈ q, D x ≤ D y + 1
  kids : ∀ x ∈ done, ∀ c, R x c → c ∈ vis.keys ∧ D c ≤ D x + 1
  par : ∀ x p, vis.get? x = some (some p) → p ∈ done ∧ R p x ∧ D x = D p + 1
  root : ∀ x, vis.get? x = some none → x = start

theorem bfsInv_init (R : α → α → Prop) (start : α) :
    BfsInv R start (Dict.empty.set start none) [start] [] (fun _ => 0) := by
  have hk : (Dict.empty.set start (none : Option α)).keys = [start] := rfl
  constructor
  · simp [hk]
  · simp [Dict.WF, hk]
  · rfl
  · simp [hk]
  · intro x hx; rw [hk] at hx; simp at hx; subst hx; exact .zero _
  · simp
  · simp
  · simp
  · intro x p h; rw [Dict.get?_set] at h; split at h <;> simp at h
  · intro x h; rw [Dict.get?_set] at h
    split at h
    · rename_i h2; exact h2.symm
    · simp at h

theorem BfsInv.step {succ : α → List α} {start : α} {vis : Dict α (Option α)} {node : α} {q done : List α}
    {D : α → Nat} (h : BfsInv (fun a b => b ∈ succ a) start vis (node :: q) done D) :
    ∃ D', BfsInv (fun a b => b ∈ succ a) start (bfsScan node (succ node) (vis, q)).1
      (bfsScan node (succ node) (vis, q)).2 (done ++ [node]) D' := by
  obtain ⟨new, h1, h2, h3, h4, h5⟩ := bfsScan_spec node (succ node) vis q
  generalize hr : bfsScan node (succ node) (vis, q) = r at h1 h2
  obtain ⟨vis', q'⟩ := r
  simp only at h1 h2
  subst h2
  have hkeys : vis'.keys = vis.keys ++ new := by
    simp only [Dict.keys, h1, List.map_append, List.map_map]
    congr 1
    show List.map (fun c => c) new = new
    simp
  have hnode : node ∈ vis.keys := by rw [h.keys]; simp
  have hget : ∀ x, x ∈ vis.keys → vis'.get? x = vis.get? x := by
    intro x hx
    obtain ⟨v, hv⟩ := Dict.exists_get?_of_mem_keys hx
    rw [hv]
    unfold Dict.get?
    have hw : vis'.WF := by
      unfold Dict.WF; rw [hkeys, List.nodup_append]
      exact ⟨h.wf, h3, fun a ha b hb hab => (h4 b hb).2 (hab ▸ ha)⟩
    apply aget_of_mem hw
    rw [h1]; exact List.mem_append_left _ (mem_of_aget hv)
  have hw : vis'.WF := by
    unfold Dict.WF; rw [hkeys, List.nodup_append]
    exact ⟨h.wf, h3, fun a ha b hb hab => (h4 b hb).2 (hab ▸ ha)⟩
  have hgetn : ∀ x, x ∈ new → vis'.get? x = some (some node) := by
    intro x hx
    apply aget_of_mem hw
    rw [h1]; exact List.mem_append_right _ (List.mem_map.2 ⟨x, hx, rfl⟩)
  let D' : α → Nat := fun x => if x ∈ vis.keys then D x else D node + 1
  have hD : ∀ x, x ∈ vis.keys → D' x = D x := fun x hx => by simp only [D', if_pos hx]
  have hDn : ∀ x, x ∈ new → D' x = D node + 1 := fun x hx => by
    simp only [D', if_neg (h4 x hx).2]
  have hdq : ∀ x, x ∈ done ++ node :: q → x ∈ vis.keys := fun x hx => by rw [h.keys]; exact hx
  refine ⟨D', ?_⟩
  have hsort := h.sorted
  rw [List.pairwise_append] at hsort
  obtain ⟨hs1, hs2, hs3⟩ := hsort
  rw [List.pairwise_cons] at hs2
  have hle : ∀ x ∈ q, D x ≤ D node + 1 := fun x hx => h.near x (by simp [hx]) node (by simp)
  constructor
  · show vis'.keys = _
    rw [hkeys, h.keys]; simp
  · exact hw
  · rw [hD start h.mem0]; exact h.d0
  · show start ∈ vis'.keys
    rw [hkeys]; exact List.mem_append_left _ h.mem0
  · intro x hx
    show Steps _ (D' x) start x
    have hx : x ∈ vis'.keys := hx
    rw [hkeys] at hx
    rcases List.mem_append.1 hx with hx | hx
    · rw [hD x hx]; exact h.steps x hx
    · rw [hDn x hx]; exact .succ (h.steps node hnode) (h4 x hx).1
  · show ((done ++ [node]) ++ (q ++ new)).Pairwise _
    have hkeep : (done ++ node :: q).Pairwise (fun x y => D' x ≤ D' y) := by
      refine h.sorted.imp_of_mem ?_
      intro a b ha hb hab
      rw [hD a (hdq a ha), hD b (hdq b hb)]; exact hab
    have heq : (done ++ [node]) ++ (q ++ new) = (done ++ node :: q) ++ new := by simp
    rw [heq, List.pairwise_append]
    refine ⟨hkeep, ?_, ?_⟩
    · refine List.Pairwise.imp_of_mem (R := fun _ _ => True) ?_ (List.pairwise_of_forall (fun _ _ => trivial))
      intro a b ha hb _
      rw [hDn a ha, hDn b hb]; exact Nat.le_refl _
    · intro a ha b hb
      rw [hD a (hdq a ha), hDn b hb]
      rcases List.mem_append.1 ha with ha | ha
      · have := hs3 a ha node (by simp); omega
      · rcases List.mem_cons.1 ha with rfl | ha
        · omega
        · exact hle a ha
  · intro x hx y hy
    have hx : x ∈ q ++ new := hx
    have hy : y ∈ q ++ new := hy
    have hylo : D node ≤ D' y := by
      rcases List.mem_append.1 hy with hy | hy
      · rw [hD y (hdq y (by simp [hy]))]; exact hs2.1 y hy
      · rw [hDn y hy]; omega
    have hxhi : D' x ≤ D node + 1 := by
      rcases List.mem_append.1 hx with hx | hx
      · rw [hD x (hdq x (by simp [hx]))]; exact hle x hx
      · rw [hDn x hx]; omega
    show D' x ≤ D' y + 1
    omega
  · intro x hx c hc
    show c ∈ vis'.keys ∧ D' c ≤ D' x + 1
    rcases List.mem_append.1 hx with hx | hx
    · obtain ⟨h6, h7⟩ := h.kids x hx c hc
      refine ⟨by rw [hkeys]; exact List.mem_append_left _ h6, ?_⟩
      rw [hD c h6, hD x (hdq x (by simp [hx]))]; exact h7
    · simp only [List.mem_singleton] at hx
      subst hx
      rcases h5 c hc with h6 | h6
      · refine ⟨by rw [hkeys]; exact List.mem_append_left _ h6, ?_⟩
        rw [hD c h6, hD x hnode]
        rw [h.keys] at h6
        rcases List.mem_append.1 h6 with h6 | h6
        · have := hs3 c h6 x (by simp); omega
        · rcases List.mem_cons.1 h6 with rfl | h6
          · omega
          · exact hle c h6
      · refine ⟨by rw [hkeys]; exact List.mem_append_right _ h6, ?_⟩
        rw [hDn c h6, hD x hnode]; exact Nat.le_refl _
  · intro x p hx
    have hx : vis'.get? x = some (some p) := hx
    have hxk := Dict.mem_keys_of_get? hx
    rw [hkeys] at hxk
    rcases List.mem_append.1 hxk with h6 | h6
    · rw [hget x h6] at hx
      obtain ⟨h7, h8, h9⟩ := h.par x p hx
      refine ⟨by simp [h7], h8, ?_⟩
      rw [hD x h6, hD p (hdq p (by simp [h7]))]; exact h9
    · rw [hgetn x h6] at hx
      simp only [Option.some.injEq] at hx; subst hx
      refine ⟨by simp, (h4 x h6).1, ?_⟩
      rw [hDn x h6, hD node hnode]
  · intro x hx
    have hx : vis'.get? x = some none := hx
    have hxk := Dict.mem_keys_of_get? hx
    rw [hkeys] at hxk
    rcases List.mem_append.1 hxk with h6 | h6
    · rw [hget x h6] at hx; exact h.root x hx
    · rw [hgetn x h6] at hx; simp at hx

theorem BfsInv.near_steps {R : α → α → Prop} {start : α} {vis : Dict α (Option α)} {q done : List α}
    {D : α → Nat} (h : BfsInv R start vis q done D) {m : Nat} {y : α} (hs : Steps R m start y) :
    (y ∈ vis.keys ∧ D y ≤ m) ∨ ∃ z ∈ q, D z + 1 ≤ m := by
  generalize hst : start = s at hs
  induction hs with
  | zero a => subst hst; exact Or.inl ⟨h.mem0, by rw [h.d0]; omega⟩
  | succ h1 h2 ih =>
    rename_i m x y z
    rcases ih hst with ⟨h3, h4⟩ | ⟨w, hw, h4⟩
    · rw [h.keys] at h3
      rcases List.mem_append.1 h3 with h5 | h5
      · obtain ⟨h6, h7⟩ := h.kids _ h5 _ h2
        exact Or.inl ⟨h6, by omega⟩
      · exact Or.inr ⟨_, h5, by omega⟩
    · exact Or.inr ⟨w, hw, by omega⟩

/-- the depths are hop distances -/
theorem BfsInv.hopDist {R : α → α → Prop} {start : α} {vis : Dict α (Option α)} {q done : List α}
    {D : α → Nat} (h : BfsInv R start vis q done D) {x : α} (hx : x ∈ vis.keys) :
    HopDist R start x (D x) := by
  refine ⟨h.steps x hx, fun m hm => ?_⟩
  rcases h.near_steps hm with h1 | ⟨z, hz, h1⟩
  · exact h1.2
  · rw [h.keys] at hx
    rcases List.mem_append.1 hx with hx | hx
    · have := (List.pairwise_append.1 h.sorted).2.2 x hx z hz; omega
    · have := h.near x hx z hz; omega

/-- when the queue is empty exactly the reachable nodes have been visited -/
theorem BfsInv.final {R : α → α → Prop} {start : α} {vis : Dict α (Option α)} {done : List α}
    {D : α → Nat} (h : BfsInv R start vis [] done D) (y : α) : y ∈ done ↔ Reach R start y := by
  have hk : vis.keys = done := by simpa using h.keys
  constructor
  · intro hy; exact ⟨_, h.steps y (hk ▸ hy)⟩
  · rintro ⟨m, hm⟩
    rcases h.near_steps hm with h1 | ⟨z, hz, _⟩
    · exact hk ▸ h1.1
    · simp at hz

theorem BfsInv.subset {R : α → α → Prop} {start : α} {vis : Dict α (Option α)} {q done : List α}
    {D : α → Nat} (h : BfsInv R start vis q done D) {U : List α} (hU : FiniteOn R U) (hs : start ∈ U) :
    vis.keys.length ≤ U.length := by
  apply List.Nodup.length_le_of_subset h.wf
  intro x hx
  exact Reach.closed (fun x => x ∈ U) hs (fun b c _ hc => (hU b c hc).2) ⟨_, h.steps x hx⟩

theorem bfsScan_lengths (node : α) (cs : List α) (vis : Dict α (Option α)) (q : List α) :
    (bfsScan node cs (vis, q)).1.keys.length + q.length =
      vis.keys.length + (bfsScan node cs (vis, q)).2.length := by
  obtain ⟨new, h1, h2, -⟩ := bfsScan_spec node cs vis q
  rw [h2]; simp only [Dict.keys, h1]; simp; omega

/-! ### breadth_first_search -/

theorem bfs_loop {succ : α → List α} {U : List α} (hU : FiniteOn (fun a b => b ∈ succ a) U)
    {start : α} (hs : start ∈ U) (e : α) :
    ∃ r, pyWhile (bfsStep succ e) (Dict.empty.set start none, [start]) = some r ∧
      match r with
      | none => ¬ Reach (fun a b => b ∈ succ a) start e
      | some (node, vis) => node = e ∧ ∃ q done D, BfsInv (fun a b => b ∈ succ a) start vis q done D ∧
          e ∈ vis.keys := by
  apply pyWhile_total (step := bfsStep succ e)
    (fun s => ∃ done D, BfsInv (fun a b => b ∈ succ a) start s.1 s.2 done D ∧ e ∉ done)
    _ (fun s => U.length + s.2.length - s.1.keys.length)
  · rintro ⟨vis, q⟩ ⟨vis', q'⟩ ⟨done, D, h, he⟩ hst
    cases q with
    | nil => simp [bfsStep] at hst
    | cons node q =>
      simp only [bfsStep] at hst
      by_cases hne : node = e
      · simp [hne] at hst
      · rw [if_neg hne] at hst
        simp only [Sum.inl.injEq] at hst
        obtain ⟨D', h'⟩ := h.step
        rw [hst] at h'
        refine ⟨⟨_, D', h', ?_⟩, ?_⟩
        · simp [he]; exact fun h => hne h.symm
        · have h1 := h'.subset hU hs
          have h2 := bfsScan_lengths node (succ node) vis q
          have h3 := h.subset hU hs
          rw [hst] at h2
          simp only [List.length_cons] at *
          omega
  · rintro ⟨vis, q⟩ r ⟨done, D, h, he⟩ hst
    cases q with
    | nil =>
      simp only [bfsStep, Sum.inr.injEq] at hst
      subst hst
      simp only
      rw [← h.final]; exact he
    | cons node q =>
      simp only [bfsStep] at hst
      by_cases hne : node = e
      · rw [if_pos hne] at hst; simp only [Sum.inr.injEq] at hst; subst hst
        simp only
        exact ⟨hne, _, _, _, h, by rw [h.keys, ← hne]; simp⟩
      · rw [if_neg hne] at hst; simp at hst
  · exact ⟨[], _, bfsInv_init _ _, by simp⟩

theorem bfs_path {R : α → α → Prop} {start : α} {vis : Dict α (Option α)} {q done : List α}
    {D : α → Nat} (h : BfsInv R start vis q done D) {e : α} (he : e ∈ vis.keys) :
    ∃ r, pyWhile (bfsPathStep vis) (some e, []) = some r ∧
      ∃ p, r = .ok p ∧ WalkFT R start e p ∧ p.length = D e + 1 := by
  apply pyWhile_total (step := bfsPathStep vis)
    (fun s => match s.1 with
      | none => WalkFT R start e s.2 ∧ s.2.length = D e + 1
      | some n => n ∈ vis.keys ∧ (s.2 = [] → n = e) ∧
        (∀ p, WalkFT R start n p → p.length = D n + 1 → WalkFT R start e (p ++ s.2) ∧
          (p ++ s.2).length = D e + 1))
    _ (fun s => match s.1 with
      | none => 0
      | some n => D n + 1)
  · rintro ⟨n, path⟩ ⟨n', path'⟩ hI hst
    cases n with
    | none => simp [bfsPathStep] at hst
    | some n =>
      obtain ⟨h1, h2, h3⟩ := hI
      simp only at h1 h2 h3
      obtain ⟨par, hpar⟩ := Dict.exists_get?_of_mem_keys h1
      simp only [bfsPathStep, Dict.getE, hpar, Sum.inl.injEq, Prod.mk.injEq] at hst
      obtain ⟨rfl, rfl⟩ := hst
      cases par with
      | none =>
        have := h.root n hpar
        subst this
        refine ⟨?_, by simp⟩
        have := h3 [n] (WalkFT.single n) (by rw [h.d0]; rfl)
        simpa using this
      | some m =>
        obtain ⟨h4, h5, h6⟩ := h.par n m hpar
        simp only
        refine ⟨⟨by rw [h.keys]; simp [h4], by simp, ?_⟩, by omega⟩
        intro p hp hl
        have := h3 (p ++ [n]) (hp.snoc h5) (by simp; omega)
        simpa using this
  · rintro ⟨n, path⟩ r hI hst
    cases n with
    | none =>
      simp only [bfsPathStep, Sum.inr.injEq] at hst
      exact ⟨path, hst.symm, hI.1, hI.2⟩
    | some n =>
      obtain ⟨par, hpar⟩ := Dict.exists_get?_of_mem_keys hI.1
      simp [bfsPathStep, Dict.getE, hpar] at hst
  · simp only
    exact ⟨he, by simp, fun p hp hl => by simp [hp, hl]⟩

/-! ### breadth_first_walk -/

theorem bfw_none {succ : α → List α} {U : List α} (hU : FiniteOn (fun a b => b ∈ succ a) U)
    {start : α} (hs : start ∈ U) :
    ∃ out, pyWhile (bfwStep succ none) (Dict.empty.set start none, [start], []) = some out ∧
      out.Nodup ∧ (∀ x, x ∈ out ↔ Reach (fun a b => b ∈ succ a) start x) ∧
      ∃ D : α → Nat, (∀ x ∈ out, HopDist (fun a b => b ∈ succ a) start x (D x)) ∧
        out.Pairwise (fun x y => D x ≤ D y) := by
  apply pyWhile_total (step := bfwStep succ none)
    (fun s => ∃ D, BfsInv (fun a b => b ∈ succ a) start s.1 s.2.1 s.2.2 D)
    _ (fun s => U.length + s.2.1.length - s.1.keys.length)
  · rintro ⟨vis, q, out⟩ ⟨vis', q', out'⟩ ⟨D, h⟩ hst
    cases q with
    | nil => simp [bfwStep] at hst
    | cons node q =>
      simp only [bfwStep, reduceCtorEq, if_false, Sum.inl.injEq, Prod.mk.injEq] at hst
      obtain ⟨rfl, rfl, rfl⟩ := hst
      obtain ⟨D', h'⟩ := h.step
      refine ⟨⟨D', h'⟩, ?_⟩
      have h1 := h'.subset hU hs
      have h2 := bfsScan_lengths node (succ node) vis q
      have h3 := h.subset hU hs
      simp only [List.length_cons] at *
      omega
  · rintro ⟨vis, q, out⟩ r ⟨D, h⟩ hst
    cases q with
    | nil =>
      simp only [bfwStep, Sum.inr.injEq] at hst
      subst hst
      have hk : vis.keys = out := by simpa using h.keys
      refine ⟨by rw [← hk]; exact h.wf, h.final, D, fun x hx => h.hopDist (hk ▸ hx), by simpa using h.sorted⟩
    | cons node q => simp [bfwStep] at hst
  · exact ⟨_, bfsInv_init _ _⟩

theorem bfw_prefix {succ : α → List α} {s : Dict α (Option α) × List α × List α} {out : List α}
    (h : pyWhile (bfwStep succ none) s = some out) : s.2.2 <+: out := by
  obtain ⟨vis, q, o⟩ := s
  refine pyWhile_inv (step := bfwStep succ none) (fun s => o <+: s.2.2) (fun r => o <+: r) ?_ ?_
    (List.prefix_refl _) h
  · rintro ⟨vis, q, o1⟩ ⟨vis', q', o2⟩ hI hst
    cases q with
    | nil => simp [bfwStep] at hst
    | cons node q =>
      simp only [bfwStep, reduceCtorEq, if_false, Sum.inl.injEq, Prod.mk.injEq] at hst
      obtain ⟨rfl, rfl, rfl⟩ := hst
      exact hI.trans (List.prefix_append _ _)
  · rintro ⟨vis, q, o1⟩ r hI hst
    cases q with
    | nil => simp only [bfwStep, Sum.inr.injEq] at hst; subst hst; exact hI
    | cons node q => simp [bfwStep] at hst

theorem bfw_some {succ : α → List α} {s : Dict α (Option α) × List α × List α} {full : List α}
    (hf : pyWhile (bfwStep succ none) s = some full) {e : α} (he : e ∉ s.2.2) :
    ∀ out, pyWhile (bfwStep succ (some e)) s = some out → out <+: full ∧
      (e ∈ full → out.getLast? = some e) ∧ (e ∉ full → out = full) := by
  intro out h
  refine pyWhile_inv (step := bfwStep succ (some e))
    (fun s => pyWhile (bfwStep succ none) s = some full ∧ e ∉ s.2.2)
    (fun out => out <+: full ∧ (e ∈ full → out.getLast? = some e) ∧ (e ∉ full → out = full)) ?_ ?_ ⟨hf, he⟩ h
  · rintro ⟨vis, q, o1⟩ ⟨vis', q', o2⟩ ⟨h1, h2⟩ hst
    cases q with
    | nil => simp [bfwStep] at hst
    | cons node q =>
      simp only [bfwStep, Option.some.injEq] at hst
      by_cases hne : node = e
      · simp [hne] at hst
      · rw [if_neg hne] at hst
        simp only [Sum.inl.injEq, Prod.mk.injEq] at hst
        obtain ⟨rfl, rfl, rfl⟩ := hst
        rw [pyWhile_eq] at h1
        simp only [bfwStep, reduceCtorEq, if_false] at h1
        refine ⟨h1, ?_⟩
        simp at h2
        simp [h2]; exact fun h => hne h.symm
  · rintro ⟨vis, q, o1⟩ r ⟨h1, h2⟩ hst
    cases q with
    | nil =>
      simp only [bfwStep, Sum.inr.injEq] at hst
      subst hst
      rw [pyWhile_eq] at h1
      simp only [bfwStep, Option.some.injEq] at h1
      subst h1
      exact ⟨List.prefix_refl _, fun h => absurd h h2, fun _ => rfl⟩
    | cons node q =>
      simp only [bfwStep, Option.some.injEq] at hst
      by_cases hne : node = e
      · rw [if_pos hne] at hst; simp only [Sum.inr.injEq] at hst; subst hst
        rw [pyWhile_eq] at h1
        simp only [bfwStep, reduceCtorEq, if_false] at h1
        have hp : o1 ++ [node] <+: full := bfw_prefix h1
        refine ⟨hp, fun _ => by simp [hne], fun h => ?_⟩
        exact absurd (hp.subset (by simp [hne])) h
      · rw [if_neg hne] at hst; simp at hst

theorem bfw_some_total {succ : α → List α} {U : List α} (hU : FiniteOn (fun a b => b ∈ succ a) U)
    {start : α} (hs : start ∈ U) (e : Option α) :
    ∃ out, pyWhile (bfwStep succ e) (Dict.empty.set start none, [start], []) = some out := by
  refine pyWhile_term (step := bfwStep succ e)
    (fun s => ∃ D, BfsInv (fun a b => b ∈ succ a) start s.1 s.2.1 s.2.2 D) (· < ·) Nat.lt_wfRel.wf
    (fun s => U.length + s.2.1.length - s.1.keys.length) ?_ ⟨_, bfsInv_init _ _⟩
  rintro ⟨vis, q, out⟩ ⟨vis', q', out'⟩ ⟨D, h⟩ hst
  cases q with
  | nil => simp [bfwStep] at hst
  | cons node q =>
    simp only [bfwStep] at hst
    split at hst
    · simp at hst
    · simp only [Sum.inl.injEq, Prod.mk.injEq] at hst
      obtain ⟨rfl, rfl, rfl⟩ := hst
      obtain ⟨D', h'⟩ := h.step
      refine ⟨⟨D', h'⟩, ?_⟩
      have h1 := h'.subset hU hs
      have h2 := bfsScan_lengths node (succ node) vis q
      have h3 := h.subset hU hs
      simp only [List.length_cons] at *
      omega

end GT

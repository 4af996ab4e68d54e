import Verif.Search.NoneNode
import Verif.Search.Connected
import Verif.Search.WorkBound
import Verif.Sp.DijkstraNum
/-
What the searches return in a graph in which `None` is a node (C125): they see `None` as a node with an edge to every node, and they always end.
-/
namespace GT
variable {α V O : Type} [DecidableEq α]
open Graph

/-- the step the searches see: along an edge, or from `None` to any node -/
def StepN (nn : α) (g : Graph α V O) (a b : α) : Prop := (a = nn ∧ g.has b = true) ∨ ∃ v, g.edge a b = some v

theorem rel_nodesFromN {nn : α} {g : Graph α V O} (h : g.Inv) : (fun a b => b ∈ g.nodesFromN nn a) = StepN nn g := by
  funext a b
  apply propext
  unfold StepN
  by_cases ha : a = nn
  · subst ha
    rw [nodesFromN_none]
    constructor
    · exact fun hb => .inl ⟨rfl, has_iff.2 hb⟩
    · rintro (⟨_, hb⟩ | ⟨v, hv⟩)
      · exact has_iff.1 hb
      · exact (h.edge_mem hv).2
  · rw [nodesFromN_some g ha, mem_nodesFrom, Option.isSome_iff_exists]
    simp [ha]

theorem finiteN {nn : α} {g : Graph α V O} (h : g.Inv) (hn : g.has nn = true) : FiniteOn (fun a b => b ∈ g.nodesFromN nn a) g.nodeList := by
  rw [rel_nodesFromN h]
  rintro a b (⟨rfl, hb⟩ | ⟨v, hv⟩)
  · exact ⟨has_iff.1 hn, has_iff.1 hb⟩
  · exact h.edge_mem hv

/-- the walk back of `breadth_first_search` (bfs.py:26-30): it ends before the last `None` of the way -/
theorem bfs_pathN {R : α → α → Prop} (nn : α) {start : α} {vis : Dict α (Option α)} {q done : List α}
    {D : α → Nat} (h : BfsInv R start vis q done D) {e : α} (he : e ∈ vis.keys) :
    ∃ r, pyWhile (bfsPathStepN nn (predN nn vis)) (e, []) = some r ∧
      ∃ p l, r = .ok l ∧ WalkFT R start e p ∧ p.length = D e + 1 ∧ nn ∉ l ∧ (l = p ∨ ∃ p0, p = p0 ++ nn :: l) := by
  apply pyWhile_total (step := bfsPathStepN nn (predN nn vis))
    (fun s => nn ∉ s.2 ∧ ((s.1 = nn ∧ WalkFT R start e s.2 ∧ s.2.length = D e + 1) ∨
      (s.1 ∈ vis.keys ∧ ∀ p, WalkFT R start s.1 p → p.length = D s.1 + 1 → WalkFT R start e (p ++ s.2) ∧ (p ++ s.2).length = D e + 1)))
    _ (fun s => if s.1 = nn then 0 else D s.1 + 1)
  · rintro ⟨n, path⟩ ⟨n', path'⟩ ⟨hnn, hI⟩ hst
    unfold bfsPathStepN at hst
    dsimp only at hst hnn hI ⊢
    by_cases hn : n = nn
    · rw [if_pos hn] at hst; cases hst
    · rw [if_neg hn] at hst
      rcases hI with hI | ⟨h1, h3⟩
      · exact absurd hI.1 hn
      obtain ⟨par, hpar⟩ := Dict.exists_get?_of_mem_keys h1
      simp only [Dict.getE, predN_get, hpar, Option.map_some, Sum.inl.injEq, Prod.mk.injEq] at hst
      obtain ⟨rfl, rfl⟩ := hst
      refine ⟨⟨by simp [hnn, Ne.symm hn], ?_⟩, ?_⟩
      · cases par with
        | none =>
          have := h.root n hpar
          subst this
          refine .inl ⟨rfl, ?_⟩
          have := h3 [n] (WalkFT.single n) (by rw [h.d0]; rfl)
          simpa using this
        | some m =>
          obtain ⟨h4, h5, h6⟩ := h.par n m hpar
          refine .inr ⟨by rw [h.keys]; simp [h4], ?_⟩
          intro p hp hl
          have := h3 (p ++ [n]) (hp.snoc h5) (by simp at hl ⊢; omega)
          simpa using this
      · rw [if_neg hn]
        cases par with
        | none => simp
        | some m =>
          obtain ⟨h4, h5, h6⟩ := h.par n m hpar
          simp only [Option.getD_some]
          split <;> omega
  · rintro ⟨n, path⟩ r ⟨hnn, hI⟩ hst
    unfold bfsPathStepN at hst
    dsimp only at hst hnn hI ⊢
    by_cases hn : n = nn
    · rw [if_pos hn] at hst
      simp only [Sum.inr.injEq] at hst
      rcases hI with ⟨_, h1, h2⟩ | ⟨h1, h3⟩
      · exact ⟨path, path, hst.symm, h1, h2, hnn, .inl rfl⟩
      · obtain ⟨_, _, p, _, h5, h6⟩ := bfs_path h h1
        obtain ⟨h7, h8⟩ := h3 p h5 h6
        refine ⟨p ++ path, path, hst.symm, h7, h8, hnn, .inr ?_⟩
        obtain ⟨p0, hp0⟩ := List.getLast?_eq_some_iff.1 h5.2.2
        exact ⟨p0, by rw [hp0, hn]; simp⟩
    · rw [if_neg hn] at hst
      rcases hI with hI | ⟨h1, h3⟩
      · exact absurd hI.1 hn
      obtain ⟨par, hpar⟩ := Dict.exists_get?_of_mem_keys h1
      simp [Dict.getE, predN_get, hpar] at hst
  · exact ⟨by simp, .inr ⟨he, fun p hp hl => by simp [hp, hl]⟩⟩

theorem breadthFirstSearchN_spec {nn : α} {g : Graph α V O} (h : g.Inv) (hn : g.has nn = true) {start e : α} (hs : g.has start = true) (he : g.has e = true) :
    ∃ l, g.breadthFirstSearchN nn start e = some (.ok l) ∧
      (¬ Reach (StepN nn g) start e → l = []) ∧
      (Reach (StepN nn g) start e → ∃ p, WalkFT (StepN nn g) start e p ∧ (∀ p', WalkFT (StepN nn g) start e p' → p.length ≤ p'.length) ∧
        nn ∉ l ∧ (l = p ∨ ∃ p0, p = p0 ++ nn :: l)) := by
  unfold breadthFirstSearchN
  simp only [hs, he, Bool.not_true, Bool.false_eq_true, if_false]
  obtain ⟨r, hr, hr2⟩ := bfs_loop (finiteN h hn) (has_iff.1 hs) e
  rw [rel_nodesFromN h] at hr2
  have e0 : ((Dict.empty : Dict α α).set start nn, [start]) = (predN nn ((Dict.empty : Dict α (Option α)).set start none), [start]) := by
    rw [predN_set]; rfl
  have hw := pyWhile_map (step := bfsStep (g.nodesFromN nn) e) (step' := bfsStepN (g.nodesFromN nn) e)
    (fun s : Dict α (Option α) × List α => (predN nn s.1, s.2)) (fun r => r.map (fun x => (x.1, predN nn x.2))) (by
      rintro ⟨vis, q⟩
      cases q with
      | nil => rfl
      | cons n q =>
        unfold bfsStep bfsStepN
        dsimp only
        split
        · rfl
        · rw [bfsScanN_eq]) hr
  rw [e0, hw]
  cases r with
  | none =>
    exact ⟨[], rfl, fun _ => rfl, fun hp => absurd hp hr2⟩
  | some r =>
    obtain ⟨node, vis⟩ := r
    dsimp only at hr2
    obtain ⟨rfl, q, done, D, hI, hv⟩ := hr2
    obtain ⟨r, h1, p, l, h2, h3, h4, h5, h6⟩ := bfs_pathN nn hI hv
    subst h2
    refine ⟨l, h1, fun hr => absurd (reach_iff_walk.2 ⟨p, h3⟩) hr, fun _ => ⟨p, h3, fun p' hp' => ?_, h5, h6⟩⟩
    have := (hI.hopDist hv).2 _ hp'.steps
    have hl := hp'.ne_nil
    have : 0 < p'.length := List.length_pos_iff.2 hl
    omega

theorem depthFirstSearchN_spec {nn : α} {g : Graph α V O} (h : g.Inv) (hn : g.has nn = true) {start e : α} (hs : g.has start = true) (he : g.has e = true) :
    ∃ r, g.depthFirstSearchN nn start e = some (.ok r) ∧
      match r with
      | none => ¬ Reach (StepN nn g) start e
      | some p => WalkFT (StepN nn g) start e p ∧ p.Nodup := by
  unfold depthFirstSearchN
  simp only [hs, he, Bool.not_true, Bool.false_eq_true, if_false]
  obtain ⟨r, hr, hr2⟩ := dfs_total (finiteN h hn) (has_iff.1 hs) e
  rw [rel_nodesFromN h] at hr2
  rw [hr]
  exact ⟨r, rfl, hr2⟩

/-- every step of the loop of `shortest_path` either visits a node or shortens the queue -/
theorem dij_measure {nbr : α → List (α × Rat)} {U : List α} (hU : ∀ x y c, (y, c) ∈ nbr x → y ∈ U) {fin : α} {s s' : DijSt α}
    (hq : ∀ e ∈ s.q, e.node ∈ U) (hst : dijStep nbr fin s = .inl s') :
    (∀ e ∈ s'.q, e.node ∈ U) ∧ lexNat (unvis U s'.visited, s'.q.length) (unvis U s.visited, s.q.length) := by
  unfold dijStep at hst
  split at hst
  · cases hst
  · rename_i e q hpop
    obtain ⟨hp, _⟩ := popMin_some hpop
    have heq : e ∈ s.q := hp.mem_iff.2 (by simp)
    split at hst
    · rename_i hv
      simp only [Sum.inl.injEq] at hst
      subst hst
      refine ⟨fun e' he' => hq e' (hp.mem_iff.2 (List.mem_cons_of_mem _ he')), .right _ ?_⟩
      have := hp.length_eq
      simp at this
      show q.length < s.q.length
      omega
    · rename_i hv
      dsimp only at hst
      split at hst
      · cases hst
      · simp only [Sum.inl.injEq] at hst
        subst hst
        generalize hr : dijRelax e.cost (e.node :: e.path) (sadd s.visited e.node) (nbr e.node) (q, s.mins, s.i) = r
        obtain ⟨q', mins', i'⟩ := r
        obtain ⟨h1, h2, h3, h4, h5⟩ := dijRelax_spec _ _ _ _ _ _ _ hr
        refine ⟨fun e' he' => ?_, .left _ _ ?_⟩
        · rcases h2 e' he' with h6 | ⟨_, _, d, h6, _⟩
          · exact hq e' (hp.mem_iff.2 (List.mem_cons_of_mem _ h6))
          · exact hU _ _ _ h6
        · exact unvis_lt (fun x hx => mem_sadd.2 (.inr hx)) (hq e heq) hv (mem_sadd.2 (.inl rfl))

/-- the loop of `shortest_path` ends whatever the neighbours are, as long as they are among finitely many nodes -/
theorem dij_ends {nbr : α → List (α × Rat)} {U : List α} (hU : ∀ x y c, (y, c) ∈ nbr x → y ∈ U) (fin : α) {start : α} (hs : start ∈ U) (av : List α) :
    ∃ r, pyWhile (dijStep nbr fin) ⟨[⟨0, 0, start, []⟩], Dict.empty.set start 0, av, 1⟩ = some r := by
  suffices h : ∃ r, pyWhile (dijStep nbr fin) ⟨[⟨0, 0, start, []⟩], Dict.empty.set start 0, av, 1⟩ = some r ∧ True from h.imp (fun _ h => h.1)
  exact pyWhile_totalW (step := dijStep nbr fin) (fun s => ∀ e ∈ s.q, e.node ∈ U) (fun _ => True)
    lexNat lexNat_wf (fun s => (unvis U s.visited, s.q.length)) (fun s s' hq hst => dij_measure hU hq hst) (fun _ _ _ _ => trivial) (by simp [hs])

theorem mem_outNbrN {nn : α} {g : Graph α V O} (h : g.Inv) {x y : α} {c : V} (hm : (y, c) ∈ g.outNbrN nn x) : y ∈ g.nodeList := by
  by_cases hx : x = nn
  · subst hx
    rw [outNbrN_none, List.mem_map] at hm
    obtain ⟨⟨a, b, v⟩, h1, h2⟩ := hm
    cases h2
    exact (h.edge_mem (h.mem_edgeList.1 h1)).2
  · rw [outNbrN_some g hx] at hm
    exact (h.edge_mem (h.mem_outNbr.1 hm)).2

theorem shortestPathN_ends {nn : α} {g : Graph α Rat O} (h : g.Inv) (start e : α) (avoids : List α) :
    g.shortestPathN nn start e avoids ≠ none := by
  unfold shortestPathN
  split
  · simp
  · rename_i hs
    split
    · simp
    · obtain ⟨r, hr⟩ := dij_ends (nbr := g.outNbrN nn) (U := g.nodeList) (fun x y c hm => mem_outNbrN h hm) e (start := start)
        (has_iff.1 (by simpa using hs)) avoids
      rw [hr]; simp

theorem aspScan_kids (e : α) (path : List α) (cs : List α) : ∀ (q paths : List (List α)),
    ∃ kq : List α, (aspScan e path cs (q, paths)).1 = q ++ kq.map (· :: path) ∧ kq.length ≤ cs.length ∧ ∀ c ∈ kq, c ∈ cs ∧ c ∉ path := by
  induction cs with
  | nil => intro q paths; exact ⟨[], by simp [aspScan], by simp, by simp⟩
  | cons a cs ih =>
    intro q paths
    unfold aspScan
    split
    · obtain ⟨kq, h1, h2, h3⟩ := ih q paths
      exact ⟨kq, h1, by simp; omega, fun c hc => ⟨List.mem_cons_of_mem _ (h3 c hc).1, (h3 c hc).2⟩⟩
    · rename_i ha
      split
      · obtain ⟨kq, h1, h2, h3⟩ := ih q (paths ++ [a :: path])
        exact ⟨kq, h1, by simp; omega, fun c hc => ⟨List.mem_cons_of_mem _ (h3 c hc).1, (h3 c hc).2⟩⟩
      · obtain ⟨kq, h1, h2, h3⟩ := ih (q ++ [a :: path]) paths
        refine ⟨a :: kq, by rw [h1]; simp, by simp; omega, fun c hc => ?_⟩
        rcases List.mem_cons.1 hc with rfl | hc
        · exact ⟨List.mem_cons_self .., ha⟩
        · exact ⟨List.mem_cons_of_mem _ (h3 c hc).1, (h3 c hc).2⟩

/-- the loop of `all_simple_paths` ends if the successors are among finitely many nodes, even if they are listed more than once -/
theorem asp_ends {succ : α → List α} {U : List α} (hU : ∀ a b, b ∈ succ a → b ∈ U) {B : Nat} (hB : ∀ a, (succ a).length ≤ B) {start : α} (hs : start ∈ U) (e : α) :
    ∃ r, pyWhile (aspStep succ e) ([[start]], []) = some r := by
  suffices h : ∃ r, pyWhile (aspStep succ e) ([[start]], []) = some r ∧ True from h.imp (fun _ h => h.1)
  refine pyWhile_total (step := aspStep succ e) (fun s => ∀ p ∈ s.1, p.Nodup ∧ p ≠ [] ∧ ∀ x ∈ p, x ∈ U) (fun _ => True)
    (fun s => treeWeight B (fun p => U.length - p.length) s.1) ?_ (fun _ _ _ _ => trivial) (by simp [hs])
  rintro ⟨q, paths⟩ s' hI hst
  cases q with
  | nil => cases hst
  | cons p q =>
    obtain ⟨h1, h2, h3⟩ := hI p (List.mem_cons_self ..)
    cases p with
    | nil => exact absurd rfl h2
    | cons x l =>
      simp only [aspStep, Sum.inl.injEq] at hst
      subst hst
      obtain ⟨kq, k1, k2, k3⟩ := aspScan_kids e (x :: l) (succ x) q paths
      have new : ∀ c ∈ kq, (c :: x :: l).Nodup ∧ ∀ y ∈ c :: x :: l, y ∈ U := by
        intro c hc
        refine ⟨List.nodup_cons.2 ⟨(k3 c hc).2, h1⟩, fun y hy => ?_⟩
        rcases List.mem_cons.1 hy with rfl | hy
        · exact hU x y (k3 y hc).1
        · exact h3 y hy
      dsimp only
      rw [k1]
      refine ⟨fun p hp => ?_, treeWeight_lt (by rw [List.length_map]; exact Nat.le_trans k2 (hB x)) (fun p hp => ?_)⟩
      · rcases List.mem_append.1 hp with hp | hp
        · exact hI p (List.mem_cons_of_mem _ hp)
        · obtain ⟨c, hc, rfl⟩ := List.mem_map.1 hp
          exact ⟨(new c hc).1, by simp, (new c hc).2⟩
      · obtain ⟨c, hc, rfl⟩ := List.mem_map.1 hp
        have := (new c hc).1.length_le_of_subset (new c hc).2
        simp only [List.length_cons] at this ⊢
        omega

theorem allSimplePathsN_ends {nn : α} {g : Graph α V O} (h : g.Inv) (start e : α) : g.allSimplePathsN nn start e ≠ none := by
  unfold allSimplePathsN
  split
  · simp
  · rename_i hs
    have hs : start ∈ g.nodeList := has_iff.1 (by simpa using hs)
    split
    · simp
    · split
      · simp
      · have hc : ∃ b, g.isConnected start e = some b := by
          unfold isConnected
          split
          · obtain ⟨r, hr, _⟩ := conn_total h.finiteFrom hs e
            exact ⟨r, hr⟩
          · exact ⟨_, rfl⟩
        obtain ⟨b, hb⟩ := hc
        rw [hb]
        cases b with
        | false => simp
        | true =>
          obtain ⟨r, hr⟩ := asp_ends (succ := fun n => (g.outNbrN nn n).map (·.1)) (U := g.nodeList) (B := g.edgeList.length) (fun a b hm => by
              obtain ⟨⟨y, c⟩, h1, h2⟩ := List.mem_map.1 hm
              cases h2
              exact mem_outNbrN h h1) (fun a => by
              rw [List.length_map]
              by_cases ha : a = nn
              · subst ha; rw [outNbrN_none, List.length_map]; exact Nat.le_refl _
              · rw [outNbrN_some g ha]
                unfold outNbr
                rw [List.length_map]
                exact List.Nodup.length_le_of_subset (h.edgesFrom_nodup a) (fun x hx => by
                  obtain ⟨a', b, v⟩ := x
                  obtain ⟨rfl, he⟩ := h.mem_edgesFrom.1 hx
                  exact h.mem_edgeList.2 he)) hs e
          dsimp only
          rw [hr]
          cases r <;> simp

end GT

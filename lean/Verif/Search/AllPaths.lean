import Verif.Search.Util
import Verif.Search.Connected
/-
Model of `all_paths` (graph/all_paths.py:7-67).
-/
namespace GT
variable {α V O : Type} [DecidableEq α]

/-- `any(all(path[i + j] == a[j] for j in range(2)) for i in range(len(path)))` with `a = [n2, n3]`
(all_paths.py:51-52): the subscript `path[i + 1]` is only evaluated when `path[i] == n2`, and raises
`IndexError` at the last position -/
def pairIn (n2 n3 : α) : List α → Py Bool
  | [] => .ok false
  | x :: rest =>
    if x = n2 then match rest with
      | [] => .error .indexError
      | y :: _ => if y = n3 then .ok true else pairIn n2 n3 rest
    else pairIn n2 n3 rest

/-- `for path in new_paths` inside the fork check (all_paths.py:50-53) -/
def forkPaths (n2 n3 : α) : List (List α) → List α → Py (List α)
  | [], skip => .ok skip
  | path :: l, skip => match pairIn n2 n3 path with
    | .error er => .error er
    | .ok b => forkPaths n2 n3 l (if b then sadd skip n3 else skip)

/-- `for n3 in n3s` (all_paths.py:49-53) -/
def forkScan (n2 : α) (newPaths : List (List α)) : List α → List α → Py (List α)
  | [], skip => .ok skip
  | n3 :: l, skip => match forkPaths n2 n3 newPaths skip with
    | .error er => .error er
    | .ok skip => forkScan n2 newPaths l skip

/-- `for path in new_paths: …` (all_paths.py:55-61) -/
def extendPaths (n2 : α) : List (List α) → List (List α) → List (List α)
  | [], paths => paths
  | path :: l, paths =>
    let paths := if path ∈ paths then paths.erase path else paths
    let newPath := path ++ [n2]
    extendPaths n2 l (if newPath ∉ paths then paths ++ [newPath] else paths)

/-- the local variables of the loop -/
structure ApState (α : Type) where
  cache : Dict (α × α) Bool
  paths : List (List α)
  q : List α
  skip : List α

/-- `con = cache.get((n2, n1))`, computed by `is_connected` if absent (all_paths.py:41-44) -/
def apLookup (conn : α → α → Option Bool) (cache : Dict (α × α) Bool) (n2 n1 : α) : Option Bool :=
  match cache.get? (n2, n1) with
  | some b => some b
  | none => conn n2 n1

/-- the loop `for n2 in n2s` (all_paths.py:36-64).  `conn` is `graph.is_connected`. -/
def apInner (succ : α → List α) (conn : α → α → Option Bool) (n1 : α) (newPaths : List (List α)) :
    List α → ApState α → Option (Py (ApState α))
  | [], s => some (.ok s)
  | n2 :: l, s =>
    if n2 ∈ s.skip then apInner succ conn n1 newPaths l s
    else
      let n3s := succ n2
      match apLookup conn s.cache n2 n1 with
      | none => none
      | some con =>
        let cache := if (s.cache.get? (n2, n1)).isSome then s.cache else s.cache.set (n2, n1) con
        match (if n3s.length > 1 && con then forkScan n2 newPaths n3s s.skip else .ok s.skip) with
        | .error er => some (.error er)
        | .ok skip =>
          apInner succ conn n1 newPaths l
            ⟨cache, extendPaths n2 newPaths s.paths, if n2 ∉ s.q then s.q ++ [n2] else s.q, skip⟩

/-- one iteration of `while q` (all_paths.py:29-64).  `p[-1]` is `getLast?` (paths are never empty). -/
def apStep (succ : α → List α) (conn : α → α → Option Bool) (e : α) (s : ApState α) :
    Option (ApState α ⊕ Py (List (List α))) :=
  match s.q with
  | [] => some (.inr (.ok s.paths))
  | n1 :: q =>
    if n1 = e then some (.inl { s with q := q })
    else
      let newPaths := s.paths.filter (fun p => p.getLast? = some n1)
      match apInner succ conn n1 newPaths (succ n1) { s with q := q } with
      | none => none
      | some (.error er) => some (.inr (.error er))
      | some (.ok s) => some (.inl s)

/-- `all_paths(graph, start, end)` (all_paths.py:7-67) -/
def Graph.allPaths (g : Graph α V O) (start e : α) : Option (Py (List (List α))) :=
  if !g.has start then some (.error .valueError)
  else if !g.has e then some (.error .valueError)
  else if start = e then some (.error .valueError)
  else match g.isConnected start e with
    | none => none
    | some false => some (.ok [])
    | some true =>
      match pyWhileD (apStep g.nodesFrom g.isConnected e) ⟨.empty, [[start]], [start], []⟩ with
      | none => none
      | some (.error er) => some (.error er)
      | some (.ok paths) => some (.ok (paths.filter (fun p => p.getLast? = some e)))

/-! ### proofs -/

theorem extendPaths_mem {n2 : α} {np : List (List α)} {paths : List (List α)} {p : List α}
    (h : p ∈ extendPaths n2 np paths) : p ∈ paths ∨ ∃ r ∈ np, p = r ++ [n2] := by
  induction np generalizing paths with
  | nil => exact Or.inl h
  | cons r np ih =>
    unfold extendPaths at h
    simp only at h
    rcases ih h with h1 | ⟨r', hr', h1⟩
    · have h2 : p = r ++ [n2] ∨ p ∈ (if r ∈ paths then paths.erase r else paths) := by
        generalize (if r ∈ paths then paths.erase r else paths) = ps1 at *
        split at h1
        · simp only [List.mem_append, List.mem_singleton] at h1; exact h1.symm
        · exact Or.inr h1
      rcases h2 with h2 | h2
      · exact Or.inr ⟨r, by simp, h2⟩
      · left; split at h2
        · exact List.mem_of_mem_erase h2
        · exact h2
    · exact Or.inr ⟨r', by simp [hr'], h1⟩

theorem extendPaths_nodup {n2 : α} {np : List (List α)} {paths : List (List α)} (h : paths.Nodup) :
    (extendPaths n2 np paths).Nodup := by
  induction np generalizing paths with
  | nil => exact h
  | cons r np ih =>
    unfold extendPaths
    simp only
    apply ih
    have h1 : (if r ∈ paths then paths.erase r else paths).Nodup := by
      split
      · exact h.erase r
      · exact h
    generalize (if r ∈ paths then paths.erase r else paths) = ps1 at *
    split
    · rename_i h2
      rw [List.nodup_append]
      refine ⟨h1, by simp, ?_⟩
      intro a ha b hb hab
      simp only [List.mem_singleton] at hb; subst hb; subst hab; exact h2 ha
    · exact h1

/-- what a path list keeps -/
theorem extendPaths_keep {n2 : α} {np : List (List α)} {paths : List (List α)} {p : List α}
    (h : p ∈ paths) (hp : p ∉ np) : p ∈ extendPaths n2 np paths := by
  induction np generalizing paths with
  | nil => exact h
  | cons r np ih =>
    unfold extendPaths
    simp only [List.mem_cons, not_or] at hp
    apply ih _ hp.2
    have h1 : p ∈ (if r ∈ paths then paths.erase r else paths) := by
      split
      · exact (List.mem_erase_of_ne hp.1).2 h
      · exact h
    generalize (if r ∈ paths then paths.erase r else paths) = ps1 at *
    split
    · exact List.mem_append_left _ h1
    · exact h1

theorem extendPaths_new {n2 : α} {np : List (List α)} {paths : List (List α)} {r : List α}
    (hr : r ∈ np) (hn : r ++ [n2] ∉ np) : r ++ [n2] ∈ extendPaths n2 np paths := by
  induction np generalizing paths with
  | nil => simp at hr
  | cons s np ih =>
    simp only [List.mem_cons, not_or] at hn
    by_cases hrn : r ∈ np
    · unfold extendPaths; exact ih hrn hn.2
    · have : r = s := (List.mem_cons.1 hr).resolve_right hrn
      subst this
      unfold extendPaths
      apply extendPaths_keep _ hn.2
      generalize (if r ∈ paths then paths.erase r else paths) = ps1 at *
      split
      · simp
      · rename_i h2; simpa using h2

/-- the paths collected so far are walks from `start`, without duplicates -/
structure ApInv (succ : α → List α) (start : α) (s : ApState α) : Prop where
  walks : ∀ p ∈ s.paths, ∃ x, WalkFT (fun a b => b ∈ succ a) start x p
  nodup : s.paths.Nodup

theorem apInner_inv {succ : α → List α} {conn : α → α → Option Bool} {start n1 : α}
    {np : List (List α)} (hnp : ∀ p ∈ np, WalkFT (fun a b => b ∈ succ a) start n1 p) {l : List α}
    (hl : ∀ c ∈ l, c ∈ succ n1) {s s' : ApState α} (h : ApInv succ start s)
    (hs : apInner succ conn n1 np l s = some (.ok s')) : ApInv succ start s' := by
  induction l generalizing s with
  | nil => simp only [apInner, Option.some.injEq, Except.ok.injEq] at hs; subst hs; exact h
  | cons n2 l ih =>
    have hl' : ∀ c ∈ l, c ∈ succ n1 := fun c hc => hl c (List.mem_cons_of_mem _ hc)
    unfold apInner at hs
    split at hs
    · exact ih hl' h hs
    · simp only at hs
      split at hs
      · simp at hs
      · split at hs
        · simp at hs
        · refine ih hl' ⟨?_, extendPaths_nodup h.nodup⟩ hs
          intro p hp
          rcases extendPaths_mem hp with h1 | ⟨r, hr, rfl⟩
          · exact h.walks p h1
          · exact ⟨n2, (hnp r hr).snoc (hl n2 (by simp))⟩

theorem ap_sound {succ : α → List α} {conn : α → α → Option Bool} {start e : α} {r : Py (List (List α))}
    (h : pyWhileD (apStep succ conn e) ⟨.empty, [[start]], [start], []⟩ = some r) :
    ∀ ps, r = .ok ps → (∀ p ∈ ps, ∃ x, WalkFT (fun a b => b ∈ succ a) start x p) ∧ ps.Nodup := by
  refine pyWhileD.partial_correctness (apStep succ conn e)
    (fun s r => ApInv succ start s → ∀ ps, r = .ok ps →
      (∀ p ∈ ps, ∃ x, WalkFT (fun a b => b ∈ succ a) start x p) ∧ ps.Nodup) ?_ _ r h
      ⟨fun p hp => ?_, by simp⟩
  · intro f ih s r hr hI
    split at hr
    · simp at hr
    · rename_i s' hs'
      refine ih s' r hr ?_
      unfold apStep at hs'
      split at hs'
      · simp at hs'
      · rename_i n1 q hq
        split at hs'
        · simp only [Option.some.injEq, Sum.inl.injEq] at hs'; subst hs'; exact ⟨hI.walks, hI.nodup⟩
        · simp only at hs'
          split at hs'
          · simp at hs'
          · simp at hs'
          · rename_i s2 hs2
            simp only [Option.some.injEq, Sum.inl.injEq] at hs'; subst hs'
            refine apInner_inv ?_ (fun c hc => hc) (s := { s with q := q }) ⟨hI.walks, hI.nodup⟩ hs2
            intro p hp
            simp only [List.mem_filter, decide_eq_true_eq] at hp
            obtain ⟨x, hx⟩ := hI.walks p hp.1
            have : x = n1 := by have := hx.2.2.symm.trans hp.2; simpa using this
            subst this; exact hx
    · rename_i r' hs'
      simp only [Option.some.injEq] at hr; subst hr
      unfold apStep at hs'
      split at hs'
      · simp only [Option.some.injEq, Sum.inr.injEq] at hs'; subst hs'
        intro ps hps; simp only [Except.ok.injEq] at hps; subst hps; exact ⟨hI.walks, hI.nodup⟩
      · split at hs'
        · simp at hs'
        · simp only at hs'
          split at hs'
          · simp at hs'
          · simp only [Option.some.injEq, Sum.inr.injEq] at hs'; subst hs'
            intro ps hps; simp at hps
          · simp at hs'
  · simp only [List.mem_singleton] at hp; subst hp; exact ⟨start, WalkFT.single _⟩

/-! ### acyclic graphs -/

theorem apInner_dag {succ : α → List α} {conn : α → α → Option Bool}
    (hconn : ∀ a b, ∃ r, conn a b = some r ∧ (r = true ↔ ReachPlus (fun a b => b ∈ succ a) a b))
    (hA : Acyclic (fun a b => b ∈ succ a)) {n1 : α} {np : List (List α)} {l : List α}
    (hl : ∀ c ∈ l, c ∈ succ n1) {s : ApState α} (hskip : s.skip = [])
    (hcache : ∀ a b r, s.cache.get? (a, b) = some r → (r = true ↔ ReachPlus (fun a b => b ∈ succ a) a b)) :
    ∃ s', apInner succ conn n1 np l s = some (.ok s') ∧ s'.skip = [] ∧
      (∀ a b r, s'.cache.get? (a, b) = some r → (r = true ↔ ReachPlus (fun a b => b ∈ succ a) a b)) ∧
      s'.paths = l.foldl (fun ps n2 => extendPaths n2 np ps) s.paths ∧
      (∃ k, s'.q = s.q ++ k ∧ k.length ≤ l.length ∧ (∀ c ∈ k, c ∈ l) ∧ ∀ c ∈ l, c ∈ s.q ∨ c ∈ k) := by
  induction l generalizing s with
  | nil => exact ⟨s, rfl, hskip, hcache, rfl, [], by simp⟩
  | cons n2 l ih =>
    have hl' : ∀ c ∈ l, c ∈ succ n1 := fun c hc => hl c (List.mem_cons_of_mem _ hc)
    have hn2 : ¬ ReachPlus (fun a b => b ∈ succ a) n2 n1 := by
      intro h; exact hA n2 (h.reach.plus_tail (hl n2 (by simp)))
    unfold apInner
    have : n2 ∉ s.skip := by rw [hskip]; simp
    rw [if_neg this]
    simp only
    obtain ⟨con, hcon⟩ : ∃ con, apLookup conn s.cache n2 n1 = some con := by
      unfold apLookup
      cases h : s.cache.get? (n2, n1) with
      | some b => exact ⟨b, rfl⟩
      | none => obtain ⟨r, hr, _⟩ := hconn n2 n1; exact ⟨r, hr⟩
    have hcf : con = false := by
      unfold apLookup at hcon
      cases h : s.cache.get? (n2, n1) with
      | some b =>
        rw [h] at hcon; simp only [Option.some.injEq] at hcon; subst hcon
        have := hcache n2 n1 b h
        cases hb : b with
        | false => rfl
        | true => exact absurd (this.1 hb) hn2
      | none =>
        rw [h] at hcon
        obtain ⟨r, hr, hr2⟩ := hconn n2 n1
        rw [hr] at hcon; simp only [Option.some.injEq] at hcon; subst hcon
        cases hb : r with
        | false => rfl
        | true => exact absurd (hr2.1 hb) hn2
    subst hcf
    rw [hcon]
    simp only [Bool.and_false, Bool.false_eq_true, if_false]
    have hcache' : ∀ a b r, (if (s.cache.get? (n2, n1)).isSome then s.cache else s.cache.set (n2, n1) false).get? (a, b)
        = some r → (r = true ↔ ReachPlus (fun a b => b ∈ succ a) a b) := by
      intro a b r
      split
      · exact hcache a b r
      · rw [Dict.get?_set]
        split
        · rename_i h
          simp only [Prod.mk.injEq] at h
          obtain ⟨rfl, rfl⟩ := h
          intro h; simp only [Option.some.injEq] at h; subst h
          simp [hn2]
        · exact hcache a b r
    obtain ⟨s', h1, h2, h3, h4, k, h5, h6, h7, h8⟩ := ih hl'
      (s := ⟨if (s.cache.get? (n2, n1)).isSome then s.cache else s.cache.set (n2, n1) false,
        extendPaths n2 np s.paths, if n2 ∉ s.q then s.q ++ [n2] else s.q, s.skip⟩) hskip hcache'
    refine ⟨s', h1, h2, h3, by rw [h4]; rfl, ?_⟩
    simp only at h5 h8
    by_cases hq : n2 ∈ s.q
    · simp only [hq, not_true, if_false] at h5 h8
      refine ⟨k, h5, by simp; omega, fun c hc => List.mem_cons_of_mem _ (h7 c hc), ?_⟩
      intro c hc
      rcases List.mem_cons.1 hc with rfl | hc
      · exact Or.inl hq
      · exact h8 c hc
    · simp only [hq, not_false_eq_true, if_true] at h5 h8
      refine ⟨n2 :: k, by rw [h5]; simp, by simp; omega, ?_, ?_⟩
      · intro c hc
        rcases List.mem_cons.1 hc with rfl | hc
        · simp
        · exact List.mem_cons_of_mem _ (h7 c hc)
      · intro c hc
        rcases List.mem_cons.1 hc with rfl | hc
        · right; simp
        · have := h8 c hc
          simp only [List.mem_append, List.mem_singleton, List.mem_cons] at this ⊢; grind

theorem foldl_extend_keep {np : List (List α)} {l : List α} {paths : List (List α)} {p : List α}
    (h : p ∈ paths) (hp : p ∉ np) : p ∈ l.foldl (fun ps n2 => extendPaths n2 np ps) paths := by
  induction l generalizing paths with
  | nil => exact h
  | cons n2 l ih => exact ih (extendPaths_keep h hp)

theorem foldl_extend_new {np : List (List α)} {l : List α} {paths : List (List α)} {r : List α} {n2 : α}
    (hr : r ∈ np) (hl : n2 ∈ l) (hn : r ++ [n2] ∉ np) :
    r ++ [n2] ∈ l.foldl (fun ps n2 => extendPaths n2 np ps) paths := by
  induction l generalizing paths with
  | nil => simp at hl
  | cons a l ih =>
    rcases List.mem_cons.1 hl with rfl | hl
    · rw [List.foldl_cons]; exact foldl_extend_keep (extendPaths_new hr hn) hn
    · exact ih hl

theorem ap_dag {succ : α → List α} {U : List α} (hU : FiniteOn (fun a b => b ∈ succ a) U)
    (hnd : ∀ a, (succ a).Nodup) {conn : α → α → Option Bool}
    (hconn : ∀ a b, ∃ r, conn a b = some r ∧ (r = true ↔ ReachPlus (fun a b => b ∈ succ a) a b))
    (hA : Acyclic (fun a b => b ∈ succ a)) (start e : α) :
    ∃ r, pyWhileD (apStep succ conn e) ⟨.empty, [[start]], [start], []⟩ = some r ∧
      ∃ ps, r = .ok ps ∧ ∀ p, WalkFT (fun a b => b ∈ succ a) start e p → p ∈ ps := by
  let R : α → α → Prop := fun a b => b ∈ succ a
  obtain ⟨rank, hr, -, -⟩ := hA.rank hU
  let I : ApState α → Prop := fun s =>
    s.skip = [] ∧ (∀ a b r, s.cache.get? (a, b) = some r → (r = true ↔ ReachPlus R a b)) ∧
    (∀ p, WalkFT R start e p → ∃ t ∈ s.paths, t <+: p ∧ (t = p ∨ ∃ x ∈ s.q, t.getLast? = some x)) ∧
    (∀ p ∈ s.paths, ∃ x, WalkFT (fun a b => b ∈ succ a) start x p)
  apply pyWhileD_total (step := apStep succ conn e) I _ (· < ·) Nat.lt_wfRel.wf
    (fun s => treeWeight U.length rank s.q)
  · rintro s ⟨h1, h2, h3, h4⟩
    cases hq : s.q with
    | nil =>
      right
      refine ⟨.ok s.paths, by simp [apStep, hq], s.paths, rfl, ?_⟩
      intro p hp
      obtain ⟨t, ht, h5, h6 | ⟨x, hx, _⟩⟩ := h3 p hp
      · exact h6 ▸ ht
      · rw [hq] at hx; simp at hx
    | cons n1 q =>
      left
      by_cases hne : n1 = e
      · refine ⟨{ s with q := q }, by simp [apStep, hq, hne], ⟨h1, h2, ?_, h4⟩, ?_⟩
        · intro p hp
          obtain ⟨t, ht, h5, h6⟩ := h3 p hp
          refine ⟨t, ht, h5, ?_⟩
          rcases h6 with h6 | ⟨x, hx, h6⟩
          · exact Or.inl h6
          · rw [hq] at hx
            rcases List.mem_cons.1 hx with rfl | hx
            · left
              -- `t` ends in `e`, the last node of `p`; walks of a DAG do not repeat nodes
              obtain ⟨u, hu⟩ := h5
              cases u with
              | nil => simpa using hu
              | cons y u =>
                exfalso
                have hpn := hA.nodup hp.1
                rw [← hu, List.nodup_append] at hpn
                have hlast := hp.2.2
                rw [← hu, List.getLast?_append] at hlast
                have hl2 : (y :: u).getLast? = some e := by
                  cases hyu : (y :: u).getLast? with
                  | none => simp at hyu
                  | some z => rw [hyu] at hlast; simpa using hlast
                subst hne
                exact hpn.2.2 _ (List.mem_of_getLast? h6) _ (List.mem_of_getLast? hl2) rfl
            · exact Or.inr ⟨x, hx, h6⟩
        · simp only [treeWeight, List.map_cons, List.sum_cons]
          have : 0 < (U.length + 1) ^ rank n1 := Nat.pow_pos (by omega)
          omega
      · obtain ⟨s', g1, g2, g3, g4, k, g5, g6, g7, g8⟩ := apInner_dag hconn hA
          (np := s.paths.filter (fun p => p.getLast? = some n1)) (l := succ n1) (n1 := n1) (fun c hc => hc)
          (s := { s with q := q }) h1 h2
        have hnp : ∀ p ∈ s.paths.filter (fun p => decide (p.getLast? = some n1)),
            WalkFT (fun a b => b ∈ succ a) start n1 p := by
          intro p hp
          simp only [List.mem_filter, decide_eq_true_eq] at hp
          obtain ⟨x, hx⟩ := h4 p hp.1
          have : x = n1 := by have := hx.2.2.symm.trans hp.2; simpa using this
          subst this; exact hx
        have hself : n1 ∉ succ n1 := fun h => hA n1 ⟨0, .succ (.zero _) h⟩
        refine ⟨s', by simp only [apStep, hq, if_neg hne, g1], ⟨g2, g3, ?_, ?_⟩, ?_⟩
        · intro p hp
          obtain ⟨t, ht, h5, h6⟩ := h3 p hp
          simp only at g4 g5 g8
          by_cases htl : t.getLast? = some n1
          · -- `t` is extended by the next node of `p`
            have htnp : t ∈ s.paths.filter (fun p => decide (p.getLast? = some n1)) := by
              simp [ht, htl]
            obtain ⟨u, hu⟩ := h5
            cases u with
            | nil =>
              exfalso
              simp only [List.append_nil] at hu
              have := hp.2.2; rw [← hu, htl] at this; simp at this; exact hne this
            | cons c u =>
              have hc : c ∈ succ n1 := by
                have := hp.1; rw [← hu, Consec.append] at this
                exact this.2.2 n1 c htl rfl
              refine ⟨t ++ [c], ?_, ⟨u, by rw [← hu]; simp⟩, Or.inr ⟨c, ?_, by simp⟩⟩
              · rw [g4]
                apply foldl_extend_new htnp hc
                simp only [List.mem_filter, decide_eq_true_eq, not_and]
                intro _ h7
                rw [List.getLast?_concat] at h7
                simp only [Option.some.injEq] at h7
                exact hself (h7 ▸ hc)
              · rw [g5, List.mem_append]; exact g8 c hc
          · have htk : t ∈ s'.paths := by
              rw [g4]; apply foldl_extend_keep ht
              simp only [List.mem_filter, decide_eq_true_eq, not_and]
              exact fun _ => htl
            refine ⟨t, htk, h5, ?_⟩
            rcases h6 with h6 | ⟨x, hx, h6⟩
            · exact Or.inl h6
            · right
              rw [hq] at hx
              rcases List.mem_cons.1 hx with rfl | hx
              · exact absurd h6 htl
              · exact ⟨x, by rw [g5]; simp [hx], h6⟩
        · simp only at g4
          rw [g4]
          clear g4
          have : ∀ (l : List α) (paths : List (List α)), (∀ c ∈ l, c ∈ succ n1) →
              (∀ p ∈ paths, ∃ x, WalkFT (fun a b => b ∈ succ a) start x p) →
              ∀ p ∈ l.foldl (fun ps n2 => extendPaths n2
                (s.paths.filter (fun p => decide (p.getLast? = some n1))) ps) paths,
                ∃ x, WalkFT (fun a b => b ∈ succ a) start x p := by
            intro l
            induction l with
            | nil => intro paths _ h; exact h
            | cons c l ih =>
              intro paths hl hpaths
              apply ih _ (fun c hc => hl c (by simp [hc]))
              intro p hp
              rcases extendPaths_mem hp with h5 | ⟨r, hr, rfl⟩
              · exact hpaths p h5
              · exact ⟨c, (hnp r hr).snoc (hl c (by simp))⟩
          exact this _ _ (fun c hc => hc) h4
        · simp only at g5
          rw [g5]
          apply treeWeight_lt
          · have : (succ n1).length ≤ U.length :=
              (hnd n1).length_le_of_subset (fun c hc => (hU n1 c hc).2)
            omega
          · intro y hy; exact hr n1 y (g7 y hy)
  · refine ⟨rfl, by simp, ?_, ?_⟩
    · intro p hp
      refine ⟨[start], by simp, ?_, Or.inr ⟨start, by simp, rfl⟩⟩
      cases p with
      | nil => exact absurd rfl hp.ne_nil
      | cons a l => have := hp.2.1; simp at this; subst this; exact ⟨l, rfl⟩
    · intro p hp; simp only [List.mem_singleton] at hp; subst hp; exact ⟨start, WalkFT.single _⟩

end GT

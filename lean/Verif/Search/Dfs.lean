import Verif.Search.Util
import Verif.Graph.Model
/-
Model of graph/dfs.py (lines 7-97): `depth_first_search` and `depth_scan`.

Both functions share the same shape: a queue that holds at most one node, the current path and the
set of visited nodes.  `depth_first_search` is the case in which every node satisfies the criterion,
plus the early return at `end`.
-/
namespace GT
variable {α V O : Type} [DecidableEq α]

/-- `for n2 in …: if n2 in visited: continue; q.appendleft(n2); break` (dfs.py:34-38 and 42-46):
the node that is put on the queue; `none` is the `else` branch -/
def dfsFirst (visited : List α) : List α → Option α
  | [] => none
  | n2 :: cs => if n2 ∈ visited then dfsFirst visited cs else some n2

/-- the same loop in `depth_scan` (dfs.py:76-83 and 87-94), which also marks the nodes that fail the
criterion as visited -/
def scanFirst (crit : α → Bool) : List α → List α → Option α × List α
  | [], visited => (none, visited)
  | n2 :: cs, visited =>
    if n2 ∈ visited then scanFirst crit cs visited
    else if !crit n2 then scanFirst crit cs (sadd visited n2)
    else (some n2, visited)

/-- the inner loop `while not q and path` (dfs.py:41-48) for an empty queue, on the reversed path:
the node put on the queue (if any) and the shortened path, still reversed -/
def dfsBack (succ : α → List α) (visited : List α) : List α → Option α × List α
  | [] => (none, [])
  | p :: ps => match dfsFirst visited (succ p) with
    | some n2 => (some n2, p :: ps)
    | none => dfsBack succ visited ps

/-- the inner loop of `depth_scan` (dfs.py:86-96) -/
def scanBack (succ : α → List α) (crit : α → Bool) : List α → List α → Option α × List α × List α
  | [], visited => (none, [], visited)
  | p :: ps, visited => match scanFirst crit (succ p) visited with
    | (some n2, visited) => (some n2, p :: ps, visited)
    | (none, visited) => scanBack succ crit ps visited

/-- one iteration of `while q` of `depth_first_search` (dfs.py:28-49); the state is
`(q, path, visited)`.  `path.remove(n1)` is `List.erase`. -/
def dfsStep (succ : α → List α) (e : α) :
    List α × List α × List α → (List α × List α × List α) ⊕ Option (List α)
  | ([], _, _) => .inr none
  | (n1 :: q, path, visited) =>
    let visited := sadd visited n1
    let path := path ++ [n1]
    if n1 = e then .inr (some path)
    else match dfsFirst visited (succ n1) with
      | some n2 => .inl (n2 :: q, path, visited)
      | none =>
        let path := path.erase n1
        if q.isEmpty then
          let r := dfsBack succ visited path.reverse
          .inl (r.1.toList, r.2.reverse, visited)
        else .inl (q, path, visited)

/-- one iteration of `while q` of `depth_scan` (dfs.py:72-97).  The queue is a stack there; the top is
the head of the list. -/
def scanStep (succ : α → List α) (crit : α → Bool) :
    List α × List α × List α → (List α × List α × List α) ⊕ List α
  | ([], _, visited) => .inr visited
  | (n1 :: q, path, visited) =>
    let visited := sadd visited n1
    let path := path ++ [n1]
    match scanFirst crit (succ n1) visited with
      | (some n2, visited) => .inl (n2 :: q, path, visited)
      | (none, visited) =>
        let path := path.erase n1
        if q.isEmpty then
          let r := scanBack succ crit path.reverse visited
          .inl (r.1.toList, r.2.1.reverse, r.2.2)
        else .inl (q, path, visited)

namespace Graph

/-- `depth_first_search(graph, start, end)` (dfs.py:7-49); `None` is `.ok none` -/
def depthFirstSearch (g : Graph α V O) (start e : α) : Option (Py (Option (List α))) :=
  if !g.has start then some (.error .valueError)
  else if !g.has e then some (.error .valueError)
  else match pyWhile (dfsStep g.nodesFrom e) ([start], [], []) with
    | none => none
    | some r => some (.ok r)

/-- `depth_scan(graph, start, criteria)` (dfs.py:52-97); the result set as a list -/
def depthScan (g : Graph α V O) (start : α) (crit : α → Bool) : Option (Py (List α)) :=
  if !g.has start then some (.error .valueError)
  else if !crit start then some (.ok [])
  else match pyWhile (scanStep g.nodesFrom crit) ([start], [], []) with
    | none => none
    | some r => some (.ok r)

end Graph

/-! ### the scans -/

theorem scanFirst_true (cs vis : List α) : scanFirst (fun _ => true) cs vis = (dfsFirst vis cs, vis) := by
  induction cs with
  | nil => rfl
  | cons c cs ih => simp only [scanFirst, dfsFirst]; split <;> simp_all

theorem scanBack_true (succ : α → List α) (ps vis : List α) :
    scanBack succ (fun _ => true) ps vis = ((dfsBack succ vis ps).1, (dfsBack succ vis ps).2, vis) := by
  induction ps with
  | nil => rfl
  | cons p ps ih =>
    simp only [scanBack, dfsBack, scanFirst_true]
    cases dfsFirst vis (succ p) <;> simp_all

theorem scanFirst_spec (crit : α → Bool) (cs vis : List α) :
    (∀ x, x ∈ vis → x ∈ (scanFirst crit cs vis).2) ∧
    (∀ x, x ∈ (scanFirst crit cs vis).2 → x ∈ vis ∨ (x ∈ cs ∧ crit x = false)) ∧
    ((scanFirst crit cs vis).1 = none → ∀ x ∈ cs, x ∈ (scanFirst crit cs vis).2) ∧
    (∀ n, (scanFirst crit cs vis).1 = some n → n ∈ cs ∧ n ∉ (scanFirst crit cs vis).2 ∧ crit n = true) := by
  induction cs generalizing vis with
  | nil => simp [scanFirst]
  | cons c cs ih =>
    unfold scanFirst
    by_cases h : c ∈ vis
    · rw [if_pos h]
      obtain ⟨h1, h2, h3, h4⟩ := ih vis
      refine ⟨h1, fun x hx => ?_, fun hn x hx => ?_, fun n hn => ?_⟩
      · rcases h2 x hx with h5 | h5
        · exact Or.inl h5
        · exact Or.inr ⟨List.mem_cons_of_mem _ h5.1, h5.2⟩
      · rcases List.mem_cons.1 hx with rfl | hx
        · exact h1 _ h
        · exact h3 hn x hx
      · exact ⟨List.mem_cons_of_mem _ (h4 n hn).1, (h4 n hn).2⟩
    · rw [if_neg h]
      by_cases hc : crit c = true
      · simp only [hc, Bool.not_true, Bool.false_eq_true, if_false]
        refine ⟨fun x hx => hx, fun x hx => Or.inl hx, by simp, ?_⟩
        intro n hn
        simp only [Option.some.injEq] at hn; subst hn
        exact ⟨by simp, h, hc⟩
      · simp only [Bool.not_eq_true] at hc
        simp only [hc, Bool.not_false, if_true]
        obtain ⟨h1, h2, h3, h4⟩ := ih (sadd vis c)
        refine ⟨fun x hx => h1 x (by simp [hx]), fun x hx => ?_, fun hn x hx => ?_, fun n hn => ?_⟩
        · rcases h2 x hx with h5 | h5
          · rcases mem_sadd.1 h5 with rfl | h5
            · exact Or.inr ⟨by simp, hc⟩
            · exact Or.inl h5
          · exact Or.inr ⟨List.mem_cons_of_mem _ h5.1, h5.2⟩
        · rcases List.mem_cons.1 hx with rfl | hx
          · exact h1 _ (by simp)
          · exact h3 hn x hx
        · exact ⟨List.mem_cons_of_mem _ (h4 n hn).1, (h4 n hn).2⟩

/-! ### the invariant -/

/-- the part of the invariant about the path and the visited nodes -/
structure ScanJ (succ : α → List α) (crit : α → Bool) (start : α) (path vis : List α) : Prop where
  consec : Consec (fun a b => b ∈ succ a) path
  head : ∀ x, path.head? = some x → x = start
  nodup : path.Nodup
  sub : ∀ x ∈ path, x ∈ vis ∧ crit x = true
  reach : ∀ x ∈ vis, crit x = true → Reach (fun a b => b ∈ succ a ∧ crit b = true) start x
  reach' : ∀ x ∈ vis, x = start ∨ ∃ y, Reach (fun a b => b ∈ succ a ∧ crit b = true) start y ∧ x ∈ succ y
  done : ∀ x ∈ vis, crit x = true → x ∉ path → ∀ c ∈ succ x, c ∈ vis

/-- the loop invariant -/
structure ScanI (succ : α → List α) (crit : α → Bool) (start : α) (q path vis : List α) : Prop where
  j : ScanJ succ crit start path vis
  one : q = [] ∨ ∃ n, q = [n]
  next : ∀ n ∈ q, n ∉ vis ∧ crit n = true ∧ Consec (fun a b => b ∈ succ a) (path ++ [n]) ∧
    (path ++ [n]).head? = some start
  empty : q = [] → path = [] ∧ start ∈ vis

theorem ScanJ.back {succ : α → List α} {crit : α → Bool} {start : α} {path vis : List α}
    (h : ScanJ succ crit start path vis) (hs : start ∈ vis) :
    ScanI succ crit start (scanBack succ crit path.reverse vis).1.toList
      (scanBack succ crit path.reverse vis).2.1.reverse (scanBack succ crit path.reverse vis).2.2 ∧
    (∀ x, x ∈ vis → x ∈ (scanBack succ crit path.reverse vis).2.2) ∧
    (∀ x, x ∈ (scanBack succ crit path.reverse vis).2.2 → x ∈ vis ∨ crit x = false) := by
  generalize hr : path.reverse = r
  induction r generalizing path vis with
  | nil =>
    have : path = [] := by simpa using hr
    subst this
    refine ⟨⟨?_, Or.inl rfl, by simp [scanBack], fun _ => ⟨rfl, hs⟩⟩, by simp [scanBack],
      fun x hx => Or.inl hx⟩
    simpa [scanBack] using h
  | cons p ps ih =>
    have hpath : path = ps.reverse ++ [p] := by
      have := congrArg List.reverse hr; simpa using this
    obtain ⟨s1, s2, s3, s4⟩ := scanFirst_spec crit (succ p) vis
    unfold scanBack
    have hp := h.sub p (by simp [hpath])
    have hpr := h.reach p hp.1 hp.2
    have hreach : ∀ x ∈ (scanFirst crit (succ p) vis).2, crit x = true →
        Reach (fun a b => b ∈ succ a ∧ crit b = true) start x := by
      intro x hx hc
      rcases s2 x hx with h5 | h5
      · exact h.reach x h5 hc
      · rw [h5.2] at hc; simp at hc
    have hreach' : ∀ x ∈ (scanFirst crit (succ p) vis).2, x = start ∨
        ∃ y, Reach (fun a b => b ∈ succ a ∧ crit b = true) start y ∧ x ∈ succ y := by
      intro x hx
      rcases s2 x hx with h5 | h5
      · exact h.reach' x h5
      · exact Or.inr ⟨p, hpr, h5.1⟩
    cases hsc : scanFirst crit (succ p) vis with
    | mk o vis' =>
      rw [hsc] at s1 s2 s3 s4 hreach hreach'
      simp only at s1 s2 s3 s4 hreach hreach'
      cases o with
      | some n2 =>
        simp only
        obtain ⟨h6, h7, h8⟩ := s4 n2 rfl
        have hrev : (p :: ps).reverse = path := by simp [hpath]
        rw [hrev]
        refine ⟨⟨⟨h.consec, h.head, h.nodup, fun x hx => ⟨s1 x (h.sub x hx).1, (h.sub x hx).2⟩, hreach, hreach', ?_⟩,
          Or.inr ⟨n2, rfl⟩, ?_, by simp⟩, s1, ?_⟩
        · intro x hx hc hxp c hcc
          rcases s2 x hx with h5 | h5
          · exact s1 c (h.done x h5 hc hxp c hcc)
          · rw [h5.2] at hc; simp at hc
        · intro n hn
          simp only [Option.toList_some, List.mem_singleton] at hn
          subst hn
          refine ⟨h7, h8, h.consec.snoc (a := p) (by simp [hpath]) h6, ?_⟩
          have : path ≠ [] := by simp [hpath]
          cases hpp : path with
          | nil => exact absurd hpp this
          | cons a l =>
            have := h.head a (by simp [hpp])
            simp [this]
        · intro x hx
          rcases s2 x hx with h5 | h5
          · exact Or.inl h5
          · exact Or.inr h5.2
      | none =>
        simp only
        have hnd := h.nodup
        rw [hpath, List.nodup_append] at hnd
        have hcons := h.consec
        rw [hpath, Consec.append] at hcons
        have hJ : ScanJ succ crit start ps.reverse vis' := by
          refine ⟨hcons.1, ?_, hnd.1, ?_, hreach, hreach', ?_⟩
          · intro x hx
            apply h.head
            rw [hpath, List.head?_append, hx]; rfl
          · intro x hx
            have := h.sub x (by rw [hpath]; exact List.mem_append_left _ hx)
            exact ⟨s1 x this.1, this.2⟩
          · intro x hx hc hxp c hcc
            rcases s2 x hx with h5 | h5
            · by_cases hxp2 : x = p
              · subst hxp2; exact s3 rfl c hcc
              · refine s1 c (h.done x h5 hc ?_ c hcc)
                rw [hpath]; simp only [List.mem_append, List.mem_singleton, not_or]
                exact ⟨hxp, hxp2⟩
            · rw [h5.2] at hc; simp at hc
        obtain ⟨h9, h10, h11⟩ := ih hJ (s1 _ hs) (by simp)
        refine ⟨h9, fun x hx => h10 x (s1 x hx), fun x hx => ?_⟩
        rcases h11 x hx with h12 | h12
        · rcases s2 x h12 with h5 | h5
          · exact Or.inl h5
          · exact Or.inr h5.2
        · exact Or.inr h12

omit [DecidableEq α] in
theorem scanI_init (succ : α → List α) {crit : α → Bool} {start : α} (hc : crit start = true) :
    ScanI succ crit start [start] [] [] := by
  refine ⟨⟨trivial, by simp, by simp, by simp, by simp, by simp, by simp⟩, Or.inr ⟨_, rfl⟩, ?_, by simp⟩
  intro n hn
  simp only [List.mem_singleton] at hn; subst hn
  exact ⟨by simp, hc, trivial, rfl⟩

/-- one iteration preserves the invariant and visits a new node -/
theorem ScanI.step {succ : α → List α} {crit : α → Bool} {start : α} {s s' : List α × List α × List α}
    (h : ScanI succ crit start s.1 s.2.1 s.2.2) (hst : scanStep succ crit s = .inl s') :
    ScanI succ crit start s'.1 s'.2.1 s'.2.2 ∧ (∀ x, x ∈ s.2.2 → x ∈ s'.2.2) ∧
    (∀ n q, s.1 = n :: q → n ∉ s.2.2 ∧ n ∈ s'.2.2 ∧ Reach (fun a b => b ∈ succ a) start n ∧
      (∀ x, x ∈ s'.2.2 → x ∈ s.2.2 ∨ x = n ∨ crit x = false)) := by
  obtain ⟨q, path, vis⟩ := s
  cases q with
  | nil => simp [scanStep] at hst
  | cons n1 q =>
    have hq : q = [] := by
      rcases h.one with h1 | ⟨n, h1⟩
      · simp at h1
      · simp at h1; exact h1.2
    subst hq
    obtain ⟨hn1, hn2, hn3, hn4⟩ := h.next n1 (by simp)
    simp only at hn1 hn2 hn3 hn4
    have hj := h.j
    simp only at hj
    have hn1p : n1 ∉ path := fun hh => hn1 (hj.sub n1 hh).1
    have hn1r : Reach (fun a b => b ∈ succ a ∧ crit b = true) start n1 := by
      by_cases hp : path = []
      · subst hp
        simp only [List.nil_append, List.head?_cons, Option.some.injEq] at hn4
        subst hn4; exact Reach.refl _
      · obtain ⟨p, hp'⟩ : ∃ p, path.getLast? = some p := ⟨_, List.getLast?_eq_some_getLast hp⟩
        have := (Consec.append.1 hn3).2.2 p n1 hp' rfl
        have hpm := hj.sub p (List.mem_of_getLast? hp')
        exact (hj.reach p hpm.1 hpm.2).tail ⟨this, hn2⟩
    have hn1r' : Reach (fun a b => b ∈ succ a) start n1 := hn1r.mono (fun a b h => h.1)
    have hn1x : n1 = start ∨ ∃ y, Reach (fun a b => b ∈ succ a ∧ crit b = true) start y ∧ n1 ∈ succ y := by
      by_cases hp : path = []
      · subst hp
        simp only [List.nil_append, List.head?_cons, Option.some.injEq] at hn4
        exact Or.inl hn4
      · obtain ⟨p, hp'⟩ : ∃ p, path.getLast? = some p := ⟨_, List.getLast?_eq_some_getLast hp⟩
        have := (Consec.append.1 hn3).2.2 p n1 hp' rfl
        have hpm := hj.sub p (List.mem_of_getLast? hp')
        exact Or.inr ⟨p, hj.reach p hpm.1 hpm.2, this⟩
    have hstart1 : start ∈ sadd vis n1 := by
      by_cases hp : path = []
      · subst hp
        simp only [List.nil_append, List.head?_cons, Option.some.injEq] at hn4
        simp [hn4]
      · cases hpp : path with
        | nil => exact absurd hpp hp
        | cons a l =>
          have h1 := hj.head a (by simp [hpp])
          have h2 := (hj.sub a (by simp [hpp])).1
          subst h1; simp [h2]
    simp only [scanStep] at hst
    obtain ⟨s1, s2, s3, s4⟩ := scanFirst_spec crit (succ n1) (sadd vis n1)
    cases hsc : scanFirst crit (succ n1) (sadd vis n1) with
    | mk o vis2 =>
      rw [hsc] at s1 s2 s3 s4 hst
      simp only at s1 s2 s3 s4
      have hmono : ∀ x, x ∈ vis → x ∈ vis2 := fun x hx => s1 x (by simp [hx])
      have hn1v : n1 ∈ vis2 := s1 n1 (by simp)
      have hnew : ∀ x, x ∈ vis2 → x ∈ vis ∨ x = n1 ∨ crit x = false := by
        intro x hx
        rcases s2 x hx with h5 | h5
        · rcases mem_sadd.1 h5 with h5 | h5
          · exact Or.inr (Or.inl h5)
          · exact Or.inl h5
        · exact Or.inr (Or.inr h5.2)
      have hreach : ∀ x ∈ vis2, crit x = true → Reach (fun a b => b ∈ succ a ∧ crit b = true) start x := by
        intro x hx hc
        rcases hnew x hx with h5 | h5 | h5
        · exact hj.reach x h5 hc
        · subst h5; exact hn1r
        · rw [h5] at hc; simp at hc
      have hreach' : ∀ x ∈ vis2, x = start ∨
          ∃ y, Reach (fun a b => b ∈ succ a ∧ crit b = true) start y ∧ x ∈ succ y := by
        intro x hx
        rcases s2 x hx with h5 | h5
        · rcases mem_sadd.1 h5 with h5 | h5
          · subst h5; exact hn1x
          · exact hj.reach' x h5
        · exact Or.inr ⟨n1, hn1r, h5.1⟩
      cases o with
      | some n2 =>
        simp only [Sum.inl.injEq] at hst
        subst hst
        simp only
        obtain ⟨h6, h7, h8⟩ := s4 n2 rfl
        refine ⟨⟨⟨hn3, ?_, ?_, ?_, hreach, hreach', ?_⟩, Or.inr ⟨n2, rfl⟩, ?_, by simp⟩, hmono, ?_⟩
        · intro x hx; rw [hn4] at hx; simpa using hx.symm
        · rw [List.nodup_append]
          refine ⟨hj.nodup, by simp, ?_⟩
          intro a ha b hb hab; simp at hb; subst hb; subst hab; exact hn1p ha
        · intro x hx
          rcases List.mem_append.1 hx with hx | hx
          · exact ⟨hmono x (hj.sub x hx).1, (hj.sub x hx).2⟩
          · simp at hx; subst hx; exact ⟨hn1v, hn2⟩
        · intro x hx hc hxp c hcc
          simp only [List.mem_append, List.mem_singleton, not_or] at hxp
          rcases hnew x hx with h5 | h5 | h5
          · exact hmono c (hj.done x h5 hc hxp.1 c hcc)
          · exact absurd h5 hxp.2
          · rw [h5] at hc; simp at hc
        · intro n hn
          simp only [List.mem_singleton] at hn; subst hn
          refine ⟨h7, h8, hn3.snoc (a := n1) (by simp) h6, ?_⟩
          rw [List.head?_append, hn4]; rfl
        · intro n q hq
          simp only [List.cons.injEq] at hq
          obtain ⟨rfl, rfl⟩ := hq
          exact ⟨hn1, hn1v, hn1r', hnew⟩
      | none =>
        simp only [List.isEmpty_nil, if_true, Sum.inl.injEq] at hst
        have her : (path ++ [n1]).erase n1 = path := by
          rw [List.erase_append_right _ hn1p]; simp
        rw [her] at hst
        have hJ : ScanJ succ crit start path vis2 := by
          refine ⟨hj.consec, hj.head, hj.nodup, fun x hx => ⟨hmono x (hj.sub x hx).1, (hj.sub x hx).2⟩, hreach, hreach', ?_⟩
          intro x hx hc hxp c hcc
          rcases hnew x hx with h5 | h5 | h5
          · exact hmono c (hj.done x h5 hc hxp c hcc)
          · subst h5; exact s3 rfl c hcc
          · rw [h5] at hc; simp at hc
        obtain ⟨b1, b2, b3⟩ := hJ.back (s1 _ hstart1)
        rw [← hst]
        simp only
        refine ⟨b1, fun x hx => b2 x (hmono x hx), ?_⟩
        intro n q hq
        simp only [List.cons.injEq] at hq
        obtain ⟨rfl, rfl⟩ := hq
        refine ⟨hn1, b2 _ hn1v, hn1r', ?_⟩
        intro x hx
        rcases b3 x hx with h6 | h6
        · exact hnew x h6
        · exact Or.inr (Or.inr h6)

theorem scanI_unvis {succ : α → List α} {crit : α → Bool} {start : α} {s s' : List α × List α × List α}
    {U : List α} (hU : FiniteOn (fun a b => b ∈ succ a) U) (hs : start ∈ U)
    (h : ScanI succ crit start s.1 s.2.1 s.2.2) (hst : scanStep succ crit s = .inl s') :
    unvis U s'.2.2 < unvis U s.2.2 := by
  obtain ⟨h1, h2, h3⟩ := h.step hst
  obtain ⟨q, path, vis⟩ := s
  cases q with
  | nil => simp [scanStep] at hst
  | cons n q =>
    obtain ⟨h4, h5, h6, _⟩ := h3 n q rfl
    exact unvis_lt h2 (Reach.closed (fun x => x ∈ U) hs (fun b c _ hc => (hU b c hc).2) h6) h4 h5

/-! ### depth_scan -/

theorem scan_total {succ : α → List α} {crit : α → Bool} {start : α} {U : List α}
    (hU : FiniteOn (fun a b => b ∈ succ a) U) (hs : start ∈ U) (hc : crit start = true) :
    ∃ r, pyWhile (scanStep succ crit) ([start], [], []) = some r ∧
      ∀ x, x ∈ r ↔ x = start ∨
        ∃ y, Reach (fun a b => b ∈ succ a ∧ crit b = true) start y ∧ x ∈ succ y := by
  apply pyWhile_total (step := scanStep succ crit) (fun s => ScanI succ crit start s.1 s.2.1 s.2.2) _
    (fun s => unvis U s.2.2)
  · intro s s' hI hst
    exact ⟨(hI.step hst).1, scanI_unvis hU hs hI hst⟩
  · rintro ⟨q, path, vis⟩ r hI hst
    cases q with
    | nil =>
      simp only [scanStep, Sum.inr.injEq] at hst
      subst hst
      obtain ⟨hp, hsv⟩ := hI.empty rfl
      simp only at hp hsv
      subst hp
      have hcl : ∀ y, Reach (fun a b => b ∈ succ a ∧ crit b = true) start y → y ∈ vis ∧ crit y = true := by
        intro y hy
        refine Reach.closed (fun y => y ∈ vis ∧ crit y = true) ⟨hsv, hc⟩ ?_ hy
        intro b c hb hbc
        exact ⟨hI.j.done b hb.1 hb.2 (by simp) c hbc.1, hbc.2⟩
      intro x
      refine ⟨hI.j.reach' x, ?_⟩
      rintro (rfl | ⟨y, hy, hxy⟩)
      · exact hsv
      · obtain ⟨h1, h2⟩ := hcl y hy
        exact hI.j.done y h1 h2 (by simp) x hxy
    | cons n q =>
      simp only [scanStep] at hst
      split at hst
      · simp at hst
      · split at hst <;> simp at hst
  · exact scanI_init succ hc

/-! ### depth_first_search -/

/-- away from the end node, `depth_first_search` makes the same step as `depth_scan` without criterion -/
theorem dfsStep_eq {succ : α → List α} {e : α} {s s' : List α × List α × List α}
    (h : dfsStep succ e s = .inl s') : scanStep succ (fun _ => true) s = .inl s' := by
  obtain ⟨q, path, vis⟩ := s
  cases q with
  | nil => simp [dfsStep] at h
  | cons n q =>
    simp only [dfsStep] at h
    by_cases hn : n = e
    · simp [hn] at h
    · rw [if_neg hn] at h
      simp only [scanStep, scanFirst_true, scanBack_true]
      cases hf : dfsFirst (sadd vis n) (succ n) with
      | some n2 => rw [hf] at h; simp only [Sum.inl.injEq] at h ⊢; exact h
      | none => 
        rw [hf] at h; simp only at h ⊢
        split at h
        · rename_i hq; rw [if_pos hq]; simp only [Sum.inl.injEq] at h ⊢; exact h
        · rename_i hq; rw [if_neg hq]; simp only [Sum.inl.injEq] at h ⊢; exact h

theorem dfs_total {succ : α → List α} {start : α} {U : List α}
    (hU : FiniteOn (fun a b => b ∈ succ a) U) (hs : start ∈ U) (e : α) :
    ∃ r, pyWhile (dfsStep succ e) ([start], [], []) = some r ∧
      match r with
      | none => ¬ Reach (fun a b => b ∈ succ a) start e
      | some p => WalkFT (fun a b => b ∈ succ a) start e p ∧ p.Nodup := by
  apply pyWhile_total (step := dfsStep succ e)
    (fun s => ScanI succ (fun _ => true) start s.1 s.2.1 s.2.2 ∧ e ∉ s.2.2) _ (fun s => unvis U s.2.2)
  · intro s s' ⟨hI, he⟩ hst
    have hst' := dfsStep_eq hst
    obtain ⟨h1, h2, h3⟩ := hI.step hst'
    refine ⟨⟨h1, ?_⟩, scanI_unvis hU hs hI hst'⟩
    obtain ⟨q, path, vis⟩ := s
    cases q with
    | nil => simp [dfsStep] at hst
    | cons n q =>
      intro he'
      have hne : n ≠ e := by
        intro hne; simp [dfsStep, hne] at hst
      rcases (h3 n q rfl).2.2.2 e he' with h5 | h5 | h5
      · exact he h5
      · exact hne h5.symm
      · simp at h5
  · rintro ⟨q, path, vis⟩ r ⟨hI, he⟩ hst
    cases q with
    | nil =>
      simp only [dfsStep, Sum.inr.injEq] at hst
      subst hst
      obtain ⟨hp, hsv⟩ := hI.empty rfl
      simp only at hp hsv he
      subst hp
      intro hr
      exact he (Reach.closed (fun x => x ∈ vis) hsv (fun b c hb hc => hI.j.done b hb rfl (by simp) c hc) hr)
    | cons n q =>
      simp only [dfsStep] at hst
      by_cases hn : n = e
      · rw [if_pos hn] at hst
        simp only [Sum.inr.injEq] at hst
        subst hst
        obtain ⟨h1, h2, h3, h4⟩ := hI.next n (by simp)
        simp only at h1 h3 h4
        refine ⟨⟨h3, h4, by simp [hn]⟩, ?_⟩
        rw [List.nodup_append]
        refine ⟨hI.j.nodup, by simp, ?_⟩
        intro a ha b hb hab; simp at hb; subst hb; subst hab
        exact h1 (hI.j.sub a ha).1
      · rw [if_neg hn] at hst
        split at hst
        · simp at hst
        · split at hst <;> simp at hst
  · exact ⟨scanI_init succ rfl, by simp⟩

end GT

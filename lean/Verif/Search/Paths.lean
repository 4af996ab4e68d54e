import Verif.Search.Util
import Verif.Search.Connected
/-
Model of `all_simple_paths` (graph/all_simple_paths.py:7-38) and `sources` (graph/dag.py:92-113).
-/
namespace GT
variable {α V O : Type} [DecidableEq α]

/-! ### all_simple_paths -/

/-- the loop over the outgoing edges (all_simple_paths.py:30-37); the state is `(q, paths)`.
Paths are tuples in reverse order, as in the code. -/
def aspScan (e : α) (path : List α) : List α → List (List α) × List (List α) → List (List α) × List (List α)
  | [], s => s
  | c :: cs, (q, paths) =>
    if c ∈ path then aspScan e path cs (q, paths)
    else if c = e then aspScan e path cs (q, paths ++ [c :: path])
    else aspScan e path cs (q ++ [c :: path], paths)

/-- one iteration of `while q` (all_simple_paths.py:28-37) -/
def aspStep (succ : α → List α) (e : α) :
    List (List α) × List (List α) → (List (List α) × List (List α)) ⊕ Py (List (List α))
  | ([], paths) => .inr (.ok paths)
  | ([] :: _, _) => .inr (.error .indexError)          -- `path[0]` of an empty tuple
  | ((x :: p) :: q, paths) => .inl (aspScan e (x :: p) (succ x) (q, paths))

/-- the targets of `graph.edges(from_node=n)` in order -/
def Graph.edgeTargets (g : Graph α V O) (n : α) : List α := (g.edgesFrom n).map (fun t => t.2.1)

/-- `all_simple_paths(graph, start, end)` (all_simple_paths.py:7-38) -/
def Graph.allSimplePaths (g : Graph α V O) (start e : α) : Option (Py (List (List α))) :=
  if !g.has start then some (.error .valueError)
  else if !g.has e then some (.error .valueError)
  else if start = e then some (.error .valueError)
  else match g.isConnected start e with
    | none => none
    | some false => some (.ok [])
    | some true => match pyWhile (aspStep g.edgeTargets e) ([[start]], []) with
      | none => none
      | some (.error er) => some (.error er)
      | some (.ok paths) => some (.ok (paths.map List.reverse))

theorem Graph.edgeTargets_eq (g : Graph α V O) (n : α) : g.edgeTargets n = g.nodesFrom n := by
  unfold edgeTargets edgesFrom nodesFrom
  cases g.edges.get? n with
  | none => rfl
  | some d => simp [Dict.keys]

/-! ### sources -/

/-- the loop over the predecessors (dag.py:107-111); the state is `(nodes, q)` -/
def srcScan : List α → List α × List α → List α × List α
  | [], s => s
  | src :: cs, (nodes, q) =>
    let nodes := if src ∉ nodes then sadd nodes src else nodes
    if src ∉ q then srcScan cs (nodes, q ++ [src]) else srcScan cs (nodes, q)

/-- one iteration of `while q` (dag.py:105-111) -/
def srcStep (pred : α → List α) : List α × List α → (List α × List α) ⊕ List α
  | (nodes, []) => .inr nodes
  | (nodes, new :: q) => .inl (srcScan (pred new) (nodes, q))

/-- `sources(graph, n)` (dag.py:92-113); `nodes.remove(n)` raises if `n` is absent -/
def Graph.sources (g : Graph α V O) (n : α) : Option (Py (List α)) :=
  if !g.has n then some (.error .valueError)
  else match pyWhile (srcStep g.nodesTo) ([n], [n]) with
    | none => none
    | some nodes => if n ∈ nodes then some (.ok (nodes.erase n)) else some (.error .keyError)

/-! ### all_simple_paths: proofs -/

theorem aspScan_spec (e : α) (path cs : List α) (q paths : List (List α)) (hcs : cs.Nodup) :
    ∃ kq kp : List α, aspScan e path cs (q, paths) =
      (q ++ kq.map (· :: path), paths ++ kp.map (· :: path)) ∧
      kq.Nodup ∧ kp.Nodup ∧ (∀ c, c ∈ kq ↔ c ∈ cs ∧ c ∉ path ∧ c ≠ e) ∧
      (∀ c, c ∈ kp ↔ c ∈ cs ∧ c ∉ path ∧ c = e) := by
  induction cs generalizing q paths with
  | nil => exact ⟨[], [], by simp [aspScan]⟩
  | cons c cs ih =>
    rw [List.nodup_cons] at hcs
    unfold aspScan
    by_cases hc : c ∈ path
    · rw [if_pos hc]
      obtain ⟨kq, kp, h1, h2, h3, h4, h5⟩ := ih q paths hcs.2
      refine ⟨kq, kp, h1, h2, h3, fun x => ?_, fun x => ?_⟩
      · rw [h4]; simp only [List.mem_cons]; grind
      · rw [h5]; simp only [List.mem_cons]; grind
    · rw [if_neg hc]
      by_cases he : c = e
      · rw [if_pos he]
        obtain ⟨kq, kp, h1, h2, h3, h4, h5⟩ := ih q (paths ++ [c :: path]) hcs.2
        refine ⟨kq, c :: kp, by rw [h1]; simp, h2, ?_, fun x => ?_, fun x => ?_⟩
        · rw [List.nodup_cons]; exact ⟨fun h => hcs.1 ((h5 c).1 h).1, h3⟩
        · rw [h4]; simp only [List.mem_cons]; grind
        · simp only [List.mem_cons, h5]; grind
      · rw [if_neg he]
        obtain ⟨kq, kp, h1, h2, h3, h4, h5⟩ := ih (q ++ [c :: path]) paths hcs.2
        refine ⟨c :: kq, kp, by rw [h1]; simp, ?_, h3, fun x => ?_, fun x => ?_⟩
        · rw [List.nodup_cons]; exact ⟨fun h => hcs.1 ((h4 c).1 h).1, h2⟩
        · simp only [List.mem_cons, h4]; grind
        · rw [h5]; simp only [List.mem_cons]; grind

/-- neither list is a suffix of the other -/
def SufInc (x y : List α) : Prop := ¬ x <:+ y ∧ ¬ y <:+ x

omit [DecidableEq α] in
theorem sufInc_kids {path x : List α} (h : SufInc path x) (c : α) : SufInc (c :: path) x := by
  constructor
  · intro h2; exact h.1 ((List.suffix_cons c path).trans h2)
  · intro h2
    rcases List.suffix_cons_iff.1 h2 with h3 | h3
    · exact h.1 (h3 ▸ List.suffix_cons c path)
    · exact h.2 h3

omit [DecidableEq α] in
theorem sufInc_sib {path : List α} {c d : α} (h : c ≠ d) : SufInc (c :: path) (d :: path) := by
  have key : ∀ a b : α, a ≠ b → ¬ (a :: path) <:+ (b :: path) := by
    intro a b hab h2
    have := h2.eq_of_length (by simp)
    simp at this; exact hab this
  exact ⟨key c d h, key d c (Ne.symm h)⟩

theorem asp_total {succ : α → List α} {U : List α} (hU : FiniteOn (fun a b => b ∈ succ a) U)
    (hn : ∀ a, (succ a).Nodup) {start e : α} (hs : start ∈ U) (hse : start ≠ e) :
    ∃ r, pyWhile (aspStep succ e) ([[start]], []) = some r ∧
      ∃ ps, r = .ok ps ∧ ps.Nodup ∧
        ∀ p, p ∈ ps ↔ WalkFT (fun a b => b ∈ succ a) start e p.reverse ∧ p.Nodup := by
  let R : α → α → Prop := fun a b => b ∈ succ a
  let I : List (List α) × List (List α) → Prop := fun s =>
    (∀ p ∈ s.1, p.Nodup ∧ e ∉ p ∧ ∃ x l, p = x :: l ∧ WalkFT R start x p.reverse) ∧
    (∀ p ∈ s.2, p.Nodup ∧ WalkFT R start e p.reverse) ∧
    (s.1 ++ s.2).Pairwise SufInc ∧
    (∀ p, WalkFT R start e p.reverse → p.Nodup → p ∈ s.2 ∨ ∃ t ∈ s.1, t <:+ p)
  have hlen : ∀ (p : List α) (x : α), p.Nodup → WalkFT R start x p.reverse → p.length ≤ U.length := by
    intro p x hp hw
    apply hp.length_le_of_subset
    intro y hy
    have hy' : y ∈ p.reverse := by simpa using hy
    obtain ⟨s, t, hst⟩ := List.append_of_mem hy'
    cases s with
    | nil =>
      have := hw.2.1; rw [hst] at this; simp at this; rw [this]; exact hs
    | cons a s =>
      have := hw.1; rw [hst, Consec.append] at this
      obtain ⟨z, hz⟩ : ∃ z, (a :: s).getLast? = some z := ⟨_, List.getLast?_eq_some_getLast (by simp)⟩
      exact (hU _ _ (this.2.2 z y hz rfl)).2
  apply pyWhile_total (step := aspStep succ e) I _
    (fun s => treeWeight (2 * U.length) (fun p => U.length - p.length) s.1)
  · rintro ⟨q, paths⟩ s' ⟨h1, h2, h3, h4⟩ hst
    simp only at h1 h2 h3 h4
    cases q with
    | nil => simp [aspStep] at hst
    | cons path q =>
      obtain ⟨hnd, hep, x, l, rfl, hw⟩ := h1 path (by simp)
      simp only [aspStep, Sum.inl.injEq] at hst
      obtain ⟨kq, kp, k1, k2, k3, k4, k5⟩ := aspScan_spec e (x :: l) (succ x) q paths (hn x)
      rw [k1] at hst
      subst hst
      have hext : ∀ c, c ∈ succ x → WalkFT R start c ((c :: x :: l).reverse) := by
        intro c hc
        have := hw.snoc (R := R) hc
        simpa using this
      refine ⟨⟨?_, ?_, ?_, ?_⟩, ?_⟩
      · intro p hp
        simp only [List.mem_append, List.mem_map] at hp
        rcases hp with hp | ⟨c, hc, rfl⟩
        · exact h1 p (by simp [hp])
        · have := (k4 c).1 hc
          refine ⟨by rw [List.nodup_cons]; exact ⟨this.2.1, hnd⟩, ?_, c, _, rfl, hext c this.1⟩
          rw [List.mem_cons, not_or]; exact ⟨fun h => this.2.2 h.symm, hep⟩
      · intro p hp
        simp only [List.mem_append, List.mem_map] at hp
        rcases hp with hp | ⟨c, hc, rfl⟩
        · exact h2 p hp
        · have := (k5 c).1 hc
          refine ⟨by rw [List.nodup_cons]; exact ⟨this.2.1, hnd⟩, ?_⟩
          have h6 := hext c this.1
          rw [this.2.2] at h6 ⊢; exact h6
      · simp only
        simp only [List.cons_append, List.pairwise_cons] at h3
        obtain ⟨h5, h6⟩ := h3
        rw [List.pairwise_append] at h6
        obtain ⟨h6, h7, h8⟩ := h6
        have hsib : ∀ k : List α, k.Nodup → (k.map (· :: x :: l)).Pairwise SufInc := by
          intro k hk
          rw [List.pairwise_map]
          exact hk.imp (fun h => sufInc_sib h)
        rw [List.pairwise_append, List.pairwise_append, List.pairwise_append]
        refine ⟨⟨h6, hsib kq k2, ?_⟩, ⟨h7, hsib kp k3, ?_⟩, ?_⟩
        · intro a ha b hb
          simp only [List.mem_map] at hb
          obtain ⟨c, _, rfl⟩ := hb
          exact (sufInc_kids (h5 a (by simp [ha])) c).symm
        · intro a ha b hb
          simp only [List.mem_map] at hb
          obtain ⟨c, _, rfl⟩ := hb
          exact (sufInc_kids (h5 a (by simp [ha])) c).symm
        · intro a ha b hb
          simp only [List.mem_append, List.mem_map] at ha hb
          rcases ha with ha | ⟨c, hc, rfl⟩ <;> rcases hb with hb | ⟨d, hd, rfl⟩
          · exact h8 a ha b hb
          · exact (sufInc_kids (h5 a (by simp [ha])) d).symm
          · exact sufInc_kids (h5 b (by simp [hb])) c
          · apply sufInc_sib
            have h9 := (k4 c).1 hc
            have h10 := (k5 d).1 hd
            intro h; exact h9.2.2 (h.trans h10.2.2)
      · intro p hp hpn
        simp only [List.mem_append, List.mem_map]
        rcases h4 p hp hpn with h5 | ⟨t, ht, hsuf⟩
        · exact Or.inl (Or.inl h5)
        · rcases List.mem_cons.1 ht with rfl | ht
          · obtain ⟨s, hs⟩ := hsuf
            have hsne : s ≠ [] := by
              intro h; subst h
              apply hep
              simp only [List.nil_append] at hs
              rw [hs]
              have := List.mem_of_getLast? hp.2.2
              simpa using this
            obtain ⟨s', c, rfl⟩ : ∃ s' c, s = s' ++ [c] :=
              ⟨_, _, (List.dropLast_concat_getLast hsne).symm⟩
            have hpe : p = s' ++ (c :: x :: l) := by rw [← hs]; simp
            have hcx : c ∈ succ x := by
              have := hp.1
              rw [hpe, List.reverse_append] at this
              have := (Consec.append.1 this).1
              rw [List.reverse_cons, Consec.append] at this
              exact this.2.2 x c (by simp) rfl
            have hcp : c ∉ x :: l := by
              rw [hpe, List.nodup_append] at hpn
              exact (List.nodup_cons.1 hpn.2.1).1
            by_cases hce : c = e
            · left; right
              refine ⟨c, (k5 c).2 ⟨hcx, hcp, hce⟩, ?_⟩
              -- `e` is the last node, so nothing precedes it
              cases s' with
              | nil => rw [hpe]; rfl
              | cons y s' =>
                exfalso
                have h9 := hp.2.2
                rw [hpe, List.getLast?_reverse, List.cons_append, List.head?_cons, Option.some.injEq] at h9
                rw [hpe] at hpn
                simp only [List.cons_append, List.nodup_cons] at hpn
                exact hpn.1 (by rw [h9, ← hce]; simp)
            · right
              exact ⟨c :: x :: l, Or.inr ⟨c, (k4 c).2 ⟨hcx, hcp, hce⟩, rfl⟩, ⟨s', hpe.symm⟩⟩
          · exact Or.inr ⟨t, Or.inl ht, hsuf⟩
      · apply treeWeight_lt
        · rw [List.length_map]
          have : kq.length ≤ U.length := k2.length_le_of_subset (fun c hc => (hU x c ((k4 c).1 hc).1).2)
          omega
        · intro p hp
          simp only [List.mem_map] at hp
          obtain ⟨c, hc, rfl⟩ := hp
          have := (k4 c).1 hc
          have := hlen (c :: x :: l) c (by rw [List.nodup_cons]; exact ⟨this.2.1, hnd⟩) (hext c this.1)
          simp only [List.length_cons] at *; omega
  · rintro ⟨q, paths⟩ r ⟨h1, h2, h3, h4⟩ hst
    simp only at h1 h2 h3 h4
    cases q with
    | nil =>
      simp only [aspStep, Sum.inr.injEq] at hst
      refine ⟨paths, hst.symm, ?_, fun p => ⟨fun hp => ⟨(h2 p hp).2, (h2 p hp).1⟩, fun hp => ?_⟩⟩
      · simp only [List.nil_append] at h3
        refine h3.imp ?_
        intro a b hab h; subst h; exact hab.1 (List.suffix_refl _)
      · simpa using h4 p hp.1 hp.2
    | cons path q =>
      obtain ⟨hnd, hep, x, l, rfl, hw⟩ := h1 path (by simp)
      simp [aspStep] at hst
  · refine ⟨?_, by simp, by simp, ?_⟩
    · intro p hp
      simp only [List.mem_singleton] at hp; subst hp
      exact ⟨by simp, by simp; exact fun h => hse h.symm, start, [], rfl, WalkFT.single _⟩
    · intro p hp hpn
      right
      refine ⟨[start], by simp, ?_⟩
      have := hp.2.1
      rw [List.head?_reverse] at this
      obtain ⟨l, hl⟩ := List.getLast?_eq_some_iff.1 this
      exact ⟨l, by rw [hl]⟩

/-! ### sources: proofs -/

theorem srcScan_spec (cs nodes q : List α) :
    (∀ x, x ∈ (srcScan cs (nodes, q)).1 ↔ x ∈ nodes ∨ x ∈ cs) ∧
    ∃ k : List α, (srcScan cs (nodes, q)).2 = q ++ k ∧ k.length ≤ cs.length ∧ (∀ c ∈ k, c ∈ cs) ∧
      ∀ c ∈ cs, c ∈ q ∨ c ∈ k := by
  induction cs generalizing nodes q with
  | nil => exact ⟨by simp [srcScan], [], by simp [srcScan]⟩
  | cons c cs ih =>
    unfold srcScan
    simp only
    have hn : ∀ x, x ∈ (if c ∉ nodes then sadd nodes c else nodes) ↔ x = c ∨ x ∈ nodes := by
      intro x; split
      · simp
      · rename_i h; simp only [Decidable.not_not] at h; grind
    by_cases hq : c ∈ q
    · rw [if_neg (by simpa using hq)]
      obtain ⟨h1, k, h2, h3, h4, h5⟩ := ih (if c ∉ nodes then sadd nodes c else nodes) q
      refine ⟨fun x => by rw [h1, hn]; simp only [List.mem_cons]; grind, k, h2, by simp; omega, ?_, ?_⟩
      · intro x hx; exact List.mem_cons_of_mem _ (h4 x hx)
      · intro x hx
        rcases List.mem_cons.1 hx with rfl | hx
        · exact Or.inl hq
        · exact h5 x hx
    · rw [if_pos hq]
      obtain ⟨h1, k, h2, h3, h4, h5⟩ := ih (if c ∉ nodes then sadd nodes c else nodes) (q ++ [c])
      refine ⟨fun x => by rw [h1, hn]; simp only [List.mem_cons]; grind, c :: k, by rw [h2]; simp, by simp; omega, ?_, ?_⟩
      · intro x hx
        rcases List.mem_cons.1 hx with rfl | hx
        · simp
        · exact List.mem_cons_of_mem _ (h4 x hx)
      · intro x hx
        rcases List.mem_cons.1 hx with rfl | hx
        · right; simp
        · have := h5 x hx
          simp only [List.mem_append, List.mem_singleton, List.mem_cons] at this ⊢; grind

/-- without a cycle upstream of `n` the loop of `sources` leaves with the ancestors of `n` -/
theorem src_total {pred : α → List α} {U : List α} (hU : FiniteOn (fun a b => b ∈ pred a) U)
    (hn : ∀ a, (pred a).Nodup) {n : α}
    (hac : ∀ c, Reach (fun a b => b ∈ pred a) n c → ¬ ReachPlus (fun a b => b ∈ pred a) c c) :
    ∃ r, pyWhile (srcStep pred) ([n], [n]) = some r ∧ r.Nodup ∧
      ∀ x, x ∈ r ↔ Reach (fun a b => b ∈ pred a) n x := by
  let P : α → α → Prop := fun a b => b ∈ pred a
  let P' : α → α → Prop := fun a b => b ∈ pred a ∧ Reach P n a
  have hP' : FiniteOn P' U := fun a b h => hU a b h.1
  have hA : Acyclic P' := by
    intro a ⟨m, hm⟩
    obtain ⟨b, hb, _⟩ := hm.head
    exact hac a hb.2 ⟨m, hm.mono (fun _ _ h => h.1)⟩
  obtain ⟨rank, hr, -, -⟩ := hA.rank hP'
  let I : List α × List α → Prop := fun s =>
    s.1.Nodup ∧ n ∈ s.1 ∧ (∀ x ∈ s.1, Reach P n x) ∧ (∀ x ∈ s.2, x ∈ s.1) ∧
    (∀ x ∈ s.1, x ∈ s.2 ∨ ∀ c ∈ pred x, c ∈ s.1)
  have hnodup : ∀ cs nodes q : List α, nodes.Nodup → (srcScan cs (nodes, q)).1.Nodup := by
    intro cs
    induction cs with
    | nil => intro nodes q h; exact h
    | cons c cs ih =>
      intro nodes q h
      unfold srcScan
      simp only
      have : (if c ∉ nodes then sadd nodes c else nodes).Nodup := by
        split
        · exact nodup_sadd h
        · exact h
      split
      · exact ih _ _ this
      · exact ih _ _ this
  apply pyWhile_total (step := srcStep pred) I _ (fun s => treeWeight U.length rank s.2)
  · rintro ⟨nodes, q⟩ s' ⟨h0, h1, h2, h3, h4⟩ hst
    simp only at h0 h1 h2 h3 h4
    cases q with
    | nil => simp [srcStep] at hst
    | cons new q =>
      simp only [srcStep, Sum.inl.injEq] at hst
      obtain ⟨k1, k, k2, k3, k4, k5⟩ := srcScan_spec (pred new) nodes q
      have k0 := hnodup (pred new) nodes q h0
      rw [hst] at k0 k1 k2
      obtain ⟨nodes', q'⟩ := s'
      simp only at k0 k1 k2
      subst k2
      have hnew := h3 new (by simp)
      have hnr := h2 new hnew
      refine ⟨⟨k0, (k1 n).2 (Or.inl h1), ?_, ?_, ?_⟩, ?_⟩
      · intro x hx
        rcases (k1 x).1 hx with h | h
        · exact h2 x h
        · exact hnr.tail h
      · intro x hx
        simp only [List.mem_append] at hx
        rcases hx with h | h
        · exact (k1 x).2 (Or.inl (h3 x (by simp [h])))
        · exact (k1 x).2 (Or.inr (k4 x h))
      · intro x hx
        simp only [List.mem_append] at hx ⊢
        by_cases hxn : x = new
        · subst hxn; exact Or.inr (fun c hc => (k1 c).2 (Or.inr hc))
        · rcases (k1 x).1 hx with h | h
          · rcases h4 x h with h5 | h5
            · exact Or.inl (Or.inl ((List.mem_cons.1 h5).resolve_left hxn))
            · exact Or.inr (fun c hc => (k1 c).2 (Or.inl (h5 c hc)))
          · exact Or.inl (k5 x h)
      · apply treeWeight_lt
        · have : (pred new).length ≤ U.length :=
            (hn new).length_le_of_subset (fun c hc => (hU new c hc).2)
          omega
        · intro y hy
          exact hr new y ⟨k4 y hy, hnr⟩
  · rintro ⟨nodes, q⟩ r ⟨h0, h1, h2, h3, h4⟩ hst
    simp only at h0 h1 h2 h3 h4
    cases q with
    | nil =>
      simp only [srcStep, Sum.inr.injEq] at hst
      subst hst
      refine ⟨h0, fun x => ⟨h2 x, fun hx => ?_⟩⟩
      exact Reach.closed (fun x => x ∈ nodes) h1 (fun b c hb hc => by
        rcases h4 b hb with h5 | h5
        · simp at h5
        · exact h5 c hc) hx
    | cons new q => simp [srcStep] at hst
  · refine ⟨by simp, by simp, ?_, by simp, by simp⟩
    intro x hx; simp at hx; subst hx; exact Reach.refl _

/-- with a cycle upstream of `n` the loop of `sources` never leaves -/
theorem src_diverges {pred : α → List α} {n c : α} (h1 : Reach (fun a b => b ∈ pred a) n c)
    (h2 : ReachPlus (fun a b => b ∈ pred a) c c) : pyWhile (srcStep pred) ([n], [n]) = none := by
  let P : α → α → Prop := fun a b => b ∈ pred a
  apply pyWhile_diverges (step := srcStep pred)
    (fun s => ∃ x ∈ s.2, Reach P x c)
  · rintro ⟨nodes, q⟩ ⟨x, hx, hxc⟩
    cases q with
    | nil => simp at hx
    | cons new q =>
      obtain ⟨k1, k, k2, k3, k4, k5⟩ := srcScan_spec (pred new) nodes q
      refine ⟨_, rfl, ?_⟩
      rw [k2]
      rcases List.mem_cons.1 hx with rfl | hx
      · -- the popped node has a predecessor that is still downstream of the cycle
        have : ∃ y, y ∈ pred x ∧ Reach P y c := by
          obtain ⟨m, hm⟩ := hxc
          cases m with
          | zero =>
            cases hm
            obtain ⟨m, hm⟩ := h2
            obtain ⟨y, hy, hy2⟩ := hm.head
            exact ⟨y, hy, m, hy2⟩
          | succ m =>
            obtain ⟨y, hy, hy2⟩ := hm.head
            exact ⟨y, hy, m, hy2⟩
        obtain ⟨y, hy, hyc⟩ := this
        exact ⟨y, by rw [List.mem_append]; exact k5 y hy, hyc⟩
      · exact ⟨x, by simp [hx], hxc⟩
  · exact ⟨n, by simp, h1⟩

end GT

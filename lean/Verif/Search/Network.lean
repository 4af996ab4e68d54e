import Verif.Search.Util
import Verif.Graph.Model
/-
Model of `network_size` (graph/base.py:455-494) and `components` (graph/base.py:497-521).

Sets are duplicate-free lists.  The order in which a set is iterated (`ord`) and the element that
`set.pop` removes (`pop`) are parameters, indexed by a counter so that they may differ at every call.
-/
namespace GT
variable {α V O : Type} [DecidableEq α]

/-! ### network_size -/

/-- the loop `for peer in q` (base.py:485-491); the state is `(network, new_q)` -/
def netScan (succ : α → List α) : List α → List α × List α → List α × List α
  | [], s => s
  | peer :: ps, (network, newq) =>
    if peer ∈ network then netScan succ ps (network, newq)
    else
      let network := sadd network peer
      let newPeers := (succ peer).filter (fun x => x ∉ network)
      netScan succ ps (network, saddAll newq newPeers)

/-- `degrees_of_separation is not None and scan_depth > degrees_of_separation` (base.py:480-482) -/
def beyond (k : Option Int) (depth : Nat) : Bool :=
  match k with
  | some k => decide ((depth : Int) > k)
  | none => false

/-- one iteration of `while True` (base.py:476-493); the state is `(network, q, scan_depth)` -/
def netStep (succ : α → List α) (ord : Nat → List α → List α) (k : Option Int) :
    List α × List α × Nat → (List α × List α × Nat) ⊕ List α
  | (network, q, depth) =>
    if q.isEmpty then .inr network
    else if beyond k depth then .inr network
    else
      let r := netScan succ (ord depth q) (network, [])
      .inl (r.1, r.2, depth + 1)

/-! ### components -/

/-- one iteration of the inner loop (base.py:515-519); the state is `(counter, new_nodes, new_component)` -/
def compInner (succ pred : α → List α) (pop : Nat → List α → α) :
    Nat × List α × List α → (Nat × List α × List α) ⊕ (Nat × List α)
  | (t, newNodes, comp) =>
    if newNodes.isEmpty then .inr (t, comp)
    else
      let n := pop t newNodes
      let newNodes := newNodes.filter (fun x => x ≠ n)
      let comp := sadd comp n
      let newNodes := saddAll newNodes ((succ n).filter (fun x => x ∉ comp))
      let newNodes := saddAll newNodes ((pred n).filter (fun x => x ∉ comp))
      .inl (t + 1, newNodes, comp)

/-- one iteration of the outer loop (base.py:507-520); the state is `(counter, nodes, sets)` -/
def compOuter (succ pred : α → List α) (pop : Nat → List α → α) :
    Nat × List α × List (List α) → Option ((Nat × List α × List (List α)) ⊕ List (List α))
  | (t, nodes, sets) =>
    if nodes.isEmpty then some (.inr sets)
    else
      let n := pop t nodes
      let nodes := nodes.filter (fun x => x ≠ n)
      match pyWhile (compInner succ pred pop) (t + 1, saddAll (saddAll [] (succ n)) (pred n), [n]) with
      | none => none
      | some (t, comp) => some (.inl (t, nodes.filter (fun x => x ∉ comp), sets ++ [comp]))

namespace Graph

/-- `network_size(graph, n1, degrees_of_separation)` (base.py:455-494) -/
def networkSize (g : Graph α V O) (ord : Nat → List α → List α) (n1 : α) (k : Option Int) :
    Option (Py (List α)) :=
  if !g.has n1 then some (.error .valueError)
  else match pyWhile (netStep g.nodesFrom ord k) ([n1], saddAll [] (g.nodesFrom n1), 1) with
    | none => none
    | some r => some (.ok r)

/-- `components(graph)` (base.py:497-521) -/
def components (g : Graph α V O) (pop : Nat → List α → α) : Option (List (List α)) :=
  pyWhileD (compOuter g.nodesFrom g.nodesTo pop) (0, g.nodeList, [])

end Graph

/-! ### network_size: proofs -/

theorem netScan_spec (succ : α → List α) (ps net nq : List α) :
    (∀ x, x ∈ (netScan succ ps (net, nq)).1 ↔ x ∈ net ∨ x ∈ ps) ∧
    (∀ x, x ∈ nq → x ∈ (netScan succ ps (net, nq)).2) ∧
    (∀ x, x ∈ (netScan succ ps (net, nq)).2 → x ∈ nq ∨ ∃ p ∈ ps, p ∉ net ∧ x ∈ succ p) ∧
    (∀ p ∈ ps, p ∉ net → ∀ c ∈ succ p, c ∈ (netScan succ ps (net, nq)).1 ∨ c ∈ (netScan succ ps (net, nq)).2) := by
  induction ps generalizing net nq with
  | nil => simp [netScan]
  | cons p ps ih =>
    unfold netScan
    by_cases hp : p ∈ net
    · rw [if_pos hp]
      obtain ⟨h1, h2, h3, h4⟩ := ih net nq
      refine ⟨fun x => ?_, h2, fun x hx => ?_, fun y hy hyn c hc => ?_⟩
      · rw [h1]; simp only [List.mem_cons]; grind
      · rcases h3 x hx with h5 | ⟨y, hy, h5⟩
        · exact Or.inl h5
        · exact Or.inr ⟨y, List.mem_cons_of_mem _ hy, h5⟩
      · rcases List.mem_cons.1 hy with rfl | hy
        · exact absurd hp hyn
        · exact h4 y hy hyn c hc
    · rw [if_neg hp]
      obtain ⟨h1, h2, h3, h4⟩ := ih (sadd net p) (saddAll nq ((succ p).filter (fun x => x ∉ sadd net p)))
      refine ⟨fun x => ?_, fun x hx => h2 x (by simp [hx]), fun x hx => ?_, fun y hy hyn c hc => ?_⟩
      · simp only
        rw [h1]; simp only [List.mem_cons, mem_sadd]; grind
      · rcases h3 x hx with h5 | ⟨y, hy, h5⟩
        · simp only [mem_saddAll, List.mem_filter] at h5
          rcases h5 with h5 | h5
          · exact Or.inl h5
          · exact Or.inr ⟨p, by simp, hp, h5.1⟩
        · simp only [mem_sadd, not_or] at h5
          exact Or.inr ⟨y, List.mem_cons_of_mem _ hy, h5.1.2, h5.2⟩
      · simp only
        by_cases hyp : y = p
        · subst hyp
          by_cases hcn : c ∈ sadd net y
          · exact Or.inl ((h1 c).2 (Or.inl hcn))
          · exact Or.inr (h2 c (by simp only [mem_saddAll, List.mem_filter]; right; exact ⟨hc, by simpa using hcn⟩))
        · have hy' : y ∈ ps := (List.mem_cons.1 hy).resolve_left hyp
          exact h4 y hy' (by simp [hyp, hyn]) c hc

theorem net_total {succ : α → List α} {U : List α} (hU : FiniteOn (fun a b => b ∈ succ a) U)
    {ord : Nat → List α → List α} (hord : ∀ t l x, x ∈ ord t l ↔ x ∈ l) {n : α} (hn : n ∈ U) (k : Option Int) :
    ∃ r, pyWhile (netStep succ ord k) ([n], saddAll [] (succ n), 1) = some r ∧
      ∀ x, x ∈ r ↔ ∃ m : Nat, Steps (fun a b => b ∈ succ a) m n x ∧
        (m = 0 ∨ WithinRadius k m) := by
  let R : α → α → Prop := fun a b => b ∈ succ a
  let I : List α × List α × Nat → Prop := fun s =>
    1 ≤ s.2.2 ∧ (s.2.2 = 1 ∨ WithinRadius k (s.2.2 - 1)) ∧
    (∀ x, x ∈ s.1 ↔ ∃ m, m + 1 ≤ s.2.2 ∧ Steps R m n x) ∧
    (∀ x ∈ s.2.1, ∃ m, m ≤ s.2.2 ∧ Steps R m n x) ∧
    (∀ m x, m ≤ s.2.2 → Steps R m n x → x ∈ s.1 ∨ x ∈ s.2.1)
  apply pyWhile_total (step := netStep succ ord k) I _
    (fun s => 2 * unvis U s.1 + if s.2.1 = [] then 0 else 1)
  · rintro ⟨net, q, d⟩ s' ⟨hd, hk, hnet, hq, hcov⟩ hst
    simp only at hd hk hnet hq hcov
    simp only [netStep] at hst
    by_cases hqe : q.isEmpty = true
    · simp [hqe] at hst
    rw [if_neg hqe] at hst
    have hqne : q ≠ [] := by simpa using hqe
    by_cases hkd : beyond k d = true
    · rw [if_pos hkd] at hst; simp at hst
    rw [if_neg hkd] at hst
    simp only [Sum.inl.injEq] at hst
    subst hst
    obtain ⟨h1, h2, h3, h4⟩ := netScan_spec succ (ord d q) net []
    generalize netScan succ (ord d q) (net, []) = r at *
    obtain ⟨net', q'⟩ := r
    simp only [hord] at h1 h2 h3 h4 ⊢
    have hball : ∀ x, x ∈ net' ↔ ∃ m, m + 1 ≤ d + 1 ∧ Steps R m n x := by
      intro x
      rw [h1]
      constructor
      · rintro (h | h)
        · obtain ⟨m, hm, h5⟩ := (hnet x).1 h; exact ⟨m, by omega, h5⟩
        · obtain ⟨m, hm, h5⟩ := hq x h; exact ⟨m, by omega, h5⟩
      · rintro ⟨m, hm, h5⟩
        exact hcov m x (by omega) h5
    refine ⟨⟨by simp only; omega, ?_, hball, ?_, ?_⟩, ?_⟩
    · right
      cases k with
      | none => trivial
      | some k =>
        simp only [beyond, gt_iff_lt, decide_eq_true_eq] at hkd
        simp only [WithinRadius]; omega
    · intro x hx
      rcases h3 x hx with h5 | ⟨p, hp, _, h5⟩
      · simp at h5
      · obtain ⟨m, hm, h6⟩ := hq p hp
        exact ⟨m + 1, by simp only; omega, .succ h6 h5⟩
    · intro m x hm hx
      simp only at hm ⊢
      by_cases hm2 : m ≤ d
      · exact Or.inl ((hball x).2 ⟨m, by omega, hx⟩)
      · have hm3 : m = d + 1 := by omega
        subst hm3
        cases hx with
        | succ hy hyx =>
          rename_i y
          by_cases hyn : y ∈ net
          · obtain ⟨m, hm, h5⟩ := (hnet y).1 hyn
            exact Or.inl ((hball x).2 ⟨m + 1, by omega, .succ h5 hyx⟩)
          · have hyq := (hcov d y (by omega) hy).resolve_left hyn
            exact h4 y hyq hyn x hyx
    · simp only [if_neg hqne]
      have hmono : ∀ x, x ∈ net → x ∈ net' := fun x hx => (h1 x).2 (Or.inl hx)
      by_cases hall : ∀ x ∈ q, x ∈ net
      · have : q' = [] := by
          rw [List.eq_nil_iff_forall_not_mem]
          intro x hx
          rcases h3 x hx with h5 | ⟨p, hp, h6, _⟩
          · simp at h5
          · exact h6 (hall p hp)
        have h5 := unvis_le (U := U) hmono
        simp only [this, if_true]; omega
      · have : ∃ x, x ∈ q ∧ x ∉ net := by
          simp only [Classical.not_forall] at hall
          obtain ⟨x, hx, hx2⟩ := hall; exact ⟨x, hx, hx2⟩
        obtain ⟨x, hx, hx2⟩ := this
        obtain ⟨m, _, hm⟩ := hq x hx
        have hxU : x ∈ U := Reach.closed (fun x => x ∈ U) hn (fun b c _ hc => (hU b c hc).2) ⟨_, hm⟩
        have h5 := unvis_lt (U := U) hmono hxU hx2 ((h1 x).2 (Or.inr hx))
        split <;> omega
  · rintro ⟨net, q, d⟩ r ⟨hd, hk, hnet, hq, hcov⟩ hst
    simp only at hd hk hnet hq hcov
    simp only [netStep] at hst
    have hfwd : ∀ x, x ∈ net → ∃ m : Nat, Steps R m n x ∧
        (m = 0 ∨ WithinRadius k m) := by
      intro x hx
      obtain ⟨m, hm, h5⟩ := (hnet x).1 hx
      refine ⟨m, h5, ?_⟩
      rcases hk with hk | hk
      · left; omega
      · right
        cases k with
        | none => trivial
        | some k => simp only [WithinRadius] at hk ⊢; omega
    by_cases hqe : q.isEmpty = true
    · rw [if_pos hqe] at hst
      simp only [Sum.inr.injEq] at hst; subst hst
      have hqn : q = [] := by simpa using hqe
      subst hqn
      intro x
      refine ⟨hfwd x, ?_⟩
      rintro ⟨m, hm, _⟩
      refine Reach.closed (fun x => x ∈ net) ((hnet n).2 ⟨0, by omega, .zero _⟩) ?_ ⟨m, hm⟩
      intro b c hb hbc
      obtain ⟨m, hm, h5⟩ := (hnet b).1 hb
      simpa using hcov (m + 1) c (by omega) (.succ h5 hbc)
    · rw [if_neg hqe] at hst
      by_cases hkd : beyond k d = true
      · rw [if_pos hkd] at hst
        simp only [Sum.inr.injEq] at hst; subst hst
        intro x
        refine ⟨hfwd x, ?_⟩
        rintro ⟨m, hm, h5⟩
        refine (hnet x).2 ⟨m, ?_, hm⟩
        cases k with
        | none => simp [beyond] at hkd
        | some k => simp only [beyond, gt_iff_lt, decide_eq_true_eq] at hkd; simp only [WithinRadius] at h5; omega
      · rw [if_neg hkd] at hst; simp at hst
  · refine ⟨by simp, Or.inl rfl, ?_, ?_, ?_⟩
    · intro x; simp only [List.mem_singleton]
      constructor
      · rintro rfl; exact ⟨0, by omega, .zero _⟩
      · rintro ⟨m, hm, h5⟩
        have : m = 0 := by omega
        subst this; cases h5; rfl
    · intro x hx
      simp only [mem_saddAll, List.not_mem_nil, false_or] at hx
      exact ⟨1, by simp, .succ (.zero _) hx⟩
    · intro m x hm hx
      simp only [mem_saddAll, List.not_mem_nil, false_or, List.mem_singleton] at *
      cases hx with
      | zero => exact Or.inl rfl
      | succ h5 h6 =>
        rename_i m y
        have : m = 0 := by omega
        subst this; cases h5; exact Or.inr h6

/-! ### components: proofs -/

theorem compInner_total {succ pred : α → List α} {U : List α}
    (hU : FiniteOn (fun a b => b ∈ succ a) U) (hp : ∀ a b, b ∈ pred a ↔ a ∈ succ b)
    {pop : Nat → List α → α} (hpop : ∀ t l, l ≠ [] → pop t l ∈ l) {n : α} (hn : n ∈ U) (t : Nat) :
    ∃ r, pyWhile (compInner succ pred pop) (t, saddAll (saddAll [] (succ n)) (pred n), [n]) = some r ∧
      r.2.Nodup ∧ ∀ x, x ∈ r.2 ↔ Reach (Undirected (fun a b => b ∈ succ a)) n x := by
  let W := Undirected (fun a b => b ∈ succ a)
  have hW : ∀ a b, W a b ↔ b ∈ succ a ∨ b ∈ pred a := by
    intro a b; simp only [W, Undirected, hp]
  have hWU : ∀ a b, W a b → b ∈ U := by
    rintro a b (h | h)
    · exact (hU _ _ h).2
    · exact (hU _ _ h).1
  let I : Nat × List α × List α → Prop := fun s =>
    s.2.2.Nodup ∧ n ∈ s.2.2 ∧ (∀ x ∈ s.2.2, Reach W n x) ∧ (∀ x ∈ s.2.1, Reach W n x) ∧
    (∀ x ∈ s.2.2, ∀ c, W x c → c ∈ s.2.2 ∨ c ∈ s.2.1)
  have hpopped : ∀ (t : Nat) (nn comp : List α), nn.isEmpty ≠ true → pop t nn ∈ nn := by
    intro t nn _ h
    exact hpop t nn (by simpa using h)
  apply pyWhile_totalW (step := compInner succ pred pop) I _ lexNat lexNat_wf
    (fun s => (unvis U s.2.2, (s.2.1.filter (fun x => decide (x ∈ s.2.2))).length))
  · rintro ⟨t, nn, comp⟩ s' ⟨h1, h2, h3, h4, h5⟩ hst
    simp only at h1 h2 h3 h4 h5
    simp only [compInner] at hst
    by_cases hne : nn.isEmpty = true
    · simp [hne] at hst
    rw [if_neg hne] at hst
    simp only [Sum.inl.injEq] at hst
    subst hst
    have hm := hpopped t nn comp hne
    generalize pop t nn = x at *
    have hxr := h4 x hm
    refine ⟨⟨nodup_sadd h1, by simp [h2], ?_, ?_, ?_⟩, ?_⟩
    · intro y hy
      rcases mem_sadd.1 hy with rfl | hy
      · exact hxr
      · exact h3 y hy
    · intro y hy
      simp only [mem_saddAll, List.mem_filter] at hy
      rcases hy with (hy | hy) | hy
      · exact h4 y hy.1
      · exact hxr.tail ((hW _ _).2 (Or.inl hy.1))
      · exact hxr.tail ((hW _ _).2 (Or.inr hy.1))
    · intro y hy c hc
      simp only [mem_saddAll, List.mem_filter, mem_sadd, decide_eq_true_eq] at hy ⊢
      by_cases hyx : y = x
      · subst hyx
        have := (hW _ _).1 hc
        grind
      · have := h5 y (hy.resolve_left hyx) c hc
        grind
    · by_cases hxc : x ∈ comp
      · have hs : sadd comp x = comp := by simp [sadd, hxc]
        simp only [hs]
        refine lexNat_right (Nat.le_refl _) ?_
        -- every element added is outside `comp`
        have hfil : ∀ (l m : List α), (∀ y ∈ m, y ∉ comp) →
            ((saddAll l m).filter (fun x => decide (x ∈ comp))) = l.filter (fun x => decide (x ∈ comp)) := by
          intro l m
          induction m generalizing l with
          | nil => simp [saddAll]
          | cons a m ih =>
            intro hm
            have h6 := hm a (by simp)
            have := ih (sadd l a) (fun y hy => hm y (by simp [hy]))
            simp only [saddAll, List.foldl_cons] at *
            rw [this]
            unfold sadd; split
            · rfl
            · simp [List.filter_append, h6]
        rw [hfil _ _ (by intro y hy; simp only [List.mem_filter, decide_eq_true_eq] at hy; exact hy.2),
          hfil _ _ (by intro y hy; simp only [List.mem_filter, decide_eq_true_eq] at hy; exact hy.2)]
        rw [List.filter_filter]
        have hlt : ∀ l : List α, x ∈ l → (l.filter (fun a => decide (a ∈ comp) && decide (a ≠ x))).length <
            (l.filter (fun a => decide (a ∈ comp))).length := by
          intro l hl
          have hsub : ∀ l : List α, (l.filter (fun a => decide (a ∈ comp) && decide (a ≠ x))).length ≤
            (l.filter (fun a => decide (a ∈ comp))).length := by
            intro l
            induction l with
            | nil => simp
            | cons a l ih =>
              simp only [List.filter_cons]
              by_cases h6 : a ∈ comp
              · by_cases h7 : a = x
                · simp only [h6, h7, decide_true, ne_eq, not_true, decide_false, Bool.and_false, Bool.false_eq_true,
                    if_false, if_true, List.length_cons]; simp only [ne_eq] at ih; grind
                · simp [h6, h7]; simpa using ih
              · simp [h6]; simpa using ih
          induction l with
          | nil => simp at hl
          | cons a l ih =>
            have := hsub l
            by_cases h7 : a = x
            · subst h7
              simp only [List.filter_cons, hxc, decide_true, ne_eq, not_true, decide_false, Bool.and_false,
                Bool.false_eq_true, if_false, if_true, List.length_cons]
              simp only [ne_eq] at this; omega
            · have hl' : x ∈ l := (List.mem_cons.1 hl).resolve_left (fun h => h7 h.symm)
              have := ih hl'
              by_cases h6 : a ∈ comp
              · simp [h6, h7]; simpa using this
              · simp [h6]; simpa using this
        exact hlt nn hm
      · refine lexNat_left (unvis_lt (x := x) ?_ ?_ hxc ?_)
        · intro y hy; simp [hy]
        · exact Reach.closed (fun x => x ∈ U) hn (fun b c _ hc => hWU b c hc) hxr
        · simp
  · rintro ⟨t, nn, comp⟩ r ⟨h1, h2, h3, h4, h5⟩ hst
    simp only at h1 h2 h3 h4 h5
    simp only [compInner] at hst
    by_cases hne : nn.isEmpty = true
    · rw [if_pos hne] at hst
      simp only [Sum.inr.injEq] at hst; subst hst
      have : nn = [] := by simpa using hne
      subst this
      refine ⟨h1, fun x => ⟨h3 x, fun hx => ?_⟩⟩
      exact Reach.closed (fun x => x ∈ comp) h2 (fun b c hb hc => by simpa using h5 b hb c hc) hx
    · rw [if_neg hne] at hst; simp at hst
  · refine ⟨by simp, by simp, ?_, ?_, ?_⟩
    · intro x hx; simp at hx; subst hx; exact Reach.refl _
    · intro x hx
      simp only [mem_saddAll, List.not_mem_nil, false_or] at hx
      exact Reach.single ((hW _ _).2 hx)
    · intro x hx c hc
      simp only [List.mem_singleton] at hx; subst hx
      simp only [mem_saddAll, List.not_mem_nil, false_or]
      exact Or.inr ((hW _ _).1 hc)

theorem undirected_symm {R : α → α → Prop} {a b : α} (h : Reach (Undirected R) a b) :
    Reach (Undirected R) b a := by
  have := h.flip
  exact this.mono (fun x y h => h.symm)

theorem components_total {succ pred : α → List α} {U : List α}
    (hU : FiniteOn (fun a b => b ∈ succ a) U) (hp : ∀ a b, b ∈ pred a ↔ a ∈ succ b)
    {pop : Nat → List α → α} (hpop : ∀ t l, l ≠ [] → pop t l ∈ l) :
    ∃ r, pyWhileD (compOuter succ pred pop) (0, U, []) = some r ∧
      (∀ s ∈ r, s ≠ [] ∧ s.Nodup) ∧ r.Pairwise (fun s t => ∀ x ∈ s, x ∉ t) ∧
      (∀ x, x ∈ U ↔ ∃ s ∈ r, x ∈ s) ∧
      (∀ s ∈ r, ∀ x ∈ s, ∀ y, y ∈ s ↔ Reach (Undirected (fun a b => b ∈ succ a)) x y) := by
  let W := Undirected (fun a b => b ∈ succ a)
  have hWU : ∀ a b, W a b → b ∈ U := by
    rintro a b (h | h)
    · exact (hU _ _ h).2
    · exact (hU _ _ h).1
  let I : Nat × List α × List (List α) → Prop := fun s =>
    (∀ c ∈ s.2.2, c ≠ [] ∧ c.Nodup) ∧ s.2.2.Pairwise (fun s t => ∀ x ∈ s, x ∉ t) ∧
    (∀ x, x ∈ U ↔ x ∈ s.2.1 ∨ ∃ c ∈ s.2.2, x ∈ c) ∧
    (∀ c ∈ s.2.2, ∀ x ∈ c, ∀ y, y ∈ c ↔ Reach W x y) ∧
    (∀ x ∈ s.2.1, ∀ c ∈ s.2.2, x ∉ c)
  apply pyWhileD_total (step := compOuter succ pred pop) I _ (· < ·) Nat.lt_wfRel.wf (fun s => s.2.1.length)
  · rintro ⟨t, nodes, sets⟩ ⟨h1, h2, h3, h4, h5⟩
    simp only at h1 h2 h3 h4 h5
    simp only [compOuter]
    by_cases hne : nodes.isEmpty = true
    · right
      rw [if_pos hne]
      have : nodes = [] := by simpa using hne
      subst this
      exact ⟨sets, rfl, h1, h2, by simpa using h3, h4⟩
    · left
      rw [if_neg hne]
      have hm : pop t nodes ∈ nodes := hpop t nodes (by simpa using hne)
      generalize pop t nodes = n at *
      have hnU : n ∈ U := (h3 n).2 (Or.inl hm)
      obtain ⟨⟨t', comp⟩, hr, hnd, hcomp⟩ := compInner_total hU hp hpop hnU (t + 1)
      simp only [hr]
      simp only at hnd hcomp
      have hncomp : n ∈ comp := (hcomp n).2 (Reach.refl n)
      refine ⟨_, rfl, ⟨?_, ?_, ?_, ?_, ?_⟩, ?_⟩
      · intro c hc
        simp only [List.mem_append, List.mem_singleton] at hc
        rcases hc with hc | rfl
        · exact h1 c hc
        · exact ⟨fun h => by rw [h] at hncomp; simp at hncomp, hnd⟩
      · rw [List.pairwise_append]
        refine ⟨h2, by simp, ?_⟩
        intro a ha b hb x hx hxb
        simp only [List.mem_singleton] at hb; subst hb
        have : n ∈ a := (h4 a ha x hx n).2 (undirected_symm ((hcomp x).1 hxb))
        exact h5 n hm a ha this
      · intro x
        simp only [List.mem_filter, List.mem_append, List.mem_singleton, decide_eq_true_eq]
        constructor
        · intro hx
          by_cases hxc : x ∈ comp
          · exact Or.inr ⟨comp, Or.inr rfl, hxc⟩
          · rcases (h3 x).1 hx with h6 | ⟨c, hc, h6⟩
            · refine Or.inl ⟨⟨h6, ?_⟩, hxc⟩
              simp only [ne_eq]; intro h; subst h; exact hxc hncomp
            · exact Or.inr ⟨c, Or.inl hc, h6⟩
        · rintro (hx | ⟨c, hc | rfl, hx⟩)
          · exact (h3 x).2 (Or.inl hx.1.1)
          · exact (h3 x).2 (Or.inr ⟨c, hc, hx⟩)
          · exact Reach.closed (fun x => x ∈ U) hnU (fun b c _ hc => hWU b c hc) ((hcomp x).1 hx)
      · intro c hc x hx y
        simp only [List.mem_append, List.mem_singleton] at hc
        rcases hc with hc | rfl
        · exact h4 c hc x hx y
        · have hnx := (hcomp x).1 hx
          rw [hcomp]
          exact ⟨fun h => (undirected_symm hnx).trans h, fun h => hnx.trans h⟩
      · intro x hx c hc
        simp only [List.mem_filter, List.mem_append, List.mem_singleton, decide_eq_true_eq] at hx hc
        rcases hc with hc | rfl
        · exact h5 x hx.1.1 c hc
        · exact hx.2
      · simp only
        refine Nat.lt_of_le_of_lt (List.length_filter_le _ _) ?_
        rw [List.length_filter_lt_length_iff_exists]
        exact ⟨n, hm, by simp⟩
  · exact ⟨by simp, by simp, by simp, by simp, by simp⟩

end GT

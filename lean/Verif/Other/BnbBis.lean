import Verif.Other.Bnb
import Verif.Other.GraphHash
import Verif.Bisect
/-
`tsp_branch_and_bound` with `insort` as a binary search (Bisect), and its equality with the model of Other/Bnb: both queues are always sorted.
-/
namespace GT
variable {α O : Type} [DecidableEq α]

/-- like `pyWhile_congr`, for loops whose body may diverge -/
theorem pyWhileD_congr {σ ρ : Type} {step step' : σ → Option (σ ⊕ ρ)} (I : σ → Prop) (h : ∀ s, I s → step s = step' s)
    (hI : ∀ s s', I s → step s = some (.inl s') → I s') {s : σ} (hs : I s) : pyWhileD step s = pyWhileD step' s := by
  have one : ∀ (st st' : σ → Option (σ ⊕ ρ)), (∀ s, I s → st s = st' s) → (∀ s s', I s → st s = some (.inl s') → I s') →
      ∀ s r, pyWhileD st s = some r → I s → pyWhileD st' s = some r := by
    intro st st' h hI s r hr
    refine pyWhileD.partial_correctness st (fun s r => I s → pyWhileD st' s = some r) ?_ s r hr
    intro f ih s r hr hs
    rw [pyWhileD_eq]
    rw [h s hs] at hr
    split at hr
    · cases hr
    · rename_i s' hs'
      exact ih s' r hr (hI s s' hs ((h s hs).trans hs'))
    · exact hr
  cases h1 : pyWhileD step s with
  | some r => exact (one step step' h hI s r h1 hs).symm
  | none =>
    cases h2 : pyWhileD step' s with
    | none => rfl
    | some r =>
      have := one step' step (fun s hs => (h s hs).symm) (fun s s' hs h' => hI s s' hs ((h s hs).trans h')) s r h2 hs
      rw [h1] at this; cases this

theorem insortR_eq {β : Type} (lt : β → β → Bool) (x : β) (l : List β) : insortR lt x l = insertBehind lt x l := by
  induction l with
  | nil => rfl
  | cons y l ih => unfold insortR insertBehind; rw [ih]

/-- the initial queue (tsp.py:45-56), with the binary search -/
def bnbInitB (nlt : α → α → Bool) (it : SetOrders α) (g : Graph α Rat O) (start : α) : List (BnbEntry α) :=
  (g.edgesFrom start).foldl (fun q e =>
    insortB (bnbLt nlt) (.fin (e.2.2 + lowerBound nlt it g [start] (g.nodeList.filter (fun x => decide (x ≠ start)))), -2, [start, e.2.1]) q) []

/-- the loop over `remaining_nodes` (tsp.py:75-90), with the binary search -/
def bnbExpandB (nlt : α → α → Bool) (it : SetOrders α) (g : Graph α Rat O) (tour rem : List α) :
    List α → List (BnbEntry α) → Option (Py (List (BnbEntry α)))
  | [], q => some (.ok q)
  | n2 :: l, q => match bnbChild nlt it g tour rem n2 with
    | none => none
    | some (.error e) => some (.error e)
    | some (.ok x) => bnbExpandB nlt it g tour rem l (insortB (bnbLt nlt) x q)

/-- the body of `while q` (tsp.py:59-90), with the binary search -/
def bnbStepB (nlt : α → α → Bool) (it : SetOrders α) (g : Graph α Rat O) (glb : Rat) (s : BnbSt α) : Option (BnbSt α ⊕ Py (Ext × List α)) :=
  match s.q with
  | [] => some (.inr (.ok (.inf, [])))
  | (d, _, tour) :: q =>
    if coversB g.nodeList tour = true then
      if s.hit < g.nodeList.length then some (.inl ⟨q, s.hit + 1, insortB (bnb2Lt nlt) (d, tour) s.q2⟩)
      else match s.q2 with
        | [] => some (.inr (.error .indexError))
        | (d, tour) :: _ => if d.ltB (.fin glb) then some (.inr (.error .assertionError)) else some (.inr (.ok (d, tour.dropLast)))
    else
      let rem := it.rem tour (g.nodeList.filter (fun x => decide (x ∉ tour)))
      match bnbExpandB nlt it g tour rem rem q with
      | none => none
      | some (.error e) => some (.inr (.error e))
      | some (.ok q) => some (.inl ⟨q, s.hit, s.q2⟩)

/-- `tsp_branch_and_bound` (tsp.py:9-92), with the binary search -/
def bnbB (nlt : α → α → Bool) (it : SetOrders α) (g : Graph α Rat O) : Option (Py (Ext × List α)) :=
  match g.nodeList with
  | [] => some (.error .indexError)
  | start :: _ => pyWhileD (bnbStepB nlt it g (lowerBound nlt it g [] g.nodeList)) ⟨bnbInitB nlt it g start, 0, []⟩

/-! ### the orders of the queues -/

theorem lexLt_total {nlt : α → α → Bool} (ho : TotalOrder nlt) : TotalOrder (lexLt nlt) where
  irrefl l := by
    induction l with
    | nil => rfl
    | cons a l ih => simp [lexLt, ho.irrefl, ih]
  trans := by
    intro a
    induction a with
    | nil =>
      intro b c h1 h2
      cases b with
      | nil => simp [lexLt] at h1
      | cons y b => cases c with
        | nil => simp [lexLt] at h2
        | cons z c => rfl
    | cons x a ih =>
      intro b c h1 h2
      cases b with
      | nil => simp [lexLt] at h1
      | cons y b => cases c with
        | nil => simp [lexLt] at h2
        | cons z c =>
          simp only [lexLt, Bool.or_eq_true, Bool.and_eq_true, decide_eq_true_eq] at h1 h2 ⊢
          rcases h1 with h1 | ⟨h1, h1'⟩
          · rcases h2 with h2 | ⟨h2, _⟩
            · exact .inl (ho.trans _ _ _ h1 h2)
            · subst h2; exact .inl h1
          · subst h1
            rcases h2 with h2 | ⟨h2, h2'⟩
            · exact .inl h2
            · exact .inr ⟨h2, ih _ _ h1' h2'⟩
  total := by
    intro a
    induction a with
    | nil =>
      intro b h
      cases b with
      | nil => exact absurd rfl h
      | cons y b => exact .inl rfl
    | cons x a ih =>
      intro b h
      cases b with
      | nil => exact .inr rfl
      | cons y b =>
        simp only [lexLt, Bool.or_eq_true, Bool.and_eq_true, decide_eq_true_eq]
        by_cases hxy : x = y
        · subst hxy
          rcases ih b (fun hh => h (by rw [hh])) with h' | h'
          · exact .inl (.inr ⟨rfl, h'⟩)
          · exact .inr (.inr ⟨rfl, h'⟩)
        · rcases ho.total x y hxy with h' | h'
          · exact .inl (.inl h')
          · exact .inr (.inl h')

/-- pairs, compared by the first component and then by the second -/
theorem TotalOrder.pair {A B : Type} [DecidableEq A] {la : A → A → Bool} {lb : B → B → Bool} (ha : TotalOrder la) (hb : TotalOrder lb) :
    TotalOrder (fun x y : A × B => la x.1 y.1 || (decide (x.1 = y.1) && lb x.2 y.2)) where
  irrefl x := by simp [ha.irrefl, hb.irrefl]
  trans x y z h1 h2 := by
    simp only [Bool.or_eq_true, Bool.and_eq_true, decide_eq_true_eq] at h1 h2 ⊢
    rcases h1 with h1 | ⟨h1, h1'⟩
    · rcases h2 with h2 | ⟨h2, _⟩
      · exact .inl (ha.trans _ _ _ h1 h2)
      · rw [← h2]; exact .inl h1
    · rw [h1]
      rcases h2 with h2 | ⟨h2, h2'⟩
      · exact .inl h2
      · exact .inr ⟨h2, hb.trans _ _ _ h1' h2'⟩
  total x y h := by
    simp only [Bool.or_eq_true, Bool.and_eq_true, decide_eq_true_eq]
    by_cases hxy : x.1 = y.1
    · rcases hb.total x.2 y.2 (fun hh => h (Prod.ext hxy hh)) with h' | h'
      · exact .inl (.inr ⟨hxy, h'⟩)
      · exact .inr (.inr ⟨hxy.symm, h'⟩)
    · rcases ha.total _ _ hxy with h' | h'
      · exact .inl (.inl h')
      · exact .inr (.inl h')

theorem extLtB_total : TotalOrder Ext.ltB where
  irrefl a := by cases a <;> simp [Ext.ltB, Ext.gt, gtExt]
  trans a b c := by cases a <;> cases b <;> cases c <;> simp [Ext.ltB, Ext.gt, gtExt] <;> grind
  total a b := by cases a <;> cases b <;> simp [Ext.ltB, Ext.gt, gtExt] <;> grind

theorem intLt_total : TotalOrder (fun a b : Int => decide (a < b)) where
  irrefl a := by simp
  trans a b c := by simp; omega
  total a b := by simp; omega

theorem bnbLt_total {nlt : α → α → Bool} (ho : TotalOrder nlt) : TotalOrder (bnbLt nlt) :=
  extLtB_total.pair (intLt_total.pair (lexLt_total ho))

theorem bnb2Lt_total {nlt : α → α → Bool} (ho : TotalOrder nlt) : TotalOrder (bnb2Lt nlt) := extLtB_total.pair (lexLt_total ho)

/-- `insort` into a sorted list -/
theorem insortB_total {β : Type} [DecidableEq β] {lt : β → β → Bool} (ho : TotalOrder lt) (x : β) {l : List β} (hs : l.Pairwise (fun a b => lt b a = false)) :
    insortB lt x l = insortR lt x l ∧ (insortR lt x l).Pairwise (fun a b => lt b a = false) := by
  rw [insortR_eq, insortB_eq ho.ntrans ho.asymm x hs]
  exact ⟨rfl, insertBehind_pairwise ho.ntrans ho.asymm x hs⟩

theorem bnbInitB_eq {nlt : α → α → Bool} (ho : TotalOrder nlt) (it : SetOrders α) (g : Graph α Rat O) (start : α) :
    bnbInitB nlt it g start = bnbInit nlt it g start ∧ (bnbInit nlt it g start).Pairwise (fun a b => bnbLt nlt b a = false) := by
  unfold bnbInitB bnbInit
  have key : ∀ (l : List (α × α × Rat)) (f : α × α × Rat → BnbEntry α) (q : List (BnbEntry α)), q.Pairwise (fun a b => bnbLt nlt b a = false) →
      l.foldl (fun q e => insortB (bnbLt nlt) (f e) q) q = l.foldl (fun q e => insortR (bnbLt nlt) (f e) q) q ∧
      (l.foldl (fun q e => insortR (bnbLt nlt) (f e) q) q).Pairwise (fun a b => bnbLt nlt b a = false) := by
    intro l f
    induction l with
    | nil => intro q hq; exact ⟨rfl, hq⟩
    | cons e l ih =>
      intro q hq
      obtain ⟨h1, h2⟩ := insortB_total (bnbLt_total ho) (f e) hq
      simp only [List.foldl_cons]
      rw [h1]
      exact ih _ h2
  exact key _ _ [] List.Pairwise.nil

theorem bnbExpandB_eq {nlt : α → α → Bool} (ho : TotalOrder nlt) (it : SetOrders α) (g : Graph α Rat O) (tour rem : List α) (l : List α) :
    ∀ q, q.Pairwise (fun a b => bnbLt nlt b a = false) →
      bnbExpandB nlt it g tour rem l q = bnbExpand nlt it g tour rem l q ∧
      ∀ q', bnbExpand nlt it g tour rem l q = some (.ok q') → q'.Pairwise (fun a b => bnbLt nlt b a = false) := by
  induction l with
  | nil => intro q hq; exact ⟨rfl, fun q' h => by cases h; exact hq⟩
  | cons n2 l ih =>
    intro q hq
    unfold bnbExpandB bnbExpand
    match bnbChild nlt it g tour rem n2 with
    | none => exact ⟨rfl, fun q' h => by cases h⟩
    | some (.error e) => exact ⟨rfl, fun q' h => by cases h⟩
    | some (.ok x) =>
      obtain ⟨h1, h2⟩ := insortB_total (bnbLt_total ho) x hq
      dsimp only
      rw [h1]
      exact ih _ h2

/-- the binary search makes no difference: the queues are always sorted -/
theorem bnbB_eq {nlt : α → α → Bool} (ho : TotalOrder nlt) (it : SetOrders α) (g : Graph α Rat O) : bnbB nlt it g = bnb nlt it g := by
  unfold bnbB bnb
  cases hn : g.nodeList with
  | nil => rfl
  | cons start rest =>
    dsimp only
    rw [← hn]
    clear hn
    obtain ⟨i1, i2⟩ := bnbInitB_eq ho it g start
    rw [i1]
    have hstep : ∀ s : BnbSt α, s.q.Pairwise (fun a b => bnbLt nlt b a = false) ∧ s.q2.Pairwise (fun a b => bnb2Lt nlt b a = false) →
        bnbStepB nlt it g (lowerBound nlt it g [] g.nodeList) s = bnbStep nlt it g (lowerBound nlt it g [] g.nodeList) s ∧
        ∀ s', bnbStep nlt it g (lowerBound nlt it g [] g.nodeList) s = some (.inl s') →
          s'.q.Pairwise (fun a b => bnbLt nlt b a = false) ∧ s'.q2.Pairwise (fun a b => bnb2Lt nlt b a = false) := by
      intro s hs
      unfold bnbStepB bnbStep
      cases hq : s.q with
      | nil => exact ⟨rfl, fun s' h => by cases h⟩
      | cons x q =>
        obtain ⟨d, m, tour⟩ := x
        have hq' : q.Pairwise (fun a b => bnbLt nlt b a = false) := by
          have := hs.1; rw [hq] at this; exact (List.pairwise_cons.1 this).2
        dsimp only
        split
        · split
          · obtain ⟨h1, h2⟩ := insortB_total (bnb2Lt_total ho) (d, tour) hs.2
            rw [h1]
            exact ⟨rfl, fun s' h => by cases h; exact ⟨hq', h2⟩⟩
          · refine ⟨rfl, fun s' h => ?_⟩
            split at h
            · cases h
            · split at h <;> cases h
        · obtain ⟨h1, h2⟩ := bnbExpandB_eq ho it g tour (it.rem tour (g.nodeList.filter (fun x => decide (x ∉ tour))))
            (it.rem tour (g.nodeList.filter (fun x => decide (x ∉ tour)))) q hq'
          rw [h1]
          refine ⟨rfl, fun s' h => ?_⟩
          revert h
          split
          · intro h; cases h
          · intro h; cases h
          · rename_i q' hq2
            intro h; cases h
            exact ⟨h2 _ hq2, hs.2⟩
    exact pyWhileD_congr (fun s => s.q.Pairwise (fun a b => bnbLt nlt b a = false) ∧ s.q2.Pairwise (fun a b => bnb2Lt nlt b a = false))
      (fun s hs => (hstep s hs).1) (fun s s' hs h => (hstep s hs).2 s' ((hstep s hs).1 ▸ h)) ⟨i2, List.Pairwise.nil⟩

end GT

import Verif.Dag.Topo
/-
Model of `phase_lines` (graph/dag.py:5-89) and its analysis.
-/
namespace GT
variable {α V O : Type} [DecidableEq α]
open Graph

/-- the `for n1 in q` loop (dag.py:67-73): `(g2, phases, q2)`.  `in_degree` reads a defaultdict, so
the working graph is threaded through. -/
def phaseScan (k : Nat) : List α → Graph α V O × Dict α Nat × List α → Graph α V O × Dict α Nat × List α
  | [], s => s
  | n1 :: l, (g2, phases, q2) =>
    let r := g2.inDegree n1
    if r.1 ≠ 0 then phaseScan k l (r.2, phases, sadd q2 n1)
    else phaseScan k l (r.2, phases.set n1 k, saddAll q2 (r.2.nodesFrom n1))

/-- the locals of `phase_lines` -/
structure PhaseSt (α V O : Type) where
  g2 : Graph α V O
  q : List α
  phases : Dict α Nat
  k : Nat

/-- one iteration of `while q` (dag.py:66-88).  `ord k` is the iteration order of the set `q2`
(dag.py:86). -/
def phaseStep (ord : Nat → List α → List α) (s : PhaseSt α V O) : PhaseSt α V O ⊕ Py (Dict α Nat) :=
  if s.q = [] then .inr (.ok s.phases)
  else
    let (g2, phases, q2) := phaseScan s.k s.q (s.g2, s.phases, [])
    let g2 := g2.delNodes (s.q.filter (fun n => !decide (n ∈ q2)))
    if s.q.all (fun x => decide (x ∈ q2)) && q2.all (fun x => decide (x ∈ s.q)) then
      .inr (.error .attributeError)
    else .inl ⟨g2, ord s.k q2, phases, s.k + 1⟩

/-- `{n: nmax + 1 for n in graph.nodes()}` (dag.py:57) -/
def phaseInit (nodes : List α) : Dict α Nat :=
  nodes.foldl (fun d n => d.set n (nodes.length + 1)) .empty

/-- `phase_lines(graph)` (dag.py:5-89) -/
def Graph.phaseLines (ord : Nat → List α → List α) (g : Graph α V O) : Option (Py (Dict α Nat)) :=
  let g2 := g.copy
  let q := g2.nodesInDeg 0
  if q = [] then some (.error .attributeError)
  else pyWhile (phaseStep ord) ⟨g2, q, phaseInit g.nodeList, 0⟩

theorem inDegree_snd_of_mem {g : Graph α V O} (h : g.Inv) {n : α} (hn : g.has n = true) :
    (g.inDegree n).2 = g := by
  unfold inDegree ddRead
  rw [h.inD n (by unfold Graph.has at hn; rw [Dict.contains_iff_keys] at hn; exact hn)]

theorem inDegree_fst_zero {g : Graph α V O} (h : g.Inv) (n : α) :
    (g.inDegree n).1 = 0 ↔ ∀ a, ¬ g.Adj a n := by
  rw [h.inDegree_eq]
  have h2 : ∀ a, a ∈ g.nodesTo n ↔ g.Adj a n := fun a => h.mem_nodesTo
  simp only [← h2]
  cases g.nodesTo n with
  | nil => simp
  | cons a l =>
    constructor
    · intro h; simp only [List.length_cons] at h; omega
    · intro h; exact absurd (List.mem_cons_self) (h a)

theorem phaseScan_spec {g2 : Graph α V O} (h : g2.Inv) (k : Nat) (l : List α) (hl : ∀ x ∈ l, g2.has x = true)
    (phases : Dict α Nat) (q2 : List α) :
    ∃ ph' q2', phaseScan k l (g2, phases, q2) = (g2, ph', q2') ∧
      (∀ x, x ∈ l → (∀ a, ¬ g2.Adj a x) → ph'.get? x = some k) ∧
      (∀ x, ¬ (x ∈ l ∧ ∀ a, ¬ g2.Adj a x) → ph'.get? x = phases.get? x) ∧
      (∀ x, x ∈ q2' ↔ x ∈ q2 ∨ (x ∈ l ∧ ¬ ∀ a, ¬ g2.Adj a x) ∨
        ∃ n, n ∈ l ∧ (∀ a, ¬ g2.Adj a n) ∧ g2.Adj n x) ∧
      (q2.Nodup → q2'.Nodup) := by
  induction l generalizing phases q2 with
  | nil => exact ⟨phases, q2, rfl, by simp, by simp, by simp, id⟩
  | cons n l ih =>
    unfold phaseScan
    simp only [inDegree_snd_of_mem h (hl n (by simp))]
    by_cases hz : (g2.inDegree n).1 = 0
    · have hz' := (inDegree_fst_zero h n).1 hz
      rw [if_neg (by simpa using hz)]
      obtain ⟨ph', q2', h1, h2, h3, h4, h4n⟩ := ih (fun x hx => hl x (List.mem_cons_of_mem _ hx))
        (phases.set n k) (saddAll q2 (g2.nodesFrom n))
      refine ⟨ph', q2', h1, ?_, ?_, ?_, fun hn => h4n (nodup_saddAll hn)⟩
      · intro x hx hxa
        by_cases hxl : x ∈ l
        · exact h2 x hxl hxa
        · rw [h3 x (fun hh => hxl hh.1)]
          have : x = n := by rcases List.mem_cons.1 hx with h5 | h5; exact h5; exact absurd h5 hxl
          subst this; simp
      · intro x hx
        rw [h3 x (fun hh => hx ⟨List.mem_cons_of_mem _ hh.1, hh.2⟩)]
        rw [Dict.get?_set_ne]
        rintro rfl
        exact hx ⟨by simp, hz'⟩
      · intro x
        rw [h4, mem_saddAll, mem_nodesFrom]
        show (x ∈ q2 ∨ g2.Adj n x) ∨ _ ↔ _
        simp only [List.mem_cons]
        constructor
        · rintro ((h5 | h5) | h5 | ⟨m, h5, h6, h7⟩)
          · exact .inl h5
          · exact .inr (.inr ⟨n, .inl rfl, hz', h5⟩)
          · exact .inr (.inl ⟨.inr h5.1, h5.2⟩)
          · exact .inr (.inr ⟨m, .inr h5, h6, h7⟩)
        · rintro (h5 | ⟨rfl | h5, h6⟩ | ⟨m, rfl | h5, h6, h7⟩)
          · exact .inl (.inl h5)
          · exact absurd hz' h6
          · exact .inr (.inl ⟨h5, h6⟩)
          · exact .inl (.inr h7)
          · exact .inr (.inr ⟨m, h5, h6, h7⟩)
    · have hz' : ¬ ∀ a, ¬ g2.Adj a n := fun hh => hz ((inDegree_fst_zero h n).2 hh)
      rw [if_pos hz]
      obtain ⟨ph', q2', h1, h2, h3, h4, h4n⟩ := ih (fun x hx => hl x (List.mem_cons_of_mem _ hx))
        phases (sadd q2 n)
      refine ⟨ph', q2', h1, ?_, ?_, ?_, fun hn => h4n (nodup_sadd hn)⟩
      · intro x hx hxa
        rcases List.mem_cons.1 hx with rfl | hx
        · exact absurd hxa hz'
        · exact h2 x hx hxa
      · intro x hx
        exact h3 x (fun hh => hx ⟨List.mem_cons_of_mem _ hh.1, hh.2⟩)
      · intro x
        rw [h4, mem_sadd]
        simp only [List.mem_cons]
        constructor
        · rintro ((rfl | h5) | h5 | ⟨m, h5, h6, h7⟩)
          · exact .inr (.inl ⟨.inl rfl, hz'⟩)
          · exact .inl h5
          · exact .inr (.inl ⟨.inr h5.1, h5.2⟩)
          · exact .inr (.inr ⟨m, .inr h5, h6, h7⟩)
        · rintro (h5 | ⟨rfl | h5, h6⟩ | ⟨m, rfl | h5, h6, h7⟩)
          · exact .inl (.inr h5)
          · exact .inl (.inl rfl)
          · exact .inr (.inl ⟨h5, h6⟩)
          · exact absurd h6 hz'
          · exact .inr (.inr ⟨m, h5, h6, h7⟩)

/-- the longest chain of `R` that ends in `x` has exactly `n` edges -/
def ChainLevel (R : α → α → Prop) (x : α) (n : Nat) : Prop :=
  (∃ a, Steps R n a x) ∧ ∀ m a, Steps R m a x → m ≤ n

/-- `x` is a source: a node without predecessor -/
def Graph.IsSource (g : Graph α V O) (x : α) : Prop := g.has x = true ∧ ∀ a, ¬ g.Adj a x

/-- `x` is on or behind a cycle -/
def BehindCycle (R : α → α → Prop) (x : α) : Prop := ∃ c, ReachPlus R c c ∧ Reach R c x

structure PhaseInv (g : Graph α V O) (s : PhaseSt α V O) (out : List α) : Prop where
  rem : Remaining g s.g2 out
  nd : out.Nodup
  sub : ∀ x ∈ out, g.has x = true
  ap : AfterPreds g.Adj out
  qmem : ∀ x ∈ s.q, g.has x = true ∧ x ∉ out ∧ ∃ a, g.IsSource a ∧ Reach g.Adj a x
  next : ∀ a x, a ∈ out → g.Adj a x → x ∈ out ∨ x ∈ s.q
  src : ∀ x, g.IsSource x → x ∈ out ∨ x ∈ s.q
  lev : ∀ x ∈ out, ∃ n, n < s.k ∧ s.phases.get? x = some n ∧ ChainLevel g.Adj x n
  wait : ∀ x, g.has x = true → x ∉ out → (∀ a, g.Adj a x → a ∈ out) →
    s.k = 0 ∨ ∃ a, g.Adj a x ∧ a ∈ out ∧ s.phases.get? a = some (s.k - 1)
  reach : ∀ x ∈ out, ∃ a, g.IsSource a ∧ Reach g.Adj a x
  other : ∀ x, x ∉ out → s.phases.get? x = if g.has x then some (g.nodeList.length + 1) else none

theorem phaseInit_get? (nodes : List α) (x : α) :
    (phaseInit nodes).get? x = if x ∈ nodes then some (nodes.length + 1) else none := by
  unfold phaseInit
  generalize nodes.length + 1 = v
  have : ∀ (l : List α) (d : Dict α Nat), (l.foldl (fun d n => d.set n v) d).get? x =
      if x ∈ l then some v else d.get? x := by
    intro l
    induction l with
    | nil => intro d; simp
    | cons y l ih =>
      intro d; simp only [List.foldl_cons, ih, Dict.get?_set, List.mem_cons]
      grind
  rw [this]; simp

theorem PhaseInv.init {g w : Graph α V O} (hr : Remaining g w []) {nl : List α} (hn : ∀ x, x ∈ nl ↔ g.has x = true)
    (hl : nl.length = g.nodeList.length) :
    PhaseInv g ⟨w, w.nodesInDeg 0, phaseInit nl, 0⟩ [] := by
  have hm : ∀ x, x ∈ w.nodesInDeg 0 ↔ g.IsSource x := by
    intro x; rw [hr.mem_sources]; unfold IsSource; simp
  refine ⟨hr, by simp, by simp, ?_, ?_, by simp, ?_, by simp, ?_, by simp, ?_⟩
  · intro l1 x l2 he; simp at he
  · intro x hx; rw [hm] at hx; exact ⟨hx.1, by simp, x, hx, .refl _⟩
  · intro x hx; exact .inr ((hm x).2 hx)
  · intro x _ _ _; exact .inl rfl
  · intro x _; simp only [phaseInit_get?, hn, hl]

/-- one round: it raises exactly if every queued node still waits, otherwise it settles a level -/
theorem phase_round {g : Graph α V O} {ord : Nat → List α → List α}
    (ho : ∀ t l, (ord t l).Perm l) {s : PhaseSt α V O} {out : List α}
    (hI : PhaseInv g s out) (hq : s.q ≠ []) (hqn : s.q.Nodup) :
    ((∀ x ∈ s.q, ∃ a, g.Adj a x ∧ a ∉ out) ∧ phaseStep ord s = .inr (.error .attributeError)) ∨
    (∃ s' out', phaseStep ord s = .inl s' ∧ PhaseInv g s' out' ∧ s'.q.Nodup ∧
      unvis g.nodeList out' < unvis g.nodeList out) := by
  obtain ⟨g2, q, phases, k⟩ := s
  simp only at hq hqn
  have hr := hI.rem
  simp only at hr
  have hqm := hI.qmem
  simp only at hqm
  obtain ⟨ph', q2, h1, h2, h3, h4, h5⟩ := phaseScan_spec hr.inv k q
    (fun x hx => (hr.has x).2 ⟨(hqm x hx).1, (hqm x hx).2.1⟩) phases []
  have h5 := h5 (by simp)
  have hnp : ∀ x ∈ q, (∀ a, ¬ g2.Adj a x) ↔ ∀ a, g.Adj a x → a ∈ out := by
    intro x hx
    simp only [hr.adj]
    have := (hqm x hx).2.1
    constructor
    · intro h6 a ha; have := h6 a; grind
    · intro h6 a ha; exact ha.2.1 (h6 a ha.1)
  have hz : ∀ x ∈ q, x ∉ q2 ↔ ∀ a, g.Adj a x → a ∈ out := by
    intro x hx
    rw [← hnp x hx, h4]
    constructor
    · intro h6
      apply Classical.byContradiction
      intro h7; exact h6 (.inr (.inl ⟨hx, h7⟩))
    · rintro h6 (h7 | h7 | ⟨n, h7, h8, h9⟩)
      · cases h7
      · exact h7.2 h6
      · exact h6 n h9
  have hstep : phaseStep ord (⟨g2, q, phases, k⟩ : PhaseSt α V O) =
      if q.all (fun x => decide (x ∈ q2)) && q2.all (fun x => decide (x ∈ q)) then
        .inr (.error .attributeError)
      else .inl ⟨g2.delNodes (q.filter (fun n => !decide (n ∈ q2))), ord k q2, ph', k + 1⟩ := by
    unfold phaseStep
    simp only [if_neg hq, h1]
  by_cases hall : ∀ x ∈ q, x ∈ q2
  · left
    have hnz : ∀ x ∈ q, ¬ ∀ a, g.Adj a x → a ∈ out := fun x hx h6 => (hz x hx).2 h6 (hall x hx)
    constructor
    · intro x hx
      apply Classical.byContradiction
      intro h6
      apply hnz x hx
      intro a ha
      apply Classical.byContradiction
      intro h7; exact h6 ⟨a, ha, h7⟩
    · rw [hstep, if_pos]
      simp only [Bool.and_eq_true, List.all_eq_true, decide_eq_true_eq]
      refine ⟨hall, fun x hx => ?_⟩
      rw [h4] at hx
      rcases hx with h7 | h7 | ⟨n, h7, h8, h9⟩
      · cases h7
      · exact h7.1
      · exact absurd ((hnp n h7).1 h8) (hnz n h7)
  · right
    let Z := q.filter (fun n => !decide (n ∈ q2))
    have hZ : ∀ x, x ∈ Z ↔ x ∈ q ∧ ∀ a, g.Adj a x → a ∈ out := by
      intro x
      show x ∈ q.filter _ ↔ _
      rw [List.mem_filter]
      constructor
      · rintro ⟨h6, h7⟩; exact ⟨h6, (hz x h6).1 (by simpa using h7)⟩
      · rintro ⟨h6, h7⟩; exact ⟨h6, by simpa using (hz x h6).2 h7⟩
    have hZo : ∀ x ∈ Z, x ∉ out := fun x hx => (hqm x ((hZ x).1 hx).1).2.1
    have hZp : ∀ x ∈ Z, ph'.get? x = some k := fun x hx =>
      h2 x ((hZ x).1 hx).1 ((hnp x ((hZ x).1 hx).1).2 ((hZ x).1 hx).2)
    have hnZp : ∀ x, x ∉ Z → ph'.get? x = phases.get? x := by
      intro x hx
      apply h3
      rintro ⟨h6, h7⟩
      exact hx ((hZ x).2 ⟨h6, (hnp x h6).1 h7⟩)
    have hq2 : ∀ x, x ∈ q2 ↔ (x ∈ q ∧ x ∉ Z) ∨ ∃ n ∈ Z, g.Adj n x ∧ x ∉ out := by
      intro x
      rw [h4]
      constructor
      · rintro (h7 | h7 | ⟨n, h7, h8, h9⟩)
        · cases h7
        · left; refine ⟨h7.1, fun h8 => h7.2 ?_⟩
          exact (hnp x h7.1).2 ((hZ x).1 h8).2
        · right
          rw [hr.adj] at h9
          exact ⟨n, (hZ n).2 ⟨h7, (hnp n h7).1 h8⟩, h9.1, h9.2.2⟩
      · rintro (⟨h6, h7⟩ | ⟨n, h6, h7, h8⟩)
        · exact .inr (.inl ⟨h6, fun h8 => h7 ((hZ x).2 ⟨h6, (hnp x h6).1 h8⟩)⟩)
        · have h9 := (hZ n).1 h6
          exact .inr (.inr ⟨n, h9.1, (hnp n h9.1).2 h9.2, (hr.adj n x).2 ⟨h7, hZo n h6, h8⟩⟩)
    have hmem : ∀ x, x ∈ ord k q2 ↔ x ∈ q2 := fun x => (ho k q2).mem_iff
    -- every remaining node whose predecessors are all settled is in the queue
    have hready : ∀ x, g.has x = true → x ∉ out → (∀ a, g.Adj a x → a ∈ out) → x ∈ q := by
      intro x hx hxo hxp
      by_cases hs : ∃ a, g.Adj a x
      · obtain ⟨a, ha⟩ := hs
        exact (hI.next a x (hxp a ha) ha).resolve_left hxo
      · exact (hI.src x ⟨hx, fun a ha => hs ⟨a, ha⟩⟩).resolve_left hxo
    have hstep' : phaseStep ord (⟨g2, q, phases, k⟩ : PhaseSt α V O) =
        .inl ⟨g2.delNodes Z, ord k q2, ph', k + 1⟩ := by
      rw [hstep, if_neg]
      simp only [Bool.and_eq_true, List.all_eq_true, decide_eq_true_eq]
      exact fun hh => hall hh.1
    refine ⟨_, out ++ Z, hstep', ⟨hr.delNodes Z, ?_, ?_, ?_, ?_, ?_, ?_, ?_, ?_, ?_, ?_⟩,
      (ho k q2).nodup_iff.2 h5, ?_⟩
    · rw [List.nodup_append]
      refine ⟨hI.nd, hqn.sublist List.filter_sublist, ?_⟩
      rintro a ha b hb rfl
      exact hZo a hb ha
    · intro x hx
      rcases List.mem_append.1 hx with hx | hx
      · exact hI.sub x hx
      · exact (hqm x ((hZ x).1 hx).1).1
    · exact hI.ap.append (fun x hx a ha => ((hZ x).1 hx).2 a ha)
    · intro x hx
      simp only [hmem] at hx
      rcases (hq2 x).1 hx with ⟨h6, h7⟩ | ⟨n, h6, h7, h8⟩
      · refine ⟨(hqm x h6).1, ?_, (hqm x h6).2.2⟩
        rw [List.mem_append, not_or]; exact ⟨(hqm x h6).2.1, h7⟩
      · have hn := hqm n ((hZ n).1 h6).1
        refine ⟨?_, ?_, ?_⟩
        · have := (hr.adj n x).2 ⟨h7, hZo n h6, h8⟩
          have := (hr.inv.finite n x this).2
          exact ((hr.has x).1 (has_iff.2 this)).1
        · rw [List.mem_append, not_or]
          refine ⟨h8, fun h9 => ?_⟩
          exact hZo n h6 (((hZ x).1 h9).2 n h7)
        · obtain ⟨a, ha, hra⟩ := hn.2.2
          exact ⟨a, ha, hra.tail h7⟩
    · intro a x ha hax
      simp only [hmem, List.mem_append]
      by_cases hxo : x ∈ out
      · exact .inl (.inl hxo)
      · rcases List.mem_append.1 ha with ha | ha
        · have := (hI.next a x ha hax).resolve_left hxo
          simp only at this
          by_cases hxZ : x ∈ Z
          · exact .inl (.inr hxZ)
          · exact .inr ((hq2 x).2 (.inl ⟨this, hxZ⟩))
        · exact .inr ((hq2 x).2 (.inr ⟨a, ha, hax, hxo⟩))
    · intro x hx
      simp only [hmem, List.mem_append]
      rcases hI.src x hx with h6 | h6
      · exact .inl (.inl h6)
      · left; right
        exact (hZ x).2 ⟨h6, fun a ha => absurd ha (hx.2 a)⟩
    · intro x hx
      by_cases hxZ : x ∈ Z
      · refine ⟨k, Nat.lt_succ_self k, hZp x hxZ, ?_, ?_⟩
        · have hxq := (hZ x).1 hxZ
          rcases hI.wait x (hqm x hxq.1).1 (hqm x hxq.1).2.1 hxq.2 with h6 | ⟨a, h6, h7, h8⟩
          · simp only at h6; subst h6; exact ⟨x, .zero x⟩
          · obtain ⟨n, h9, h10, h11, _⟩ := hI.lev a h7
            simp only at h8 h9 h10
            rw [h8] at h10
            have : n = k - 1 := (Option.some.inj h10).symm
            obtain ⟨b, hb⟩ := h11
            refine ⟨b, ?_⟩
            have h12 := Steps.succ hb h6
            rwa [show n + 1 = k by omega] at h12
        · intro m a hm
          cases hm with
          | zero => omega
          | succ hm hb =>
            rename_i m b
            obtain ⟨n, h9, _, _, h11⟩ := hI.lev b (((hZ x).1 hxZ).2 b hb)
            have := h11 _ _ hm
            simp only at h9; omega
      · have hxo : x ∈ out := (List.mem_append.1 hx).resolve_right hxZ
        obtain ⟨n, h6, h7, h8⟩ := hI.lev x hxo
        exact ⟨n, Nat.lt_succ_of_lt h6, by rw [hnZp x hxZ]; exact h7, h8⟩
    · intro x hx hxo hxp
      right
      rw [List.mem_append, not_or] at hxo
      apply Classical.byContradiction
      intro hno
      have hall : ∀ a, g.Adj a x → a ∈ out := by
        intro a ha
        rcases List.mem_append.1 (hxp a ha) with h6 | h6
        · exact h6
        · exact absurd ⟨a, ha, List.mem_append_right _ h6, hZp a h6⟩ hno
      exact hxo.2 ((hZ x).2 ⟨hready x hx hxo.1 hall, hall⟩)
    · intro x hx
      rcases List.mem_append.1 hx with hx | hx
      · exact hI.reach x hx
      · exact (hqm x ((hZ x).1 hx).1).2.2
    · intro x hx
      rw [List.mem_append, not_or] at hx
      simp only
      rw [hnZp x hx.2]; exact hI.other x hx.1
    · have : ∃ x, x ∈ q ∧ x ∉ q2 := by
        apply Classical.byContradiction
        intro hno
        exact hall (fun x hx => Classical.byContradiction (fun h6 => hno ⟨x, hx, h6⟩))
      obtain ⟨x, hx, hx2⟩ := this
      have hxZ : x ∈ Z := (hZ x).2 ⟨hx, (hz x hx).1 hx2⟩
      exact unvis_lt (fun y hy => List.mem_append_left _ hy) (has_iff.1 (hqm x hx).1)
        (hqm x hx).2.1 (List.mem_append_right _ hxZ)

omit [DecidableEq α] in
/-- every node of a finite relation that is not behind a cycle is reachable from a source -/
theorem source_of_not_behind {R : α → α → Prop} {U : List α} (hU : FiniteOn R U) {x : α}
    (hx : ¬ BehindCycle R x) : ∃ a, (∀ b, ¬ R b a) ∧ Reach R a x := by
  apply Classical.byContradiction
  intro hno
  apply hx
  apply behind_cycle hU (fun y => Reach R y x)
  · intro y hy
    apply Classical.byContradiction
    intro h1
    exact hno ⟨y, fun b hb => h1 ⟨b, hb, Reach.head hb hy⟩, hy⟩
  · exact .refl _

/-- what `phase_lines` may return on `g` -/
def PhaseResult (g : Graph α V O) (r : Py (Dict α Nat)) : Prop :=
  (((¬ ∃ a, g.IsSource a) ∨ (∃ a x, g.IsSource a ∧ Reach g.Adj a x ∧ BehindCycle g.Adj x)) →
    r = .error .attributeError) ∧
  ((∃ a, g.IsSource a) → (∀ a x, g.IsSource a → Reach g.Adj a x → ¬ BehindCycle g.Adj x) →
    ∃ ph, r = .ok ph ∧ (∀ x, x ∈ ph.keys ↔ g.has x = true) ∧
      (∀ x, g.has x = true → ¬ BehindCycle g.Adj x →
        ∃ n, ph.get? x = some n ∧ ChainLevel g.Adj x n) ∧
      (∀ x, g.has x = true → BehindCycle g.Adj x → ph.get? x = some (g.nodeList.length + 1)))

/-- `phase_lines` on a working copy `w` of the graph (dag.py:60-89); `nl` is `graph.nodes()` -/
def phaseRun (ord : Nat → List α → List α) (nl : List α) (w : Graph α V O) : Option (Py (Dict α Nat)) :=
  if w.nodesInDeg 0 = [] then some (.error .attributeError)
  else pyWhile (phaseStep ord) ⟨w, w.nodesInDeg 0, phaseInit nl, 0⟩

/-- exact behaviour of `phase_lines`, on any working copy of the graph -/
theorem phaseRun_spec {g w : Graph α V O} (h : g.Inv) (hr : Remaining g w []) {nl : List α} (hnl : ∀ x, x ∈ nl ↔ g.has x = true)
    (hlen : nl.length = g.nodeList.length) {ord : Nat → List α → List α} (ho : ∀ t l, (ord t l).Perm l) :
    ∃ r, phaseRun ord nl w = some r ∧ PhaseResult g r := by
  have hm : ∀ x, x ∈ w.nodesInDeg 0 ↔ g.IsSource x := by
    intro x; rw [hr.mem_sources]; unfold IsSource; simp
  unfold phaseRun
  by_cases hq : w.nodesInDeg 0 = []
  · simp only [hq, if_true]
    have hns : ¬ ∃ a, g.IsSource a := by
      rintro ⟨a, ha⟩; have := (hm a).2 ha; rw [hq] at this; cases this
    exact ⟨_, rfl, fun _ => rfl, fun hs => absurd hs hns⟩
  · simp only [hq, if_false]
    have hns : ∃ a, g.IsSource a := by
      obtain ⟨a, ha⟩ := List.exists_mem_of_ne_nil _ hq
      exact ⟨a, (hm a).1 ha⟩
    have key : ∀ n (s : PhaseSt α V O) out, PhaseInv g s out → s.q.Nodup → unvis g.nodeList out = n →
        ∃ r, pyWhile (phaseStep ord) s = some r ∧ PhaseResult g r := by
      intro n
      induction n using Nat.strongRecOn with
      | _ n ih =>
        intro s out hI hnd hn
        by_cases hqe : s.q = []
        · refine ⟨.ok s.phases, pyWhile_inr (by unfold phaseStep; rw [if_pos hqe]), ?_⟩
          have hcl : ∀ a x, g.IsSource a → Reach g.Adj a x → x ∈ out := by
            intro a x ha hax
            refine Reach.closed (fun y => y ∈ out) ?_ ?_ hax
            · exact (hI.src a ha).resolve_right (by simp [hqe])
            · intro b c hb hc; exact (hI.next b c hb hc).resolve_right (by simp [hqe])
          constructor
          · rintro (h1 | ⟨a, x, h1, h2, h3⟩)
            · exact absurd hns h1
            · exact absurd h3 (hI.ap.not_behind hI.nd (hcl a x h1 h2))
          · intro _ hno
            refine ⟨s.phases, rfl, ?_, ?_, ?_⟩
            · intro x
              rw [← Dict.get?_isSome_iff]
              by_cases hx : x ∈ out
              · obtain ⟨n, _, h2, _⟩ := hI.lev x hx
                rw [h2]; simp [hI.sub x hx]
              · rw [hI.other x hx]; split <;> simp_all
            · intro x hx hxb
              obtain ⟨a, h1, h2⟩ := source_of_not_behind h.finite hxb
              have ha : g.has a = true := by
                obtain ⟨m, hm⟩ := h2
                cases m with
                | zero => cases hm; exact hx
                | succ m =>
                  obtain ⟨b, hb, _⟩ := hm.head
                  exact has_iff.2 (h.finite a b hb).1
              obtain ⟨n, _, h4, h5⟩ := hI.lev x (hcl a x ⟨ha, h1⟩ h2)
              exact ⟨n, h4, h5⟩
            · intro x hx hxb
              rw [hI.other x (fun hxo => hI.ap.not_behind hI.nd hxo hxb), if_pos hx]
        · rcases phase_round ho hI hqe hnd with ⟨h1, h2⟩ | ⟨s', out', h1, h2, h3, h4⟩
          · refine ⟨_, pyWhile_inr h2, fun _ => rfl, ?_⟩
            intro _ hno
            exfalso
            obtain ⟨x, hx⟩ := List.exists_mem_of_ne_nil _ hqe
            obtain ⟨hxh, hxo, a, ha, hax⟩ := hI.qmem x hx
            refine hno a x ha hax (behind_cycle h.finite (fun y => g.has y = true ∧ y ∉ out) ?_ ⟨hxh, hxo⟩)
            rintro y ⟨hy, hyo⟩
            apply Classical.byContradiction
            intro hny
            have hall : ∀ b, g.Adj b y → b ∈ out := by
              intro b hb
              apply Classical.byContradiction
              intro hbo
              exact hny ⟨b, hb, has_iff.2 (h.finite b y hb).1, hbo⟩
            have hyq : y ∈ s.q := by
              by_cases hs : ∃ b, g.Adj b y
              · obtain ⟨b, hb⟩ := hs
                exact (hI.next b y (hall b hb) hb).resolve_left hyo
              · exact (hI.src y ⟨hy, fun b hb => hs ⟨b, hb⟩⟩).resolve_left hyo
            obtain ⟨b, hb, hbo⟩ := h1 y hyq
            exact hbo (hall b hb)
          · rw [pyWhile_inl h1]
            exact ih _ (hn ▸ h4) s' out' h2 h3 rfl
    exact key _ _ [] (PhaseInv.init hr hnl hlen) (hr.inv.nodup_nodesInDeg 0) rfl

/-- exact behaviour of `phase_lines` on every reachable graph -/
theorem phaseLines_spec {g : Graph α V O} (h : g.Inv) {ord : Nat → List α → List α}
    (ho : ∀ t l, (ord t l).Perm l) :
    ∃ r, g.phaseLines ord = some r ∧ PhaseResult g r :=
  phaseRun_spec h (Remaining.copy h) (fun _ => has_iff.symm) rfl ho

end GT

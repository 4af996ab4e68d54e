import Verif.Props.Relate
import Verif.Props.Sched
import Verif.Spec.Invariance
/-
Property theorems C95 - C97: the names of the nodes, the direction of the edges and the unit of the values do not matter (or matter in the
obvious way).
-/
namespace GT
open Graph
variable {α β V V' O O' : Type} [DecidableEq α] [DecidableEq β]

theorem shortestPath_isDist {g : Graph α Rat O} (hg : g.Built) (hw : NonNeg g.edge) {a b : α} (ha : g.has a = true) (hb : g.has b = true) :
    ∃ d p, g.shortestPath a b = some (.ok (d, p)) ∧ IsDist g.edge a b d := by
  obtain ⟨⟨d, p⟩, h1, h2⟩ := shortestPath_spec hg.inv hw [] ha hb
  exact ⟨d, p, h1, h2.isDist⟩

theorem isConnected_plus {g : Graph α V O} (hg : g.Built) (a b : α) : ∃ r, g.isConnected a b = some r ∧ (r = true ↔ ReachPlus g.Adj a b) := by
  obtain ⟨r, h1, h2⟩ := C12_is_connected hg a b
  exact ⟨r, h1, by rw [h2, reachPlus_iff_walk]⟩

theorem isConnected_congr {g : Graph α V O} {g' : Graph β V' O'} (hg : g.Built) (hg' : g'.Built) {a b : α} {a' b' : β}
    (h : ReachPlus g'.Adj a' b' ↔ ReachPlus g.Adj a b) : g'.isConnected a' b' = g.isConnected a b := by
  obtain ⟨r, h1, h2⟩ := isConnected_plus hg a b
  obtain ⟨r', h1', h2'⟩ := isConnected_plus hg' a' b'
  rw [h1, h1']
  congr 1
  rw [Bool.eq_iff_iff, h2, h2', h]

theorem hasCycles_congr {g : Graph α V O} {g' : Graph β V' O'} (hg : g.Built) (hg' : g'.Built) {srt : List α → List α} {srt' : List β → List β}
    (hs : ∀ l, (srt l).Perm l) (hs' : ∀ l, (srt' l).Perm l) (h : (∃ c, ReachPlus g'.Adj c c) ↔ ∃ c, ReachPlus g.Adj c c) :
    g'.hasCycles srt' = g.hasCycles srt := by
  obtain ⟨r, h1, h2⟩ := hasCycles_spec hg.inv hs
  obtain ⟨r', h1', h2'⟩ := hasCycles_spec hg'.inv hs'
  rw [h1, h1']
  congr 2
  rw [Bool.eq_iff_iff, h2, h2', h]

theorem degree_congr {g : Graph α V O} {g' : Graph β V' O'} (hg : g.Built) (hg' : g'.Built) {a b : α} {a' b' : β}
    (hab : (g'.has a' = true ∧ g'.has b' = true) ↔ (g.has a = true ∧ g.has b = true)) (h : ∀ n, Steps g'.Adj n a' b' ↔ Steps g.Adj n a b) :
    g'.degreeOfSeparation a' b' = g.degreeOfSeparation a b := by
  by_cases hh : g.has a = true ∧ g.has b = true
  · obtain ⟨d, h1, h2, h3⟩ := C15_degree_of_separation hg a b hh.1 hh.2
    obtain ⟨d', h1', h2', h3'⟩ := C15_degree_of_separation hg' a' b' (hab.2 hh).1 (hab.2 hh).2
    rw [h1, h1']
    congr 2
    by_cases hr : Reach g.Adj a b
    · obtain ⟨n, hn⟩ : ∃ n, HopDist g.Adj a b n := by
        obtain ⟨n, hn⟩ := hr
        induction n using Nat.strongRecOn with
        | _ n ih =>
          by_cases hm : ∃ m, m < n ∧ Steps g.Adj m a b
          · obtain ⟨m, hm1, hm2⟩ := hm; exact ih m hm1 hm2
          · exact ⟨n, hn, fun m hm' => Nat.le_of_not_lt fun hlt => hm ⟨m, hlt, hm'⟩⟩
      have e1 := (h2 n).2 hn
      have e2 := (h2' n).2 ⟨(h n).2 hn.1, fun m hm => hn.2 m ((h m).1 hm)⟩
      rw [e1, e2]
    · have e1 := h3.2 hr
      have e2 := h3'.2 (fun ⟨n, hn⟩ => hr ⟨n, (h n).1 hn⟩)
      rw [e1, e2]
  · have hx : g.has a = false ∨ g.has b = false := by
      cases h1 : g.has a <;> cases h2 : g.has b <;> simp_all
    have hh' : ¬ (g'.has a' = true ∧ g'.has b' = true) := fun h => hh (hab.1 h)
    have hx' : g'.has a' = false ∨ g'.has b' = false := by
      cases h1 : g'.has a' <;> cases h2 : g'.has b' <;> simp_all
    rw [C15_errors a b hx, C15_errors a' b' hx']

theorem renamed_adj {f : α → β} {g : Graph α V O} {g' : Graph β V O'}
    (h : Renamed f (fun x => g.has x = true) (fun y => g'.has y = true) g.edge g'.edge) (a b : α) : g'.Adj (f a) (f b) ↔ g.Adj a b := by
  unfold Adj; rw [h.edges]

theorem renamed_steps {f : α → β} {g : Graph α V O} {g' : Graph β V O'} (hg' : g'.Built)
    (h : Renamed f (fun x => g.has x = true) (fun y => g'.has y = true) g.edge g'.edge) {n : Nat} {a b : α} :
    Steps g'.Adj n (f a) (f b) ↔ Steps g.Adj n a b := by
  refine ⟨fun hs => hs.unrenamed h.inj (renamed_adj h) ?_, fun hs => hs.renamed (renamed_adj h)⟩
  intro x y hxy
  obtain ⟨z, _, hz⟩ := (h.nodes y).1 (has_iff.2 (hg'.inv.finite _ _ hxy).2)
  exact ⟨z, hz⟩

theorem renamed_has {f : α → β} {g : Graph α V O} {g' : Graph β V O'}
    (h : Renamed f (fun x => g.has x = true) (fun y => g'.has y = true) g.edge g'.edge) (a : α) : g'.has (f a) = g.has a := by
  rw [Bool.eq_iff_iff]
  refine (h.nodes (f a)).trans ⟨?_, fun hx => ⟨a, hx, rfl⟩⟩
  rintro ⟨x, hx, he⟩
  cases h.inj _ _ he; exact hx

theorem renamed_edge_mem {g : Graph α V O} (hg : g.Built) (x y : α) (c : V) (h : g.edge x y = some c) : g.has x = true ∧ g.has y = true := by
  obtain ⟨h1, h2⟩ := hg.inv.edge_mem h
  exact ⟨has_iff.2 h1, has_iff.2 h2⟩

/-! ### C95 -/

/-- **C95**. Renaming the nodes changes no answer: if `g'` is `g` with the nodes renamed by the one-to-one function `f`, whatever the histories
of the two graphs, then `is_connected`, `degree_of_separation` and `has_cycles` answer the same, and so do the distances of
`shortest_path`. -/
theorem C95_renaming {f : α → β} {g : Graph α Rat O} {g' : Graph β Rat O'} (hg : g.Built) (hg' : g'.Built)
    (h : Renamed f (fun x => g.has x = true) (fun y => g'.has y = true) g.edge g'.edge)
    {srt : List α → List α} {srt' : List β → List β} (hs : ∀ l, (srt l).Perm l) (hs' : ∀ l, (srt' l).Perm l) :
    (∀ a b, g'.isConnected (f a) (f b) = g.isConnected a b) ∧
    (∀ a b, g'.degreeOfSeparation (f a) (f b) = g.degreeOfSeparation a b) ∧
    g'.hasCycles srt' = g.hasCycles srt ∧
    (NonNeg g.edge → ∀ a b, g.has a = true → g.has b = true →
      ∃ d p p', g.shortestPath a b = some (.ok (d, p)) ∧ g'.shortestPath (f a) (f b) = some (.ok (d, p'))) := by
  refine ⟨fun a b => isConnected_congr hg hg' ?_, fun a b => degree_congr hg hg' (by rw [renamed_has h a, renamed_has h b]) fun n => renamed_steps hg' h,
    hasCycles_congr hg hg' hs hs' ⟨?_, ?_⟩, fun hw a b ha hb => ?_⟩
  · exact ⟨fun ⟨n, hn⟩ => ⟨n, (renamed_steps hg' h).1 hn⟩, fun ⟨n, hn⟩ => ⟨n, (renamed_steps hg' h).2 hn⟩⟩
  · rintro ⟨c, n, hn⟩
    obtain ⟨y, hy, _⟩ := hn.head
    obtain ⟨z, _, rfl⟩ := (h.nodes c).1 (has_iff.2 (hg'.inv.finite _ _ hy).1)
    exact ⟨z, n, (renamed_steps hg' h).1 hn⟩
  · rintro ⟨c, n, hn⟩
    exact ⟨f c, n, (renamed_steps hg' h).2 hn⟩
  · have hw' : NonNeg g'.edge := by
      intro x y c hc
      obtain ⟨hx, hy⟩ := renamed_edge_mem hg' x y c hc
      obtain ⟨x, _, rfl⟩ := (h.nodes x).1 hx
      obtain ⟨y, _, rfl⟩ := (h.nodes y).1 hy
      rw [h.edges] at hc
      exact hw _ _ _ hc
    obtain ⟨d, p, h1, h2⟩ := shortestPath_isDist hg hw ha hb
    obtain ⟨d', p', h1', h2'⟩ := shortestPath_isDist hg' hw' (a := f a) (b := f b) (by rw [renamed_has h]; exact ha) (by rw [renamed_has h]; exact hb)
    have h3 := h2.renamed h (renamed_edge_mem hg') ha
    cases h3.unique h2'
    exact ⟨d, p, p', h1, h1'⟩

/-- a graph, new names and the renamed graph, built in another order -/
def invG : Graph Nat Rat Nat := run [W 1 2 1, W 2 3 2, W 1 3 5, W 3 1 1]

def invName (n : Nat) : Nat := n + 10

def invG' : Graph Nat Rat Nat := run [W 13 11 7, W 11 13 5, W 12 13 2, W 11 12 1, W 13 11 1]

theorem invG_renamed : Renamed invName (fun x => invG.has x = true) (fun y => invG'.has y = true) invG.edge invG'.edge := by
  have hb : invG.Built := ⟨_, rfl⟩
  have hb' : invG'.Built := ⟨_, rfl⟩
  have n1 : invG.nodeList = [1, 2, 3] := by decide +kernel
  have n2 : invG'.nodeList = [13, 11, 12] := by decide +kernel
  have out : ∀ a, a ∉ invG.nodeList → (∀ b, invG.edge a b = none) ∧ ∀ b, invG.edge b a = none := by
    intro a ha
    constructor <;> intro b <;> cases h : invG.edge _ _ with
    | none => rfl
    | some v => first | exact absurd (hb.inv.edge_mem h).1 ha | exact absurd (hb.inv.edge_mem h).2 ha
  have out' : ∀ a, a ∉ invG'.nodeList → (∀ b, invG'.edge a b = none) ∧ ∀ b, invG'.edge b a = none := by
    intro a ha
    constructor <;> intro b <;> cases h : invG'.edge _ _ with
    | none => rfl
    | some v => first | exact absurd (hb'.inv.edge_mem h).1 ha | exact absurd (hb'.inv.edge_mem h).2 ha
  have hin : ∀ a, a ∈ invG.nodeList ↔ invName a ∈ invG'.nodeList := by
    intro a; rw [n1, n2]; simp [invName]; omega
  refine ⟨fun x y h => by unfold invName at h; omega, fun y => ?_, fun a b => ?_⟩
  · show invG'.has y = true ↔ ∃ x, invG.has x = true ∧ invName x = y
    simp only [has_iff, n1, n2, List.mem_cons, List.not_mem_nil, or_false, invName]
    constructor
    · intro h; exact ⟨y - 10, by omega, by omega⟩
    · rintro ⟨x, h1, h2⟩; omega
  · by_cases ha : a ∈ invG.nodeList
    · by_cases hb2 : b ∈ invG.nodeList
      · rw [n1] at ha hb2
        simp only [List.mem_cons, List.not_mem_nil, or_false] at ha hb2
        rcases ha with rfl | rfl | rfl <;> rcases hb2 with rfl | rfl | rfl <;> decide +kernel
      · rw [(out b hb2).2, (out' _ (fun h => hb2 ((hin b).2 h))).2]
    · rw [(out a ha).1, (out' _ (fun h => ha ((hin a).2 h))).1]

example : invG.Built ∧ invG'.Built ∧ NonNeg invG.edge ∧
    Renamed invName (fun x => invG.has x = true) (fun y => invG'.has y = true) invG.edge invG'.edge ∧
    invG.shortestPath 1 3 = some (.ok (.fin 3, [1, 2, 3])) ∧ invG'.shortestPath 11 13 = some (.ok (.fin 3, [11, 12, 13])) :=
  ⟨⟨_, rfl⟩, ⟨_, rfl⟩, nonneg_of_edgeList ⟨_, rfl⟩ (by decide +kernel), invG_renamed,
    sp_eval 20 (by decide) (by decide) (by decide +kernel), sp_eval 20 (by decide) (by decide) (by decide +kernel)⟩

/-! ### C96 -/

theorem reversed_steps {R S : α → α → Prop} (h : ∀ a b, S a b ↔ R b a) {n : Nat} {a b : α} : Steps S n b a ↔ Steps R n a b :=
  ⟨fun hs => hs.flip.mono fun x y hxy => (h y x).1 hxy, fun hs => hs.flip.mono fun x y hxy => (h x y).2 hxy⟩

theorem longestDur_unique {dur : α → Rat} {P : List α → Prop} {m m' : Rat} (h : LongestDur dur P m) (h' : LongestDur dur P m') : m = m' := by
  obtain ⟨⟨p, hp, rfl⟩, h2⟩ := h
  obtain ⟨⟨q, hq, rfl⟩, h3⟩ := h'
  exact Rat.le_antisymm (h3 p hp) (h2 q hq)

theorem totalDur_reverse (dur : α → Rat) (p : List α) : totalDur dur p.reverse = totalDur dur p := by
  induction p with
  | nil => rfl
  | cons a p ih =>
    rw [List.reverse_cons, totalDur_append, ih]
    show totalDur dur p + (dur a + 0) = dur a + totalDur dur p
    grind

theorem consec_append_one {R : α → α → Prop} {p : List α} {x y : α} : Consec R (p ++ [x] ++ [y]) ↔ Consec R (p ++ [x]) ∧ R x y := by
  induction p with
  | nil => simp [Consec]
  | cons a p ih =>
    cases p with
    | nil => simp [Consec]
    | cons b p =>
      simp only [List.cons_append, Consec] at ih ⊢
      rw [ih]
      exact and_assoc.symm

theorem consec_reverse {R S : α → α → Prop} (h : ∀ a b, S a b ↔ R b a) (p : List α) : Consec S p.reverse ↔ Consec R p := by
  induction p with
  | nil => exact Iff.rfl
  | cons a p ih =>
    cases p with
    | nil => exact Iff.rfl
    | cons b p =>
      rw [List.reverse_cons] at ih
      rw [List.reverse_cons, List.reverse_cons, consec_append_one, ih, h]
      exact And.comm

theorem longestDur_reverse {dur : α → Rat} {P Q : List α → Prop} {m : Rat} (h : ∀ p, P p ↔ Q p.reverse) (hm : LongestDur dur P m) : LongestDur dur Q m := by
  obtain ⟨⟨p, hp, rfl⟩, h2⟩ := hm
  refine ⟨⟨p.reverse, (h p).1 hp, totalDur_reverse dur p⟩, fun q hq => ?_⟩
  have := h2 q.reverse ((h q.reverse).2 (by rw [List.reverse_reverse]; exact hq))
  rwa [totalDur_reverse] at this

/-- **C96**. If `g'` is `g` with all edges turned round, the answers about `(b, a)` in `g'` are those about `(a, b)` in `g`: `is_connected`,
`degree_of_separation`, the distances of `shortest_path`; `has_cycles` answers the same. -/
theorem C96_reversal {g : Graph α Rat O} {g' : Graph α Rat O'} (hg : g.Built) (hg' : g'.Built) (hn : ∀ x, g'.has x = g.has x)
    (he : ∀ a b, g'.edge a b = g.edge b a)
    {srt srt' : List α → List α} (hs : ∀ l, (srt l).Perm l) (hs' : ∀ l, (srt' l).Perm l) :
    (∀ a b, g'.isConnected b a = g.isConnected a b) ∧
    (∀ a b, g'.degreeOfSeparation b a = g.degreeOfSeparation a b) ∧
    g'.hasCycles srt' = g.hasCycles srt ∧
    (NonNeg g.edge → ∀ a b, g.has a = true → g.has b = true →
      ∃ d p p', g.shortestPath a b = some (.ok (d, p)) ∧ g'.shortestPath b a = some (.ok (d, p'))) := by
  have hadj : ∀ a b, g'.Adj a b ↔ g.Adj b a := fun a b => by unfold Adj; rw [he]
  have hst : ∀ n a b, Steps g'.Adj n b a ↔ Steps g.Adj n a b := fun n a b => reversed_steps hadj
  have hdeg : ∀ a b, g'.degreeOfSeparation b a = g.degreeOfSeparation a b := fun a b =>
    degree_congr hg hg' (by rw [hn, hn]; exact And.comm) fun n => hst n a b
  refine ⟨fun a b => isConnected_congr hg hg' ⟨fun ⟨n, hn⟩ => ⟨n, (hst _ a b).1 hn⟩, fun ⟨n, hn⟩ => ⟨n, (hst _ a b).2 hn⟩⟩, hdeg,
    hasCycles_congr hg hg' hs hs' ⟨fun ⟨c, n, h⟩ => ⟨c, n, (hst _ c c).1 h⟩, fun ⟨c, n, h⟩ => ⟨c, n, (hst _ c c).2 h⟩⟩, fun hw a b ha hb => ?_⟩
  have hw' : NonNeg g'.edge := fun x y c hc => hw y x c (by rw [← he]; exact hc)
  obtain ⟨d, p, h1, h2⟩ := shortestPath_isDist hg hw ha hb
  obtain ⟨d', p', h1', h2'⟩ := shortestPath_isDist hg' hw' (a := b) (b := a) (by rw [hn]; exact hb) (by rw [hn]; exact ha)
  cases (h2.reversed he).unique h2'
  exact ⟨d, p, p', h1, h1'⟩

/-- **C96**, schedules: turning all dependencies of a project round mirrors its schedule.  The critical path has the same length, and a task
that can start at time `t` at the earliest must now finish at `length - t` at the latest, and vice versa. -/
theorem C96_mirrored_schedule {g : Graph α V O} {g' : Graph α V O'} (hg : g.Built) (hg' : g'.Built) (hA : Acyclic g.Adj)
    (hn : ∀ x, g'.has x = g.has x) (he : ∀ a b, g'.edge a b = g.edge b a) {srt srt' : List α → List α} (hs : ∀ l, (srt l).Perm l)
    (hs' : ∀ l, (srt' l).Perm l) {num : O → Option Rat} {num' : O' → Option Rat} {dur : α → Rat}
    (hdur : ∀ x, g.has x = true → (g.node x).bind num = some (dur x)) (hdur' : ∀ x, g.has x = true → (g'.node x).bind num' = some (dur x))
    (hpos : ∀ x, g.has x = true → 0 ≤ dur x) :
    ∃ cpl d d', g.criticalPath num srt = some (.ok (cpl, d)) ∧ g'.criticalPath num' srt' = some (.ok (cpl, d')) ∧
      ∀ x t t', d.get? x = some t → d'.get? x = some t' →
        t'.earliestStart = cpl - t.latestFinish ∧ t'.latestFinish = cpl - t.earliestStart := by
  have hadj : ∀ a b, g'.Adj a b ↔ g.Adj b a := fun a b => by unfold Adj; rw [he]
  have hadj' : ∀ a b, g.Adj a b ↔ g'.Adj b a := fun a b => (hadj b a).symm
  have hA' : Acyclic g'.Adj := fun c ⟨n, h⟩ => hA c ⟨n, (reversed_steps hadj).1 h⟩
  obtain ⟨cpl, d, h1, _, h2, h3, _⟩ := C26_critical_path hg hA hs hdur hpos
  obtain ⟨cpl', d', h1', _, h2', h3', _⟩ := C26_critical_path hg' hA' hs' (num := num') (dur := dur)
    (fun x hx => hdur' x (by rw [← hn]; exact hx)) (fun x hx => hpos x (by rw [← hn]; exact hx))
  have ec : cpl' = cpl := by
    refine (longestDur_unique (longestDur_reverse (fun p => ?_) h3) h3').symm
    rw [consec_reverse hadj]
    simp only [List.mem_reverse, hn]
  subst ec
  refine ⟨cpl', d, d', h1, h1', fun x t t' ht ht' => ?_⟩
  obtain ⟨_, a1, _, a2, _⟩ := h2 x t ht
  obtain ⟨_, b1, _, b2, _⟩ := h2' x t' ht'
  constructor
  · refine longestDur_unique b1 (longestDur_reverse (fun p => ?_) a2)
    rw [← consec_reverse hadj, List.reverse_cons]
  · have := longestDur_unique b2 (longestDur_reverse (fun p => ?_) a1)
    · grind
    · rw [← consec_reverse hadj, List.reverse_append]; rfl

theorem reversed_of_edgeLists [DecidableEq V] {g : Graph α V O} {g' : Graph α V O'} (hg : g.Built) (hg' : g'.Built)
    (h1 : (g.edgeList.all fun e => decide (g'.edge e.2.1 e.1 = some e.2.2)) = true)
    (h2 : (g'.edgeList.all fun e => decide (g.edge e.2.1 e.1 = some e.2.2)) = true) (a b : α) : g'.edge a b = g.edge b a := by
  cases h : g.edge b a with
  | some v => simpa using List.all_eq_true.1 h1 _ (hg.inv.mem_edgeList.2 h)
  | none =>
    cases h' : g'.edge a b with
    | none => rfl
    | some v =>
      have := List.all_eq_true.1 h2 _ (hg'.inv.mem_edgeList.2 h')
      simp [h] at this

theorem scaled_of_edgeLists {k : Rat} {g : Graph α Rat O} {g' : Graph α Rat O'} (hg : g.Built) (hg' : g'.Built)
    (h1 : (g.edgeList.all fun e => decide (g'.edge e.1 e.2.1 = some (k * e.2.2))) = true)
    (h2 : (g'.edgeList.all fun e => (g.edge e.1 e.2.1).isSome) = true) (a b : α) : g'.edge a b = (g.edge a b).map (k * ·) := by
  cases h : g.edge a b with
  | some v => simpa using List.all_eq_true.1 h1 _ (hg.inv.mem_edgeList.2 h)
  | none =>
    cases h' : g'.edge a b with
    | none => rfl
    | some v =>
      have := List.all_eq_true.1 h2 _ (hg'.inv.mem_edgeList.2 h')
      simp [h] at this

theorem has_of_nodeLists {g : Graph α V O} {g' : Graph α V' O'} (h : (g'.nodeList.all (· ∈ g.nodeList)) = true)
    (h' : (g.nodeList.all (· ∈ g'.nodeList)) = true) (x : α) : g'.has x = g.has x := by
  rw [Bool.eq_iff_iff, has_iff, has_iff]
  exact ⟨fun hx => by simpa using List.all_eq_true.1 h x hx, fun hx => by simpa using List.all_eq_true.1 h' x hx⟩

/-- the network of `invG` turned round -/
def invRev : Graph Nat Rat Nat := run [W 2 1 1, W 3 2 2, W 3 1 5, W 1 3 1]

example : invG.Built ∧ invRev.Built ∧ (∀ x, invRev.has x = invG.has x) ∧ (∀ a b, invRev.edge a b = invG.edge b a) ∧ NonNeg invG.edge ∧
    invG.shortestPath 1 3 = some (.ok (.fin 3, [1, 2, 3])) ∧ invRev.shortestPath 3 1 = some (.ok (.fin 3, [3, 2, 1])) :=
  ⟨⟨_, rfl⟩, ⟨_, rfl⟩, has_of_nodeLists (by decide +kernel) (by decide +kernel),
    reversed_of_edgeLists ⟨_, rfl⟩ ⟨_, rfl⟩ (by decide +kernel) (by decide +kernel), nonneg_of_edgeList ⟨_, rfl⟩ (by decide +kernel),
    sp_eval 20 (by decide) (by decide) (by decide +kernel), sp_eval 20 (by decide) (by decide) (by decide +kernel)⟩

/-- the docstring's project (critical_path.py:80-97) with all dependencies turned round -/
def projectRev : Graph Nat Nat Nat := run [T 1 10, T 2 20, T 3 5, T 4 10, T 5 20, T 6 15, T 7 5, T 8 15,
  E 2 1 0, E 3 2 0, E 4 3 0, E 5 4 0, E 6 1 0, E 7 6 0, E 5 7 0, E 8 1 0, E 5 8 0]

example : project.Built ∧ projectRev.Built ∧ Acyclic project.Adj ∧ (∀ x, projectRev.has x = project.has x) ∧
    (∀ a b, projectRev.edge a b = project.edge b a) ∧
    (∀ x, project.has x = true → (project.node x).bind natNum = some (project.dur natNum x)) ∧
    (∀ x, project.has x = true → (projectRev.node x).bind natNum = some (project.dur natNum x)) ∧
    (∀ x, project.has x = true → 0 ≤ project.dur natNum x) := by
  have hb : project.Built := ⟨_, rfl⟩
  obtain ⟨h1, h2⟩ := numeric_of_nodeList (g := project) (num := natNum) (dur := project.dur natNum) (by decide +kernel)
  have hh := has_of_nodeLists (g := project) (g' := projectRev) (by decide +kernel) (by decide +kernel)
  obtain ⟨h3, _⟩ := numeric_of_nodeList (g := projectRev) (num := natNum) (dur := project.dur natNum) (by decide +kernel)
  exact ⟨hb, ⟨_, rfl⟩, acyclic_of_edgeList hb projectRank (by decide +kernel), hh,
    reversed_of_edgeLists hb ⟨_, rfl⟩ (by decide +kernel) (by decide +kernel), h1, fun x hx => h3 x (by rw [hh]; exact hx), h2⟩

/-! ### C97 -/

theorem totalDur_scale (k : Rat) (dur : α → Rat) (p : List α) : totalDur (fun x => k * dur x) p = k * totalDur dur p := by
  induction p with
  | nil => show (0 : Rat) = k * 0; grind
  | cons a p ih =>
    show k * dur a + totalDur _ p = k * (dur a + totalDur dur p)
    rw [ih]; grind

theorem longestDur_scale {k : Rat} (hk : 0 ≤ k) {dur : α → Rat} {P : List α → Prop} {m : Rat} (h : LongestDur dur P m) :
    LongestDur (fun x => k * dur x) P (k * m) := by
  obtain ⟨⟨p, hp, rfl⟩, h2⟩ := h
  refine ⟨⟨p, hp, totalDur_scale k dur p⟩, fun q hq => ?_⟩
  rw [totalDur_scale]
  exact Rat.mul_le_mul_of_nonneg_left (h2 q hq) hk

/-- **C97**. Measuring all edges in a unit that is `k > 0` times smaller multiplies the distances of `shortest_path` by `k`. -/
theorem C97_scaling {k : Rat} (hk : 0 < k) {g : Graph α Rat O} {g' : Graph α Rat O'} (hg : g.Built) (hg' : g'.Built) (hn : ∀ x, g'.has x = g.has x)
    (he : ∀ a b, g'.edge a b = (g.edge a b).map (k * ·)) (hw : NonNeg g.edge) {a b : α} (ha : g.has a = true) (hb : g.has b = true) :
    ∃ d p p', g.shortestPath a b = some (.ok (d, p)) ∧ g'.shortestPath a b = some (.ok (d.scale k, p')) := by
  have hw' : NonNeg g'.edge := by
    intro x y c hc
    rw [he] at hc
    cases h : g.edge x y with
    | none => rw [h] at hc; cases hc
    | some v => rw [h] at hc; cases hc; exact Rat.mul_nonneg (Rat.le_of_lt hk) (hw _ _ _ h)
  obtain ⟨d, p, h1, h2⟩ := shortestPath_isDist hg hw ha hb
  obtain ⟨d', p', h1', h2'⟩ := shortestPath_isDist hg' hw' (a := a) (b := b) (by rw [hn]; exact ha) (by rw [hn]; exact hb)
  cases (h2.scaled hk he).unique h2'
  exact ⟨d, p, p', h1, h1'⟩

/-- **C97**, schedules: multiplying all durations by `k > 0` multiplies the length of the critical path and all times by `k`; the tasks without
slack stay the same. -/
theorem C97_scaled_schedule {k : Rat} (hk : 0 < k) {g : Graph α V O} {g' : Graph α V' O'} (hg : g.Built) (hg' : g'.Built) (hA : Acyclic g.Adj)
    (hn : ∀ x, g'.has x = g.has x) (he : ∀ a b, g'.Adj a b ↔ g.Adj a b) {srt srt' : List α → List α} (hs : ∀ l, (srt l).Perm l)
    (hs' : ∀ l, (srt' l).Perm l) {num : O → Option Rat} {num' : O' → Option Rat} {dur : α → Rat}
    (hdur : ∀ x, g.has x = true → (g.node x).bind num = some (dur x))
    (hdur' : ∀ x, g.has x = true → (g'.node x).bind num' = some (k * dur x)) (hpos : ∀ x, g.has x = true → 0 ≤ dur x) :
    ∃ cpl d d', g.criticalPath num srt = some (.ok (cpl, d)) ∧ g'.criticalPath num' srt' = some (.ok (k * cpl, d')) ∧
      ∀ x t t', d.get? x = some t → d'.get? x = some t' →
        t'.earliestStart = k * t.earliestStart ∧ t'.latestFinish = k * t.latestFinish ∧ (t'.slack = 0 ↔ t.slack = 0) := by
  have heq : g'.Adj = g.Adj := by funext a b; exact propext (he a b)
  obtain ⟨cpl, d, h1, _, h2, h3, _⟩ := C26_critical_path hg hA hs hdur hpos
  obtain ⟨cpl', d', h1', _, h2', h3', _⟩ := C26_critical_path hg' (by rw [heq]; exact hA) hs' (num := num') (dur := fun x => k * dur x)
    (fun x hx => hdur' x (by rw [← hn]; exact hx)) (fun x hx => Rat.mul_nonneg (Rat.le_of_lt hk) (hpos x (by rw [← hn]; exact hx)))
  rw [heq] at h2' h3'
  simp only [hn] at h3'
  have ec : cpl' = k * cpl := longestDur_unique h3' (longestDur_scale (Rat.le_of_lt hk) h3)
  subst ec
  refine ⟨cpl, d, d', h1, h1', fun x t t' ht ht' => ?_⟩
  obtain ⟨_, a1, a3, a2, _, a4, _⟩ := h2 x t ht
  obtain ⟨_, b1, b3, b2, _, b4, _⟩ := h2' x t' ht'
  have e1 := longestDur_unique b1 (longestDur_scale (Rat.le_of_lt hk) a1)
  have e2 := longestDur_unique b2 (longestDur_scale (Rat.le_of_lt hk) a2)
  have e3 : t'.latestFinish = k * t.latestFinish := by grind
  refine ⟨e1, e3, ?_⟩
  have e4 : t'.slack = k * t.slack := by rw [b4, a4, e3, b3, a3, e1]; grind
  rw [e4]
  constructor
  · intro h
    rcases Rat.mul_eq_zero.1 h with h | h
    · rw [h] at hk; exact absurd hk (by decide +kernel)
    · exact h
  · intro h; rw [h]; exact Rat.mul_zero k

/-- the network of `invG` in thirds -/
def invThirds : Graph Nat Rat Nat := run [W 1 2 3, W 2 3 6, W 1 3 15, W 3 1 3]

example : (0 : Rat) < 3 ∧ invG.Built ∧ invThirds.Built ∧ (∀ x, invThirds.has x = invG.has x) ∧
    (∀ a b, invThirds.edge a b = (invG.edge a b).map (3 * ·)) ∧ NonNeg invG.edge ∧
    invThirds.shortestPath 1 3 = some (.ok (.fin 9, [1, 2, 3])) :=
  ⟨by decide +kernel, ⟨_, rfl⟩, ⟨_, rfl⟩, has_of_nodeLists (by decide +kernel) (by decide +kernel),
    scaled_of_edgeLists ⟨_, rfl⟩ ⟨_, rfl⟩ (by decide +kernel) (by decide +kernel), nonneg_of_edgeList ⟨_, rfl⟩ (by decide +kernel),
    sp_eval 20 (by decide) (by decide) (by decide +kernel)⟩

/-- the docstring's project in half hours -/
example : project.Built ∧ Acyclic project.Adj ∧
    (∀ x, project.has x = true → (project.node x).bind natNum = some (project.dur natNum x)) ∧
    (∀ x, project.has x = true → (project.node x).bind (fun o => (natNum o).map (2 * ·)) = some (2 * project.dur natNum x)) ∧
    (∀ x, project.has x = true → 0 ≤ project.dur natNum x) := by
  have hb : project.Built := ⟨_, rfl⟩
  obtain ⟨h1, h2⟩ := numeric_of_nodeList (g := project) (num := natNum) (dur := project.dur natNum) (by decide +kernel)
  obtain ⟨h3, _⟩ := numeric_of_nodeList (g := project) (num := fun o => (natNum o).map (2 * ·)) (dur := fun x => 2 * project.dur natNum x)
    (by decide +kernel)
  exact ⟨hb, acyclic_of_edgeList hb projectRank (by decide +kernel), h1, h3, h2⟩

end GT

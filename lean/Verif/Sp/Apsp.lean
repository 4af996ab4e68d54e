import Verif.DictComp
import Verif.Sp.Legs
/-
Models of `adjacency_matrix` (graph/adjacency_matrix.py:4-31), `all_pairs_shortest_paths`
(graph/all_pairs_shortest_path.py:4-38), `minmax` (graph/minmax.py:4-12), `minsum` (graph/minsum.py:4-12).
-/
namespace GT
variable {α V O : Type} [DecidableEq α]
open Graph

/-- `graph.edge(a, b, default=float("inf"))` -/
def Graph.edgeOrInf (g : Graph α Rat O) (a b : α) : Ext :=
  match g.edge a b with
  | some c => .fin c
  | none => .inf

/-- `adjacency_matrix(graph)` (adjacency_matrix.py:28-31) -/
def Graph.adjMatrix (g : Graph α Rat O) : Dict α (Dict α Ext) :=
  Dict.comp g.nodeList (fun v1 => Dict.comp g.nodeList (fun v2 => if v1 = v2 then .fin 0 else g.edgeOrInf v1 v2))

/-- `m[a][b]`.  Simplification: a missing key (`KeyError`) is read as `inf`; theorem `allPairs_at` shows that
all keys exist. -/
def at2 (m : Dict α (Dict α Ext)) (a b : α) : Ext := (((m.get? a).bind (fun r => r.get? b)).getD .inf)

/-- `min(a, b)` -/
def Ext.min (a b : Ext) : Ext := if a.gt b then b else a

/-- one round of the loop (all_pairs_shortest_path.py:36-37) -/
def fwStep (vs : List α) (m : Dict α (Dict α Ext)) (v2 : α) : Dict α (Dict α Ext) :=
  Dict.comp vs (fun v1 => Dict.comp vs (fun v3 => (at2 m v1 v3).min ((at2 m v1 v2).add (at2 m v2 v3))))

/-- `all_pairs_shortest_paths(graph)` (all_pairs_shortest_path.py:32-38) -/
def Graph.allPairs (g : Graph α Rat O) : Dict α (Dict α Ext) :=
  g.adjMatrix.keys.foldl (fwStep g.adjMatrix.keys) g.adjMatrix

/-! ### order of extended numbers -/

theorem Ext.le_refl (a : Ext) : a.le a := by cases a <;> simp [Ext.le, Rat.le_refl]

theorem Ext.le_trans {a b c : Ext} (h : a.le b) (h2 : b.le c) : a.le c := by
  cases a <;> cases b <;> cases c <;> simp [Ext.le] at * <;> grind

theorem Ext.le_antisymm {a b : Ext} (h : a.le b) (h2 : b.le a) : a = b := by
  cases a <;> cases b <;> simp [Ext.le] at * <;> grind

theorem Ext.le_total (a b : Ext) : a.le b ∨ b.le a := by
  cases a <;> cases b <;> simp [Ext.le]; grind

theorem Ext.gt_iff (a b : Ext) : a.gt b = true ↔ ¬ a.le b := by
  cases a <;> cases b <;> simp [Ext.le, Ext.gt, gtExt]; grind

theorem Ext.le_of_not_le {a b : Ext} (h : ¬ a.le b) : b.le a := (Ext.le_total a b).resolve_left h

theorem Ext.min_le_left (a b : Ext) : (a.min b).le a := by
  unfold Ext.min; split
  · rename_i h; rw [Ext.gt_iff] at h; exact Ext.le_of_not_le h
  · exact Ext.le_refl a

theorem Ext.min_le_right (a b : Ext) : (a.min b).le b := by
  unfold Ext.min; split
  · exact Ext.le_refl b
  · rename_i h; rw [Ext.gt_iff] at h; exact Classical.not_not.1 h

theorem Ext.min_eq (a b : Ext) : a.min b = a ∨ a.min b = b := by
  unfold Ext.min; split
  · exact .inr rfl
  · exact .inl rfl

theorem Ext.add_le {a b : Ext} {x y : Rat} (h : a.le (.fin x)) (h2 : b.le (.fin y)) : (a.add b).le (.fin (x + y)) := by
  cases a <;> cases b <;> simp [Ext.le, Ext.add] at * <;> grind

/-! ### Floyd-Warshall -/

/-- the inner nodes of a walk -/
def inner (p : List α) : List α := p.tail.dropLast

/-- `D` is right for walks whose inner nodes are in `done` -/
structure FwInv (w : α → α → Option Rat) (V : List α) (done : α → Prop) (D : α → α → Ext) : Prop where
  sound : ∀ a b d, a ∈ V → b ∈ V → D a b = .fin d → ∃ p, WalkOf w a b p d
  complete : ∀ a b p c, a ∈ V → b ∈ V → WalkOf w a b p c → (∀ x ∈ inner p, done x) → (D a b).le (.fin c)

omit [DecidableEq α] in
theorem WalkOf.ends {w : α → α → Option Rat} {a b : α} {p : List α} {c : Rat} (h : WalkOf w a b p c) :
    (p = [a] ∧ a = b ∧ c = 0) ∨ p = a :: (inner p ++ [b]) := by
  rcases h.inv with h1 | ⟨y, q, c', d', h1, h2, h3, h4⟩
  · exact .inl h1
  · right
    subst h1
    unfold inner
    simp only [List.tail_cons]
    congr 1
    have := h3.2.1
    rw [List.getLast?_eq_some_getLast h3.ne_nil] at this
    have h5 := List.dropLast_concat_getLast h3.ne_nil
    rw [Option.some.inj this] at h5
    exact h5.symm

omit [DecidableEq α] in
theorem mem_split_last {v : α} {l : List α} (h : v ∈ l) : ∃ s t, l = s ++ v :: t ∧ v ∉ t := by
  induction l with
  | nil => simp at h
  | cons a l ih =>
    by_cases h2 : v ∈ l
    · obtain ⟨s, t, h3, h4⟩ := ih h2
      exact ⟨a :: s, t, by simp [h3], h4⟩
    · rcases List.mem_cons.1 h with rfl | h
      · exact ⟨[], l, rfl, h2⟩
      · exact absurd h h2

omit [DecidableEq α] in
theorem inner_mk (a b : α) (l : List α) : inner (a :: l ++ [b]) = l := by
  unfold inner; simp

theorem FwInv.step {w : α → α → Option Rat} {V : List α} {done : α → Prop} {D : α → α → Ext}
    (hc : NoNegCycle w) (h : FwInv w V done D) {v : α} (hv : v ∈ V) :
    FwInv w V (fun x => x = v ∨ done x) (fun a b => (D a b).min ((D a v).add (D v b))) := by
  refine ⟨fun a b d ha hb hd => ?_, fun a b p c ha hb hp hin => ?_⟩
  · rcases Ext.min_eq (D a b) ((D a v).add (D v b)) with h1 | h1
    · rw [h1] at hd; exact h.sound a b d ha hb hd
    · rw [h1] at hd
      cases h2 : D a v with
      | inf => rw [h2] at hd; simp [Ext.add] at hd
      | fin x => cases h3 : D v b with
        | inf => rw [h2, h3] at hd; simp [Ext.add] at hd
        | fin y =>
          rw [h2, h3] at hd
          simp only [Ext.add, Ext.fin.injEq] at hd
          obtain ⟨p, hp⟩ := h.sound a v x ha hv h2
          obtain ⟨q, hq⟩ := h.sound v b y hv hb h3
          obtain ⟨q', rfl⟩ : ∃ q', q = v :: q' := by
            cases q with
            | nil => exact absurd rfl hq.ne_nil
            | cons z q => have := hq.1; simp at this; subst this; exact ⟨q, rfl⟩
          exact ⟨_, hd ▸ hp.append hq⟩
  · by_cases hvi : v ∈ inner p
    · refine Ext.le_trans (Ext.min_le_right _ _) ?_
      rcases hp.ends with ⟨h1, _⟩ | h1
      · rw [h1] at hvi; simp [inner] at hvi
      · obtain ⟨s, t, h2, h3⟩ := List.eq_append_cons_of_mem hvi
        have hlast : ∃ m t2, t ++ [b] = m ++ (t2 ++ [b]) ∧ v ∉ t2 ∧ (∀ x ∈ t2, x ∈ t) ∧
            ((m = []) ∨ ∃ m', m = m' ++ [v]) := by
          by_cases hvt : v ∈ t
          · obtain ⟨t1, t2, h4, h5⟩ := mem_split_last hvt
            exact ⟨t1 ++ [v], t2, by simp [h4], h5, fun x hx => by rw [h4]; simp [hx], .inr ⟨_, rfl⟩⟩
          · exact ⟨[], t, rfl, hvt, fun x hx => hx, .inl rfl⟩
        obtain ⟨m, t2, h4, h5, h6, h7⟩ := hlast
        rw [h1, h2] at hp
        have e1 : a :: (s ++ v :: t ++ [b]) = (a :: s) ++ v :: (t ++ [b]) := by simp
        rw [e1] at hp
        obtain ⟨c1, c2, w1, w2, e2⟩ := hp.split
        have hin1 : ∀ x ∈ s, done x := fun x hx => by
          rcases hin x (by rw [h2]; simp [hx]) with rfl | h
          · exact absurd hx h3
          · exact h
        have hin2 : ∀ x ∈ t2, done x := fun x hx => by
          rcases hin x (by rw [h2]; simp [h6 x hx]) with rfl | h
          · exact absurd hx h5
          · exact h
        have hD1 := h.complete a v _ c1 ha hv w1 (by rw [inner_mk]; exact hin1)
        have hD2 : ∃ c3, c3 ≤ c2 ∧ (D v b).le (.fin c3) := by
          rw [h4] at w2
          rcases h7 with rfl | ⟨m', rfl⟩
          · exact ⟨c2, Rat.le_refl, h.complete v b _ c2 hv hb w2 (by
              rw [List.nil_append, ← List.cons_append, inner_mk]; exact hin2)⟩
          · have e3 : v :: (m' ++ [v] ++ (t2 ++ [b])) = (v :: m') ++ v :: (t2 ++ [b]) := by simp
            rw [e3] at w2
            obtain ⟨c4, c5, w3, w4, e4⟩ := w2.split
            have := hc _ _ _ w3
            exact ⟨c5, by grind, h.complete v b _ c5 hv hb w4 (by rw [← List.cons_append, inner_mk]; exact hin2)⟩
        obtain ⟨c3, h8, h9⟩ := hD2
        refine Ext.le_trans (Ext.add_le hD1 h9) ?_
        simp only [Ext.le]; grind
    · refine Ext.le_trans (Ext.min_le_left _ _) (h.complete a b p c ha hb hp fun x hx => ?_)
      rcases hin x hx with rfl | h
      · exact absurd hx hvi
      · exact h

theorem at2_comp {V : List α} {F : α → α → Ext} {a b : α} (ha : a ∈ V) (hb : b ∈ V) :
    at2 (Dict.comp V (fun x => Dict.comp V (fun y => F x y))) a b = F a b := by
  unfold at2
  rw [Dict.comp_get?, if_pos ha]
  simp only [Option.bind_some]
  rw [Dict.comp_get?, if_pos hb]; rfl

omit [DecidableEq α] in
theorem FwInv.congr {w : α → α → Option Rat} {V : List α} {done done' : α → Prop} {D D' : α → α → Ext}
    (h : FwInv w V done D) (hD : ∀ a b, a ∈ V → b ∈ V → D' a b = D a b) (hd : ∀ x, done' x → done x) :
    FwInv w V done' D' := by
  refine ⟨fun a b d ha hb hh => h.sound a b d ha hb (by rw [← hD a b ha hb]; exact hh), fun a b p c ha hb hp hi => ?_⟩
  rw [hD a b ha hb]; exact h.complete a b p c ha hb hp (fun x hx => hd x (hi x hx))

/-- a matrix: its rows are indexed by `V`, in order -/
def IsMatrix (V : List α) (m : Dict α (Dict α Ext)) : Prop :=
  ∃ F : α → α → Ext, m = Dict.comp V (fun x => Dict.comp V (fun y => F x y))

theorem fw_fold {w : α → α → Option Rat} {V : List α} (hc : NoNegCycle w) (l : List α) :
    ∀ (done : α → Prop) (m : Dict α (Dict α Ext)), (∀ v ∈ l, v ∈ V) → IsMatrix V m → FwInv w V done (at2 m) →
    IsMatrix V (l.foldl (fwStep V) m) ∧ FwInv w V (fun x => x ∈ l ∨ done x) (at2 (l.foldl (fwStep V) m)) := by
  induction l with
  | nil => intro done m _ hm h; exact ⟨hm, h.congr (fun _ _ _ _ => rfl) (fun x hx => by simpa using hx)⟩
  | cons v l ih =>
    intro done m hl hm h
    have h1 := h.step hc (hl v (by simp))
    have h2 := ih (fun x => x = v ∨ done x) (fwStep V m v) (fun x hx => hl x (List.mem_cons_of_mem _ hx)) ⟨_, rfl⟩
      (h1.congr (fun a b ha hb => by unfold fwStep; rw [at2_comp ha hb]) (fun x hx => hx))
    refine ⟨h2.1, h2.2.congr (fun _ _ _ _ => rfl) (fun x hx => ?_)⟩
    rcases hx with hx | hx
    · rcases List.mem_cons.1 hx with hx | hx
      · exact .inr (.inl hx)
      · exact .inl hx
    · exact .inr (.inr hx)

theorem fwInv_adj {g : Graph α Rat O} (hc : NoNegCycle g.edge) :
    FwInv g.edge g.nodeList (fun _ => False) (at2 g.adjMatrix) := by
  have hat : ∀ a b, a ∈ g.nodeList → b ∈ g.nodeList → at2 g.adjMatrix a b = if a = b then .fin 0 else g.edgeOrInf a b :=
    fun a b ha hb => by unfold adjMatrix; rw [at2_comp ha hb]
  refine ⟨fun a b d ha hb hd => ?_, fun a b p c ha hb hp hin => ?_⟩
  · rw [hat a b ha hb] at hd
    split at hd
    · rename_i h; cases hd; subst h; exact ⟨_, WalkOf.single a⟩
    · unfold edgeOrInf at hd
      split at hd
      · rename_i c he; cases hd
        refine ⟨[a, b], ?_⟩
        have := (WalkOf.single (w := g.edge) b).cons he
        rw [show d + 0 = d by grind] at this; exact this
      · cases hd
  · rw [hat a b ha hb]
    split
    · rename_i h; subst h; simp only [Ext.le]; exact hc _ _ _ hp
    · rename_i hab
      rcases hp.ends with ⟨_, h, _⟩ | h1
      · exact absurd h hab
      · have h2 : inner p = [] := by
          rw [List.eq_nil_iff_forall_not_mem]; exact fun x hx => hin x hx
        rw [h2] at h1
        simp only [List.nil_append] at h1
        have := hp.2.2
        rw [h1] at this
        simp only [walkCost] at this
        unfold edgeOrInf
        cases he : g.edge a b with
        | none => rw [he] at this; simp at this
        | some x => rw [he] at this; simp at this; simp only [Ext.le]; grind

theorem adjMatrix_keys {g : Graph α Rat O} (h : g.Inv) : g.adjMatrix.keys = g.nodeList :=
  Dict.comp_keys h.nodesWF _

theorem allPairs_spec {g : Graph α Rat O} (h : g.Inv) (hc : NoNegCycle g.edge) :
    IsMatrix g.nodeList g.allPairs ∧ ∀ a b, a ∈ g.nodeList → b ∈ g.nodeList → IsDist g.edge a b (at2 g.allPairs a b) := by
  unfold allPairs
  rw [adjMatrix_keys h]
  obtain ⟨h1, h2⟩ := fw_fold hc g.nodeList (fun _ => False) g.adjMatrix (fun _ h => h) ⟨_, rfl⟩ (fwInv_adj hc)
  refine ⟨h1, fun a b ha hb => ?_⟩
  have hin : ∀ p c, WalkOf g.edge a b p c → ∀ x ∈ inner p, x ∈ g.nodeList ∨ False := by
    intro p c hp x hx
    left
    have : x ∈ p := by
      unfold inner at hx
      exact List.mem_of_mem_tail (List.dropLast_subset _ hx)
    exact has_iff.1 (walk_has h hp (has_iff.2 ha) x this)
  cases hd : at2 (g.nodeList.foldl (fwStep g.nodeList) g.adjMatrix) a b with
  | fin d =>
    refine ⟨h2.sound a b d ha hb hd, fun p c hp => ?_⟩
    have := h2.complete a b p c ha hb hp (hin p c hp)
    rw [hd] at this; exact this
  | inf =>
    rintro ⟨p, c, hp⟩
    have := h2.complete a b p c ha hb hp (hin p c hp)
    rw [hd] at this; exact this

end GT

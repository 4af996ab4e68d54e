import Verif.Sp.Apsp
import Verif.Spec.Loops
/-
`all_pairs_shortest_paths` on arbitrary graphs, with negative cycles (graph/all_pairs_shortest_path.py:4-38).
-/
namespace GT
variable {α V O : Type} [DecidableEq α]
open Graph

/-- what `D` says about walks whose inner nodes are in `done`, whatever the values -/
structure FwAny (w : α → α → Option Rat) (V : List α) (done : α → Prop) (D : α → α → Ext) : Prop where
  sound : ∀ a b d, a ∈ V → b ∈ V → D a b = .fin d → ∃ p, WalkOf w a b p d
  simple : ∀ a b p c, a ∈ V → b ∈ V → WalkOf w a b p c → a ∉ inner p → b ∉ inner p → (inner p).Nodup → (∀ x ∈ inner p, done x) →
    (D a b).le (.fin c)

omit [DecidableEq α] in
theorem fwSound_step {w : α → α → Option Rat} {V : List α} {D : α → α → Ext}
    (h : ∀ a b d, a ∈ V → b ∈ V → D a b = .fin d → ∃ p, WalkOf w a b p d) {v : α} (hv : v ∈ V) (a b : α) (d : Rat) (ha : a ∈ V) (hb : b ∈ V)
    (hd : (D a b).min ((D a v).add (D v b)) = .fin d) : ∃ p, WalkOf w a b p d := by
  rcases Ext.min_eq (D a b) ((D a v).add (D v b)) with h1 | h1
  · rw [h1] at hd; exact h a b d ha hb hd
  · rw [h1] at hd
    cases h2 : D a v with
    | inf => rw [h2] at hd; simp [Ext.add] at hd
    | fin x => cases h3 : D v b with
      | inf => rw [h2, h3] at hd; simp [Ext.add] at hd
      | fin y =>
        rw [h2, h3] at hd
        simp only [Ext.add, Ext.fin.injEq] at hd
        obtain ⟨p, hp⟩ := h a v x ha hv h2
        obtain ⟨q, hq⟩ := h v b y hv hb h3
        obtain ⟨q', rfl⟩ : ∃ q', q = v :: q' := by
          cases q with
          | nil => exact absurd rfl hq.ne_nil
          | cons z q => have := hq.1; simp at this; subst this; exact ⟨q, rfl⟩
        exact ⟨_, hd ▸ hp.append hq⟩

theorem FwAny.step {w : α → α → Option Rat} {V : List α} {done : α → Prop} {D : α → α → Ext} (h : FwAny w V done D) {v : α} (hv : v ∈ V) :
    FwAny w V (fun x => x = v ∨ done x) (fun a b => (D a b).min ((D a v).add (D v b))) := by
  refine ⟨fwSound_step h.sound hv, fun a b p c ha hb hp hai hbi hnd hin => ?_⟩
  by_cases hvi : v ∈ inner p
  · refine Ext.le_trans (Ext.min_le_right _ _) ?_
    rcases hp.ends with ⟨h1, _⟩ | h1
    · rw [h1] at hvi; simp [inner] at hvi
    · obtain ⟨s, t, h2, h3⟩ := List.eq_append_cons_of_mem hvi
      rw [h2] at hnd hai hbi
      rw [h1, h2] at hp
      have e1 : a :: (s ++ v :: t ++ [b]) = (a :: s) ++ v :: (t ++ [b]) := by simp
      rw [e1] at hp
      obtain ⟨c1, c2, w1, w2, e2⟩ := hp.split
      rw [List.nodup_append] at hnd
      obtain ⟨hs, ht, hst⟩ := hnd
      rw [List.nodup_cons] at ht
      have hin1 : ∀ x ∈ s, done x := fun x hx => by
        rcases hin x (by rw [h2]; simp [hx]) with rfl | h
        · exact absurd hx h3
        · exact h
      have hin2 : ∀ x ∈ t, done x := fun x hx => by
        rcases hin x (by rw [h2]; simp [hx]) with rfl | h
        · exact absurd hx ht.1
        · exact h
      simp only [List.mem_append, List.mem_cons, not_or] at hai hbi
      have hD1 := h.simple a v _ c1 ha hv w1 (by rw [inner_mk]; exact hai.1) (by rw [inner_mk]; exact h3) (by rw [inner_mk]; exact hs)
        (by rw [inner_mk]; exact hin1)
      have hD2 := h.simple v b _ c2 hv hb w2 (by rw [← List.cons_append, inner_mk]; exact ht.1) (by rw [← List.cons_append, inner_mk]; exact hbi.2.2)
        (by rw [← List.cons_append, inner_mk]; exact ht.2) (by rw [← List.cons_append, inner_mk]; exact hin2)
      rw [e2]
      exact Ext.add_le hD1 hD2
  · refine Ext.le_trans (Ext.min_le_left _ _) (h.simple a b p c ha hb hp hai hbi hnd fun x hx => ?_)
    rcases hin x hx with rfl | h
    · exact absurd hx hvi
    · exact h

omit [DecidableEq α] in
theorem FwAny.congr {w : α → α → Option Rat} {V : List α} {done done' : α → Prop} {D D' : α → α → Ext}
    (h : FwAny w V done D) (hD : ∀ a b, a ∈ V → b ∈ V → D' a b = D a b) (hd : ∀ x, done' x → done x) : FwAny w V done' D' := by
  refine ⟨fun a b d ha hb hh => h.sound a b d ha hb (by rw [← hD a b ha hb]; exact hh), fun a b p c ha hb hp h1 h2 h3 hi => ?_⟩
  rw [hD a b ha hb]; exact h.simple a b p c ha hb hp h1 h2 h3 (fun x hx => hd x (hi x hx))

theorem fwAny_fold {w : α → α → Option Rat} {V : List α} (l : List α) :
    ∀ (done : α → Prop) (m : Dict α (Dict α Ext)), (∀ v ∈ l, v ∈ V) → IsMatrix V m → FwAny w V done (at2 m) →
    IsMatrix V (l.foldl (fwStep V) m) ∧ FwAny w V (fun x => x ∈ l ∨ done x) (at2 (l.foldl (fwStep V) m)) := by
  induction l with
  | nil => intro done m _ hm h; exact ⟨hm, h.congr (fun _ _ _ _ => rfl) (fun x hx => by simpa using hx)⟩
  | cons v l ih =>
    intro done m hl hm h
    have h1 := h.step (hl v (by simp))
    have h2 := ih (fun x => x = v ∨ done x) (fwStep V m v) (fun x hx => hl x (List.mem_cons_of_mem _ hx)) ⟨_, rfl⟩
      (h1.congr (fun a b ha hb => by unfold fwStep; rw [at2_comp ha hb]) (fun x hx => hx))
    refine ⟨h2.1, h2.2.congr (fun _ _ _ _ => rfl) (fun x hx => ?_)⟩
    rcases hx with hx | hx
    · rcases List.mem_cons.1 hx with hx | hx
      · exact .inr (.inl hx)
      · exact .inl hx
    · exact .inr (.inr hx)

theorem adj_at {g : Graph α Rat O} {a b : α} (ha : a ∈ g.nodeList) (hb : b ∈ g.nodeList) :
    at2 g.adjMatrix a b = if a = b then .fin 0 else g.edgeOrInf a b := by unfold adjMatrix; rw [at2_comp ha hb]

theorem adj_sound {g : Graph α Rat O} (a b : α) (d : Rat) (ha : a ∈ g.nodeList) (hb : b ∈ g.nodeList) (hd : at2 g.adjMatrix a b = .fin d) :
    ∃ p, WalkOf (noLoops g.edge) a b p d := by
  rw [adj_at ha hb] at hd
  split at hd
  · rename_i h; cases hd; subst h; exact ⟨_, WalkOf.single a⟩
  · rename_i hab
    unfold edgeOrInf at hd
    split at hd
    · rename_i c he; cases hd
      refine ⟨[a, b], ?_⟩
      have := (WalkOf.single (w := noLoops g.edge) b).cons (noLoops_some.2 ⟨hab, he⟩)
      rw [show d + 0 = d by grind] at this; exact this
    · cases hd

theorem adj_direct {g : Graph α Rat O} {a b : α} {p : List α} {c : Rat} (ha : a ∈ g.nodeList) (hb : b ∈ g.nodeList)
    (hp : WalkOf (noLoops g.edge) a b p c) (hin : ∀ x ∈ inner p, False) (h0 : a = b → 0 ≤ c) : (at2 g.adjMatrix a b).le (.fin c) := by
  rw [adj_at ha hb]
  split
  · rename_i h; exact h0 h
  · rename_i hab
    rcases hp.ends with ⟨_, h, _⟩ | h1
    · exact absurd h hab
    · have h2 : inner p = [] := by
        rw [List.eq_nil_iff_forall_not_mem]; exact fun x hx => hin x hx
      rw [h2] at h1
      simp only [List.nil_append] at h1
      have := hp.2.2
      rw [h1] at this
      simp only [walkCost, noLoops, if_neg hab] at this
      unfold edgeOrInf
      cases he : g.edge a b with
      | none => rw [he] at this; simp at this
      | some x => rw [he] at this; simp at this; simp only [Ext.le]; grind

theorem fwAny_adj {g : Graph α Rat O} : FwAny (noLoops g.edge) g.nodeList (fun _ => False) (at2 g.adjMatrix) := by
  refine ⟨adj_sound, fun a b p c ha hb hp hai hbi hnd hin => adj_direct ha hb hp hin ?_⟩
  rintro rfl
  rcases hp.ends with ⟨_, _, h⟩ | h1
  · rw [h]; exact Rat.le_refl
  · have h2 : inner p = [] := by
      rw [List.eq_nil_iff_forall_not_mem]; exact fun x hx => hin x hx
    rw [h2] at h1
    have := hp.2.2
    rw [h1] at this
    simp [walkCost, noLoops] at this

theorem allPairs_any {g : Graph α Rat O} (h : g.Inv) :
    IsMatrix g.nodeList g.allPairs ∧ FwAny (noLoops g.edge) g.nodeList (fun x => x ∈ g.nodeList) (at2 g.allPairs) := by
  unfold allPairs
  rw [adjMatrix_keys h]
  obtain ⟨h1, h2⟩ := fwAny_fold (w := noLoops g.edge) g.nodeList (fun _ => False) g.adjMatrix (fun _ h => h) ⟨_, rfl⟩ fwAny_adj
  exact ⟨h1, h2.congr (fun _ _ _ _ => rfl) (fun x hx => .inl hx)⟩

theorem walk_nodes {g : Graph α Rat O} (h : g.Inv) {a b : α} {p : List α} {c : Rat} (ha : a ∈ g.nodeList) (hp : WalkOf (noLoops g.edge) a b p c) :
    ∀ x ∈ inner p, x ∈ g.nodeList := by
  intro x hx
  have : x ∈ p := by
    unfold inner at hx
    exact List.mem_of_mem_tail (List.dropLast_subset _ hx)
  exact has_iff.1 (walk_has h hp.of_noLoops (has_iff.2 ha) x this)

/-- a negative closed walk contains a negative simple cycle -/
theorem negative_simple_cycle {w : α → α → Option Rat} (n : Nat) : ∀ {a : α} {p : List α} {c : Rat}, p.length ≤ n → WalkOf w a a p c → c < 0 →
    ∃ a p c, WalkOf w a a p c ∧ c < 0 ∧ a ∉ inner p ∧ (inner p).Nodup := by
  induction n with
  | zero => intro a p c hl hp; exact absurd (List.length_eq_zero_iff.1 (Nat.le_zero.1 hl)) hp.ne_nil
  | succ n ih =>
    intro a p c hl hp hc
    by_cases h1 : a ∈ inner p
    · rcases hp.ends with ⟨h2, _⟩ | h2
      · rw [h2] at h1; simp [inner] at h1
      · obtain ⟨s, t, h3, _⟩ := List.eq_append_cons_of_mem h1
        rw [h3] at h2
        rw [h2] at hp hl
        rw [show a :: (s ++ a :: t ++ [a]) = (a :: s) ++ a :: (t ++ [a]) by simp] at hp
        obtain ⟨c1, c2, w1, w2, e⟩ := hp.split
        simp at hl
        by_cases hc1 : c1 < 0
        · exact ih (by simp; omega) w1 hc1
        · exact ih (by simp; omega) w2 (by grind)
    · by_cases h2 : (inner p).Nodup
      · exact ⟨a, p, c, hp, hc, h1, h2⟩
      · obtain ⟨x, s, t, u, h3⟩ : ∃ x s t u, inner p = s ++ x :: (t ++ x :: u) := by
          have gen : ∀ l : List α, ¬ l.Nodup → ∃ x s t u, l = s ++ x :: (t ++ x :: u) := by
            intro l
            induction l with
            | nil => intro h; simp at h
            | cons y l ihl =>
              intro h
              rw [List.nodup_cons] at h
              by_cases hy : y ∈ l
              · obtain ⟨s, t, h5⟩ := List.append_of_mem hy
                exact ⟨y, [], s, t, by simp [h5]⟩
              · obtain ⟨x, s, t, u, h5⟩ := ihl (fun h6 => h ⟨hy, h6⟩)
                exact ⟨x, y :: s, t, u, by simp [h5]⟩
          exact gen _ h2
        rcases hp.ends with ⟨h4, _⟩ | h4
        · rw [h4] at h3; simp [inner] at h3
        · rw [h3] at h4
          rw [h4] at hp hl
          rw [show a :: (s ++ x :: (t ++ x :: u) ++ [a]) = (a :: s) ++ x :: (t ++ x :: (u ++ [a])) by simp] at hp
          obtain ⟨c1, c2, w1, w2, e⟩ := hp.split
          rw [show x :: (t ++ x :: (u ++ [a])) = (x :: t) ++ x :: (u ++ [a]) by simp] at w2
          obtain ⟨c3, c4, w3, w4, e2⟩ := w2.split
          simp at hl
          by_cases hc3 : c3 < 0
          · exact ih (by simp; omega) w3 hc3
          · have w5 := w1.append w4
            exact ih (by simp; omega) w5 (by grind)

/-- without negative cycles, apart from loops, the entries are the distances along the edges that are not loops -/
theorem allPairs_noLoops {g : Graph α Rat O} (h : g.Inv) (hc : NoNegCycle (noLoops g.edge)) {a b : α} (ha : a ∈ g.nodeList) (hb : b ∈ g.nodeList) :
    IsDist (noLoops g.edge) a b (at2 g.allPairs a b) := by
  have hadj : FwInv (noLoops g.edge) g.nodeList (fun _ => False) (at2 g.adjMatrix) :=
    ⟨adj_sound, fun a b p c ha hb hp hin => adj_direct ha hb hp hin (fun e => by subst e; exact hc _ _ _ hp)⟩
  obtain ⟨_, h2⟩ := fw_fold hc g.nodeList (fun _ => False) g.adjMatrix (fun _ h => h) ⟨_, rfl⟩ hadj
  have e : g.allPairs = g.nodeList.foldl (fwStep g.nodeList) g.adjMatrix := by unfold allPairs; rw [adjMatrix_keys h]
  rw [← e] at h2
  cases hd : at2 g.allPairs a b with
  | fin d =>
    refine ⟨h2.sound a b d ha hb hd, fun p c hp => ?_⟩
    have := h2.complete a b p c ha hb hp (fun x hx => .inl (walk_nodes h ha hp x hx))
    rw [hd] at this; exact this
  | inf =>
    rintro ⟨p, c, hp⟩
    have := h2.complete a b p c ha hb hp (fun x hx => .inl (walk_nodes h ha hp x hx))
    rw [hd] at this; exact this

end GT

import Verif.Sp.ApspFl
import Verif.Sp.FlInt
/-
`all_pairs_shortest_paths` with integers in floating point arithmetic: nothing is rounded as long as twice the number of nodes times the
largest value is representable.
-/
namespace GT
variable {α O : Type} [DecidableEq α]
open Graph

theorem comp_congr_mem {V : Type} {l : List α} {f f' : α → V} (h : ∀ k ∈ l, f k = f' k) : Dict.comp l f = Dict.comp l f' := by
  unfold Dict.comp
  generalize (Dict.empty : Dict α V) = d
  induction l generalizing d with
  | nil => rfl
  | cons a l ih =>
    rw [List.foldl_cons, List.foldl_cons, h a (by simp)]
    exact ih (fun k hk => h k (List.mem_cons_of_mem _ hk)) _

omit [DecidableEq α] in
theorem walkCost_le {w : α → α → Option Rat} {M : Nat} (hw : ∀ a b v, w a b = some v → IntUpTo M v) (p : List α) : ∀ {c : Rat}, walkCost w p = some c →
    c ≤ ((p.length * M : Nat) : Rat) := by
  induction p with
  | nil => intro c h; cases h
  | cons a l ih =>
    intro c h
    cases l with
    | nil =>
      simp only [walkCost, Option.some.injEq] at h; subst h
      have : (0 : Nat) ≤ ([a].length * M) := Nat.zero_le _
      exact_mod_cast this
    | cons b l =>
      simp only [walkCost] at h
      cases hab : w a b with
      | none => rw [hab] at h; cases h
      | some v =>
        cases hcl : walkCost w (b :: l) with
        | none => rw [hab, hcl] at h; cases h
        | some d =>
          rw [hab, hcl] at h
          simp only [Option.some.injEq] at h
          obtain ⟨z, rfl, hz⟩ := hw a b v hab
          have h1 := ih hcl
          have h2 : (z : Rat) ≤ (M : Rat) := by exact_mod_cast hz
          have h3 : (((a :: b :: l).length * M : Nat) : Rat) = (((b :: l).length * M : Nat) : Rat) + (M : Rat) := by
            rw [← Rat.natCast_add, List.length_cons (a := a), Nat.succ_mul]
          rw [h3, ← h]
          grind

/-- the entries are integers and belong to walks with inner nodes in `done` -/
def FwInt (w : α → α → Option Rat) (V : List α) (done : α → Prop) (D : α → α → Ext) : Prop :=
  ∀ a b d, a ∈ V → b ∈ V → D a b = .fin d → (∃ z : Nat, d = (z : Rat)) ∧ ∃ p, WalkOf w a b p d ∧ ∀ x ∈ inner p, done x

omit [DecidableEq α] in
theorem mem_inner_of_nodup {w : α → α → Option Rat} {a b : α} {p q : List α} {c d : Rat} (hp : WalkOf w a b p c) (hq : WalkOf w a b q d)
    (hn : q.Nodup) (hs : q ⊆ p) : ∀ x ∈ inner q, x ∈ inner p := by
  intro x hx
  rcases hq.ends with ⟨h1, _⟩ | h1
  · rw [h1] at hx; cases hx
  · have hxq : x ∈ q := by rw [h1]; simp [hx]
    rw [h1] at hn
    simp only [List.nodup_cons, List.mem_append, List.mem_singleton, not_or, List.nodup_append] at hn
    have hxa : x ≠ a := fun h => hn.1.1 (h ▸ hx)
    have hxb : x ≠ b := fun h => hn.2.2.2 x hx b rfl h
    rcases hp.ends with ⟨h2, _⟩ | h2
    · have := hs hxq
      rw [h2] at this
      simp at this
      exact absurd this hxa
    · have := hs hxq
      rw [h2] at this
      simp only [List.mem_cons, List.mem_append, List.not_mem_nil, or_false] at this
      rcases this with h | h | h
      · exact absurd h hxa
      · exact h
      · exact absurd h hxb

theorem FwInt.bound {w : α → α → Option Rat} {V : List α} {done : α → Prop} {D : α → α → Ext} {M : Nat} (hw : ∀ a b v, w a b = some v → IntUpTo M v)
    (hV : ∀ a b v, w a b = some v → a ∈ V ∧ b ∈ V) (hI : FwInv w V done D) (h : FwInt w V done D) {a b : α} {d : Rat} (ha : a ∈ V) (hb : b ∈ V)
    (hd : D a b = .fin d) : IntUpTo (V.length * M) d := by
  obtain ⟨⟨z, rfl⟩, p, hp, hin⟩ := h a b d ha hb hd
  have hnn : NonNeg w := fun a b v hv => by
    obtain ⟨z, rfl, _⟩ := hw a b v hv
    exact_mod_cast Nat.zero_le z
  obtain ⟨q, d', hq, _, hn, hs⟩ := hp.simple hnn
  have hle := hI.complete a b q d' ha hb hq (fun x hx => hin x (mem_inner_of_nodup hp hq hn hs x hx))
  rw [hd] at hle
  have hqV : ∀ x ∈ q, x ∈ V := by
    have key : ∀ (q : List α) (a b : α) (d : Rat), a ∈ V → WalkOf w a b q d → ∀ x ∈ q, x ∈ V := by
      intro q
      induction q with
      | nil => intro a b d _ h; exact absurd rfl h.ne_nil
      | cons y q ih =>
        intro a b d ha h x hx
        rcases h.inv with ⟨h1, _⟩ | ⟨y', q', c', d', h1, h2, h3, h4⟩
        · rw [h1] at hx; simp at hx; subst hx; exact ha
        · simp only [List.cons.injEq] at h1
          obtain ⟨rfl, rfl⟩ := h1
          rcases List.mem_cons.1 hx with rfl | hx
          · exact ha
          · exact ih y' b d' (hV _ _ _ h2).2 h3 x hx
    exact key q a b d' ha hq
  have h1 := walkCost_le hw q hq.2.2
  have h2 : q.length * M ≤ V.length * M := Nat.mul_le_mul_right _ (nodup_length_le hn hqV)
  have h3 : ((q.length * M : Nat) : Rat) ≤ ((V.length * M : Nat) : Rat) := by exact_mod_cast h2
  have h4 : (z : Rat) ≤ ((V.length * M : Nat) : Rat) := Rat.le_trans hle (Rat.le_trans h1 h3)
  exact ⟨z, rfl, by exact_mod_cast h4⟩

theorem FwInt.step {w : α → α → Option Rat} {V : List α} {done : α → Prop} {D : α → α → Ext} (h : FwInt w V done D) {v : α} (hv : v ∈ V) :
    FwInt w V (fun x => x = v ∨ done x) (fun a b => (D a b).min ((D a v).add (D v b))) := by
  intro a b d ha hb hd
  rcases Ext.min_eq (D a b) ((D a v).add (D v b)) with h1 | h1
  · dsimp only at hd
    rw [h1] at hd
    obtain ⟨hz, p, hp, hi⟩ := h a b d ha hb hd
    exact ⟨hz, p, hp, fun x hx => .inr (hi x hx)⟩
  · dsimp only at hd
    rw [h1] at hd
    cases h2 : D a v with
    | inf => rw [h2] at hd; simp [Ext.add] at hd
    | fin x => cases h3 : D v b with
      | inf => rw [h2, h3] at hd; simp [Ext.add] at hd
      | fin y =>
        rw [h2, h3] at hd
        simp only [Ext.add, Ext.fin.injEq] at hd
        obtain ⟨⟨z1, rfl⟩, p, hp, hpi⟩ := h a v x ha hv h2
        obtain ⟨⟨z2, rfl⟩, q, hq, hqi⟩ := h v b y hv hb h3
        obtain ⟨q', rfl⟩ : ∃ q', q = v :: q' := by
          cases q with
          | nil => exact absurd rfl hq.ne_nil
          | cons z q => have := hq.1; simp at this; subst this; exact ⟨q, rfl⟩
        refine ⟨⟨z1 + z2, by rw [← hd, Rat.natCast_add]⟩, _, hd ▸ hp.append hq, fun x hx => ?_⟩
        rcases hp.ends with ⟨e1, e2, _⟩ | e1
        · rw [e1] at hx
          subst e2
          exact .inr (hqi x hx)
        · rcases hq.ends with ⟨f1, f2, _⟩ | f1
          · simp only [List.cons.injEq, true_and] at f1
            subst f1
            rw [List.append_nil] at hx
            exact .inr (hpi x hx)
          · rw [List.cons.injEq] at f1
            rw [e1, f1.2] at hx
            have : inner (a :: (inner p ++ [v]) ++ (inner (v :: q') ++ [b])) = inner p ++ [v] ++ inner (v :: q') := by
              rw [show a :: (inner p ++ [v]) ++ (inner (v :: q') ++ [b]) = a :: (inner p ++ [v] ++ inner (v :: q')) ++ [b] by simp, inner_mk]
            rw [this] at hx
            simp only [List.mem_append, List.mem_singleton] at hx
            rcases hx with (hx | hx) | hx
            · exact .inr (hpi x hx)
            · exact .inl hx
            · exact .inr (hqi x hx)

theorem fwFl_int {fl : Rat → Rat} {w : α → α → Option Rat} {V : List α} {M N : Nat} (hfl : ExactUpTo fl N) (hw : ∀ a b v, w a b = some v → IntUpTo M v)
    (hV : ∀ a b v, w a b = some v → a ∈ V ∧ b ∈ V) (hN : 2 * (V.length * M) ≤ N) (hc : NoNegCycle w) (l : List α) :
    ∀ (done : α → Prop) (m : Dict α (Dict α Ext)), (∀ v ∈ l, v ∈ V) → FwInv w V done (at2 m) → FwInt w V done (at2 m) →
      l.foldl (fwStepFl fl V) m = l.foldl (fwStep V) m := by
  induction l with
  | nil => intro _ _ _ _ _; rfl
  | cons v l ih =>
    intro done m hl hI hZ
    have hv := hl v (by simp)
    have hst : fwStepFl fl V m v = fwStep V m v := by
      unfold fwStepFl fwStep
      refine comp_congr_mem ?_
      intro a ha
      refine comp_congr_mem ?_
      intro b hb
      congr 1
      cases h2 : at2 m a v with
      | inf => rfl
      | fin x => cases h3 : at2 m v b with
        | inf => rfl
        | fin y =>
          obtain ⟨z1, rfl, hz1⟩ := hZ.bound hw hV hI ha hv h2
          obtain ⟨z2, rfl, hz2⟩ := hZ.bound hw hV hI hv hb h3
          simp only [Ext.addFl, Ext.add]
          rw [hfl _ ⟨z1 + z2, by rw [Rat.natCast_add], by omega⟩]
    rw [List.foldl_cons, List.foldl_cons, hst]
    refine ih (fun x => x = v ∨ done x) _ (fun x hx => hl x (List.mem_cons_of_mem _ hx)) ((hI.step hc hv).congr (fun a b ha hb => ?_) (fun _ h => h)) ?_
    · unfold fwStep; rw [at2_comp ha hb]
    · intro a b d ha hb hd
      refine hZ.step hv a b d ha hb ?_
      rw [← hd]; unfold fwStep; rw [at2_comp ha hb]

theorem allPairsFl_int {fl : Rat → Rat} {g : Graph α Rat O} (hg : g.Inv) {M N : Nat} (hfl : ExactUpTo fl N)
    (hw : ∀ a b v, g.edge a b = some v → IntUpTo M v) (hN : 2 * (g.nodeList.length * M) ≤ N) : g.allPairsFl fl = g.allPairs := by
  have hnn : NonNeg g.edge := fun a b v hv => by
    obtain ⟨z, rfl, _⟩ := hw a b v hv
    exact_mod_cast Nat.zero_le z
  unfold allPairsFl allPairs
  rw [adjMatrix_keys hg]
  refine fwFl_int hfl hw (fun a b v h => ?_) hN (fun _ _ _ hp => walkCost_nonneg hnn hp.2.2) g.nodeList (fun _ => False) _ (fun _ h => h) (fwInv_adj (fun _ _ _ hp => walkCost_nonneg hnn hp.2.2)) ?_
  · exact ⟨(hg.edge_mem h).1, (hg.edge_mem h).2⟩
  · intro a b d ha hb hd
    unfold adjMatrix at hd
    rw [at2_comp ha hb] at hd
    split at hd
    · rename_i h; cases hd; subst h; exact ⟨⟨0, rfl⟩, _, WalkOf.single a, fun x hx => nomatch hx⟩
    · unfold edgeOrInf at hd
      split at hd
      · rename_i c he; cases hd
        obtain ⟨z, rfl, _⟩ := hw a b _ he
        refine ⟨⟨z, rfl⟩, [a, b], ?_, fun x hx => nomatch hx⟩
        have := (WalkOf.single (w := g.edge) b).cons he
        rw [show (z : Rat) + 0 = z by grind] at this; exact this
      · cases hd

end GT

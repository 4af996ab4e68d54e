import Verif.Sp.DijkstraFl
import Verif.Sp.Legs
import Verif.Sp.ApspFl
import Verif.Sp.FlInt
import Verif.Spec.LegsRound
/-
Model of `distance_from_path` (graph/shortest_path.py:324-359) in rounded arithmetic: `path_length += d` is `fl (path_length + d)`.
-/
namespace GT
variable {α V O : Type} [DecidableEq α]
open Graph

/-- the loop over consecutive nodes (shortest_path.py:337-358); `acc` is `path_length` -/
def Graph.dfpLoopFl (fl : Rat → Rat) (g : Graph α Rat O) : List α → Dict (α × α) Rat → Rat → Option (Py Ext)
  | n1 :: n2 :: l, cache, acc =>
    match truthy (g.edge n1 n2) with
    | some d => dfpLoopFl fl g (n2 :: l) cache (fl (acc + d))
    | none => match truthy (cache.get? (n1, n2)) with
      | some d => dfpLoopFl fl g (n2 :: l) cache (fl (acc + d))
      | none => match g.shortestPathFl fl n1 n2 with
        | none => none
        | some (.error e) => some (.error e)
        | some (.ok (.inf, _)) => some (.ok .inf)
        | some (.ok (.fin d, _)) => dfpLoopFl fl g (n2 :: l) (cache.set (n1, n2) d) (fl (acc + d))
  | _, _, acc => some (.ok (.fin acc))

/-- `distance_from_path(graph, path)` (shortest_path.py:324-359) -/
def Graph.distanceFromPathFl (fl : Rat → Rat) (g : Graph α Rat O) (path : List α) : Option (Py Ext) := g.dfpLoopFl fl path Dict.empty 0

/-- without rounding it is the model of Sp/Legs.lean -/
theorem dfpLoop_eq_fl (g : Graph α Rat O) (p : List α) : ∀ cache acc, g.dfpLoop p cache acc = g.dfpLoopFl id p cache acc := by
  induction p with
  | nil => intros; rfl
  | cons a l ih =>
    cases l with
    | nil => intros; rfl
    | cons b l =>
      intro cache acc
      unfold Graph.dfpLoop Graph.dfpLoopFl
      rw [shortestPath_eq_fl]
      simp only [ih, id]
      rfl

theorem distanceFromPath_eq_fl (g : Graph α Rat O) (p : List α) : g.distanceFromPath p = g.distanceFromPathFl id p := dfpLoop_eq_fl g p _ _

theorem flCost_nonneg {fl : Rat → Rat} (hfl : Rounding fl) {w : α → α → Option Rat} (hw : NonNeg w) (p : List α) :
    ∀ {acc d : Rat}, 0 ≤ acc → flCost fl w acc p = some d → 0 ≤ d := by
  induction p with
  | nil => intro acc d _ h; simp [flCost] at h
  | cons a l ih =>
    intro acc d ha h
    cases l with
    | nil => simp only [flCost, Option.some.injEq] at h; subst h; exact ha
    | cons b l =>
      simp only [flCost] at h
      split at h
      · rename_i c hc
        refine ih ?_ h
        have := hfl.mono 0 (acc + c) (by have := hw _ _ _ hc; grind)
        rwa [hfl.zero] at this
      · cases h

/-- the rounded length of a leg that `shortest_path` computes -/
theorem flLeg_of_result {fl : Rat → Rat} (hfl : Rounding fl) {w : α → α → Option Rat} (hw : NonNeg w) {a b : α} {r : Ext × List α}
    (h : truthy (w a b) = none) (hr : FlResult fl w [] a b r) (hn : r.2.Nodup) : FlLeg fl w a b r.1 := by
  cases hab : w a b with
  | none =>
    rcases hr with ⟨d, h1, h2, h3⟩ | ⟨h1, h2⟩
    · exact .inr (.inl ⟨hab, d, h1, ⟨_, hn, h2⟩, h3⟩)
    · exact .inr (.inr ⟨hab, by rw [h1], h2⟩)
  | some c =>
    have h0 : c = 0 := by
      rw [hab] at h
      unfold truthy at h
      dsimp only at h
      split at h
      · assumption
      · cases h
    subst h0
    have hwk : FlWalk fl w [] a b [a, b] 0 := by
      refine ⟨rfl, rfl, ?_, by simp⟩
      simp only [flCost, hab, Rat.add_zero, hfl.zero]
    rcases hr with ⟨d, h1, h2, h3⟩ | ⟨_, h2⟩
    · have := h3 _ _ hwk
      have := flCost_nonneg hfl hw r.2 Rat.le_refl h2.2.2.1
      exact .inl ⟨0, hab, by rw [h1]; congr 1; grind⟩
    · exact absurd ⟨_, _, hwk⟩ h2

theorem dfpLoopFl_spec {fl : Rat → Rat} (hfl : Rounding fl) {g : Graph α Rat O} (h : g.Inv) (hw : NonNeg g.edge) (p : List α) :
    ∀ (cache : Dict (α × α) Rat) (acc : Rat), (∀ x ∈ p, g.has x = true) →
    (∀ a b d, cache.get? (a, b) = some d → FlLeg fl g.edge a b (.fin d)) →
    ∃ r, g.dfpLoopFl fl p cache acc = some (.ok r) ∧ FlLegs fl g.edge acc p r := by
  induction p with
  | nil => intro cache acc _ _; exact ⟨_, rfl, rfl⟩
  | cons a l ih =>
    cases l with
    | nil => intro cache acc _ _; exact ⟨_, rfl, rfl⟩
    | cons b l =>
      intro cache acc hp hc
      have hrec : ∀ cache d, (∀ a b d, cache.get? (a, b) = some d → FlLeg fl g.edge a b (.fin d)) → FlLeg fl g.edge a b (.fin d) →
          ∃ r, g.dfpLoopFl fl (b :: l) cache (fl (acc + d)) = some (.ok r) ∧ FlLegs fl g.edge acc (a :: b :: l) r := by
        intro cache d hc hd
        obtain ⟨r, h1, h2⟩ := ih cache (fl (acc + d)) (fun x hx => hp x (List.mem_cons_of_mem _ hx)) hc
        exact ⟨r, h1, .inr ⟨d, hd, h2⟩⟩
      have htr : ∀ (o : Option Rat) v, truthy o = some v → o = some v := by
        intro o v h
        unfold truthy at h
        split at h
        · split at h <;> first | cases h; rfl | cases h
        · cases h
      unfold Graph.dfpLoopFl
      cases h1 : truthy (g.edge a b) with
      | some d => exact hrec _ _ hc (.inl ⟨d, htr _ _ h1, rfl⟩)
      | none =>
        dsimp only
        cases h2 : truthy (cache.get? (a, b)) with
        | some d => exact hrec _ _ hc (hc _ _ _ (htr _ _ h2))
        | none =>
          dsimp only
          obtain ⟨⟨r, q⟩, h3, h4⟩ := shortestPathFl_spec hfl h hw (start := a) (fin := b) [] (hp a (by simp)) (hp b (by simp))
          have h5 := flLeg_of_result hfl hw h1 h4 (shortestPathFl_nodup h3)
          rw [h3]
          cases r with
          | inf => exact ⟨.inf, rfl, .inl ⟨h5, rfl⟩⟩
          | fin d =>
            refine hrec _ _ ?_ h5
            intro a' b' d' hd'
            rw [Dict.get?_set] at hd'
            split at hd'
            · rename_i heq; cases heq; cases hd'; exact h5
            · exact hc _ _ _ hd'

theorem distanceFromPathFl_spec {fl : Rat → Rat} (hfl : Rounding fl) {g : Graph α Rat O} (h : g.Inv) (hw : NonNeg g.edge) {p : List α}
    (hp : ∀ x ∈ p, g.has x = true) : ∃ r, g.distanceFromPathFl fl p = some (.ok r) ∧ FlLegs fl g.edge 0 p r :=
  dfpLoopFl_spec hfl h hw p Dict.empty 0 hp (fun a b d hd => by simp at hd)

/-! ### accuracy -/

theorem WithinErr.mono {ε : Rat} (h0 : 0 ≤ ε) (h1 : ε ≤ 1) {n m : Nat} {d x : Ext} (hd : (Ext.fin 0).le d) (h : WithinErr ε n d x) (hm : n ≤ m) : WithinErr ε m d x := by
  obtain ⟨k, rfl⟩ := Nat.le.dest hm
  clear hm
  induction k with
  | zero => exact h
  | succ k ih => exact WithinErr.succ h0 h1 hd ih

theorem legDist_nonneg {w : α → α → Option Rat} (hw : NonNeg w) {a b : α} {d : Ext} (h : LegDist w a b d) : (Ext.fin 0).le d := by
  rcases h with ⟨c, h, rfl⟩ | ⟨_, h⟩
  · exact hw _ _ _ h
  · cases d with
    | inf => trivial
    | fin d =>
      obtain ⟨p, hp⟩ := h.1
      exact hp.nonneg hw

/-- a rounded leg and the exact one -/
theorem flLeg_within {fl : Rat → Rat} (hfl : Rounding fl) {ε : Rat} (h0 : 0 ≤ ε) (h1 : ε ≤ 1) (hε : RelErr fl ε) {g : Graph α Rat O} (h : g.Inv) (hw : NonNeg g.edge)
    {a b : α} (ha : g.has a = true) (hb : g.has b = true) {d e : Ext} (hd : FlLeg fl g.edge a b d) (he : LegDist g.edge a b e) :
    WithinErr ε g.nodeList.length e d := by
  have hnn := legDist_nonneg hw he
  have hlen : ∀ (p : List α) (c : Rat), p.Nodup → WalkOf g.edge a b p c → p.length - 1 ≤ g.nodeList.length := by
    intro p c hn hp
    have := nodup_length_le hn (fun x hx => has_iff.1 (walk_has h hp ha x hx))
    omega
  rcases hd with ⟨c, hc, rfl⟩ | ⟨hab, x, rfl, ⟨p, hn, hp⟩, hmin⟩ | ⟨hab, rfl, hno⟩
  · rcases he with ⟨c', hc', rfl⟩ | ⟨hc', _⟩
    · rw [hc] at hc'; cases hc'
      exact WithinErr.mono h0 h1 hnn .refl (Nat.zero_le _)
    · rw [hc] at hc'; cases hc'
  · rcases he with ⟨c', hc', rfl⟩ | ⟨_, he⟩
    · rw [hab] at hc'; cases hc'
    · obtain ⟨c, hc⟩ := avoid_of_flWalk hp
      -- a shortest walk without repetitions
      obtain ⟨⟨r, q⟩, k1, k2⟩ := shortestPathFl_spec (fl := id) ⟨fun _ _ h => h, fun _ => rfl, rfl⟩ h hw (start := a) (fin := b) [] ha hb
      have kn := shortestPathFl_nodup k1
      rcases k2 with ⟨d', rfl, k3, k4⟩ | ⟨_, k3⟩
      · obtain ⟨c2, hc2⟩ := avoid_of_flWalk k3
        have e2 : d' = c2 := by
          have := k3.2.2.1
          rw [flCost_id, hc2.1.2.2] at this
          simp at this; grind
        subst e2
        have hed : e = .fin d' := by
          refine he.unique ⟨⟨q, hc2.1⟩, ?_⟩
          intro p' c' hp'
          refine k4 p' c' ⟨hp'.1, hp'.2.1, ?_, by simp⟩
          rw [flCost_id, hp'.2.2]; simp; grind
        subst hed
        have hd0 : (0 : Rat) ≤ d' := hnn
        obtain ⟨b1, _⟩ := flCost_bounds h0 h1 hε hw p Rat.le_refl hp.2.2.1 hc.1.2.2
        rw [Rat.zero_add] at b1
        obtain ⟨x2, hx2⟩ := flWalk_of_avoid (fl := fl) hc2
        obtain ⟨_, b2⟩ := flCost_bounds h0 h1 hε hw q Rat.le_refl hx2.2.2.1 hc2.1.2.2
        rw [Rat.zero_add] at b2
        have hle : d' ≤ c := he.2 _ _ hc.1
        have hc0 : 0 ≤ c := by grind
        have m1 := (WithinErr.mono h0 h1 (d := .fin d') (x := .fin d') hnn (n := 0) .refl (m := 0) (Nat.le_refl _))
        have l1 := hlen p c hn hc.1
        have l2 := hlen q d' kn hc2.1
        -- powers
        have pw1 : (1 - ε) ^ g.nodeList.length * d' ≤ (1 - ε) ^ (p.length - 1) * d' := by
          have : WithinErr ε (p.length - 1) (.fin d') (.fin ((1 - ε) ^ (p.length - 1) * d')) := by
            refine ⟨Rat.le_refl, ?_⟩
            have := (WithinErr.mono h0 h1 (d := .fin d') (x := .fin d') hnn (n := 0) .refl (m := p.length - 1) (Nat.zero_le _))
            exact Rat.le_trans this.1 this.2
          exact (WithinErr.mono h0 h1 hnn this l1).1
        have pw2 : (1 + ε) ^ (q.length - 1) * d' ≤ (1 + ε) ^ g.nodeList.length * d' := by
          have : WithinErr ε (q.length - 1) (.fin d') (.fin ((1 + ε) ^ (q.length - 1) * d')) := by
            refine ⟨?_, Rat.le_refl⟩
            have := (WithinErr.mono h0 h1 (d := .fin d') (x := .fin d') hnn (n := 0) .refl (m := q.length - 1) (Nat.zero_le _))
            exact Rat.le_trans this.1 this.2
          exact (WithinErr.mono h0 h1 hnn this l2).2
        have pp : 0 ≤ (1 - ε) ^ (p.length - 1) := Rat.pow_nonneg (by grind)
        have pm := Rat.mul_le_mul_of_nonneg_left hle pp
        have := hmin _ _ hx2
        exact ⟨by grind, by grind⟩
      · obtain ⟨d2, hd2⟩ := flWalk_of_avoid (fl := id) hc
        exact absurd ⟨_, _, hd2⟩ k3
  · rcases he with ⟨c', hc', rfl⟩ | ⟨_, he⟩
    · rw [hab] at hc'; cases hc'
    · cases e with
      | inf => trivial
      | fin e =>
        obtain ⟨q, hq⟩ := he.1
        obtain ⟨d2, hd2⟩ := flWalk_of_avoid (fl := fl) (av := []) ⟨hq, by simp⟩
        exact absurd ⟨_, _, hd2⟩ hno

theorem flLegs_within {fl : Rat → Rat} (hfl : Rounding fl) {ε : Rat} (h0 : 0 ≤ ε) (h1 : ε ≤ 1) (hε : RelErr fl ε) {g : Graph α Rat O} (h : g.Inv) (hw : NonNeg g.edge)
    (p : List α) : ∀ {n : Nat} {c acc : Rat} {e r : Ext}, (∀ x ∈ p, g.has x = true) → 0 ≤ c → g.nodeList.length ≤ n → WithinErr ε n (.fin c) (.fin acc) →
    SumLegs g.edge p e → FlLegs fl g.edge acc p r → WithinErr ε (n + (p.length - 1)) ((Ext.fin c).add e) r := by
  induction p with
  | nil =>
    intro n c acc e r _ _ _ hc he hr
    have he : e = .fin 0 := he
    have hr : r = .fin acc := hr
    subst he; subst hr
    simpa [Ext.add, Rat.add_zero] using hc
  | cons a l ih =>
    cases l with
    | nil =>
      intro n c acc e r _ _ _ hc he hr
      have he : e = .fin 0 := he
      have hr : r = .fin acc := hr
      subst he; subst hr
      simpa [Ext.add, Rat.add_zero] using hc
    | cons b l =>
      intro n c acc e r hp hc0 hn hc he hr
      obtain ⟨d, e', hd, he', rfl⟩ := he
      have hnn := legDist_nonneg hw hd
      rcases hr with ⟨k1, rfl⟩ | ⟨x, k1, k2⟩
      · have := flLeg_within hfl h0 h1 hε h hw (hp a (by simp)) (hp b (by simp)) k1 hd
        rw [this.inf_iff.1 rfl]
        trivial
      · have hx := WithinErr.mono h0 h1 hnn (flLeg_within hfl h0 h1 hε h hw (hp a (by simp)) (hp b (by simp)) k1 hd) hn
        cases d with
        | inf => exact hx.elim
        | fin d =>
          have hs := WithinErr.add h0 h1 hε (d := .fin c) (x := .fin acc) hc0 hnn hc hx
          have hd0 : (0 : Rat) ≤ d := hnn
          have := ih (n := n + 1) (c := c + d) (acc := fl (acc + x)) (fun y hy => hp y (List.mem_cons_of_mem _ hy)) (by grind) (by omega) hs he' k2
          rw [← Ext.add_assoc]
          have e3 : n + ((a :: b :: l).length - 1) = n + 1 + ((b :: l).length - 1) := by simp; omega
          rw [e3]
          exact this

end GT

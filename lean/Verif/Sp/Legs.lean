import Verif.Sp.BidirMain
import Verif.Spec.Dist
/-
Model of `distance_from_path` (graph/shortest_path.py:324-359).
-/
namespace GT
variable {α V O : Type} [DecidableEq α]
open Graph

/-- `if d:` for a value that may be `None`: the value if it is a non-zero number -/
def truthy : Option Rat → Option Rat
  | some d => if d = 0 then none else some d
  | none => none

/-- the loop over consecutive nodes (shortest_path.py:337-358); `acc` is `path_length` -/
def Graph.dfpLoop (g : Graph α Rat O) : List α → Dict (α × α) Rat → Rat → Option (Py Ext)
  | n1 :: n2 :: l, cache, acc =>
    match truthy (g.edge n1 n2) with
    | some d => dfpLoop g (n2 :: l) cache (acc + d)
    | none => match truthy (cache.get? (n1, n2)) with
      | some d => dfpLoop g (n2 :: l) cache (acc + d)
      | none => match g.shortestPath n1 n2 with
        | none => none
        | some (.error e) => some (.error e)
        | some (.ok (.inf, _)) => some (.ok .inf)
        | some (.ok (.fin d, _)) => dfpLoop g (n2 :: l) (cache.set (n1, n2) d) (acc + d)
  | _, _, acc => some (.ok (.fin acc))

/-- `distance_from_path(graph, path)` (shortest_path.py:324-359) -/
def Graph.distanceFromPath (g : Graph α Rat O) (path : List α) : Option (Py Ext) := g.dfpLoop path Dict.empty 0

theorem walk_has {g : Graph α Rat O} (h : g.Inv) {s f : α} {p : List α} {c : Rat} (hp : WalkOf g.edge s f p c)
    (hs : g.has s = true) : ∀ x ∈ p, g.has x = true := by
  induction p generalizing s c with
  | nil => simp
  | cons a l ih =>
    rcases hp.inv with ⟨h1, h2, h3⟩ | ⟨b, q, c', d', h1, h2, h3, h4⟩
    · rw [h1]; intro x hx; simp at hx; subst hx; exact hs
    · cases h1
      intro x hx
      rcases List.mem_cons.1 hx with rfl | hx
      · exact hs
      · exact ih h3 (has_iff.2 (h.edge_mem h2).2) x hx

/-- the shortest distance across a non-negative edge of value zero is zero -/
theorem legDist_of_isDist {w : α → α → Option Rat} (hw : NonNeg w) {a b : α} {d : Ext}
    (h : truthy (w a b) = none) (hd : IsDist w a b d) : LegDist w a b d := by
  cases hab : w a b with
  | none => exact .inr ⟨hab, hd⟩
  | some c =>
    rw [hab] at h
    unfold truthy at h
    dsimp only at h
    split at h
    · rename_i h0
      subst h0
      have hwalk : WalkOf w a b [a, b] (0 + 0) := (WalkOf.single b).cons hab
      cases d with
      | inf => exact absurd ⟨_, _, hwalk⟩ hd
      | fin d =>
        have h1 := hd.2 _ _ hwalk
        obtain ⟨p, hp⟩ := hd.1
        have h2 := hp.nonneg hw
        exact .inl ⟨0, hab, by congr 1; grind⟩
    · cases h

theorem Ext.add_assoc (a b c : Ext) : (a.add b).add c = a.add (b.add c) := by
  cases a <;> cases b <;> cases c <;> simp [Ext.add]
  grind

theorem dfpLoop_spec {g : Graph α Rat O} (h : g.Inv) (hw : NonNeg g.edge) (p : List α) :
    ∀ (cache : Dict (α × α) Rat) (acc : Rat), (∀ x ∈ p, g.has x = true) →
    (∀ a b d, cache.get? (a, b) = some d → LegDist g.edge a b (.fin d)) →
    ∃ r, (∃ e, SumLegs g.edge p e ∧ r = (Ext.fin acc).add e) ∧ g.dfpLoop p cache acc = some (.ok r) ∨
      (r = .inf ∧ ¬ (∃ q, SumLegs g.edge p (.fin q)) ∧ g.dfpLoop p cache acc = some (.ok r)) := by
  induction p with
  | nil => intro cache acc _ _; exact ⟨_, .inl ⟨⟨_, rfl, rfl⟩, by simp [dfpLoop, Ext.add]; grind⟩⟩
  | cons a l ih =>
    cases l with
    | nil => intro cache acc _ _; exact ⟨_, .inl ⟨⟨_, rfl, rfl⟩, by simp [dfpLoop, Ext.add]; grind⟩⟩
    | cons b l =>
      intro cache acc hp hc
      have hrec : ∀ cache d, (∀ a b d, cache.get? (a, b) = some d → LegDist g.edge a b (.fin d)) →
          LegDist g.edge a b (.fin d) → ∃ r, (∃ e, SumLegs g.edge (a :: b :: l) e ∧ r = (Ext.fin acc).add e) ∧
            g.dfpLoop (b :: l) cache (acc + d) = some (.ok r) ∨
            (r = .inf ∧ ¬ (∃ q, SumLegs g.edge (a :: b :: l) (.fin q)) ∧ g.dfpLoop (b :: l) cache (acc + d) = some (.ok r)) := by
        intro cache d hc hd
        obtain ⟨r, hr⟩ := ih cache (acc + d) (fun x hx => hp x (List.mem_cons_of_mem _ hx)) hc
        refine ⟨r, ?_⟩
        rcases hr with ⟨⟨e, h1, h2⟩, h3⟩ | ⟨h1, h2, h3⟩
        · refine .inl ⟨⟨(Ext.fin d).add e, ⟨_, _, hd, h1, rfl⟩, ?_⟩, h3⟩
          rw [h2, ← Ext.add_assoc]; rfl
        · refine .inr ⟨h1, ?_, h3⟩
          rintro ⟨q, x, e, h4, h5, h6⟩
          cases e with
          | inf => cases x <;> simp [Ext.add] at h6
          | fin e => exact h2 ⟨e, h5⟩
      unfold dfpLoop
      cases h1 : truthy (g.edge a b) with
      | some d =>
        dsimp only
        apply hrec _ _ hc
        cases hab : g.edge a b with
        | none => rw [hab] at h1; cases h1
        | some c =>
          rw [hab] at h1; unfold truthy at h1; dsimp only at h1
          split at h1
          · cases h1
          · cases h1; exact .inl ⟨_, hab, rfl⟩
      | none =>
        dsimp only
        cases h2 : truthy (cache.get? (a, b)) with
        | some d =>
          dsimp only
          apply hrec _ _ hc
          cases hab : cache.get? (a, b) with
          | none => rw [hab] at h2; cases h2
          | some c =>
            rw [hab] at h2; unfold truthy at h2; dsimp only at h2
            split at h2
            · cases h2
            · cases h2; exact hc _ _ _ hab
        | none =>
          dsimp only
          obtain ⟨⟨r, q⟩, h3, h4⟩ := shortestPath_spec h hw (start := a) (fin := b) [] (hp a (by simp)) (hp b (by simp))
          rw [h3]
          have h5 : LegDist g.edge a b r := legDist_of_isDist hw h1 h4.isDist
          cases r with
          | inf =>
            dsimp only
            refine ⟨.inf, .inr ⟨rfl, ?_, rfl⟩⟩
            rintro ⟨q, x, e, h6, h7, h8⟩
            rw [← h5.unique h6] at h8
            simp [Ext.add] at h8
          | fin d =>
            dsimp only
            apply hrec
            · intro a' b' d' hd'
              rw [Dict.get?_set] at hd'
              split at hd'
              · rename_i heq; cases heq; cases hd'; exact h5
              · exact hc _ _ _ hd'
            · exact h5

theorem sumLegs_exists {g : Graph α Rat O} (h : g.Inv) (hw : NonNeg g.edge) {p : List α} (hp : ∀ x ∈ p, g.has x = true) :
    ∃ r, SumLegs g.edge p r := by
  induction p with
  | nil => exact ⟨_, rfl⟩
  | cons a l ih =>
    cases l with
    | nil => exact ⟨_, rfl⟩
    | cons b l =>
      obtain ⟨e, he⟩ := ih (fun x hx => hp x (List.mem_cons_of_mem _ hx))
      obtain ⟨⟨r, q⟩, h3, h4⟩ := shortestPath_spec h hw (start := a) (fin := b) [] (hp a (by simp)) (hp b (by simp))
      cases hab : g.edge a b with
      | none => exact ⟨_, r, e, .inr ⟨hab, h4.isDist⟩, he, rfl⟩
      | some c => exact ⟨_, .fin c, e, .inl ⟨c, hab, rfl⟩, he, rfl⟩

theorem distanceFromPath_spec {g : Graph α Rat O} (h : g.Inv) (hw : NonNeg g.edge) {p : List α}
    (hp : ∀ x ∈ p, g.has x = true) : ∃ r, g.distanceFromPath p = some (.ok r) ∧ SumLegs g.edge p r := by
  obtain ⟨r, hr⟩ := dfpLoop_spec h hw p Dict.empty 0 hp (fun a b d hd => by simp at hd)
  rcases hr with ⟨⟨e, h1, h2⟩, h3⟩ | ⟨h1, h2, h3⟩
  · refine ⟨r, h3, ?_⟩
    rw [h2]
    cases e with
    | inf => exact h1
    | fin e => simp only [Ext.add]; rw [show (0 : Rat) + e = e by grind]; exact h1
  · obtain ⟨e, he⟩ := sumLegs_exists h hw hp
    cases e with
    | fin e => exact absurd ⟨e, he⟩ h2
    | inf => exact ⟨r, h3, by rw [h1]; exact he⟩

end GT

import Verif.Sp.Legs
/-
`distance_from_path` (graph/shortest_path.py:324-359): what it does when a node is missing or a leg cannot be travelled.
-/
namespace GT
variable {α V O : Type} [DecidableEq α]
open Graph

theorem leg_end_has {g : Graph α Rat O} (h : g.Inv) {a b : α} {d : Rat} (ha : g.has a = true) (hd : LegDist g.edge a b (.fin d)) : g.has b = true := by
  rcases hd with ⟨c, h1, _⟩ | ⟨_, h1⟩
  · exact has_iff.2 (h.edge_mem h1).2
  · obtain ⟨p, hp⟩ := h1.1
    exact walk_has h hp ha b (List.mem_of_getLast? hp.2.1)

theorem dfpLoop_cons (g : Graph α Rat O) (n1 n2 : α) (l : List α) (cache : Dict (α × α) Rat) (acc : Rat) :
    g.dfpLoop (n1 :: n2 :: l) cache acc = match truthy (g.edge n1 n2) with
    | some d => g.dfpLoop (n2 :: l) cache (acc + d)
    | none => match truthy (cache.get? (n1, n2)) with
      | some d => g.dfpLoop (n2 :: l) cache (acc + d)
      | none => match g.shortestPath n1 n2 with
        | none => none
        | some (.error e) => some (.error e)
        | some (.ok (.inf, _)) => some (.ok .inf)
        | some (.ok (.fin d, _)) => g.dfpLoop (n2 :: l) (cache.set (n1, n2) d) (acc + d) := by
  conv => lhs; unfold dfpLoop
  cases truthy (g.edge n1 n2) with
  | some d => rfl
  | none => cases truthy (cache.get? (n1, n2)) with
    | some d => rfl
    | none => cases g.shortestPath n1 n2 with
      | none => rfl
      | some r => cases r with
        | error e => rfl
        | ok x => obtain ⟨d, p⟩ := x; cases d <;> rfl

/-- the loop gets through a part of the path that can be travelled -/
theorem dfpLoop_prefix {g : Graph α Rat O} (h : g.Inv) (hw : NonNeg g.edge) (pre : List α) :
    ∀ (cache : Dict (α × α) Rat) (acc : Rat) (a : α) (rest : List α) (q : Rat), (∀ x ∈ pre, g.has x = true) → SumLegs g.edge (pre ++ [a]) (.fin q) →
    (∀ a b d, cache.get? (a, b) = some d → g.has a = true ∧ LegDist g.edge a b (.fin d)) →
    ∃ cache' acc', (∀ a b d, cache'.get? (a, b) = some d → g.has a = true ∧ LegDist g.edge a b (.fin d)) ∧
      (pre = [] → cache' = cache) ∧ (pre ≠ [] → g.has a = true) ∧ g.dfpLoop (pre ++ a :: rest) cache acc = g.dfpLoop (a :: rest) cache' acc' := by
  induction pre with
  | nil => intro cache acc a rest q _ _ hc; exact ⟨cache, acc, hc, fun _ => rfl, fun h => absurd rfl h, rfl⟩
  | cons x pre ih =>
    intro cache acc a rest q hp hq hc
    obtain ⟨y, l, el, et⟩ : ∃ y l, pre ++ [a] = y :: l ∧ pre ++ a :: rest = y :: (l ++ rest) := by
      cases pre with
      | nil => exact ⟨a, [], rfl, rfl⟩
      | cons z pre => exact ⟨z, pre ++ [a], rfl, by simp⟩
    have hx := hp x (by simp)
    rw [List.cons_append, el] at hq
    obtain ⟨d, e, h1, h2, h3⟩ := hq
    obtain ⟨d, rfl⟩ : ∃ d', d = .fin d' := by cases d with
      | inf => simp [Ext.add] at h3
      | fin d => exact ⟨d, rfl⟩
    obtain ⟨e, rfl⟩ : ∃ e', e = .fin e' := by cases e with
      | inf => simp [Ext.add] at h3
      | fin e => exact ⟨e, rfl⟩
    have hy := leg_end_has h hx h1
    have hrec : ∀ cache0 acc0, (∀ a b d, cache0.get? (a, b) = some d → g.has a = true ∧ LegDist g.edge a b (.fin d)) →
        ∃ cache' acc', (∀ a b d, cache'.get? (a, b) = some d → g.has a = true ∧ LegDist g.edge a b (.fin d)) ∧
          (x :: pre = [] → cache' = cache) ∧ (x :: pre ≠ [] → g.has a = true) ∧
          g.dfpLoop (pre ++ a :: rest) cache0 acc0 = g.dfpLoop (a :: rest) cache' acc' := by
      intro cache0 acc0 hc0
      obtain ⟨c1, a1, h4, h5, h6, h7⟩ := ih cache0 acc0 a rest e (fun z hz => hp z (List.mem_cons_of_mem _ hz)) (by rw [el]; exact h2) hc0
      refine ⟨c1, a1, h4, (fun h => nomatch h), fun _ => ?_, h7⟩
      by_cases hpre : pre = []
      · subst hpre
        simp only [List.nil_append, List.cons.injEq] at el
        rw [el.1]; exact hy
      · exact h6 hpre
    have goal : ∀ cache0 acc0, g.dfpLoop (x :: pre ++ a :: rest) cache acc = g.dfpLoop (pre ++ a :: rest) cache0 acc0 →
        (∀ a b d, cache0.get? (a, b) = some d → g.has a = true ∧ LegDist g.edge a b (.fin d)) → _ := fun cache0 acc0 e0 hc0 => by
      have := hrec cache0 acc0 hc0
      rw [← e0] at this
      exact this
    have step : g.dfpLoop (x :: pre ++ a :: rest) cache acc = g.dfpLoop (x :: y :: (l ++ rest)) cache acc := by rw [List.cons_append, et]
    cases ht : truthy (g.edge x y) with
    | some c => exact goal cache (acc + c) (by rw [step, et, dfpLoop_cons, ht]) hc
    | none =>
      cases ht2 : truthy (cache.get? (x, y)) with
      | some c => exact goal cache (acc + c) (by rw [step, et, dfpLoop_cons, ht]; dsimp only; rw [ht2]) hc
      | none =>
        obtain ⟨⟨r, s⟩, h4, h5⟩ := shortestPath_spec h hw (start := x) (fin := y) [] hx hy
        have h6 : LegDist g.edge x y r := legDist_of_isDist hw ht h5.isDist
        have h7 : r = .fin d := h6.unique h1
        subst h7
        refine goal (cache.set (x, y) d) (acc + d) (by rw [step, et, dfpLoop_cons, ht]; dsimp only; rw [ht2]; dsimp only; rw [h4]) ?_
        intro a' b' d' hd'
        rw [Dict.get?_set] at hd'
        split at hd'
        · rename_i heq; cases heq; cases hd'; exact ⟨hx, h6⟩
        · exact hc _ _ _ hd'

theorem distanceFromPath_stops {g : Graph α Rat O} (h : g.Inv) (hw : NonNeg g.edge) {pre rest : List α} {a b : α} {q : Rat}
    (hp : ∀ x ∈ pre, g.has x = true) (hq : SumLegs g.edge (pre ++ [a]) (.fin q)) :
    (¬ (g.has a = true ∧ g.has b = true) → g.distanceFromPath (pre ++ a :: b :: rest) = some (.error .valueError)) ∧
    (g.has a = true → g.has b = true → (¬ ∃ p c, WalkOf g.edge a b p c) → g.distanceFromPath (pre ++ a :: b :: rest) = some (.ok .inf)) := by
  unfold distanceFromPath
  obtain ⟨cache, acc, h1, h2, h3, h4⟩ := dfpLoop_prefix h hw pre Dict.empty 0 a (b :: rest) q hp hq (fun a b d hd => by simp at hd)
  rw [h4]
  have ht : ∀ {o : Option Rat}, o = none → truthy o = none := by rintro _ rfl; rfl
  constructor
  · intro hab
    have he : g.edge a b = none := by
      cases he : g.edge a b with
      | none => rfl
      | some c => exact absurd ⟨has_iff.2 (h.edge_mem he).1, has_iff.2 (h.edge_mem he).2⟩ hab
    have hca : cache.get? (a, b) = none := by
      cases hca : cache.get? (a, b) with
      | none => rfl
      | some d => exact absurd ⟨(h1 _ _ _ hca).1, leg_end_has h (h1 _ _ _ hca).1 (h1 _ _ _ hca).2⟩ hab
    unfold dfpLoop
    rw [ht he]; dsimp only
    rw [ht hca]; dsimp only
    rw [shortestPath_error [] hab]
  · intro ha hb hno
    have he : g.edge a b = none := by
      cases he : g.edge a b with
      | none => rfl
      | some c => exact absurd ⟨_, _, (WalkOf.single b).cons he⟩ hno
    have hca : cache.get? (a, b) = none := by
      cases hca : cache.get? (a, b) with
      | none => rfl
      | some d =>
        rcases (h1 _ _ _ hca).2 with ⟨c, h5, _⟩ | ⟨_, h5⟩
        · rw [he] at h5; cases h5
        · obtain ⟨p, hp⟩ := h5.1; exact absurd ⟨p, d, hp⟩ hno
    unfold dfpLoop
    rw [ht he]; dsimp only
    rw [ht hca]; dsimp only
    obtain ⟨⟨r, s⟩, h5, h6⟩ := shortestPath_spec h hw (start := a) (fin := b) [] ha hb
    rw [h5]
    rcases h6 with ⟨d, _, h7, _⟩ | ⟨h7, _⟩
    · exact absurd ⟨_, _, h7.1⟩ hno
    · cases h7; rfl

end GT

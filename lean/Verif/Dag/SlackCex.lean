import Verif.Dag.Slack
import Verif.Sort
/-
Fuelled evaluation of `critical_path_minimize_for_slack`, to exhibit concrete runs.  The fuelled
versions are used only to compute: if they return a result, so does the model.
-/
namespace GT
variable {α V O : Type} [DecidableEq α]
open Graph

/-- `critical_path` with at most `n` rounds of the topological sort -/
def cpFuel (n : Nat) (num : O → Option Rat) (srt : List α → List α) : CP α V O := fun g =>
  match runFuel (topoStep srt) n (g.copy, srt (g.copy.nodesInDeg 0), []) with
  | none => none
  | some (_, some e) => some (.error e)
  | some (order, none) =>
    match cpForward num g order (.empty, 0) with
    | .error e => some (.error e)
    | .ok (d, cpl) =>
      match cpBackward g cpl order.reverse d with
      | .error e => some (.error e)
      | .ok d => some (.ok (cpl, d))

theorem cpFuel_sound {n : Nat} {num : O → Option Rat} {srt : List α → List α} {g : Graph α V O}
    {r : Py (Rat × Dict α Task)} (h : cpFuel n num srt g = some r) : realCP num srt g = some r := by
  unfold cpFuel at h
  unfold realCP criticalPath topoList topologicalSort
  cases h1 : runFuel (topoStep srt) n (g.copy, srt (g.copy.nodesInDeg 0), []) with
  | none => rw [h1] at h; cases h
  | some x =>
    rw [h1] at h
    simp only [pyWhile_of_runFuel h1]
    obtain ⟨order, e⟩ := x
    cases e with
    | none => exact h
    | some e => exact h

variable {cp cp' : CP α V O} {one : V} {phases : Dict α Nat} {cpl : Rat}

theorem slackInner_mono (hc : ∀ g r, cp g = some r → cp' g = some r) {n1 : α} (l : List α) :
    ∀ s r, slackInner cp one phases cpl n1 l s = some r → slackInner cp' one phases cpl n1 l s = some r := by
  induction l with
  | nil => rintro ⟨ng, slack⟩ r h; exact h
  | cons n2 l ih =>
    rintro ⟨ng, slack⟩ r h
    unfold slackInner at h ⊢
    split at h
    · exact (by rw [if_pos (by assumption)]; exact ih _ _ h)
    · rw [if_neg (by assumption)]
      split at h
      · split at h
        · rw [if_pos (by assumption)]
          dsimp only at h ⊢
          split at h
          · cases h
          · rename_i h2; rw [hc _ _ h2]; exact h
          · rename_i h2; rw [hc _ _ h2]; simp only at h ⊢
            split at h
            · rw [if_pos (by assumption)]; exact ih _ _ h
            · rw [if_neg (by assumption)]
              split at h
              · rw [if_pos (by assumption)]
                split at h
                · rw [if_pos (by assumption)]; exact h
                · rw [if_neg (by assumption)]; exact ih _ _ h
              · rw [if_neg (by assumption)]; exact ih _ _ h
        · rw [if_neg (by assumption)]; exact ih _ _ h
      · exact h

theorem slackOuter_mono (hc : ∀ g r, cp g = some r → cp' g = some r) {ids : List α} (l : List α) :
    ∀ s r, slackOuter cp one phases cpl ids l s = some r → slackOuter cp' one phases cpl ids l s = some r := by
  induction l with
  | nil => intro s r h; exact h
  | cons n1 l ih =>
    intro s r h
    unfold slackOuter at h ⊢
    split at h
    · cases h
    · rename_i h2; rw [slackInner_mono hc _ _ _ h2]; exact h
    · rename_i h2; rw [slackInner_mono hc _ _ _ h2]; simp only at h ⊢
      split at h
      · rw [if_pos (by assumption)]; exact h
      · rw [if_neg (by assumption)]; exact ih _ _ h

theorem slackPurge_mono (hc : ∀ g r, cp g = some r → cp' g = some r) {g : Graph α V O} {slack : Rat}
    (l : List (α × α × V)) :
    ∀ s r, slackPurge cp one g cpl slack l s = some r → slackPurge cp' one g cpl slack l s = some r := by
  induction l with
  | nil => intro s r h; exact h
  | cons e l ih =>
    obtain ⟨n1, n2, v⟩ := e
    intro s r h
    unfold slackPurge at h ⊢
    split at h
    · rw [if_pos (by assumption)]; exact ih _ _ h
    · rw [if_neg (by assumption)]
      dsimp only at h ⊢
      split at h
      · cases h
      · rename_i h2; rw [hc _ _ h2]; exact h
      · rename_i h2; rw [hc _ _ h2]; simp only at h ⊢
        split at h
        · rw [if_pos (by assumption)]; exact ih _ _ h
        · rw [if_neg (by assumption)]; exact ih _ _ h

/-- `critical_path_minimize_for_slack` with bounded loops -/
def minFuel (n : Nat) (num : O → Option Rat) (srt : List α → List α) (one : V) (ord : Nat → List α → List α)
    (bySlack byDur : List (α × Task) → List (α × Task)) (g : Graph α V O) : Option (Py (Graph α V O)) :=
  match cpFuel n num srt g with
  | none => none
  | some (.error e) => some (.error e)
  | some (.ok (cpl, schedule)) =>
    if g.copy.nodesInDeg 0 = [] then none else
    match runFuel (phaseStep ord) n ⟨g.copy, g.copy.nodesInDeg 0, phaseInit g.nodeList, 0⟩ with
    | none => none
    | some (.error e) => some (.error e)
    | some (.ok phases) =>
      let slackNodes := bySlack (schedule.items.filter (fun p => decide (p.2.slack > 0)))
      let ids := slackNodes.map Prod.fst
      match slackOuter (cpFuel n num srt) one phases cpl ids ((byDur slackNodes).map Prod.fst) (g.copy, slackSum schedule) with
      | none => none
      | some (.error e) => some (.error e)
      | some (.ok (ng, slack)) => slackPurge (cpFuel n num srt) one g cpl slack ng.edgeList ng

theorem minFuel_sound {n : Nat} {num : O → Option Rat} {srt : List α → List α} {one : V}
    {ord : Nat → List α → List α} {bySlack byDur : List (α × Task) → List (α × Task)} {g : Graph α V O}
    {r : Py (Graph α V O)} (h : minFuel n num srt one ord bySlack byDur g = some r) :
    g.minimizeSlack (realCP num srt) one ord bySlack byDur = some r := by
  unfold minFuel at h
  unfold minimizeSlack phaseLines
  split at h
  · cases h
  · rename_i h2; rw [cpFuel_sound h2]; exact h
  · rename_i cpl d h2; rw [cpFuel_sound h2]; simp only
    split at h
    · cases h
    · rename_i hq
      simp only [hq, if_false]
      split at h
      · cases h
      · rename_i h3; rw [pyWhile_of_runFuel h3]; exact h
      · rename_i h3; rw [pyWhile_of_runFuel h3]; simp only at h ⊢
        split at h
        · cases h
        · rename_i h4
          simp only [slackOuter_mono (fun _ _ h => cpFuel_sound h) _ _ _ h4]; exact h
        · rename_i h4
          simp only [slackOuter_mono (fun _ _ h => cpFuel_sound h) _ _ _ h4]
          exact slackPurge_mono (fun _ _ h => cpFuel_sound h) _ _ _ h

end GT

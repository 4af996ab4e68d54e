import Verif.Props.Rail
import Verif.Sp.DistStop
/-
Argument checks of the searches, and the early exit of `distance_map` (C17, C18, C21, C22, C36, C37, C58).
-/
namespace GT
variable {α V O : Type} [DecidableEq α]
open Graph

/-- **C17** (errors).  `depth_scan` of a node that is not in the graph raises `ValueError`. -/
theorem C17_errors {g : Graph α V O} (start : α) (crit : α → Bool) (h : g.has start = false) :
    g.depthScan start crit = some (.error .valueError) := by
  unfold depthScan; simp [h]

example : sampleG.has 17 = false := by decide

/-- **C18** (errors).  `network_size` of a node that is not in the graph raises `ValueError`. -/
theorem C18_errors {g : Graph α V O} (ord : Nat → List α → List α) (n : α) (k : Option Int) (h : g.has n = false) :
    g.networkSize ord n k = some (.error .valueError) := by
  unfold networkSize; simp [h]

example : sampleG.has 17 = false := by decide

/-- **C21** (errors).  `all_paths` raises `ValueError` if an end point is missing or both are the same; it returns `[]` if there is no way. -/
theorem C21_errors {g : Graph α V O} (hg : g.Built) (start e : α) :
    ((g.has start = false ∨ g.has e = false ∨ start = e) → g.allPaths start e = some (.error .valueError)) ∧
    (g.has start = true → g.has e = true → start ≠ e → (¬ ∃ p, WalkFT g.Adj start e p) → g.allPaths start e = some (.ok [])) := by
  constructor
  · intro h
    unfold allPaths
    by_cases h1 : g.has start = true
    · by_cases h2 : g.has e = true
      · rcases h with h | h | h
        · rw [h1] at h; cases h
        · rw [h2] at h; cases h
        · simp [h1, h2, h]
      · simp [h1, h2]
    · simp [h1]
  · intro h1 h2 h3 h4
    obtain ⟨r, hr, hiff⟩ := C12_is_connected hg start e
    have : r = false := by
      cases r with
      | false => rfl
      | true => exact absurd ⟨_, (hiff.1 rfl).choose_spec.1⟩ h4
    subst this
    unfold allPaths
    simp [h1, h2, h3, hr]

example : sampleG.Built ∧ sampleG.has 1 = true ∧ sampleG.has 17 = false := ⟨⟨_, rfl⟩, by decide, by decide⟩

/-- **C22** (errors).  `sources` of a node that is not in the graph raises `ValueError`. -/
theorem C22_errors {g : Graph α V O} (n : α) (h : g.has n = false) : g.sources n = some (.error .valueError) := by
  unfold sources; simp [h]

example : sampleG.has 17 = false := by decide

/-- **C37** (errors).  `loop` raises `ValueError` if a given node is missing. -/
theorem C37_errors {g : Graph α Rat O} (start mid : α) (fin : Option α)
    (h : g.has start = false ∨ g.has mid = false ∨ ∃ e, fin = some e ∧ g.has e = false) :
    g.loop start mid fin = some (.error .valueError) := by
  unfold Graph.loop
  by_cases h1 : g.has start = true
  · by_cases h2 : g.has mid = true
    · rcases h with h | h | ⟨e, rfl, h⟩
      · rw [h1] at h; cases h
      · rw [h2] at h; cases h
      · simp [h1, h2, h]
    · simp [h1, h2]
  · simp [h1]

example : sampleG.has 1 = true ∧ sampleG.has 2 = true ∧ ∃ e, some 17 = some e ∧ sampleG.has e = false :=
  ⟨by decide, by decide, 17, rfl, by decide⟩

/-- **C58**, `Train(rail_network, start_location, access)`: `AssertionError` unless the start and every access node are in the network; then a
train at the start with an empty schedule. -/
theorem C58_train (net : Graph α Rat O) (start : α) (access : List α) :
    (net.has start = true ∧ (∀ n ∈ access, net.has n = true) → newTrain net start access = .ok ⟨net, start, access, []⟩) ∧
    (¬ (net.has start = true ∧ ∀ n ∈ access, net.has n = true) → newTrain net start access = .error .assertionError) := by
  unfold newTrain
  constructor
  · rintro ⟨h1, h2⟩
    rw [if_neg (not_not_intro (has_iff.1 h1)), if_neg]
    rw [List.all_eq_true.2 h2]; simp
  · intro h
    by_cases h1 : net.has start = true
    · rw [if_neg (not_not_intro (has_iff.1 h1)), if_pos]
      rw [Bool.not_eq_true', Bool.eq_false_iff]
      intro h2
      exact h ⟨h1, List.all_eq_true.1 h2⟩
    · rw [if_pos (fun hm => h1 (has_iff.2 hm))]

example : railG.has 2 = true ∧ railG.has 3 = true ∧ railG.has 77 = false ∧ newTrain railG 2 [3, 77] = .error .assertionError :=
  ⟨by decide +kernel, by decide +kernel, by decide +kernel, (C58_train railG 2 [3, 77]).2 (fun h => absurd (h.2 77 (by simp)) (by decide +kernel))⟩

/-- **C36**, `ends`: the walk is not continued behind the last end.  Every key of `distance_map(starts, ends)` is a start, or an edge leads to
it from a key `y` before which (in the order of the keys) some end is missing; likewise for `reverse=True` against the edges. -/
theorem C36_stops_at_ends {g : Graph α Rat O} (hg : g.Built) {ord : List α → List α} (hord : ∀ l, (ord l).Perm l)
    (S es : List α) (hS : ∀ x ∈ S, g.has x = true) (hT : ∀ x ∈ es, g.has x = true) :
    (∃ r, g.distanceMap ord (some S) (some es) false = some (.ok r) ∧
      ∀ x ∈ r.keys, x ∈ S ∨ ∃ l1 y l2, r.keys = l1 ++ y :: l2 ∧ g.Adj y x ∧ ∃ e ∈ es, e ∉ l1) ∧
    (∃ r, g.distanceMap ord (some es) (some S) true = some (.ok r) ∧
      ∀ x ∈ r.keys, x ∈ S ∨ ∃ l1 y l2, r.keys = l1 ++ y :: l2 ∧ g.Adj x y ∧ ∃ e ∈ es, e ∉ l1) := by
  have hi := hg.inv
  have hnS : S.any (fun s => !g.has s) = false := by
    rw [List.any_eq_false]; intro x hx; simp [hS x hx]
  have hnT : es.any (fun s => !g.has s) = false := by
    rw [List.any_eq_false]; intro x hx; simp [hT x hx]
  have e1 : g.distanceMap ord (some S) (some es) false = dmWalk ord g.outNbr S (some es) := by
    unfold distanceMap; simp only [Option.getD_some, hnS, hnT]; simp
  have e2 : g.distanceMap ord (some es) (some S) true = dmWalk ord g.inNbr S (some es) := by
    unfold distanceMap; simp only [Option.getD_some, hnS, hnT]; simp
  constructor
  · obtain ⟨r, h1, _⟩ := C36_distance_map_partial hg hord S hS (some es) (fun _ h => by cases h; exact hT)
    refine ⟨r, h1, fun x hx => ?_⟩
    rw [e1] at h1
    rcases dmWalk_stops hord h1 x hx with h | ⟨l1, y, l2, c, h2, h3, h4⟩
    · exact .inl h
    · exact .inr ⟨l1, y, l2, h2, by rw [Adj, (hi.mem_outNbr).1 h3]; rfl, h4⟩
  · obtain ⟨r, h1, _⟩ := C36_distance_map_reverse_partial hg hord S hS (some es) (fun _ h => by cases h; exact hT)
    refine ⟨r, h1, fun x hx => ?_⟩
    rw [e2] at h1
    rcases dmWalk_stops hord h1 x hx with h | ⟨l1, y, l2, c, h2, h3, h4⟩
    · exact .inl h
    · exact .inr ⟨l1, y, l2, h2, by rw [Adj, (hi.mem_inNbr).1 h3]; rfl, h4⟩

/-- the hypotheses are met; the walk from 1 to 1 expands 1 only and does not find 4, which is behind 2 -/
example : dmG.Built ∧ (∀ x ∈ [1], dmG.has x = true) ∧
    dmG.distanceMap id (some [1]) (some [1]) false = some (.ok ⟨[(1, 0), (2, 10), (3, 1)]⟩) := by
  refine ⟨⟨_, rfl⟩, by decide +kernel, ?_⟩
  unfold distanceMap dmWalk
  simp only [show (dmG.has 1) = true from by decide +kernel]
  exact pyWhile_of_runFuel (n := 5) (by decide +kernel)

/-! ### C21: what `all_paths` returns on graphs with cycles -/

theorem apInner_mono {succ : α → List α} {c1 c2 : α → α → Option Bool} (hc : ∀ a b r, c1 a b = some r → c2 a b = some r) (n1 : α)
    (np : List (List α)) (l : List α) : ∀ s r, apInner succ c1 n1 np l s = some r → apInner succ c2 n1 np l s = some r := by
  induction l with
  | nil => intro s r h; exact h
  | cons n2 l ih =>
    intro s r h
    unfold apInner at h ⊢
    split
    · rename_i hm; rw [if_pos hm] at h; exact ih _ _ h
    · rename_i hm; rw [if_neg hm] at h
      dsimp only at h ⊢
      have hl : ∀ b, apLookup c1 s.cache n2 n1 = some b → apLookup c2 s.cache n2 n1 = some b := by
        intro b hb
        unfold apLookup at hb ⊢
        split
        · rename_i h1; rw [h1] at hb; exact hb
        · rename_i h1; rw [h1] at hb; exact hc _ _ _ hb
      cases hb : apLookup c1 s.cache n2 n1 with
      | none => rw [hb] at h; cases h
      | some con =>
        rw [hb] at h; rw [hl con hb]
        dsimp only at h ⊢
        generalize (if (decide ((succ n2).length > 1) && con) = true then forkScan n2 np (succ n2) s.skip else Except.ok s.skip) = f at h ⊢
        cases f with
        | error er => exact h
        | ok skip => exact ih _ _ h

theorem apStep_mono {succ : α → List α} {c1 c2 : α → α → Option Bool} (hc : ∀ a b r, c1 a b = some r → c2 a b = some r) (e : α) (s : ApState α) :
    ∀ r, apStep succ c1 e s = some r → apStep succ c2 e s = some r := by
  intro r h
  unfold apStep at h ⊢
  split
  · rename_i h1; rw [h1] at h; exact h
  · rename_i n1 q h1
    rw [h1] at h
    dsimp only at h
    split
    · rename_i h2; rw [if_pos h2] at h; exact h
    · rename_i h2; rw [if_neg h2] at h
      dsimp only at h ⊢
      cases hi : apInner succ c1 n1 (s.paths.filter (fun p => p.getLast? = some n1)) (succ n1) { s with q := q } with
      | none => rw [hi] at h; cases h
      | some x => rw [hi] at h; rw [apInner_mono hc _ _ _ _ _ hi]; exact h

theorem runFuelD_mono {σ ρ : Type} {s1 s2 : σ → Option (σ ⊕ ρ)} (h : ∀ s r, s1 s = some r → s2 s = some r) (n : Nat) : ∀ s r,
    runFuelD s1 n s = some r → runFuelD s2 n s = some r := by
  induction n with
  | zero => intro s r h; cases h
  | succ n ih =>
    intro s r hr
    unfold runFuelD at hr ⊢
    cases h1 : s1 s with
    | none => rw [h1] at hr; cases hr
    | some x =>
      rw [h1] at hr; rw [h s x h1]
      cases x with
      | inl s' => exact ih _ _ hr
      | inr r' => exact hr

/-- `is_connected` with at most `k` iterations -/
def connFuel (k : Nat) (g : Graph α V O) (a b : α) : Option Bool :=
  if g.edges.contains a then runFuel (connStep g.nodesFrom b) k ([a], []) else some false

theorem connFuel_le {k : Nat} {g : Graph α V O} (a b : α) (r : Bool) (h : connFuel k g a b = some r) : g.isConnected a b = some r := by
  unfold connFuel at h
  unfold isConnected
  split
  · rename_i hc; rw [if_pos hc] at h; exact pyWhile_of_runFuel h
  · rename_i hc; rw [if_neg hc] at h; exact h

theorem allPaths_eval {g : Graph α V O} {start e : α} {ps : List (List α)} (k n : Nat) (hs : g.has start = true) (he : g.has e = true)
    (hse : start ≠ e) (hc : connFuel k g start e = some true)
    (h : runFuelD (apStep g.nodesFrom (connFuel k g) e) n ⟨.empty, [[start]], [start], []⟩ = some (.ok ps)) :
    g.allPaths start e = some (.ok (ps.filter (fun p => p.getLast? = some e))) := by
  rw [allPaths_connected hs he hse (connFuel_le _ _ _ hc),
    pyWhileD_of_runFuel (runFuelD_mono (fun s r => apStep_mono connFuel_le e s r) n _ _ h)]

/-- `0 → 1 → 2` with a way back from 1 to 0 -/
def backG : Graph Nat Nat Nat := run [E 0 1 1, E 1 2 1, E 1 0 1]

/-- **C21**: the paths need not be simple.  With a way back, `all_paths` goes round the cycle once more. -/
theorem C21_repeated_nodes_counterexample : backG.Built ∧ backG.allPaths 0 2 = some (.ok [[0, 1, 2], [0, 1, 0, 1, 2]]) :=
  ⟨⟨_, rfl⟩, allPaths_eval 20 20 (ps := [[0, 1, 2], [0, 1, 0, 1, 2]]) (by decide +kernel) (by decide +kernel) (by decide) (by decide +kernel) (by decide +kernel)⟩

/-- `0 → 1 → 3`, `0 → 2 → 1` and a way back from 1 to 0 -/
def missG : Graph Nat Nat Nat := run [E 0 1 1, E 0 2 1, E 1 3 1, E 1 0 1, E 2 1 1]

/-- **C21** (violated, completeness).  On a graph with a cycle `all_paths` may miss a simple path: here `0, 2, 1, 3`. -/
theorem C21_missing_path_counterexample : missG.Built ∧ missG.allPaths 0 3 = some (.ok [[0, 1, 3]]) ∧
    WalkFT missG.Adj 0 3 [0, 2, 1, 3] ∧ [0, 2, 1, 3].Nodup :=
  ⟨⟨_, rfl⟩, allPaths_eval 20 20 (ps := [[0, 2], [0, 1, 3], [0, 1, 0, 2]]) (by decide +kernel) (by decide +kernel) (by decide) (by decide +kernel) (by decide +kernel),
    ⟨⟨by decide +kernel, by decide +kernel, by decide +kernel, trivial⟩, rfl, rfl⟩, by decide⟩

end GT

import Verif.Search.NoneNode
import Verif.Search.NoneEnds
import Verif.Props.Search
import Verif.Props.Sp
/-
Property theorems C125: `None` as a node.  `nn` is the node `None`; `shortestPathN`, `breadthFirstSearchN`, `depthFirstSearchN` and `allSimplePathsN` are the
programs in which `nodes(from_node=None)` and `edges(from_node=None)` are the calls without arguments, and `while node is not None` stops at the node `None`.
-/
namespace GT
open Graph
variable {α V O : Type} [DecidableEq α]

/-- there is an edge from `a` to `b` -/
def HasEdge (g : Graph α V O) (a b : α) : Prop := ∃ v, g.edge a b = some v

/-- **C125**: what `None` cannot be reached from does not see it: `breadth_first_search`, `depth_first_search`, `all_simple_paths` and `shortest_path` return
what they return in C13, C16, C20 and C28. -/
theorem C125_none_unreachable {nn : α} {g : Graph α V O} (hg : g.Built) {start : α} (hn : ¬ Reach (HasEdge g) start nn) (e : α) :
    g.breadthFirstSearchN nn start e = g.breadthFirstSearch start e ∧
    g.depthFirstSearchN nn start e = g.depthFirstSearch start e ∧
    g.allSimplePathsN nn start e = g.allSimplePaths start e := by
  refine ⟨?_, depthFirstSearchN_eq (.inr hn), allSimplePathsN_eq (.inr hn)⟩
  by_cases h : g.has start = true ∧ g.has e = true
  · obtain ⟨p, hp, _⟩ := (C13_breadth_first_search hg start e).1 h
    rw [hp]; exact breadthFirstSearchN_eq hn hp
  · rw [(C13_breadth_first_search hg start e).2 h]
    unfold breadthFirstSearchN
    by_cases hs : g.has start = true
    · have he : g.has e = false := by
        cases he : g.has e with
        | false => rfl
        | true => exact absurd ⟨hs, he⟩ h
      simp [hs, he]
    · simp only [Bool.not_eq_true] at hs
      simp [hs]

theorem C125_none_unreachable_shortest_path {nn : α} {g : Graph α Rat O} (hg : g.Built) {start : α} (hn : ¬ Reach (HasEdge g) start nn) (e : α)
    (avoids : List α) : g.shortestPathN nn start e avoids = g.shortestPath start e avoids := shortestPathN_eq hg.inv avoids (.inr hn)

/-- **C125**: in particular nothing is lost if `None` is not a node. -/
theorem C125_none_absent {nn : α} {g : Graph α V O} (hg : g.Built) (hn : g.has nn = false) {start : α} (hs : g.has start = true) :
    ¬ Reach (HasEdge g) start nn := by
  have : ∀ n b, Steps (HasEdge g) n start b → g.has b = true := by
    intro n b h
    cases h with
    | zero => exact hs
    | succ _ h2 =>
      obtain ⟨v, hv⟩ := h2
      exact has_iff.2 (hg.inv.edge_mem hv).2
  rintro ⟨n, h⟩
  rw [this n nn h] at hn
  cases hn

/-- **C125**: `None` as the end is found by `depth_first_search`, `all_simple_paths` and `shortest_path` as any other node would be. -/
theorem C125_none_as_end (nn : α) (g : Graph α V O) (start : α) :
    g.depthFirstSearchN nn start nn = g.depthFirstSearch start nn ∧ g.allSimplePathsN nn start nn = g.allSimplePaths start nn :=
  ⟨depthFirstSearchN_eq (.inl rfl), allSimplePathsN_eq (.inl rfl)⟩

theorem C125_none_as_end_shortest_path (nn : α) {g : Graph α Rat O} (hg : g.Built) (start : α) (avoids : List α) :
    g.shortestPathN nn start nn avoids = g.shortestPath start nn avoids := shortestPathN_eq hg.inv avoids (.inl rfl)

/-- **C125**: in general the searches take `None` for a node with an edge to every node (`StepN`): `depth_first_search` returns a way of such steps, if there is
one, and `breadth_first_search` the part after the last `None` of a shortest such way (all of it, if there is no `None`). -/
theorem C125_none_leads_everywhere {nn : α} {g : Graph α V O} (hg : g.Built) (hn : g.has nn = true) {start e : α} (hs : g.has start = true) (he : g.has e = true) :
    (∃ r, g.depthFirstSearchN nn start e = some (.ok r) ∧
      match r with
      | none => ¬ ∃ p, WalkFT (StepN nn g) start e p
      | some p => WalkFT (StepN nn g) start e p ∧ p.Nodup) ∧
    ∃ l, g.breadthFirstSearchN nn start e = some (.ok l) ∧
      ((¬ ∃ p, WalkFT (StepN nn g) start e p) → l = []) ∧
      ((∃ p, WalkFT (StepN nn g) start e p) → ∃ p, WalkFT (StepN nn g) start e p ∧ (∀ p', WalkFT (StepN nn g) start e p' → p.length ≤ p'.length) ∧
        nn ∉ l ∧ (l = p ∨ ∃ p0, p = p0 ++ nn :: l)) := by
  simp only [← reach_iff_walk]
  exact ⟨depthFirstSearchN_spec hg.inv hn hs he, breadthFirstSearchN_spec hg.inv hn hs he⟩

/-- **C125**: and all four come to an end. -/
theorem C125_always_ends (nn : α) {g : Graph α V O} (hg : g.Built) (start e : α) :
    g.depthFirstSearchN nn start e ≠ none ∧ g.breadthFirstSearchN nn start e ≠ none ∧ g.allSimplePathsN nn start e ≠ none := by
  by_cases hse : g.has start = true ∧ g.has e = true
  · obtain ⟨hs, he⟩ := hse
    by_cases hn : g.has nn = true
    · obtain ⟨r, hr, _⟩ := depthFirstSearchN_spec hg.inv hn hs he
      obtain ⟨l, hl, _⟩ := breadthFirstSearchN_spec hg.inv hn hs he
      rw [hr, hl]
      exact ⟨by simp, by simp, allSimplePathsN_ends hg.inv start e⟩
    · obtain ⟨h1, h2, _⟩ := C125_none_unreachable hg (C125_none_absent hg (by simpa using hn) hs) e
      obtain ⟨p, hp, _⟩ := (C13_breadth_first_search hg start e).1 ⟨hs, he⟩
      refine ⟨?_, by rw [h1, hp]; simp, allSimplePathsN_ends hg.inv start e⟩
      rw [h2]
      unfold depthFirstSearch
      simp only [hs, he, Bool.not_true, Bool.false_eq_true, if_false]
      obtain ⟨r, hr, _⟩ := dfs_total hg.inv.finiteFrom (has_iff.1 hs) e
      rw [hr]; simp
  · refine ⟨?_, ?_, allSimplePathsN_ends hg.inv start e⟩
    · unfold depthFirstSearchN
      by_cases hs : g.has start = true
      · have he : ¬ g.has e = true := fun he => hse ⟨hs, he⟩
        simp [hs, he]
      · simp [hs]
    · unfold breadthFirstSearchN
      by_cases hs : g.has start = true
      · have he : ¬ g.has e = true := fun he => hse ⟨hs, he⟩
        simp [hs, he]
      · simp [hs]

theorem C125_shortest_path_always_ends (nn : α) {g : Graph α Rat O} (hg : g.Built) (start e : α) (avoids : List α) :
    g.shortestPathN nn start e avoids ≠ none := shortestPathN_ends hg.inv start e avoids

/-! ### what goes wrong -/

/-- an edge between nodes that may be `None` -/
def U (a b : Option Nat) (v : Rat) : Op (Option Nat) Rat Nat := .addEdge a b (.scalar v) false

/-- `None → 1`, `2 → 3` -/
def fromNone : Graph (Option Nat) Rat Nat := run [U none (some 1) 5, U (some 2) (some 3) 1]

/-- **C125** does not hold of `None` as the start: in the graph `None → 1`, `2 → 3` there is no way from `None` to 3, but `shortest_path(None, 3)` returns
`(1, [None, 3])`, `depth_first_search(None, 3)` returns `[None, 2, 3]`. -/
theorem C125_none_as_start_counterexample :
    fromNone.shortestPathN none none (some 3) = some (.ok (.fin 1, [none, some 3])) ∧
    fromNone.depthFirstSearchN none none (some 3) = some (.ok (some [none, some 2, some 3])) ∧
    fromNone.shortestPath none (some 3) = some (.ok (.inf, [])) ∧ fromNone.edge none (some 3) = none ∧ fromNone.edge none (some 2) = none := by
  refine ⟨?_, ?_, ?_, by decide +kernel, by decide +kernel⟩
  · unfold shortestPathN
    rw [if_neg (by decide +kernel), if_neg (by decide +kernel), pyWhile_of_runFuel (n := 20) (r := (.fin 1, [none, some 3])) (by decide +kernel)]
  · unfold depthFirstSearchN
    rw [if_neg (by decide +kernel), if_neg (by decide +kernel), pyWhile_of_runFuel (n := 20) (r := some [none, some 2, some 3]) (by decide +kernel)]
  · unfold shortestPath
    rw [if_neg (by decide +kernel), if_neg (by decide +kernel), pyWhile_of_runFuel (n := 20) (r := (.inf, [])) (by decide +kernel)]

/-- `1 → None → 2 → 3` -/
def viaNone : Graph (Option Nat) Rat Nat := run [U (some 1) none 1, U none (some 2) 1, U (some 2) (some 3) 1]

/-- **C125** does not hold of `None` on the way: with `1 → None → 2 → 3`, `breadth_first_search(1, 3)` returns `[3]`, `breadth_first_search(1, None)` returns
`[]`, `shortest_path(1, 3)` returns `(2, [1, None, 3])` instead of `(3, [1, None, 2, 3])`, and `all_simple_paths(1, 3)` has a path too many. -/
theorem C125_none_on_the_way_counterexample :
    viaNone.breadthFirstSearchN none (some 1) (some 3) = some (.ok [some 3]) ∧
    viaNone.breadthFirstSearchN none (some 1) none = some (.ok []) ∧
    viaNone.shortestPathN none (some 1) (some 3) = some (.ok (.fin 2, [some 1, none, some 3])) ∧
    viaNone.allSimplePathsN none (some 1) (some 3) = some (.ok [[some 1, none, some 3], [some 1, none, some 2, some 3]]) ∧
    viaNone.edge none (some 3) = none := by
  refine ⟨?_, ?_, ?_, ?_, by decide +kernel⟩
  · unfold breadthFirstSearchN
    rw [if_neg (by decide +kernel), if_neg (by decide +kernel),
      pyWhile_of_runFuel (n := 20) (r := some (some 3, ⟨[(some 1, none), (none, some 1), (some 2, none), (some 3, none)]⟩)) (by decide +kernel)]
    exact pyWhile_of_runFuel (n := 20) (by decide +kernel)
  · unfold breadthFirstSearchN
    rw [if_neg (by decide +kernel), if_neg (by decide +kernel),
      pyWhile_of_runFuel (n := 20) (r := some (none, ⟨[(some 1, none), (none, some 1)]⟩)) (by decide +kernel)]
    exact pyWhile_of_runFuel (n := 20) (by decide +kernel)
  · unfold shortestPathN
    rw [if_neg (by decide +kernel), if_neg (by decide +kernel), pyWhile_of_runFuel (n := 20) (r := (.fin 2, [some 1, none, some 3])) (by decide +kernel)]
  · unfold allSimplePathsN isConnected
    rw [if_neg (by decide +kernel), if_neg (by decide +kernel), if_neg (by decide +kernel), if_pos (by decide +kernel),
      pyWhile_of_runFuel (n := 20) (r := true) (by decide +kernel)]
    dsimp only
    rw [pyWhile_of_runFuel (n := 20) (r := .ok [[some 3, none, some 1], [some 3, some 2, none, some 1]]) (by decide +kernel)]
    rfl

/-- the hypotheses are met: `None` cannot be reached from 2, and is an end that is found -/
example : ¬ Reach (HasEdge fromNone) (some 2) none ∧ fromNone.shortestPathN none (some 2) (some 3) = some (.ok (.fin 1, [some 2, some 3])) ∧
    viaNone.shortestPathN none (some 1) none = some (.ok (.fin 1, [some 1, none])) ∧ viaNone.has none = true ∧
    WalkFT (StepN none viaNone) (some 1) (some 3) [some 1, none, some 3] := by
  refine ⟨?_, ?_, ?_, by decide +kernel, ⟨⟨.inr ⟨1, by decide +kernel⟩, .inl ⟨rfl, by decide +kernel⟩, trivial⟩, rfl, rfl⟩⟩
  · have key : ∀ n a b, Steps (HasEdge fromNone) n a b → a = some 2 → b = some 2 ∨ b = some 3 := by
      intro n a b h ha
      induction h with
      | zero => exact .inl ha
      | succ _ h2 ih =>
        obtain ⟨v, hv⟩ := h2
        have hm := Built.inv ⟨_, rfl⟩ |>.mem_edgeList.2 hv
        change _ ∈ fromNone.edgeList at hm
        have hl : fromNone.edgeList = [(none, some 1, 5), (some 2, some 3, 1)] := by decide +kernel
        rw [hl] at hm
        simp at hm
        rcases hm with ⟨rfl, _⟩ | ⟨_, rfl, _⟩
        · rcases ih ha with h | h <;> cases h
        · exact .inr rfl
    rintro ⟨n, h⟩
    rcases key n _ none h rfl with h | h <;> cases h
  · unfold shortestPathN
    rw [if_neg (by decide +kernel), if_neg (by decide +kernel), pyWhile_of_runFuel (n := 20) (r := (.fin 1, [some 2, some 3])) (by decide +kernel)]
  · unfold shortestPathN
    rw [if_neg (by decide +kernel), if_neg (by decide +kernel), pyWhile_of_runFuel (n := 20) (r := (.fin 1, [some 1, none])) (by decide +kernel)]

end GT

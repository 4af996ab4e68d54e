import Verif.Graph.Inv
import Verif.Sort
import Verif.Spec.Space
/-
Model of `Graph3D.n_nearest_neighbours` (graph/core.py:380-393).
-/
namespace GT
open Graph
variable {V O : Type}

/-- a node of a `Graph3D`.  Simplification: coordinates are exact numbers (floats: no rounding, no `nan`/`inf`). -/
abbrev Pt := Rat × Rat × Rat

/-- an argument: a tuple, whose elements are numbers (`some q`) or something else (`none`), or no tuple -/
inductive PtArg where
  | tuple (l : List (Option Rat))
  | other

/-- an argument: an integer or something else -/
inductive IntArg where
  | int (n : Int)
  | other

/-- the elements of a tuple, if all are numbers -/
def allNum : List (Option Rat) → Option (List Rat)
  | [] => some []
  | none :: _ => none
  | some q :: l => (allNum l).map (fun r => q :: r)

/-- `_check_tuples` (core.py:340-346); the checked value -/
def checkTuple : PtArg → Py Pt
  | .other => .error .typeError
  | .tuple l => if l.length ≠ 3 then .error .valueError else match allNum l with
    | some [x, y, z] => .ok (x, y, z)
    | _ => .error .typeError

/-- the square of `Graph3D.distance` (core.py:348-361).  Simplification: `(...) ** (1/2)` is not taken; it is strictly monotone, and
only the order of distances is used. -/
def dist2 (p q : Pt) : Rat := (q.1 - p.1) * (q.1 - p.1) + (q.2.1 - p.2.1) * (q.2.1 - p.2.1) + (q.2.2 - p.2.2) * (q.2.2 - p.2.2)

/-- `<` on tuples `(x, y, z)` -/
def ptLt (a b : Pt) : Bool :=
  if a.1 = b.1 then if a.2.1 = b.2.1 then decide (a.2.2 < b.2.2) else decide (a.2.1 < b.2.1) else decide (a.1 < b.1)

/-- `<` on tuples `(distance, node)` -/
def nearLt (p a b : Pt) : Bool := if dist2 p a = dist2 p b then ptLt a b else decide (dist2 p a < dist2 p b)

/-- `n_nearest_neighbours(node_id, n)` (core.py:380-393) -/
def Graph.nNearest (g : Graph Pt V O) (node : PtArg) (n : IntArg) : Py (Option (List Pt)) :=
  match checkTuple node with
  | .error e => .error e
  | .ok p => match n with
    | .other => .error .typeError
    | .int n =>
      if n < 1 then .error .valueError
      else
        let d := pySort (nearLt p) (g.nodeList.filter (fun m => decide (m ≠ p)))
        if d ≠ [] then .ok (some (d.take n.toNat)) else .ok none

/-! ### proofs -/

theorem dist2_eq (p q : Pt) : dist2 p q = sqDist p q := by
  obtain ⟨x, y, z⟩ := p
  obtain ⟨x', y', z'⟩ := q
  simp only [dist2, sqDist]
  grind

theorem ptLt_asymm (a b : Pt) (h : ptLt a b = true) : ptLt b a = false := by
  obtain ⟨a1, a2, a3⟩ := a
  obtain ⟨b1, b2, b3⟩ := b
  unfold ptLt at *
  dsimp only at *
  split at h
  · rename_i e1
    rw [if_pos e1.symm]
    split at h
    · rename_i e2; rw [if_pos e2.symm]; simp at h ⊢; grind
    · rename_i e2; rw [if_neg (fun h => e2 h.symm)]; simp at h ⊢; grind
  · rename_i e1
    rw [if_neg (fun h => e1 h.symm)]; simp at h ⊢; grind

theorem ptLt_ntrans (a b c : Pt) (h1 : ptLt b a = false) (h2 : ptLt c b = false) : ptLt c a = false := by
  obtain ⟨a1, a2, a3⟩ := a
  obtain ⟨b1, b2, b3⟩ := b
  obtain ⟨c1, c2, c3⟩ := c
  unfold ptLt at *
  dsimp only at *
  grind

theorem nearLt_asymm (p a b : Pt) (h : nearLt p a b = true) : nearLt p b a = false := by
  unfold nearLt at *
  split at h
  · rename_i e; rw [if_pos e.symm]; exact ptLt_asymm a b h
  · rename_i e; rw [if_neg (fun h => e h.symm)]; simp at h ⊢; grind

theorem nearLt_ntrans (p a b c : Pt) (h1 : nearLt p b a = false) (h2 : nearLt p c b = false) : nearLt p c a = false := by
  unfold nearLt at *
  by_cases e1 : dist2 p b = dist2 p a
  · rw [if_pos e1] at h1
    by_cases e2 : dist2 p c = dist2 p b
    · rw [if_pos e2] at h2
      rw [if_pos (e2.trans e1)]
      exact ptLt_ntrans a b c h1 h2
    · rw [if_neg e2] at h2
      rw [if_neg (fun h => e2 (h.trans e1.symm))]
      simp at h2 ⊢; grind
  · rw [if_neg e1] at h1
    split at h2
    · rename_i e2
      rw [if_neg (fun h => e1 (e2.symm.trans h))]
      simp at h1 ⊢; grind
    · rename_i e2
      simp at h1 h2
      rw [if_neg (by grind)]
      simp; grind

theorem nearLt_dist {p a b : Pt} (h : nearLt p b a = false) : dist2 p a ≤ dist2 p b := by
  unfold nearLt at h
  split at h
  · rename_i e; rw [e]; grind
  · simp at h; grind

/-- the result on valid arguments -/
theorem nNearest_spec {g : Graph Pt V O} (hg : g.Inv) (x y z : Rat) {n : Int} (hn : 1 ≤ n) :
    (g.nNearest (.tuple [some x, some y, some z]) (.int n) = .ok none ∧ ∀ m, g.has m = true → m = (x, y, z)) ∨
    ∃ r, g.nNearest (.tuple [some x, some y, some z]) (.int n) = .ok (some r) ∧ (∃ m, g.has m = true ∧ m ≠ (x, y, z)) ∧
      (r.length : Int) = min n (g.nodeList.filter (fun m => decide (m ≠ (x, y, z)))).length ∧ r.Nodup ∧
      (∀ m ∈ r, g.has m = true ∧ m ≠ (x, y, z)) ∧
      r.Pairwise (fun a b => dist2 (x, y, z) a ≤ dist2 (x, y, z) b) ∧
      ∀ m, g.has m = true → m ≠ (x, y, z) → m ∉ r → ∀ a ∈ r, dist2 (x, y, z) a ≤ dist2 (x, y, z) m := by
  have e : g.nNearest (.tuple [some x, some y, some z]) (.int n) =
      if pySort (nearLt (x, y, z)) (g.nodeList.filter (fun m => decide (m ≠ (x, y, z)))) ≠ [] then
        .ok (some ((pySort (nearLt (x, y, z)) (g.nodeList.filter (fun m => decide (m ≠ (x, y, z))))).take n.toNat)) else .ok none := by
    unfold nNearest checkTuple
    simp only [List.length_cons, List.length_nil, allNum, Option.map_some]
    rw [if_neg (by simp)]
    dsimp only
    rw [if_neg (by omega)]
  rw [e]
  have hp := pySort_perm (nearLt (x, y, z)) (g.nodeList.filter (fun m => decide (m ≠ (x, y, z))))
  have hs := pySort_pairwise (nearLt_ntrans (x, y, z)) (nearLt_asymm (x, y, z)) (g.nodeList.filter (fun m => decide (m ≠ (x, y, z))))
  have hmem : ∀ m, m ∈ g.nodeList ↔ g.has m = true := fun m => (Dict.contains_iff_keys _ _).symm
  generalize hd : pySort (nearLt (x, y, z)) (g.nodeList.filter (fun m => decide (m ≠ (x, y, z)))) = d at *
  have hdm : ∀ m, m ∈ d ↔ g.has m = true ∧ m ≠ (x, y, z) := by
    intro m
    rw [hp.mem_iff, List.mem_filter, hmem]; simp
  have hnd : d.Nodup := hp.nodup_iff.2 (List.Nodup.sublist List.filter_sublist hg.nodesWF)
  by_cases h0 : d = []
  · rw [if_neg (by simpa using h0)]
    refine .inl ⟨rfl, fun m hm => ?_⟩
    by_cases hne : m = (x, y, z)
    · exact hne
    · have := (hdm m).2 ⟨hm, hne⟩; rw [h0] at this; cases this
  · rw [if_pos h0]
    refine .inr ⟨_, rfl, ?_, ?_, List.Nodup.sublist (List.take_sublist _ _) hnd, fun m hm => (hdm m).1 (List.mem_of_mem_take hm),
      (List.Pairwise.sublist (List.take_sublist _ _) hs).imp nearLt_dist, fun m hm hne hnr a ha => ?_⟩
    · obtain ⟨m, hm⟩ := List.exists_mem_of_ne_nil d h0
      exact ⟨m, (hdm m).1 hm⟩
    · rw [List.length_take, ← hp.length_eq]; omega
    · have hm' := (hdm m).2 ⟨hm, hne⟩
      rw [← List.take_append_drop n.toNat d] at hm' hs
      rw [List.pairwise_append] at hs
      rcases List.mem_append.1 hm' with h | h
      · exact absurd h hnr
      · exact nearLt_dist (hs.2.2 a ha m h)

/-- invalid arguments -/
theorem nNearest_invalid (g : Graph Pt V O) (p : PtArg) (n : IntArg) :
    (∃ e, g.nNearest p n = .error e) ↔ ¬ ((∃ x y z, p = .tuple [some x, some y, some z]) ∧ ∃ k, n = .int k ∧ 1 ≤ k) := by
  have hc : (∃ e, checkTuple p = .error e) ↔ ¬ ∃ x y z, p = .tuple [some x, some y, some z] := by
    cases p with
    | other => exact ⟨fun _ => (fun ⟨_, _, _, h⟩ => nomatch h), fun _ => ⟨_, rfl⟩⟩
    | tuple l =>
      unfold checkTuple
      match l with
      | [] => simp
      | [_] => simp
      | [_, _] => simp
      | [a, b, c] => cases a <;> cases b <;> cases c <;> simp [allNum]
      | _ :: _ :: _ :: _ :: _ => simp
  unfold nNearest
  cases hp : checkTuple p with
  | error e => exact ⟨fun _ h => hc.1 ⟨e, hp⟩ h.1, fun _ => ⟨e, rfl⟩⟩
  | ok q =>
    have hval : ∃ x y z, p = .tuple [some x, some y, some z] := by
      apply Classical.byContradiction
      intro h
      obtain ⟨e, he⟩ := hc.2 h
      rw [hp] at he; cases he
    dsimp only
    cases n with
    | other => exact ⟨fun _ => (fun ⟨_, _, h, _⟩ => nomatch h), fun _ => ⟨_, rfl⟩⟩
    | int k =>
      dsimp only
      by_cases hk : k < 1
      · rw [if_pos hk]
        exact ⟨fun _ ⟨_, k', h1, h2⟩ => by cases h1; omega, fun _ => ⟨_, rfl⟩⟩
      · rw [if_neg hk]
        refine ⟨fun ⟨e, he⟩ => ?_, fun h => absurd ⟨hval, k, rfl, by omega⟩ h⟩
        split at he <;> cases he

end GT

import Verif.Other.GraphHash
import Verif.Sp.Dijkstra
/-
`graph_hash` on nodes that cannot be compared.
-/
namespace GT
variable {α V O C : Type} [DecidableEq α]
open Graph

/-- the tuples `(n1, n2, value)` can be compared: the first components that differ can -/
def tupleCmp (cmp : α → α → Bool) (vcmp : V → V → Bool) (e f : α × α × V) : Bool :=
  if e.1 ≠ f.1 then cmp e.1 f.1 else if e.2.1 ≠ f.2.1 then cmp e.2.1 f.2.1 else vcmp e.2.2 f.2.2

/-- `graph_hash(graph)` (hash_methods.py:6-16), where `sorted(graph.nodes())` and `sorted(graph.edges())` can raise: they do if two of their elements
cannot be compared (see `SortMayFail` in Spec/Compare).  `cmp a b`: the nodes can be compared; `vcmp v w`: the edge values can be compared. -/
def Graph.graphHashE (cmp : α → α → Bool) (vcmp : V → V → Bool) (H : List Char → C) (nlt : α → α → Bool) (str : α → List Char)
    (estr : α × α × V → List Char) (g : Graph α V O) : Py C :=
  if ¬ g.nodeList.Pairwise (fun a b => cmp a b = true) then .error .typeError
  else if ¬ g.edgeList.Pairwise (fun e f => tupleCmp cmp vcmp e f = true) then .error .typeError
  else .ok (g.graphHash H nlt str estr)

theorem graphHashE_spec {cmp : α → α → Bool} (hsym : ∀ a b, cmp a b = cmp b a) {vcmp : V → V → Bool} {H : List Char → C} {nlt : α → α → Bool}
    {str : α → List Char} {estr : α × α × V → List Char} {g : Graph α V O} (hg : g.Inv) :
    ((∃ a b, g.has a = true ∧ g.has b = true ∧ a ≠ b ∧ cmp a b = false) → g.graphHashE cmp vcmp H nlt str estr = .error .typeError) ∧
    ((¬ ∃ a b, g.has a = true ∧ g.has b = true ∧ a ≠ b ∧ cmp a b = false) →
      g.graphHashE cmp vcmp H nlt str estr = .ok (g.graphHash H nlt str estr)) := by
  unfold graphHashE
  constructor
  · rintro ⟨a, b, ha, hb, hne, hc⟩
    rw [if_pos]
    intro hp
    obtain ⟨i, hi, rfl⟩ := List.getElem_of_mem (has_iff.1 ha)
    obtain ⟨j, hj, rfl⟩ := List.getElem_of_mem (has_iff.1 hb)
    rw [List.pairwise_iff_getElem] at hp
    rcases Nat.lt_trichotomy i j with h | h | h
    · rw [hp i j hi hj h] at hc; cases hc
    · subst h; exact hne rfl
    · rw [hsym, hp j i hj hi h] at hc; cases hc
  · intro h
    have hn : ∀ a ∈ g.nodeList, ∀ b ∈ g.nodeList, a ≠ b → cmp a b = true := by
      intro a ha b hb h1
      cases h2 : cmp a b with
      | true => rfl
      | false => exact absurd ⟨a, b, has_iff.2 ha, has_iff.2 hb, h1, h2⟩ h
    rw [if_neg, if_neg]
    · intro hh
      refine hh (List.Pairwise.imp_of_mem ?_ hg.edgeList_nodup)
      rintro ⟨e1, e2, e3⟩ ⟨f1, f2, f3⟩ he hf hne
      have he := hg.mem_edgeList.1 he
      have hf := hg.mem_edgeList.1 hf
      unfold tupleCmp
      dsimp only
      by_cases h1 : e1 = f1
      · rw [if_neg (by simpa using h1)]
        by_cases h2 : e2 = f2
        · subst h1 h2
          rw [he] at hf; cases hf
          exact absurd rfl hne
        · rw [if_pos h2]
          exact hn _ (hg.edge_mem he).2 _ (hg.edge_mem hf).2 h2
      · rw [if_pos h1]
        exact hn _ (hg.edge_mem he).1 _ (hg.edge_mem hf).1 h1
    · intro hh
      refine hh (List.Pairwise.imp_of_mem ?_ hg.nodesWF)
      exact fun ha hb hne => hn _ ha _ hb hne
end GT

import Verif.Search.Util
import Verif.Graph.FuncLemmas
/- The neighbour lists of a reachable graph as a finite relation. -/
namespace GT
namespace Graph
variable {α V O : Type} [DecidableEq α]

theorem rel_nodesFrom (g : Graph α V O) : (fun a b => b ∈ g.nodesFrom a) = g.Adj := by
  funext a b; exact propext mem_nodesFrom

theorem Inv.rel_nodesTo {g : Graph α V O} (h : g.Inv) : (fun a b => b ∈ g.nodesTo a) = Flip g.Adj := by
  funext a b; exact propext h.mem_nodesTo

theorem Inv.finite {g : Graph α V O} (h : g.Inv) : FiniteOn g.Adj g.nodeList := by
  intro a b hab
  obtain ⟨v, hv⟩ := Option.isSome_iff_exists.1 hab
  exact h.dom a b v hv

theorem Inv.finiteFrom {g : Graph α V O} (h : g.Inv) :
    FiniteOn (fun a b => b ∈ g.nodesFrom a) g.nodeList := by
  rw [rel_nodesFrom]; exact h.finite

theorem Inv.finiteTo {g : Graph α V O} (h : g.Inv) :
    FiniteOn (fun a b => b ∈ g.nodesTo a) g.nodeList := by
  rw [h.rel_nodesTo]; intro a b hab; exact ⟨(h.finite b a hab).2, (h.finite b a hab).1⟩

theorem has_iff {g : Graph α V O} {n : α} : g.has n = true ↔ n ∈ g.nodeList :=
  Dict.contains_iff_keys _ _

theorem edges_contains_iff {g : Graph α V O} (h : g.Inv) {n : α} :
    g.edges.contains n = true ↔ ∃ b, g.Adj n b := by
  unfold Adj
  constructor
  · intro hc
    obtain ⟨d, hd⟩ := Dict.exists_get?_of_mem_keys ((Dict.contains_iff_keys _ _).1 hc)
    obtain ⟨hw, hne⟩ := h.row n d hd
    cases hi : d.items with
    | nil => exact absurd hi hne
    | cons p l =>
      refine ⟨p.1, ?_⟩
      simp only [edge, hd, Option.bind_some]
      rw [Dict.get?_isSome_iff]; simp [Dict.keys, hi]
  · rintro ⟨b, hb⟩
    rw [Dict.contains_iff_keys]
    unfold edge at hb
    cases hd : g.edges.get? n with
    | none => simp [hd] at hb
    | some d => exact Dict.mem_keys_of_get? hd

end Graph
end GT

import Verif.Sp.Legs
import Verif.Sp.Apsp
/-
Model of `cycle` (graph/cycle.py:5-28), `Graph.loop` (graph/core.py:317-324).
-/
namespace GT
variable {α V O : Type} [DecidableEq α]
open Graph

/-! ### the paths of `shortest_path` are simple -/

structure DijNd (s : DijSt α) : Prop where
  ent : ∀ e ∈ s.q, e.path.Nodup ∧ ∀ x ∈ e.path, x ∈ s.visited

theorem shortestPath_nodup {g : Graph α Rat O} {start fin : α} {av : List α} {r : Ext × List α}
    (h : g.shortestPath start fin av = some (.ok r)) : r.2.Nodup := by
  unfold shortestPath at h
  split at h
  · cases h
  · split at h
    · cases h
    · split at h
      · cases h
      · rename_i r' hr
        cases h
        refine pyWhile_inv DijNd (fun r => r.2.Nodup) ?_ ?_ ⟨?_⟩ hr
        · intro s s' hI hst
          unfold dijStep at hst
          split at hst
          · cases hst
          · rename_i e q hpop
            obtain ⟨hp, _⟩ := popMin_some hpop
            split at hst
            · cases hst
              exact ⟨fun e' he' => hI.ent e' (hp.mem_iff.2 (List.mem_cons_of_mem _ he'))⟩
            · rename_i hv
              dsimp only at hst
              split at hst
              · cases hst
              · generalize hrr : dijRelax e.cost (e.node :: e.path) (sadd s.visited e.node) (g.outNbr e.node) (q, s.mins, s.i) = rr at hst
                obtain ⟨q', mins', i'⟩ := rr
                cases hst
                obtain ⟨_, h2, _⟩ := dijRelax_spec _ _ _ _ _ _ _ hrr
                refine ⟨fun e' he' => ?_⟩
                rcases h2 e' he' with h3 | ⟨h3, _⟩
                · obtain ⟨a, b⟩ := hI.ent e' (hp.mem_iff.2 (List.mem_cons_of_mem _ h3))
                  exact ⟨a, fun x hx => mem_sadd.2 (.inr (b x hx))⟩
                · obtain ⟨a, b⟩ := hI.ent e (hp.mem_iff.2 (List.mem_cons_self ..))
                  rw [h3]
                  refine ⟨List.nodup_cons.2 ⟨fun hin => hv (b _ hin), a⟩, fun x hx => ?_⟩
                  rcases List.mem_cons.1 hx with rfl | hx
                  · exact mem_sadd.2 (.inl rfl)
                  · exact mem_sadd.2 (.inr (b x hx))
        · intro s r hI hst
          unfold dijStep at hst
          split at hst
          · cases hst; simp
          · rename_i e q hpop
            obtain ⟨hp, _⟩ := popMin_some hpop
            split at hst
            · cases hst
            · rename_i hv
              dsimp only at hst
              split at hst
              · cases hst
                obtain ⟨a, b⟩ := hI.ent e (hp.mem_iff.2 (List.mem_cons_self ..))
                exact nodup_reverse.2 (List.nodup_cons.2 ⟨fun hin => hv (b _ hin), a⟩)
              · cases hst
        · intro e he; simp at he; subst he; simp

/-! ### model -/

/-- `for n in nodes: g2.del_node(n)` -/
def Graph.delAllE (g : Graph α V O) (l : List α) : Py (Graph α V O) := forE l g (fun g n => g.delNodeE n)

/-- the second half of `cycle` (cycle.py:19-27): the outward path `p`, the nodes `D` to be removed and the
target `t` of the way back, on the working copy `w` -/
def loopBackOn (w : Graph α Rat O) (p D : List α) (mid t : α) : Option (Py (List α)) :=
  match w.delAllE D with
  | .error e => some (.error e)
  | .ok g2 => match g2.shortestPath mid t with
    | none => none
    | some (.error e) => some (.error e)
    | some (.ok (_, p2)) => some (.ok (p ++ p2.tail))

/-- the same on `graph.copy()` (cycle.py:18) -/
def Graph.loopBack (g : Graph α Rat O) (p D : List α) (mid t : α) : Option (Py (List α)) := loopBackOn g.copy p D mid t

/-- `cycle(graph, start, mid, end)` (cycle.py:5-28) -/
def Graph.loop (g : Graph α Rat O) (start mid : α) (fin : Option α) : Option (Py (List α)) :=
  if !g.has start then some (.error .valueError)
  else if !g.has mid then some (.error .valueError)
  else if fin.any (fun e => !g.has e) then some (.error .valueError)
  else match g.shortestPath start mid with
    | none => none
    | some (.error e) => some (.error e)
    | some (.ok (_, p)) => match fin with
      | some e => g.loopBack p p.dropLast mid e
      | none => g.loopBack p p.tail.dropLast mid start

/-! ### proof -/

theorem delAllE_spec (l : List α) : ∀ {g : Graph α V O}, g.Inv → ∃ g2, g.delAllE l = .ok g2 ∧ g2.Inv ∧
    (∀ x, g2.has x = (g.has x && !decide (x ∈ l))) ∧
    (∀ x y, g2.edge x y = if x ∈ l ∨ y ∈ l then none else g.edge x y) := by
  induction l with
  | nil => intro g h; exact ⟨g, rfl, h, by simp, by simp⟩
  | cons a l ih =>
    intro g h
    obtain ⟨h1, h2, h3, _⟩ := delNode_spec h a
    obtain ⟨g2, e1, e2, e3, e4⟩ := ih h1
    refine ⟨g2, ?_, e2, fun x => ?_, fun x y => ?_⟩
    · unfold delAllE at e1 ⊢
      unfold forE
      rw [delNodeE_eq h]; exact e1
    · rw [e3]
      unfold Graph.has Dict.contains
      rw [h2]
      by_cases hx : a = x
      · subst hx; simp
      · have : ¬ x = a := fun h => hx h.symm
        simp [hx, this]
    · rw [e4, h3]
      by_cases hx : x ∈ l ∨ y ∈ l
      · rw [if_pos hx, if_pos]
        rcases hx with h | h
        · exact .inl (List.mem_cons_of_mem _ h)
        · exact .inr (List.mem_cons_of_mem _ h)
      · rw [if_neg hx]
        by_cases hy : a = x ∨ a = y
        · rw [if_pos hy, if_pos]
          rcases hy with rfl | rfl
          · exact .inl (List.mem_cons_self ..)
          · exact .inr (List.mem_cons_self ..)
        · rw [if_neg hy, if_neg]
          rintro (h | h)
          · rcases List.mem_cons.1 h with h | h
            · exact hy (.inl h.symm)
            · exact hx (.inl h)
          · rcases List.mem_cons.1 h with h | h
            · exact hy (.inr h.symm)
            · exact hx (.inr h)

/-- walks after the removal of nodes are walks that avoid them -/
theorem walkOf_removed {w w2 : α → α → Option Rat} {D : List α}
    (h : ∀ x y, w2 x y = if x ∈ D ∨ y ∈ D then none else w x y) {p : List α} : ∀ {a b : α} {c : Rat}, a ∉ D →
    (WalkOf w2 a b p c ↔ AvoidWalk w D a b p c) := by
  induction p with
  | nil => intro a b c _; exact ⟨fun h => absurd rfl h.ne_nil, fun h => absurd rfl h.1.ne_nil⟩
  | cons x p ih =>
    intro a b c ha
    constructor
    · intro hp
      rcases hp.inv with ⟨h1, h2, h3⟩ | ⟨y, q, c', d', h1, h2, h3, h4⟩
      · rw [h1]; subst h2 h3
        exact ⟨WalkOf.single a, by simpa using ha⟩
      · cases h1
        rw [h] at h2
        split at h2
        · cases h2
        · rename_i hn
          rw [not_or] at hn
          obtain ⟨e1, e2⟩ := (ih hn.2).1 h3
          refine ⟨h4 ▸ e1.cons h2, fun z hz => ?_⟩
          rcases List.mem_cons.1 hz with rfl | hz
          · exact ha
          · exact e2 z hz
    · rintro ⟨hp, hD⟩
      rcases hp.inv with ⟨h1, h2, h3⟩ | ⟨y, q, c', d', h1, h2, h3, h4⟩
      · rw [h1]; subst h2 h3; exact WalkOf.single a
      · cases h1
        have hy : y ∉ D := hD y (List.mem_cons_of_mem _ (List.mem_of_mem_head? h3.1))
        have := (ih hy).2 ⟨h3, fun z hz => hD z (List.mem_cons_of_mem _ hz)⟩
        rw [h4]
        refine this.cons ?_
        rw [h, if_neg (by rintro (h | h); exact ha h; exact hy h)]; exact h2

theorem spResult_removed {w w2 : α → α → Option Rat} {D : List α}
    (h : ∀ x y, w2 x y = if x ∈ D ∨ y ∈ D then none else w x y) {a b : α} {r : Ext × List α} (ha : a ∉ D)
    (hr : SpResult w2 [] a b r) : SpResult w D a b r := by
  have e : ∀ p c, AvoidWalk w2 [] a b p c ↔ AvoidWalk w D a b p c := by
    intro p c
    rw [← walkOf_removed h ha]
    exact ⟨fun h => h.1, fun h => ⟨h, by simp⟩⟩
  rcases hr with ⟨d, h1, h2, h3⟩ | ⟨h1, h2⟩
  · exact .inl ⟨d, h1, (e _ _).1 h2, fun p c hp => h3 p c ((e p c).2 hp)⟩
  · exact .inr ⟨h1, fun ⟨p, c, hp⟩ => h2 ⟨p, c, (e p c).2 hp⟩⟩

theorem loopBackOn_spec {g w : Graph α Rat O} (hwi : w.Inv) (hcopy : ∀ x, w.has x = g.has x) (hce : ∀ a b, w.edge a b = g.edge a b)
    (hw : NonNeg g.edge) (p : List α) {D : List α} {mid t : α}
    (hm : g.has mid = true) (ht : g.has t = true) (hmD : mid ∉ D) :
    (t ∈ D → loopBackOn w p D mid t = some (.error .valueError)) ∧
    (t ∉ D → ∃ r2, SpResult g.edge D mid t r2 ∧ loopBackOn w p D mid t = some (.ok (p ++ r2.2.tail))) := by
  obtain ⟨g2, e1, e2, e3, e4⟩ := delAllE_spec D hwi
  unfold loopBackOn
  rw [e1]
  dsimp only
  constructor
  · intro hD
    rw [shortestPath_error []]
    rintro ⟨_, h2⟩
    rw [e3] at h2; simp [hD] at h2
  · intro hD
    have hedge : ∀ x y, g2.edge x y = if x ∈ D ∨ y ∈ D then none else g.edge x y := fun x y => by rw [e4, hce]
    have hw2 : NonNeg g2.edge := fun a b c hc => by
      rw [hedge] at hc
      split at hc
      · cases hc
      · exact hw a b c hc
    obtain ⟨r, h1, h2⟩ := shortestPath_spec e2 hw2 (start := mid) (fin := t) [] (by rw [e3, hcopy, hm]; simp [hmD])
      (by rw [e3, hcopy, ht]; simp [hD])
    rw [h1]
    exact ⟨r, spResult_removed hedge hmD h2, rfl⟩

theorem loopBack_spec {g : Graph α Rat O} (h : g.Inv) (hw : NonNeg g.edge) (p : List α) {D : List α} {mid t : α}
    (hm : g.has mid = true) (ht : g.has t = true) (hmD : mid ∉ D) :
    (t ∈ D → g.loopBack p D mid t = some (.error .valueError)) ∧
    (t ∉ D → ∃ r2, SpResult g.edge D mid t r2 ∧ g.loopBack p D mid t = some (.ok (p ++ r2.2.tail))) :=
  loopBackOn_spec g.copy_built.inv (fun x => by unfold Graph.has Dict.contains; rw [h.copy_nodes]) h.copy_edge hw p hm ht hmD

/-- `cycle(graph, start, mid, end)` (cycle.py:5-28) where `graph.copy()` is `w` -/
def Graph.loopOn (g w : Graph α Rat O) (start mid : α) (fin : Option α) : Option (Py (List α)) :=
  if !g.has start then some (.error .valueError)
  else if !g.has mid then some (.error .valueError)
  else if fin.any (fun e => !g.has e) then some (.error .valueError)
  else match g.shortestPath start mid with
    | none => none
    | some (.error e) => some (.error e)
    | some (.ok (_, p)) => match fin with
      | some e => loopBackOn w p p.dropLast mid e
      | none => loopBackOn w p p.tail.dropLast mid start

/-- both legs: the outward leg is a simple shortest path, the way back is shortest among those that avoid it -/
theorem loopOn_spec {g w : Graph α Rat O} (h : g.Inv) (hwi : w.Inv) (hwh : ∀ x, w.has x = g.has x)
    (hwe : ∀ a b, w.edge a b = g.edge a b) (hw : NonNeg g.edge) {start mid : α}
    (hs : g.has start = true) (hm : g.has mid = true) :
    ∃ r1, g.shortestPath start mid = some (.ok r1) ∧ SpResult g.edge [] start mid r1 ∧ r1.2.Nodup ∧
      (∃ r2, SpResult g.edge (inner r1.2) mid start r2 ∧ g.loopOn w start mid none = some (.ok (r1.2 ++ r2.2.tail))) ∧
      (∀ e, g.has e = true → e ∈ r1.2.dropLast → g.loopOn w start mid (some e) = some (.error .valueError)) ∧
      (∀ e, g.has e = true → e ∉ r1.2.dropLast → ∃ r2, SpResult g.edge r1.2.dropLast mid e r2 ∧
        g.loopOn w start mid (some e) = some (.ok (r1.2 ++ r2.2.tail))) := by
  obtain ⟨⟨d, p⟩, h1, h2⟩ := shortestPath_spec h hw (start := start) (fin := mid) [] hs hm
  have hnd := shortestPath_nodup h1
  dsimp only at hnd
  have hmid : mid ∉ p.dropLast ∧ mid ∉ inner p ∧ start ∉ inner p := by
    rcases h2 with ⟨q, _, h3, _⟩ | ⟨h3, _⟩
    · dsimp only at h3
      have hl := List.dropLast_concat_getLast h3.1.ne_nil
      have hlast : p.getLast h3.1.ne_nil = mid := by
        have := h3.1.2.1
        rw [List.getLast?_eq_some_getLast h3.1.ne_nil] at this; exact Option.some.inj this
      rw [hlast] at hl
      have h4 : mid ∉ p.dropLast := by
        rw [← hl, List.nodup_append] at hnd
        exact fun hin => hnd.2.2 mid hin mid (by simp) rfl
      refine ⟨h4, fun hin => ?_, fun hin => ?_⟩
      · apply h4
        unfold inner at hin
        cases p with
        | nil => simp at hin
        | cons a l => cases l with
          | nil => simp at hin
          | cons b l => exact List.mem_cons_of_mem _ hin
      · rcases h3.1.ends with ⟨h5, _⟩ | h5
        · rw [h5] at hin; simp [inner] at hin
        · rw [h5, List.nodup_cons] at hnd
          exact hnd.1 (List.mem_append_left _ hin)
    · cases h3; simp [inner]
  refine ⟨(d, p), h1, h2, hnd, ?_, fun e he hin => ?_, fun e he hin => ?_⟩
  · have := (loopBackOn_spec hwi hwh hwe hw p hm hs hmid.2.1).2 hmid.2.2
    obtain ⟨r2, a, b⟩ := this
    refine ⟨r2, a, ?_⟩
    unfold loopOn
    simp only [hs, hm, Bool.not_true, Bool.false_eq_true, if_false, Option.any_none, h1]
    exact b
  · unfold loopOn
    simp only [hs, hm, he, Bool.not_true, Bool.false_eq_true, if_false, Option.any_some, h1]
    exact (loopBackOn_spec hwi hwh hwe hw p hm he hmid.1).1 hin
  · obtain ⟨r2, a, b⟩ := (loopBackOn_spec hwi hwh hwe hw p hm he hmid.1).2 hin
    refine ⟨r2, a, ?_⟩
    unfold loopOn
    simp only [hs, hm, he, Bool.not_true, Bool.false_eq_true, if_false, Option.any_some, h1]
    exact b

/-- both legs: the outward leg is a simple shortest path, the way back is shortest among those that avoid it -/
theorem loop_spec {g : Graph α Rat O} (h : g.Inv) (hw : NonNeg g.edge) {start mid : α}
    (hs : g.has start = true) (hm : g.has mid = true) :
    ∃ r1, g.shortestPath start mid = some (.ok r1) ∧ SpResult g.edge [] start mid r1 ∧ r1.2.Nodup ∧
      (∃ r2, SpResult g.edge (inner r1.2) mid start r2 ∧ g.loop start mid none = some (.ok (r1.2 ++ r2.2.tail))) ∧
      (∀ e, g.has e = true → e ∈ r1.2.dropLast → g.loop start mid (some e) = some (.error .valueError)) ∧
      (∀ e, g.has e = true → e ∉ r1.2.dropLast → ∃ r2, SpResult g.edge r1.2.dropLast mid e r2 ∧
        g.loop start mid (some e) = some (.ok (r1.2 ++ r2.2.tail))) :=
  loopOn_spec h g.copy_built.inv (fun x => by unfold Graph.has Dict.contains; rw [h.copy_nodes]) h.copy_edge hw hs hm

end GT

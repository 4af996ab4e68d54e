import Verif.Other.JamTop
import Verif.Other.JamSolve
import Verif.Props.Search
import Verif.Props.Sp
/-
Proofs about `jam_solver`.
-/
namespace GT
open Graph
variable {ι α O : Type} [DecidableEq ι] [DecidableEq α]

/-- the `Load` made from the user's data -/
def mkLoad (ord : List α → List α) (r : RawLoad ι α) : Load ι α :=
  ⟨r.id, r.start, match r.ends with
    | none => [r.start]
    | some l => ord (saddAll [] l), ord (saddAll [] (r.prohibited.getD []))⟩

theorem newLoad_eq (ord : List α → List α) (r : RawLoad ι α) :
    newLoad ord r.id r.start r.ends r.prohibited = if r.ends = some [] then .error .valueError else .ok (mkLoad ord r) := by
  unfold newLoad mkLoad
  obtain ⟨k, s, e, p⟩ := r
  dsimp only
  cases e with
  | none => rfl
  | some l => cases l with
    | nil => rfl
    | cons a l => rw [if_neg (by simp)]

theorem mkLoad_ends {ord : List α → List α} (hord : ∀ l, (ord l).Perm l) (r : RawLoad ι α) :
    (mkLoad ord r).ends.Nodup ∧ (∀ x, x ∈ (mkLoad ord r).ends ↔ x ∈ r.endSet) ∧ ∀ x, x ∈ (mkLoad ord r).prohibited ↔ x ∈ r.proh := by
  unfold mkLoad RawLoad.endSet RawLoad.proh
  obtain ⟨k, s, e, p⟩ := r
  dsimp only
  refine ⟨?_, ?_, ?_⟩
  · cases e with
    | none => simp
    | some l => exact (hord _).nodup_iff.2 (nodup_saddAll List.nodup_nil)
  · intro x
    cases e with
    | none => rfl
    | some l => dsimp only; rw [(hord _).mem_iff]; simp
  · intro x
    rw [(hord _).mem_iff]
    cases p <;> simp

theorem buildLoads_spec (ord : List α → List α) (l : List (RawLoad ι α)) : ∀ (d : Dict ι (Load ι α)) (ns : List α),
    (l.map RawLoad.id).Nodup → (∀ r ∈ l, r.id ∉ d.keys) →
    ((∃ r ∈ l, r.ends = some []) ∧ buildLoads ord l d ns = .error .valueError) ∨
    ((∀ r ∈ l, r.ends ≠ some []) ∧ ∃ d' ns', buildLoads ord l d ns = .ok (d', ns') ∧ d'.items = d.items ++ l.map (fun r => (r.id, mkLoad ord r)) ∧
      ∀ x, x ∈ ns' ↔ x ∈ ns ∨ ∃ r ∈ l, x = r.start ∨ x ∈ (mkLoad ord r).ends) := by
  induction l with
  | nil => intro d ns _ _; exact .inr ⟨by simp, d, ns, rfl, by simp, by simp⟩
  | cons r l ih =>
    intro d ns hnd hk
    rw [List.map_cons, List.nodup_cons] at hnd
    unfold buildLoads
    rw [newLoad_eq]
    by_cases he : r.ends = some []
    · rw [if_pos he]
      exact .inl ⟨⟨r, by simp, he⟩, rfl⟩
    · rw [if_neg he]
      dsimp only
      have hid : (mkLoad ord r).id = r.id := rfl
      have hst : (mkLoad ord r).start = r.start := rfl
      rcases ih (d.set (mkLoad ord r).id (mkLoad ord r)) (saddAll (sadd ns (mkLoad ord r).start) (mkLoad ord r).ends) hnd.2 (by
        intro r' hr' hm
        rcases (Dict.mem_keys_set ..).1 hm with h | h
        · exact hnd.1 (by rw [← hid, ← h]; exact List.mem_map.2 ⟨r', hr', rfl⟩)
        · exact hk r' (List.mem_cons_of_mem _ hr') h) with ⟨⟨r', h1, h2⟩, h3⟩ | ⟨h1, d', ns', h2, h3, h4⟩
      · exact .inl ⟨⟨r', List.mem_cons_of_mem _ h1, h2⟩, h3⟩
      · refine .inr ⟨?_, d', ns', h2, ?_, ?_⟩
        · intro r' hr'
          rcases List.mem_cons.1 hr' with rfl | hr'
          · exact he
          · exact h1 r' hr'
        · rw [h3, Dict.items_set_of_not_mem _ (by rw [hid]; exact hk r (by simp)), hid]
          simp
        · intro x
          rw [h4]
          simp only [mem_saddAll, mem_sadd, hst, List.mem_cons, exists_eq_or_imp]
          constructor
          · rintro (((h | h) | h) | h)
            · exact .inr (.inl (.inl h))
            · exact .inl h
            · exact .inr (.inl (.inr h))
            · exact .inr (.inr h)
          · rintro (h | (h | h) | h)
            · exact .inl (.inl (.inr h))
            · exact .inl (.inl (.inl h))
            · exact .inl (.inr h)
            · exact .inr h

/-- a node that is needed is not in the network -/
def NodeMissing (g : Graph α Rat O) (raw : List (RawLoad ι α)) : Prop := ∃ r ∈ raw, g.has r.start = false ∨ ∃ x ∈ r.endSet, g.has x = false

theorem nodesMissing_iff {ord : List α → List α} (hord : ∀ l, (ord l).Perm l) {g : Graph α Rat O} {raw : List (RawLoad ι α)} {ns : List α}
    (hns : ∀ x, x ∈ ns ↔ ∃ r ∈ raw, x = r.start ∨ x ∈ (mkLoad ord r).ends) :
    nodesMissing g ns (raw.map (mkLoad ord)) = true ↔ NodeMissing g raw := by
  unfold nodesMissing NodeMissing
  have hd : ∀ x, x ∈ ns.filter (fun n => !g.has n) ↔ (∃ r ∈ raw, x = r.start ∨ x ∈ (mkLoad ord r).ends) ∧ g.has x = false := by
    intro x; rw [List.mem_filter, hns]; simp
  generalize ns.filter (fun n => !g.has n) = diff at hd
  dsimp only
  rw [Bool.and_eq_true]
  constructor
  · rintro ⟨h1, _⟩
    cases diff with
    | nil => simp at h1
    | cons x l =>
      obtain ⟨⟨r, hr, h2⟩, h3⟩ := (hd x).1 (by simp)
      refine ⟨r, hr, ?_⟩
      rcases h2 with rfl | h2
      · exact .inl h3
      · exact .inr ⟨x, ((mkLoad_ends hord r).2.1 x).1 h2, h3⟩
  · rintro ⟨r, hr, h⟩
    have key : ∃ x ∈ diff, x = r.start ∨ x ∈ (mkLoad ord r).ends := by
      rcases h with h | ⟨x, hx, h⟩
      · exact ⟨r.start, (hd _).2 ⟨⟨r, hr, .inl rfl⟩, h⟩, .inl rfl⟩
      · have hx' := ((mkLoad_ends hord r).2.1 x).2 hx
        exact ⟨x, (hd _).2 ⟨⟨r, hr, .inr hx'⟩, h⟩, .inr hx'⟩
    obtain ⟨x, hx, h2⟩ := key
    refine ⟨by cases diff <;> simp at hx ⊢, ?_⟩
    rw [List.any_eq_true]
    refine ⟨mkLoad ord r, List.mem_map.2 ⟨r, hr, rfl⟩, ?_⟩
    simp only [Bool.or_eq_true, decide_eq_true_eq, List.any_eq_true]
    rcases h2 with h2 | h2
    · left; left; rw [h2] at hx; exact hx
    · left; right; exact ⟨x, h2, hx⟩

/-! ### the check for paths -/

theorem delNodes_spec {g : Graph α Rat O} (hg : g.Built) (P : List α) : (P.foldl (fun h n => h.delNode n) g).Built ∧
    (∀ x, (P.foldl (fun h n => h.delNode n) g).has x = true ↔ g.has x = true ∧ x ∉ P) ∧
    (∀ x y, ((P.foldl (fun h n => h.delNode n) g).edge x y).isSome = true ↔ (g.edge x y).isSome = true ∧ x ∉ P ∧ y ∉ P) := by
  induction P generalizing g with
  | nil => exact ⟨hg, by simp, by simp⟩
  | cons n P ih =>
    obtain ⟨h1, h2, h3⟩ := ih (hg.delNode n)
    obtain ⟨_, h4, h5, _⟩ := delNode_spec hg.inv n
    refine ⟨h1, ?_, ?_⟩
    · intro x
      rw [List.foldl_cons, h2]
      unfold Graph.has Dict.contains
      rw [h4]
      by_cases hn : n = x
      · subst hn; simp
      · rw [if_neg hn, List.mem_cons]
        constructor
        · rintro ⟨a, b⟩; exact ⟨a, fun h => h.elim (fun h => hn h.symm) b⟩
        · rintro ⟨a, b⟩; exact ⟨a, fun h => b (.inr h)⟩
    · intro x y
      rw [List.foldl_cons, h3, h5]
      by_cases hn : n = x ∨ n = y
      · rw [if_pos hn]
        constructor
        · rintro ⟨a, _⟩; cases a
        · rintro ⟨_, b, c⟩
          rcases hn with rfl | rfl
          · exact absurd (by simp) b
          · exact absurd (by simp) c
      · rw [if_neg hn, List.mem_cons, List.mem_cons]
        constructor
        · rintro ⟨a, b, c⟩
          exact ⟨a, fun h => h.elim (fun h => hn (.inl h.symm)) b, fun h => h.elim (fun h => hn (.inr h.symm)) c⟩
        · rintro ⟨a, b, c⟩; exact ⟨a, fun h => b (.inr h), fun h => c (.inr h)⟩

/-- the way of one load: along the connections, avoiding its prohibited nodes -/
def Avoids (g : Graph α Rat O) (P : List α) (x y : α) : Prop := (g.edge x y).isSome = true ∧ x ∉ P ∧ y ∉ P

theorem checkPaths_spec {g : Graph α Rat O} (hg : g.Built) (L : List (Load ι α)) (hs : ∀ l ∈ L, g.has l.start = true) :
    ∃ r, checkPaths g L = some r ∧
      ((r = .ok () ∧ ∀ l ∈ L, l.start ∉ l.prohibited ∧ ∃ e ∈ l.ends, Reach (Avoids g l.prohibited) l.start e) ∨
       (r = .error .valueError ∧ ∃ l ∈ L, l.start ∈ l.prohibited) ∨
       (r = .error .unSolvable ∧ ∃ l ∈ L, l.start ∉ l.prohibited ∧ ¬ ∃ e ∈ l.ends, Reach (Avoids g l.prohibited) l.start e)) := by
  induction L with
  | nil => exact ⟨_, rfl, .inl ⟨rfl, by simp⟩⟩
  | cons l L ih =>
    obtain ⟨r, h1, h2⟩ := ih (fun x hx => hs x (List.mem_cons_of_mem _ hx))
    unfold checkPaths
    dsimp only
    have hgc : ∃ gc, (if l.prohibited = [] then g else l.prohibited.foldl (fun h n => h.delNode n) g.copy) = gc ∧ gc.Built ∧
        (∀ x, gc.has x = true ↔ g.has x = true ∧ x ∉ l.prohibited) ∧
        ∀ x y, (gc.edge x y).isSome = true ↔ Avoids g l.prohibited x y := by
      refine ⟨_, rfl, ?_⟩
      split
      · rename_i hp
        rw [hp]
        exact ⟨hg, by simp, by simp [Avoids]⟩
      · obtain ⟨a1, a2, a3⟩ := delNodes_spec (copy_built g) l.prohibited
        refine ⟨a1, ?_, ?_⟩
        · intro x
          rw [a2]
          unfold Graph.has Dict.contains
          rw [hg.inv.copy_nodes]
        · intro x y
          rw [a3, hg.inv.copy_edge]
          rfl
    obtain ⟨gc, h3, h4, h5, h6⟩ := hgc
    rw [h3]
    by_cases hp : l.start ∈ l.prohibited
    · have hno : gc.has l.start = false := by
        cases hh : gc.has l.start with
        | false => rfl
        | true => exact absurd hp ((h5 _).1 hh).2
      have : gc.breadthFirstWalk l.start none false = some (.error .valueError) := by
        unfold breadthFirstWalk
        rw [hno]; rfl
      rw [this]
      exact ⟨_, rfl, .inr (.inl ⟨rfl, l, by simp, hp⟩)⟩
    · obtain ⟨out, h7, _, h8, _⟩ := C14_breadth_first_walk h4 l.start false ((h5 _).2 ⟨hs l (by simp), hp⟩)
      rw [h7]
      dsimp only
      have hre : ∀ x, x ∈ out ↔ Reach (Avoids g l.prohibited) l.start x := by
        intro x
        rw [h8]
        unfold walkRel
        simp only [Bool.false_eq_true, if_false]
        constructor
        · exact fun h => h.mono (fun a b hab => (h6 a b).1 hab)
        · exact fun h => h.mono (fun a b hab => (h6 a b).2 hab)
      by_cases ha : out.any (fun n => decide (n ∈ l.ends)) = true
      · rw [if_pos ha]
        refine ⟨r, h1, ?_⟩
        rw [List.any_eq_true] at ha
        obtain ⟨e, he1, he2⟩ := ha
        have hgood : l.start ∉ l.prohibited ∧ ∃ e ∈ l.ends, Reach (Avoids g l.prohibited) l.start e :=
          ⟨hp, e, by simpa using he2, (hre e).1 he1⟩
        rcases h2 with ⟨h2, h9⟩ | ⟨h2, l', h9, h10⟩ | ⟨h2, l', h9, h10⟩
        · refine .inl ⟨h2, ?_⟩
          intro l' hl'
          rcases List.mem_cons.1 hl' with rfl | hl'
          · exact hgood
          · exact h9 l' hl'
        · exact .inr (.inl ⟨h2, l', List.mem_cons_of_mem _ h9, h10⟩)
        · exact .inr (.inr ⟨h2, l', List.mem_cons_of_mem _ h9, h10⟩)
      · rw [if_neg ha]
        refine ⟨_, rfl, .inr (.inr ⟨rfl, l, by simp, hp, ?_⟩)⟩
        rintro ⟨e, he1, he2⟩
        exact ha (List.any_eq_true.2 ⟨e, (hre e).2 he2, by simpa using he1⟩)

/-- the way a load takes in a plan -/
theorem plan_way {adj : α → α → Prop} {ok : ι → α → Prop} (moves : List (ι × α × α)) : ∀ {s t : Placement ι α} {k : ι} {a : α},
    (s.map Prod.fst).Nodup → (k, a) ∈ s → Plan adj ok s moves t → ∃ b, (k, b) ∈ t ∧ Reach (fun x y => adj x y ∧ ok k y) a b := by
  induction moves with
  | nil => intro s t k a _ ha hp; cases hp; exact ⟨a, ha, Reach.refl a⟩
  | cons m l ih =>
    obtain ⟨j, x, y⟩ := m
    intro s t k a hnd ha hp
    obtain ⟨h1, h2, h3, h4, h5⟩ := hp
    have hnd' : ((moveTo j y s).map Prod.fst).Nodup := by rw [moveTo_fst]; exact hnd
    by_cases hk : k = j
    · subst hk
      have hax := place_unique hnd ha h1
      subst hax
      obtain ⟨b, h6, h7⟩ := ih hnd' (mem_moveTo.2 (.inl ⟨rfl, rfl, a, ha⟩)) h5
      exact ⟨b, h6, Reach.head ⟨h2, h4⟩ h7⟩
    · exact ih hnd' (mem_moveTo.2 (.inr ⟨hk, ha⟩)) h5

theorem reach_avoids {g : Graph α Rat O} {P : List α} {a b : α} (ha : a ∉ P)
    (h : Reach (fun x y => (g.edge x y).isSome = true ∧ y ∉ P) a b) : Reach (Avoids g P) a b ∧ b ∉ P := by
  obtain ⟨n, h⟩ := h
  induction h with
  | zero => exact ⟨Reach.refl _, ha⟩
  | succ _ h2 ih =>
    obtain ⟨h3, h4⟩ := ih ha
    exact ⟨h3.tail ⟨h2.1, h4, h2.2⟩, h2.2⟩

/-! ### the distance maps -/

theorem distMaps_ok {g : Graph α Rat O} (hg : g.Built) {ord : List α → List α} (hord : ∀ l, (ord l).Perm l) (L : List (Load ι α))
    (he : ∀ l ∈ L, ∀ x ∈ l.ends, g.has x = true) : ∃ m, distMaps ord g L = some (.ok m) := by
  induction L with
  | nil => exact ⟨[], rfl⟩
  | cons l L ih =>
    obtain ⟨m, h1⟩ := ih (fun x hx => he x (List.mem_cons_of_mem _ hx))
    obtain ⟨r, h2, _⟩ := C36_distance_map_reverse_partial hg hord l.ends (he l (by simp)) none (by intro es h; cases h)
    unfold distMaps
    rw [h2]; dsimp only; rw [h1]
    exact ⟨_, rfl⟩

end GT

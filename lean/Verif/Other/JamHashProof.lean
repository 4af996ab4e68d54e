import Verif.Other.JamHash
import Verif.Other.JamTopProof
/-
The jam solver with hash equality is the jam solver with real equality, if the placements that can occur have different hashes.
-/
namespace GT
open Graph
variable {ι α O : Type} [DecidableEq ι] [DecidableEq α] {c : JamCfg ι α O} {rep : Placement ι α → Placement ι α}

/-- the states of a side are placements of the loads on nodes -/
def SideU (c : JamCfg ι α O) (x : JSide ι α) : Prop :=
  (∀ e ∈ x.q, c.InU e.loads) ∧ x.edge.WF ∧ ∀ l e, x.edge.get? l = some e → c.InU e.loads

def StU (c : JamCfg ι α O) (s : JamSt ι α O) : Prop := ∀ rev, SideU c (s.side rev)

/-- the keys are the states themselves -/
def ObjOk (objs : Dict (Placement ι α × Placement ι α) (Placement ι α)) : Prop := ∀ a b v, objs.get? (a, b) = some v → v = b

/-- the two programs did the same -/
def SameH (c : JamCfg ι α O) : Py (JamSt ι α O) → Py (JamStH ι α O) → Prop
  | .error e, .error e' => e = e'
  | .ok s, .ok s' => s'.base = s ∧ StU c s ∧ ObjOk s'.objs
  | _, _ => False

theorem StU.setSide {s : JamSt ι α O} (h : StU c s) {x : JSide ι α} (hx : SideU c x) (rev : Bool) : StU c (s.setSide rev x) :=
  side_cases rev (by rw [side_setSide]; exact hx) (by rw [side_setSide_other]; exact h _)

theorem removeStateH_eq (hrep : ∀ p, c.InU p → rep p = p) {l : Placement ι α} (hl : c.InU l) (q : List (JState ι α)) (hq : ∀ e ∈ q, c.InU e.loads) :
    removeStateH rep l q = removeState l q := by
  induction q with
  | nil => rfl
  | cons x q ih =>
    unfold removeStateH removeState
    rw [hrep _ hl, hrep _ (hq x (by simp)), ih (fun e he => hq e (List.mem_cons_of_mem _ he))]
    rfl

theorem removeState_sub {l : Placement ι α} (q : List (JState ι α)) : ∀ q', removeState l q = .ok q' → ∀ e ∈ q', e ∈ q := by
  induction q with
  | nil => intro q' h; cases h
  | cons x q ih =>
    intro q' h e he
    unfold removeState at h
    split at h
    · cases h; exact List.mem_cons_of_mem _ he
    · cases hr : removeState l q with
      | error er => rw [hr] at h; cases h
      | ok q2 =>
        rw [hr] at h; cases h
        rcases List.mem_cons.1 he with rfl | he
        · simp
        · exact List.mem_cons_of_mem _ (ih q2 hr e he)

theorem SideU.insert {x : JSide ι α} (h : SideU c x) {q : List (JState ι α)} (hq : ∀ e ∈ q, e ∈ x.q) {n : JState ι α} (hn : c.InU n.loads) (V) :
    SideU c ⟨insortR JState.lt n q, x.edge.set n.loads n, V⟩ := by
  refine ⟨?_, h.2.1.set _ _, ?_⟩
  · intro e he
    rcases List.mem_cons.1 ((insortR_perm _ _ _).mem_iff.1 he) with rfl | he
    · exact hn
    · exact h.1 e (hq e he)
  · intro l e he
    dsimp only at he
    rw [Dict.get?_set] at he
    split at he
    · cases he; exact hn
    · exact h.2.2 l e he

theorem pushH_same (hrep : ∀ p, c.InU p → rep p = p) {rev : Bool} {s : JamSt ι α O} (h : StU c s) {n : JState ι α} (hn : c.InU n.loads) :
    pushH rep rev s n = pushF rev s n ∧ ∀ s', pushF rev s n = .ok s' → StU c s' := by
  have hside := h rev
  unfold pushH pushF
  dsimp only
  rw [hrep _ hn]
  cases hg : (s.side rev).edge.get? n.loads with
  | some ex =>
    dsimp only
    have hex := hside.2.2 _ _ hg
    rw [removeStateH_eq hrep hex _ hside.1]
    refine ⟨?_, ?_⟩
    · split
      · cases removeState ex.loads (s.side rev).q <;> rfl
      · rfl
    · intro s' hs'
      split at hs'
      · cases hr : removeState ex.loads (s.side rev).q with
        | error e => rw [hr] at hs'; cases hs'
        | ok q =>
          rw [hr] at hs'; cases hs'
          exact h.setSide (hside.insert (removeState_sub _ _ hr) hn _) rev
      · cases hs'; exact h
  | none =>
    dsimp only
    refine ⟨rfl, ?_⟩
    intro s' hs'
    split at hs'
    · cases hs'; exact h
    · cases hs'
      exact h.setSide (hside.insert (fun _ he => he) hn _) rev

theorem tryH_same (hrep : ∀ p, c.InU p → rep p = p) {rev : Bool} {st : JState ι α} (hst : c.InU st.loads) {s : JamSt ι α O} (h : StU c s)
    {objs} (ho : ObjOk objs) {o : ι × Rat × α} (hy : c.graph.has o.2.2 = true) :
    SameH c (c.tryF rev st s o) (c.tryH rep rev st ⟨s, objs⟩ o) := by
  have hn : c.InU (moveTo o.1 o.2.2 st.loads) := InU.move hst hy
  unfold JamCfg.tryF JamCfg.tryH
  dsimp only
  generalize ha : (if rev then moveTo o.1 o.2.2 st.loads else st.loads) = a
  generalize hb : (if rev then st.loads else moveTo o.1 o.2.2 st.loads) = b
  have hua : c.InU a := by rw [← ha]; split <;> assumption
  have hub : c.InU b := by rw [← hb]; split <;> assumption
  rw [hrep a hua, hrep b hub]
  by_cases hc : cheaper s.mov a b o.2.1 = true
  · rw [if_pos hc, if_pos hc]
    exact ⟨rfl, h, ho⟩
  · rw [if_neg hc, if_neg hc]
    have h' : StU c { s with mov := s.mov.addEdge a b o.2.1 } := fun rev => by
      have := h rev
      cases rev <;> exact this
    obtain ⟨k1, k2⟩ := pushH_same hrep (rev := rev) h' (n := ⟨moveTo o.1 o.2.2 st.loads, st.dist + o.2.1, c.grad (moveTo o.1 o.2.2 st.loads)⟩) hn
    rw [k1]
    cases hp : pushF rev { s with mov := s.mov.addEdge a b o.2.1 } ⟨moveTo o.1 o.2.2 st.loads, st.dist + o.2.1, c.grad (moveTo o.1 o.2.2 st.loads)⟩ with
    | error e => exact rfl
    | ok s' =>
      refine ⟨rfl, k2 s' hp, ?_⟩
      dsimp only
      split
      · exact ho
      · intro a' b' v hv
        rw [Dict.get?_set] at hv
        split at hv
        · rename_i he; cases he; cases hv; rfl
        · exact ho a' b' v hv

theorem tryAllH_same (hrep : ∀ p, c.InU p → rep p = p) {rev : Bool} {st : JState ι α} (hst : c.InU st.loads) (l : List (ι × Rat × α)) :
    ∀ (s : JamSt ι α O) objs, StU c s → ObjOk objs → (∀ o ∈ l, c.graph.has o.2.2 = true) →
    SameH c (c.tryAllF rev st l s) (c.tryAllH rep rev st l ⟨s, objs⟩) := by
  induction l with
  | nil => intro s objs h ho _; exact ⟨rfl, h, ho⟩
  | cons o l ih =>
    intro s objs h ho hl
    unfold JamCfg.tryAllF JamCfg.tryAllH
    have k := tryH_same hrep (rev := rev) hst h ho (hl o (by simp))
    revert k
    cases c.tryF rev st s o with
    | error e =>
      cases c.tryH rep rev st ⟨s, objs⟩ o with
      | error e' => intro k; exact k
      | ok s' => intro k; exact k.elim
    | ok s1 =>
      cases c.tryH rep rev st ⟨s, objs⟩ o with
      | error e' => intro k; exact k.elim
      | ok s' =>
        obtain ⟨b, ob⟩ := s'
        rintro ⟨k1, k2, k3⟩
        dsimp only at k1 k3
        subst k1
        exact ih _ ob k2 k3 (fun o ho => hl o (List.mem_cons_of_mem _ ho))

theorem expandH_same (hok : JamOk c) (hrep : ∀ p, c.InU p → rep p = p) (rev : Bool) {s : JamSt ι α O} (h : StU c s) {objs} (ho : ObjOk objs) :
    SameH c (c.expandF rev s) (c.expandH rep rev ⟨s, objs⟩) := by
  unfold JamCfg.expandF JamCfg.expandH
  dsimp only
  have hside := h rev
  cases hq : (s.side rev).q with
  | nil => exact ⟨rfl, h, ho⟩
  | cons st q =>
    dsimp only
    have hst : c.InU st.loads := hside.1 st (by rw [hq]; simp)
    rw [hrep _ hst]
    cases hd : (s.side rev).edge.delE st.loads with
    | error e => exact rfl
    | ok edge =>
      dsimp only
      obtain ⟨opts, h1, h2⟩ := allOptions_spec hok (rev := rev) (s := st.loads) st.loads (fun p hp => by
        rw [← hst.1]; exact List.mem_map.2 ⟨_, hp, rfl⟩)
      rw [h1]
      dsimp only
      refine tryAllH_same hrep hst opts _ objs (h.setSide ?_ rev) ho ?_
      · have hde : edge = (s.side rev).edge.del st.loads := by
          unfold Dict.delE at hd
          split at hd
          · cases hd; rfl
          · cases hd
        subst hde
        refine ⟨fun e he => hside.1 e (by rw [hq]; exact List.mem_cons_of_mem _ he), hside.2.1.del _, ?_⟩
        intro l e he
        dsimp only at he
        rw [Dict.get?_del hside.2.1] at he
        split at he
        · cases he
        · exact hside.2.2 l e he
      · rintro ⟨k, d, y⟩ hm
        obtain ⟨x, _, hx, _, _⟩ := (h2 k d y).1 hm
        dsimp only
        unfold dirE at hx
        split at hx
        · exact has_iff.2 (hok.built.inv.edge_mem hx).1
        · exact has_iff.2 (hok.built.inv.edge_mem hx).2

/-- related results of one iteration -/
def SameStep (c : JamCfg ι α O) : (JamSt ι α O × Timer) ⊕ Py (JamSt ι α O × Timer) → (JamStH ι α O × Timer) ⊕ Py (JamStH ι α O × Timer) → Prop
  | .inl (s, t), .inl (s', t') => s'.base = s ∧ StU c s ∧ ObjOk s'.objs ∧ t' = t
  | .inr (.error e), .inr (.error e') => e = e'
  | .inr (.ok (s, t)), .inr (.ok (s', t')) => s'.base = s ∧ StU c s ∧ ObjOk s'.objs ∧ t' = t
  | _, _ => False

theorem searchStepH_same (hok : JamOk c) (hrep : ∀ p, c.InU p → rep p = p) (clock : Nat → Rat) {s : JamSt ι α O} (h : StU c s) {objs}
    (ho : ObjOk objs) (t : Timer) : SameStep c (c.searchStepF clock (s, t)) (c.searchStepH rep clock (⟨s, objs⟩, t)) := by
  unfold JamCfg.searchStepF JamCfg.searchStepH
  dsimp only
  obtain ⟨late, t2⟩ := t.check clock
  dsimp only
  by_cases hl : late = true
  · rw [if_pos hl, if_pos hl]; exact ⟨rfl, h, ho, rfl⟩
  · rw [if_neg hl, if_neg hl]
    have k := expandH_same hok hrep false h ho
    revert k
    cases c.expandF false s with
    | error e =>
      cases c.expandH rep false ⟨s, objs⟩ with
      | error e' => intro k; exact k
      | ok s' => intro k; exact k.elim
    | ok s1 =>
      cases c.expandH rep false ⟨s, objs⟩ with
      | error e' => intro k; exact k.elim
      | ok s1' =>
        obtain ⟨b, ob⟩ := s1'
        rintro ⟨k1, k2, k3⟩
        dsimp only at k1 k3 ⊢
        subst k1
        have k := expandH_same hok hrep true k2 k3
        revert k
        cases c.expandF true b with
        | error e =>
          cases c.expandH rep true ⟨b, ob⟩ with
          | error e' => intro k; exact k
          | ok s' => intro k; exact k.elim
        | ok s2 =>
          cases c.expandH rep true ⟨b, ob⟩ with
          | error e' => intro k; exact k.elim
          | ok s2' =>
            obtain ⟨b2, ob2⟩ := s2'
            rintro ⟨k1, k2, k3⟩
            dsimp only at k1 k3 ⊢
            subst k1
            by_cases hq : b2.f.q = [] ∧ b2.r.q = []
            · rw [if_pos hq, if_pos hq]; exact ⟨rfl, k2, k3, rfl⟩
            · rw [if_neg hq, if_neg hq]; exact ⟨rfl, k2, k3, rfl⟩

theorem JInv.stU {ex} {s : JamSt ι α O} (h : JInv c ex s) : StU c s := fun rev => by
  have hs := h.side rev
  have hq : ∀ e ∈ (s.side rev).q, c.InU e.loads := fun e he => (hs.uni _ (.inr (List.mem_map.2 ⟨e, he, rfl⟩))).1
  exact ⟨hq, hs.wf, fun l e he => hq e (hs.keys l e he).1⟩

theorem initH_eq (hok : JamOk c) (hrep : ∀ p, c.InU p → rep p = p) : c.initH rep = ⟨c.init, Dict.empty⟩ := by
  unfold JamCfg.initH JamCfg.init
  dsimp only
  have hf : ∀ l ∈ c.finals, rep l = l := fun l hl => hrep l (final_good hok ((mem_finals hok l).1 hl)).1
  rw [hrep _ (start_inU hok)]
  have : ∀ (L : List (Placement ι α)) (d : Dict (Placement ι α) (JState ι α)), (∀ l ∈ L, rep l = l) →
      (L.map (fun l => (⟨l, 0, .inf⟩ : JState ι α))).foldl (fun d s => d.set (rep s.loads) s) d =
      (L.map (fun l => (⟨l, 0, .inf⟩ : JState ι α))).foldl (fun d s => d.set s.loads s) d := by
    intro L
    induction L with
    | nil => intro d _; rfl
    | cons l L ih =>
      intro d hL
      simp only [List.map_cons, List.foldl_cons]
      rw [hL l (by simp)]
      exact ih _ (fun l hl => hL l (List.mem_cons_of_mem _ hl))
  rw [this _ _ hf]

theorem pathObjs_eq {objs : Dict (Placement ι α × Placement ι α) (Placement ι α)} (h : ObjOk objs) (p : List (Placement ι α)) :
    pathObjs objs p = p.tail := by
  induction p with
  | nil => rfl
  | cons a p ih =>
    cases p with
    | nil => rfl
    | cons b p =>
      rw [pathObjs, ih]
      cases hv : objs.get? (a, b) with
      | none => rfl
      | some v => rw [h a b v hv]; rfl

theorem solveH_eq (hok : JamOk c) (hrep : ∀ p, c.InU p → rep p = p) (clock : Nat → Rat) (t : Timer) :
    c.solveH rep clock t = c.solve clock t := by
  obtain ⟨s, t', h1, h2, _, _⟩ := jamSearch_spec hok clock t
  have key : ∃ s', pyWhile (c.searchStepH rep clock) (c.initH rep, t) = some (.ok (s', t')) ∧ s'.base = s ∧ ObjOk s'.objs := by
    rw [initH_eq hok hrep]
    have hq := pyWhileD_inv (step := c.searchStep clock)
      (fun x => StU c x.1 ∧ ∃ objs, ObjOk objs ∧ pyWhile (c.searchStepH rep clock) (⟨c.init, Dict.empty⟩, t) =
        pyWhile (c.searchStepH rep clock) (⟨x.1, objs⟩, x.2))
      (fun r => ∀ s t', r = .ok (s, t') → ∃ s', pyWhile (c.searchStepH rep clock) (⟨c.init, Dict.empty⟩, t) = some (.ok (s', t')) ∧
        s'.base = s ∧ ObjOk s'.objs) ?_ ?_ ⟨(init_inv hok).stU, Dict.empty, (by intro a b v hv; cases hv), rfl⟩ h1
    · exact hq s t' rfl
    · rintro ⟨s, t⟩ ⟨s2, t2⟩ ⟨k1, objs, k2, k3⟩ hs
      rw [searchStep_eq] at hs
      have hs := Option.some.inj hs
      have k := searchStepH_same hok hrep clock k1 k2 t
      rw [hs] at k
      cases hh : c.searchStepH rep clock (⟨s, objs⟩, t) with
      | inr r => rw [hh] at k; exact k.elim
      | inl x =>
        rw [hh] at k
        obtain ⟨⟨b, ob⟩, t3⟩ := x
        obtain ⟨rfl, e2, e3, rfl⟩ := k
        exact ⟨e2, ob, e3, by rw [k3, pyWhile_inl hh]⟩
    · rintro ⟨s, t⟩ r ⟨k1, objs, k2, k3⟩ hs s2 t2 rfl
      rw [searchStep_eq] at hs
      have hs := Option.some.inj hs
      have k := searchStepH_same hok hrep clock k1 k2 t
      rw [hs] at k
      cases hh : c.searchStepH rep clock (⟨s, objs⟩, t) with
      | inl x => rw [hh] at k; exact k.elim
      | inr x =>
        rw [hh] at k
        cases x with
        | error e => exact k.elim
        | ok x =>
          obtain ⟨⟨b, ob⟩, t3⟩ := x
          obtain ⟨rfl, e2, e3, rfl⟩ := k
          exact ⟨_, by rw [k3, pyWhile_inr hh], rfl, e3⟩
  obtain ⟨⟨b, ob⟩, k1, rfl, k3⟩ := key
  unfold JamCfg.solveH JamCfg.solve
  rw [k1, h1]
  dsimp only
  have hmap : (c.ord c.finals).map rep = c.ord c.finals := by
    conv => rhs; rw [← List.map_id (c.ord c.finals)]
    refine List.map_congr_left fun l hl => ?_
    exact hrep l (final_good hok ((mem_finals hok l).1 ((hok.ord _).mem_iff.1 hl))).1
  rw [hmap, hrep _ (start_inU hok)]
  obtain ⟨r, h5, h6⟩ := bestPath_spec hok h2
  rw [h5]
  unfold JamCfg.bestPath at h5
  dsimp only at h5
  rw [h5]
  rcases h6 with ⟨rfl, _⟩ | ⟨d0, p0, e0, rfl, _, h7, _⟩
  · rfl
  · dsimp only
    rw [Option.map_some, pathObjs_eq k3]
    have h8 := h7.1
    cases p0 with
    | nil => cases h8
    | cons a p0 => cases h8; rfl
end GT

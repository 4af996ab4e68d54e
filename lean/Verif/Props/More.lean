import Verif.Other.Graph3D
import Verif.Other.TimerProof
import Verif.Other.SolveTsp
import Verif.Props.Tsp
import Verif.Props.Jam
/-
Property theorems C60 - C63: Graph3D, Timer, solve_tsp, check_user_input.
-/
namespace GT
open Graph
variable {ι α V O : Type} [DecidableEq ι] [DecidableEq α]

/-! ### C60 -/

/-- **C60**. After any history of calls on a `Graph3D` with arbitrary arguments: the graph is what a `Graph` would be after the accepted
calls, i.e. those between/with tuples of three numbers and with a value (so that all theorems about graphs apply); hence every node is a
tuple of three numbers.  A rejected call raises `TypeError`, `ValueError` or `AssertionError` and changes nothing. -/
theorem C60_graph3D_only_points (shape : α → PtArg) (ops : List (Op3 α V O)) :
    Graph.run3 shape ops = Graph.run (ops.filterMap (Op3.accepted shape)) ∧ (Graph.run3 shape ops).Built ∧
    (∀ n, (Graph.run3 shape ops).has n = true → ∃ x y z, shape n = .tuple [some x, some y, some z]) ∧
    (∀ op : Op3 α V O, match op.accepted shape with
      | some o => (Graph.run3 shape ops).step3 shape op = (Graph.run3 shape ops).stepE o
      | none => ∃ e, (Graph.run3 shape ops).step3 shape op = (Graph.run3 shape ops, some e) ∧
          (e = .typeError ∨ e = .valueError ∨ e = .assertionError)) :=
  ⟨run3_eq shape ops, ⟨_, (run3_eq shape ops).symm⟩, fun n hn => run3_points shape ops n hn, fun op => step3_accepted shape _ op⟩

/-- which exception: no tuple or an element that is no number: `TypeError`; a tuple of another length: `ValueError`; the value `None`:
`AssertionError` -/
theorem C60_exceptions (shape : α → PtArg) (g : Graph α V O) (n m : α) (obj : Option O) (bi : Bool) :
    (shape n = .other → g.step3 shape (.addNode n obj) = (g, some .typeError)) ∧
    (∀ l, shape n = .tuple l → l.length ≠ 3 → g.step3 shape (.addNode n obj) = (g, some .valueError)) ∧
    (∀ l, shape n = .tuple l → l.length = 3 → none ∈ l → g.step3 shape (.addNode n obj) = (g, some .typeError)) ∧
    (isPoint (shape n) = true → isPoint (shape m) = true → g.step3 shape (.addEdge n m none bi) = (g, some .assertionError)) := by
  refine ⟨?_, ?_, ?_, ?_⟩
  · intro h
    simp only [Graph.step3, Graph.addNode3E, guard3, h, checkTuple]
  · intro l h hl
    simp only [Graph.step3, Graph.addNode3E, guard3, h, checkTuple, if_pos hl]
  · intro l h hl hn
    have : allNum l = none := by
      cases ha : allNum l with
      | none => rfl
      | some r =>
        rw [allNum_some] at ha
        rw [ha] at hn
        simp at hn
    simp only [Graph.step3, Graph.addNode3E, guard3, h, checkTuple, if_neg (show ¬ l.length ≠ 3 by simpa using hl), this]
  · intro h1 h2
    simp only [Graph.step3, Graph.addEdge3E, check3_ok ((isPoint_iff _).1 h1) ((isPoint_iff _).1 h2)]

/-- values used as nodes in the example: tuples of numbers or text -/
def exShape (l : List (Option Rat)) : PtArg := if l = [] then .other else .tuple l

def exOps3 : List (Op3 (List (Option Rat)) Rat Nat) :=
  [.addNode [some 0, some 0, some 0] (some 7), .addNode [some 1, some 2] none, .addEdge [some 0, some 0, some 0] [some 1, some 1, none] (some (.scalar 2)) true,
   .addEdge [some 0, some 0, some 0] [some 1, some 1, some 1] (some (.scalar 2)) true, .addEdge [some 0, some 0, some 0] [some 2, some 1, some 1] none true,
   .addNode [] none]

/-- three of six calls are rejected -/
example : (Graph.run3 exShape exOps3).nodeList = [[some 0, some 0, some 0], [some 1, some 1, some 1]] ∧
    (Graph.run3 exShape exOps3).edgeList.length = 2 ∧ (exOps3.filterMap (Op3.accepted exShape)).length = 2 := by decide +kernel

/-! ### C61 -/

/-- **C61**. `Timer(timeout)` raises `ValueError` exactly for a negative timeout.  For every clock, call number `i` (from 0) of `expired()`
answers `True` exactly if one of the readings number `j` with `101 * j < i` was later than `timeout` milliseconds after the start; in
particular never without timeout, and for ever after the first `True`. -/
theorem C61_timer (clock : Nat → Rat) (timeout : Option Rat) :
    (newTimer clock timeout = .error .valueError ↔ ∃ l, timeout = some l ∧ l < 0) ∧
    ∀ t, newTimer clock timeout = .ok t → ∀ n i, i < n → ∃ b, (Timer.calls clock n t).1[i]? = some b ∧
      (b = true ↔ ∃ j l, 101 * j < i ∧ timeout = some l ∧ l / 1000 < clock (j + 1) - clock 0) := by
  refine ⟨?_, ?_⟩
  · cases timeout with
    | none => simp [newTimer]
    | some l =>
      simp only [newTimer]
      by_cases h : l < 0
      · rw [if_pos h]; simp [h]
      · rw [if_neg h]; simp [h]
  · intro t ht n i hi
    refine ⟨_, Timer.calls_get? clock n t i hi, ?_⟩
    rw [Timer.check_fst]
    have key : t.counter = 0 ∧ t.expired = false ∧ t.reads = 1 ∧ t.start = clock 0 ∧ (∀ l, t.limit = .fin l ↔ timeout = some l) := by
      cases timeout with
      | none => cases ht; exact ⟨rfl, rfl, rfl, rfl, by simp⟩
      | some l =>
        simp only [newTimer] at ht
        split at ht
        · cases ht
        · cases ht; exact ⟨rfl, rfl, rfl, rfl, by simp⟩
    obtain ⟨k1, k2, k3, k4, k5⟩ := key
    refine (Timer.after_inv clock ⟨k1, k2, k3⟩ i).2.2.1.trans ?_
    unfold Late
    rw [k4]
    simp only [k5]
    constructor
    · rintro ⟨j, h1, l, h2, h3⟩; exact ⟨j, l, h1, h2, h3⟩
    · rintro ⟨j, l, h1, h2, h3⟩; exact ⟨j, h1, l, h2, h3⟩

/-- **C61**: with a clock that never goes back, the answer is `True` from the 102nd call after the time ran out at the latest: if the
reading due at call `101 * j` was too late, call `101 * j + 1` and all later ones answer `True`. -/
theorem C61_timer_latency (clock : Nat → Rat) {l : Rat} (hl : 0 ≤ l) {j n i : Nat} (hlate : l / 1000 < clock (j + 1) - clock 0)
    (hi : 101 * j < i) (hn : i < n) : ∃ t, newTimer clock (some l) = .ok t ∧ (Timer.calls clock n t).1[i]? = some true := by
  obtain ⟨_, h⟩ := C61_timer clock (some l)
  have hnew : ∃ t, newTimer clock (some l) = .ok t := by
    refine ⟨⟨.fin l, clock 0, 0, false, 1⟩, ?_⟩
    simp only [newTimer]
    rw [if_neg (by grind)]
  obtain ⟨t, ht⟩ := hnew
  obtain ⟨b, h1, h2⟩ := h t ht n i hn
  rw [h2.2 ⟨j, l, hi, rfl, hlate⟩] at h1
  exact ⟨t, ht, h1⟩

/-- a timeout of 2 seconds, a clock that advances by one second per reading: the third reading (call 202) is too late -/
example : ∃ t, newTimer (fun n => (n : Rat)) (some 2000) = .ok t ∧ ((Timer.calls (fun n => (n : Rat)) 205 t).1.findIdx (fun b => b)) = 203 := by
  refine ⟨⟨.fin 2000, 0, 0, false, 1⟩, rfl, by decide +kernel⟩

/-! ### C62 -/

/-- **C62**. On a symmetric complete graph with positive values and at least two nodes, `solve_tsp()`, `solve_tsp("2023")` and
`solve_tsp("greedy")` return a round trip through all nodes and its length (for `"2023"` if a round trip is shorter than `sys.maxsize`);
`solve_tsp("bnb")` on at least four nodes returns a round trip and its length or raises `AssertionError`; other methods raise `TypeError`. -/
theorem C62_solve_tsp {nlt : α → α → Bool} {it : SetOrders α} (hit : it.Ok) {g : Graph α Rat O} (hg : g.Built)
    (hc : CompletePos g.edge g.nodeList) (hs : SymmetricW g.edge) (h2 : 2 ≤ g.nodeList.length) (method : String) :
    solveTsp nlt it g = solveTsp nlt it g "2023" ∧
    (method = "greedy" ∨ (method = "2023" ∧ ∃ t c, IsTourOf g.edge g.nodeList t c ∧ c < maxsize) →
      ∃ d t, solveTsp nlt it g method = some (.ok (.fin d, t)) ∧ IsTourOf g.edge g.nodeList t d) ∧
    (method = "bnb" → 4 ≤ g.nodeList.length → (∀ a, g.edge a a = none) →
      solveTsp nlt it g method = some (.error .assertionError) ∨
      ∃ d t, solveTsp nlt it g method = some (.ok (.fin d, t)) ∧ IsTourOf g.edge g.nodeList t d) ∧
    (method ∉ ["greedy", "bnb", "2023"] → solveTsp nlt it g method = some (.error .typeError)) := by
  refine ⟨rfl, ?_, ?_, ?_⟩
  · rintro (rfl | ⟨rfl, hm⟩)
    · obtain ⟨d, t, d1, t1, h3, h4, _⟩ := C49_tsp_greedy (nlt := nlt) hg hc h2
      refine ⟨d, t, ?_, h4⟩
      unfold solveTsp
      rw [if_pos rfl, h3]; rfl
    · have h : ∃ d t, tsp2023 nlt g = some (.ok (d, t)) ∧ IsTourOf g.edge g.nodeList t d := by
        by_cases h7 : g.nodeList.length < 7
        · obtain ⟨d, t, h3, h4, _⟩ := C50_tsp_2023_small (nlt := nlt) hg hc h2 h7 hm
          exact ⟨d, t, h3, h4⟩
        · obtain ⟨d, t, d1, t1, h3, h4, _⟩ := C50_tsp_2023_symmetric (nlt := nlt) hg hc hs (by omega)
          exact ⟨d, t, h3, h4⟩
      obtain ⟨d, t, h3, h4⟩ := h
      refine ⟨d, t, ?_, h4⟩
      unfold solveTsp
      rw [if_neg (by decide), if_neg (by decide), if_pos rfl, h3]; rfl
  · rintro rfl h4 hself
    obtain ⟨r, h5, h6⟩ := C48_branch_and_bound_partial (nlt := nlt) hit hg hc h4 hself
    have : solveTsp nlt it g "bnb" = some r := by
      unfold solveTsp
      rw [if_neg (by decide), if_pos rfl, h5]
    rw [this]
    rcases h6 with rfl | ⟨d, t, rfl, h7, _⟩
    · exact .inl rfl
    · exact .inr ⟨d, t, rfl, h7⟩
  · intro h
    simp only [List.mem_cons, List.not_mem_nil, or_false, not_or] at h
    unfold solveTsp
    rw [if_neg h.1, if_neg h.2.1, if_neg h.2.2]

example : circG.Built ∧ CompletePos circG.edge circG.nodeList ∧ SymmetricW circG.edge ∧ 2 ≤ circG.nodeList.length ∧
    solveTsp natLt setsInOrder circG "other" = some (.error .typeError) :=
  ⟨⟨_, rfl⟩, completePos_of (by decide +kernel), symmetricW_of ⟨_, rfl⟩ (by decide +kernel), by decide +kernel, by
    unfold solveTsp; rw [if_neg (by decide), if_neg (by decide), if_neg (by decide)]⟩

/-! ### C63 -/

/-- the load has a way from its start to one of its ends that avoids its prohibited nodes -/
def HasWay (g : Graph α Rat O) (r : RawLoad ι α) : Prop :=
  r.start ∉ r.proh ∧ ∃ e ∈ r.endSet, Reach (fun x y => (g.edge x y).isSome = true ∧ x ∉ r.proh ∧ y ∉ r.proh) r.start e

/-- a `Load` with the data of the user -/
def LoadOf (r : RawLoad ι α) (l : Load ι α) : Prop :=
  l.id = r.id ∧ l.start = r.start ∧ (∀ x, x ∈ l.ends ↔ x ∈ r.endSet) ∧ ∀ x, x ∈ l.prohibited ↔ x ∈ r.proh

/-- **C63**, for loads with different ids. `check_user_input` accepts exactly if no collection of ends is empty, all starts and ends are in
the graph, `is_ap_solvable` finds an end for every load (C51) and every load has a way from its start to an end that avoids its prohibited
nodes; the loads it returns are the given ones, in their order.  Otherwise it raises `UnSolvable`, because of the last two conditions, or
`ValueError`, because of the others or because a load starts on a node that is prohibited for it. -/
theorem C63_check_user_input {E : JamEnv ι α} (hE : E.Ok) {g : Graph α Rat O} (hg : g.Built) {raw : List (RawLoad ι α)}
    (hids : (raw.map RawLoad.id).Nodup) :
    ∃ res, checkUserInput E g raw = some res ∧
      ((∃ loads, res = .ok loads) ↔ (∀ r ∈ raw, r.ends ≠ some []) ∧ ¬ NodeMissing g raw ∧ endsAssignable E raw = true ∧ ∀ r ∈ raw, HasWay g r) ∧
      (∀ loads : List (Load ι α), res = .ok loads → loads.length = raw.length ∧
        ∀ (i : Nat) (r : RawLoad ι α) (l : Load ι α), raw[i]? = some r → loads[i]? = some l → LoadOf r l) ∧
      (∀ e, res = .error e → (e = .unSolvable ∧ (endsAssignable E raw = false ∨ ∃ r ∈ raw, ¬ HasWay g r)) ∨
        (e = .valueError ∧ ((∃ r ∈ raw, r.ends = some []) ∨ NodeMissing g raw ∨ ∃ r ∈ raw, r.start ∈ r.proh))) := by
  unfold checkUserInput
  rcases buildLoads_spec E.setOrd raw Dict.empty [] hids (by intro r _ h; cases h) with ⟨h1, h2⟩ | ⟨h1, d, ns, h2, h3, h4⟩
  · rw [h2]
    obtain ⟨r, hr, he⟩ := h1
    refine ⟨_, rfl, ⟨?_, ?_⟩, ?_, ?_⟩
    · rintro ⟨_, h⟩; cases h
    · rintro ⟨h, _⟩; exact absurd he (h r hr)
    · intro _ h; cases h
    · intro e h; cases h; exact .inr ⟨rfl, .inl ⟨r, hr, he⟩⟩
  · rw [h2]
    dsimp only
    have hloads : d.items.map Prod.snd = raw.map (mkLoad E.setOrd) := by
      rw [h3]; simp [Dict.empty]
    rw [hloads]
    have hns : ∀ x, x ∈ ns ↔ ∃ r ∈ raw, x = r.start ∨ x ∈ (mkLoad E.setOrd r).ends := by intro x; rw [h4]; simp
    by_cases hm : nodesMissing g ns (raw.map (mkLoad E.setOrd)) = true
    · rw [if_pos hm]
      have hm' := (nodesMissing_iff hE.setOrd hns).1 hm
      refine ⟨_, rfl, ⟨?_, ?_⟩, ?_, ?_⟩
      · rintro ⟨_, h⟩; cases h
      · rintro ⟨_, h, _⟩; exact absurd hm' h
      · intro _ h; cases h
      · intro e h; cases h; exact .inr ⟨rfl, .inr (.inl hm')⟩
    · rw [if_neg hm]
      have hnm : ¬ NodeMissing g raw := fun h => hm ((nodesMissing_iff hE.setOrd hns).2 h)
      have hasg : (raw.map (mkLoad E.setOrd)).map (fun ld => (ld.id, ld.ends)) = raw.map (fun r => (r.id, (mkLoad E.setOrd r).ends)) := by
        rw [List.map_map]; rfl
      rw [hasg]
      by_cases ha : isApSolvable E.pop (raw.map (fun r => (r.id, (mkLoad E.setOrd r).ends))) = true
      · rw [if_pos ha]
        obtain ⟨rp, h5, h6⟩ := checkPaths_spec hg (raw.map (mkLoad E.setOrd)) (by
          intro l hl
          obtain ⟨r, hr, rfl⟩ := List.mem_map.1 hl
          cases hh : g.has (mkLoad E.setOrd r).start with
          | true => rfl
          | false => exact absurd ⟨r, hr, .inl hh⟩ hnm)
        have hway : ∀ r : RawLoad ι α, HasWay g r ↔ (mkLoad E.setOrd r).start ∉ (mkLoad E.setOrd r).prohibited ∧
            ∃ e ∈ (mkLoad E.setOrd r).ends, Reach (Avoids g (mkLoad E.setOrd r).prohibited) (mkLoad E.setOrd r).start e := by
          intro r
          obtain ⟨_, e1, e2⟩ := mkLoad_ends hE.setOrd r
          unfold HasWay
          have hst : (mkLoad E.setOrd r).start = r.start := rfl
          rw [hst, e2]
          refine and_congr_right fun _ => ?_
          have hre : ∀ e, Reach (Avoids g (mkLoad E.setOrd r).prohibited) r.start e ↔
              Reach (fun x y => (g.edge x y).isSome = true ∧ x ∉ r.proh ∧ y ∉ r.proh) r.start e := by
            intro e
            constructor
            · exact fun h => h.mono (fun a b hab => ⟨hab.1, fun x => hab.2.1 ((e2 a).2 x), fun x => hab.2.2 ((e2 b).2 x)⟩)
            · exact fun h => h.mono (fun a b hab => ⟨hab.1, fun x => hab.2.1 ((e2 a).1 x), fun x => hab.2.2 ((e2 b).1 x)⟩)
          constructor
          · rintro ⟨e, h7, h8⟩; exact ⟨e, (e1 e).2 h7, (hre e).2 h8⟩
          · rintro ⟨e, h7, h8⟩; exact ⟨e, (e1 e).1 h7, (hre e).1 h8⟩
        rw [h5]
        rcases h6 with ⟨rfl, h6⟩ | ⟨rfl, l, h6, h7⟩ | ⟨rfl, l, h6, h7, h8⟩
        · refine ⟨_, rfl, ⟨fun _ => ⟨h1, hnm, ha, ?_⟩, fun _ => ⟨_, rfl⟩⟩, ?_, ?_⟩
          · intro r hr; exact (hway r).2 (h6 _ (List.mem_map.2 ⟨r, hr, rfl⟩))
          · rintro loads h
            cases h
            refine ⟨by simp, ?_⟩
            intro i r l hr hl
            rw [List.getElem?_map, hr] at hl
            cases hl
            obtain ⟨_, e1, e2⟩ := mkLoad_ends hE.setOrd r
            exact ⟨rfl, rfl, e1, e2⟩
          · intro e h; cases h
        · obtain ⟨r, hr, rfl⟩ := List.mem_map.1 h6
          have h7' : r.start ∈ r.proh := ((mkLoad_ends hE.setOrd r).2.2 _).1 h7
          refine ⟨_, rfl, ⟨?_, ?_⟩, ?_, ?_⟩
          · rintro ⟨_, h⟩; cases h
          · rintro ⟨_, _, _, h⟩; exact absurd h7' (h r hr).1
          · intro _ h; cases h
          · intro e h; cases h; exact .inr ⟨rfl, .inr (.inr ⟨r, hr, h7'⟩)⟩
        · obtain ⟨r, hr, rfl⟩ := List.mem_map.1 h6
          have hno : ¬ HasWay g r := fun h => h8 ((hway r).1 h).2
          refine ⟨_, rfl, ⟨?_, ?_⟩, ?_, ?_⟩
          · rintro ⟨_, h⟩; cases h
          · rintro ⟨_, _, _, h⟩; exact absurd (h r hr) hno
          · intro _ h; cases h
          · intro e h; cases h; exact .inl ⟨rfl, .inr ⟨r, hr, hno⟩⟩
      · rw [if_neg ha]
        have ha' : endsAssignable E raw = false := by unfold endsAssignable; simpa using ha
        refine ⟨_, rfl, ⟨?_, ?_⟩, ?_, ?_⟩
        · rintro ⟨_, h⟩; cases h
        · rintro ⟨_, _, h, _⟩; rw [ha'] at h; cases h
        · intro _ h; cases h
        · intro e h; cases h; exact .inl ⟨rfl, .inl ha'⟩

/-- the hypotheses are met by the siding of `C53` -/
example : plainEnv.Ok ∧ siding.Built ∧ (swapJam.map RawLoad.id).Nodup := ⟨plainEnv_ok, ⟨_, rfl⟩, by decide⟩

end GT

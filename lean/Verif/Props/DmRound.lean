import Verif.Sp.DistMapKeys
import Verif.Props.Sp
import Verif.Props.Round
import Verif.Props.BidirRound
/-
Property theorems C139: `distance_map` on floating point values.
-/
namespace GT
open Graph
variable {α O : Type} [DecidableEq α]

/-- **C139**, forward. With any rounding, `distance_map(starts, ends)` returns; the starts have the value 0 (with non-negative values); every value is the length of a walk from a start, added from left to
right with rounding after every addition, a walk with no node twice except perhaps the last; all starts and all ends that can be reached are in the result, and without `ends` it contains exactly the
nodes that can be reached.  If all edges have the same non-negative value, no walk from a start has a smaller rounded length. -/
theorem C139_distance_map_rounded {fl : Rat → Rat} (hfl : Rounding fl) {g : Graph α Rat O} (hg : g.Built) {ord : List α → List α} (hord : ∀ l, (ord l).Perm l)
    (S : List α) (hS : ∀ x ∈ S, g.has x = true) (T : Option (List α)) (hT : ∀ es, T = some es → ∀ x ∈ es, g.has x = true) :
    ∃ r, g.distanceMapFl fl ord (some S) T false = some (.ok r) ∧ r.keys.Nodup ∧
      (NonNeg g.edge → ∀ x ∈ S, r.get? x = some 0) ∧
      (∀ x v, r.get? x = some v → ∃ a ∈ S, ∃ p e, WalkOf g.edge a x p e ∧ p.dropLast.Nodup ∧ flCost fl g.edge 0 p = some v) ∧
      (∀ es, T = some es → ∀ x ∈ es, (∃ a ∈ S, Reach g.Adj a x) → x ∈ r.keys) ∧
      (T = none → ∀ x, x ∈ r.keys ↔ ∃ a ∈ S, Reach g.Adj a x) ∧
      (∀ c, 0 ≤ c → (∀ a b d, g.edge a b = some d → d = c) →
        ∀ x v, r.get? x = some v → ∀ a ∈ S, ∀ p e k, WalkOf g.edge a x p e → flCost fl g.edge 0 p = some k → v ≤ k) := by
  have h := hg.inv
  obtain ⟨r, h1, h2⟩ := dmWalkFl_spec hfl (w := g.edge) (S0 := S) (fun x y c hx => h.edge_mem hx) (fun x hx => has_iff.1 (hS x hx))
    (nbr := g.outNbr) (fun x y c => h.mem_outNbr) hord T
  have hnS : ((some S).getD []).any (fun s => !g.has s) = false := by
    rw [List.any_eq_false]; intro x hx; simp [hS x hx]
  have hnT : (T.getD []).any (fun s => !g.has s) = false := by
    rw [List.any_eq_false]; intro x hx
    cases T with
    | none => simp at hx
    | some es => simp [hT es rfl x hx]
  refine ⟨r, ?_, h2.wf, fun hw x hx => ?_, fun x v hv => ?_, h2.ends, fun hT x => ⟨fun hx => ?_, h2.exhaustive hT x⟩,
    fun c hc hu x v hv a ha p e k hp hk => h2.uniform c hc hu x v hv a ha p k ⟨hp.1, hp.2.1, hk, by simp⟩⟩
  · unfold distanceMapFl
    rw [hnS, hnT]
    simpa using h1
  · obtain ⟨v, h3, h4⟩ := h2.starts x hx
    obtain ⟨a, p, _, hp, _⟩ := h2.walk x v h3
    have := (flCost_fix hfl hw _ hfl.zero Rat.le_refl hp.2.2.1).2
    rw [h3]; congr 1; grind
  · obtain ⟨a, p, ha, hp, hnp, _⟩ := h2.walk x v hv
    obtain ⟨e, he⟩ := avoid_of_flWalk hp
    exact ⟨a, ha, p, e, he.1, hnp, hp.2.2.1⟩
  · obtain ⟨v, hv⟩ := Dict.exists_get?_of_mem_keys hx
    obtain ⟨a, p, ha, hp, _⟩ := h2.walk x v hv
    obtain ⟨e, he⟩ := avoid_of_flWalk hp
    exact ⟨a, ha, Steps.of_walkOf he.1⟩

/-- **C139**, `reverse=True`: the same for walks to an end; here the values are added from the end of the walk to its beginning. -/
theorem C139_distance_map_reverse_rounded {fl : Rat → Rat} (hfl : Rounding fl) {g : Graph α Rat O} (hg : g.Built) {ord : List α → List α} (hord : ∀ l, (ord l).Perm l)
    (S : List α) (hS : ∀ x ∈ S, g.has x = true) (T : Option (List α)) (hT : ∀ es, T = some es → ∀ x ∈ es, g.has x = true) :
    ∃ r, g.distanceMapFl fl ord T (some S) true = some (.ok r) ∧ r.keys.Nodup ∧
      (NonNeg g.edge → ∀ x ∈ S, r.get? x = some 0) ∧
      (∀ x v, r.get? x = some v → ∃ a ∈ S, ∃ p e, WalkOf g.edge x a p e ∧ p.tail.Nodup ∧ flCost fl (fun x y => g.edge y x) 0 p.reverse = some v) ∧
      (∀ es, T = some es → ∀ x ∈ es, (∃ a ∈ S, Reach g.Adj x a) → x ∈ r.keys) ∧
      (T = none → ∀ x, x ∈ r.keys ↔ ∃ a ∈ S, Reach g.Adj x a) ∧
      (∀ c, 0 ≤ c → (∀ a b d, g.edge a b = some d → d = c) →
        ∀ x v, r.get? x = some v → ∀ a ∈ S, ∀ p e k, WalkOf g.edge x a p e → flCost fl (fun x y => g.edge y x) 0 p.reverse = some k → v ≤ k) := by
  have h := hg.inv
  obtain ⟨r, h1, h2⟩ := dmWalkFl_spec hfl (w := fun x y => g.edge y x) (S0 := S) (U := g.nodeList)
    (fun x y c hx => ⟨(h.edge_mem hx).2, (h.edge_mem hx).1⟩) (fun x hx => has_iff.1 (hS x hx))
    (nbr := g.inNbr) (fun x y c => h.mem_inNbr) hord T
  have hnS : ((some S).getD []).any (fun s => !g.has s) = false := by
    rw [List.any_eq_false]; intro x hx; simp [hS x hx]
  have hnT : (T.getD []).any (fun s => !g.has s) = false := by
    rw [List.any_eq_false]; intro x hx
    cases T with
    | none => simp at hx
    | some es => simp [hT es rfl x hx]
  have hfl' : ∀ x, (∃ a ∈ S, Reach g.Adj x a) → (∃ a ∈ S, Reach (fun x y => (g.edge y x).isSome = true) a x) :=
    fun x ⟨a, ha, hr⟩ => ⟨a, ha, hr.flip⟩
  refine ⟨r, ?_, h2.wf, fun hw x hx => ?_, fun x v hv => ?_, fun es hes x hx hr => h2.ends es hes x hx (hfl' x hr),
    fun hT x => ⟨fun hx => ?_, fun hr => h2.exhaustive hT x (hfl' x hr)⟩,
    fun c hc hu x v hv a ha p e k hp hk => h2.uniform c hc (fun a b d hd => hu b a d hd) x v hv a ha p.reverse k
      ⟨hp.reverse.1, hp.reverse.2.1, hk, by simp⟩⟩
  · unfold distanceMapFl
    rw [hnS, hnT]
    cases T <;> simpa using h1
  · obtain ⟨v, h3, h4⟩ := h2.starts x hx
    obtain ⟨a, p, _, hp, _⟩ := h2.walk x v h3
    have := (flCost_fix hfl (w := fun x y => g.edge y x) (fun a b c hc => hw b a c hc) _ hfl.zero Rat.le_refl hp.2.2.1).2
    rw [h3]; congr 1; grind
  · obtain ⟨a, p, ha, hp, hnp, _⟩ := h2.walk x v hv
    obtain ⟨e, he⟩ := avoid_of_flWalk hp
    refine ⟨a, ha, p.reverse, e, he.1.reverse, ?_, by rw [List.reverse_reverse]; exact hp.2.2.1⟩
    rw [List.tail_reverse]; exact nodup_reverse.2 hnp
  · obtain ⟨v, hv⟩ := Dict.exists_get?_of_mem_keys hx
    obtain ⟨a, p, ha, hp, _⟩ := h2.walk x v hv
    obtain ⟨e, he⟩ := avoid_of_flWalk hp
    exact ⟨a, ha, (Steps.of_walkOf he.1).flip⟩

/-- **C139**: the rounding does not change which nodes are in the result, nor their order. -/
theorem C139_same_nodes (fl : Rat → Rat) (ord : List α → List α) (g : Graph α Rat O) (S T : Option (List α)) (rev : Bool) :
    (g.distanceMapFl fl ord S T rev).map (·.map Dict.keys) = (g.distanceMap ord S T rev).map (·.map Dict.keys) := by
  rw [← distanceMapFl_id]
  exact distanceMapFl_keys fl id ord g S T rev

/-- **C139**, accuracy. If one rounding has a relative error of at most `ε`, every value is the total value `e` of some walk from a start with at most as many edges as there are nodes, up to one relative
error per edge; so it is nowhere smaller than the distance `m`, up to that factor.  If all edges have the same value, it is not larger than the value of any walk `q` from a start up to one relative
error per edge of `q`. -/
theorem C139_accuracy {fl : Rat → Rat} (hfl : Rounding fl) {ε : Rat} (h0 : 0 ≤ ε) (h1 : ε ≤ 1) (hε : RelErr fl ε) {g : Graph α Rat O} (hg : g.Built) (hw : NonNeg g.edge)
    {ord : List α → List α} (hord : ∀ l, (ord l).Perm l) {S : List α} (hS : ∀ x ∈ S, g.has x = true) {T : Option (List α)} (hT : ∀ es, T = some es → ∀ x ∈ es, g.has x = true)
    {r : Dict α Rat} (hr : g.distanceMapFl fl ord (some S) T false = some (.ok r)) {x : α} {v : Rat} (hv : r.get? x = some v) :
    (∃ a ∈ S, ∃ p e, WalkOf g.edge a x p e ∧ p.length - 1 ≤ g.nodeList.length ∧ (1 - ε) ^ (p.length - 1) * e ≤ v ∧ v ≤ (1 + ε) ^ (p.length - 1) * e) ∧
    (∀ m, 0 ≤ m → (∀ a ∈ S, ∀ q c, WalkOf g.edge a x q c → m ≤ c) → (1 - ε) ^ g.nodeList.length * m ≤ v) ∧
    (∀ c, 0 ≤ c → (∀ a b d, g.edge a b = some d → d = c) → ∀ a ∈ S, ∀ q e, WalkOf g.edge a x q e → v ≤ (1 + ε) ^ (q.length - 1) * e) := by
  obtain ⟨r', k1, _, _, k2, _, _, k3⟩ := C139_distance_map_rounded hfl hg hord S hS T hT
  rw [hr] at k1; cases k1
  obtain ⟨a, ha, p, e, hp, hnp, hc⟩ := k2 x v hv
  have hlen : p.length - 1 ≤ g.nodeList.length := by
    rw [← List.length_dropLast]
    refine nodup_length_le hnp (fun y hy => ?_)
    obtain ⟨u, t, hu⟩ := List.append_of_mem hy
    have hpe := (List.dropLast_concat_getLast hp.ne_nil).symm
    rw [hu, List.append_assoc, List.cons_append] at hpe
    rw [hpe] at hp
    obtain ⟨d1, d2, _, h2, _⟩ := hp.split
    rcases h2.inv with ⟨h3, _⟩ | ⟨z, q, c', d', _, hd, _⟩
    · have := congrArg List.length h3
      simp at this
    exact (hg.inv.edge_mem hd).1
  obtain ⟨b1, b2⟩ := flCost_bounds h0 h1 hε hw _ Rat.le_refl hc hp.2.2
  rw [Rat.zero_add] at b1 b2
  refine ⟨⟨a, ha, p, e, hp, hlen, b1, b2⟩, fun m hm hmin => ?_, fun c hc0 hu a' ha' q e' hq => ?_⟩
  · have t1 := hmin a ha p e hp
    have t2 := pow_le_pow_down (x := 1 - ε) (by grind) (by grind) hlen
    have t3 : (1 - ε) ^ g.nodeList.length * m ≤ (1 - ε) ^ (p.length - 1) * m := Rat.mul_le_mul_of_nonneg_right t2 hm
    have t4 : (1 - ε) ^ (p.length - 1) * m ≤ (1 - ε) ^ (p.length - 1) * e := Rat.mul_le_mul_of_nonneg_left t1 (Rat.pow_nonneg (by grind))
    exact Rat.le_trans t3 (Rat.le_trans t4 b1)
  · obtain ⟨k, hk⟩ := flWalk_of_avoid (fl := fl) (av := []) ⟨hq, by simp⟩
    have := k3 c hc0 hu x v hv a' ha' q e' k hq hk.2.2.1
    obtain ⟨_, b4⟩ := flCost_bounds h0 h1 hε hw _ Rat.le_refl hk.2.2.1 hq.2.2
    rw [Rat.zero_add] at b4
    exact Rat.le_trans this b4

/-- **C139** on doubles: `RelErr` with `ε = 2^-53`. -/
theorem C139_doubles {g : Graph α Rat O} (hg : g.Built) (hw : NonNeg g.edge)
    {ord : List α → List α} (hord : ∀ l, (ord l).Perm l) {S : List α} (hS : ∀ x ∈ S, g.has x = true) {T : Option (List α)} (hT : ∀ es, T = some es → ∀ x ∈ es, g.has x = true)
    {r : Dict α Rat} (hr : g.distanceMapFl double ord (some S) T false = some (.ok r)) {x : α} {v : Rat} (hv : r.get? x = some v) :
    ∃ a ∈ S, ∃ p e, WalkOf g.edge a x p e ∧ p.length - 1 ≤ g.nodeList.length ∧ (1 - pow2 (-53)) ^ (p.length - 1) * e ≤ v ∧ v ≤ (1 + pow2 (-53)) ^ (p.length - 1) * e :=
  (C139_accuracy double_rounding (by decide +kernel) (by decide +kernel) double_relErr hg hw hord hS hT hr hv).1

/-- **C139**, integers: if the values are integers between 0 and `M`, and `fl` leaves the integers up to the number of nodes times `M` alone (doubles: up to 2^53), then nothing is rounded. -/
theorem C139_integers {fl : Rat → Rat} {M N : Nat} (hfl : ExactUpTo fl N) {g : Graph α Rat O} (hg : g.Built) (hw : ∀ a b v, g.edge a b = some v → IntUpTo M v)
    (hN : g.nodeList.length * M ≤ N) {ord : List α → List α} (hord : ∀ l, (ord l).Perm l) (S T : Option (List α)) (rev : Bool) :
    g.distanceMapFl fl ord S T rev = g.distanceMap ord S T rev := by
  have h := hg.inv
  rw [← distanceMapFl_id]
  unfold distanceMapFl
  repeat' split
  any_goals rfl
  · rename_i _ _ _ _ hT _
    refine dmWalkFl_int (w := fun x y => g.edge y x) (U := g.nodeList) (fun x y c hx => ⟨(h.edge_mem hx).2, (h.edge_mem hx).1⟩) (fun x hx => has_iff.1 ?_)
      (fun x y c => h.mem_inNbr.1) hfl (fun a b v => hw b a v) hN hord _
    rw [Bool.not_eq_true, List.any_eq_false] at hT
    simpa using hT x hx
  · rename_i _ _ _ hS _ _
    refine dmWalkFl_int (w := g.edge) (U := g.nodeList) (fun x y c hx => h.edge_mem hx) (fun x hx => has_iff.1 ?_)
      (fun x y c => h.mem_outNbr.1) hfl hw hN hord _
    rw [Bool.not_eq_true, List.any_eq_false] at hS
    simpa using hS x hx

/-- **C139**: without rounding it is the `distance_map` of C36. -/
theorem C139_exact (ord : List α → List α) (g : Graph α Rat O) (S T : Option (List α)) (rev : Bool) :
    g.distanceMapFl id ord S T rev = g.distanceMap ord S T rev := distanceMapFl_id ord g S T rev

/-- **C139**: the argument checks are those of C36. -/
theorem C139_errors (fl : Rat → Rat) {g : Graph α Rat O} (ord : List α → List α) (S T : Option (List α)) (rev : Bool)
    (h : (rev = false ∧ S = none) ∨ (rev = true ∧ T = none) ∨ (∃ x ∈ S.getD [], g.has x = false) ∨ (∃ x ∈ T.getD [], g.has x = false)) :
    g.distanceMapFl fl ord S T rev = some (.error .valueError) := by
  have h1 := C139_same_nodes fl ord g S T rev
  rw [C36_errors ord S T rev h] at h1
  cases h2 : g.distanceMapFl fl ord S T rev with
  | none => rw [h2] at h1; cases h1
  | some r =>
    rw [h2] at h1
    cases r with
    | error e => simp only [Option.map_some, Except.map, Option.some.injEq, Except.error.injEq] at h1; rw [h1]
    | ok d => simp only [Option.map_some, Except.map, Option.some.injEq, reduceCtorEq] at h1

/-- the line `1 → 2 → 3 → 4` with the doubles next to 0.1, 0.2 and 0.3 -/
def dmFlG : Graph Nat Rat Nat := run [W 1 2 (double (1 / 10)), W 2 3 (double (1 / 5)), W 3 4 (double (3 / 10))]

/-- **C139**: on floats the two directions of `distance_map` disagree: the distance of 4 from 1 is `(0.1 + 0.2) + 0.3 = 0.6000000000000001`, that of 1 to 4 is `(0.3 + 0.2) + 0.1 = 0.6`. -/
theorem C139_direction_counterexample :
    dmFlG.Built ∧ NonNeg dmFlG.edge ∧
    (∃ r, dmFlG.distanceMapFl double id (some [1]) none false = some (.ok r) ∧ r.get? 4 = some (5404319552844596 / 9007199254740992)) ∧
    (∃ r, dmFlG.distanceMapFl double id none (some [4]) true = some (.ok r) ∧ r.get? 1 = some (5404319552844595 / 9007199254740992)) := by
  refine ⟨⟨_, rfl⟩, nonneg_of_edgeList ⟨_, rfl⟩ (by decide +kernel), ?_, ?_⟩
  · obtain ⟨r, hr, h4⟩ : ∃ r, runFuel (dmStepFl double dmFlG.outNbr none) 20 ⟨[], [1].foldl (fun d x => d.set x 0) Dict.empty, [1]⟩ = some (.ok r) ∧
        r.get? 4 = some (5404319552844596 / 9007199254740992) := by
      refine ⟨((((Dict.empty.set 1 0).set 2 (double (1 / 10))).set 3 (double (double (1 / 10) + double (1 / 5)))).set 4 (5404319552844596 / 9007199254740992)), ?_, ?_⟩ <;> decide +kernel
    exact ⟨r, pyWhile_of_runFuel hr, h4⟩
  · obtain ⟨r, hr, h4⟩ : ∃ r, runFuel (dmStepFl double dmFlG.inNbr none) 20 ⟨[], [4].foldl (fun d x => d.set x 0) Dict.empty, [4]⟩ = some (.ok r) ∧
        r.get? 1 = some (5404319552844595 / 9007199254740992) := by
      refine ⟨((((Dict.empty.set 4 0).set 3 (double (3 / 10))).set 2 (1 / 2)).set 1 (5404319552844595 / 9007199254740992)), ?_, ?_⟩ <;> decide +kernel
    exact ⟨r, pyWhile_of_runFuel hr, h4⟩

/-- the hypotheses of C139 hold for doubles and this line, and for integers -/
example : Rounding double ∧ RelErr double (pow2 (-53)) ∧ dmFlG.Built ∧ NonNeg dmFlG.edge ∧ (∀ x ∈ [1], dmFlG.has x = true) ∧ (∀ x ∈ [3], dmFlG.has x = true) ∧
    ExactUpTo double (2 ^ 53) ∧ dmG.Built ∧ (∀ a b v, dmG.edge a b = some v → IntUpTo 10 v) ∧ dmG.nodeList.length * 10 ≤ 2 ^ 53 := by
  refine ⟨double_rounding, double_relErr, ⟨_, rfl⟩, nonneg_of_edgeList ⟨_, rfl⟩ (by decide +kernel), by decide, by decide, double_exactUpTo, ⟨_, rfl⟩, fun a b v h => ?_, by decide⟩
  have hb : dmG.Built := ⟨_, rfl⟩
  have h2 := List.all_eq_true.1 (show dmG.edgeList.all (fun e => (List.range 11).any fun z => decide (e.2.2 = (z : Rat))) = true by decide +kernel) _ (hb.inv.mem_edgeList.2 h)
  obtain ⟨z, hz, hv⟩ := List.any_eq_true.1 h2
  exact ⟨z, by simpa using hv, by rw [List.mem_range] at hz; omega⟩

end GT

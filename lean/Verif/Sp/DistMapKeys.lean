import Verif.Sp.DistMapFl
import Verif.Sp.FlInt
import Verif.Graph.MapV
/-
`distance_map` in rounded arithmetic and with exact values: the rounding changes neither the nodes reached nor their order, and on integers not even the values.
-/
namespace GT
variable {α O : Type} [DecidableEq α]
open Graph

/-- the loop over the edges, without the values -/
def dmKeysRelax : List (α × Rat) → List α × List α → List α × List α
  | [], s => s
  | (n2, _) :: l, (q, ks) => if n2 ∈ ks then dmKeysRelax l (q, ks) else dmKeysRelax l (q ++ [n2], ks ++ [n2])

theorem dmRelaxFl_keys (fl : Rat → Rat) (d1 : Rat) (l : List (α × Rat)) : ∀ (q : List α) (vis : Dict α Rat),
    dmKeysRelax l (q, vis.keys) = ((dmRelaxFl fl d1 l (q, vis)).1, (dmRelaxFl fl d1 l (q, vis)).2.keys) := by
  induction l with
  | nil => intro q vis; rfl
  | cons e l ih =>
    obtain ⟨n2, d⟩ := e
    intro q vis
    unfold dmKeysRelax dmRelaxFl
    cases h : vis.get? n2 with
    | none =>
      have hk := (Dict.get?_eq_none_iff _ _).1 h
      rw [if_neg hk]
      dsimp only
      rw [← ih, Dict.keys_set_of_not_mem _ hk]
    | some y =>
      have hk : n2 ∈ vis.keys := Dict.mem_keys_of_get? h
      rw [if_pos hk]
      dsimp only
      rw [← ih, Dict.keys_set_of_mem _ hk]

/-- one iteration, without the values; the state is `(found, keys, q)` -/
def dmKeysStep (nbr : α → List (α × Rat)) (ends : Option (List α)) (s : List α × List α × List α) : (List α × List α × List α) ⊕ Py (List α) :=
  match s.2.2 with
  | [] => .inr (.ok s.2.1)
  | n1 :: q =>
    if foundAll s.1 ends then .inr (.ok s.2.1)
    else if n1 ∈ s.2.1 then
      .inl (match ends with | some es => if n1 ∈ es then sadd s.1 n1 else s.1 | none => s.1, (dmKeysRelax (nbr n1) (q, s.2.1)).2, (dmKeysRelax (nbr n1) (q, s.2.1)).1)
    else .inr (.error .keyError)

theorem dmStepFl_keys (fl : Rat → Rat) (nbr : α → List (α × Rat)) (ends : Option (List α)) (s : DmSt α) :
    dmKeysStep nbr ends (s.found, s.visited.keys, s.q) = match dmStepFl fl nbr ends s with
      | .inl s' => .inl (s'.found, s'.visited.keys, s'.q)
      | .inr r => .inr (r.map Dict.keys) := by
  obtain ⟨found, vis, q⟩ := s
  unfold dmKeysStep dmStepFl
  dsimp only
  cases q with
  | nil => rfl
  | cons n1 q =>
    dsimp only
    cases hf : foundAll found ends with
    | true => rfl
    | false =>
      simp only [Bool.false_eq_true, if_false]
      cases h : vis.get? n1 with
      | none => rw [if_neg ((Dict.get?_eq_none_iff _ _).1 h)]; rfl
      | some d1 =>
        rw [if_pos (Dict.mem_keys_of_get? h), dmRelaxFl_keys fl d1]
        cases ends <;> rfl

theorem dmRelaxFl_id (d1 : Rat) (l : List (α × Rat)) : ∀ s : List α × Dict α Rat, dmRelaxFl id d1 l s = dmRelax d1 l s := by
  induction l with
  | nil => intro s; rfl
  | cons e l ih =>
    obtain ⟨n2, d⟩ := e
    rintro ⟨q, vis⟩
    simp only [dmRelaxFl, dmRelax, ih, id]
    rfl

theorem dmStepFl_id (nbr : α → List (α × Rat)) (ends : Option (List α)) (s : DmSt α) : dmStepFl id nbr ends s = dmStep nbr ends s := by
  unfold dmStepFl dmStep
  simp only [dmRelaxFl_id]
  rfl

theorem dmWalkFl_id (ord : List α → List α) (nbr : α → List (α × Rat)) (S : List α) (T : Option (List α)) :
    dmWalkFl id ord nbr S T = dmWalk ord nbr S T := by
  unfold dmWalkFl dmWalk
  rw [show dmStepFl id nbr T = dmStep nbr T from funext (dmStepFl_id nbr T)]

theorem dmWalkFl_keys (fl fl' : Rat → Rat) (ord : List α → List α) (nbr : α → List (α × Rat)) (S : List α) (T : Option (List α)) :
    (dmWalkFl fl ord nbr S T).map (·.map Dict.keys) = (dmWalkFl fl' ord nbr S T).map (·.map Dict.keys) := by
  unfold dmWalkFl
  dsimp only
  have e := fun fl => pyWhile_map_eq (step := dmStepFl fl nbr T) (step' := dmKeysStep nbr T) (fun s : DmSt α => (s.found, s.visited.keys, s.q))
    (fun r => r.map Dict.keys)
    (fun s => by rw [dmStepFl_keys fl nbr T s]; cases dmStepFl fl nbr T s <;> rfl) ⟨[], (ord (saddAll [] S)).foldl (fun d x => d.set x 0) Dict.empty, ord (saddAll [] S)⟩
  exact (e fl).symm.trans (e fl')

/-- the nodes reached, and their order, do not depend on the rounding -/
theorem distanceMapFl_keys (fl fl' : Rat → Rat) (ord : List α → List α) (g : Graph α Rat O) (S T : Option (List α)) (rev : Bool) :
    (g.distanceMapFl fl ord S T rev).map (·.map Dict.keys) = (g.distanceMapFl fl' ord S T rev).map (·.map Dict.keys) := by
  unfold distanceMapFl
  repeat' split
  all_goals first | rfl | exact dmWalkFl_keys fl fl' ord _ _ _

theorem distanceMapFl_id (ord : List α → List α) (g : Graph α Rat O) (S T : Option (List α)) (rev : Bool) :
    g.distanceMapFl id ord S T rev = g.distanceMap ord S T rev := by
  unfold distanceMapFl distanceMap
  simp only [dmWalkFl_id]

/-! ### integers -/

theorem dmRelaxFl_int {fl : Rat → Rat} (d1 : Rat) (l : List (α × Rat)) (h : ∀ x d, (x, d) ∈ l → fl (d1 + d) = d1 + d) :
    ∀ s : List α × Dict α Rat, dmRelaxFl fl d1 l s = dmRelaxFl id d1 l s := by
  induction l with
  | nil => intro s; rfl
  | cons e l ih =>
    obtain ⟨n2, d⟩ := e
    rintro ⟨q, vis⟩
    have ih := ih (fun x d hx => h x d (List.mem_cons_of_mem _ hx))
    simp only [dmRelaxFl, ih, id, h n2 d (by simp)]

/-- what the states look like on integers up to `M` -/
structure DmIntSt (U : List α) (M : Nat) (s : DmSt α) : Prop where
  wf : s.visited.WF
  univ : ∀ x ∈ s.visited.keys, x ∈ U
  queued : ∀ x ∈ s.q, x ∈ s.visited.keys
  nodup : s.q.Nodup
  val : ∀ x v, s.visited.get? x = some v → IntUpTo ((s.visited.keys.length - s.q.length) * M) v

theorem dmWalkFl_int {fl : Rat → Rat} {U S0 : List α} {w : α → α → Option Rat} (hU : ∀ x y c, w x y = some c → x ∈ U ∧ y ∈ U) (hS : ∀ x ∈ S0, x ∈ U)
    {nbr : α → List (α × Rat)} (hn : ∀ x y c, (y, c) ∈ nbr x → w x y = some c) {M N : Nat} (hfl : ExactUpTo fl N) (hw : ∀ a b v, w a b = some v → IntUpTo M v)
    (hN : U.length * M ≤ N) {ord : List α → List α} (hord : ∀ l, (ord l).Perm l) (T : Option (List α)) :
    dmWalkFl fl ord nbr S0 T = dmWalkFl id ord nbr S0 T := by
  unfold dmWalkFl
  dsimp only
  have hmem : ∀ x, x ∈ ord (saddAll [] S0) ↔ x ∈ S0 := fun x => by rw [(hord _).mem_iff]; simp
  have hnd : (ord (saddAll [] S0)).Nodup := (hord _).nodup_iff.2 (nodup_saddAll (by simp))
  generalize ord (saddAll [] S0) = S at hmem hnd
  have room : ∀ s n1 q d1, DmIntSt U M s → s.q = n1 :: q → s.visited.get? n1 = some d1 → ∀ x d, (x, d) ∈ nbr n1 →
      IntUpTo ((s.visited.keys.length - q.length) * M) (d1 + d) ∧ fl (d1 + d) = d1 + d := by
    intro s n1 q d1 hI hq hd1 x d hx
    obtain ⟨z1, e1, l1⟩ := hI.val _ _ hd1
    obtain ⟨z2, e2, l2⟩ := hw _ _ _ (hn _ _ _ hx)
    have hlen := nodup_length_le hI.nodup hI.queued
    have hlen2 := nodup_length_le hI.wf hI.univ
    rw [hq, List.length_cons] at hlen l1
    have hb : z1 + z2 ≤ (s.visited.keys.length - q.length) * M := by
      rw [show s.visited.keys.length - q.length = (s.visited.keys.length - (q.length + 1)) + 1 by omega, Nat.add_mul]; omega
    have hI' : IntUpTo ((s.visited.keys.length - q.length) * M) (d1 + d) := ⟨z1 + z2, by rw [e1, e2, Rat.natCast_add], hb⟩
    refine ⟨hI', hfl _ ⟨z1 + z2, by rw [e1, e2, Rat.natCast_add], Nat.le_trans hb (Nat.le_trans (Nat.mul_le_mul_right _ ?_) hN)⟩⟩
    omega
  have hstep : ∀ s, DmIntSt U M s → dmStepFl fl nbr T s = dmStepFl id nbr T s := by
    intro s hI
    unfold dmStepFl
    cases hq : s.q with
    | nil => rfl
    | cons n1 q =>
      dsimp only
      split
      · rfl
      · cases hd : s.visited.get? n1 with
        | none => rfl
        | some d1 =>
          dsimp only
          rw [dmRelaxFl_int d1 (nbr n1) (fun x d hx => (room s n1 q d1 hI hq hd x d hx).2)]
  refine pyWhile_congr (DmIntSt U M) hstep ?_ ?_
  · intro s s' hI h
    rw [hstep s hI] at h
    unfold dmStepFl at h
    cases hq : s.q with
    | nil => rw [hq] at h; cases h
    | cons n1 q =>
      rw [hq] at h
      dsimp only at h
      split at h
      · cases h
      · cases hd : s.visited.get? n1 with
        | none => rw [hd] at h; cases h
        | some d1 =>
          rw [hd] at h
          dsimp only at h
          have hR := dmRelaxFl_spec (fl := id) (d1 := d1) (nbr n1) q s.visited
          have hk := dmRelaxFl_keys id d1 (nbr n1) q s.visited
          generalize hr : dmRelaxFl id d1 (nbr n1) (q, s.visited) = r at hR h hk
          obtain ⟨q', vis'⟩ := r
          dsimp only at hR h hk
          obtain ⟨new, e1, e2, e3, e4, e5⟩ := hR.queue
          have hqn := hI.nodup
          rw [hq, List.nodup_cons] at hqn
          have hqk : ∀ x ∈ q, x ∈ s.visited.keys := fun x hx => hI.queued x (by rw [hq]; exact List.mem_cons_of_mem _ hx)
          have hlen : s.visited.keys.length + new.length ≤ vis'.keys.length := by
            have := nodup_length_le (l := s.visited.keys ++ new) (nodes := vis'.keys) (List.nodup_append.2 ⟨hI.wf, e2, fun a ha b hb hab => e3 b hb (hab ▸ ha)⟩)
              (fun x hx => (e4 x).2 (List.mem_append.1 hx))
            rwa [List.length_append] at this
          cases h
          refine ⟨hR.wf hI.wf, fun x hx => ?_, fun x hx => ?_, ?_, fun x v hv => ?_⟩
          · rcases (e4 x).1 hx with h | h
            · exact hI.univ x h
            · obtain ⟨d, hd⟩ := e5 x h
              exact (hU _ _ _ (hn _ _ _ hd)).2
          · dsimp only at hx
            rw [e1, List.mem_append] at hx
            rcases hx with hx | hx
            · exact (e4 x).2 (.inl (hqk x hx))
            · exact (e4 x).2 (.inr hx)
          · dsimp only
            rw [e1, List.nodup_append]
            exact ⟨hqn.2, e2, fun a ha b hb hab => e3 b hb (by rw [← hab]; exact hqk a ha)⟩
          · dsimp only at hv ⊢
            have hle : (s.visited.keys.length - q.length) * M ≤ (vis'.keys.length - q'.length) * M := by
              apply Nat.mul_le_mul_right
              rw [e1, List.length_append]; omega
            rcases hR.val x v hv with h | ⟨d, h, rfl⟩
            · obtain ⟨z, h1, h2⟩ := hI.val x v h
              refine ⟨z, h1, Nat.le_trans h2 (Nat.le_trans (Nat.mul_le_mul_right _ ?_) hle)⟩
              rw [hq, List.length_cons]; omega
            · obtain ⟨z, h1, h2⟩ := (room s n1 q d1 hI hq hd x d h).1
              exact ⟨z, h1, Nat.le_trans h2 hle⟩
  · obtain ⟨k1, k2, k3⟩ := foldSet_keys S Dict.empty Dict.wf_empty (by simp)
    have k2' : ∀ x, x ∈ (S.foldl (fun d x => d.set x 0) (Dict.empty : Dict α Rat)).keys ↔ x ∈ S := by
      intro x; rw [k2]; simp [Dict.keys, Dict.empty]
    exact ⟨k1, fun x hx => hS x ((hmem x).1 ((k2' x).1 hx)), fun x hx => (k2' x).2 hx, hnd, fun x v hv => ⟨0, k3 x v hv, Nat.zero_le _⟩⟩

end GT

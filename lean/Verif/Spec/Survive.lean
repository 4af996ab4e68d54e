import Verif.Spec.Assign
import Verif.Spec.Round
/-
Independent specification vocabulary: the expected surviving value in rounded (floating point) arithmetic.
Nothing here refers to the model of the library.
-/
namespace GT
variable {α : Type}

/-- the probability to survive engagements with the given success rates, multiplied from left to right with rounding after every operation -/
def flSurvive (fl : Rat → Rat) (ps : List Rat) : Rat := ps.foldl (fun q p => fl (q * fl (1 - p))) 1

/-- the expected value that survives, computed from left to right with rounding after every operation -/
def flSurvivors [DecidableEq α] (fl : Rat → Rat) (values : List (α × Rat)) (M : List (α × α × Rat)) : Rat :=
  values.foldl (fun total tv => fl (total + fl (flSurvive fl ((M.filter (fun e => decide (e.2.1 = tv.1))).map (fun e => e.2.2)) * tv.2))) 0

/-- for every target, the rounded probability to survive does not depend on the order in which its weapons are listed -/
def OrderFree (fl : Rat → Rat) (prob : α → α → Option Rat) (weapons : List α) : Prop :=
  ∀ t (l l' : List (α × Rat)), l.Perm l' → (l.map Prod.fst).Nodup → (∀ x ∈ l, x.1 ∈ weapons ∧ prob x.1 t = some x.2) →
    flSurvive fl (l.map Prod.snd) = flSurvive fl (l'.map Prod.snd)

/-- no target can be engaged by three weapons -/
def TwoPerTarget (prob : α → α → Option Rat) (weapons : List α) : Prop :=
  ∀ t, ∀ a ∈ weapons, ∀ b ∈ weapons, ∀ c ∈ weapons, (prob a t).isSome → (prob b t).isSome → (prob c t).isSome → a = b ∨ a = c ∨ b = c

theorem TwoPerTarget.orderFree {prob : α → α → Option Rat} {weapons : List α} (h : TwoPerTarget prob weapons) {fl : Rat → Rat} (hfl : Rounding fl) :
    OrderFree fl prob weapons := by
  intro t l l' hp hn hl
  have h1 : ∀ x, fl (1 * fl (1 - x)) = fl (1 - x) := fun x => by rw [Rat.one_mul, hfl.idem]
  match l, hp, hn, hl with
  | [], hp, _, _ => rw [List.nil_perm.1 hp]
  | [x], hp, _, _ => rw [List.singleton_perm.1 hp]
  | [x, y], hp, _, _ =>
    have hlen := hp.length_eq
    match l', hp, hlen with
    | [u, v], hp, _ =>
      have hu : u = x ∨ u = y := by have := hp.symm.mem_iff (a := u); simpa using this.1 (by simp)
      rcases hu with rfl | rfl
      · have := (List.perm_cons _).1 hp
        rw [List.singleton_perm.1 this]
      · have h2 : [u, x].Perm [u, v] := (List.Perm.swap x u []).trans hp |>.symm.symm
        have := (List.perm_cons _).1 h2
        have hxv := List.singleton_perm.1 this
        simp only [List.cons.injEq, and_true] at hxv
        subst hxv
        simp only [flSurvive, List.map_cons, List.map_nil, List.foldl_cons, List.foldl_nil, h1]
        rw [Rat.mul_comm]
  | x :: y :: z :: l, _, hn, hl =>
    exfalso
    have a := hl x (by simp)
    have b := hl y (by simp)
    have c := hl z (by simp)
    simp only [List.map_cons, List.nodup_cons, List.mem_cons, not_or] at hn
    rcases h t x.1 a.1 y.1 b.1 z.1 c.1 (by rw [a.2]; rfl) (by rw [b.2]; rfl) (by rw [c.2]; rfl) with h | h | h
    · exact hn.1.1 h
    · exact hn.1.2.1 h
    · exact hn.2.1.1 h

/-- engagements along the edges, one per weapon, have the same rounded surviving value in every order -/
theorem OrderFree.survivors [DecidableEq α] {fl : Rat → Rat} {prob : α → α → Option Rat} {weapons : List α} (h : OrderFree fl prob weapons)
    {values : List (α × Rat)} {M M' : List (α × α × Rat)} (hp : M.Perm M') (hn : (M.map (fun e => e.1)).Nodup)
    (he : ∀ w t p, (w, t, p) ∈ M → w ∈ weapons ∧ prob w t = some p) : flSurvivors fl values M = flSurvivors fl values M' := by
  unfold flSurvivors
  have hq : ∀ t, flSurvive fl ((M.filter (fun e => decide (e.2.1 = t))).map (fun e => e.2.2)) =
      flSurvive fl ((M'.filter (fun e => decide (e.2.1 = t))).map (fun e => e.2.2)) := by
    intro t
    have := h t ((M.filter (fun e => decide (e.2.1 = t))).map (fun e => (e.1, e.2.2))) ((M'.filter (fun e => decide (e.2.1 = t))).map (fun e => (e.1, e.2.2)))
      ((hp.filter _).map _) (by
        rw [List.map_map]
        exact List.Sublist.nodup (List.Sublist.map _ List.filter_sublist) hn) (by
        intro x hx
        obtain ⟨⟨w, t', p⟩, hm, rfl⟩ := List.mem_map.1 hx
        obtain ⟨hm1, hm2⟩ := List.mem_filter.1 hm
        simp only [decide_eq_true_eq] at hm2
        subst hm2
        exact he w t' p hm1)
    rw [List.map_map, List.map_map] at this
    exact this
  simp only [hq]

end GT

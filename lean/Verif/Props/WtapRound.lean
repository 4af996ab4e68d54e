import Verif.Flow.WtapFl
import Verif.Spec.Double
import Verif.Props.Flow
/-
Property theorems C114: `wtap_solver` in floating point arithmetic.
-/
namespace GT
variable {α O : Type} [DecidableEq α]
open Graph

/-- **C114**, every result: however the operations are rounded, if `wtap_solver` comes to an end it does not raise; it returns an engagement of
every weapon with one of its targets, and the value is the rounded surviving value of these engagements, listed in some order. -/
theorem C114_result {fl : Rat → Rat} (hfl : Rounding fl) {nlt : α → α → Bool} (ho : NodeOrder nlt) {g : Graph α Rat O} (hg : g.Built) {weapons : List α}
    {values : Dict α Rat} (h : WtInput g weapons values) (hw : weapons ≠ []) {r : Py (Rat × Graph α Rat O)}
    (hr : g.wtapSolverFl fl nlt weapons values = some r) :
    ∃ v a M, r = .ok (v, a) ∧ IsEngagement g.edge weapons a.edgeList ∧ M.Perm a.edgeList ∧ v = flSurvivors fl values.items M := by
  obtain ⟨v, a, h1, _, h3, ⟨M, h4, h5⟩, _⟩ := wtapFl_partial hfl ho hg.inv h hw hr
  exact ⟨v, a, M, h1, h3, h4, h5⟩

/-- **C114**, the part that holds: if the order in which the weapons of a target are multiplied does not matter, `wtap_solver` comes to an end.
It returns an engagement of every weapon with one of its targets and its rounded surviving value, and moving the last weapon to another target
does not make the rounded value smaller.
Missing: without that hypothesis it may run forever (`C114_hang_counterexample`). -/
theorem C114_terminates_partial {fl : Rat → Rat} (hfl : Rounding fl) {nlt : α → α → Bool} (ho : NodeOrder nlt) {g : Graph α Rat O} (hg : g.Built)
    {weapons : List α} {values : Dict α Rat} (h : WtInput g weapons values) (hw : weapons ≠ []) (hof : OrderFree fl g.edge weapons) :
    ∃ v a, g.wtapSolverFl fl nlt weapons values = some (.ok (v, a)) ∧ IsEngagement g.edge weapons a.edgeList ∧
      v = flSurvivors fl values.items a.edgeList ∧
      ∀ w, weapons.getLast? = some w → ∀ t p, g.edge w t = some p → v ≤ flSurvivors fl values.items (retarget a.edgeList w t p) := by
  obtain ⟨r, hr, v, a, rfl, h2, h3, h4, h5⟩ := wtapFl_total hfl ho hg.inv h hw hof
  refine ⟨v, a, hr, h3, h2.flValue hof (.refl _) h4, fun w hwl t p hp => ?_⟩
  obtain ⟨d, ⟨M, hM, rfl⟩, hle⟩ := h5 w hwl t p hp
  have hww : w ∈ weapons := List.mem_of_getLast? hwl
  rw [hof.survivors hM.symm]
  · exact hle
  · unfold retarget
    rw [List.map_cons, List.nodup_cons]
    refine ⟨fun hm => ?_, List.Sublist.nodup (List.Sublist.map _ List.filter_sublist) h2.once⟩
    obtain ⟨x, hx, he⟩ := List.mem_map.1 hm
    have := (List.mem_filter.1 hx).2
    simp at this
    exact this he
  · intro x t' p' hm
    unfold retarget at hm
    rcases List.mem_cons.1 hm with he | hm
    · cases he; exact ⟨hww, hp⟩
    · have := h2.adm x t' p' (h2.inv.mem_edgeList.1 (List.mem_filter.1 hm).1)
      exact ⟨this.2, this.1⟩

/-- **C114** for inputs in which no target can be engaged by more than two weapons. -/
theorem C114_two_weapons {fl : Rat → Rat} (hfl : Rounding fl) {nlt : α → α → Bool} (ho : NodeOrder nlt) {g : Graph α Rat O} (hg : g.Built)
    {weapons : List α} {values : Dict α Rat} (h : WtInput g weapons values) (hw : weapons ≠ []) (h2 : TwoPerTarget g.edge weapons) :
    ∃ v a, g.wtapSolverFl fl nlt weapons values = some (.ok (v, a)) ∧ IsEngagement g.edge weapons a.edgeList ∧
      v = flSurvivors fl values.items a.edgeList ∧
      ∀ w, weapons.getLast? = some w → ∀ t p, g.edge w t = some p → v ≤ flSurvivors fl values.items (retarget a.edgeList w t p) :=
  C114_terminates_partial hfl ho hg h hw (h2.orderFree hfl)

/-- three weapons 1, 2, 3 and two targets 10, 11; probabilities 0.1 and 0.2, as doubles -/
def hangG : Graph Nat Rat Nat := run [W 1 10 (double (1/10)), W 1 11 (double (1/10)), W 2 10 (double (1/5)), W 2 11 (double (1/10)),
  W 3 10 (double (1/5)), W 3 11 (double (1/10))]
/-- the targets are worth 1 and 0.1 -/
def hangV : Dict Nat Rat := ⟨[(10, 1), (11, double (1/10))]⟩

theorem hangG_input : WtInput hangG [1, 2, 3] hangV :=
  wtInput_of ⟨_, rfl⟩ (by decide) (by decide +kernel) (by decide +kernel) (by decide +kernel) (by decide +kernel)

deriving instance DecidableEq for WtSt

/-- the state after `n` rounds, if there is one -/
def hangAt : Nat → Option (WtSt Nat Nat)
  | 0 => some ⟨Graph.empty, double (flSum double hangV.values + 1), Dict.empty⟩
  | n + 1 => match hangAt n with
    | none => none
    | some s => match wtRoundFl double natLt hangG hangV [1, 2, 3] s with
      | .inl s' => some s'
      | .inr _ => none

/-- **C114** fails in general: with IEEE doubles, the probabilities 0.1 and 0.2 and the values 1 and 0.1, `wtap_solver` runs forever. -/
theorem C114_hang_counterexample : hangG.Built ∧ WtInput hangG [1, 2, 3] hangV ∧ Rounding double ∧
    hangG.wtapSolverFl double natLt [1, 2, 3] hangV = none := by
  refine ⟨⟨_, rfl⟩, hangG_input, double_rounding, ?_⟩
  rw [wtapSolverFl_checks double (Built.inv (g := hangG) ⟨_, rfl⟩) hangG_input]
  have h1 : (hangAt 1).isSome ∧ (hangAt 2).isSome ∧ hangAt 3 = hangAt 2 := by decide +kernel
  obtain ⟨s1, hs1⟩ := Option.isSome_iff_exists.1 h1.1
  obtain ⟨s2, hs2⟩ := Option.isSome_iff_exists.1 h1.2.1
  have hs3 := h1.2.2.trans hs2
  have step : ∀ n s s', hangAt n = some s → hangAt (n + 1) = some s' → wtRoundFl double natLt hangG hangV [1, 2, 3] s = .inl s' := by
    intro n s s' h h'
    rw [hangAt, h] at h'
    dsimp only at h'
    split at h'
    · rename_i s'' he; cases h'; exact he
    · cases h'
  have h01 := step 0 _ s1 rfl hs1
  have h12 := step 1 s1 s2 hs1 hs2
  have h22 := step 2 s2 s2 hs2 hs3
  refine pyWhile_diverges (fun s => s = ⟨Graph.empty, double (flSum double hangV.values + 1), Dict.empty⟩ ∨ s = s1 ∨ s = s2) ?_ (.inl rfl)
  rintro s (rfl | rfl | rfl)
  · exact ⟨s1, h01, .inr (.inl rfl)⟩
  · exact ⟨s2, h12, .inr (.inr rfl)⟩
  · exact ⟨s, h22, .inr (.inr rfl)⟩

/-- the hypotheses are met, and the theorem applies: two weapons, two targets -/
example : wtG.Built ∧ WtInput wtG [10, 11] wtV ∧ Rounding double ∧ TwoPerTarget wtG.edge [10, 11] ∧
    ∃ v a, wtG.wtapSolverFl double natLt [10, 11] wtV = some (.ok (v, a)) ∧ IsEngagement wtG.edge [10, 11] a.edgeList := by
  have h2 : TwoPerTarget wtG.edge [10, 11] := by
    intro t a ha b hb c hc _ _ _
    simp only [List.mem_cons, List.not_mem_nil, or_false] at ha hb hc
    omega
  obtain ⟨v, a, h, h', _⟩ := C114_two_weapons double_rounding natLt_order (g := wtG) ⟨_, rfl⟩ wtG_input (by decide) h2
  exact ⟨⟨_, rfl⟩, wtG_input, double_rounding, h2, v, a, h, h'⟩

/-- three weapons on one target can be order free: the probability 1/2 is exact -/
example : OrderFree double (fun w t => if w < 3 ∧ t = 3 then some (1/2 : Rat) else none) [0, 1, 2] := by
  intro t l l' hp _ hl
  have h1 : ∀ x ∈ l, x.2 = (1/2 : Rat) := by
    intro x hx
    have := (hl x hx).2
    dsimp only at this
    split at this
    · exact (Option.some.inj this).symm
    · cases this
  have h2 : l.map Prod.snd = List.replicate l.length (1/2) := List.eq_replicate_iff.2 ⟨by simp, fun b hb => by
    obtain ⟨x, hx, rfl⟩ := List.mem_map.1 hb; exact h1 x hx⟩
  have h3 : l'.map Prod.snd = List.replicate l'.length (1/2) := List.eq_replicate_iff.2 ⟨by simp, fun b hb => by
    obtain ⟨x, hx, rfl⟩ := List.mem_map.1 hb; exact h1 x (hp.mem_iff.2 hx)⟩
  rw [h2, h3, hp.length_eq]

end GT

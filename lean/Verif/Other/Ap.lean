import Verif.Sort
import Verif.Py
/-
Model of `is_ap_solvable` (graph/traffic_scheduling_problem.py:193-220).
-/
namespace GT
variable {α β : Type} [DecidableEq α]

/-- the loop (traffic_scheduling_problem.py:213-219); `pop t` is what `set.pop` selects in round `t`, `all` is `all_ends` -/
def apOptLoop (pop : Nat → List α → α) : Nat → List α → List (β × List α) → Bool
  | _, _, [] => true
  | t, all, (_, ends) :: l =>
    let options := ends.filter (fun e => decide (e ∈ all))
    if options = [] then false
    else
      let selection := pop t options
      apOptLoop pop (t + 1) (all.filter (fun e => decide (e ≠ selection))) l

/-- `is_ap_solvable(assignments)` (traffic_scheduling_problem.py:193-220); sets are duplicate-free lists.  `sorted` is stable. -/
def isApSolvable (pop : Nat → List α → α) (asg : List (β × List α)) : Bool :=
  apOptLoop pop 0 (asg.flatMap (fun p => p.2)) (pySort (fun x y => decide (x.2.length < y.2.length)) asg)

/-! ### specification -/

/-- every load can get its own end: `f` is the assignment -/
def Assignable (asg : List (β × List α)) : Prop :=
  ∃ f : β → Option α, (∀ p ∈ asg, ∃ e ∈ p.2, f p.1 = some e) ∧ ∀ p ∈ asg, ∀ q ∈ asg, p.1 ≠ q.1 → f p.1 ≠ f q.1

/-! ### proofs -/

theorem apOptLoop_sound [DecidableEq β] {pop : Nat → List α → α} (hpop : ∀ t l, l ≠ [] → pop t l ∈ l) (l : List (β × List α)) : ∀ t all,
    (l.map Prod.fst).Nodup → apOptLoop pop t all l = true →
    ∃ f : β → Option α, (∀ p ∈ l, ∃ e ∈ p.2, e ∈ all ∧ f p.1 = some e) ∧ ∀ p ∈ l, ∀ q ∈ l, p.1 ≠ q.1 → f p.1 ≠ f q.1 := by
  induction l with
  | nil => intro t all _ _; exact ⟨fun _ => none, by simp, by simp⟩
  | cons p l ih =>
    obtain ⟨b, ends⟩ := p
    intro t all hnd h
    unfold apOptLoop at h
    dsimp only at h
    split at h
    · cases h
    · rename_i hne
      have hsel := hpop t _ hne
      generalize hs : pop t (ends.filter (fun e => decide (e ∈ all))) = sel at h hsel
      rw [List.mem_filter] at hsel
      rw [List.map_cons, List.nodup_cons] at hnd
      obtain ⟨f, hf, hinj⟩ := ih _ _ hnd.2 h
      have hne : ∀ q ∈ l, q.1 ≠ b := fun q hq he => hnd.1 (by rw [← he]; exact List.mem_map.2 ⟨q, hq, rfl⟩)
      have hfs : ∀ q ∈ l, f q.1 ≠ some sel := by
        intro q hq he
        obtain ⟨e, _, he2, he3⟩ := hf q hq
        rw [he] at he3; cases he3
        simp at he2
      refine ⟨fun x => if x = b then some sel else f x, fun q hq => ?_, fun q hq q' hq' hqq => ?_⟩
      · rcases List.mem_cons.1 hq with rfl | hq
        · exact ⟨sel, hsel.1, by simpa using hsel.2, by simp⟩
        · obtain ⟨e, h1, h2, h3⟩ := hf q hq
          refine ⟨e, h1, (List.mem_filter.1 h2).1, ?_⟩
          simp only [if_neg (hne q hq)]; exact h3
      · rcases List.mem_cons.1 hq with rfl | hq
        · rcases List.mem_cons.1 hq' with rfl | hq'
          · exact absurd rfl hqq
          · simp only [if_true, if_neg (hne q' hq')]; exact fun he => hfs q' hq' he.symm
        · rcases List.mem_cons.1 hq' with rfl | hq'
          · simp only [if_true, if_neg (hne q hq)]; exact hfs q hq
          · simp only [if_neg (hne q' hq'), if_neg (hne q hq)]; exact hinj q hq q' hq' hqq

/-- `True` is right -/
theorem isApSolvable_sound [DecidableEq β] {pop : Nat → List α → α} (hpop : ∀ t l, l ≠ [] → pop t l ∈ l) {asg : List (β × List α)}
    (hnd : (asg.map Prod.fst).Nodup) (h : isApSolvable pop asg = true) : Assignable asg := by
  have hp := pySort_perm (fun x y : β × List α => decide (x.2.length < y.2.length)) asg
  obtain ⟨f, hf, hinj⟩ := apOptLoop_sound hpop _ _ _ ((hp.map Prod.fst).nodup_iff.2 hnd) h
  exact ⟨f, fun p hp' => (hf p (hp.mem_iff.2 hp')).imp fun e he => ⟨he.1, he.2.2⟩,
    fun p hp' q hq hne => hinj p (hp.mem_iff.2 hp') q (hp.mem_iff.2 hq) hne⟩

/-- ends of any two loads: disjoint or nested -/
def LaminarEnds (asg : List (β × List α)) : Prop :=
  ∀ p ∈ asg, ∀ q ∈ asg, (∀ x ∈ p.2, x ∉ q.2) ∨ (∀ x ∈ p.2, x ∈ q.2) ∨ (∀ x ∈ q.2, x ∈ p.2)

theorem nodup_length_le {γ : Type} [DecidableEq γ] : ∀ {l m : List γ}, l.Nodup → (∀ x ∈ l, x ∈ m) → l.length ≤ m.length
  | [], _, _, _ => Nat.zero_le _
  | a :: l, m, hnd, h => by
    rw [List.nodup_cons] at hnd
    have := nodup_length_le (m := m.erase a) hnd.2 (fun x hx => (List.mem_erase_of_ne (fun he => hnd.1 (by rw [← he]; exact hx))).2 (h x (List.mem_cons_of_mem _ hx)))
    rw [List.length_erase_of_mem (h a (by simp))] at this
    have := List.length_pos_of_mem (h a (by simp))
    simp only [List.length_cons]; omega

/-- the loop fails only if too many loads compete for the ends of one of them.  `D` are the loads that were served, with the ends they got. -/
theorem apOptLoop_fail {pop : Nat → List α → α} (hpop : ∀ t l, l ≠ [] → pop t l ∈ l) (U : List α) (l : List (β × List α)) : ∀ t (D : List ((β × List α) × α)) all,
    (∀ d ∈ D, d.2 ∈ d.1.2) → (D.map Prod.snd).Nodup → (∀ x, x ∈ all ↔ x ∈ U ∧ x ∉ D.map Prod.snd) → (∀ p ∈ l, ∀ x ∈ p.2, x ∈ U) →
    apOptLoop pop t all l = false →
    ∃ (D' : List ((β × List α) × α)) (p : β × List α) (l1 l2 : List (β × List α)), l = l1 ++ p :: l2 ∧ D'.map Prod.fst = D.map Prod.fst ++ l1 ∧ (∀ d ∈ D', d.2 ∈ d.1.2) ∧ (D'.map Prod.snd).Nodup ∧ ∀ x ∈ p.2, x ∈ D'.map Prod.snd := by
  induction l with
  | nil => intro t D all _ _ _ _ h; cases h
  | cons p l ih =>
    obtain ⟨b, ends⟩ := p
    intro t D all h1 h2 h3 hU h
    unfold apOptLoop at h
    dsimp only at h
    split at h
    · rename_i he
      refine ⟨D, (b, ends), [], l, rfl, by simp, h1, h2, fun x hx => ?_⟩
      have : x ∉ all := fun hxa => by
        have : x ∈ ends.filter (fun e => decide (e ∈ all)) := List.mem_filter.2 ⟨hx, by simpa using hxa⟩
        rw [he] at this; cases this
      rw [h3] at this
      by_cases hm : x ∈ D.map Prod.snd
      · exact hm
      · exact absurd ⟨hU (b, ends) (by simp) x hx, hm⟩ this
    · rename_i hne
      have hsel := hpop t _ hne
      generalize hs : pop t (ends.filter (fun e => decide (e ∈ all))) = sel at h hsel
      rw [List.mem_filter] at hsel
      have hsa : sel ∈ all := by simpa using hsel.2
      obtain ⟨D', p, l1, l2, e1, e2, e3, e4, e5⟩ := ih (t + 1) (D ++ [((b, ends), sel)]) _
        (fun d hd => by
          rcases List.mem_append.1 hd with hd | hd
          · exact h1 d hd
          · simp at hd; subst hd; exact hsel.1)
        (by
          rw [List.map_append, List.nodup_append]
          refine ⟨h2, by simp, fun x hx y hy he => ?_⟩
          simp at hy; subst hy; subst he
          exact ((h3 x).1 hsa).2 hx)
        (fun x => by
          rw [List.mem_filter, h3, List.map_append, List.mem_append, not_or]
          simp [and_assoc])
        (fun q hq => hU q (List.mem_cons_of_mem _ hq)) h
      exact ⟨D', p, (b, ends) :: l1, l2, by rw [e1]; rfl, by rw [e2]; simp, e3, e4, e5⟩

/-- `False` is right if the ends of any two loads are disjoint or nested -/
theorem isApSolvable_complete [DecidableEq β] {pop : Nat → List α → α} (hpop : ∀ t l, l ≠ [] → pop t l ∈ l) {asg : List (β × List α)}
    (hnd : (asg.map Prod.fst).Nodup) (hset : ∀ p ∈ asg, p.2.Nodup) (hlam : LaminarEnds asg) (h : Assignable asg) : isApSolvable pop asg = true := by
  cases hr : isApSolvable pop asg with
  | true => rfl
  | false =>
    exfalso
    unfold isApSolvable at hr
    generalize hsort : pySort (fun x y : β × List α => decide (x.2.length < y.2.length)) asg = srt at hr
    have hp : srt.Perm asg := hsort ▸ pySort_perm _ _
    have hpw : srt.Pairwise (fun a b => a.2.length ≤ b.2.length) := by
      have := pySort_pairwise (lt := fun x y : β × List α => decide (x.2.length < y.2.length)) (by simp; omega) (by simp; omega) asg
      rw [hsort] at this
      exact this.imp (fun h => by simp at h; omega)
    obtain ⟨D, p, l1, l2, e1, e2, e3, e4, e5⟩ := apOptLoop_fail hpop (asg.flatMap (fun p => p.2)) srt 0 [] _ (by simp) (by simp) (by simp)
      (fun p hp' x hx => List.mem_flatMap.2 ⟨p, hp.mem_iff.1 hp', hx⟩) hr
    simp only [List.map_nil, List.nil_append] at e2
    obtain ⟨f, hf, hinj⟩ := h
    have hpa : p ∈ asg := hp.mem_iff.1 (by rw [e1]; simp)
    -- the loads served with an end of `p`
    have hsub : ∀ d ∈ D, d.2 ∈ p.2 → ∀ x ∈ d.1.2, x ∈ p.2 := by
      intro d hd hdp x hx
      have hd1 : d.1 ∈ l1 := by rw [← e2]; exact List.mem_map.2 ⟨d, hd, rfl⟩
      have hda : d.1 ∈ asg := hp.mem_iff.1 (by rw [e1]; simp [hd1])
      have hle : d.1.2.length ≤ p.2.length := by
        rw [e1, List.pairwise_append] at hpw
        exact hpw.2.2 d.1 hd1 p (by simp)
      rcases hlam d.1 hda p hpa with hl | hl | hl
      · exact absurd hdp (hl d.2 (e3 d hd))
      · exact hl x hx
      · -- `p.2 ⊆ d.1.2` and not longer: the same sets
        by_cases hxp : x ∈ p.2
        · exact hxp
        · have := nodup_length_le (l := x :: p.2) (m := d.1.2) (by rw [List.nodup_cons]; exact ⟨hxp, hset p hpa⟩) (fun y hy => by
            rcases List.mem_cons.1 hy with rfl | hy
            · exact hx
            · exact hl y hy)
          simp only [List.length_cons] at this; omega
    -- their number is the number of ends of `p`
    let D1 := D.filter (fun d => decide (d.2 ∈ p.2))
    have hlen : p.2.length ≤ D1.length := by
      have : p.2.length ≤ (D1.map Prod.snd).length := nodup_length_le (hset p hpa) (fun x hx => by
        obtain ⟨d, hd, rfl⟩ := List.mem_map.1 (e5 x hx)
        exact List.mem_map.2 ⟨d, List.mem_filter.2 ⟨hd, by simpa using hx⟩, rfl⟩)
      simpa using this
    -- `f` maps them and `p` injectively into the ends of `p`
    have hnd1 : (srt.map Prod.fst).Nodup := (hp.map Prod.fst).nodup_iff.2 hnd
    rw [e1, List.map_append, List.map_cons, List.nodup_append] at hnd1
    have hDnd : ((D.map Prod.fst).map Prod.fst).Nodup := by rw [e2]; exact hnd1.1
    let K := p.1 :: D1.map (fun d => d.1.1)
    have hK : K.Nodup := by
      rw [List.nodup_cons]
      refine ⟨fun hm => ?_, ?_⟩
      · obtain ⟨d, hd, he⟩ := List.mem_map.1 hm
        have : d.1 ∈ l1 := by rw [← e2]; exact List.mem_map.2 ⟨d, (List.mem_filter.1 hd).1, rfl⟩
        exact hnd1.2.2 d.1.1 (List.mem_map.2 ⟨_, this, rfl⟩) p.1 (by simp) he
      · rw [List.map_map] at hDnd
        exact List.Nodup.sublist (List.Sublist.map _ List.filter_sublist) hDnd
    have hKin : ∀ k ∈ K, ∃ q ∈ asg, q.1 = k ∧ ∀ x ∈ q.2, x ∈ p.2 := by
      intro k hk
      rcases List.mem_cons.1 hk with rfl | hk
      · exact ⟨p, hpa, rfl, fun x hx => hx⟩
      · obtain ⟨d, hd, rfl⟩ := List.mem_map.1 hk
        rw [List.mem_filter] at hd
        have hd1 : d.1 ∈ l1 := by rw [← e2]; exact List.mem_map.2 ⟨d, hd.1, rfl⟩
        exact ⟨d.1, hp.mem_iff.1 (by rw [e1]; simp [hd1]), rfl, hsub d hd.1 (by simpa using hd.2)⟩
    have hmap : (K.map f).Nodup := by
      have : ∀ k ∈ K, ∀ k' ∈ K, k ≠ k' → f k ≠ f k' := by
        intro k hk k' hk' hne
        obtain ⟨q, hq, rfl, _⟩ := hKin k hk
        obtain ⟨q', hq', rfl, _⟩ := hKin k' hk'
        exact hinj q hq q' hq' hne
      unfold List.Nodup at hK ⊢
      rw [List.pairwise_map]
      exact hK.imp_of_mem (fun {a b} ha hb hne => this a ha b hb hne)
    have := nodup_length_le (l := K.map f) (m := p.2.map some) hmap (fun o ho => by
      obtain ⟨k, hk, rfl⟩ := List.mem_map.1 ho
      obtain ⟨q, hq, rfl, hqp⟩ := hKin k hk
      obtain ⟨e, he1, he2⟩ := hf q hq
      rw [he2]
      exact List.mem_map.2 ⟨e, hqp e he1, rfl⟩)
    simp only [List.length_map, K, List.length_cons] at this
    omega

end GT

import Verif.Sp.DistMap
/-
`distance_map` stops when all ends are found: proofs.
-/
namespace GT
variable {α O : Type} [DecidableEq α]
open Graph

theorem dmRelax_keys {d1 : Rat} (l : List (α × Rat)) : ∀ (q : List α) (vis : Dict α Rat),
    ∃ new, (dmRelax d1 l (q, vis)).1 = q ++ new ∧ (dmRelax d1 l (q, vis)).2.keys = vis.keys ++ new ∧ ∀ x ∈ new, ∃ d, (x, d) ∈ l := by
  induction l with
  | nil => intro q vis; exact ⟨[], by simp [dmRelax]⟩
  | cons a l ih =>
    obtain ⟨n2, d⟩ := a
    intro q vis
    unfold dmRelax
    cases h : vis.get? n2 with
    | none =>
      dsimp only
      obtain ⟨new, h1, h2, h3⟩ := ih (q ++ [n2]) (vis.set n2 (d1 + d))
      rw [Dict.keys_set_of_not_mem _ ((Dict.get?_eq_none_iff _ _).1 h)] at h2
      refine ⟨n2 :: new, by rw [h1]; simp, by rw [h2]; simp, fun x hx => ?_⟩
      rcases List.mem_cons.1 hx with rfl | hx
      · exact ⟨d, by simp⟩
      · obtain ⟨e, he⟩ := h3 x hx; exact ⟨e, List.mem_cons_of_mem _ he⟩
    | some y =>
      dsimp only
      obtain ⟨new, h1, h2, h3⟩ := ih q (vis.set n2 (if y < d1 + d then y else d1 + d))
      rw [Dict.keys_set_of_mem _ (Dict.mem_keys_of_get? h)] at h2
      refine ⟨new, h1, h2, fun x hx => ?_⟩
      obtain ⟨e, he⟩ := h3 x hx; exact ⟨e, List.mem_cons_of_mem _ he⟩

theorem foldSet_keys_eq (S : List α) : ∀ d : Dict α Rat, S.Nodup → (∀ x ∈ S, x ∉ d.keys) →
    (S.foldl (fun d x => d.set x 0) d).keys = d.keys ++ S := by
  induction S with
  | nil => intro d _ _; simp
  | cons a S ih =>
    intro d hnd h
    rw [List.nodup_cons] at hnd
    rw [List.foldl_cons, ih (d.set a 0) hnd.2 (fun x hx hk => ?_), Dict.keys_set_of_not_mem _ (h a (by simp))]
    · simp
    · rcases (Dict.mem_keys_set _ _ _ _).1 hk with rfl | hk
      · exact hnd.1 hx
      · exact h x (List.mem_cons_of_mem _ hx) hk

/-- the walk expands a node only while some end has not been reached -/
theorem dmWalk_stops {S0 es : List α} {nbr : α → List (α × Rat)} {ord : List α → List α} (hord : ∀ l, (ord l).Perm l) {d : Dict α Rat}
    (hr : dmWalk ord nbr S0 (some es) = some (.ok d)) :
    ∀ x ∈ d.keys, x ∈ S0 ∨ ∃ l1 y l2 c, d.keys = l1 ++ y :: l2 ∧ (x, c) ∈ nbr y ∧ ∃ e ∈ es, e ∉ l1 := by
  unfold dmWalk at hr
  dsimp only at hr
  have hmem : ∀ x, x ∈ ord (saddAll [] S0) ↔ x ∈ S0 := fun x => by rw [(hord _).mem_iff]; simp
  have hnd : (ord (saddAll [] S0)).Nodup := (hord _).nodup_iff.2 (nodup_saddAll (by simp))
  generalize ord (saddAll [] S0) = S at hmem hnd hr
  have hkeys := foldSet_keys_eq S (Dict.empty : Dict α Rat) hnd (fun x _ h => nomatch h)
  rw [show (Dict.empty : Dict α Rat).keys = [] from rfl, List.nil_append] at hkeys
  have := pyWhile_inv (step := dmStep nbr (some es))
    (fun s : DmSt α => ∃ P, s.visited.keys = P ++ s.q ∧ (∀ x, x ∈ s.found ↔ x ∈ es ∧ x ∈ P) ∧
      ∀ x ∈ s.visited.keys, x ∈ S0 ∨ ∃ l1 y l2 c, s.visited.keys = l1 ++ y :: l2 ∧ (x, c) ∈ nbr y ∧ ∃ e ∈ es, e ∉ l1)
    (fun r : Py (Dict α Rat) => ∀ d, r = .ok d →
      ∀ x ∈ d.keys, x ∈ S0 ∨ ∃ l1 y l2 c, d.keys = l1 ++ y :: l2 ∧ (x, c) ∈ nbr y ∧ ∃ e ∈ es, e ∉ l1) ?_ ?_ ?_ hr
  · exact this d rfl
  · rintro ⟨found, vis, q⟩ s' ⟨P, h1, h2, h3⟩ hst
    unfold dmStep at hst
    dsimp only at hst h1 h2 h3
    cases q with
    | nil => cases hst
    | cons n1 q =>
      dsimp only at hst
      cases hf : foundAll found (some es) with
      | true => rw [hf] at hst; cases hst
      | false =>
        rw [hf] at hst
        simp only [Bool.false_eq_true, if_false] at hst
        cases hd1 : vis.get? n1 with
        | none => rw [hd1] at hst; cases hst
        | some d1 =>
          rw [hd1] at hst
          dsimp only at hst
          obtain ⟨new, k1, k2, k3⟩ := dmRelax_keys (d1 := d1) (nbr n1) q vis
          cases hst
          dsimp only
          have hk : (dmRelax d1 (nbr n1) (q, vis)).2.keys = P ++ n1 :: (q ++ new) := by rw [k2, h1]; simp
          obtain ⟨e, he, heP⟩ : ∃ e ∈ es, e ∉ P := by
            unfold foundAll at hf
            rw [Bool.and_eq_false_iff] at hf
            rcases hf with hf | hf
            · rw [List.all_eq_false] at hf
              obtain ⟨x, hx, hx2⟩ := hf
              exact absurd ((h2 x).1 hx).1 (by simpa using hx2)
            · rw [List.all_eq_false] at hf
              obtain ⟨x, hx, hx2⟩ := hf
              exact ⟨x, hx, fun hp => absurd ((h2 x).2 ⟨hx, hp⟩) (by simpa using hx2)⟩
          refine ⟨P ++ [n1], by rw [hk, k1]; simp, fun x => ?_, fun x hx => ?_⟩
          · split
            · rename_i hn1
              rw [mem_sadd, h2, List.mem_append, List.mem_singleton]
              constructor
              · rintro (rfl | ⟨a, b⟩)
                · exact ⟨hn1, .inr rfl⟩
                · exact ⟨a, .inl b⟩
              · rintro ⟨a, b | b⟩
                · exact .inr ⟨a, b⟩
                · exact .inl b
            · rename_i hn1
              rw [h2, List.mem_append, List.mem_singleton]
              constructor
              · rintro ⟨a, b⟩; exact ⟨a, .inl b⟩
              · rintro ⟨a, b | rfl⟩
                · exact ⟨a, b⟩
                · exact absurd a hn1
          · rw [k2] at hx
            rcases List.mem_append.1 hx with hx | hx
            · rcases h3 x hx with h | ⟨l1, y, l2, c, h5, h6⟩
              · exact .inl h
              · exact .inr ⟨l1, y, l2 ++ new, c, by rw [k2, h5]; simp, h6⟩
            · obtain ⟨c, hc⟩ := k3 x hx
              exact .inr ⟨P, n1, q ++ new, c, hk, hc, e, he, heP⟩
  · rintro ⟨found, vis, q⟩ r ⟨P, h1, h2, h3⟩ hst d rfl
    unfold dmStep at hst
    dsimp only at hst h1 h2 h3
    cases q with
    | nil => cases hst; exact h3
    | cons n1 q =>
      dsimp only at hst
      cases hf : foundAll found (some es) with
      | true => rw [hf] at hst; cases hst; exact h3
      | false =>
        rw [hf] at hst
        simp only [Bool.false_eq_true, if_false] at hst
        cases hd1 : vis.get? n1 with
        | none => rw [hd1] at hst; cases hst
        | some d1 => rw [hd1] at hst; cases hst
  · refine ⟨[], ?_, by simp, fun x hx => .inl ((hmem x).1 ?_)⟩
    · rw [hkeys]; rfl
    · rw [hkeys] at hx; exact hx

end GT

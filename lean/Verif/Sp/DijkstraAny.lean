import Verif.Sp.Loop
/-
`shortest_path` (graph/shortest_path.py:11-58) with arbitrary edge values: what is returned is a walk and its value, whatever the values.
-/
namespace GT
variable {α V O : Type} [DecidableEq α]
open Graph

/-- the invariant that does not depend on the signs of the values -/
structure DijAny (w : α → α → Option Rat) (start fin : α) (av : List α) (s : DijSt α) : Prop where
  avs : ∀ x ∈ av, x ∈ s.visited
  ent : ∀ e ∈ s.q, WalkOf w start e.node (e.path.reverse ++ [e.node]) e.cost ∧ ∀ x ∈ e.path, x ∉ av
  edge : ∀ x y c, x ∈ s.visited → x ∉ av → w x y = some c → y ∉ av → y ∈ s.visited ∨ ∃ e ∈ s.q, e.node = y
  mins : ∀ y m, s.mins.get? y = some m → y ∈ s.visited ∨ ∃ e ∈ s.q, e.node = y
  src : start ∉ av → start ∈ s.visited ∨ ∃ e ∈ s.q, e.node = start
  nofin : fin ∈ s.visited → fin ∈ av

/-- once the heap is empty every walk that avoids `av` is settled -/
theorem DijAny.walk {w : α → α → Option Rat} {start fin : α} {av : List α} {s : DijSt α} (h : DijAny w start fin av s) (hq : s.q = [])
    (p : List α) : ∀ x z d, x ∈ s.visited → WalkOf w x z p d → (∀ y ∈ p, y ∉ av) → z ∈ s.visited := by
  induction p with
  | nil => intro x z d _ hz; exact absurd rfl hz.ne_nil
  | cons a p ih =>
    intro x z d hx hz hav
    rcases hz.inv with ⟨h1, h2, h3⟩ | ⟨b, q', c, d', h1, h2, h3, h4⟩
    · subst h2; exact hx
    · simp only [List.cons.injEq] at h1
      obtain ⟨rfl, rfl⟩ := h1
      have hb : b ∉ av := by
        have := h3.1
        cases p with
        | nil => simp at this
        | cons b' p => simp at this; subst this; exact hav _ (by simp)
      refine ih b z d' ?_ h3 (fun y hy => hav y (List.mem_cons_of_mem _ hy))
      rcases h.edge a b c hx (hav a (by simp)) h2 hb with h5 | ⟨e, h5, _⟩
      · exact h5
      · rw [hq] at h5; cases h5

theorem dij_any {nbr : α → List (α × Rat)} {w : α → α → Option Rat}
    (hn : ∀ x y c, (y, c) ∈ nbr x ↔ w x y = some c) {U : List α}
    (hU : ∀ x y c, w x y = some c → x ∈ U ∧ y ∈ U) {start fin : α} (hs : start ∈ U) (av : List α) :
    ∃ r, pyWhile (dijStep nbr fin) ⟨[⟨0, 0, start, []⟩], Dict.empty.set start 0, av, 1⟩ = some r ∧
      ((∃ d, r.1 = .fin d ∧ AvoidWalk w av start fin r.2 d) ∨ (r = (.inf, []) ∧ ¬ ∃ p c, AvoidWalk w av start fin p c)) := by
  apply pyWhile_totalW (fun s => DijAny w start fin av s ∧ ∀ e ∈ s.q, e.node ∈ U)
    (fun r : Ext × List α => (∃ d, r.1 = .fin d ∧ AvoidWalk w av start fin r.2 d) ∨ (r = (.inf, []) ∧ ¬ ∃ p c, AvoidWalk w av start fin p c))
    lexNat lexNat_wf (fun s => (unvis U s.visited, s.q.length))
  · rintro s s' ⟨hI, hq⟩ hst
    unfold dijStep at hst
    split at hst
    · cases hst
    · rename_i e q hpop
      obtain ⟨hp, _⟩ := popMin_some hpop
      have heq : e ∈ s.q := hp.mem_iff.2 (by simp)
      have drop : ∀ (y : α) (vis : List α) (q' : List (Ent α)), (∀ x ∈ s.visited, x ∈ vis) → e.node ∈ vis → (∀ x ∈ q, x ∈ q') →
          (y ∈ s.visited ∨ ∃ e' ∈ s.q, e'.node = y) → y ∈ vis ∨ ∃ e' ∈ q', e'.node = y := by
        intro y vis q' hvis hev hqq h
        rcases h with h | ⟨e', h1, h2⟩
        · exact .inl (hvis y h)
        · rcases List.mem_cons.1 (hp.mem_iff.1 h1) with rfl | h1
          · subst h2; exact .inl hev
          · exact .inr ⟨e', hqq _ h1, h2⟩
      split at hst
      · rename_i hv
        simp only [Sum.inl.injEq] at hst
        subst hst
        refine ⟨⟨⟨hI.avs, fun e' he' => hI.ent e' (hp.mem_iff.2 (List.mem_cons_of_mem _ he')), ?_, ?_, ?_, hI.nofin⟩,
          fun e' he' => hq e' (hp.mem_iff.2 (List.mem_cons_of_mem _ he'))⟩, ?_⟩
        · intro x y c hx hxa hxy hya
          exact drop y _ _ (fun _ h => h) hv (fun _ h => h) (hI.edge x y c hx hxa hxy hya)
        · intro y m hm; exact drop y _ _ (fun _ h => h) hv (fun _ h => h) (hI.mins y m hm)
        · intro hsa; exact drop start _ _ (fun _ h => h) hv (fun _ h => h) (hI.src hsa)
        · refine .right _ ?_
          have := hp.length_eq
          simp at this
          show q.length < s.q.length
          omega
      · rename_i hv
        dsimp only at hst
        split at hst
        · cases hst
        · rename_i hfin
          simp only [Sum.inl.injEq] at hst
          subst hst
          have hava : e.node ∉ av := fun h => hv (hI.avs _ h)
          obtain ⟨hwalk, hpath⟩ := hI.ent e heq
          generalize hr : dijRelax e.cost (e.node :: e.path) (sadd s.visited e.node) (nbr e.node) (q, s.mins, s.i) = r
          obtain ⟨q', mins', i'⟩ := r
          obtain ⟨h1, h2, h3, h4, h5⟩ := dijRelax_spec _ _ _ _ _ _ _ hr
          have hsub : ∀ x ∈ s.visited, x ∈ sadd s.visited e.node := fun x hx => mem_sadd.2 (.inr hx)
          have hev : e.node ∈ sadd s.visited e.node := mem_sadd.2 (.inl rfl)
          refine ⟨⟨⟨fun x hx => hsub x (hI.avs x hx), ?_, ?_, ?_, ?_, ?_⟩, ?_⟩, ?_⟩
          · intro e' he'
            rcases h2 e' he' with h6 | ⟨h6, _, d, h7, h8⟩
            · exact hI.ent e' (hp.mem_iff.2 (List.mem_cons_of_mem _ h6))
            · refine ⟨?_, ?_⟩
              · rw [h6, h8]
                simp only [List.reverse_cons]
                exact hwalk.snoc ((hn _ _ _).1 h7)
              · rw [h6]; intro x hx
                rcases List.mem_cons.1 hx with rfl | hx
                · exact hava
                · exact hpath x hx
          · intro x y c hx hxa hxy hya
            rcases mem_sadd.1 hx with rfl | hx
            · by_cases hy : y ∈ sadd s.visited e.node
              · exact .inl hy
              · obtain ⟨m, hm, hm2⟩ := h5 y c ((hn _ _ _).2 hxy) hy
                rcases h3 y m hm with h6 | ⟨e', h6, h7, h8⟩
                · exact drop y _ _ hsub hev h1 (hI.mins y m h6)
                · exact .inr ⟨e', h6, h7⟩
            · exact drop y _ _ hsub hev h1 (hI.edge x y c hx hxa hxy hya)
          · intro y m hm
            rcases h3 y m hm with h6 | ⟨e', h6, h7, _⟩
            · exact drop y _ _ hsub hev h1 (hI.mins y m h6)
            · exact .inr ⟨e', h6, h7⟩
          · intro hsa; exact drop start _ _ hsub hev h1 (hI.src hsa)
          · intro h6
            rcases mem_sadd.1 h6 with h6 | h6
            · exact absurd h6.symm hfin
            · exact hI.nofin h6
          · intro e' he'
            rcases h2 e' he' with h6 | ⟨_, _, d, h6, _⟩
            · exact hq e' (hp.mem_iff.2 (List.mem_cons_of_mem _ h6))
            · exact (hU _ _ _ ((hn _ _ _).1 h6)).2
          · refine .left _ _ ?_
            exact unvis_lt hsub (hq e heq) hv hev
  · rintro s r ⟨hI, hq⟩ hst
    unfold dijStep at hst
    split at hst
    · rename_i hpop
      rw [popMin_none] at hpop
      simp only [Sum.inr.injEq] at hst
      subst hst
      refine .inr ⟨rfl, ?_⟩
      rintro ⟨p, c, hp⟩
      have hsm : start ∈ p := List.mem_of_head? hp.1.1
      have hsv : start ∈ s.visited := by
        rcases hI.src (hp.2 _ hsm) with h | ⟨e, h, _⟩
        · exact h
        · rw [hpop] at h; cases h
      exact hp.2 fin (List.mem_of_getLast? hp.1.2.1) (hI.nofin (hI.walk hpop p start fin c hsv hp.1 hp.2))
    · rename_i e q hpop
      obtain ⟨hp, hmin⟩ := popMin_some hpop
      have heq : e ∈ s.q := hp.mem_iff.2 (by simp)
      split at hst
      · cases hst
      · rename_i hv
        dsimp only at hst
        split at hst
        · rename_i hfin
          simp only [Sum.inr.injEq] at hst
          subst hst
          subst hfin
          have hava : e.node ∉ av := fun h => hv (hI.avs _ h)
          obtain ⟨hwalk, hpath⟩ := hI.ent e heq
          refine .inl ⟨e.cost, rfl, ⟨?_, ?_⟩⟩
          · simpa using hwalk
          · intro x hx
            simp at hx
            rcases hx with hx | rfl
            · exact hpath x hx
            · exact hava
        · cases hst
  · refine ⟨⟨fun x hx => hx, ?_, ?_, ?_, ?_, ?_⟩, ?_⟩
    · intro e he
      simp at he; subst he
      exact ⟨by simpa using WalkOf.single start, by simp⟩
    · intro x y c hx hxa; exact absurd hx hxa
    · intro y m hm
      rw [Dict.get?_set] at hm
      split at hm
      · rename_i h; cases hm; exact .inr ⟨_, by simp; rfl, h⟩
      · simp at hm
    · intro _; exact .inr ⟨_, by simp; rfl, rfl⟩
    · exact fun h => h
    · intro e he; simp at he; subst he; exact hs

theorem shortestPath_any {g : Graph α Rat O} (h : g.Inv) {start fin : α} (av : List α) (hs : g.has start = true) (hf : g.has fin = true) :
    ∃ d p, g.shortestPath start fin av = some (.ok (d, p)) ∧ p.Nodup ∧
      ((∃ c, d = .fin c ∧ AvoidWalk g.edge av start fin p c) ∨ (d = .inf ∧ p = [] ∧ ¬ ∃ p c, AvoidWalk g.edge av start fin p c)) := by
  obtain ⟨⟨d, p⟩, h1, h2⟩ := dij_any (nbr := g.outNbr) (w := g.edge) (fun x y c => h.mem_outNbr) (fun x y c => h.edge_mem) (fin := fin) (has_iff.1 hs) av
  have h3 : g.shortestPath start fin av = some (.ok (d, p)) := by
    unfold shortestPath
    simp only [hs, hf, Bool.not_true, Bool.false_eq_true, if_false]
    rw [h1]
  refine ⟨d, p, h3, shortestPath_nodup h3, ?_⟩
  rcases h2 with h2 | ⟨h2, h4⟩
  · exact .inl h2
  · cases h2; exact .inr ⟨rfl, rfl, h4⟩

end GT

import Verif.Sp.BidirFl
/-
The path that `shortest_path_bidirectional` returns visits no node twice, whatever the rounding.
-/
namespace GT
variable {α O : Type} [DecidableEq α]
open Graph

/-- paths of one side are simple and lead through settled nodes; labels are queued, settled or not better than the best path -/
structure SideNd (s : Side α) : Prop where
  ent : ∀ e ∈ s.q, (e.n1 :: e.path).Nodup ∧ ∀ y ∈ e.path, y ∈ s.boundary ∧ ∃ m, s.mins.get? y = some m ∧ m ≤ e.cost
  label : ∀ y m p, s.mins.get? y = some m → s.paths.get? y = some p → (y :: p).Nodup ∧ ∀ z ∈ p, z ∈ s.boundary ∧ ∃ m', s.mins.get? z = some m' ∧ m' ≤ m
  queued : ∀ y m, s.mins.get? y = some m → (∃ e ∈ s.q, e.n1 = y ∧ e.cost = m) ∨ y ∈ s.boundary ∨ leExt s.spLen m

/-- a node settled by both sides gives a bound for the best path -/
def CrossInv (fl : Rat → Rat) (s o : Side α) : Prop :=
  ∀ y, y ∈ s.boundary → y ∈ o.boundary → ∀ a b, s.mins.get? y = some a → o.mins.get? y = some b → leExt s.spLen (fl (a + b))

theorem CrossInv.symm {fl : Rat → Rat} {s o : Side α} (h : CrossInv fl s o) (hl : s.spLen = o.spLen) : CrossInv fl o s := by
  intro y h1 h2 a b ha hb
  rw [← hl, Rat.add_comm]; exact h y h2 h1 b a hb ha

theorem leExt_mono {m : Ext} {x y : Rat} (h : leExt m x) (hxy : x ≤ y) : leExt m y := by
  cases m with
  | inf => exact h
  | fin q => simp only [leExt] at *; grind

theorem intercept_cases {fl : Rat → Rat} {dir : Bool} {st : Scan α} {q : List (Scan α)} {self other : Side α} {sp : List α} {spLen : Ext} {q1 : List (Scan α)}
    (h : interceptFl fl dir st q self other = .ok (sp, spLen, q1)) :
    (sp = self.sp ∧ spLen = self.spLen ∧ q1 = q) ∨ ∃ om op, st.n1 ∈ other.boundary ∧ other.mins.get? st.n1 = some om ∧ other.paths.get? st.n1 = some op ∧
      ltExt (fl (st.cost + om)) self.spLen = true ∧ sp = (if dir then st.path.reverse ++ [st.n1] ++ op else op.reverse ++ [st.n1] ++ st.path) ∧ spLen = .fin (fl (st.cost + om)) ∧
      q1 = q.filter (fun a => decide (a.cost < fl (st.cost + om))) := by
  unfold interceptFl at h
  split at h
  · rename_i hbd
    split at h
    · cases h
    · rename_i om hom
      split at h
      · rename_i hlt
        split at h
        · cases h
        · rename_i op hop
          cases h
          exact .inr ⟨om, op, hbd, hom, hop, hlt, rfl, rfl, rfl⟩
      · cases h; exact .inl ⟨rfl, rfl, rfl⟩
  · cases h; exact .inl ⟨rfl, rfl, rfl⟩

theorem search_nd {fl : Rat → Rat} (hfl : Rounding fl) {ws : α → α → Option Rat} (hw : NonNeg ws) {U av : List α}
    {nbr : α → List (α × Rat)} (hn : ∀ x y c, (y, c) ∈ nbr x ↔ ws x y = some c)
    {srt : List (α × Rat) → List (α × Rat)} (hsrt : ∀ l, (srt l).Perm l)
    {root root' : α} {dir : Bool} {L L' : Rat} {self other self' other' : Side α}
    (hs : SideInvFl fl ws U av root L self) (ho : SideInvFl fl (fun x y => ws y x) U av root' L' other)
    (hb : BestInvFl fl ws av root root' dir L L' self other) (hsn : SideNd self) (hon : SideNd other) (hc : CrossInv fl self other) (hp : self.sp.Nodup)
    (h : self.searchFl fl dir nbr srt av other = .ok (self', other')) :
    SideNd self' ∧ SideNd other' ∧ CrossInv fl self' other' ∧ self'.sp.Nodup ∧ self'.spLen = other'.spLen := by
  unfold Side.searchFl at h
  cases hq : self.q with
  | nil =>
    rw [hq] at h; cases h
    exact ⟨hsn, hon, hc, hp, hb.len⟩
  | cons st q =>
    rw [hq] at h
    dsimp only at h
    have hstq : st ∈ self.q := by rw [hq]; simp
    have hsort := hs.sorted
    rw [hq] at hsort
    unfold QSorted at hsort
    rw [List.pairwise_cons] at hsort
    by_cases hgt : gtExt st.cost self.spLen = true
    · rw [if_pos hgt] at h; cases h
      obtain ⟨mu, hmu, hmu2⟩ := gtExt_iff.1 hgt
      refine ⟨⟨fun e he => hsn.ent e (by rw [hq]; exact List.mem_cons_of_mem _ he), hsn.label, fun y m hm => ?_⟩, hon, hc, hp, hb.len⟩
      rcases hsn.queued y m hm with ⟨e, he, he1, he2⟩ | h | h
      · rw [hq] at he
        rcases List.mem_cons.1 he with rfl | he
        · right; right
          show leExt self.spLen m
          rw [hmu]; simp only [leExt]; grind
        · exact .inl ⟨e, he, he1, he2⟩
      · exact .inr (.inl h)
      · exact .inr (.inr h)
    · rw [if_neg hgt] at h
      obtain ⟨sp, spLen, q1, hi, hi1, hi2, hi3, hi4, hi5, hi6, hi7⟩ := intercept_specFl hfl hs ho hb hq
      rw [hi] at h
      dsimp only at h
      obtain ⟨hfix0, hnn0⟩ := flCost_fix hfl hw _ hfl.zero Rat.le_refl (hs.ent st hstq).1.2.2.1
      generalize hed : srt ((nbr st.n1).filter (fun e => !decide (e.1 ∈ av))) = edges at h
      have hmem : ∀ y d, (y, d) ∈ edges → 0 ≤ d := by
        intro y d hy; rw [← hed, (hsrt _).mem_iff, List.mem_filter, hn] at hy; exact hw _ _ _ hy.1
      have hR := biRelax_specFl (fl := fl) (cost := st.cost) (path := st.n1 :: st.path) (spLen := self.spLen) (omins := other.mins) edges q1 self.mins self.paths
      generalize hr : biRelaxFl fl st.cost (st.n1 :: st.path) self.spLen other.mins edges (q1, self.mins, self.paths) = r at hR h
      obtain ⟨q2, mins2, paths2⟩ := r
      dsimp only at hR h
      have hu1 : Side.update (⟨q2, sadd self.boundary st.n1, mins2, paths2, self.sp, self.spLen⟩ : Side α) sp spLen =
          .ok ⟨q2, sadd self.boundary st.n1, mins2, paths2, sp, spLen⟩ := by
        unfold Side.update; rw [if_neg (by simp [hi1])]
      have hu2 : other.update sp spLen = .ok { other with sp := sp, spLen := spLen } := by
        unfold Side.update; rw [if_neg (by rw [← hb.len]; simp [hi1])]
      rw [hu1] at h; dsimp only at h; rw [hu2] at h
      cases h
      obtain ⟨_, _, ⟨m0, hm0, hm0'⟩, _⟩ := hs.ent st hstq
      have hLst : L ≤ st.cost := hs.last st hstq
      -- values of settled nodes, the new one included
      have hset : ∀ y, y ∈ sadd self.boundary st.n1 → ∃ m, self.mins.get? y = some m ∧ m ≤ st.cost ∧ mins2.get? y = some m := by
        intro y hy
        obtain ⟨m, h1, h2⟩ : ∃ m, self.mins.get? y = some m ∧ m ≤ st.cost := by
          rcases mem_sadd.1 hy with rfl | hy
          · exact ⟨m0, hm0, hm0'⟩
          · obtain ⟨m, h1, h2⟩ := hs.closed y hy
            exact ⟨m, h1, by grind⟩
        refine ⟨m, h1, h2, ?_⟩
        obtain ⟨m', h3, h4⟩ := hR.mono y m h1
        rcases hR.label y m' h3 with ⟨h5, _⟩ | ⟨_, ⟨d, h5, h6⟩, _, h7⟩
        · rw [h1] at h5; cases h5; exact h3
        · exfalso
          have h8 := h7 m h1
          have h9 := hfl.mono st.cost (st.cost + d) (by have := hmem _ _ h5; grind)
          grind
      have hnew : ∀ y d, (y, d) ∈ edges → (∀ m, self.mins.get? y = some m → fl (st.cost + d) < m) → y ∉ sadd self.boundary st.n1 := by
        intro y d hy hlt hin
        obtain ⟨m, h1, h2, _⟩ := hset y hin
        have h8 := hlt m h1
        have h9 := hfl.mono st.cost (st.cost + d) (by have := hmem _ _ hy; grind)
        grind
      obtain ⟨hst1, hst2⟩ := hsn.ent st hstq
      have hpath : ∀ y ∈ st.n1 :: st.path, y ∈ sadd self.boundary st.n1 := by
        intro y hy
        rcases List.mem_cons.1 hy with rfl | hy
        · exact mem_sadd.2 (.inl rfl)
        · exact mem_sadd.2 (.inr (hst2 y hy).1)
      have hpush : ∀ y d, (y, d) ∈ edges → (∀ m, self.mins.get? y = some m → fl (st.cost + d) < m) → (y :: st.n1 :: st.path).Nodup ∧
          ∀ z ∈ st.n1 :: st.path, z ∈ sadd self.boundary st.n1 ∧ ∃ m, mins2.get? z = some m ∧ m ≤ fl (st.cost + d) := by
        intro y d hy hlt
        refine ⟨List.nodup_cons.2 ⟨fun hin => hnew y d hy hlt (hpath y hin), hst1⟩, fun z hz => ⟨hpath z hz, ?_⟩⟩
        obtain ⟨m, _, h2, h3⟩ := hset z (hpath z hz)
        have h9 := hfl.mono st.cost (st.cost + d) (by have := hmem _ _ hy; grind)
        exact ⟨m, h3, by grind⟩
      -- stale entries
      have hstale : m0 = st.cost ∨ st.n1 ∈ self.boundary ∨ leExt self.spLen m0 := by
        rcases hsn.queued _ _ hm0 with ⟨e, he, he1, he2⟩ | h | h
        · left
          rw [hq] at he
          rcases List.mem_cons.1 he with rfl | he
          · exact he2.symm
          · have := hsort.1 e he; grind
        · exact .inr (.inl h)
        · exact .inr (.inr h)
      refine ⟨⟨fun e he => ?_, fun y m p hm hpp => ?_, fun y m hm => ?_⟩, ⟨hon.ent, hon.label, fun y m hm => ?_⟩, ?_, ?_, rfl⟩
      · rcases hR.new e he with h1 | ⟨h1, ⟨d, h2, h3⟩, _, h5⟩
        · obtain ⟨a1, a2⟩ := hsn.ent e (by rw [hq]; exact List.mem_cons_of_mem _ (hi2.subset h1))
          refine ⟨a1, fun y hy => ?_⟩
          obtain ⟨b1, m, b2, b3⟩ := a2 y hy
          obtain ⟨m', b4, b5⟩ := hR.mono y m b2
          exact ⟨mem_sadd.2 (.inr b1), m', b4, by grind⟩
        · rw [h3] at h5
          obtain ⟨a1, a2⟩ := hpush _ _ h2 h5
          rw [h1, h3]
          exact ⟨a1, a2⟩
      · rcases hR.label y m hm with ⟨h1, h2⟩ | ⟨h1, ⟨d, h2, h3⟩, _, h4⟩
        · obtain ⟨a1, a2⟩ := hsn.label y m p h1 (by rw [← h2]; exact hpp)
          refine ⟨a1, fun z hz => ?_⟩
          obtain ⟨b1, m', b2, b3⟩ := a2 z hz
          obtain ⟨m'', b4, b5⟩ := hR.mono z m' b2
          exact ⟨mem_sadd.2 (.inr b1), m'', b4, by grind⟩
        · have : p = st.n1 :: st.path := by
            have h1' : paths2.get? y = some p := hpp
            rw [h1] at h1'; exact (Option.some.inj h1').symm
          subst this
          rw [h3] at h4 ⊢
          exact hpush y d h2 h4
      · rcases hR.label y m hm with ⟨h1, _⟩ | ⟨_, _, h2, _⟩
        · rcases hsn.queued y m h1 with ⟨e, he, he1, he2⟩ | h | h
          · rw [hq] at he
            rcases List.mem_cons.1 he with rfl | he
            · exact .inr (.inl (mem_sadd.2 (.inl he1.symm)))
            · by_cases hle : leExt spLen m
              · exact .inr (.inr hle)
              · exact .inl ⟨e, hR.keep e (hi6 m hle e he (by rw [he2]; exact Rat.le_refl)), he1, he2⟩
          · exact .inr (.inl (mem_sadd.2 (.inr h)))
          · exact .inr (.inr (hi5 _ h))
        · exact .inl ⟨_, h2, rfl, rfl⟩
      · rcases hon.queued y m hm with h | h | h
        · exact .inl h
        · exact .inr (.inl h)
        · exact .inr (.inr (hi5 _ (by rw [hb.len]; exact h)))
      · intro y hy1 hy2 a b ha hb'
        dsimp only at hy1 hy2 ha hb' ⊢
        obtain ⟨m, k1, k2, k3⟩ := hset y hy1
        rw [k3] at ha; cases ha
        rcases mem_sadd.1 hy1 with rfl | hy1
        · rw [hm0] at k1; cases k1
          rcases hstale with h | h | h
          · exact hi7 _ b hy2 hb' (by rw [h]; exact Rat.le_refl)
          · exact hi5 _ (hc _ h hy2 _ _ hm0 hb')
          · refine hi5 _ (leExt_mono h ?_)
            obtain ⟨_, _, hl1, _⟩ := hs.label _ _ hm0
            obtain ⟨_, _, hl2, _⟩ := ho.label _ _ hb'
            obtain ⟨f1, _⟩ := flCost_fix hfl hw _ hfl.zero Rat.le_refl hl1.2.2.1
            obtain ⟨_, f2⟩ := flCost_fix hfl (w := fun x y => ws y x) (fun x y c h => hw y x c h) _ hfl.zero Rat.le_refl hl2.2.2.1
            have := hfl.mono m0 (m0 + b) (by grind)
            grind
        · exact hi5 _ (hc y hy1 hy2 _ _ k1 hb')
      · dsimp only
        rcases intercept_cases hi with ⟨h1, _, _⟩ | ⟨om, op, h1, h2, h3, h4, h5, _, _⟩
        · rw [h1]; exact hp
        · obtain ⟨o1, o2⟩ := hon.label _ _ _ h2 h3
          have key : (st.path.reverse ++ [st.n1] ++ op).Nodup := by
            rw [List.append_assoc, List.singleton_append, List.nodup_append]
            refine ⟨nodup_reverse.2 (List.nodup_cons.1 hst1).2, o1, fun x hx z hz hxz => ?_⟩
            subst hxz
            have hx := List.mem_reverse.1 hx
            rcases List.mem_cons.1 hz with rfl | hz
            · exact (List.nodup_cons.1 hst1).1 hx
            · obtain ⟨c1, m1, c2, c3⟩ := hst2 x hx
              obtain ⟨d1, m2, d2, d3⟩ := o2 x hz
              have e1 := leExt_mono (hc x c1 d1 m1 m2 c2 d2) (hfl.mono (m1 + m2) (st.cost + om) (by grind))
              cases hl : self.spLen with
              | inf => rw [hl] at e1; exact e1
              | fin v => rw [hl] at e1 h4; simp only [leExt] at e1; simp [ltExt] at h4; grind
          rw [h5]
          cases dir with
          | true => simpa using key
          | false =>
            have := nodup_reverse.2 key
            simpa using this

theorem bi_simple {fl : Rat → Rat} (hfl : Rounding fl) {w : α → α → Option Rat} (hw : NonNeg w) {U av : List α} (hU : ∀ x y c, w x y = some c → x ∈ U ∧ y ∈ U)
    {out inn : α → List (α × Rat)} (hout : ∀ x y c, (y, c) ∈ out x ↔ w x y = some c)
    (hinn : ∀ x y c, (y, c) ∈ inn x ↔ w y x = some c)
    {srt : List (α × Rat) → List (α × Rat)} (hsrt : ∀ l, (srt l).Perm l) {start fin : α} (hs : start ∈ U) (hf : fin ∈ U) {r : Ext × List α}
    (h : pyWhile (biStepFl fl out inn srt av) (Side.init start, Side.init fin) = some (.ok r)) : r.2.Nodup := by
  have hw' : NonNeg (fun x y => w y x) := fun a b c h => hw b a c h
  have := pyWhile_inv (fun s : Side α × Side α => BiInvFl fl w U av start fin s ∧ SideNd s.1 ∧ SideNd s.2 ∧ CrossInv fl s.1 s.2 ∧ s.1.sp.Nodup)
    (fun r : Py (Ext × List α) => ∀ x, r = .ok x → x.2.Nodup) ?_ ?_ ?_ h
  · exact this r rfl
  · rintro ⟨f, b⟩ s' ⟨hI, n1, n2, n3, n4⟩ hst
    by_cases hne : f.q = [] ∧ b.q = []
    · simp only [biStepFl, if_pos hne] at hst; cases hst
    · obtain ⟨s1, e1, e2, _⟩ := bi_stepFl hfl hw hU hout hinn hsrt hI hne
      rw [e1] at hst; cases hst
      refine ⟨e2, ?_⟩
      obtain ⟨L, L', h1, h2, h3, h4⟩ := hI
      obtain ⟨f1, b1, L1, k1, f2, f3, f4, _⟩ := search_specFl (dir := true) hfl hw hU hout hsrt h1 h2 h3
      obtain ⟨b2, f2', L2, k2, g2, g3, g4, _⟩ := search_specFl hfl (nbr := inn) (dir := false) hw' (fun x y c h => (hU y x c h).symm) hinn hsrt f3 f2
        (by simpa using f4.symm)
      obtain ⟨m1, m2, m3, m4, m5⟩ := search_nd hfl hw hout hsrt h1 h2 h3 n1 n2 n3 n4 k1
      obtain ⟨p1, p2, p3, p4, p5⟩ := search_nd hfl (nbr := inn) (dir := false) hw' hinn hsrt f3 f2 (by simpa using f4.symm) m2 m1 (m3.symm m5) (by rw [← f4.sp]; exact m4) k2
      unfold biStepFl at e1
      dsimp only at e1 k1
      rw [if_neg hne, k1] at e1; dsimp only at e1; rw [k2] at e1
      cases e1
      exact ⟨p2, p1, p3.symm p5, by have := g4.sp; rw [← this]; exact p4⟩
  · rintro ⟨f, b⟩ r ⟨hI, n1, n2, n3, n4⟩ hst x hx
    by_cases hne : f.q = [] ∧ b.q = []
    · simp only [biStepFl, if_pos hne] at hst
      cases hst; cases hx; exact n4
    · obtain ⟨s1, e1, e2, _⟩ := bi_stepFl hfl hw hU hout hinn hsrt hI hne
      rw [e1] at hst; cases hst
  · have hn : ∀ root : α, SideNd (Side.init root) := by
      intro root
      refine ⟨fun e he => ?_, fun y m p hm hp => ?_, fun y m hm => ?_⟩
      · simp [Side.init] at he; subst he; simp
      · simp only [Side.init, Dict.get?_set] at hm hp
        split at hm
        · rename_i h; rw [if_pos h] at hp; cases hp; simp
        · simp at hm
      · simp only [Side.init, Dict.get?_set] at hm
        split at hm
        · rename_i h; cases hm; exact .inl ⟨⟨0, root, []⟩, by simp [Side.init], h, rfl⟩
        · simp at hm
    exact ⟨biInvFl_init hfl av hs hf, hn _, hn _, fun y hy => by simp [Side.init] at hy, by simp [Side.init]⟩

theorem shortestPathBiFl_nodup {fl : Rat → Rat} (hfl : Rounding fl) {g : Graph α Rat O} (h : g.Inv) (hw : NonNeg g.edge) {start fin : α} {av : List α}
    {srt : List (α × Rat) → List (α × Rat)} (hsrt : ∀ l, (srt l).Perm l) {r : Ext × List α} (hr : g.shortestPathBiFl fl srt start fin av = some (.ok r)) : r.2.Nodup := by
  unfold shortestPathBiFl at hr
  split at hr
  · cases hr
  · split at hr
    · cases hr
    · rename_i hs hf
      simp at hs hf
      exact bi_simple hfl hw (fun x y c => h.edge_mem) (fun x y c => h.mem_outNbr) (fun x y c => h.mem_inNbr) hsrt (has_iff.1 hs) (has_iff.1 hf) hr

end GT

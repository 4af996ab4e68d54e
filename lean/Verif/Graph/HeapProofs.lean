import Verif.Graph.Heap
/-
Proofs about `Verif/Graph/Heap.lean`: the methods of a graph object only touch memory that the
object owns, and have on it the effect the value level model says.
-/
namespace GT
namespace Mem

section Assoc
variable {K A B : Type} [DecidableEq K]

/-- a dictionary read through `f` -/
def mapd (f : A → B) (l : List (K × A)) : List (K × B) := l.map (fun p => (p.1, f p.2))

theorem aget_mapd (f : A → B) (k : K) (l : List (K × A)) :
    aget k (mapd f l) = (aget k l).map f := by
  induction l with
  | nil => rfl
  | cons p l ih =>
    obtain ⟨k', v⟩ := p
    simp only [mapd, List.map_cons, aget] at ih ⊢
    split
    · rfl
    · exact ih

theorem mapd_aset (f : A → B) (k : K) (x : A) (l : List (K × A)) :
    mapd f (aset k x l) = aset k (f x) (mapd f l) := by
  induction l with
  | nil => rfl
  | cons p l ih =>
    obtain ⟨k', v⟩ := p
    simp only [mapd, List.map_cons, aset] at ih ⊢
    split
    · simp
    · simp [ih]

theorem mapd_adel (f : A → B) (k : K) (l : List (K × A)) :
    mapd f (adel k l) = adel k (mapd f l) := by
  induction l with
  | nil => rfl
  | cons p l ih =>
    obtain ⟨k', v⟩ := p
    simp only [mapd, List.map_cons, adel] at ih ⊢
    split
    · rfl
    · simp [ih]

omit [DecidableEq K] in
theorem keys_mapd (f : A → B) (l : List (K × A)) : (mapd f l).map Prod.fst = l.map Prod.fst := by
  simp [mapd]

omit [DecidableEq K] in
theorem mapd_upd_of_not_mem {f : Nat → B} {r : Nat} {x : B} {l : List (K × Nat)}
    (h : r ∉ l.map Prod.snd) : mapd (upd f r x) l = mapd f l := by
  unfold mapd
  apply List.map_congr_left
  intro p hp
  have : p.2 ≠ r := fun e => h (e ▸ List.mem_map.2 ⟨p, hp, rfl⟩)
  simp [upd, this]

theorem mapd_upd {f : Nat → B} {r : Nat} {x : B} {k : K} {l : List (K × Nat)}
    (hk : aget k l = some r) (hn : (l.map Prod.snd).Nodup) :
    mapd (upd f r x) l = aset k x (mapd f l) := by
  induction l with
  | nil => simp [aget] at hk
  | cons p l ih =>
    obtain ⟨k', v⟩ := p
    simp only [aget] at hk
    simp only [List.map_cons, List.nodup_cons] at hn
    by_cases h : k' = k
    · subst h
      simp only [if_true, Option.some.injEq] at hk
      subst hk
      have := mapd_upd_of_not_mem (f := f) (x := x) hn.1
      simp only [mapd] at this
      simp only [mapd, List.map_cons, aset, if_true, this]
      simp [upd]
    · simp only [h, if_false] at hk
      have hr : v ≠ r := by
        rintro rfl
        exact hn.1 (List.mem_map.2 ⟨(k, v), mem_of_aget hk, rfl⟩)
      have := ih hk hn.2
      simp only [mapd] at this
      simp only [mapd, List.map_cons, aset, h, if_false, this]
      simp [upd, hr]

theorem values_adel_sublist (k : K) (l : List (K × A)) :
    ((adel k l).map Prod.snd).Sublist (l.map Prod.snd) := adel_keys_sublist.map _

theorem aset_aget_self {k : K} {x : A} {l : List (K × A)} (h : aget k l = some x) :
    aset k x l = l := by
  induction l with
  | nil => simp [aget] at h
  | cons p l ih =>
    obtain ⟨k', v⟩ := p
    simp only [aget] at h
    simp only [aset]
    by_cases hk : k' = k
    · simp only [hk, if_true, Option.some.injEq] at h ⊢; rw [h]
    · simp only [hk, if_false] at h ⊢; rw [ih h]

end Assoc

variable {α V O : Type} [DecidableEq α]

omit [DecidableEq α] in
theorem upd_self {β : Type} (f : Nat → β) (a : Nat) (x : β) : upd f a x a = x := by simp [upd]
omit [DecidableEq α] in
theorem upd_ne {β : Type} (f : Nat → β) {a b : Nat} (x : β) (h : b ≠ a) : upd f a x b = f b := by
  simp [upd, h]

theorem nested_get? (h : Heap α V O) (A : Nat) (k : α) :
    (h.nested A).get? k = ((h.out A).get? k).map h.row := aget_mapd _ _ _

omit [DecidableEq α] in
theorem nested_congr {h h' : Heap α V O} {A : Nat} (ho : h'.out A = h.out A)
    (hr : ∀ r ∈ (h.out A).values, h'.row r = h.row r) : h'.nested A = h.nested A := by
  unfold Heap.nested
  rw [ho]
  congr 1
  apply List.map_congr_left
  intro p hp
  rw [hr p.2 (List.mem_map.2 ⟨p, hp, rfl⟩)]

/-! ### two sibling dictionaries -/

/-- the rows of `A` and `B` are all different -/
structure PairOK (h : Heap α V O) (A B : Nat) : Prop where
  ne : A ≠ B
  nodup : ((h.out A).values ++ (h.out B).values).Nodup
  lt : ∀ r ∈ (h.out A).values ++ (h.out B).values, r < h.next

/-- `h'` differs from `h` only in `A`, `B`, their rows and new memory -/
structure PairLocal (h : Heap α V O) (A B : Nat) (h' : Heap α V O) : Prop where
  nds : h'.nds = h.nds
  deg : h'.deg = h.deg
  cnt : h'.cnt = h.cnt
  next : h.next ≤ h'.next
  out : ∀ a, a ≠ A → a ≠ B → h'.out a = h.out a
  row : ∀ r, r < h.next → r ∉ (h.out A).values ++ (h.out B).values → h'.row r = h.row r
  own : ∀ r ∈ (h'.out A).values ++ (h'.out B).values,
    r ∈ (h.out A).values ++ (h.out B).values ∨ h.next ≤ r

structure Eff (h : Heap α V O) (A B : Nat) (h' : Heap α V O) (d : Dict α (Dict α V)) : Prop where
  ok : PairOK h' A B
  loc : PairLocal h A B h'
  here : h'.nested A = d
  there : h'.nested B = h.nested B

omit [DecidableEq α] in
theorem PairOK.symm {h : Heap α V O} {A B : Nat} (p : PairOK h A B) : PairOK h B A :=
  ⟨p.ne.symm, by
    have := p.nodup
    rw [List.nodup_append] at this ⊢
    exact ⟨this.2.1, this.1, fun a ha b hb e => this.2.2 b hb a ha e.symm⟩,
   fun r hr => p.lt r (by simp only [List.mem_append] at hr ⊢; exact hr.symm)⟩

omit [DecidableEq α] in
theorem PairLocal.symm {h h' : Heap α V O} {A B : Nat} (p : PairLocal h A B h') :
    PairLocal h B A h' :=
  ⟨p.nds, p.deg, p.cnt, p.next, fun a h1 h2 => p.out a h2 h1,
   fun r h1 h2 => p.row r h1 (by simp only [List.mem_append] at h2 ⊢; exact fun h => h2 h.symm),
   fun r hr => by
     have := p.own r (by simp only [List.mem_append] at hr ⊢; exact hr.symm)
     simp only [List.mem_append] at this ⊢
     exact this.imp_left Or.symm⟩

theorem row_of_get? {h : Heap α V O} {A : Nat} {k : α} {r : Nat} (hk : (h.out A).get? k = some r) :
    r ∈ (h.out A).values := List.mem_map.2 ⟨(k, r), mem_of_aget hk, rfl⟩

/-- the effect on a single nested dictionary -/
structure Eff1 (h : Heap α V O) (A : Nat) (h' : Heap α V O) (d : Dict α (Dict α V)) : Prop where
  nodup : (h'.out A).values.Nodup
  lt : ∀ r ∈ (h'.out A).values, r < h'.next
  nds : h'.nds = h.nds
  deg : h'.deg = h.deg
  cnt : h'.cnt = h.cnt
  next : h.next ≤ h'.next
  out : ∀ a, a ≠ A → h'.out a = h.out a
  row : ∀ r, r < h.next → r ∉ (h.out A).values → h'.row r = h.row r
  own : ∀ r ∈ (h'.out A).values, r ∈ (h.out A).values ∨ h.next ≤ r
  here : h'.nested A = d

/-- the rows of `A` are all different -/
structure One (h : Heap α V O) (A : Nat) : Prop where
  nodup : (h.out A).values.Nodup
  lt : ∀ r ∈ (h.out A).values, r < h.next

omit [DecidableEq α] in
theorem PairOK.one {h : Heap α V O} {A B : Nat} (p : PairOK h A B) : One h A :=
  ⟨(List.nodup_append.1 p.nodup).1, fun r hr => p.lt r (List.mem_append.2 (Or.inl hr))⟩

omit [DecidableEq α] in
theorem Eff1.one {h h' : Heap α V O} {A : Nat} {d : Dict α (Dict α V)} (e : Eff1 h A h' d) :
    One h' A := ⟨e.nodup, e.lt⟩

omit [DecidableEq α] in
theorem Eff1.refl {h : Heap α V O} {A : Nat} (p : One h A) : Eff1 h A h (h.nested A) :=
  ⟨p.nodup, p.lt, rfl, rfl, rfl, Nat.le_refl _, fun _ _ => rfl, fun _ _ _ => rfl,
   fun _ h => Or.inl h, rfl⟩

omit [DecidableEq α] in
theorem Eff1.trans {h h1 h2 : Heap α V O} {A : Nat} {d1 d2 : Dict α (Dict α V)}
    (a : Eff1 h A h1 d1) (b : Eff1 h1 A h2 d2) : Eff1 h A h2 d2 where
  nodup := b.nodup
  lt := b.lt
  nds := b.nds.trans a.nds
  deg := b.deg.trans a.deg
  cnt := b.cnt.trans a.cnt
  next := Nat.le_trans a.next b.next
  out x hx := (b.out x hx).trans (a.out x hx)
  row r hr hn := by
    rw [b.row r (Nat.lt_of_lt_of_le hr a.next) ?_, a.row r hr hn]
    intro h'
    rcases a.own r h' with h' | h'
    · exact hn h'
    · exact absurd hr (Nat.not_lt.2 h')
  own r hr := by
    rcases b.own r hr with h' | h'
    · exact a.own r h'
    · exact Or.inr (Nat.le_trans a.next h')
  here := b.here

omit [DecidableEq α] in
theorem Eff1.pair {h h' : Heap α V O} {A B : Nat} {d : Dict α (Dict α V)} (p : PairOK h A B)
    (e : Eff1 h A h' d) : Eff h A B h' d := by
  have hB : h'.out B = h.out B := e.out B p.ne.symm
  have hn := List.nodup_append.1 p.nodup
  have hlt : ∀ r ∈ (h.out B).values, r < h.next := fun r hr => p.lt r (List.mem_append.2 (Or.inr hr))
  refine ⟨⟨p.ne, ?_, ?_⟩, ⟨e.nds, e.deg, e.cnt, e.next, fun a h1 _ => e.out a h1, ?_, ?_⟩, e.here, ?_⟩
  · rw [hB, List.nodup_append]
    refine ⟨e.nodup, hn.2.1, ?_⟩
    intro a ha b hb hab
    subst hab
    rcases e.own a ha with h1 | h1
    · exact hn.2.2 a h1 a hb rfl
    · exact absurd (hlt a hb) (Nat.not_lt.2 h1)
  · rw [hB]
    intro r hr
    rcases List.mem_append.1 hr with hr | hr
    · exact e.lt r hr
    · exact Nat.lt_of_lt_of_le (hlt r hr) e.next
  · intro r h1 h2
    exact e.row r h1 (fun h3 => h2 (List.mem_append.2 (Or.inl h3)))
  · rw [hB]
    intro r hr
    rcases List.mem_append.1 hr with hr | hr
    · exact (e.own r hr).imp_left (fun h => List.mem_append.2 (Or.inl h))
    · exact Or.inl (List.mem_append.2 (Or.inr hr))
  · exact nested_congr hB (fun r hr => e.row r (hlt r hr) (fun h => hn.2.2 r h r hr rfl))

/-- changing a row of `A` in place -/
theorem eff1_updRow {h : Heap α V O} {A : Nat} (p : One h A) {k : α} {r : Nat}
    (hk : (h.out A).get? k = some r) (x : Dict α V) :
    Eff1 h A { h with row := upd h.row r x } ((h.nested A).set k x) := by
  have hr := row_of_get? hk
  refine ⟨p.nodup, p.lt, rfl, rfl, rfl, Nat.le_refl _, fun _ _ => rfl, ?_, fun r h => Or.inl h, ?_⟩
  · intro r' _ h'
    have : r' ≠ r := by rintro rfl; exact h' hr
    exact upd_ne _ _ this
  · show (⟨_⟩ : Dict α (Dict α V)) = _
    unfold Dict.set
    congr 1
    exact mapd_upd hk p.nodup

theorem mem_values_aset {k : α} {r x : Nat} {l : List (α × Nat)}
    (h : x ∈ (aset k r l).map Prod.snd) : x = r ∨ x ∈ l.map Prod.snd := by
  induction l with
  | nil => simp [aset] at h; exact Or.inl h
  | cons p l ih =>
    obtain ⟨k', v⟩ := p
    simp only [aset] at h
    split at h
    · simp only [List.map_cons, List.mem_cons] at h ⊢
      exact h.imp_right Or.inr
    · simp only [List.map_cons, List.mem_cons] at h ⊢
      rcases h with h | h
      · exact Or.inr (Or.inl h)
      · exact (ih h).imp_right Or.inr

theorem nodup_values_aset {k : α} {r : Nat} {l : List (α × Nat)} (hr : r ∉ l.map Prod.snd)
    (hn : (l.map Prod.snd).Nodup) : ((aset k r l).map Prod.snd).Nodup := by
  induction l with
  | nil => simp [aset]
  | cons p l ih =>
    obtain ⟨k', v⟩ := p
    simp only [List.map_cons, List.mem_cons, not_or, List.nodup_cons] at hr hn
    simp only [aset]
    split
    · simp only [List.map_cons, List.nodup_cons]; exact ⟨hr.2, hn.2⟩
    · simp only [List.map_cons, List.nodup_cons]
      refine ⟨fun h => ?_, ih hr.2 hn.2⟩
      rcases mem_values_aset h with h | h
      · exact hr.1 h.symm
      · exact hn.1 h

/-- a new row for a key of `A` -/
theorem eff1_newRow {h : Heap α V O} {A : Nat} (p : One h A) (k : α) (x : Dict α V) :
    Eff1 h A (newRow h A k x) ((h.nested A).set k x) := by
  have hA : (newRow h A k x).out A = (h.out A).set k h.next := upd_self _ _ _
  have hfA : h.next ∉ (h.out A).values := fun h' => Nat.lt_irrefl _ (p.lt _ h')
  refine ⟨?_, ?_, rfl, rfl, rfl, Nat.le_succ _, fun a h1 => upd_ne _ _ h1, ?_, ?_, ?_⟩
  · rw [hA]; exact nodup_values_aset hfA p.nodup
  · rw [hA]
    intro r hr
    show r < h.next + 1
    rcases mem_values_aset hr with hr | hr
    · omega
    · exact Nat.lt_succ_of_lt (p.lt r hr)
  · intro r hr _
    exact upd_ne _ _ (Nat.ne_of_lt hr)
  · rw [hA]
    intro r hr
    rcases mem_values_aset hr with hr | hr
    · exact Or.inr (Nat.le_of_eq hr.symm)
    · exact Or.inl hr
  · show (⟨_⟩ : Dict α (Dict α V)) = _
    simp only [newRow, upd_self, Dict.set, Heap.nested]
    congr 1
    have h1 := mapd_aset (upd h.row h.next x) k h.next (h.out A).items
    have h2 := mapd_upd_of_not_mem (f := h.row) (x := x) (l := (h.out A).items) hfA
    simp only [mapd] at h1 h2
    rw [h1, h2, upd_self]

/-- removing a key of `A` -/
theorem eff1_delKey {h : Heap α V O} {A : Nat} (p : One h A) (k : α) :
    Eff1 h A (delKey h A k) ((h.nested A).del k) := by
  have hA : (delKey h A k).out A = (h.out A).del k := upd_self _ _ _
  have hs : ((h.out A).del k).values.Sublist (h.out A).values := values_adel_sublist _ _
  refine ⟨?_, ?_, rfl, rfl, rfl, Nat.le_refl _, fun a h1 => upd_ne _ _ h1, fun _ _ _ => rfl, ?_, ?_⟩
  · rw [hA]; exact p.nodup.sublist hs
  · rw [hA]; exact fun r hr => p.lt r (hs.subset hr)
  · rw [hA]; exact fun r hr => Or.inl (hs.subset hr)
  · unfold Heap.nested Dict.del
    rw [hA]
    congr 1
    exact mapd_adel _ _ _

theorem eff_updRow {h : Heap α V O} {A B : Nat} (p : PairOK h A B) {k : α} {r : Nat}
    (hk : (h.out A).get? k = some r) (x : Dict α V) :
    Eff h A B { h with row := upd h.row r x } ((h.nested A).set k x) :=
  (eff1_updRow p.one hk x).pair p

theorem eff_newRow {h : Heap α V O} {A B : Nat} (p : PairOK h A B) (k : α) (x : Dict α V) :
    Eff h A B (newRow h A k x) ((h.nested A).set k x) := (eff1_newRow p.one k x).pair p

theorem eff_delKey {h : Heap α V O} {A B : Nat} (p : PairOK h A B) (k : α) :
    Eff h A B (delKey h A k) ((h.nested A).del k) := (eff1_delKey p.one k).pair p

/-! ### one graph object -/

/-- the rows an object refers to -/
def own (h : Heap α V O) (o : Ref) : List Nat := (h.out o.edges).values ++ (h.out o.rev).values

/-- nothing inside the object is shared -/
structure OK (h : Heap α V O) (o : Ref) : Prop where
  pair : PairOK h o.edges o.rev
  degs : o.inDeg ≠ o.outDeg
  self : o.self < h.next
  nodes : o.nodes < h.next
  edges : o.edges < h.next
  rev : o.rev < h.next
  inDeg : o.inDeg < h.next
  outDeg : o.outDeg < h.next

/-- `h'` differs from `h` only in what `o` owns and in new memory -/
structure Local (o : Ref) (h h' : Heap α V O) : Prop where
  next : h.next ≤ h'.next
  nds : ∀ a, a ≠ o.nodes → h'.nds a = h.nds a
  out : ∀ a, a ≠ o.edges → a ≠ o.rev → h'.out a = h.out a
  row : ∀ r, r < h.next → r ∉ own h o → h'.row r = h.row r
  deg : ∀ a, a ≠ o.inDeg → a ≠ o.outDeg → h'.deg a = h.deg a
  cnt : ∀ a, a ≠ o.self → h'.cnt a = h.cnt a
  own : ∀ r ∈ own h' o, r ∈ own h o ∨ h.next ≤ r

structure St (o : Ref) (h h' : Heap α V O) (g : Graph α V O) : Prop where
  ok : OK h' o
  loc : Local o h h'
  val : h'.view o = g

omit [DecidableEq α] in
theorem Local.refl (o : Ref) (h : Heap α V O) : Local o h h :=
  ⟨Nat.le_refl _, fun _ _ => rfl, fun _ _ _ => rfl, fun _ _ _ => rfl, fun _ _ _ => rfl,
   fun _ _ => rfl, fun _ h => Or.inl h⟩

omit [DecidableEq α] in
theorem Local.trans {o : Ref} {h h1 h2 : Heap α V O} (a : Local o h h1) (b : Local o h1 h2) :
    Local o h h2 where
  next := Nat.le_trans a.next b.next
  nds x hx := (b.nds x hx).trans (a.nds x hx)
  out x h1 h2 := (b.out x h1 h2).trans (a.out x h1 h2)
  row r hr hn := by
    rw [b.row r (Nat.lt_of_lt_of_le hr a.next) ?_, a.row r hr hn]
    intro h'
    rcases a.own r h' with h' | h'
    · exact hn h'
    · exact absurd hr (Nat.not_lt.2 h')
  deg x h1 h2 := (b.deg x h1 h2).trans (a.deg x h1 h2)
  cnt x hx := (b.cnt x hx).trans (a.cnt x hx)
  own r hr := by
    rcases b.own r hr with h' | h'
    · exact a.own r h'
    · exact Or.inr (Nat.le_trans a.next h')

omit [DecidableEq α] in
theorem St.trans {o : Ref} {h h1 h2 : Heap α V O} {g1 g2 : Graph α V O} (a : St o h h1 g1)
    (b : St o h1 h2 g2) : St o h h2 g2 := ⟨b.ok, a.loc.trans b.loc, b.val⟩

omit [DecidableEq α] in
theorem St.refl {o : Ref} {h : Heap α V O} (k : OK h o) : St o h h (h.view o) :=
  ⟨k, Local.refl _ _, rfl⟩

omit [DecidableEq α] in
theorem st_pair {o : Ref} {h h' : Heap α V O} (k : OK h o) (p : PairOK h' o.edges o.rev)
    (l : PairLocal h o.edges o.rev h') {g : Graph α V O}
    (hg : g = { h.view o with edges := h'.nested o.edges, rev := h'.nested o.rev }) :
    St o h h' g where
  ok := ⟨p, k.degs, Nat.lt_of_lt_of_le k.self l.next, Nat.lt_of_lt_of_le k.nodes l.next,
    Nat.lt_of_lt_of_le k.edges l.next, Nat.lt_of_lt_of_le k.rev l.next,
    Nat.lt_of_lt_of_le k.inDeg l.next, Nat.lt_of_lt_of_le k.outDeg l.next⟩
  loc := ⟨l.next, fun a _ => by rw [l.nds], l.out, l.row, fun a _ _ => by rw [l.deg],
    fun a _ => by rw [l.cnt], l.own⟩
  val := by
    subst hg
    simp only [Heap.view, l.nds, l.cnt, l.deg]

omit [DecidableEq α] in
theorem Eff.edges {o : Ref} {h h' : Heap α V O} {d : Dict α (Dict α V)} (k : OK h o)
    (e : Eff h o.edges o.rev h' d) : St o h h' { h.view o with edges := d } :=
  st_pair k e.ok e.loc (by rw [e.here, e.there]; rfl)

omit [DecidableEq α] in
theorem Eff.rev {o : Ref} {h h' : Heap α V O} {d : Dict α (Dict α V)} (k : OK h o)
    (e : Eff h o.rev o.edges h' d) : St o h h' { h.view o with rev := d } :=
  st_pair k e.ok.symm e.loc.symm (by rw [e.here, e.there]; rfl)

omit [DecidableEq α] in
theorem st_setNds {o : Ref} {h : Heap α V O} (k : OK h o) (d : Dict α (Option O)) :
    St o h (setNds h o d) { h.view o with nodes := d } :=
  ⟨⟨⟨k.pair.ne, k.pair.nodup, k.pair.lt⟩, k.degs, k.self, k.nodes, k.edges, k.rev, k.inDeg, k.outDeg⟩,
   ⟨Nat.le_refl _, fun a ha => upd_ne _ _ ha, fun _ _ _ => rfl, fun _ _ _ => rfl, fun _ _ _ => rfl,
    fun _ _ => rfl, fun _ h => Or.inl h⟩,
   by simp only [Heap.view, setNds, upd_self]; rfl⟩

omit [DecidableEq α] in
theorem st_setIn {o : Ref} {h : Heap α V O} (k : OK h o) (d : Dict α Int) :
    St o h (setIn h o d) { h.view o with inDeg := d } :=
  ⟨⟨⟨k.pair.ne, k.pair.nodup, k.pair.lt⟩, k.degs, k.self, k.nodes, k.edges, k.rev, k.inDeg, k.outDeg⟩,
   ⟨Nat.le_refl _, fun _ _ => rfl, fun _ _ _ => rfl, fun _ _ _ => rfl, fun a ha _ => upd_ne _ _ ha,
    fun _ _ => rfl, fun _ h => Or.inl h⟩,
   by simp only [Heap.view, setIn, upd_self, upd_ne _ _ k.degs.symm]; rfl⟩

omit [DecidableEq α] in
theorem st_setOut {o : Ref} {h : Heap α V O} (k : OK h o) (d : Dict α Int) :
    St o h (setOut h o d) { h.view o with outDeg := d } :=
  ⟨⟨⟨k.pair.ne, k.pair.nodup, k.pair.lt⟩, k.degs, k.self, k.nodes, k.edges, k.rev, k.inDeg, k.outDeg⟩,
   ⟨Nat.le_refl _, fun _ _ => rfl, fun _ _ _ => rfl, fun _ _ _ => rfl, fun a _ ha => upd_ne _ _ ha,
    fun _ _ => rfl, fun _ h => Or.inl h⟩,
   by simp only [Heap.view, setOut, upd_self, upd_ne _ _ k.degs]; rfl⟩

omit [DecidableEq α] in
theorem st_setCnt {o : Ref} {h : Heap α V O} (k : OK h o) (c : Int) :
    St o h (setCnt h o c) { h.view o with edgeCount := c } :=
  ⟨⟨⟨k.pair.ne, k.pair.nodup, k.pair.lt⟩, k.degs, k.self, k.nodes, k.edges, k.rev, k.inDeg, k.outDeg⟩,
   ⟨Nat.le_refl _, fun _ _ => rfl, fun _ _ _ => rfl, fun _ _ _ => rfl, fun _ _ _ => rfl,
    fun a ha => upd_ne _ _ ha, fun _ h => Or.inl h⟩,
   by simp only [Heap.view, setCnt, upd_self]; rfl⟩

/-! ### the methods -/

theorem st_addNode {o : Ref} {h : Heap α V O} (k : OK h o) (n : α) (obj : Option O) :
    St o h (addNode h o n obj) ((h.view o).addNode n obj) := by
  unfold addNode Graph.addNode
  have e : (h.view o).nodes = h.nds o.nodes := rfl
  rw [e]
  split
  · exact st_setNds k _
  · have s1 := st_setNds k ((h.nds o.nodes).set n obj)
    have s2 := st_setIn s1.ok (((setNds h o ((h.nds o.nodes).set n obj)).deg o.inDeg).set n 0)
    have s3 := st_setOut s2.ok (((setIn (setNds h o ((h.nds o.nodes).set n obj)) o
      (((setNds h o ((h.nds o.nodes).set n obj)).deg o.inDeg).set n 0)).deg o.outDeg).set n 0)
    have s := (s1.trans s2).trans s3
    refine ⟨s.ok, s.loc, ?_⟩
    have v := s.val
    simp only at v ⊢
    rw [v, s2.val, s1.val]
    simp only [Heap.view, setNds, setIn, upd_ne _ _ k.degs.symm]

theorem st_ensureNode {o : Ref} {h : Heap α V O} (k : OK h o) (n : α) :
    St o h (ensureNode h o n) ((h.view o).ensureNode n) := by
  unfold ensureNode Graph.ensureNode
  have e : (h.view o).nodes = h.nds o.nodes := rfl
  rw [e]
  split
  · exact St.refl k
  · exact st_addNode k n none

omit [DecidableEq α] in
theorem view_proj (h : Heap α V O) (o : Ref) {g : Graph α V O} (e : h.view o = g) :
    h.nds o.nodes = g.nodes ∧ h.deg o.inDeg = g.inDeg ∧ h.deg o.outDeg = g.outDeg ∧
    h.cnt o.self = g.edgeCount ∧ h.nested o.edges = g.edges ∧ h.nested o.rev = g.rev := by
  subst e; exact ⟨rfl, rfl, rfl, rfl, rfl, rfl⟩

theorem st_bump {o : Ref} {h : Heap α V O} (k : OK h o) (a b : α) (x : Int) :
    St o h (bump h o a b x) { h.view o with
      outDeg := Graph.ddAdd (h.view o).outDeg a x
      inDeg := Graph.ddAdd (h.view o).inDeg b x
      edgeCount := (h.view o).edgeCount + x } := by
  unfold bump
  have s1 := st_setOut k (Graph.ddAdd (h.deg o.outDeg) a x)
  have s2 := st_setIn s1.ok (Graph.ddAdd ((setOut h o (Graph.ddAdd (h.deg o.outDeg) a x)).deg o.inDeg) b x)
  have s3 := st_setCnt s2.ok ((setIn (setOut h o (Graph.ddAdd (h.deg o.outDeg) a x)) o
    (Graph.ddAdd ((setOut h o (Graph.ddAdd (h.deg o.outDeg) a x)).deg o.inDeg) b x)).cnt o.self + x)
  have s := (s1.trans s2).trans s3
  refine ⟨s.ok, s.loc, ?_⟩
  have v := s.val
  simp only at v ⊢
  rw [v, s2.val, s1.val, (view_proj _ _ s2.val).2.2.2.1, (view_proj _ _ s1.val).2.1, s1.val]
  rfl

theorem eff_putInRow {h : Heap α V O} {A B : Nat} (p : PairOK h A B) (k b : α) (v : V) :
    ∃ h', putInRow h A k b v = .ok h' ∧
      Eff h A B h' ((h.nested A).set k ((((h.nested A).get? k).getD .empty).set b v)) := by
  unfold putInRow
  cases hk : (h.out A).get? k with
  | none =>
    refine ⟨_, rfl, ?_⟩
    rw [nested_get?, hk]
    exact eff_newRow p k _
  | some r =>
    refine ⟨_, by simp only [setInRow, hk]; rfl, ?_⟩
    rw [nested_get?, hk]
    exact eff_updRow p hk _

theorem eff_setInRow {h : Heap α V O} {A B : Nat} (p : PairOK h A B) {k : α} (b : α) (v : V)
    {d : Dict α V} (hd : (h.nested A).get? k = some d) :
    ∃ h', setInRow h A k b v = .ok h' ∧ Eff h A B h' ((h.nested A).set k (d.set b v)) := by
  rw [nested_get?] at hd
  cases hk : (h.out A).get? k with
  | none => rw [hk] at hd; cases hd
  | some r =>
    rw [hk] at hd
    simp only [Option.map_some, Option.some.injEq] at hd
    refine ⟨_, by simp only [setInRow, hk]; rfl, ?_⟩
    rw [← hd]
    exact eff_updRow p hk _

/-- `del d[k][b]` for an entry that is there -/
theorem eff_delInRow {h : Heap α V O} {A B : Nat} (p : PairOK h A B) {k b : α}
    {d : Dict α V} (hd : (h.nested A).get? k = some d) (hb : d.contains b = true) :
    ∃ h', delInRow h A k b = .ok h' ∧ Eff h A B h' ((h.nested A).set k (d.del b)) := by
  rw [nested_get?] at hd
  cases hk : (h.out A).get? k with
  | none => rw [hk] at hd; cases hd
  | some r =>
    rw [hk] at hd
    simp only [Option.map_some, Option.some.injEq] at hd
    refine ⟨_, by simp only [delInRow, hk, hd, hb, if_true]; rfl, ?_⟩
    exact eff_updRow p hk _

theorem delInRow_error {h : Heap α V O} {A : Nat} {k b : α}
    (hd : ((h.nested A).get? k).bind (fun d => d.get? b) = none) :
    delInRow h A k b = .error .keyError := by
  rw [nested_get?] at hd
  unfold delInRow
  cases hk : (h.out A).get? k with
  | none => rfl
  | some r =>
    rw [hk] at hd
    simp only [Option.map_some, Option.bind_some] at hd
    simp [Dict.contains, hd]

theorem eff_dropIfEmpty {h : Heap α V O} {A B : Nat} (p : PairOK h A B) {k : α}
    {d : Dict α V} (hd : (h.nested A).get? k = some d) :
    ∃ h', dropIfEmpty h A k = .ok h' ∧
      Eff h A B h' (if d.isEmpty then (h.nested A).del k else h.nested A) := by
  rw [nested_get?] at hd
  cases hk : (h.out A).get? k with
  | none => rw [hk] at hd; cases hd
  | some r =>
    rw [hk] at hd
    simp only [Option.map_some, Option.some.injEq] at hd
    simp only [dropIfEmpty, hk, hd]
    split
    · exact ⟨_, rfl, eff_delKey p k⟩
    · exact ⟨_, rfl, p, ⟨rfl, rfl, rfl, Nat.le_refl _, fun _ _ _ => rfl, fun _ _ _ => rfl,
        fun _ h => Or.inl h⟩, rfl, rfl⟩

theorem st_addEdge1 {o : Ref} {h : Heap α V O} (k : OK h o) (hi : (h.view o).Inv) (a b : α) (v : V) :
    ∃ h', addEdge1 h o a b v = .ok h' ∧ St o h h' ((h.view o).addEdge a b v) := by
  have s0 := (st_ensureNode k a).trans (st_ensureNode (st_ensureNode k a).ok b)
  rw [(st_ensureNode k a).val] at s0
  have hi' : (((h.view o).ensureNode a).ensureNode b).Inv := (hi.ensureNode a).ensureNode b
  unfold addEdge1 Graph.addEdge
  revert s0 hi'
  generalize ensureNode (ensureNode h o a) o b = h0
  generalize ((h.view o).ensureNode a).ensureNode b = g0
  intro s0 hi'
  simp only
  have hv := s0.val
  have hsym := hi'.sym a b
  unfold Graph.edge Graph.reverseEdge at hsym
  unfold Graph.edge
  have hE : h0.nested o.edges = g0.edges := (view_proj _ _ hv).2.2.2.2.1
  have hR : h0.nested o.rev = g0.rev := (view_proj _ _ hv).2.2.2.2.2
  have hupd : hasInRow h0 o.edges a b = ((g0.edges.get? a).bind (fun d => d.get? b)).isSome := by
    rw [← hE, nested_get?]
    unfold hasInRow
    cases (h0.out o.edges).get? a <;> rfl
  rw [hupd]
  by_cases hc : ((g0.edges.get? a).bind (fun d => d.get? b)).isSome = true
  · simp only [hc, if_true]
    cases he : g0.edges.get? a with
    | none => rw [he] at hc; cases hc
    | some d =>
      cases hr : g0.rev.get? b with
      | none => rw [hr] at hsym; rw [hsym] at hc; cases hc
      | some c =>
        obtain ⟨h1, e1, f1⟩ := eff_setInRow s0.ok.pair b v (hE ▸ he)
        have t1 := f1.edges s0.ok
        have hR1 : h1.nested o.rev = g0.rev := f1.there.trans hR
        obtain ⟨h2, e2, f2⟩ := eff_setInRow t1.ok.pair.symm a v (hR1 ▸ hr)
        have t2 := f2.rev t1.ok
        refine ⟨h2, by rw [e1]; exact e2, ?_⟩
        have s := (s0.trans t1).trans t2
        refine ⟨s.ok, s.loc, ?_⟩
        rw [s.val, t1.val, hv, hE, hR1]
        rfl
  · simp only [hc]
    obtain ⟨h1, e1, f1⟩ := eff_putInRow s0.ok.pair a b v
    have t1 := f1.edges s0.ok
    obtain ⟨h2, e2, f2⟩ := eff_putInRow t1.ok.pair.symm b a v
    have t2 := f2.rev t1.ok
    have t3 := st_bump t2.ok a b 1
    refine ⟨_, by rw [e1]; simp only [e2]; rfl, ?_⟩
    have s := ((s0.trans t1).trans t2).trans t3
    refine ⟨s.ok, s.loc, ?_⟩
    rw [s.val, t2.val, t1.val, hv, hE, f1.there, hR]
    rfl

theorem st_delEdge {o : Ref} {h : Heap α V O} (k : OK h o) (hi : (h.view o).Inv) (a b : α) :
    ∃ h', delEdge h o a b = .ok h' ∧ St o h h' ((h.view o).delEdge a b) := by
  unfold delEdge Graph.delEdge
  have hsym := hi.sym a b
  have hE : h.nested o.edges = (h.view o).edges := rfl
  have hR : h.nested o.rev = (h.view o).rev := rfl
  by_cases hc : ((h.view o).edge a b).isSome = true
  · simp only [hc, if_true]
    unfold Graph.edge at hc hsym
    unfold Graph.reverseEdge at hsym
    cases he : (h.view o).edges.get? a with
    | none => rw [he] at hc; cases hc
    | some d =>
      cases hr : (h.view o).rev.get? b with
      | none => rw [hr] at hsym; rw [hsym] at hc; cases hc
      | some c =>
        have hd : d.contains b = true := by rw [he] at hc; exact hc
        have hcc : c.contains a = true := by
          rw [hsym, hr] at hc; exact hc
        obtain ⟨h1, e1, f1⟩ := eff_delInRow k.pair he hd
        have t1 := f1.edges k
        have g1 : (h1.nested o.edges).get? a = some (d.del b) := by
          rw [f1.here]; exact Dict.get?_set_self _ _ _
        obtain ⟨h2, e2, f2⟩ := eff_dropIfEmpty t1.ok.pair g1
        have t2 := f2.edges t1.ok
        have hR2 : h2.nested o.rev = (h.view o).rev := f2.there.trans (f1.there.trans hR)
        obtain ⟨h3, e3, f3⟩ := eff_delInRow t2.ok.pair.symm (hR2 ▸ hr) hcc
        have t3 := f3.rev t2.ok
        have g3 : (h3.nested o.rev).get? b = some (c.del a) := by
          rw [f3.here]; exact Dict.get?_set_self _ _ _
        obtain ⟨h4, e4, f4⟩ := eff_dropIfEmpty t3.ok.pair.symm g3
        have t4 := f4.rev t3.ok
        have t5 := st_bump t4.ok a b (-1)
        refine ⟨_, by rw [e1]; simp only [e2]; simp only [e3]; simp only [e4]; rfl, ?_⟩
        have s := (((t1.trans t2).trans t3).trans t4).trans t5
        refine ⟨s.ok, s.loc, ?_⟩
        rw [s.val, t4.val, t3.val, t2.val, t1.val, f1.here, f3.here, hR2]
        rfl
  · simp only [hc]
    have : delInRow h o.edges a b = .error .keyError := by
      apply delInRow_error
      show (h.view o).edge a b = none
      simpa using hc
    rw [this]
    exact ⟨h, rfl, St.refl k⟩

theorem st_forE {β : Type} {o : Ref} (l : List β) {f : Heap α V O → β → Py (Heap α V O)}
    {g : Graph α V O → β → Graph α V O} (P : Heap α V O → Prop)
    (hP : ∀ h h', P h → Local o h h' → OK h' o → P h')
    (hf : ∀ h x, P h → x ∈ l → OK h o → (h.view o).Inv →
      ∃ h', f h x = .ok h' ∧ St o h h' (g (h.view o) x))
    (hg : ∀ k x, x ∈ l → k.Inv → (g k x).Inv)
    {h : Heap α V O} (p : P h) (k : OK h o) (hi : (h.view o).Inv) :
    ∃ h', Graph.forE l h f = .ok h' ∧ St o h h' (l.foldl g (h.view o)) := by
  induction l generalizing h with
  | nil => exact ⟨h, rfl, St.refl k⟩
  | cons x l ih =>
    obtain ⟨h1, e1, s1⟩ := hf h x p (by simp) k hi
    obtain ⟨h2, e2, s2⟩ := ih (fun h x p hx => hf h x p (List.mem_cons_of_mem _ hx))
      (fun k x hx => hg k x (List.mem_cons_of_mem _ hx)) (hP h h1 p s1.loc s1.ok) s1.ok
      (by rw [s1.val]; exact hg _ x (by simp) hi)
    refine ⟨h2, by simp only [Graph.forE, e1]; exact e2, ?_⟩
    have := s1.trans s2
    rw [s1.val] at this
    exact this

theorem st_delOut {o : Ref} {h : Heap α V O} (k : OK h o) (hi : (h.view o).Inv) {n : α}
    (hn : n ∈ (h.view o).nodes.keys) :
    ∃ h', delOut h o n = .ok h' ∧
      St o h h' (((h.view o).nodesFrom n).foldl (fun g n2 => g.delEdge n n2) (h.view o)) := by
  unfold delOut
  have hread : Graph.ddRead (h.deg o.outDeg) n
      = ((((h.view o).nodesFrom n).length : Int), h.deg o.outDeg) := by
    unfold Graph.ddRead
    have := hi.outD n hn
    rw [show (h.view o).outDeg = h.deg o.outDeg from rfl] at this
    rw [this]
  rw [hread]
  simp only
  have s0 := st_setOut k (h.deg o.outDeg)
  have v0 : (setOut h o (h.deg o.outDeg)).view o = h.view o := s0.val
  have hrow : ((setOut h o (h.deg o.outDeg)).out o.edges).get? n = (h.out o.edges).get? n := rfl
  split
  · rename_i hc
    rw [hrow]
    cases hk : (h.out o.edges).get? n with
    | none =>
      exfalso; apply hc
      have : (h.view o).edges.get? n = none := by
        show (h.nested o.edges).get? n = none
        rw [nested_get?, hk]; rfl
      simp [Graph.nodesFrom, this]
    | some r =>
      simp only
      have hnf : (h.view o).nodesFrom n = (h.row r).keys := by
        have : (h.view o).edges.get? n = some (h.row r) := by
          show (h.nested o.edges).get? n = _
          rw [nested_get?, hk]; rfl
        simp [Graph.nodesFrom, this]
      rw [hnf]
      obtain ⟨h', e', s'⟩ := st_forE (o := o) (f := fun h n2 => delEdge h o n n2)
        (g := fun g n2 => g.delEdge n n2) (h.row r).keys (fun _ => True) (fun _ _ _ _ _ => trivial)
        (fun h x _ _ k hi => st_delEdge k hi n x) (fun k x _ hk => hk.delEdge n x) trivial s0.ok
        (by rw [v0]; exact hi)
      refine ⟨h', e', ?_⟩
      have := s0.trans s'
      rw [v0] at this
      exact this
  · rename_i hz
    have : (h.view o).nodesFrom n = [] := by simpa using hz
    rw [this]
    exact ⟨_, rfl, ⟨s0.ok, s0.loc, v0⟩⟩

theorem st_delIn {o : Ref} {h : Heap α V O} (k : OK h o) (hi : (h.view o).Inv) {n : α}
    (hn : n ∈ (h.view o).nodes.keys) :
    ∃ h', delIn h o n = .ok h' ∧
      St o h h' (((h.view o).nodesTo n).foldl (fun g n1 => g.delEdge n1 n) (h.view o)) := by
  unfold delIn
  have hread : Graph.ddRead (h.deg o.inDeg) n
      = ((((h.view o).nodesTo n).length : Int), h.deg o.inDeg) := by
    unfold Graph.ddRead
    have := hi.inD n hn
    rw [show (h.view o).inDeg = h.deg o.inDeg from rfl] at this
    rw [this]
  rw [hread]
  simp only
  have s0 := st_setIn k (h.deg o.inDeg)
  have v0 : (setIn h o (h.deg o.inDeg)).view o = h.view o := s0.val
  have hrow : ((setIn h o (h.deg o.inDeg)).out o.rev).get? n = (h.out o.rev).get? n := rfl
  split
  · rename_i hc
    rw [hrow]
    cases hk : (h.out o.rev).get? n with
    | none =>
      exfalso; apply hc
      have : (h.view o).rev.get? n = none := by
        show (h.nested o.rev).get? n = none
        rw [nested_get?, hk]; rfl
      simp [Graph.nodesTo, this]
    | some r =>
      simp only
      have hnf : (h.view o).nodesTo n = (h.row r).keys := by
        have : (h.view o).rev.get? n = some (h.row r) := by
          show (h.nested o.rev).get? n = _
          rw [nested_get?, hk]; rfl
        simp [Graph.nodesTo, this]
      rw [hnf]
      obtain ⟨h', e', s'⟩ := st_forE (o := o) (f := fun h n1 => delEdge h o n1 n)
        (g := fun g n1 => g.delEdge n1 n) (h.row r).keys (fun _ => True) (fun _ _ _ _ _ => trivial)
        (fun h x _ _ k hi => st_delEdge k hi x n) (fun k x _ hk => hk.delEdge x n) trivial s0.ok
        (by rw [v0]; exact hi)
      refine ⟨h', e', ?_⟩
      have := s0.trans s'
      rw [v0] at this
      exact this
  · rename_i hz
    have : (h.view o).nodesTo n = [] := by simpa using hz
    rw [this]
    exact ⟨_, rfl, ⟨s0.ok, s0.loc, v0⟩⟩

theorem st_delNode {o : Ref} {h : Heap α V O} (k : OK h o) (hi : (h.view o).Inv) (n : α) :
    ∃ h', delNode h o n = .ok h' ∧ St o h h' ((h.view o).delNode n) := by
  unfold delNode Graph.delNode
  rw [show (h.view o).nodes = h.nds o.nodes from rfl]
  by_cases hc : (h.nds o.nodes).contains n = true
  · have hn : n ∈ (h.view o).nodes.keys := (Dict.contains_iff_keys _ _).1 hc
    simp only [hc, if_true, Bool.not_true, Bool.false_eq_true, if_false]
    obtain ⟨h1, e1, s1⟩ := st_delOut k hi hn
    obtain ⟨i1, n1, _⟩ := Graph.delEdges_from hi n ((h.view o).nodesFrom n)
    rw [← s1.val] at i1 n1
    obtain ⟨h2, e2, s2⟩ := st_delIn s1.ok i1 (by rw [n1]; exact hn)
    rw [s1.val] at s2
    have t1 := (eff_delKey s2.ok.pair n).edges s2.ok
    have t2 := (eff_delKey t1.ok.pair.symm n).rev t1.ok
    have t3 := st_setNds t2.ok (((delKey (delKey h2 o.edges n) o.rev n).nds o.nodes).del n)
    have t4 := st_setIn t3.ok ((((setNds (delKey (delKey h2 o.edges n) o.rev n) o
      (((delKey (delKey h2 o.edges n) o.rev n).nds o.nodes).del n))).deg o.inDeg).del n)
    have t5 := st_setOut t4.ok ((((setIn (setNds (delKey (delKey h2 o.edges n) o.rev n) o
      (((delKey (delKey h2 o.edges n) o.rev n).nds o.nodes).del n)) o
      ((((setNds (delKey (delKey h2 o.edges n) o.rev n) o
      (((delKey (delKey h2 o.edges n) o.rev n).nds o.nodes).del n))).deg o.inDeg).del n)).deg o.outDeg).del n))
    refine ⟨_, by rw [e1]; simp only [e2]; rfl, ?_⟩
    have s := ((((((s1.trans s2).trans t1).trans t2).trans t3).trans t4).trans t5)
    refine ⟨s.ok, s.loc, ?_⟩
    have v := s.val
    simp only at v ⊢
    rw [v, t4.val, t3.val, t2.val, t1.val]
    have p2 := view_proj _ _ s2.val
    have p4 := view_proj _ _ t4.val
    have p3 := view_proj _ _ t3.val
    rw [p4.2.2.1, p3.2.1, t2.val, t1.val, s2.val]
    simp only [Graph.dropNode]
    have q1 : (delKey (delKey h2 o.edges n) o.rev n).nds o.nodes = h2.nds o.nodes := rfl
    have q2 : (delKey h2 o.edges n).nested o.rev = h2.nested o.rev :=
      (eff_delKey s2.ok.pair n).there
    rw [q1, q2, p2.1, p2.2.2.2.2.1, p2.2.2.2.2.2,
      show ∀ d, ((setNds (delKey (delKey h2 o.edges n) o.rev n) o d).view o).outDeg = h2.deg o.outDeg
        from fun _ => rfl, p2.2.2.1]
  · simp only [hc]
    exact ⟨h, rfl, St.refl k⟩

/-- a public operation on an object: the effect on the object, and nothing else -/
theorem st_opStep {o : Ref} {h : Heap α V O} (k : OK h o) (hi : (h.view o).Inv) (op : Op α V O) :
    (∃ h', opStep h o op = .ok h' ∧ St o h h' ((h.view o).stepE op).1 ∧
      ((h.view o).stepE op).2 = none) ∨
    (∃ e, opStep h o op = .error e ∧ ((h.view o).stepE op) = (h.view o, some e)) := by
  cases op with
  | addNode n obj => exact Or.inl ⟨_, rfl, st_addNode k n obj, rfl⟩
  | addEdge a b v bi =>
    cases v with
    | container => exact Or.inr ⟨_, rfl, rfl⟩
    | scalar v =>
      left
      obtain ⟨h1, e1, s1⟩ := st_addEdge1 k hi a b v
      have hi1 := hi.addEdge a b v
      simp only [opStep, addEdge, e1, Graph.stepE, Graph.addEdgeE, Graph.addEdge1E_eq hi, bind,
        Except.bind]
      cases bi with
      | false => exact ⟨h1, rfl, s1, rfl⟩
      | true =>
        rw [← s1.val] at hi1
        obtain ⟨h2, e2, s2⟩ := st_addEdge1 s1.ok hi1 b a v
        simp only [if_true]
        rw [s1.val] at hi1
        rw [Graph.addEdge1E_eq hi1]
        have := s1.trans s2
        rw [s1.val] at this
        exact ⟨h2, e2, this, rfl⟩
  | delEdge a b =>
    left
    obtain ⟨h1, e1, s1⟩ := st_delEdge k hi a b
    simp only [opStep, Graph.stepE, Graph.delEdgeE_eq hi]
    exact ⟨h1, e1, s1, trivial⟩
  | delNode n =>
    left
    obtain ⟨h1, e1, s1⟩ := st_delNode k hi n
    simp only [opStep, Graph.stepE, Graph.delNodeE_eq hi]
    exact ⟨h1, e1, s1, trivial⟩
  | inDegree n => exact Or.inl ⟨_, rfl, st_setIn k _, rfl⟩
  | outDegree n => exact Or.inl ⟨_, rfl, st_setOut k _, rfl⟩

end Mem
end GT

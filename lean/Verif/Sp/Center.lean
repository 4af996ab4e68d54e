import Verif.Sp.Apsp
/-
Models of `minmax` (graph/minmax.py:4-12), `minsum` (graph/minsum.py:4-12) and `shortest_tree_all_pairs`
(graph/shortest_tree_all_pairs.py:5-43).
-/
namespace GT
variable {α V O : Type} [DecidableEq α]
open Graph

/-! ### model -/

/-- `max(l)` -/
def extMax : List Ext → Py Ext
  | [] => .error .valueError
  | x :: l => .ok (l.foldl (fun m y => if y.gt m then y else m) x)

/-- `min(l)` -/
def extMin : List Ext → Py Ext
  | [] => .error .valueError
  | x :: l => .ok (l.foldl (fun m y => if m.gt y then y else m) x)

/-- `sum(l)`: starts with 0 and adds from the left -/
def extSum (l : List Ext) : Ext := l.foldl Ext.add (.fin 0)

/-- `for n in m: m[n] = agg(m[n].values())` -/
def aggRows (agg : List Ext → Py Ext) : List (α × Dict α Ext) → Py (List (α × Ext))
  | [] => .ok []
  | (n, r) :: l => match agg r.values with
    | .error e => .error e
    | .ok v => match aggRows agg l with
      | .error e => .error e
      | .ok rest => .ok ((n, v) :: rest)

/-- `smallest = min(m.values()); [k for k, v in m.items() if v == smallest]` -/
def argMins (rows : List (α × Ext)) : Py (List α) :=
  match extMin (rows.map Prod.snd) with
  | .error e => .error e
  | .ok s => .ok ((rows.filter (fun p => decide (p.2 = s))).map Prod.fst)

/-- `minmax(graph)` (minmax.py:4-12) -/
def Graph.minmax (g : Graph α Rat O) : Py (List α) :=
  match aggRows extMax g.allPairs.items with
  | .error e => .error e
  | .ok rows => argMins rows

/-- `minsum(graph)` (minsum.py:4-12) -/
def Graph.minsum (g : Graph α Rat O) : Py (List α) :=
  match aggRows (fun l => .ok (extSum l)) g.allPairs.items with
  | .error e => .error e
  | .ok rows => argMins rows

/-- the choice of `best_starting_point` (shortest_tree_all_pairs.py:17-25); `distance` stays `inf` -/
def bestStart (m1 : α) (m : Dict α (Dict α Ext)) : α :=
  m.items.foldl (fun best p => if Ext.gt .inf (extSum p.2.values) then p.1 else best) m1

/-- `inv_g2` (shortest_tree_all_pairs.py:28-32) -/
def invert (row : Dict α Ext) : Dict Ext (List α) :=
  row.items.foldl (fun d p => d.set p.2 (sadd ((d.get? p.2).getD []) p.1)) Dict.empty

/-- `for v in nodes: all_nodes.remove(v); path.append(v)` -/
def takeAll : List α → List α × List α → Py (List α × List α)
  | [], s => .ok s
  | v :: l, (all, path) => if v ∈ all then takeAll l (all.filter (fun x => !decide (x = v)), path ++ [v]) else .error .keyError

/-- one iteration of `while all_nodes and inv_g2.keys()` (shortest_tree_all_pairs.py:37-42); `ord k s` is the
iteration order of the set `s` -/
def treeStep (ord : List α → List α) : List α × Dict Ext (List α) × List α →
    (List α × Dict Ext (List α) × List α) ⊕ Py (List α)
  | (all, inv, path) =>
    if all = [] ∨ inv.keys = [] then .inr (.ok path)
    else match extMin inv.keys with
      | .error e => .inr (.error e)
      | .ok k => match takeAll (ord ((inv.get? k).getD [])) (all, path) with
        | .error e => .inr (.error e)
        | .ok (all, path) => .inl (all, inv.del k, path)

/-- `shortest_tree_all_pairs(graph)` (shortest_tree_all_pairs.py:5-43).  `m1` is the object `-1`. -/
def Graph.shortestTree (m1 : α) (ord : List α → List α) (g : Graph α Rat O) : Option (Py (List α)) :=
  match g.allPairs.get? (bestStart m1 g.allPairs) with
  | none => some (.error .keyError)
  | some row => pyWhile (treeStep ord) (g.allPairs.keys, invert row, [])

/-! ### extrema -/

theorem foldMax_spec (l : List Ext) : ∀ x : Ext,
    (l.foldl (fun m y => if y.gt m then y else m) x) ∈ x :: l ∧
    ∀ y ∈ x :: l, y.le (l.foldl (fun m y => if y.gt m then y else m) x) := by
  induction l with
  | nil => intro x; simp [Ext.le_refl]
  | cons a l ih =>
    intro x
    rw [List.foldl_cons]
    obtain ⟨h1, h2⟩ := ih (if a.gt x then a else x)
    have hx : x.le (if a.gt x then a else x) ∧ a.le (if a.gt x then a else x) := by
      split
      · rename_i h; rw [Ext.gt_iff] at h; exact ⟨Ext.le_of_not_le h, Ext.le_refl a⟩
      · rename_i h; rw [Ext.gt_iff] at h; exact ⟨Ext.le_refl x, Classical.not_not.1 h⟩
    constructor
    · rcases List.mem_cons.1 h1 with h | h
      · rw [h]; split <;> simp
      · simp [h]
    · intro y hy
      have h3 := h2 _ (List.mem_cons_self ..)
      rcases List.mem_cons.1 hy with rfl | hy
      · exact Ext.le_trans hx.1 h3
      · rcases List.mem_cons.1 hy with rfl | hy
        · exact Ext.le_trans hx.2 h3
        · exact h2 y (List.mem_cons_of_mem _ hy)

theorem foldMin_spec (l : List Ext) : ∀ x : Ext,
    (l.foldl (fun m y => if m.gt y then y else m) x) ∈ x :: l ∧
    ∀ y ∈ x :: l, (l.foldl (fun m y => if m.gt y then y else m) x).le y := by
  induction l with
  | nil => intro x; simp [Ext.le_refl]
  | cons a l ih =>
    intro x
    rw [List.foldl_cons]
    obtain ⟨h1, h2⟩ := ih (if x.gt a then a else x)
    have hx : (if x.gt a then a else x).le x ∧ (if x.gt a then a else x).le a := by
      split
      · rename_i h; rw [Ext.gt_iff] at h; exact ⟨Ext.le_of_not_le h, Ext.le_refl a⟩
      · rename_i h; rw [Ext.gt_iff] at h; exact ⟨Ext.le_refl x, Classical.not_not.1 h⟩
    constructor
    · rcases List.mem_cons.1 h1 with h | h
      · rw [h]; split <;> simp
      · simp [h]
    · intro y hy
      have h3 := h2 _ (List.mem_cons_self ..)
      rcases List.mem_cons.1 hy with rfl | hy
      · exact Ext.le_trans h3 hx.1
      · rcases List.mem_cons.1 hy with rfl | hy
        · exact Ext.le_trans h3 hx.2
        · exact h2 y (List.mem_cons_of_mem _ hy)

theorem extMax_spec {l : List Ext} (h : l ≠ []) : ∃ e, extMax l = .ok e ∧ IsMaxOf l e := by
  cases l with
  | nil => exact absurd rfl h
  | cons x l => exact ⟨_, rfl, foldMax_spec l x⟩

theorem extMin_spec {l : List Ext} (h : l ≠ []) : ∃ e, extMin l = .ok e ∧ e ∈ l ∧ ∀ y ∈ l, e.le y := by
  cases l with
  | nil => exact absurd rfl h
  | cons x l => exact ⟨_, rfl, foldMin_spec l x⟩

theorem IsMaxOf.unique {l : List Ext} {d e : Ext} (h : IsMaxOf l d) (h2 : IsMaxOf l e) : d = e :=
  Ext.le_antisymm (h2.2 _ h.1) (h.2 _ h2.1)

theorem Ext.add_comm (a b : Ext) : a.add b = b.add a := by
  cases a <;> cases b <;> simp [Ext.add]; grind

theorem Ext.zero_add (a : Ext) : (Ext.fin 0).add a = a := by cases a <;> simp [Ext.add]; grind

theorem extSum_fold (l : List Ext) : ∀ a, l.foldl Ext.add a = a.add (Ext.sum l) := by
  induction l with
  | nil => intro a; rw [Ext.add_comm]; exact (Ext.zero_add a).symm
  | cons x l ih => intro a; rw [List.foldl_cons, ih, Ext.add_assoc]; rfl

theorem extSum_eq (l : List Ext) : extSum l = Ext.sum l := by
  unfold extSum; rw [extSum_fold, Ext.zero_add]

theorem Ext.sum_fin {l : List Ext} : (∃ q, Ext.sum l = .fin q) ↔ ∀ x ∈ l, x ≠ .inf := by
  induction l with
  | nil => simp [Ext.sum]
  | cons x l ih =>
    simp only [Ext.sum, List.mem_cons, forall_eq_or_imp, ← ih]
    constructor
    · rintro ⟨q, hq⟩
      cases x with
      | inf => simp [Ext.add] at hq
      | fin x => cases hs : Ext.sum l with
        | inf => rw [hs] at hq; simp [Ext.add] at hq
        | fin y => exact ⟨(fun h => nomatch h), y, rfl⟩
    · rintro ⟨hx, q, hq⟩
      cases x with
      | inf => exact absurd rfl hx
      | fin x => exact ⟨x + q, by rw [hq]; rfl⟩

/-! ### rows of the matrix of distances -/

theorem IsMatrix.items {V : List α} (hV : V.Nodup) {m : Dict α (Dict α Ext)} (h : IsMatrix V m) :
    m.items = V.map (fun n => (n, Dict.comp V (at2 m n))) ∧ m.keys = V ∧
    ∀ n ∈ V, m.get? n = some (Dict.comp V (at2 m n)) := by
  obtain ⟨F, rfl⟩ := h
  have hrow : ∀ n ∈ V, Dict.comp V (F n) = Dict.comp V (at2 (Dict.comp V (fun x => Dict.comp V (fun y => F x y))) n) := by
    intro n hn
    have : ∀ (l : List α), (∀ x ∈ l, x ∈ V) → ∀ d : Dict α Ext, l.foldl (fun d k => d.set k (F n k)) d =
        l.foldl (fun d k => d.set k (at2 (Dict.comp V (fun x => Dict.comp V (fun y => F x y))) n k)) d := by
      intro l
      induction l with
      | nil => intro _ d; rfl
      | cons a l ih =>
        intro hl d
        rw [List.foldl_cons, List.foldl_cons, at2_comp hn (hl a (by simp)), ih (fun x hx => hl x (List.mem_cons_of_mem _ hx))]
    exact this V (fun _ h => h) _
  refine ⟨?_, Dict.comp_keys hV _, fun n hn => ?_⟩
  · rw [Dict.comp_items hV]
    apply List.map_congr_left
    intro n hn
    rw [← hrow n hn]
  · rw [Dict.comp_get?, if_pos hn, ← hrow n hn]

theorem aggRows_ok {agg : List Ext → Py Ext} {f : List Ext → Ext} {V : List α} (row : α → Dict α Ext) (l : List α)
    (h : ∀ n ∈ l, agg (row n).values = .ok (f (row n).values)) :
    aggRows agg (l.map (fun n => (n, row n))) = .ok (l.map (fun n => (n, f (row n).values))) := by
  induction l with
  | nil => rfl
  | cons a l ih =>
    simp only [List.map_cons, aggRows]
    rw [h a (by simp), ih (fun n hn => h n (List.mem_cons_of_mem _ hn))]

theorem argMins_spec {V : List α} (hne : V ≠ []) (f : α → Ext) :
    ∃ r, argMins (V.map (fun n => (n, f n))) = .ok r ∧ r.Sublist V ∧
      ∀ n, n ∈ r ↔ n ∈ V ∧ ∀ m ∈ V, (f n).le (f m) := by
  unfold argMins
  have hmap : (V.map (fun n => (n, f n))).map Prod.snd = V.map f := by rw [List.map_map]; rfl
  rw [hmap]
  obtain ⟨e, h1, h2, h3⟩ := extMin_spec (l := V.map f) (by simpa using hne)
  rw [h1]
  refine ⟨_, rfl, ?_, fun n => ?_⟩
  · have h4 : ((V.map (fun n => (n, f n))).filter (fun p => decide (p.2 = e))).map Prod.fst = V.filter (fun n => decide (f n = e)) := by
      rw [List.filter_map, List.map_map]
      exact List.map_id _
    rw [h4]; exact List.filter_sublist
  · simp only [List.mem_map, List.mem_filter, decide_eq_true_eq, Prod.exists, Prod.mk.injEq]
    constructor
    · rintro ⟨a, b, ⟨⟨x, hx, rfl, rfl⟩, hb⟩, rfl⟩
      refine ⟨hx, fun m hm => ?_⟩
      rw [hb]; exact h3 _ (List.mem_map.2 ⟨m, hm, rfl⟩)
    · rintro ⟨hn, hle⟩
      refine ⟨n, f n, ⟨⟨n, hn, rfl, rfl⟩, ?_⟩, rfl⟩
      rw [List.mem_map] at h2
      obtain ⟨m, hm, hme⟩ := h2
      exact Ext.le_antisymm (by rw [← hme]; exact hle m hm) (h3 _ (List.mem_map.2 ⟨n, hn, rfl⟩))

theorem minmax_spec {g : Graph α Rat O} (h : g.Inv) (hc : NoNegCycle g.edge) (hne : g.nodeList ≠ []) :
    ∃ r, g.minmax = .ok r ∧ r.Nodup ∧ ∀ n, n ∈ r ↔ n ∈ g.nodeList ∧
      ∃ e, IsMaxOf (g.nodeList.map (at2 g.allPairs n)) e ∧
        ∀ m ∈ g.nodeList, ∀ e', IsMaxOf (g.nodeList.map (at2 g.allPairs m)) e' → e.le e' := by
  obtain ⟨hm, _⟩ := allPairs_spec h hc
  have hV : g.nodeList.Nodup := h.nodesWF
  unfold minmax
  obtain ⟨h1, h2, h3⟩ := hm.items hV
  rw [h1]
  have hmax : ∀ n, ∃ e, extMax (g.nodeList.map (at2 g.allPairs n)) = .ok e ∧ IsMaxOf (g.nodeList.map (at2 g.allPairs n)) e :=
    fun n => extMax_spec (by simpa using hne)
  have hagg := aggRows_ok (agg := extMax) (V := g.nodeList) (f := fun l => match extMax l with | .ok e => e | .error _ => .inf)
    (fun n => Dict.comp g.nodeList (at2 g.allPairs n)) g.nodeList (fun n hn => by
      rw [Dict.comp_values hV]
      obtain ⟨e, he, _⟩ := hmax n
      rw [he])
  rw [hagg]
  dsimp only
  obtain ⟨r, hr1, hr2, hr3⟩ := argMins_spec hne (fun n => match extMax (Dict.comp g.nodeList (at2 g.allPairs n)).values with
    | .ok e => e | .error _ => .inf)
  refine ⟨r, hr1, hV.sublist hr2, fun n => ?_⟩
  rw [hr3]
  have hval : ∀ n e, IsMaxOf (g.nodeList.map (at2 g.allPairs n)) e →
      (match extMax (Dict.comp g.nodeList (at2 g.allPairs n)).values with | .ok e => e | .error _ => .inf) = e := by
    intro n e he
    rw [Dict.comp_values hV]
    obtain ⟨e', he', he2⟩ := hmax n
    rw [he']; exact he2.unique he
  constructor
  · rintro ⟨hn, hle⟩
    obtain ⟨e, _, he⟩ := hmax n
    refine ⟨hn, e, he, fun m hm e' he' => ?_⟩
    have := hle m hm
    rw [hval n e he, hval m e' he'] at this; exact this
  · rintro ⟨hn, e, he, hle⟩
    refine ⟨hn, fun m hm => ?_⟩
    obtain ⟨e', _, he'⟩ := hmax m
    rw [hval n e he, hval m e' he']; exact hle m hm e' he'

theorem minsum_spec {g : Graph α Rat O} (h : g.Inv) (hc : NoNegCycle g.edge) (hne : g.nodeList ≠ []) :
    ∃ r, g.minsum = .ok r ∧ r.Nodup ∧ ∀ n, n ∈ r ↔ n ∈ g.nodeList ∧
      ∀ m ∈ g.nodeList, (Ext.sum (g.nodeList.map (at2 g.allPairs n))).le (Ext.sum (g.nodeList.map (at2 g.allPairs m))) := by
  obtain ⟨hm, _⟩ := allPairs_spec h hc
  have hV : g.nodeList.Nodup := h.nodesWF
  unfold minsum
  obtain ⟨h1, h2, h3⟩ := hm.items hV
  rw [h1]
  have hagg := aggRows_ok (agg := fun l => .ok (extSum l)) (V := g.nodeList) (f := extSum)
    (fun n => Dict.comp g.nodeList (at2 g.allPairs n)) g.nodeList (fun n hn => rfl)
  rw [hagg]
  dsimp only
  obtain ⟨r, hr1, hr2, hr3⟩ := argMins_spec hne (fun n => extSum (Dict.comp g.nodeList (at2 g.allPairs n)).values)
  refine ⟨r, hr1, hV.sublist hr2, fun n => ?_⟩
  rw [hr3]
  simp only [Dict.comp_values hV, extSum_eq]

theorem minmax_empty {g : Graph α Rat O} (h : g.Inv) (hne : g.nodeList = []) :
    g.minmax = .error .valueError ∧ g.minsum = .error .valueError := by
  have hk : g.adjMatrix = Dict.empty := by unfold adjMatrix; rw [hne]; rfl
  have hap : g.allPairs = Dict.empty := by unfold allPairs; rw [hk]; rfl
  unfold minmax minsum
  rw [hap]
  exact ⟨rfl, rfl⟩

/-! ### the tree -/

/-- the start node of `shortest_tree_all_pairs`: the last node with finite distances to all nodes -/
theorem bestStart_spec {V : List α} (hV : V.Nodup) {m : Dict α (Dict α Ext)} (hm : IsMatrix V m) (m1 : α) :
    (bestStart m1 m = m1 ∧ ∀ n ∈ V, ∃ k ∈ V, at2 m n k = .inf) ∨
    (∃ s t, V = s ++ bestStart m1 m :: t ∧ (∀ k ∈ V, at2 m (bestStart m1 m) k ≠ .inf) ∧
      ∀ n ∈ t, ∃ k ∈ V, at2 m n k = .inf) := by
  unfold bestStart
  rw [(hm.items hV).1, List.foldl_map]
  simp only [Dict.comp_values hV, extSum_eq]
  have hfin : ∀ n, Ext.gt .inf (Ext.sum (V.map (at2 m n))) = true ↔ ∀ k ∈ V, at2 m n k ≠ .inf := by
    intro n
    have := @Ext.sum_fin (V.map (at2 m n))
    constructor
    · intro h k hk
      refine this.1 ?_ _ (List.mem_map.2 ⟨k, hk, rfl⟩)
      cases hs : Ext.sum (V.map (at2 m n)) with
      | inf => rw [hs] at h; simp [Ext.gt] at h
      | fin q => exact ⟨q, rfl⟩
    · intro h
      obtain ⟨q, hq⟩ := this.2 (fun x hx => by
        rw [List.mem_map] at hx; obtain ⟨k, hk, rfl⟩ := hx; exact h k hk)
      rw [hq]; rfl
  have hnfin : ∀ n, Ext.gt .inf (Ext.sum (V.map (at2 m n))) = false → ∃ k ∈ V, at2 m n k = .inf := by
    intro n h
    apply Classical.byContradiction
    intro hn
    have := (hfin n).2 (fun k hk he => hn ⟨k, hk, he⟩)
    rw [h] at this; cases this
  have key : ∀ (l : List α) (b : α),
      (l.foldl (fun best n => if Ext.gt .inf (Ext.sum (V.map (at2 m n))) then n else best) b = b ∧
        ∀ n ∈ l, ∃ k ∈ V, at2 m n k = .inf) ∨
      (∃ s t, l = s ++ l.foldl (fun best n => if Ext.gt .inf (Ext.sum (V.map (at2 m n))) then n else best) b :: t ∧
        (∀ k ∈ V, at2 m (l.foldl (fun best n => if Ext.gt .inf (Ext.sum (V.map (at2 m n))) then n else best) b) k ≠ .inf) ∧
        ∀ n ∈ t, ∃ k ∈ V, at2 m n k = .inf) := by
    intro l
    induction l with
    | nil => intro b; exact .inl ⟨rfl, by simp⟩
    | cons a l ih =>
      intro b
      rw [List.foldl_cons]
      cases ha : Ext.gt .inf (Ext.sum (V.map (at2 m a))) with
      | true =>
        simp only [if_true]
        rcases ih a with ⟨h1, h2⟩ | ⟨s, t, h1, h2, h3⟩
        · right; rw [h1]; exact ⟨[], l, rfl, (hfin a).1 ha, h2⟩
        · exact .inr ⟨a :: s, t, by rw [List.cons_append, ← h1], h2, h3⟩
      | false =>
        simp only [Bool.false_eq_true, if_false]
        rcases ih b with ⟨h1, h2⟩ | ⟨s, t, h1, h2, h3⟩
        · refine .inl ⟨h1, fun n hn => ?_⟩
          rcases List.mem_cons.1 hn with rfl | hn
          · exact hnfin _ ha
          · exact h2 n hn
        · exact .inr ⟨a :: s, t, by rw [List.cons_append, ← h1], h2, h3⟩
  exact key V m1

/-- what `inv_g2` contains -/
structure Buckets (δ : α → Ext) (S : List α) (d : Dict Ext (List α)) : Prop where
  wf : d.WF
  mem : ∀ k l, d.get? k = some l → l.Nodup ∧ l ≠ [] ∧ ∀ x ∈ l, x ∈ S ∧ δ x = k
  all : ∀ x ∈ S, ∃ l, d.get? (δ x) = some l ∧ x ∈ l

theorem invert_spec {V : List α} (hV : V.Nodup) (δ : α → Ext) : Buckets δ V (invert (Dict.comp V δ)) := by
  unfold invert
  rw [Dict.comp_items hV, List.foldl_map]
  have key : ∀ (l S : List α) (d : Dict Ext (List α)), Buckets δ S d →
      Buckets δ (S ++ l) (l.foldl (fun d p => d.set (δ p) (sadd ((d.get? (δ p)).getD []) p)) d) := by
    intro l
    induction l with
    | nil => intro S d h; simpa using h
    | cons a l ih =>
      intro S d h
      rw [List.foldl_cons, show S ++ a :: l = (S ++ [a]) ++ l by simp]
      apply ih
      refine ⟨h.wf.set _ _, fun k b hb => ?_, fun x hx => ?_⟩
      · rw [Dict.get?_set] at hb
        split at hb
        · rename_i hk
          cases hb
          have hold : ((d.get? (δ a)).getD []).Nodup ∧ ∀ x ∈ (d.get? (δ a)).getD [], x ∈ S ∧ δ x = δ a := by
            cases hg : d.get? (δ a) with
            | none => simp
            | some l0 => have := h.mem _ _ hg; exact ⟨this.1, this.2.2⟩
          refine ⟨nodup_sadd hold.1, ?_, fun x hx => ?_⟩
          · intro h0
            have : a ∈ sadd ((d.get? (δ a)).getD []) a := mem_sadd.2 (.inl rfl)
            rw [h0] at this; simp at this
          · rcases mem_sadd.1 hx with rfl | hx
            · exact ⟨by simp, hk⟩
            · have := hold.2 x hx; exact ⟨by simp [this.1], by rw [this.2]; exact hk⟩
        · obtain ⟨h1, h2, h3⟩ := h.mem k b hb
          exact ⟨h1, h2, fun x hx => ⟨by simp [(h3 x hx).1], (h3 x hx).2⟩⟩
      · rw [Dict.get?_set]
        rcases List.mem_append.1 hx with hx | hx
        · obtain ⟨b, hb, hxb⟩ := h.all x hx
          split
          · rename_i hk
            exact ⟨_, rfl, mem_sadd.2 (.inr (by rw [hk, hb]; exact hxb))⟩
          · exact ⟨b, hb, hxb⟩
        · simp at hx; subst hx
          rw [if_pos rfl]
          exact ⟨_, rfl, mem_sadd.2 (.inl rfl)⟩
  have := key V [] Dict.empty ⟨Dict.wf_empty, fun k l h => by simp at h, by simp⟩
  simpa using this

theorem takeAll_spec (l : List α) : ∀ (all path : List α), l.Nodup → (∀ x ∈ l, x ∈ all) →
    takeAll l (all, path) = .ok (all.filter (fun x => !decide (x ∈ l)), path ++ l) := by
  induction l with
  | nil => intro all path _ _; simp only [takeAll, List.append_nil]; rw [List.filter_eq_self.2 (by simp)]
  | cons a l ih =>
    intro all path hn hl
    rw [List.nodup_cons] at hn
    unfold takeAll
    rw [if_pos (hl a (by simp)), ih _ _ hn.2]
    · rw [List.filter_filter]
      simp only [List.append_assoc, List.singleton_append, List.mem_cons, Bool.decide_or, Bool.not_or]
      congr 3
      funext x; rw [Bool.and_comm]
    · intro x hx
      rw [List.mem_filter]
      refine ⟨hl x (List.mem_cons_of_mem _ hx), ?_⟩
      have : x ≠ a := fun h => hn.1 (h ▸ hx)
      simpa using this

/-- the nodes in `path` are sorted by distance and nearer than the remaining ones -/
structure TreeInv (δ : α → Ext) (V : List α) (s : List α × Dict Ext (List α) × List α) : Prop where
  nodup : s.1.Nodup
  perm : (s.2.2 ++ s.1).Perm V
  buckets : Buckets δ s.1 s.2.1
  sorted : s.2.2.Pairwise (fun a b => (δ a).le (δ b))
  near : ∀ a ∈ s.2.2, ∀ b ∈ s.1, (δ a).le (δ b)

/-- the result of the loop -/
def TreePost (δ : α → Ext) (V : List α) (r : Py (List α)) : Prop :=
  ∃ p, r = .ok p ∧ p.Perm V ∧ p.Pairwise (fun a b => (δ a).le (δ b))

theorem tree_spec {V : List α} (hV : V.Nodup) (δ : α → Ext) {ord : List α → List α} (hord : ∀ l, (ord l).Perm l) :
    ∃ p, pyWhile (treeStep ord) (V, invert (Dict.comp V δ), []) = some (.ok p) ∧ p.Perm V ∧
      p.Pairwise (fun a b => (δ a).le (δ b)) := by
  have key : ∃ r, pyWhile (treeStep ord) (V, invert (Dict.comp V δ), []) = some r ∧ TreePost δ V r := by
    have hempty : ∀ all inv path, TreeInv δ V (all, inv, path) → (all = [] ∨ inv.keys = []) → all = [] := by
      intro all inv path hI h
      rcases h with h | h
      · exact h
      · rw [List.eq_nil_iff_forall_not_mem]
        intro x hx
        obtain ⟨l, hl, _⟩ := hI.buckets.all x hx
        have := Dict.mem_keys_of_get? hl
        rw [h] at this; simp at this
    have hmain : ∀ all inv path, TreeInv δ V (all, inv, path) → ¬ (all = [] ∨ inv.keys = []) →
        ∃ s', treeStep ord (all, inv, path) = .inl s' ∧ TreeInv δ V s' ∧ s'.1.length < all.length := by
      intro all inv path hI hne
      unfold treeStep
      dsimp only
      rw [if_neg hne]
      obtain ⟨k, h1, h2, h3⟩ := extMin_spec (l := inv.keys) (fun h => hne (.inr h))
      rw [h1]
      dsimp only
      obtain ⟨l, hl⟩ := Dict.exists_get?_of_mem_keys h2
      rw [hl]
      obtain ⟨b1, b2, b3⟩ := hI.buckets.mem k l hl
      have hmo : ∀ x, x ∈ ord l ↔ x ∈ l := fun x => (hord l).mem_iff
      have hnd : (ord l).Nodup := (hord l).nodup_iff.2 b1
      have ht := takeAll_spec (ord l) all path hnd (fun x hx => (b3 x ((hmo x).1 hx)).1)
      simp only [Option.getD_some]
      rw [ht]
      have hin : ∀ x ∈ all, δ x = k → x ∈ l := by
        intro x hx hk
        obtain ⟨l', hl', hx'⟩ := hI.buckets.all x hx
        rw [hk, hl] at hl'; cases hl'; exact hx'
      refine ⟨_, rfl, ⟨hI.nodup.sublist List.filter_sublist, ?_, ⟨hI.buckets.wf.del _, fun k' l' hl' => ?_, fun x hx => ?_⟩, ?_, ?_⟩, ?_⟩
      · dsimp only
        refine List.Perm.trans ?_ hI.perm
        dsimp only
        rw [List.append_assoc]
        apply List.Perm.append_left
        have p1 : (ord l).Perm (all.filter (fun x => decide (x ∈ ord l))) := by
          rw [List.perm_ext_iff_of_nodup hnd (hI.nodup.sublist List.filter_sublist)]
          intro x
          rw [List.mem_filter]
          constructor
          · intro hx; exact ⟨(b3 x ((hmo x).1 hx)).1, by simpa using hx⟩
          · intro hx; simpa using hx.2
        exact (p1.append_right _).trans (List.filter_append_perm (fun x => decide (x ∈ ord l)) all)
      · rw [Dict.get?_del hI.buckets.wf] at hl'
        split at hl'
        · cases hl'
        · rename_i hk
          obtain ⟨c1, c2, c3⟩ := hI.buckets.mem k' l' hl'
          refine ⟨c1, c2, fun x hx => ⟨?_, (c3 x hx).2⟩⟩
          dsimp only
          rw [List.mem_filter]
          refine ⟨(c3 x hx).1, ?_⟩
          simp only [Bool.not_eq_true', decide_eq_false_iff_not]
          intro hx2
          exact hk ((b3 x ((hmo x).1 hx2)).2.symm.trans (c3 x hx).2)
      · dsimp only at hx
        rw [List.mem_filter] at hx
        obtain ⟨hx1, hx2⟩ := hx
        simp only [Bool.not_eq_true', decide_eq_false_iff_not] at hx2
        obtain ⟨l', hl', hx'⟩ := hI.buckets.all x hx1
        refine ⟨l', ?_, hx'⟩
        rw [Dict.get?_del hI.buckets.wf, if_neg]
        · exact hl'
        · intro hk; exact hx2 ((hmo x).2 (hin x hx1 hk.symm))
      · dsimp only
        rw [List.pairwise_append]
        refine ⟨hI.sorted, ?_, fun a ha b hb => hI.near a ha b (b3 b ((hmo b).1 hb)).1⟩
        apply List.Pairwise.imp_of_mem (R := fun _ _ => True) ?_ (List.pairwise_of_forall fun _ _ => trivial)
        intro a b ha hb _
        rw [(b3 a ((hmo a).1 ha)).2, (b3 b ((hmo b).1 hb)).2]; exact Ext.le_refl _
      · dsimp only
        intro a ha b hb
        rw [List.mem_filter] at hb
        rcases List.mem_append.1 ha with ha | ha
        · exact hI.near a ha b hb.1
        · rw [(b3 a ((hmo a).1 ha)).2]
          apply h3
          obtain ⟨l', hl', _⟩ := hI.buckets.all b hb.1
          exact Dict.mem_keys_of_get? hl'
      · dsimp only
        apply Nat.lt_of_le_of_ne (List.length_filter_le _ _)
        intro he
        have := List.length_filter_eq_length_iff.1 he
        cases l with
        | nil => exact b2 rfl
        | cons x l =>
          have hx := this x (b3 x (by simp)).1
          simp [hmo] at hx
    refine pyWhile_total (TreeInv δ V) (TreePost δ V) (fun s => s.1.length) ?_ ?_ ?_
    · rintro ⟨all, inv, path⟩ s' hI hst
      by_cases hne : all = [] ∨ inv.keys = []
      · simp only [treeStep, if_pos hne] at hst; cases hst
      · obtain ⟨s1, h1, h2⟩ := hmain all inv path hI hne
        rw [h1] at hst; cases hst; exact h2
    · rintro ⟨all, inv, path⟩ r hI hst
      by_cases hne : all = [] ∨ inv.keys = []
      · simp only [treeStep, if_pos hne] at hst
        cases hst
        have := hempty all inv path hI hne
        subst this
        exact ⟨path, rfl, by simpa using hI.perm, hI.sorted⟩
      · obtain ⟨s1, h1, h2⟩ := hmain all inv path hI hne
        rw [h1] at hst; cases hst
    · exact ⟨hV, by simp, invert_spec hV δ, by simp, by simp⟩
  obtain ⟨r, h1, p, rfl, h2⟩ := key
  exact ⟨p, h1, h2⟩

theorem shortestTree_spec {g : Graph α Rat O} (h : g.Inv) (hc : NoNegCycle g.edge) {ord : List α → List α}
    (hord : ∀ l, (ord l).Perm l) (m1 : α) (hm1 : g.has m1 = false) :
    (g.shortestTree m1 ord = some (.error .keyError) ∧ ∀ n ∈ g.nodeList, ∃ k ∈ g.nodeList, at2 g.allPairs n k = .inf) ∨
    (∃ s b t p, g.nodeList = s ++ b :: t ∧ (∀ k ∈ g.nodeList, at2 g.allPairs b k ≠ .inf) ∧
      (∀ n ∈ t, ∃ k ∈ g.nodeList, at2 g.allPairs n k = .inf) ∧
      g.shortestTree m1 ord = some (.ok p) ∧ p.Perm g.nodeList ∧
      p.Pairwise (fun x y => (at2 g.allPairs b x).le (at2 g.allPairs b y))) := by
  obtain ⟨hm, _⟩ := allPairs_spec h hc
  have hV : g.nodeList.Nodup := h.nodesWF
  obtain ⟨i1, i2, i3⟩ := hm.items hV
  unfold shortestTree
  rcases bestStart_spec hV hm m1 with ⟨h1, h2⟩ | ⟨s, t, h1, h2, h3⟩
  · left
    rw [h1]
    have : g.allPairs.get? m1 = none := by
      rw [Dict.get?_eq_none_iff, i2]
      intro hin; rw [has_iff.2 hin] at hm1; cases hm1
    rw [this]; exact ⟨rfl, h2⟩
  · right
    generalize bestStart m1 g.allPairs = b at h1 h2
    have hb : b ∈ g.nodeList := by rw [h1]; simp
    rw [i3 b hb, i2]
    obtain ⟨p, hp1, hp2, hp3⟩ := tree_spec hV (at2 g.allPairs b) hord
    exact ⟨s, b, t, p, h1, h2, h3, hp1, hp2, hp3⟩

end GT

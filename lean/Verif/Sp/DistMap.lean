import Verif.Sp.Legs
/-
Model of `distance_map` (graph/distance_map.py:8-78).
-/
namespace GT
variable {α V O : Type} [DecidableEq α]
open Graph

/-- the locals of the walk: `ends_found`, `visited`, `q` -/
structure DmSt (α : Type) where
  found : List α
  visited : Dict α Rat
  q : List α
  deriving DecidableEq

/-- `found == ends` for sets; `None` stands for `{None}`, which is never found -/
def foundAll (found : List α) : Option (List α) → Bool
  | none => false
  | some es => found.all (fun x => decide (x ∈ es)) && es.all (fun x => decide (x ∈ found))

/-- the loop over the edges (distance_map.py:57-60 / 68-71) -/
def dmRelax (d1 : Rat) : List (α × Rat) → List α × Dict α Rat → List α × Dict α Rat
  | [], s => s
  | (n2, d) :: l, (q, vis) =>
    match vis.get? n2 with
    | none => dmRelax d1 l (q ++ [n2], vis.set n2 (d1 + d))
    | some x => dmRelax d1 l (q, vis.set n2 (if x < d1 + d then x else d1 + d))

/-- one iteration of `while q` (distance_map.py:50-60 / 61-71) -/
def dmStep (nbr : α → List (α × Rat)) (ends : Option (List α)) (s : DmSt α) : DmSt α ⊕ Py (Dict α Rat) :=
  match s.q with
  | [] => .inr (.ok s.visited)
  | n1 :: q =>
    if foundAll s.found ends then .inr (.ok s.visited)
    else
      let found := match ends with
        | some es => if n1 ∈ es then sadd s.found n1 else s.found
        | none => s.found
      match s.visited.get? n1 with
      | none => .inr (.error .keyError)
      | some d1 =>
        let r := dmRelax d1 (nbr n1) (q, s.visited)
        .inl ⟨found, r.2, r.1⟩

/-- the walk from the set `S` until all of `T` is found.  `ord` is the iteration order of the set. -/
def dmWalk (ord : List α → List α) (nbr : α → List (α × Rat)) (S : List α) (T : Option (List α)) :
    Option (Py (Dict α Rat)) :=
  let S := ord (saddAll [] S)
  pyWhile (dmStep nbr T) ⟨[], S.foldl (fun d x => d.set x 0) Dict.empty, S⟩

/-- `distance_map(graph, starts, ends, reverse)` (distance_map.py:8-78).
Simplification: `starts` and `ends` are `None` or collections of nodes; a single node is the one-element
collection (the code takes a node that is itself iterable, such as a string or a tuple, for a collection). -/
def Graph.distanceMap (ord : List α → List α) (g : Graph α Rat O) (starts ends : Option (List α)) (reverse : Bool) :
    Option (Py (Dict α Rat)) :=
  if starts.isNone && ends.isNone then some (.error .valueError)
  else if starts.isNone && !reverse then some (.error .valueError)
  else if ends.isNone && reverse then some (.error .valueError)
  else if (starts.getD []).any (fun s => !g.has s) then some (.error .valueError)
  else if (ends.getD []).any (fun s => !g.has s) then some (.error .valueError)
  else if reverse then dmWalk ord g.inNbr (ends.getD []) starts
  else dmWalk ord g.outNbr (starts.getD []) ends

/-! ### proof -/

theorem Steps.of_walkOf {w : α → α → Option Rat} {a b : α} {p : List α} {c : Rat} (h : WalkOf w a b p c) :
    Reach (fun x y => (w x y).isSome) a b := reach_iff_walk.2 ⟨p, h.walkFT⟩

/-- all edges have the same value -/
def Uniform (w : α → α → Option Rat) (c : Rat) : Prop := ∀ a b d, w a b = some d → d = c

structure DmRelaxFacts (d1 : Rat) (l : List (α × Rat)) (q : List α) (vis : Dict α Rat) (q' : List α) (vis' : Dict α Rat) : Prop where
  queue : ∃ new, q' = q ++ new ∧ new.Nodup ∧ (∀ x ∈ new, x ∉ vis.keys) ∧ (∀ x, x ∈ vis'.keys ↔ x ∈ vis.keys ∨ x ∈ new) ∧
    (∀ x ∈ new, ∃ d, (x, d) ∈ l)
  val : ∀ x v, vis'.get? x = some v → vis.get? x = some v ∨ ∃ d, (x, d) ∈ l ∧ v = d1 + d
  mono : ∀ x v, vis.get? x = some v → ∃ v', vis'.get? x = some v' ∧ v' ≤ v
  done : ∀ x d, (x, d) ∈ l → ∃ v, vis'.get? x = some v ∧ v ≤ d1 + d
  wf : vis.WF → vis'.WF

theorem dmRelax_spec {d1 : Rat} (l : List (α × Rat)) : ∀ (q : List α) (vis : Dict α Rat),
    DmRelaxFacts d1 l q vis (dmRelax d1 l (q, vis)).1 (dmRelax d1 l (q, vis)).2 := by
  induction l with
  | nil =>
    intro q vis
    exact ⟨⟨[], by simp [dmRelax]⟩, fun x v h => .inl h, fun x v h => ⟨v, h, Rat.le_refl⟩, by simp, fun h => h⟩
  | cons a l ih =>
    obtain ⟨n2, d⟩ := a
    intro q vis
    unfold dmRelax
    cases h : vis.get? n2 with
    | none =>
      dsimp only
      have hn : n2 ∉ vis.keys := (Dict.get?_eq_none_iff _ _).1 h
      have hr := ih (q ++ [n2]) (vis.set n2 (d1 + d))
      obtain ⟨new, h1, h2, h3, h4, h5⟩ := hr.queue
      refine ⟨⟨n2 :: new, by simp [h1], ?_, ?_, ?_, ?_⟩, fun x v hv => ?_, fun x v hv => ?_, fun x d' hx => ?_, fun hw => hr.wf (hw.set _ _)⟩
      · rw [List.nodup_cons]
        exact ⟨fun hin => h3 _ hin ((Dict.mem_keys_set _ _ _ _).2 (.inl rfl)), h2⟩
      · intro x hx
        rcases List.mem_cons.1 hx with rfl | hx
        · exact hn
        · exact fun hin => h3 x hx ((Dict.mem_keys_set _ _ _ _).2 (.inr hin))
      · intro x
        rw [h4, Dict.mem_keys_set, List.mem_cons]
        constructor
        · rintro ((h | h) | h)
          · exact .inr (.inl h)
          · exact .inl h
          · exact .inr (.inr h)
        · rintro (h | h | h)
          · exact .inl (.inr h)
          · exact .inl (.inl h)
          · exact .inr h
      · intro x hx
        rcases List.mem_cons.1 hx with rfl | hx
        · exact ⟨d, by simp⟩
        · obtain ⟨e, he⟩ := h5 x hx; exact ⟨e, List.mem_cons_of_mem _ he⟩
      · rcases hr.val x v hv with h6 | ⟨e, h6, h7⟩
        · rw [Dict.get?_set] at h6
          split at h6
          · rename_i he; cases h6; subst he; exact .inr ⟨d, by simp, rfl⟩
          · exact .inl h6
        · exact .inr ⟨e, List.mem_cons_of_mem _ h6, h7⟩
      · apply hr.mono x v
        rw [Dict.get?_set_ne]
        · exact hv
        · intro he; subst he; rw [h] at hv; cases hv
      · rcases List.mem_cons.1 hx with he | hx
        · cases he; exact hr.mono n2 _ (by simp)
        · exact hr.done x d' hx
    | some y =>
      dsimp only
      have hn : n2 ∈ vis.keys := Dict.mem_keys_of_get? h
      have hr := ih q (vis.set n2 (if y < d1 + d then y else d1 + d))
      obtain ⟨new, h1, h2, h3, h4, h5⟩ := hr.queue
      have hk : ∀ x, x ∈ (vis.set n2 (if y < d1 + d then y else d1 + d)).keys ↔ x ∈ vis.keys := by
        intro x; rw [Dict.keys_set_of_mem _ hn]
      refine ⟨⟨new, h1, h2, fun x hx hin => h3 x hx ((hk x).2 hin), fun x => by rw [h4, hk], fun x hx => ?_⟩,
        fun x v hv => ?_, fun x v hv => ?_, fun x d' hx => ?_, fun hw => hr.wf (hw.set _ _)⟩
      · obtain ⟨e, he⟩ := h5 x hx; exact ⟨e, List.mem_cons_of_mem _ he⟩
      · rcases hr.val x v hv with h6 | ⟨e, h6, h7⟩
        · rw [Dict.get?_set] at h6
          split at h6
          · rename_i he; cases h6; subst he
            split
            · exact .inl h
            · exact .inr ⟨d, by simp, rfl⟩
          · exact .inl h6
        · exact .inr ⟨e, List.mem_cons_of_mem _ h6, h7⟩
      · by_cases he : n2 = x
        · subst he
          rw [h] at hv; cases hv
          obtain ⟨v', h6, h7⟩ := hr.mono n2 _ (Dict.get?_set_self _ _ _)
          refine ⟨v', h6, ?_⟩
          split at h7 <;> grind
        · exact hr.mono x v (by rw [Dict.get?_set_ne _ _ he]; exact hv)
      · rcases List.mem_cons.1 hx with he | hx
        · cases he
          obtain ⟨v', h6, h7⟩ := hr.mono n2 _ (Dict.get?_set_self _ _ _)
          refine ⟨v', h6, ?_⟩
          split at h7 <;> grind
        · exact hr.done x d' hx

/-- general invariant of the walk -/
structure DmInv (w : α → α → Option Rat) (U S : List α) (T : Option (List α)) (s : DmSt α) : Prop where
  starts : ∀ x ∈ S, x ∈ s.visited.keys
  low : ∀ x ∈ S, ∃ v, s.visited.get? x = some v ∧ v ≤ 0
  walk : ∀ x v, s.visited.get? x = some v → ∃ a p, a ∈ S ∧ WalkOf w a x p v
  univ : ∀ x ∈ s.visited.keys, x ∈ U
  queued : ∀ x ∈ s.q, x ∈ s.visited.keys
  nodup : s.q.Nodup
  found : ∀ x ∈ s.found, x ∈ s.visited.keys
  closed : ∀ x ∈ s.visited.keys, x ∉ s.q → ∀ y d, w x y = some d → y ∈ s.visited.keys

/-- additional invariant if all edges have the value `c`: breadth-first order -/
structure DmUni (w : α → α → Option Rat) (S : List α) (c : Rat) (s : DmSt α) : Prop where
  zero : ∀ x ∈ S, ∃ v, s.visited.get? x = some v ∧ v ≤ 0
  sorted : s.q.Pairwise (fun x y => ∀ v v', s.visited.get? x = some v → s.visited.get? y = some v' → v ≤ v')
  spread : ∀ n1 q d1, s.q = n1 :: q → s.visited.get? n1 = some d1 → ∀ x v, s.visited.get? x = some v → v ≤ d1 + c
  relaxed : ∀ x ∈ s.visited.keys, x ∉ s.q → ∀ y d v, w x y = some d → s.visited.get? x = some v →
    ∃ v', s.visited.get? y = some v' ∧ v' ≤ v + c

theorem DmUni.bound {w : α → α → Option Rat} {S : List α} {c : Rat} (hc : 0 ≤ c) (hu : Uniform w c) {s : DmSt α}
    (h : DmUni w S c s) {U : List α} {T : Option (List α)} (hI : DmInv w U S T s) {a x : α} {p : List α} {k : Rat} (ha : a ∈ S)
    (hp : WalkOf w a x p k) : ∀ v, s.visited.get? x = some v → v ≤ k := by
  -- along the walk, either every node is expanded or a queued node is met
  have key : ∀ (p : List α) (a : α) (k e va : Rat), WalkOf w a x p k → s.visited.get? a = some va → va ≤ e →
      ∀ v, s.visited.get? x = some v → v ≤ e + k := by
    intro p
    induction p with
    | nil => intro a k e va hp; exact absurd rfl hp.ne_nil
    | cons z p ih =>
      intro a k e va hp hva hle v hv
      rcases hp.inv with ⟨h1, h2, h3⟩ | ⟨y, q, c', d', h1, h2, h3, h4⟩
      · subst h2; rw [hva] at hv; cases hv; grind
      · cases h1
        have hc' := hu _ _ _ h2
        subst hc'
        by_cases hq : z ∈ s.q
        · cases hq' : s.q with
          | nil => rw [hq'] at hq; cases hq
          | cons n1 q1 =>
            have hn1 : n1 ∈ s.q := by rw [hq']; simp
            obtain ⟨d1, hd1⟩ := Dict.exists_get?_of_mem_keys (hI.queued n1 hn1)
            have h5 := h.spread n1 q1 d1 hq' hd1 x v hv
            have h6 : d1 ≤ va := by
              rw [hq'] at hq
              rcases List.mem_cons.1 hq with he | he
              · subst he; rw [hva] at hd1; cases hd1; exact Rat.le_refl
              · have := h.sorted; rw [hq', List.pairwise_cons] at this
                exact this.1 z he d1 va hd1 hva
            have h7 : 0 ≤ d' := h3.nonneg (fun a b d hd => by rw [hu _ _ _ hd]; exact hc)
            grind
        · obtain ⟨v', h5, h6⟩ := h.relaxed z (Dict.mem_keys_of_get? hva) hq y c' va h2 hva
          have := ih y d' (e + c') v' h3 h5 (by grind) v hv
          grind
  obtain ⟨v0, h1, h2⟩ := h.zero a ha
  intro v hv
  have := key p a k 0 v0 hp h1 h2 v hv
  grind

/-- the result of the walk -/
structure DmResult (w : α → α → Option Rat) (S : List α) (T : Option (List α)) (r : Dict α Rat) : Prop where
  wf : r.WF
  starts : ∀ x ∈ S, ∃ v, r.get? x = some v ∧ v ≤ 0
  walk : ∀ x v, r.get? x = some v → ∃ a p, a ∈ S ∧ WalkOf w a x p v
  ends : ∀ es, T = some es → ∀ x ∈ es, (∃ a ∈ S, Reach (fun x y => (w x y).isSome) a x) → x ∈ r.keys
  exhaustive : T = none → ∀ x, (∃ a ∈ S, Reach (fun x y => (w x y).isSome) a x) → x ∈ r.keys
  uniform : ∀ c, 0 ≤ c → Uniform w c → ∀ x v, r.get? x = some v → ∀ a ∈ S, ∀ p k, WalkOf w a x p k → v ≤ k

def DmPost (w : α → α → Option Rat) (S : List α) (T : Option (List α)) (r : Py (Dict α Rat)) : Prop :=
  ∃ d, r = .ok d ∧ DmResult w S T d

def DmAll (w : α → α → Option Rat) (U S : List α) (T : Option (List α)) (s : DmSt α) : Prop :=
  s.visited.WF ∧ DmInv w U S T s ∧ ∀ c, 0 ≤ c → Uniform w c → DmUni w S c s

theorem foldSet_keys (S : List α) : ∀ d : Dict α Rat, d.WF → (∀ x v, d.get? x = some v → v = 0) →
    (S.foldl (fun d x => d.set x 0) d).WF ∧ (∀ x, x ∈ (S.foldl (fun d x => d.set x 0) d).keys ↔ x ∈ d.keys ∨ x ∈ S) ∧
    ∀ x v, (S.foldl (fun d x => d.set x 0) d).get? x = some v → v = 0 := by
  induction S with
  | nil => intro d h h2; exact ⟨h, by simp, h2⟩
  | cons a S ih =>
    intro d h h2
    obtain ⟨h3, h4, h5⟩ := ih (d.set a 0) (h.set _ _) (fun x v hv => by
      rw [Dict.get?_set] at hv
      split at hv
      · cases hv; rfl
      · exact h2 x v hv)
    refine ⟨h3, fun x => ?_, h5⟩
    rw [List.foldl_cons, h4, Dict.mem_keys_set, List.mem_cons]
    constructor
    · rintro ((h | h) | h)
      · exact .inr (.inl h)
      · exact .inl h
      · exact .inr (.inr h)
    · rintro (h | h | h)
      · exact .inl (.inr h)
      · exact .inl (.inl h)
      · exact .inr h

theorem dmWalk_spec {w : α → α → Option Rat} {U S0 : List α} (hU : ∀ x y c, w x y = some c → x ∈ U ∧ y ∈ U) (hS : ∀ x ∈ S0, x ∈ U)
    {nbr : α → List (α × Rat)} (hn : ∀ x y c, (y, c) ∈ nbr x ↔ w x y = some c)
    {ord : List α → List α} (hord : ∀ l, (ord l).Perm l) (T : Option (List α)) :
    ∃ d, dmWalk ord nbr S0 T = some (.ok d) ∧ DmResult w S0 T d := by
  unfold dmWalk
  dsimp only
  have hmem : ∀ x, x ∈ ord (saddAll [] S0) ↔ x ∈ S0 := fun x => by rw [(hord _).mem_iff]; simp
  have hnd : (ord (saddAll [] S0)).Nodup := (hord _).nodup_iff.2 (nodup_saddAll (by simp))
  generalize ord (saddAll [] S0) = S at hmem hnd
  have hfin : ∀ s, DmAll w U S T s → (s.q = [] ∨ foundAll s.found T = true) → DmResult w S0 T s.visited := by
    rintro s ⟨hwf, hI, hUni⟩ hex
    have hreach : s.q = [] → ∀ x, (∃ a ∈ S0, Reach (fun x y => (w x y).isSome) a x) → x ∈ s.visited.keys := by
      rintro hq x ⟨a, ha, hr⟩
      refine hr.closed (fun y => y ∈ s.visited.keys) (hI.starts a ((hmem a).2 ha)) (fun b c hb hbc => ?_)
      obtain ⟨d, hd⟩ := Option.isSome_iff_exists.1 hbc
      exact hI.closed b hb (by rw [hq]; simp) c d hd
    refine ⟨hwf, fun x hx => hI.low x ((hmem x).2 hx), fun x v hv => ?_, fun es hes x hx hr => ?_, fun hT x hr => ?_,
      fun c hc hu x v hv a ha p k hp => (hUni c hc hu).bound hc hu hI ((hmem a).2 ha) hp v hv⟩
    · obtain ⟨a, p, ha, hp⟩ := hI.walk x v hv
      exact ⟨a, p, (hmem a).1 ha, hp⟩
    · rcases hex with hq | hf
      · exact hreach hq x hr
      · subst hes
        unfold foundAll at hf
        rw [Bool.and_eq_true, List.all_eq_true, List.all_eq_true] at hf
        exact hI.found x (by simpa using hf.2 x hx)
    · rcases hex with hq | hf
      · exact hreach hq x hr
      · subst hT; cases hf
  have hstep : ∀ s n1 q, DmAll w U S T s → s.q = n1 :: q → foundAll s.found T = false →
      ∃ s', dmStep nbr T s = .inl s' ∧ DmAll w U S T s' ∧
        lexNat (unvis U s'.visited.keys, s'.q.length) (unvis U s.visited.keys, s.q.length) := by
    rintro s n1 q ⟨hwf, hI, hUni⟩ hq hf
    have hn1q : n1 ∈ s.q := by rw [hq]; simp
    obtain ⟨d1, hd1⟩ := Dict.exists_get?_of_mem_keys (hI.queued n1 hn1q)
    unfold dmStep
    rw [hq]
    dsimp only
    rw [hf]
    simp only [Bool.false_eq_true, if_false]
    rw [hd1]
    dsimp only
    have hR := dmRelax_spec (d1 := d1) (nbr n1) q s.visited
    generalize hr : dmRelax d1 (nbr n1) (q, s.visited) = r at hR
    obtain ⟨q', vis'⟩ := r
    dsimp only at hR ⊢
    obtain ⟨new, e1, e2, e3, e4, e5⟩ := hR.queue
    have hqn := hI.nodup
    rw [hq, List.nodup_cons] at hqn
    have hqk : ∀ x ∈ q, x ∈ s.visited.keys := fun x hx => hI.queued x (by rw [hq]; exact List.mem_cons_of_mem _ hx)
    have hcl : ∀ x ∈ vis'.keys, x ∉ q' → x = n1 ∨ (x ∈ s.visited.keys ∧ x ∉ s.q) := by
      intro x hx hxq
      rw [e1, List.mem_append, not_or] at hxq
      rcases (e4 x).1 hx with h | h
      · by_cases hxn : x = n1
        · exact .inl hxn
        · exact .inr ⟨h, by rw [hq, List.mem_cons, not_or]; exact ⟨hxn, hxq.1⟩⟩
      · exact absurd h hxq.2
    have hlow : ∀ x ∈ S, ∃ v, vis'.get? x = some v ∧ v ≤ 0 := by
      intro x hx
      obtain ⟨v, h1, h2⟩ := hI.low x hx
      obtain ⟨v', h3, h4⟩ := hR.mono x v h1
      exact ⟨v', h3, Rat.le_trans h4 h2⟩
    refine ⟨_, rfl, ⟨hR.wf hwf, ⟨fun x hx => (e4 x).2 (.inl (hI.starts x hx)), hlow, fun x v hv => ?_, fun x hx => ?_,
      fun x hx => ?_, ?_, fun x hx => ?_, fun x hx hxq y d hy => ?_⟩, fun c hc hu => ?_⟩, ?_⟩
    · rcases hR.val x v hv with h | ⟨d, h, rfl⟩
      · exact hI.walk x v h
      · obtain ⟨a, p, ha, hp⟩ := hI.walk n1 d1 hd1
        exact ⟨a, p ++ [x], ha, hp.snoc ((hn _ _ _).1 h)⟩
    · rcases (e4 x).1 hx with h | h
      · exact hI.univ x h
      · obtain ⟨d, hd⟩ := e5 x h
        exact (hU _ _ _ ((hn _ _ _).1 hd)).2
    · dsimp only at hx ⊢
      rw [e1, List.mem_append] at hx
      rcases hx with hx | hx
      · exact (e4 x).2 (.inl (hqk x hx))
      · exact (e4 x).2 (.inr hx)
    · dsimp only
      rw [e1, List.nodup_append]
      exact ⟨hqn.2, e2, fun a ha b hb hab => e3 b hb (by rw [← hab]; exact hqk a ha)⟩
    · have hfo : x ∈ s.found ∨ x = n1 := by
        cases T with
        | none => exact .inl hx
        | some es =>
          dsimp only at hx
          split at hx
          · rcases mem_sadd.1 hx with h | h
            · exact .inr h
            · exact .inl h
          · exact .inl hx
      rcases hfo with h | h
      · exact (e4 x).2 (.inl (hI.found x h))
      · subst h; exact (e4 x).2 (.inl (hI.queued x hn1q))
    · rcases hcl x hx hxq with rfl | ⟨h1, h2⟩
      · obtain ⟨v, hv, _⟩ := hR.done y d ((hn _ _ _).2 hy)
        exact Dict.mem_keys_of_get? hv
      · exact (e4 y).2 (.inl (hI.closed x h1 h2 y d hy))
    · have hX := hUni c hc hu
      have hsame : ∀ x v, s.visited.get? x = some v → vis'.get? x = some v := by
        intro x v hv
        obtain ⟨v', h1, h2⟩ := hR.mono x v hv
        rcases hR.val x v' h1 with h3 | ⟨d, h3, h4⟩
        · rw [hv] at h3; cases h3; exact h1
        · have hd : d = c := hu _ _ _ ((hn _ _ _).1 h3)
          have := hX.spread n1 q d1 hq hd1 x v hv
          have : v' = v := by grind
          subst this; exact h1
      have hnew : ∀ x v, vis'.get? x = some v → s.visited.get? x = some v ∨ (x ∉ s.visited.keys ∧ v = d1 + c) := by
        intro x v hv
        by_cases hk : x ∈ s.visited.keys
        · obtain ⟨v0, hv0⟩ := Dict.exists_get?_of_mem_keys hk
          have := hsame x v0 hv0
          rw [hv] at this; cases this; exact .inl hv0
        · rcases hR.val x v hv with h | ⟨d, h3, h4⟩
          · exact absurd (Dict.mem_keys_of_get? h) hk
          · have hd : d = c := hu _ _ _ ((hn _ _ _).1 h3)
            exact .inr ⟨hk, by rw [h4, hd]⟩
      have hle : ∀ x v, vis'.get? x = some v → v ≤ d1 + c := by
        intro x v hv
        rcases hnew x v hv with h | ⟨_, h⟩
        · exact hX.spread n1 q d1 hq hd1 x v h
        · rw [h]; exact Rat.le_refl
      have hsorted := hX.sorted
      rw [hq, List.pairwise_cons] at hsorted
      refine ⟨fun x hx => ?_, ?_, ?_, fun x hx hxq y d v hy hv => ?_⟩
      · obtain ⟨v, h1, h2⟩ := hX.zero x hx
        exact ⟨v, hsame x v h1, h2⟩
      · dsimp only
        rw [e1, List.pairwise_append]
        refine ⟨?_, ?_, fun a ha b hb va vb hva hvb => ?_⟩
        · refine List.Pairwise.imp_of_mem ?_ hsorted.2
          intro a b ha hb hab va vb hva hvb
          rcases hnew a va hva with h | ⟨h, _⟩
          · rcases hnew b vb hvb with h' | ⟨h', _⟩
            · exact hab va vb h h'
            · exact absurd (hqk b hb) h'
          · exact absurd (hqk a ha) h
        · refine List.Pairwise.imp_of_mem (R := fun _ _ => True) ?_ (List.pairwise_of_forall fun _ _ => trivial)
          intro a b ha hb _ va vb hva hvb
          rcases hnew b vb hvb with h | ⟨_, h⟩
          · exact absurd (Dict.mem_keys_of_get? h) (e3 b hb)
          · rw [h]; exact hle a va hva
        · rcases hnew b vb hvb with h | ⟨_, h⟩
          · exact absurd (Dict.mem_keys_of_get? h) (e3 b hb)
          · rw [h]; exact hle a va hva
      · intro n2 q2 d2 hq2 hd2 x v hv
        dsimp only at hq2 hd2 hv
        have h1 := hle x v hv
        have h2 : d1 ≤ d2 := by
          rcases hnew n2 d2 hd2 with h | ⟨_, h⟩
          · have : n2 ∈ q' := by rw [hq2]; simp
            rw [e1, List.mem_append] at this
            rcases this with h3 | h3
            · exact hsorted.1 n2 h3 d1 d2 hd1 h
            · exact absurd (Dict.mem_keys_of_get? h) (e3 n2 h3)
          · grind
        grind
      · rcases hcl x hx hxq with rfl | ⟨h1, h2⟩
        · obtain ⟨v', h3, h4⟩ := hR.done y d ((hn _ _ _).2 hy)
          have := hsame x d1 hd1
          rw [this] at hv; cases hv
          exact ⟨v', h3, hle y v' h3⟩
        · obtain ⟨v0, hv0⟩ := Dict.exists_get?_of_mem_keys h1
          have := hsame x v0 hv0
          rw [this] at hv; cases hv
          obtain ⟨v', h3, h4⟩ := hX.relaxed x h1 h2 y d _ hy hv0
          exact ⟨v', hsame y v' h3, h4⟩
    · cases new with
      | nil =>
        refine lexNat_right (unvis_le (fun x hx => (e4 x).2 (.inl hx))) ?_
        simp [e1]
      | cons z new =>
        refine lexNat_left (unvis_lt (x := z) (fun x hx => (e4 x).2 (.inl hx)) ?_ (e3 z (by simp)) ((e4 z).2 (.inr (by simp))))
        obtain ⟨d, hd⟩ := e5 z (by simp)
        exact (hU _ _ _ ((hn _ _ _).1 hd)).2
  have key : ∃ r, pyWhile (dmStep nbr T) ⟨[], S.foldl (fun d x => d.set x 0) Dict.empty, S⟩ = some r ∧ DmPost w S0 T r := by
    refine pyWhile_totalW (DmAll w U S T) (DmPost w S0 T) lexNat lexNat_wf (fun s => (unvis U s.visited.keys, s.q.length)) ?_ ?_ ?_
    · intro s s' hA hst
      cases hq : s.q with
      | nil => unfold dmStep at hst; rw [hq] at hst; cases hst
      | cons n1 q =>
        cases hf : foundAll s.found T with
        | true => unfold dmStep at hst; rw [hq] at hst; dsimp only at hst; rw [hf] at hst; cases hst
        | false =>
          obtain ⟨s1, h1, h2, h3⟩ := hstep s n1 q hA hq hf
          rw [h1] at hst; cases hst; rw [← hq]; exact ⟨h2, h3⟩
    · intro s r hA hst
      cases hq : s.q with
      | nil => unfold dmStep at hst; rw [hq] at hst; cases hst; exact ⟨_, rfl, hfin s hA (.inl hq)⟩
      | cons n1 q =>
        cases hf : foundAll s.found T with
        | true =>
          unfold dmStep at hst; rw [hq] at hst; dsimp only at hst; rw [hf] at hst
          cases hst; exact ⟨_, rfl, hfin s hA (.inr hf)⟩
        | false =>
          obtain ⟨s1, h1, h2, h3⟩ := hstep s n1 q hA hq hf
          rw [h1] at hst; cases hst
    · obtain ⟨k1, k2, k3⟩ := foldSet_keys S Dict.empty Dict.wf_empty (by simp)
      have k2' : ∀ x, x ∈ (S.foldl (fun d x => d.set x 0) (Dict.empty : Dict α Rat)).keys ↔ x ∈ S := by
        intro x; rw [k2]; simp [Dict.keys, Dict.empty]
      have k4 : ∀ x ∈ S, ∃ v, (S.foldl (fun d x => d.set x 0) (Dict.empty : Dict α Rat)).get? x = some v ∧ v ≤ 0 := by
        intro x hx
        obtain ⟨v, hv⟩ := Dict.exists_get?_of_mem_keys ((k2' x).2 hx)
        exact ⟨v, hv, by rw [k3 x v hv]; exact Rat.le_refl⟩
      refine ⟨k1, ⟨fun x hx => (k2' x).2 hx, k4, fun x v hv => ?_, fun x hx => ?_, fun x hx => (k2' x).2 hx, hnd, by simp,
        fun x hx hxq => absurd ((k2' x).1 hx) hxq⟩, fun c hc hu => ⟨fun x hx => ?_, ?_, ?_, fun x hx hxq => absurd ((k2' x).1 hx) hxq⟩⟩
      · have := k3 x v hv; subst this
        exact ⟨x, [x], (k2' x).1 (Dict.mem_keys_of_get? hv), WalkOf.single x⟩
      · exact hS x ((hmem x).1 ((k2' x).1 hx))
      · obtain ⟨v, hv⟩ := Dict.exists_get?_of_mem_keys ((k2' x).2 hx)
        exact ⟨v, hv, by rw [k3 x v hv]; exact Rat.le_refl⟩
      · refine List.pairwise_of_forall fun a b va vb hva hvb => ?_
        rw [k3 _ _ hva, k3 _ _ hvb]; exact Rat.le_refl
      · intro n1 q d1 _ hd1 x v hv
        rw [k3 _ _ hd1, k3 _ _ hv]; grind
  obtain ⟨r, h1, d, rfl, h2⟩ := key
  exact ⟨d, h1, h2⟩

end GT

/-
Python run-time vocabulary used by the model: exceptions as values, `while` loops,
insertion-ordered dictionaries and sets-as-lists.

Nothing in this file is specific to graph-theory; it is the (small) model of the Python
semantics the library relies on.
-/
namespace GT

/-- The Python exceptions the library raises (as values). -/
inductive Err where
  | valueError | typeError | keyError | indexError | attributeError
  | assertionError | stopIteration | exception | unSolvable | noSolution | unboundLocal
  | zeroDivision
  deriving DecidableEq, Repr

/-- Results of Python calls: a value or a raised exception. -/
abbrev Py (ρ : Type) := Except Err ρ

deriving instance DecidableEq for Except

/-! ### `while` loops -/

/-- A Python `while` loop.  `step` performs one iteration: `inl` continues with a new local
state, `inr` leaves the loop with a result.  A loop that never leaves denotes `none`:
`pyWhile step s = none` *means* that the loop diverges. -/
def pyWhile {σ ρ : Type} (step : σ → σ ⊕ ρ) (s : σ) : Option ρ :=
  match step s with
  | .inl s' => pyWhile step s'
  | .inr r => some r
partial_fixpoint

/-- Bounded execution, used only to evaluate concrete examples. -/
def runFuel {σ ρ : Type} (step : σ → σ ⊕ ρ) : Nat → σ → Option ρ
  | 0, _ => none
  | n + 1, s => match step s with
    | .inl s' => runFuel step n s'
    | .inr r => some r

theorem pyWhile_eq {σ ρ : Type} (step : σ → σ ⊕ ρ) (s : σ) :
    pyWhile step s = match step s with
      | .inl s' => pyWhile step s'
      | .inr r => some r := by
  rw [pyWhile]

theorem pyWhile_inl {σ ρ : Type} {step : σ → σ ⊕ ρ} {s s' : σ} (h : step s = .inl s') :
    pyWhile step s = pyWhile step s' := by
  rw [pyWhile_eq, h]

theorem pyWhile_inr {σ ρ : Type} {step : σ → σ ⊕ ρ} {s : σ} {r : ρ} (h : step s = .inr r) :
    pyWhile step s = some r := by
  rw [pyWhile_eq, h]

theorem pyWhile_of_runFuel {σ ρ : Type} {step : σ → σ ⊕ ρ} {n : Nat} {s : σ} {r : ρ}
    (h : runFuel step n s = some r) : pyWhile step s = some r := by
  induction n generalizing s with
  | zero => simp [runFuel] at h
  | succ n ih =>
    unfold runFuel at h
    cases hs : step s with
    | inl s' => rw [hs] at h; rw [pyWhile_inl hs]; exact ih h
    | inr r' => rw [hs] at h; rw [pyWhile_inr hs]; exact h

/-- Invariant rule: if the loop leaves with `r`, `Q r` holds. -/
theorem pyWhile_inv {σ ρ : Type} {step : σ → σ ⊕ ρ} (I : σ → Prop) (Q : ρ → Prop)
    (hstep : ∀ s s', I s → step s = .inl s' → I s')
    (hexit : ∀ s r, I s → step s = .inr r → Q r)
    {s : σ} {r : ρ} (hs : I s) (h : pyWhile step s = some r) : Q r := by
  refine pyWhile.partial_correctness step (fun s r => I s → Q r) ?_ s r h hs
  intro f ih s r hr hI
  split at hr
  · rename_i s' hs'; exact ih s' r hr (hstep s s' hI hs')
  · rename_i r' hs'; cases hr; exact hexit s _ hI hs'

/-- Termination rule: a measure that decreases along the invariant makes the loop leave. -/
theorem pyWhile_term {σ ρ : Type} {step : σ → σ ⊕ ρ} (I : σ → Prop) {W : Type}
    (lt : W → W → Prop) (wf : WellFounded lt) (m : σ → W)
    (hstep : ∀ s s', I s → step s = .inl s' → I s' ∧ lt (m s') (m s))
    {s : σ} (hs : I s) : ∃ r, pyWhile step s = some r := by
  generalize hw : m s = w
  induction w using wf.induction generalizing s with
  | _ w ih =>
    rw [pyWhile_eq]
    cases hst : step s with
    | inr r => exact ⟨r, rfl⟩
    | inl s' =>
      obtain ⟨hI, hlt⟩ := hstep s s' hs hst
      exact ih (m s') (hw ▸ hlt) hI rfl

/-- Total-correctness rule with a natural-number measure. -/
theorem pyWhile_total {σ ρ : Type} {step : σ → σ ⊕ ρ} (I : σ → Prop) (Q : ρ → Prop) (m : σ → Nat)
    (hstep : ∀ s s', I s → step s = .inl s' → I s' ∧ m s' < m s)
    (hexit : ∀ s r, I s → step s = .inr r → Q r)
    {s : σ} (hs : I s) : ∃ r, pyWhile step s = some r ∧ Q r := by
  obtain ⟨r, hr⟩ := pyWhile_term I (· < ·) Nat.lt_wfRel.wf m hstep hs
  exact ⟨r, hr, pyWhile_inv I Q (fun s s' h h' => (hstep s s' h h').1) hexit hs hr⟩

/-- Divergence rule: an invariant under which the loop never leaves. -/
theorem pyWhile_diverges {σ ρ : Type} {step : σ → σ ⊕ ρ} (I : σ → Prop)
    (hstep : ∀ s, I s → ∃ s', step s = .inl s' ∧ I s') {s : σ} (hs : I s) :
    pyWhile step s = none := by
  cases h : pyWhile step s with
  | none => rfl
  | some r =>
    refine (pyWhile_inv (Q := fun _ => False) I ?_ ?_ hs h).elim
    · intro s s' hI hs'
      obtain ⟨s'', h1, h2⟩ := hstep s hI
      rw [hs'] at h1; cases h1; exact h2
    · intro s r hI hs'
      obtain ⟨s'', h1, _⟩ := hstep s hI
      rw [hs'] at h1; cases h1

/-! ### Dictionaries (insertion ordered, as in CPython ≥ 3.7) -/

/-- A Python `dict`: its `items()` in iteration order. -/
structure Dict (K V : Type) where
  items : List (K × V)
  deriving DecidableEq, Repr

section AssocList
variable {K V : Type} [DecidableEq K]

/-- lookup in an association list -/
def aget (k : K) : List (K × V) → Option V
  | [] => none
  | (k', v) :: l => if k' = k then some v else aget k l

/-- `d[k] = v`: overwrite in place, or append at the end. -/
def aset (k : K) (v : V) : List (K × V) → List (K × V)
  | [] => [(k, v)]
  | (k', v') :: l => if k' = k then (k, v) :: l else (k', v') :: aset k v l

/-- `del d[k]` -/
def adel (k : K) : List (K × V) → List (K × V)
  | [] => []
  | (k', v') :: l => if k' = k then l else (k', v') :: adel k l

end AssocList

namespace Dict
variable {K V : Type}

/-- `{}` -/
def empty : Dict K V := ⟨[]⟩
/-- `list(d)` / `list(d.keys())` -/
def keys (d : Dict K V) : List K := d.items.map Prod.fst
/-- `list(d.values())` -/
def values (d : Dict K V) : List V := d.items.map Prod.snd
/-- `not d` -/
def isEmpty (d : Dict K V) : Bool := d.items.isEmpty

variable [DecidableEq K]

/-- `d.get(k)` -/
def get? (d : Dict K V) (k : K) : Option V := aget k d.items
/-- `d[k]`, raising `KeyError` -/
def getE (d : Dict K V) (k : K) : Py V :=
  match d.get? k with
  | some v => .ok v
  | none => .error .keyError
/-- `k in d` -/
def contains (d : Dict K V) (k : K) : Bool := (d.get? k).isSome
/-- `d[k] = v` -/
def set (d : Dict K V) (k : K) (v : V) : Dict K V := ⟨aset k v d.items⟩
/-- `del d[k]` for a key that may be absent (`try: del d[k] except KeyError: pass`) -/
def del (d : Dict K V) (k : K) : Dict K V := ⟨adel k d.items⟩
/-- `del d[k]`, raising `KeyError` -/
def delE (d : Dict K V) (k : K) : Py (Dict K V) :=
  if d.contains k then .ok (d.del k) else .error .keyError

/-- The keys of a real dict are unique. -/
def WF (d : Dict K V) : Prop := d.keys.Nodup

end Dict

section AssocLemmas
variable {K V : Type} [DecidableEq K]

theorem aget_eq_none_iff {k : K} {l : List (K × V)} : aget k l = none ↔ k ∉ l.map Prod.fst := by
  induction l with
  | nil => simp [aget]
  | cons p l ih =>
    obtain ⟨k', v⟩ := p
    simp only [aget, List.map_cons, List.mem_cons, not_or]
    split
    · rename_i h; simp [h]
    · rename_i h; rw [ih]; constructor
      · intro h2; exact ⟨fun h3 => h h3.symm, h2⟩
      · intro h2; exact h2.2

theorem aget_isSome_iff {k : K} {l : List (K × V)} : (aget k l).isSome ↔ k ∈ l.map Prod.fst := by
  have := @aget_eq_none_iff K V _ k l
  cases h : aget k l <;> simp_all

theorem mem_of_aget {k : K} {v : V} {l : List (K × V)} (h : aget k l = some v) : (k, v) ∈ l := by
  induction l with
  | nil => simp [aget] at h
  | cons p l ih =>
    obtain ⟨k', v'⟩ := p
    simp only [aget] at h
    split at h
    · cases h; subst_vars; simp
    · exact List.mem_cons_of_mem _ (ih h)

theorem aget_of_mem {k : K} {v : V} {l : List (K × V)} (hn : (l.map Prod.fst).Nodup)
    (h : (k, v) ∈ l) : aget k l = some v := by
  induction l with
  | nil => simp at h
  | cons p l ih =>
    obtain ⟨k', v'⟩ := p
    simp only [List.map_cons, List.nodup_cons] at hn
    simp only [aget]
    rcases List.mem_cons.1 h with h | h
    · cases h; simp
    · have : k' ≠ k := by
        intro hk; subst hk
        exact hn.1 (List.mem_map.2 ⟨(k', v), h, rfl⟩)
      simp [this, ih hn.2 h]

theorem aget_aset {k k' : K} {v : V} {l : List (K × V)} :
    aget k' (aset k v l) = if k = k' then some v else aget k' l := by
  induction l with
  | nil => simp [aset, aget]
  | cons p l ih =>
    obtain ⟨k2, v2⟩ := p
    simp only [aset]
    by_cases h : k2 = k
    · subst h; simp only [if_true, aget]; split <;> rfl
    · simp only [h, if_false, aget, ih]
      by_cases h2 : k2 = k'
      · have : k ≠ k' := fun h3 => h (h2.trans h3.symm)
        simp [h2, this]
      · simp [h2]

theorem aset_keys_of_mem {k : K} {v : V} {l : List (K × V)} (h : k ∈ l.map Prod.fst) :
    (aset k v l).map Prod.fst = l.map Prod.fst := by
  induction l with
  | nil => simp at h
  | cons p l ih =>
    obtain ⟨k2, v2⟩ := p
    simp only [aset]
    by_cases h2 : k2 = k
    · simp [h2]
    · simp only [h2, if_false, List.map_cons]
      have : k ∈ l.map Prod.fst := by
        rcases List.mem_cons.1 h with h | h
        · exact absurd h.symm h2
        · exact h
      rw [ih this]

theorem aset_of_not_mem {k : K} {v : V} {l : List (K × V)} (h : k ∉ l.map Prod.fst) :
    aset k v l = l ++ [(k, v)] := by
  induction l with
  | nil => rfl
  | cons p l ih =>
    obtain ⟨k2, v2⟩ := p
    simp only [List.map_cons, List.mem_cons, not_or] at h
    simp only [aset, if_neg (Ne.symm h.1), ih h.2, List.cons_append]

theorem aset_nodup {k : K} {v : V} {l : List (K × V)} (h : (l.map Prod.fst).Nodup) :
    ((aset k v l).map Prod.fst).Nodup := by
  by_cases hk : k ∈ l.map Prod.fst
  · rw [aset_keys_of_mem hk]; exact h
  · rw [aset_of_not_mem hk, List.map_append]
    simp only [List.map_cons, List.map_nil]
    rw [List.nodup_append]
    refine ⟨h, by simp, ?_⟩
    intro a ha b hb hab
    simp at hb; subst hb; subst hab; exact hk ha

theorem adel_keys_sublist {k : K} {l : List (K × V)} : (adel k l).Sublist l := by
  induction l with
  | nil => simp [adel]
  | cons p l ih =>
    obtain ⟨k2, v2⟩ := p
    simp only [adel]; split
    · exact List.sublist_cons_self _ _
    · exact ih.cons_cons _

theorem adel_nodup {k : K} {l : List (K × V)} (h : (l.map Prod.fst).Nodup) :
    ((adel k l).map Prod.fst).Nodup :=
  h.sublist (adel_keys_sublist.map _)

theorem aget_adel {k k' : K} {l : List (K × V)} (hn : (l.map Prod.fst).Nodup) :
    aget k' (adel k l) = if k = k' then none else aget k' l := by
  induction l with
  | nil => simp [adel, aget]
  | cons p l ih =>
    obtain ⟨k2, v2⟩ := p
    simp only [List.map_cons, List.nodup_cons] at hn
    simp only [adel]
    by_cases h : k2 = k
    · subst h
      simp only [if_true, aget]
      by_cases h2 : k2 = k'
      · subst h2; simp only [if_true]; exact aget_eq_none_iff.2 hn.1
      · simp [h2]
    · simp only [h, if_false, aget, ih hn.2]
      by_cases h2 : k2 = k'
      · have : k ≠ k' := fun h3 => h (h2.trans h3.symm)
        simp [h2, this]
      · simp [h2]

theorem adel_of_not_mem {k : K} {l : List (K × V)} (h : k ∉ l.map Prod.fst) : adel k l = l := by
  induction l with
  | nil => rfl
  | cons p l ih =>
    obtain ⟨k2, v2⟩ := p
    simp only [List.map_cons, List.mem_cons, not_or] at h
    simp only [adel, if_neg (Ne.symm h.1), ih h.2]

theorem adel_length {k : K} {l : List (K × V)} (h : k ∈ l.map Prod.fst) :
    (adel k l).length + 1 = l.length := by
  induction l with
  | nil => simp at h
  | cons p l ih =>
    obtain ⟨k2, v2⟩ := p
    simp only [adel]
    by_cases h2 : k2 = k
    · simp [h2]
    · simp only [h2, if_false, List.length_cons]
      have : k ∈ l.map Prod.fst := by
        rcases List.mem_cons.1 h with h | h
        · exact absurd h.symm h2
        · exact h
      rw [ih this]

theorem aset_length {k : K} {v : V} {l : List (K × V)} :
    (aset k v l).length = if k ∈ l.map Prod.fst then l.length else l.length + 1 := by
  split
  · rename_i h
    have := congrArg List.length (aset_keys_of_mem (v := v) h)
    simpa using this
  · rename_i h; rw [aset_of_not_mem h]; simp

theorem aset_ne_nil {k : K} {v : V} {l : List (K × V)} : aset k v l ≠ [] := by
  cases l with
  | nil => simp [aset]
  | cons p l => obtain ⟨a, b⟩ := p; simp only [aset]; split <;> simp

theorem adel_keys_mem {k k' : K} {l : List (K × V)} (hn : (l.map Prod.fst).Nodup) :
    k' ∈ (adel k l).map Prod.fst ↔ k' ≠ k ∧ k' ∈ l.map Prod.fst := by
  rw [← aget_isSome_iff, ← aget_isSome_iff, aget_adel hn]
  by_cases h : k = k'
  · simp [h]
  · simp [h, Ne.symm h]

theorem aset_keys_mem {k k' : K} {v : V} {l : List (K × V)} :
    k' ∈ (aset k v l).map Prod.fst ↔ k' = k ∨ k' ∈ l.map Prod.fst := by
  rw [← aget_isSome_iff, ← aget_isSome_iff, aget_aset]
  by_cases h : k = k'
  · simp [h]
  · simp [h, Ne.symm h]

end AssocLemmas

namespace Dict
variable {K V : Type} [DecidableEq K]

@[simp] theorem get?_empty (k : K) : (empty : Dict K V).get? k = none := rfl

theorem get?_set (d : Dict K V) (k k' : K) (v : V) :
    (d.set k v).get? k' = if k = k' then some v else d.get? k' := aget_aset

@[simp] theorem get?_set_self (d : Dict K V) (k : K) (v : V) : (d.set k v).get? k = some v := by
  simp [get?_set]

theorem get?_set_ne (d : Dict K V) {k k' : K} (v : V) (h : k ≠ k') :
    (d.set k v).get? k' = d.get? k' := by simp [get?_set, h]

theorem get?_del {d : Dict K V} (h : d.WF) (k k' : K) :
    (d.del k).get? k' = if k = k' then none else d.get? k' := aget_adel h

theorem contains_iff_keys (d : Dict K V) (k : K) : d.contains k = true ↔ k ∈ d.keys :=
  aget_isSome_iff

theorem get?_isSome_iff (d : Dict K V) (k : K) : (d.get? k).isSome ↔ k ∈ d.keys :=
  aget_isSome_iff

theorem get?_eq_none_iff (d : Dict K V) (k : K) : d.get? k = none ↔ k ∉ d.keys :=
  aget_eq_none_iff

theorem mem_keys_of_get? {d : Dict K V} {k : K} {v : V} (h : d.get? k = some v) : k ∈ d.keys := by
  rw [← get?_isSome_iff, h]; rfl

theorem exists_get?_of_mem_keys {d : Dict K V} {k : K} (h : k ∈ d.keys) :
    ∃ v, d.get? k = some v := by
  rw [← get?_isSome_iff] at h; exact Option.isSome_iff_exists.1 h

theorem get?_eq_some_iff {d : Dict K V} (h : d.WF) (k : K) (v : V) :
    d.get? k = some v ↔ (k, v) ∈ d.items := ⟨mem_of_aget, aget_of_mem h⟩

omit [DecidableEq K] in
@[simp] theorem wf_empty : (empty : Dict K V).WF := by simp [WF, empty, keys]

theorem WF.set {d : Dict K V} (h : d.WF) (k : K) (v : V) : (d.set k v).WF := aset_nodup h

theorem WF.del {d : Dict K V} (h : d.WF) (k : K) : (d.del k).WF := adel_nodup h

theorem mem_keys_set (d : Dict K V) (k k' : K) (v : V) :
    k' ∈ (d.set k v).keys ↔ k' = k ∨ k' ∈ d.keys := aset_keys_mem

theorem mem_keys_del {d : Dict K V} (h : d.WF) (k k' : K) :
    k' ∈ (d.del k).keys ↔ k' ≠ k ∧ k' ∈ d.keys := adel_keys_mem h

theorem keys_set_of_mem {d : Dict K V} {k : K} (v : V) (h : k ∈ d.keys) :
    (d.set k v).keys = d.keys := aset_keys_of_mem h

theorem keys_set_of_not_mem {d : Dict K V} {k : K} (v : V) (h : k ∉ d.keys) :
    (d.set k v).keys = d.keys ++ [k] := by
  simp [Dict.set, Dict.keys, aset_of_not_mem h]

theorem items_set_of_not_mem {d : Dict K V} {k : K} (v : V) (h : k ∉ d.keys) :
    (d.set k v).items = d.items ++ [(k, v)] := aset_of_not_mem h

omit [DecidableEq K] in
theorem isEmpty_iff (d : Dict K V) : d.isEmpty = true ↔ d.items = [] := by
  simp [isEmpty]

end Dict

/-! ### Sets as duplicate-free lists -/

/-- `s.add(x)` -/
def sadd {α : Type} [DecidableEq α] (s : List α) (x : α) : List α := if x ∈ s then s else s ++ [x]

section
variable {α : Type} [DecidableEq α]

@[simp] theorem mem_sadd {s : List α} {x y : α} : y ∈ sadd s x ↔ y = x ∨ y ∈ s := by
  unfold sadd; split
  · rename_i h; constructor
    · exact Or.inr
    · rintro (rfl | h2)
      · exact h
      · exact h2
  · simp [or_comm]

theorem nodup_sadd {s : List α} {x : α} (h : s.Nodup) : (sadd s x).Nodup := by
  unfold sadd; split
  · exact h
  · rename_i hx
    rw [List.nodup_append]
    refine ⟨h, by simp, ?_⟩
    intro a ha b hb hab
    simp at hb; subst hb; subst hab; exact hx ha

/-- `set(xs)` / `s.update(xs)` -/
def saddAll (s : List α) (xs : List α) : List α := xs.foldl sadd s

@[simp] theorem mem_saddAll {s xs : List α} {y : α} : y ∈ saddAll s xs ↔ y ∈ s ∨ y ∈ xs := by
  unfold saddAll
  induction xs generalizing s with
  | nil => simp
  | cons x xs ih =>
    simp only [List.foldl_cons, ih, mem_sadd, List.mem_cons]
    constructor
    · rintro ((h | h) | h)
      · exact Or.inr (Or.inl h)
      · exact Or.inl h
      · exact Or.inr (Or.inr h)
    · rintro (h | h | h)
      · exact Or.inl (Or.inr h)
      · exact Or.inl (Or.inl h)
      · exact Or.inr h

theorem nodup_saddAll {s xs : List α} (h : s.Nodup) : (saddAll s xs).Nodup := by
  unfold saddAll
  induction xs generalizing s with
  | nil => simpa
  | cons x xs ih => exact ih (nodup_sadd h)

end

end GT

namespace GT

/-! ### `while` loops whose body may itself diverge (nested loops) -/

/-- A Python `while` loop whose body contains another loop: `step s = none` means that the body
diverges, and then the whole loop diverges. -/
def pyWhileD {σ ρ : Type} (step : σ → Option (σ ⊕ ρ)) (s : σ) : Option ρ :=
  match step s with
  | none => none
  | some (.inl s') => pyWhileD step s'
  | some (.inr r) => some r
partial_fixpoint

theorem pyWhileD_eq {σ ρ : Type} (step : σ → Option (σ ⊕ ρ)) (s : σ) :
    pyWhileD step s = match step s with
      | none => none
      | some (.inl s') => pyWhileD step s'
      | some (.inr r) => some r := by
  rw [pyWhileD]

/-- Total-correctness rule for nested loops, any well-founded order. -/
theorem pyWhileD_total {σ ρ : Type} {step : σ → Option (σ ⊕ ρ)} (I : σ → Prop) (Q : ρ → Prop) {W : Type}
    (lt : W → W → Prop) (wf : WellFounded lt) (m : σ → W)
    (hstep : ∀ s, I s → (∃ s', step s = some (.inl s') ∧ I s' ∧ lt (m s') (m s)) ∨
      (∃ r, step s = some (.inr r) ∧ Q r))
    {s : σ} (hs : I s) : ∃ r, pyWhileD step s = some r ∧ Q r := by
  generalize hw : m s = w
  induction w using wf.induction generalizing s with
  | _ w ih =>
    rw [pyWhileD_eq]
    rcases hstep s hs with ⟨s', h1, h2, h3⟩ | ⟨r, h1, h2⟩
    · rw [h1]; exact ih (m s') (hw ▸ h3) h2 rfl
    · rw [h1]; exact ⟨r, rfl, h2⟩

/-- Divergence rule for nested loops. -/
theorem pyWhileD_diverges {σ ρ : Type} {step : σ → Option (σ ⊕ ρ)} (I : σ → Prop)
    (hstep : ∀ s, I s → step s = none ∨ ∃ s', step s = some (.inl s') ∧ I s') {s : σ} (hs : I s) :
    pyWhileD step s = none := by
  cases h : pyWhileD step s with
  | none => rfl
  | some r =>
    exfalso
    refine pyWhileD.partial_correctness step (fun s _ => I s → False) ?_ s r h hs
    intro f ih s r hr hI
    rcases hstep s hI with h1 | ⟨s', h1, h2⟩
    · rw [h1] at hr; simp at hr
    · rw [h1] at hr; exact ih s' r hr h2

/-- Partial-correctness rule for nested loops. -/
theorem pyWhileD_inv {σ ρ : Type} {step : σ → Option (σ ⊕ ρ)} (I : σ → Prop) (Q : ρ → Prop)
    (hstep : ∀ s s', I s → step s = some (.inl s') → I s')
    (hexit : ∀ s r, I s → step s = some (.inr r) → Q r)
    {s : σ} {r : ρ} (hs : I s) (h : pyWhileD step s = some r) : Q r := by
  refine pyWhileD.partial_correctness step (fun s r => I s → Q r) ?_ s r h hs
  intro f ih s r hr hI
  split at hr
  · simp at hr
  · rename_i s' hs'; exact ih s' r hr (hstep s s' hI hs')
  · rename_i r' hs'; cases hr; exact hexit s _ hI hs'

/-- Total-correctness rule with any well-founded order. -/
theorem pyWhile_totalW {σ ρ : Type} {step : σ → σ ⊕ ρ} (I : σ → Prop) (Q : ρ → Prop) {W : Type}
    (lt : W → W → Prop) (wf : WellFounded lt) (m : σ → W)
    (hstep : ∀ s s', I s → step s = .inl s' → I s' ∧ lt (m s') (m s))
    (hexit : ∀ s r, I s → step s = .inr r → Q r)
    {s : σ} (hs : I s) : ∃ r, pyWhile step s = some r ∧ Q r := by
  obtain ⟨r, hr⟩ := pyWhile_term I lt wf m hstep hs
  exact ⟨r, hr, pyWhile_inv I Q (fun s s' h h' => (hstep s s' h h').1) hexit hs hr⟩

/-- lexicographic order on pairs of numbers -/
def lexNat : Nat × Nat → Nat × Nat → Prop := Prod.Lex (· < ·) (· < ·)

theorem lexNat_wf : WellFounded lexNat := (Prod.lex Nat.lt_wfRel Nat.lt_wfRel).wf

theorem lexNat_left {a b c d : Nat} (h : a < b) : lexNat (a, c) (b, d) := Prod.Lex.left _ _ h

theorem lexNat_right {a b c d : Nat} (h : a ≤ b) (h2 : c < d) : lexNat (a, c) (b, d) := by
  rcases Nat.lt_or_eq_of_le h with h3 | h3
  · exact Prod.Lex.left _ _ h3
  · subst h3; exact Prod.Lex.right _ h2

/-- bounded evaluation of nested loops, for examples only -/
def runFuelD {σ ρ : Type} (step : σ → Option (σ ⊕ ρ)) : Nat → σ → Option ρ
  | 0, _ => none
  | n + 1, s => match step s with
    | none => none
    | some (.inl s') => runFuelD step n s'
    | some (.inr r) => some r

theorem pyWhileD_of_runFuel {σ ρ : Type} {step : σ → Option (σ ⊕ ρ)} {n : Nat} {s : σ} {r : ρ}
    (h : runFuelD step n s = some r) : pyWhileD step s = some r := by
  induction n generalizing s with
  | zero => simp [runFuelD] at h
  | succ n ih =>
    unfold runFuelD at h
    rw [pyWhileD_eq]
    cases hs : step s with
    | none => rw [hs] at h; cases h
    | some o => cases o with
      | inl s' => rw [hs] at h; exact ih h
      | inr r' => rw [hs] at h; exact h

end GT

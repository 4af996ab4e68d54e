import Verif.Spec.Walks
import Verif.Py
/-
Specification of comparisons that can fail.  In Python `1 < "a"` raises `TypeError`.
-/
namespace GT
variable {α : Type}

/-- the longest walk that ends in `x` has exactly `k` edges (there is no such `k` if `x` is on or behind a cycle) -/
def Height (R : α → α → Prop) (k : Nat) (x : α) : Prop :=
  (∃ a, Steps R k a x) ∧ ∀ m a, Steps R m a x → m ≤ k

/-- `sorted(l, key=key)` where `key(a) < key(b)` can be evaluated exactly if `Cmp a b`: it raises `TypeError` if two elements of the list cannot be
compared, and returns the elements in some order otherwise.  (A sort that compares no incomparable elements could not know the order of them; with
fewer than two elements nothing is compared, hence `a ≠ b`.) -/
structure SortMayFail (Cmp : α → α → Prop) (srt : List α → Py (List α)) : Prop where
  perm : ∀ l r, srt l = .ok r → r.Perm l
  fails : ∀ l, (∃ a ∈ l, ∃ b ∈ l, a ≠ b ∧ ¬ Cmp a b) → srt l = .error .typeError
  works : ∀ l, (∀ a ∈ l, ∀ b ∈ l, a ≠ b → Cmp a b) → ∃ r, srt l = .ok r

/-- two nodes of `S` with the same height `k` that cannot be compared -/
def MixedLayer (Cmp R : α → α → Prop) (S : α → Prop) (k : Nat) : Prop :=
  ∃ x y, S x ∧ S y ∧ Height R k x ∧ Height R k y ∧ x ≠ y ∧ ¬ Cmp x y

/-- `layers` are the nodes of `S` of height 0, 1, 2, …, each sorted by `srt` -/
def SortedLayers (srt : List α → Py (List α)) (R : α → α → Prop) (S : α → Prop) (layers : List (List α)) : Prop :=
  ∀ k L, layers[k]? = some L → ∃ l, srt l = .ok L ∧ l.Nodup ∧ ∀ x, x ∈ l ↔ S x ∧ Height R k x

end GT

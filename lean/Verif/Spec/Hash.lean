/-
Independent specification vocabulary: hash trees.  Nothing here refers to the model of the library.
`H` is a hash function on byte strings (`List B`).
-/
namespace GT
variable {B : Type}

/-- the pairs of digests that are combined when the digests `q` are reduced, two from the front at a time, to one -/
def merklePairs (H : List B → List B) : List (List B) → List (List B × List B)
  | a :: b :: q => (a, b) :: merklePairs H (q ++ [H (a ++ b)])
  | [] => []
  | [_] => []
  termination_by q => q.length

/-- all strings that are hashed for the blocks -/
def merkleInputs (H : List B → List B) (blocks : List (List B)) : List (List B) :=
  blocks ++ (merklePairs H (blocks.map H)).map (fun p => p.1 ++ p.2)

/-- no two different strings of the list have the same hash -/
def NoCollision {C : Type} (H : List B → C) (l : List (List B)) : Prop := ∀ x ∈ l, ∀ y ∈ l, H x = H y → x = y

end GT

/-
Independent specification vocabulary: CPython's hashes of integers and tuples (64 bit, CPython 3.8 and later; Objects/longobject.c,
Objects/tupleobject.c).  Nothing here refers to the model of the library.
-/
namespace GT

/-- `hash(n)`: reduced modulo `2^61 - 1`, and -1 is replaced by -2 -/
def hashInt (n : Int) : Int :=
  let m : Int := (n.natAbs % (2 ^ 61 - 1) : Nat)
  let v := if n < 0 then -m else m
  if v = -1 then -2 else v

/-- one round of the xxHash of a tuple -/
def tupleRound (acc : Nat) (lane : Int) : Nat :=
  let a := (acc + (lane % 2 ^ 64).toNat * 14029467366897019727) % 2 ^ 64
  let r := (a * 2 ^ 31) % 2 ^ 64 + a / 2 ^ 33
  r * 11400714785074694791 % 2 ^ 64

/-- `hash(t)` of a tuple whose items have the hashes `l` -/
def hashTuple (l : List Int) : Int :=
  let a : Nat := (l.foldl tupleRound 2870177450012600261 + Nat.xor l.length (Nat.xor 2870177450012600261 3527539)) % 2 ^ 64
  if a = 2 ^ 64 - 1 then 1546275796 else if 2 ^ 63 ≤ a then (a : Int) - 2 ^ 64 else a

/-- `hash(((i, x), (j, y), ...))` for integers -/
def hashPairs (p : List (Int × Int)) : Int := hashTuple (p.map (fun x => hashTuple [hashInt x.1, hashInt x.2]))

/-- the values CPython prints -/
example : hashInt (-1) = -2 ∧ hashInt (10 ^ 20) = 848750603811160107 ∧ hashTuple [1, -2] = -6779188579744246035 ∧
    hashPairs [(1, -1)] = 4396512139025304569 := by decide +kernel
end GT

/-
Specification: points in space and their distances.
-/
namespace GT

/-- the square of the Euclidean distance of two points -/
def sqDist : Rat × Rat × Rat → Rat × Rat × Rat → Rat
  | (x, y, z), (x', y', z') => (x - x') ^ 2 + (y - y') ^ 2 + (z - z') ^ 2

end GT

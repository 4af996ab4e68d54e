/-
Specification: what is shown in a 3D chart whose axes are rotated.
-/
namespace GT

/-- coordinate number 0, 1 or 2 of a point -/
def coord (p : Rat × Rat × Rat) : Nat → Rat
  | 0 => p.1
  | 1 => p.2.1
  | _ => p.2.2

/-- the place at which a point is shown with the rotation `r`: its coordinate number `i` is drawn on the axis `r[i]` -/
def shownAt (r : List Char) (p : Rat × Rat × Rat) : Rat × Rat × Rat :=
  (coord p (r.idxOf 'x'), coord p (r.idxOf 'y'), coord p (r.idxOf 'z'))

/-- a box: for every axis the lower and the upper limit -/
abbrev Box := (Rat × Rat) × (Rat × Rat) × (Rat × Rat)

/-- the point lies in the box -/
def Box.Holds (b : Box) (p : Rat × Rat × Rat) : Prop :=
  (b.1.1 ≤ p.1 ∧ p.1 ≤ b.1.2) ∧ (b.2.1.1 ≤ p.2.1 ∧ p.2.1 ≤ b.2.1.2) ∧ (b.2.2.1 ≤ p.2.2 ∧ p.2.2 ≤ b.2.2.2)

/-- the three sides of the box have the length `d` -/
def Box.Cube (b : Box) (d : Rat) : Prop := b.1.2 - b.1.1 = d ∧ b.2.1.2 - b.2.1.1 = d ∧ b.2.2.2 - b.2.2.1 = d

end GT

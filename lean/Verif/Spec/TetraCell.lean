import Mathlib.MeasureTheory.Measure.Lebesgue.Basic
import Mathlib.MeasureTheory.Measure.Prod

/-!
# Specification: linear interpolation in the six tetrahedra of a cell

The corners of the unit cell are numbered in binary: bit 0 of the number of a corner is its coordinate along the first
direction, bit 1 along the second, bit 2 along the third.
-/

namespace TB.Smear.Spec

open MeasureTheory

/-- Interpolation along the path from corner 0 over the corners `i` and `j` to corner 7, with the coordinates in falling order. -/
def path (v : Fin 8 → ℝ) (i j : Fin 8) (large middle small : ℝ) : ℝ :=
  v 0 + (v i - v 0) * large + (v j - v i) * middle + (v 7 - v j) * small

/-- Value at a point of the cell: linear in each of the six tetrahedra around the diagonal from corner 0 to corner 7. -/
noncomputable def interp (v : Fin 8 → ℝ) (x y z : ℝ) : ℝ :=
  if y ≤ x then
    if z ≤ y then path v 1 3 x y z else if z ≤ x then path v 1 5 x z y else path v 4 5 z x y
  else
    if z ≤ x then path v 2 3 y x z else if z ≤ y then path v 2 6 y z x else path v 4 6 z y x

/-- Fraction of the cell on which the interpolation is below a value. -/
noncomputable def cellBelow (v : Fin 8 → ℝ) (e : ℝ) : ℝ :=
  volume.real {p : ℝ × ℝ × ℝ | (0 < p.1 ∧ p.1 ≤ 1) ∧ (0 < p.2.1 ∧ p.2.1 ≤ 1) ∧ (0 < p.2.2 ∧ p.2.2 ≤ 1) ∧
    interp v p.1 p.2.1 p.2.2 < e}

end TB.Smear.Spec

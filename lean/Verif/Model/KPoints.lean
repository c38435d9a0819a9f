import Mathlib.Analysis.SpecialFunctions.Trigonometric.Basic
import Mathlib.LinearAlgebra.Matrix.Notation
import Verif.Model.Err

/-!
# Model of the named k-points in `kpaths.py`: the global dictionary, `_hsp`, `hexagonal_points`, `tetragonal_bc_points`, `trigonal_points`

Exact real numbers.  A dictionary is the list of its entries (key, point, label) in the order of insertion; no key is inserted twice.
`np.linalg.lstsq` is a parameter.  `x**.5` is `Real.sqrt`.  Divisions by zero (`c = 0`, `alpha = 0`) are not modelled.
-/

namespace TB.KPts
open Matrix

/-- A point of k-space. -/
abbrev V3 := Fin 3 → ℝ

/-- An entry `points[key] = (point, label)`. -/
abbrev Entry (d : ℕ) := String × (Fin d → ℝ) × String

/-- The three-dimensional entries of `kpaths.points` (kpaths.py 5-23). -/
noncomputable def cubicPoints : List (Entry 3) :=
  [("G", ![0, 0, 0], "Γ"), ("O", ![0, 0, 0], "Γ"),
   ("X2", ![0, 1, 0], "X"), ("K", ![3 / 4, 3 / 4, 0], "K"), ("L", ![1 / 2, 1 / 2, 1 / 2], "L"), ("W", ![1 / 2, 1, 0], "W"),
   ("U", ![1 / 4, 1, 1 / 4], "U"),
   ("X", (0.5 : ℝ) • ![0, 1, 0], "X"), ("M", (0.5 : ℝ) • ![1, 1, 0], "M"), ("R", (0.5 : ℝ) • ![1, 1, 1], "R"),
   ("H", ![1, 0, 0], "H"), ("H1", ![0, 1, 0], "$H_1$"), ("N", ![1 / 2, 1 / 2, 0], "N"), ("P", ![1 / 2, 1 / 2, 1 / 2], "P")]

/-- The two-dimensional entries of `kpaths.points` (kpaths.py 24-28). -/
noncomputable def squarePoints : List (Entry 2) :=
  [("G2d", (0.5 : ℝ) • ![0, 0], "Γ"), ("X2d", (0.5 : ℝ) • ![0, 1], "X"), ("X12d", (0.5 : ℝ) • ![1, 0], "$X_1$"), ("M2d", (0.5 : ℝ) • ![1, 1], "M")]

/-- The one-dimensional entries of `kpaths.points` (kpaths.py 29-31). -/
noncomputable def linePoints : List (Entry 1) := [("G1d", (0.5 : ℝ) • ![0], "Γ"), ("X1d", (0.5 : ℝ) • ![1], "X")]

variable (lstsq : List V3 → List ℝ → V3)

/-- `_hsp` (kpaths.py 364-374). -/
def hsp (rows : List V3) : V3 := lstsq rows (rows.map fun a => a ⬝ᵥ a)

/-- `hexagonal_points` (kpaths.py 377-395). -/
noncomputable def hexagonalPoints (r h : ℝ) : List (Entry 3) :=
  [("G", 0, "Γ"), ("A", ![0, 0, h / 2], "A"), ("K", ![r / 1.5, 0, 0], "K"), ("H", ![r / 1.5, 0, h / 2], "H"),
   ("M", ![0.5 * r, 0.5 / Real.sqrt 3 * r, 0], "M"), ("L", ![0.5 * r, 0.5 / Real.sqrt 3 * r, h / 2], "L")]

/-- The dictionary built by `tetragonal_bc_points` for `c < 1` (kpaths.py 411-420). -/
noncomputable def tetraFlat (c : ℝ) : List (Entry 3) :=
  let X : V3 := ![0.5, 0.5, 0]
  let M : V3 := ![1, 0, 0]
  let N : V3 := ![0.5, 0, 0.5 / c]
  let Z1 := hsp lstsq [N, M]
  [("G", 0, "Γ"), ("X", X, "X"), ("M", M, "M"), ("N", N, "N"), ("Z1", Z1, "$Z_1$"), ("Z", ![0, 0, 2 * N 2 - Z1 2], "Z"), ("P", ![0.5, 0.5, N 2], "P")]

/-- The dictionary built by `tetragonal_bc_points` for `c > 1` (kpaths.py 411-413, 421-440). -/
noncomputable def tetraTall (c : ℝ) : List (Entry 3) :=
  let X : V3 := ![0.5, 0.5, 0]
  let M : V3 := ![0, 0, 1 / c]
  let N : V3 := ![0.5, 0, 0.5 / c]
  let N0 : V3 := ![0.5, 0, -0.5 / c]
  let N1 : V3 := ![0, 0.5, 0.5 / c]
  let Sig := hsp lstsq [N, N0]
  let S := hsp lstsq [M, N]
  let R := hsp lstsq [N, N0, X]
  let P := hsp lstsq [N, N1, X]
  let Y1 := hsp lstsq [N, N1, M]
  [("G", 0, "Γ"), ("X", X, "X"), ("M", M, "M"), ("M2", ![0, 0, -1 / c], "$M_2$"), ("Z", ![0, 0, 1 / c], "Z"), ("N", N, "N"), ("N0", N0, "$N_0$"),
   ("N1", N1, "$N_1$"), ("Sig", Sig, "Σ"), ("S0", Sig, "$S_0$"), ("S", S, "S"), ("Sig1", S, "$\\Sigma_1$"), ("S2", ![S 0, S 1, -S 2], "$S_2$"),
   ("R", R, "R"), ("Y", R, "Y"), ("P", P, "P"), ("Y1", Y1, "$Y_1$"), ("GG", Y1, "G"), ("G0", ![Y1 0, Y1 1, -Y1 2], "$G_0$")]

open Classical in
/-- `tetragonal_bc_points` (kpaths.py 397-440): the module variable `points` afterwards and the result.  `global points` in the branch `c == 1`
holds for the whole function, so the other branches assign the module variable as well. -/
noncomputable def tetragonalBcPoints (g : List (Entry 3)) (c : ℝ) : List (Entry 3) × List (Entry 3) :=
  if c = 1 then (g, g)
  else if c < 1 then (tetraFlat lstsq c, tetraFlat lstsq c)
  else (tetraTall lstsq c, tetraTall lstsq c)

/-- The points of `trigonal_points` for `alpha < 90°` before the exchange of axes (kpaths.py 464-482). -/
noncomputable def trigAcute (s c h : ℝ) : List (Entry 3) :=
  let l2 := 1 / 9 / s ^ 2 + 1 / 36 / c ^ 2
  let Z : V3 := ![0, 0, h / 2]
  let L : V3 := ![1 / Real.sqrt 3 / s / 2, -1 / 3 / s / 2, h / 6]
  let L1 : V3 := ![1 / Real.sqrt 3 / s / 2, 1 / 3 / s / 2, -h / 6]
  let F : V3 := ![1 / Real.sqrt 3 / s / 2, 1 / 3 / s / 2, h / 3]
  [("G", 0, "Γ"), ("Z", Z, "Z"), ("L", L, "L"), ("L1", L1, "$L_1$"), ("F", F, "F"), ("X", ![l2 / (1 / Real.sqrt 3 / s / 2), 0, 0], "X"),
   ("P", hsp lstsq [Z, L], "P"), ("P1", hsp lstsq [Z, F], "$P_1$"), ("P2", hsp lstsq [F, L1], "$P_2$"), ("Q", hsp lstsq [F, L], "Q"),
   ("B", hsp lstsq [Z, F, L], "B"), ("B1", hsp lstsq [L1, F, L], "$B_1$")]

/-- The points of `trigonal_points` for `alpha >= 90°` before the exchange of axes (kpaths.py 464-465, 483-495). -/
noncomputable def trigObtuse (s h : ℝ) : List (Entry 3) :=
  let l2 := (1 / s / 3) ^ 2 + (h / 6) ^ 2
  [("G", 0, "Γ"), ("X", ![1 / Real.sqrt 3 / s, 0, 0], "X"), ("F", ![1 / Real.sqrt 3 / s / 2, 1 / s / 2, 0], "F"),
   ("F1", ![-1 / Real.sqrt 3 / s / 2, 1 / s / 2, 0], "$F_1$"), ("L", ![0, 1 / s / 3, h / 6], "L"),
   ("Z", ![1 / Real.sqrt 3 / s, 1 / s / 3, h / 6], "Z"), ("Q", ![0, 0, l2 / (h / 6)], "Q"),
   ("Q1", ![0, 2 / 3 / s, h / 3 - l2 / (h / 6)], "$Q_1$"), ("P1", ![0, 2 / 3 / s, (h / 6 - l2 / (h / 6)) / 2], "$P_1$"),
   ("P", ![1 / Real.sqrt 3 / s, 1 / s / 3, -(h / 6 - l2 / (h / 6)) / 2], "P")]

/-- The exchange of the first two coordinates (kpaths.py 496-499). -/
def swapXY (D : List (Entry 3)) : List (Entry 3) := D.map fun e => (e.1, ![e.2.1 1, e.2.1 0, e.2.1 2], e.2.2)

open Classical in
/-- `trigonal_points` (kpaths.py 443-500). -/
noncomputable def trigonalPoints (α : ℝ) (mirrorX : Bool) : Except Err (List (Entry 3)) :=
  let c := Real.sqrt ((1 + 2 * Real.cos α) / 3)
  let s := Real.sqrt (4 / 3) * Real.sin (α / 2)
  let h := 1 / c
  if α < 90 / 180 * Real.pi then .ok (if mirrorX then trigAcute lstsq s c h else swapXY (trigAcute lstsq s c h))
  else if α < 120 / 180 * Real.pi then .ok (if mirrorX then trigObtuse s h else swapXY (trigObtuse s h))
  else .error .assertionError

end TB.KPts

import Mathlib.Analysis.SpecialFunctions.Trigonometric.Basic
import Mathlib.Analysis.SpecialFunctions.Pow.Real
import Mathlib.LinearAlgebra.Matrix.Determinant.Basic
import Mathlib.LinearAlgebra.Matrix.Notation
import Verif.Model.Err

/-!
# Model of the lattice constructors and of the density scaling in `qespresso_interface.py`

Numbers are exact reals.  `3**.5` and `x**.5` are `Real.sqrt` (the arguments are never negative where they are reached).
-/

namespace TB.Lat
open Matrix

/-- A lattice: the lattice vectors are the columns. -/
abbrev Mat3 := Matrix (Fin 3) (Fin 3) ℝ

/-- `np.array([v0, v1, v2]).T`. -/
def cols (v0 v1 v2 : Fin 3 → ℝ) : Mat3 := (Matrix.of ![v0, v1, v2])ᵀ

/-- `sc` (qespresso_interface.py 132-133). -/
def sc (a : ℝ) : Mat3 := a • (1 : Mat3)

/-- `fcc` (136-137). -/
noncomputable def fcc (a : ℝ) : Mat3 := (a / 2) • cols ![-1, 0, 1] ![0, 1, 1] ![-1, 1, 0]

/-- `bcc` (140-141). -/
noncomputable def bcc (a : ℝ) : Mat3 := (a / 2) • cols ![1, 1, 1] ![-1, 1, 1] ![-1, -1, 1]

/-- `hexagonal` (144-145).  `c/a` is a division by zero for `a = 0`. -/
noncomputable def hexagonal (a c : ℝ) : Except Err Mat3 :=
  if a = 0 then .error .zeroDivision
  else .ok (a • cols ![1, 0, 0] ![-1 / 2, Real.sqrt 3 / 2, 0] ![0, 0, c / a])

open Classical in
/-- `triclinic` (148-160). -/
noncomputable def triclinic (a b c α β γ : ℝ) : Except Err Mat3 :=
  if ¬ (a > 0 ∧ b > 0 ∧ c > 0) then .error .assertionError
  else if ¬ (Real.pi > α ∧ α > 0 ∧ Real.pi > β ∧ β > 0 ∧ Real.pi > γ ∧ γ > 0) then .error .assertionError
  else if ¬ (α + β + γ < Real.pi * 2) then .error .assertionError
  else
    let bc := Real.cos β
    let bs := Real.sin β
    let gc := Real.cos γ
    let gs := Real.sin γ
    let v := (Real.cos α - gc * bc) / gs
    if ¬ (v * v < bs * bs) then .error .assertionError
    else .ok (cols ![a, 0, 0] ![gc * b, Real.sin γ * b, 0] ![bc * c, v * c, Real.sqrt (bs * bs - v * v) * c])

open Classical in
/-- `monoclinic` (163-168). -/
noncomputable def monoclinic (a b c β : ℝ) : Except Err Mat3 :=
  if ¬ (a > 0 ∧ b > 0 ∧ c > 0) then .error .assertionError
  else if ¬ (Real.pi > β ∧ β > 0) then .error .assertionError
  else .ok (cols ![a, 0, 0] ![0, b, 0] ![Real.cos β * c, 0, Real.sin β * c])

open Classical in
/-- `monoclinic_base_centered` (171-176). -/
noncomputable def monoclinicBase (a b c β : ℝ) : Except Err Mat3 :=
  if ¬ (a > 0 ∧ b > 0 ∧ c > 0) then .error .assertionError
  else if ¬ (Real.pi > β ∧ β > 0) then .error .assertionError
  else .ok (cols ![1 / 2 * a, -1 / 2 * b, 0] ![1 / 2 * a, 1 / 2 * b, 0] ![Real.cos β * c, 0, Real.sin β * c])

open Classical in
/-- `orthorhombic` (179-183). -/
noncomputable def orthorhombic (a b c : ℝ) : Except Err Mat3 :=
  if ¬ (a > 0 ∧ b > 0 ∧ c > 0) then .error .assertionError
  else .ok (cols ![a, 0, 0] ![0, b, 0] ![0, 0, c])

open Classical in
/-- `orthorhombic_base_centered` (186-190). -/
noncomputable def orthoBase (a b c : ℝ) : Except Err Mat3 :=
  if ¬ (a > 0 ∧ b > 0 ∧ c > 0) then .error .assertionError
  else .ok (cols ![1 / 2 * a, -1 / 2 * b, 0] ![1 / 2 * a, 1 / 2 * b, 0] ![0, 0, c])

open Classical in
/-- `orthorhombic_body_centered` (193-197). -/
noncomputable def orthoBody (a b c : ℝ) : Except Err Mat3 :=
  if ¬ (a > 0 ∧ b > 0 ∧ c > 0) then .error .assertionError
  else .ok (cols ![-1 / 2 * a, 1 / 2 * b, 1 / 2 * c] ![1 / 2 * a, -1 / 2 * b, 1 / 2 * c] ![1 / 2 * a, 1 / 2 * b, -1 / 2 * c])

open Classical in
/-- `orthorhombic_face_centered` (200-204). -/
noncomputable def orthoFace (a b c : ℝ) : Except Err Mat3 :=
  if ¬ (a > 0 ∧ b > 0 ∧ c > 0) then .error .assertionError
  else .ok (cols ![0, 1 / 2 * b, 1 / 2 * c] ![1 / 2 * a, 0, 1 / 2 * c] ![1 / 2 * a, 1 / 2 * b, 0])

open Classical in
/-- `tetragonal` (207-211). -/
noncomputable def tetragonal (a c : ℝ) : Except Err Mat3 :=
  if ¬ (a > 0 ∧ c > 0) then .error .assertionError
  else .ok (cols ![a, 0, 0] ![0, a, 0] ![0, 0, c])

open Classical in
/-- `tetragonal_body_centered` (214-218). -/
noncomputable def tetraBody (a c : ℝ) : Except Err Mat3 :=
  if ¬ (a > 0 ∧ c > 0) then .error .assertionError
  else .ok (cols ![-1 / 2 * a, 1 / 2 * a, 1 / 2 * c] ![1 / 2 * a, -1 / 2 * a, 1 / 2 * c] ![1 / 2 * a, 1 / 2 * a, -1 / 2 * c])

open Classical in
/-- `rhombohedral` (221-231). -/
noncomputable def rhombohedral (a α : ℝ) : Except Err Mat3 :=
  if ¬ (a > 0) then .error .assertionError
  else if ¬ (α > 0 ∧ α < 2 * Real.pi / 3) then .error .assertionError
  else
    let v := 2 / 3 - 2 / 3 * Real.cos α
    let h := Real.sqrt (1 - v) * a
    let r := Real.sqrt v * a
    .ok (cols ![r, 0, h] ![-1 / 2 * r, Real.sqrt 3 / 2 * r, h] ![-1 / 2 * r, -Real.sqrt 3 / 2 * r, h])

/-- `mass_density` (397-404) with the mass of one cell (`_mass_per_cell`, from the element tables) and the length of the
lattice unit in metres (`lattice_vectors_in_m`, 414-419). -/
noncomputable def massDensity (mass unit : ℝ) (A : Mat3) : ℝ := mass / (unit • A).det

open Classical in
/-- `scale_to_density` (406-412): the lattice afterwards.  A fractional power of a negative number is NaN in numpy; `none` is
the array of NaN. -/
noncomputable def scaleToDensity (mass unit : ℝ) (A : Mat3) (density : ℝ) : Option Mat3 :=
  let q := massDensity mass unit A / density
  if q < 0 then none else some ((q ^ ((1 : ℝ) / 3)) • A)

end TB.Lat

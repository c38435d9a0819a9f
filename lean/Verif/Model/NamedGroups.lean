import Mathlib.Analysis.SpecialFunctions.Trigonometric.Basic
import Mathlib.LinearAlgebra.Matrix.Notation
import Verif.Model.Symmetry

/-!
# Model of `symmetry.py`: the named groups

The groups with integer entries are modelled over `ℚ` (so that they can be evaluated), the rotations by fractions of the full
circle over `ℝ`.  `icosahedral` (467-480) is modelled in `Model/Icosahedral.lean`.
-/

namespace TB

variable {K : Type} [Field K] [LinearOrder K] [IsStrictOrderedRing K] {d : ℕ}

/-- `Symmetry.none` (symmetry.py 291-301). -/
def Sym.none (K : Type) [Field K] [LinearOrder K] (d : ℕ) : Except Err (Sym K d) := mkSym [1] false

/-- `Symmetry.inv` (symmetry.py 303-313). -/
def Sym.inv (K : Type) [Field K] [LinearOrder K] (d : ℕ) : Except Err (Sym K d) := mkSym [1] true

/-- `Symmetry.o1` (symmetry.py 315-319). -/
def Sym.o1 (inversion : Bool) : Except Err (Sym ℚ 1) := mkSym [!![1]] inversion

/-- The rotation `((c, s), (-s, c))` by the angle `i * 2 * pi / count` (symmetry.py 326-328). -/
noncomputable def rot2 (count i : ℕ) : Mat ℝ 2 :=
  let x := (i : ℝ) * 2 * Real.pi / count
  !![Real.cos x, Real.sin x; -Real.sin x, Real.cos x]

/-- `Symmetry.o2` (symmetry.py 321-329). -/
noncomputable def Sym.o2 (count : ℕ) : Except Err (Sym ℝ 2) := mkSym ((List.range count).map (rot2 count)) false

/-- The rotation `((c, s, 0), (-s, c, 0), (0, 0, 1))` (symmetry.py 336-338). -/
noncomputable def rot3 (count i : ℕ) : Mat ℝ 3 :=
  let x := (i : ℝ) * 2 * Real.pi / count
  !![Real.cos x, Real.sin x, 0; -Real.sin x, Real.cos x, 0; 0, 0, 1]

/-- `Symmetry.cyclic` (symmetry.py 331-339). -/
noncomputable def Sym.cyclic (count : ℕ) (inversion : Bool) : Except Err (Sym ℝ 3) :=
  mkSym ((List.range count).map (rot3 count)) inversion

/-- The diagonal matrix with `-1` in the first `m` places (symmetry.py 436-437, 451-453). -/
def flipMat (K : Type) [Field K] (d m : ℕ) : Mat K d := Matrix.diagonal fun i => if i.val < m then -1 else 1

/-- `Symmetry.mirror_x` (symmetry.py 425-438); `S[1][0, 0]` raises `IndexError` in dimension 0. -/
def Sym.mirrorX (K : Type) [Field K] [LinearOrder K] (d : ℕ) (inversion : Bool) : Except Err (Sym K d) :=
  if d < 1 then .error .indexError else mkSym [1, flipMat K d 1] inversion

/-- `Symmetry.mirror_xy` (symmetry.py 440-454). -/
def Sym.mirrorXY (K : Type) [Field K] [LinearOrder K] (d : ℕ) (inversion : Bool) : Except Err (Sym K d) :=
  if d < 2 then .error .indexError else mkSym [1, flipMat K d 2] inversion

/-- `Symmetry.dihedral` (symmetry.py 341-349). -/
noncomputable def Sym.dihedral (count : ℕ) (inversion : Bool) : Except Err (Sym ℝ 3) := do
  let a ← Sym.cyclic count inversion
  let b ← Sym.mirrorX ℝ 3 false
  a.mul b

/-- `Symmetry.perm3` (symmetry.py 363-379). -/
def Sym.perm3 (inversion : Bool) : Except Err (Sym ℚ 3) :=
  mkSym [!![1, 0, 0; 0, 1, 0; 0, 0, 1],
    !![0, 1, 0; 0, 0, 1; 1, 0, 0],
    !![0, 0, 1; 1, 0, 0; 0, 1, 0],
    !![1, 0, 0; 0, 0, 1; 0, 1, 0],
    !![0, 1, 0; 1, 0, 0; 0, 0, 1],
    !![0, 0, 1; 0, 1, 0; 1, 0, 0]] inversion

/-- `Symmetry.even_perm3` (symmetry.py 381-406). -/
def Sym.evenPerm3 (inversion : Bool) : Except Err (Sym ℚ 3) :=
  mkSym [!![1, 0, 0; 0, 1, 0; 0, 0, 1],
    !![0, 1, 0; 0, 0, -1; -1, 0, 0],
    !![0, 0, -1; 1, 0, 0; 0, -1, 0],
    !![-1, 0, 0; 0, 0, 1; 0, 1, 0],
    !![0, -1, 0; -1, 0, 0; 0, 0, -1],
    !![0, 0, 1; 0, -1, 0; 1, 0, 0]] inversion

/-- `Symmetry.mirror3` (symmetry.py 408-423). -/
def Sym.mirror3 (inversion : Bool) : Except Err (Sym ℚ 3) :=
  mkSym [!![1, 0, 0; 0, 1, 0; 0, 0, 1],
    !![1, 0, 0; 0, -1, 0; 0, 0, -1],
    !![-1, 0, 0; 0, -1, 0; 0, 0, 1],
    !![-1, 0, 0; 0, 1, 0; 0, 0, -1]] inversion

/-- `Symmetry.cubic` (symmetry.py 351-361). -/
def Sym.cubic (inversion : Bool) : Except Err (Sym ℚ 3) := do
  let a ← Sym.evenPerm3 false
  let b ← Sym.mirror3 inversion
  a.mul b

/-- `Symmetry.square` (symmetry.py 456-465). -/
def Sym.square : Except Err (Sym ℚ 2) := fromGenerator [!![0, 1; -1, 0], !![1, 0; 0, -1]] false

/-- `Symmetry.tetrahedral` (symmetry.py 482-500). -/
def Sym.tetrahedral (full : Bool) : Except Err (Sym ℚ 3) :=
  fromGenerator ([!![-1, 0, 0; 0, -1, 0; 0, 0, 1], !![0, 1, 0; 0, 0, 1; 1, 0, 0]] ++
    if full then [!![0, 1, 0; -1, 0, 0; 0, 0, 1]] else []) false

end TB

import Mathlib.Analysis.SpecialFunctions.Pow.Real
import Verif.Model.NamedGroups

/-!
# Model of `symmetry.py`: `Symmetry.icosahedral` (467-480)

Over `ℝ`; `5**-.5` is the real number `1/√5`.
-/

namespace TB

/-- The matrix `m` (symmetry.py 479). -/
noncomputable def icoBasis : Mat ℝ 3 :=
  !![0, 1, 0; -(√5)⁻¹, 0, 2 * (√5)⁻¹; 2 * (√5)⁻¹, 0, (√5)⁻¹]

/-- `Symmetry.icosahedral` (symmetry.py 467-480): `c = cyclic(5, inversion)`, the result is `c * c.transform(m)`. -/
noncomputable def Sym.icosahedral (inversion : Bool) : Except Err (Sym ℝ 3) := do
  let c ← Sym.cyclic 5 inversion
  let t ← c.transform icoBasis
  c.mul t

end TB

import Mathlib.Data.Complex.Basic
import Mathlib.Analysis.Complex.Norm
import Mathlib.Analysis.SpecialFunctions.Sqrt
import Verif.Model.Symmetry

/-!
# Model of `symmetry.py`: `Symmetry.check_symmetry` (502-524) and `Symmetry.check_neighbors` (731-758)

The random points of `check_symmetry` are a parameter, the values of the checked function are complex vectors (real ones are a special
case), the tolerance is kept; printing is left out.
-/

namespace TB.CheckSym
open TB

variable {d m : ℕ}

/-- `np.std(values, axis=0)`: the root of the mean of the squared distances from the mean, per component (symmetry.py 519). -/
noncomputable def std (values : List (Fin m → ℂ)) (j : Fin m) : ℝ :=
  let mean := (values.map fun v => v j).sum / values.length
  √((values.map fun v => ‖v j - mean‖ ^ 2).sum / values.length)

/-- `np.linalg.norm` of a real vector. -/
noncomputable def norm2 (x : Fin m → ℝ) : ℝ := √(∑ j, x j ^ 2)

open Classical in
/-- `Symmetry.check_symmetry` (symmetry.py 502-524); `r_smpl` are the 50 points of `np.random.random` (514). -/
noncomputable def checkSymmetry (σ : Sym ℝ d) (foo : (Fin d → ℝ) → Fin m → ℂ) (tolerance : ℝ) (rSmpl : Fin 50 → Fin d → ℝ) : Bool :=
  (List.ofFn rSmpl).all fun r =>                                              -- line 515
    let values := σ.S.map fun s => foo (s.mulVec r)                           -- lines 516-518
    !decide (tolerance < norm2 (std values))                                  -- lines 519-523

/-- Shape of `A @ r` for an array of the given shape with at least two axes and a vector of length `n`: the last axis has to have that
length, else `ValueError`. -/
def matmulVecShape (shape : List ℕ) (n : ℕ) : Except Err (List ℕ) :=
  if shape.getLast? = some n then .ok shape.dropLast else .error .valueError

/-- The loop over the operations (symmetry.py 748-750): `zip(self.S)` yields tuples with one matrix, so that `np.transpose(s)` has the
shape of `(1, d, d)` reversed.  What follows in the loop is not reached with `d = 3`. -/
def opsLoop (d : ℕ) (S : List (Mat ℝ d)) : Except Err Unit :=
  S.forM fun _ => do
    let _ ← matmulVecShape [1, d, d].reverse d

/-- `Symmetry.check_neighbors` (symmetry.py 731-758) for neighbors given as an array of shape `(N_R, d)`.  With no neighbors no count is
compared. -/
def checkNeighbors (σ : Sym ℝ d) (neighbors : List (Fin d → ℝ)) : Except Err Unit :=
  if d ≠ 3 then .error .assertionError                                        -- line 740
  else neighbors.forM fun _ => opsLoop d σ.S                                  -- lines 747-750

end TB.CheckSym

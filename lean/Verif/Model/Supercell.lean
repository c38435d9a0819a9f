import Mathlib.LinearAlgebra.Matrix.NonsingularInverse
import Mathlib.Algebra.Order.Round
import Mathlib.Data.Rat.Floor
import Mathlib.Logic.Equiv.Fin.Basic
import Mathlib.Order.Interval.Finset.Basic
import Mathlib.Data.Int.Interval
import Verif.Model.Fourier
import Verif.Model.SymmetryPoints

/-!
# Model of `AsymTightBindingModel.supercell` (tight_binding_asym.py 826-874)

The tolerances `1e-7` and `1e-4` are idealised to equality.  The part which only concerns the integer matrix
`Λ = A_original⁻¹ A_new` is computable.
-/

namespace TB
open Matrix

variable {d n : ℕ}

/-- The corners `box @ matrix.T` of the cell (tight_binding_asym.py 854-855): images of the vectors of zeros and
ones. -/
def cellCorner (Λ : Matrix (Fin d) (Fin d) ℤ) (c : Fin d → Bool) : Fin d → ℤ :=
  Λ *ᵥ fun j => if c j then 1 else 0

/-- `np.min(box, axis=0)` (tight_binding_asym.py 856). -/
def cellLo (Λ : Matrix (Fin d) (Fin d) ℤ) (i : Fin d) : ℤ :=
  Finset.univ.inf' Finset.univ_nonempty fun c => cellCorner Λ c i

/-- `np.max(box, axis=0)` (tight_binding_asym.py 856). -/
def cellHi (Λ : Matrix (Fin d) (Fin d) ℤ) (i : Fin d) : ℤ :=
  Finset.univ.sup' Finset.univ_nonempty fun c => cellCorner Λ c i

/-- The order in which `np.meshgrid` (default `indexing='xy'`) followed by `reshape(-1, dim)` runs through the axes,
slowest first: the first two axes are exchanged. -/
def meshAxes (d : ℕ) : List (Fin d) :=
  match List.finRange d with
  | a :: b :: rest => b :: a :: rest
  | l => l

/-- `np.arange(lo, hi)` for integers. -/
def arangeInt (lo hi : ℤ) : List ℤ := (List.range (hi - lo).toNat).map fun j : ℕ => lo + (j : ℤ)

/-- `np.stack(np.meshgrid(*[np.arange(lo[d], hi[d]) for d in range(dim)]), axis=-1).reshape(-1, dim)`
(tight_binding_asym.py 859). -/
def meshBox (lo hi : Fin d → ℤ) : List (Fin d → ℤ) :=
  (meshAxes d).foldl (fun l a => l.flatMap fun v => (arangeInt (lo a) (hi a)).map fun x => Function.update v a x) [0]

/-- `box @ np.linalg.inv(matrix).T` (tight_binding_asym.py 860) for one row of `box`; the inverse is
`adjugate / det`. -/
def cellFrac (Λ : Matrix (Fin d) (Fin d) ℤ) (x : Fin d → ℤ) (i : Fin d) : ℚ :=
  ((Λ.adjugate *ᵥ x) i : ℚ) / (Λ.det : ℚ)

/-- The rows of `box` which the mask of line 862 selects (tight_binding_asym.py 854-862), as integer vectors. -/
def cellPoints (Λ : Matrix (Fin d) (Fin d) ℤ) : List (Fin d → ℤ) :=
  (meshBox (cellLo Λ) (cellHi Λ)).filter fun x => decide (∀ i, 0 ≤ cellFrac Λ x i ∧ cellFrac Λ x i < 1)

/-- The value `H_r[m]` or `np.conj(H_r[m].T)` or nothing (zero) that belongs to the position `x`
(tight_binding_asym.py 866, 870-872). -/
noncomputable def Series.lookup (s : Series d n) (x : RVec d) : CMat n :=
  match tryNeighbor (s.terms.map Prod.fst) x with
  | some (m, false) => ((s.terms.map Prod.snd).getD m 0)
  | some (m, true) => ((s.terms.map Prod.snd).getD m 0)ᴴ
  | none => 0

/-- The matrix `H_r2[k]` (tight_binding_asym.py 865, 867-872): `block i j` is stored at rows `i*n:(i+1)*n` and columns
`j*n:(j+1)*n`. -/
def blockMatrix {P : ℕ} (block : Fin P → Fin P → CMat n) : CMat (P * n) := fun a b =>
  block (finProdFinEquiv.symm a).1 (finProdFinEquiv.symm b).1 (finProdFinEquiv.symm a).2 (finProdFinEquiv.symm b).2

/-- `internal_positions` (tight_binding_asym.py 860-862): the selected rows of `p_box`, multiplied with `A_new`. -/
noncomputable def internalPositions (Λ : Matrix (Fin d) (Fin d) ℤ) (B : Matrix (Fin d) (Fin d) ℝ) : List (RVec d) :=
  (cellPoints Λ).map fun x => B *ᵥ fun i => ((cellFrac Λ x i : ℚ) : ℝ)

/-- Lines 848-874 of `supercell` (tight_binding_asym.py): from the integer matrix `Λ` on.  `np.stack` of an empty list
(dimension zero) and `np.linalg.inv` of a singular matrix raise `ValueError` (`LinAlgError`).  The overlap `self.S` is not
used: line 873 makes a model without overlap. -/
noncomputable def Tb.supercellOf (t : Tb d n) (Λ : Matrix (Fin d) (Fin d) ℤ) (B : Matrix (Fin d) (Fin d) ℝ) :
    Except Err ((N : ℕ) × Tb d N) :=
  let neighbors := t.H.terms.map fun x => (Λ.map (Int.cast : ℤ → ℝ)) *ᵥ x.1
  if d = 0 ∨ Λ.det = 0 then .error .valueError
  else
    let pos := internalPositions Λ B
    if (pos.length : ℤ) ≠ Λ.det then .error .assertionError
    else
      match mkSeries neighbors (neighbors.map fun r =>
          blockMatrix fun i j : Fin pos.length => t.H.lookup (r + pos[j] - pos[i])) with
      | .error e => .error e
      | .ok H =>
        match mkTb H with
        | .error e => .error e
        | .ok m => .ok ⟨_, m⟩

open Classical in
/-- `supercell` (tight_binding_asym.py 826-874).  The dimensions of the matrices agree with the model by typing
(line 844). -/
noncomputable def Tb.supercell (t : Tb d n) (A B : Matrix (Fin d) (Fin d) ℝ) : Except Err ((N : ℕ) × Tb d N) :=
  if t.H.terms = [] then .error .indexError
  else if A.det = 0 then .error .valueError
  else if ¬ ∀ i j, ∃ z : ℤ, (A⁻¹ * B) i j = z then .error .assertionError
  else t.supercellOf (Matrix.of fun i j => round ((A⁻¹ * B) i j)) B

end TB

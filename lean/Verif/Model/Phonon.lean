import Verif.Model.BandStructure
import Verif.Model.EigGrad

/-!
# Model of `BandStructureModel.electron_phonon_coupling` (bandstructure.py 793-812)

`np.linalg.eigh` is a parameter.  The index arguments are lists of integers (indices from the end are negative); masks and slices are left out.
-/

namespace TB.Phonon
open Matrix TB TB.BS

variable {d n : ℕ}

/-- `a[z]` for an array of length `N`: the position. -/
def pyIndex (N : ℕ) (z : ℤ) : Except Err ℕ :=
  if 0 ≤ z ∧ z < N then .ok z.toNat
  else if z < 0 ∧ 0 ≤ z + N then .ok (z + N).toNat
  else .error .indexError

/-- `v = np.real(np.diagonal(df_ev))` (bandstructure.py 801-803). -/
noncomputable def velocity (ev : CMat n) (dH : Fin d → CMat n) (a : Fin d) (i : Fin n) : ℝ := (rot ev (dH a) i i).re

/-- `g` for one pair of samples (bandstructure.py 804-808). -/
noncomputable def coupling (v1 v2 : Fin d → Fin n → ℝ) (e1 e2 : CMat n) (a : Fin d) : CMat n :=
  Matrix.of fun i j => (∑ k, (v1 a i : ℂ) * star (e1 k i) * e2 k j) - ∑ k, star (e1 k i) * e2 k j * (v2 a j : ℂ)

/-- `electron_phonon_coupling` (bandstructure.py 799-809): bands, velocities and couplings. -/
noncomputable def epc (b : BSM d n) (eigh : CMat n → (Fin n → ℝ) × CMat n) (ks : List (RVec d)) (k1 k2 : List ℤ) :
    Except Err (List (Fin n → ℝ) × List (Fin d → Fin n → ℝ) × List (List (Fin d → CMat n))) := do
  let ev := ks.map fun k => (eigh (b.f k)).2
  let v := ks.map fun k => velocity (eigh (b.f k)).2 (b.df k)
  let i1 ← k1.mapM (pyIndex ks.length)
  let i2 ← k2.mapM (pyIndex ks.length)
  return (ks.map fun k => (eigh (b.f k)).1, v,
    i1.map fun p => i2.map fun q => coupling (v.getD p 0) (v.getD q 0) (ev.getD p 0) (ev.getD q 0))

end TB.Phonon

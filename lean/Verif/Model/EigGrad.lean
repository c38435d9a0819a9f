import Verif.Model.Fourier

/-!
# Model of `geigh_grad`, `eigh_grad`, `eigh_grad_hess` (linalg.py 95-186) and of `bands_grad`, `bands_grad_hess`
(tight_binding_asym.py 782-824)

The eigenvalues `e` and the matrix `ev` of eigenvectors (columns) come from the library routines `np.linalg.eigh` and
`scipy.linalg.eigh`; they are parameters here, with contracts in the theorems.
-/

namespace TB
open Matrix

variable {n m : ℕ}

/-- `einsum("ji,jk,kl->il", conj(ev), M, ev)`. -/
def rot (ev M : CMat n) : CMat n := evᴴ * M * ev

/-- `geigh_grad` (linalg.py 95-107): gradient of band `i` for the perturbation matrices `dH`, `dS` of one variable.
With `dS = 0` this is `eigh_grad` (linalg.py 110-129), to which the fast path of lines 99-101 goes. -/
noncomputable def geighGrad (e : Fin n → ℝ) (ev dH dS : CMat n) (i : Fin n) : ℝ :=
  (rot ev dH i i).re - (rot ev dS i i).re * e i

/-- `eigh_grad_hess` (linalg.py 132-186), hessian entry for the two variables with perturbation matrices `dHp`, `dHq` and
second order matrix `ddH`, band `i`, in the case that no two eigenvalues are closer than `eps` (`select` is empty).
The `1e-40` added to the difference of line 182 is dropped; the diagonal is masked as in the code. -/
noncomputable def eighHess (eps : ℝ) (e : Fin n → ℝ) (ev dHp dHq ddH : CMat n) (i : Fin n) : ℝ :=
  (rot ev ddH i i).re -
    2 * (∑ k, rot ev dHp i k * (if |e k - e i| < eps then 0 else rot ev dHq k i / ((e k - e i : ℝ) : ℂ))).re

/-- Gradient returned by `AsymTightBindingModel.bands_grad_hess` (tight_binding_asym.py 807-812): the overlap derivative
is not used. -/
noncomputable def asymHessGrad (ev dH : CMat n) (i : Fin n) : ℝ := (rot ev dH i i).re

end TB

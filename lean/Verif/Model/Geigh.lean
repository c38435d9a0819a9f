import Verif.Model.EigGrad
import Verif.Model.Err

/-!
# Model of `geigh`, `geigvalsh` and of the two paths of `geigh_grad` (linalg.py 67-107)

The library routines `np.linalg.eigh` and `scipy.linalg.eigh` (`eigvalsh`: its eigenvalues) are parameters. Two-dimensional arrays are matrices,
three-dimensional ones lists of matrices; arrays with more axes are excluded (`scipy.linalg.eigh` then gets stacks, which depends on its version).
-/

namespace TB.Geigh
open Matrix

variable {n : ℕ}

/-- The library routines. -/
structure Lib (n : ℕ) where
  npEigh : CMat n → Except Err ((Fin n → ℝ) × CMat n)
  spEigh : CMat n → CMat n → Except Err ((Fin n → ℝ) × CMat n)

/-- `np.linalg.norm(S - np.eye(S.shape[-1]))` of a stack: the root of the sum over all entries. -/
noncomputable def offNorm (S : List (CMat n)) : ℝ := Real.sqrt (S.map fun s => ∑ i, ∑ j, ‖(s - 1) i j‖ ^ 2).sum

/-- The loops at linalg.py 76-79 and 88-89. -/
def loop (lib : Lib n) (H S : List (CMat n)) : Except Err (List ((Fin n → ℝ) × CMat n)) :=
  (List.range H.length).mapM fun i : ℕ =>
    match H[i]?, S[i]? with
    | some h, some s => lib.spEigh h s
    | _, _ => .error .indexError

open Classical in
/-- `geigh(H, S)` for stacks (linalg.py 68-80). -/
noncomputable def geigh (lib : Lib n) (H S : List (CMat n)) : Except Err (List ((Fin n → ℝ) × CMat n)) :=
  if offNorm S < 1 / 10 ^ 8 then H.mapM lib.npEigh else loop lib H S

/-- `geigvalsh(H, S)` for stacks (linalg.py 86-90). -/
def geigvalsh (lib : Lib n) (H S : List (CMat n)) : Except Err (List (Fin n → ℝ)) := (loop lib H S).map fun l => l.map Prod.fst

open Classical in
/-- `geigh_grad(H, S, dH, dS)` for single matrices and `m` variables (linalg.py 95-107 with 126-129): `bands[:, None, :]` has more indices than the
one-dimensional `bands`. -/
noncomputable def gradOne {m : ℕ} (lib : Lib n) (H S : CMat n) (dH dS : Fin m → CMat n) : Except Err ((Fin n → ℝ) × (Fin m → Fin n → ℝ)) :=
  if offNorm [S] < 1 / 10 ^ 8 ∧ Real.sqrt (∑ v, ∑ i, ∑ j, ‖dS v i j‖ ^ 2) < 1 / 10 ^ 8 then do
    let r ← lib.npEigh H
    .ok (r.1, fun v b => geighGrad r.1 r.2 (dH v) 0 b)
  else do
    let _ ← lib.spEigh H S
    .error .indexError

end TB.Geigh

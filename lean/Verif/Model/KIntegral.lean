import Mathlib.Analysis.SpecialFunctions.Trigonometric.Basic
import Mathlib.LinearAlgebra.Matrix.NonsingularInverse
import Mathlib.Data.List.OfFn
import Verif.Model.Err

/-!
# Model of the constructor of `KIntegral` and of its integration rule (`bulk_properties.py`), and of `FreeElectrons`

Exact reals.  Parameters: the coefficients `b` (from `scipy.special.zeta`, 137), the integration points (`_integration_points`
109-130: roots of a polynomial from `scipy.linalg.qr` and `np.roots`), and the values of the density of states.
-/

noncomputable section

namespace TB.KI
open Matrix
open Classical

/-- `X` (152): `X[n][i] = (x_i - mu)**n / n!`. -/
def matX (x : List ℝ) (mu : ℝ) : Matrix (Fin x.length) (Fin x.length) ℝ :=
  Matrix.of fun n i => (x[i] - mu) ^ (n : ℕ) / (Nat.factorial n : ℝ)

/-- `I` (138, 153). -/
def vecI (b : ℕ → ℝ) (beta : ℝ) (n : ℕ) : Fin n → ℝ := fun i => beta ^ (-((i : ℕ) : ℤ)) * b i

/-- `np.argmin`: index of the first smallest entry. -/
def argmin : List ℝ → ℕ
  | [] => 0
  | [_] => 0
  | a :: b :: l => let i := argmin (b :: l); if a ≤ (b :: l).getD i 0 then 0 else i + 1

/-- One row of the weights (144-154). -/
def row (b : ℕ → ℝ) (x : List ℝ) (mu beta : ℝ) : Except Err (List ℝ) :=
  if beta > 1e16 then
    let i := argmin (x.map fun y => |y - mu|)
    if |x.getD i 0 - mu| < 1e-10 then .ok ((List.replicate x.length (0 : ℝ)).set i 1) else .error .assertionError
  else if (matX x mu).det = 0 then .error .valueError
  else .ok (List.ofFn ((matX x mu)⁻¹ *ᵥ vecI b beta x.length))

/-- `np.max`. -/
def maxL : List ℝ → ℝ
  | [] => 0
  | [a] => a
  | a :: b :: l => max a (maxL (b :: l))

/-- The entry of `select` for point `i` (161). -/
def keep (x : List ℝ) (w : List (List ℝ)) (Emin Emax rtol : ℝ) (i : ℕ) : Prop :=
  maxL (w.map fun r => r.getD i 0 / maxL r) > rtol * x.length ∧ x.getD i 0 > Emin ∧ x.getD i 0 < Emax

/-- `y[select]`. -/
def pick (x : List ℝ) (w : List (List ℝ)) (Emin Emax rtol : ℝ) (y : List ℝ) : List ℝ :=
  ((List.range x.length).filter fun i => decide (keep x w Emin Emax rtol i)).map fun i => y.getD i 0

/-- `_integration_weights` (133-162).  `none`: the early return of a single array for one point. -/
def integrationWeights (b : ℕ → ℝ) (x beta mu : List ℝ) (Emin Emax rtol : ℝ) : Except Err (Option (List ℝ × List (List ℝ))) :=
  if x.length % 2 ≠ 1 then .error .assertionError
  else if x.length = 1 then .ok none
  else if beta.length ≠ mu.length then .error .assertionError
  else do
    let w ← (mu.zip beta).mapM fun p => row b x p.1 p.2
    .ok (some (pick x w Emin Emax rtol x, w.map (pick x w Emin Emax rtol)))

/-- `_integration_points` (107-130); `roots Tmin Tmax N` stands for the points computed in 114-130. -/
def integrationPoints (roots : ℝ → ℝ → ℤ → List ℝ) (eF Tmin Tmax : ℝ) (N : ℤ) : Except Err (List ℝ) :=
  if ¬ N > 0 then .error .assertionError
  else if N = 1 then .ok [eF]
  else if ¬ Tmin ≤ Tmax then .error .assertionError
  else if ¬ N % 2 = 1 then .error .assertionError
  else .ok (roots Tmin Tmax N)

/-- What the constructor takes from the density of states: band gap, chemical potentials for the given temperatures, Fermi energy
and energy range. -/
structure DosData where
  gap : ℝ
  mu : List ℝ
  eF : ℝ
  Emin : ℝ
  Emax : ℝ

/-- The default for `N` (191-192). -/
def defaultN (T : List ℝ) : ℤ :=
  match T with
  | [t] => if t = 0 then 1 else 13
  | _ => 11

/-- `KIntegral.__init__` (172-217): `e_smpl` and `integration_weights`.  The tables of surface samples (218-222) are not part of
the result. -/
def init (kB : ℝ) (b : ℕ → ℝ) (roots : ℝ → ℝ → ℤ → List ℝ) (D : DosData) (T : List ℝ) (N : Option ℤ) (rtol : ℝ) :
    Except Err (List ℝ × List (List ℝ)) :=
  if ¬ ∀ t ∈ T, t ≥ 0 then .error .assertionError
  else
    let N := N.getD (defaultN T)
    if ¬ N % 2 = 1 then .error .assertionError
    else
      let beta := T.map fun t => 1 / (kB * t + 1e-20)
      match T.filter fun t => decide (t > 0) with
      | t :: ts =>
        if D.gap = 0 then do
          let x ← integrationPoints roots D.eF (ts.foldl min t) (maxL T) N
          match ← integrationWeights b x beta D.mu D.Emin D.Emax rtol with
          | none => .error .valueError
          | some r => .ok r
        else .error .notImplemented
      | [] =>
        if D.gap = 0 then .ok ([D.eF], [[1]])
        else .error .attributeError

/-! ## `FreeElectrons` (466-507) -/

/-- `np.linalg.norm(k - G)**2`. -/
def sq (k G : Fin 3 → ℝ) : ℝ := (k - G) ⬝ᵥ (k - G)

/-- `a[:, :limit]` if `limit` is not `None` or 0 (480-481, 489-490): a Python slice. -/
def limited {α : Type} (limit : Option ℤ) (l : List α) : List α :=
  match limit with
  | none => l
  | some n => if n = 0 then l else if n > 0 then l.take n.toNat else l.take (l.length - (-n).toNat)

/-- `__call__` (477-483) for one point. -/
def feCall (sort : List ℝ → List ℝ) (fac : ℝ) (nb : List (Fin 3 → ℝ)) (limit : Option ℤ) (k : Fin 3 → ℝ) : List ℝ :=
  limited limit (sort (nb.map fun G => fac * sq k G))

/-- `bands_grad` (485-494) for one point. -/
def feGrad (argsort : List ℝ → List ℕ) (fac : ℝ) (nb : List (Fin 3 → ℝ)) (limit : Option ℤ) (k : Fin 3 → ℝ) :
    List ℝ × List (Fin 3 → ℝ) :=
  let bands := nb.map fun G => sq k G
  let grad := nb.map fun G => (2 : ℝ) • (k - G)
  let order := limited limit (argsort bands)
  (order.map fun i => fac * bands.getD i 0, order.map fun i => fac • grad.getD i 0)

/-- `bands_grad_hess` (496-507) for one point: the hessians are not reordered and not limited. -/
def feHess (argsort : List ℝ → List ℕ) (fac : ℝ) (nb : List (Fin 3 → ℝ)) (limit : Option ℤ) (k : Fin 3 → ℝ) :
    List ℝ × List (Fin 3 → ℝ) × List (Matrix (Fin 3) (Fin 3) ℝ) :=
  let g := feGrad argsort fac nb limit k
  (g.1, g.2, nb.map fun _ => fac • ((2 : ℝ) • (1 : Matrix (Fin 3) (Fin 3) ℝ)))

end TB.KI

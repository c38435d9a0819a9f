import Mathlib.Analysis.Real.Sqrt
import Mathlib.Data.Fintype.Pi
import Mathlib.Data.Fin.Tuple.Basic
import Mathlib.Algebra.Order.Floor.Ring
import Mathlib.LinearAlgebra.Matrix.Notation
import Mathlib.LinearAlgebra.Matrix.NonsingularInverse
import Mathlib.Algebra.Order.Round
import Verif.Model.Symmetry

/-!
# Model of `linalg.py`

`_direct_sum`, `direct_sum`, `kron`, `pointcloud_distance`, `lattice_in_sphere`, `conjugate_gradient_solve`.
Not modelled here: `merge_axes`, `random_hermitian`, `geigh`, `geigh_grad`, `eigh_grad`, `eigh_grad_hess`.
-/

namespace TB

/-! ## direct sums and Kronecker products -/

/-- A two dimensional array: `(m, n)` with its shape. -/
structure Arr (K : Type) where
  rows : ℕ
  cols : ℕ
  get : Matrix (Fin rows) (Fin cols) K

section
variable {K : Type}

/-- `_direct_sum(a, b)` (linalg.py 6-24) on the two matrix axes: `np.block([[a, 0], [0, b]])`.
The leading listing axes of the general branch (lines 21-24) are treated by applying this to each listed matrix. -/
def dsum [Zero K] {m n p q : ℕ} (a : Matrix (Fin m) (Fin n) K) (b : Matrix (Fin p) (Fin q) K) :
    Matrix (Fin (m + p)) (Fin (n + q)) K :=
  fun i j => if hi : i.val < m then (if hj : j.val < n then a ⟨i, hi⟩ ⟨j, hj⟩ else 0)
    else if hj : j.val < n then 0 else b ⟨i - m, by omega⟩ ⟨j - n, by omega⟩

/-- `_direct_sum` on arrays. -/
def Arr.dsum [Zero K] (a b : Arr K) : Arr K := ⟨a.rows + b.rows, a.cols + b.cols, TB.dsum a.get b.get⟩

/-- `direct_sum(*a)` (linalg.py 37-44). -/
def directSum [Zero K] : List (Arr K) → Except Err (Arr K)
  | [] => .error .valueError
  | [a] => .ok a
  | a :: b :: rest => directSum (a.dsum b :: rest)
termination_by l => l.length

/-- `np.kron(a, b)` (library function called at linalg.py 33-34): entry `(i, j)` is
`a[i // p, j // q] * b[i % p, j % q]` with `(p, q)` the shape of `b`. -/
def Arr.kron [Mul K] (a b : Arr K) : Arr K :=
  ⟨a.rows * b.rows, a.cols * b.cols, fun i j => a.get i.divNat j.divNat * b.get i.modNat j.modNat⟩

/-- `kron(*a)` (linalg.py 27-34). -/
def kronList [Mul K] : List (Arr K) → Except Err (Arr K)
  | [] => .error .valueError
  | [a] => .ok a
  | a :: b :: rest => kronList (a.kron b :: rest)
termination_by l => l.length

end

/-! ## point cloud distance -/

/-- `np.linalg.norm(p - q)` of two flattened points. -/
noncomputable def ptDist {n : ℕ} (p q : Fin n → ℝ) : ℝ := Real.sqrt (∑ i, (p i - q i) ^ 2)

/-- `d.flat[np.argmin(d.flat)]` for a non-empty array given as first element and rest (linalg.py 198-200). -/
noncomputable def minOf (x : ℝ) (l : List ℝ) : ℝ := l.foldl min x

/-- `pointcloud_distance` (linalg.py 189-202).  The `np.delete` of line 201 has no effect (its result is overwritten in
the next iteration).  `reshape(0, -1)` of an empty cloud raises `ValueError`. -/
noncomputable def pointcloudDistance {n : ℕ} (A B : List (Fin n → ℝ)) : Except Err ℝ :=
  match A, B with
  | [], _ => .error .valueError
  | _, [] => .error .valueError
  | a :: as, b :: bs =>
    .ok ((a :: as).foldl (fun dist p => dist + minOf (ptDist p b) (bs.map fun q => ptDist p q)) 0)

/-! ## lattice points in a sphere -/

section
variable {K : Type} [Field K] [LinearOrder K] [IsStrictOrderedRing K] [FloorRing K] {n : ℕ}

/-- `R /= np.diag(R)[:, None]` (linalg.py 209). -/
def normRows (R : Matrix (Fin n) (Fin n) K) : Matrix (Fin n) (Fin n) K := fun i j => R i j / R i i

/-- One pass of the loop in `lattice_in_sphere` (linalg.py 207-214): `A @ np.round(R)`, where `qr A` stands for the
second return value of `np.linalg.qr(A)`.  `rnd` is `np.round` on one entry.  The assertions of lines 211 and 213 are
`|det| = 1`; the inverse of line 210 is overwritten and only its determinant is looked at. -/
def latStep (qr : Matrix (Fin n) (Fin n) K → Matrix (Fin n) (Fin n) K) (rnd : K → ℤ) (A : Matrix (Fin n) (Fin n) K) :
    Except Err (Matrix (Fin n) (Fin n) K) :=
  let R := normRows (qr A)
  if |(minv R).det| ≠ 1 then .error .assertionError
  else
    let Ri : Matrix (Fin n) (Fin n) K := fun i j => (rnd (R i j) : K)
    if |Ri.det| ≠ 1 then .error .assertionError
    else .ok (A * Ri)

/-- `int(x)`: truncation towards zero. -/
def pyInt (x : K) : ℤ := if 0 ≤ x then ⌊x⌋ else ⌈x⌉

/-- `np.max(corners[:, i])` of linalg.py 223: the corners are `Vh.T @ (s / S)` for all sign vectors `s`
(line 222; `true` stands for `1`, `false` for `-1`). -/
def cornerMax (S : Fin n → K) (Vh : Matrix (Fin n) (Fin n) K) (i : Fin n) : K :=
  Finset.univ.sup' (Finset.univ_nonempty (α := Fin n → Bool))
    fun s => ∑ j, Vh j i * ((if s j then 1 else -1) / S j)

/-- `np.arange(-m, 1 + m)` (linalg.py 224). -/
def symRange (m : ℤ) : List ℤ := (List.range (1 + 2 * m).toNat).map fun (t : ℕ) => (t : ℤ) - m

/-- All points of `np.meshgrid(*ranges)` (linalg.py 225).  The order of the points (last coordinate fastest) differs
from numpy's default (`indexing="xy"`); the statements do not depend on the order. -/
def meshgrid : {n : ℕ} → (Fin n → List ℤ) → List (Fin n → ℤ)
  | 0, _ => [Fin.elim0]
  | _ + 1, rs => (rs 0).flatMap fun x => (meshgrid fun i => rs i.succ).map fun v => Fin.cons x v

/-- `lattice_in_sphere(A, dist)` (linalg.py 205-230).  `qr` and `svd` are the numpy routines
(`svd A = (U, S, Vh)` with `A = U diag(S) Vh`).  `norm(pos) < dist` is written `0 < dist` and `|pos|² < dist²`. -/
def latticeInSphere (qr : Matrix (Fin n) (Fin n) K → Matrix (Fin n) (Fin n) K)
    (svd : Matrix (Fin n) (Fin n) K → Matrix (Fin n) (Fin n) K × (Fin n → K) × Matrix (Fin n) (Fin n) K)
    (rnd : K → ℤ) (A : Matrix (Fin n) (Fin n) K) (dist : K) : Except Err (List (Fin n → K)) := do
  let A ← latStep qr rnd A
  let A ← latStep qr rnd A
  let A ← latStep qr rnd A
  let (U, S, Vh) := svd A
  let ranges := fun i => symRange (pyInt (dist * cornerMax S Vh i))
  let pos : List (Fin n → K) := (meshgrid ranges).map fun v i => S i * (Vh.mulVec (fun j => (v j : K))) i
  let pos := pos.filter fun p => decide (0 < dist ∧ ∑ i, p i ^ 2 < dist ^ 2)
  return pos.map fun p => U.mulVec p

end

/-! ## conjugate gradients -/

section
variable {K : Type} [Field K] [LinearOrder K] {n : ℕ}

/-- Local variables of `conjugate_gradient_solve` at the top of the loop (linalg.py 258). -/
structure CG (K : Type) (n : ℕ) where
  x : Fin n → K
  r : Fin n → K
  d : Fin n → K
  rSqr : K
  i : ℕ

/-- Initialisation (linalg.py 248-257). -/
def cgInit (A : (Fin n → K) → Fin n → K) (b : Fin n → K) : Option (Fin n → K) → CG K n
  | none => ⟨0, -b, -b, ∑ j, (-b) j * (-b) j, 0⟩
  | some x0 => ⟨x0, A x0 - b, A x0 - b, ∑ j, (A x0 - b) j * (A x0 - b) j, 0⟩

/-- One pass of the `while True` loop (linalg.py 259-278): `inl x` when it returns `x`, else the next state.
Complex arrays are covered by their real and imaginary parts: the code only uses the real numbers `Σ conj(r) r` and
`Re Σ conj(d) A(d)`, which are the inner products of the real vectors.  `A` is assumed to return a fresh array. -/
def cgStep (A : (Fin n → K) → Fin n → K) (err : K) (maxI : ℕ) (s : CG K n) : (Fin n → K) ⊕ CG K n :=
  let Ad := A s.d
  let dSqr := ∑ j, s.d j * Ad j
  if dSqr = 0 then .inl s.x
  else
    let alpha := s.rSqr / dSqr
    let x := s.x - alpha • s.d
    if s.rSqr ≤ err ^ 2 then .inl x
    else if s.i > maxI then .inl x
    else
      let r := s.r - alpha • Ad
      let rSqr := ∑ j, r j * r j
      .inr ⟨x, r, (rSqr / s.rSqr) • s.d + r, rSqr, s.i + 1⟩

/-- The loop with a bound on the number of passes; `none` when the bound is exhausted. -/
def cgLoop (A : (Fin n → K) → Fin n → K) (err : K) (maxI : ℕ) : ℕ → CG K n → Option (Fin n → K)
  | 0, _ => none
  | fuel + 1, s =>
    match cgStep A err maxI s with
    | .inl x => some x
    | .inr s' => cgLoop A err maxI fuel s'

/-- `conjugate_gradient_solve(A, b, x0, err, max_i)` (linalg.py 233-278) with at most `fuel` passes of the loop.
The result is the pair of the returned array and the content of the array `x0` afterwards: line 252 makes `x` the
same object as `x0` and line 265 changes it in place.  The default `max_i` (line 256) is `int(2.5 * n) + 1`. -/
def cgSolve (A : (Fin n → K) → Fin n → K) (b : Fin n → K) (x0 : Option (Fin n → K)) (err : K) (maxI : Option ℕ)
    (fuel : ℕ) : Option ((Fin n → K) × Option (Fin n → K)) :=
  (cgLoop A err (maxI.getD (5 * n / 2 + 1)) fuel (cgInit A b x0)).map fun x => (x, x0.map fun _ => x)

end
end TB

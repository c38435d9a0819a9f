import Mathlib.Analysis.SpecialFunctions.Trigonometric.Basic
import Mathlib.LinearAlgebra.Matrix.NonsingularInverse
import Mathlib.LinearAlgebra.Matrix.Notation
import Mathlib.Data.List.FinRange
import Verif.Model.Err

/-!
# Model of `bulk_properties.py`

Numbers are exact.  `np.linalg.inv` raises `LinAlgError` (a `ValueError`) for a singular matrix and is the exact inverse
otherwise.  The tables `k_smpl`, `band_indices` and `weights` come from `DensityOfStates.fermi_surface_samples`; here the samples of
a surface are given with gradient, hessian and weight of the chosen band.  The remaining methods (394-431) are in `Model/BulkCubic.lean`.
-/

noncomputable section

namespace TB.Bulk
open Matrix

section Algebra
variable {K : Type} [Field K] {d : ℕ}

open Classical in
/-- `np.linalg.inv`. -/
def inv (A : Matrix (Fin d) (Fin d) K) : Except Err (Matrix (Fin d) (Fin d) K) :=
  if A.det = 0 then .error .valueError else .ok A⁻¹

/-- `L_a[i]`. -/
def item {α : Type} (L : List α) (i : ℕ) : Except Err α :=
  match L[i]? with
  | some x => .ok x
  | none => .error .indexError

/-- `conductivity` (bulk_properties.py 30-40). -/
def conductivity (L : List (Matrix (Fin d) (Fin d) K)) : Except Err (Matrix (Fin d) (Fin d) K) := item L 0

/-- `peltier` (43-53). -/
def peltier (L : List (Matrix (Fin d) (Fin d) K)) : Except Err (Matrix (Fin d) (Fin d) K) := do
  let L1 ← item L 1
  let L0 ← item L 0
  let i ← inv L0
  .ok (L1 * i)

/-- `seebeck` (56-67).  A division by `T = 0` gives infinities in numpy; the model uses Lean's `x / 0 = 0` and the theorems ask
for `T ≠ 0`. -/
def seebeck (L : List (Matrix (Fin d) (Fin d) K)) (T : K) : Except Err (Matrix (Fin d) (Fin d) K) := do
  let L0 ← item L 0
  let i ← inv L0
  let L1 ← item L 1
  .ok (T⁻¹ • (i * L1))

/-- `electronic_thermal_conductivity` (70-81). -/
def thermalConductivity (L : List (Matrix (Fin d) (Fin d) K)) (T : K) : Except Err (Matrix (Fin d) (Fin d) K) := do
  let L2 ← item L 2
  let L1 ← item L 1
  let L0 ← item L 0
  let i ← inv L0
  .ok (T⁻¹ • (L2 - L1 * i * L1))

/-- `antisym_tensor` (16-26). -/
def antisym : Fin 3 → Fin 3 → Fin 3 → K :=
  ![![![0, 0, 0], ![0, 0, 1], ![0, -1, 0]], ![![0, 0, -1], ![0, 0, 0], ![1, 0, 0]], ![![0, 1, 0], ![-1, 0, 0], ![0, 0, 0]]]

/-- `hall_coefficients` (84-104): `einsum("...aj,...abk,...ib->...ijk")`. -/
def hallCoefficients (σ2 : Matrix (Fin 3) (Fin 3) K) (σ3 : Fin 3 → Fin 3 → Fin 3 → K) : Except Err (Fin 3 → Fin 3 → Fin 3 → K) := do
  let s ← inv σ2
  .ok fun i j k => ∑ a, ∑ b, s a j * σ3 a b k * s i b

end Algebra

section Integral

/-- One point of a Fermi surface: `k_smpl`, gradient and hessian of the band in crystal coordinates, and the weight. -/
structure Sample where
  k : Fin 3 → ℝ
  v : Fin 3 → ℝ
  h : Matrix (Fin 3) (Fin 3) ℝ
  weight : ℝ

/-- `self.w` (bulk_properties.py 245, 254). -/
def Sample.w (s : Sample) : ℝ := s.weight / (1e-8 + Real.sqrt (s.v ⬝ᵥ s.v))

/-- The data of a constructed `KIntegral` (172-224, metal): one list of samples for each energy of `e_smpl`, the chemical
potential and the row of `integration_weights` for each temperature, and `A` of the density of states. -/
structure KInt where
  e : List ℝ
  smp : List (List Sample)
  mu : List ℝ
  iw : List (List ℝ)
  A : Matrix (Fin 3) (Fin 3) ℝ

variable {M : Type} [AddCommGroup M] [Module ℝ M]

/-- `np.sum(f_res * w, axis=0)` (283-287) for one energy.  The callback is evaluated sample by sample. -/
def surfSum (g : Sample → M) (l : List Sample) : M := (l.map fun s => s.w • g s).sum

/-- `sum(r * w * (e - mu)**a for r, e, w in zip(res, self.e_smpl, w_j))` (294). -/
def moment (a : ℕ) (mu : ℝ) : List M → List ℝ → List ℝ → M
  | r :: rs, e :: es, w :: ws => (w * (e - mu) ^ a) • r + moment a mu rs es ws
  | _, _, _ => 0

/-- `integrate_df` (256-297, metal).  The entry for `a` and temperature number `j`. -/
def integrateDf (I : KInt) (g : ℝ → Sample → M) (moments : ℕ) : List (List M) :=
  let res := List.zipWith (fun e l => surfSum (g e) l) I.e I.smp
  (List.range (moments + 1)).map fun a =>
    List.zipWith (fun mu wj => moment a mu res I.e wj) I.mu I.iw

/-- The physical constants of the file (11-13): `elementary_charge` (also `eV`) and `hbar`. -/
structure Const where
  q : ℝ
  hbar : ℝ

/-- `grad_transform` (339). -/
def gradTransform (c : Const) (A' : Matrix (Fin 3) (Fin 3) ℝ) : Matrix (Fin 3) (Fin 3) ℝ :=
  (1 / (2 * Real.pi) * 1e-10 / c.hbar) • A'

/-- The arguments the callback of `integrate_df_A` receives (341-355): `k`, `v` and `h` transformed with `B` and `grad_transform`. -/
def physical (c : Const) (A' : Matrix (Fin 3) (Fin 3) ℝ) (s : Sample) : Sample where
  k := ((2 * Real.pi) • A'ᵀ⁻¹) *ᵥ s.k
  v := (c.q • gradTransform c A') *ᵥ s.v
  h := (c.q • gradTransform c A') * s.h * (gradTransform c A')ᵀ
  weight := s.weight

/-- `integrate_df_A` (310-356): the lattice is taken relative to the matrix of the density of states.  The assertion on the length
of the result of the callback holds for the callbacks modelled here. -/
def integrateDfA (c : Const) (I : KInt) (A : Matrix (Fin 3) (Fin 3) ℝ) (g : ℝ → Sample → M) (moments : ℕ) :
    Except Err (List (List M)) := do
  let i ← inv I.A
  let A' := A * i
  let _ ← inv A'ᵀ
  .ok (integrateDf I (fun e s => g e (physical c A' s)) moments)

/-- The argument `tau`: missing, a `float`, or a function of the sample points that returns one number per point.  (Any other
number, e.g. an `int`, is called like a function and raises `TypeError`: `other`.) -/
inductive Tau
  | none
  | float (x : ℝ)
  | fn (f : (Fin 3 → ℝ) → ℝ)
  | other

/-- The factor `tau_1` puts on a sample (377-380). -/
def Tau.at : Tau → (Fin 3 → ℝ) → ℝ
  | .none, _ => 1
  | .float x, _ => x
  | .fn f, k => f k
  | .other, _ => 0

/-- `v[:, None, :] * v[:, :, None]`. -/
def outer (v : Fin 3 → ℝ) : Matrix (Fin 3) (Fin 3) ℝ := Matrix.of fun i j => v j * v i

/-- `transport_coefficients` (358-385): entry for `a` and temperature number `j`.  With `tau` of a wrong type the first evaluation
of the callback raises. -/
def transport (c : Const) (I : KInt) (A : Matrix (Fin 3) (Fin 3) ℝ) (spin : ℝ) (tau : Tau) (maxA : ℕ) :
    Except Err (List (List (Matrix (Fin 3) (Fin 3) ℝ))) := do
  let V := ((1e-10 : ℝ) • A).det
  let L ← integrateDfA c I A (fun _ s => tau.at s.k • outer s.v) maxA
  match tau, I.e with
  | .other, _ :: _ => .error .typeError
  | _, _ =>
    .ok (L.mapIdx fun a row => row.map fun m => (spin * c.q ^ (2 - (a : ℤ)) * (c.q ^ (1 - (a : ℤ)))⁻¹ * V⁻¹) • m)

/-- `drude_factor` (388-392). -/
def drude (c : Const) (I : KInt) (A : Matrix (Fin 3) (Fin 3) ℝ) (spin : ℝ) :
    Except Err (List (Matrix (Fin 3) (Fin 3) ℝ)) := do
  let V := ((1e-10 : ℝ) • A).det
  let L ← integrateDfA c I A (fun _ s => outer s.v) 0
  let row ← item L 0
  .ok (row.map fun m => (spin * c.q ^ 2 * c.q⁻¹ * V⁻¹) • m)

/-- `np.einsum("yds,na,ns,nbd->naby", antisym_tensor, v, v, h)` for one sample (457). -/
def hallTerm (v : Fin 3 → ℝ) (h : Matrix (Fin 3) (Fin 3) ℝ) : Fin 3 → Fin 3 → Fin 3 → ℝ :=
  fun a b y => ∑ d, ∑ s, antisym y d s * v a * v s * h b d

/-- `conductivity_hall_tensor` (433-463) without `tau` or with a `float`; per temperature the rank 2 and the rank 3 tensor. -/
def hallTensor (c : Const) (I : KInt) (A : Matrix (Fin 3) (Fin 3) ℝ) (spin : ℝ) (tau : Option ℝ) :
    Except Err (List (Matrix (Fin 3) (Fin 3) ℝ) × List (Fin 3 → Fin 3 → Fin 3 → ℝ)) := do
  let V := ((1e-10 : ℝ) • A).det
  let t := tau.getD 1
  let L3 ← integrateDfA c I A (fun _ s => t ^ 2 • hallTerm s.v s.h) 0
  let L2 ← integrateDfA c I A (fun _ s => t • outer s.v) 0
  let r3 ← item L3 0
  let r2 ← item L2 0
  .ok (r2.map fun m => (1 / V * c.q ^ 2 / c.q * spin) • m, r3.map fun m => (1 / V * c.q ^ 3 / c.q * spin) • m)

/-- The factor of the last axis when an array of shape `(n, …, 3)` is multiplied with one of shape `(n,)`: numpy aligns the last
axes, so `n` has to be 1 or 3. -/
def bcast3 : List ℝ → Except Err (Fin 3 → ℝ)
  | [x] => .ok fun _ => x
  | [x, y, z] => .ok ![x, y, z]
  | _ => .error .valueError

/-- `integrate_df` (279-297) with a callback that can raise and is evaluated once per surface. -/
def integrateE (I : KInt) (g : List Sample → Except Err M) : Except Err (List M) := do
  let res ← (List.zipWith (fun _ l => l) I.e I.smp).mapM g
  .ok (List.zipWith (fun mu wj => moment 0 mu res I.e wj) I.mu I.iw)

/-- `conductivity_hall_tensor` (433-463) with a function `tau` that returns one number per sample point: `v * tau(k)` (455) has no
reshape. -/
def hallTensorFn (c : Const) (I : KInt) (A : Matrix (Fin 3) (Fin 3) ℝ) (spin : ℝ) (f : (Fin 3 → ℝ) → ℝ) :
    Except Err (List (Matrix (Fin 3) (Fin 3) ℝ) × List (Fin 3 → Fin 3 → Fin 3 → ℝ)) := do
  let V := ((1e-10 : ℝ) • A).det
  let i ← inv I.A
  let A' := A * i
  let _ ← inv A'ᵀ
  let r3 ← integrateE I fun l => do
    let t ← bcast3 (l.map fun s => f (physical c A' s).k)
    .ok (surfSum (fun s a b y => hallTerm (physical c A' s).v (physical c A' s).h a b y * t y ^ 2) l)
  let r2 ← integrateE I fun l => do
    let t ← bcast3 (l.map fun s => f (physical c A' s).k)
    .ok (surfSum (fun s => Matrix.of fun x y => outer (physical c A' s).v x y * t y) l)
  .ok (r2.map fun m => (1 / V * c.q ^ 2 / c.q * spin) • m, r3.map fun m => (1 / V * c.q ^ 3 / c.q * spin) • m)

end Integral

end TB.Bulk

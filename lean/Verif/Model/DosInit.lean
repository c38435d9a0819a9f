import Mathlib.Analysis.Real.Sqrt
import Mathlib.LinearAlgebra.Matrix.NonsingularInverse
import Mathlib.LinearAlgebra.Matrix.PosDef
import Verif.Model.Err

/-!
# Model of `DensityOfStates.__init__` and `DensityOfStates.check` (density_of_states.py 211-338)

Numbers are real.  A bandstructure model is a function of one k-point with `n` values; the optional methods `bands_grad` and
`bands_grad_hess` are `Option`s.  `np.any(eigvals < 0)` of a symmetric matrix is "not positive semidefinite".  `np.linalg.pinv` is a
parameter.  Ranges of width zero (division by a zero step size) and other values for `check` than `False`, `True` and floats are excluded.
The smearing objects are represented by their kind; their functions are in `Model/Smearing.lean` and `Model/Dos.lean`.
-/

namespace TB.DosInit

/-- Points. -/
abbrev V3 := Fin 3 → ℝ

/-- Matrices. -/
abbrev M3 := Matrix (Fin 3) (Fin 3) ℝ

/-- `np.linspace(a, b, m, endpoint=False) + shift` for `m ≥ 0`. -/
noncomputable def linspaceOpen (a b : ℝ) (m : ℕ) (shift : ℝ) : List ℝ := (List.range m).map fun i : ℕ => a + i * ((b - a) / m) + shift

/-- `np.linspace(a, b, m)` for `m ≥ 0`; a single point is `a`. -/
noncomputable def linspaceClosed (a b : ℝ) (m : ℕ) : List ℝ := (List.range m).map fun i : ℕ => a + i * ((b - a) / (m - 1 : ℕ))

/-- One entry of `xyz` (density_of_states.py 230-238); `linspace` refuses a negative count, `1 / 2 / N` a zero. -/
noncomputable def axis (N : ℤ) (wrap midpoint : Bool) (r : ℝ × ℝ) : Except Err (List ℝ) :=
  if wrap || midpoint then
    if N < 0 then .error .valueError
    else if midpoint && N == 0 then .error .zeroDivision
    else .ok (linspaceOpen r.1 r.2 N.toNat (if midpoint then 1 / 2 / N * (r.2 - r.1) else 0))
  else
    if N + 1 < 0 then .error .valueError
    else .ok (linspaceClosed r.1 r.2 (N + 1).toNat)

/-- `x[1] - x[0]` (density_of_states.py 241). -/
noncomputable def stepOf : List ℝ → Except Err ℝ
  | x0 :: x1 :: _ => .ok (x1 - x0)
  | _ => .error .indexError

/-- A model of `n` bands with its optional methods. -/
structure Model (n : ℕ) where
  bands : V3 → Fin n → ℝ
  grad : Option (V3 → Fin n → ℝ × V3)
  gradHess : Option (V3 → Fin n → V3 × M3)

/-- The arguments of the constructor; `check = none` is `False`, `some t` the tolerance `t` (`1e-10` for `True`). -/
structure Args where
  N : ℤ
  A : M3
  ranges : List (ℝ × ℝ)
  wrap : Bool
  smearing : String
  useGradients : Bool
  midpoint : Bool
  check : Option ℝ

/-- The smearing objects: kind, and whether gradients are passed. -/
inductive Kind
  | tetras | cubes (grads : Bool) | cubesPlus | spheres (grads : Bool)
  deriving DecidableEq, Repr

/-- The attributes set by the constructor; `ks` is `self.k_smpl.reshape(-1, 3)`, `bands` is `self.bands.reshape(-1, n)`. -/
structure Dos (n : ℕ) where
  volume : ℝ
  steps : V3
  ks : List V3
  bands : List (Fin n → ℝ)
  ranges : List (ℝ × ℝ)
  kind : Kind

/-- `np.stack(np.meshgrid(*xyz, indexing='ij'), axis=-1) @ np.linalg.inv(A)` (density_of_states.py 246), flattened. -/
noncomputable def grid (A : M3) (x y z : List ℝ) : List V3 :=
  x.flatMap fun a => y.flatMap fun b => z.map fun c => Matrix.vecMul ![a, b, c] A⁻¹

/-- `np.argmin`, `np.argmax`: the first position of the extremal value; `better a b` says that `a` replaces `b`. -/
noncomputable def argBest (better : ℝ → ℝ → Prop) [DecidableRel better] (v : List ℝ) : ℕ :=
  (v.zipIdx.foldl (fun (s : ℕ × Option ℝ) p =>
    match s.2 with
    | none => (p.2, some p.1)
    | some b => if better p.1 b then (p.2, some p.1) else s) (0, none)).1

open Classical in
/-- The loops at 272-280 (`sgn = 1`, minimum) and 283-291 (`sgn = -1`, maximum), with the number of rounds left. -/
noncomputable def refine (pinv : M3 → M3) (steps : V3) (gh : V3 → V3 × M3) (sgn : ℝ) : ℕ → V3 → V3
  | 0, k => k
  | m + 1, k =>
    if ¬ (sgn • (gh k).2).PosSemidef then k
    else
      let step := (pinv (gh k).2).mulVec (gh k).1
      if ∃ a, 11 / 20 < |step a / steps a| then k
      else refine pinv steps gh sgn m (k - step)

/-- `self.bands_range` (density_of_states.py 263-295). -/
noncomputable def bandsRange {n : ℕ} (pinv : M3 → M3) (md : Model n) (steps : V3) (ks : List V3) (bands : List (Fin n → ℝ)) : List (ℝ × ℝ) :=
  (List.finRange n).map fun i =>
    let v := bands.map fun b => b i
    let lo := argBest (· < ·) v
    let hi := argBest (· > ·) v
    match md.gradHess with
    | some gh =>
      (md.bands (refine pinv steps (fun k => gh k i) 1 2 (ks.getD lo 0)) i, md.bands (refine pinv steps (fun k => gh k i) (-1) 2 (ks.getD hi 0)) i)
    | none => (v.getD lo 0, v.getD hi 0)

open Classical in
/-- `check` (density_of_states.py 324-338) for the drawn numbers `rnd`. -/
noncomputable def periodicCheck {n : ℕ} (md : Model n) (A : M3) (rnd : Fin 20 → V3) (tol : ℝ) : Except Err Unit :=
  let k : Fin 20 → V3 := fun j => Matrix.vecMul (rnd j) A⁻¹
  let err : Fin 3 → ℝ := fun i => Real.sqrt (∑ j, ∑ b,
    (md.bands (Matrix.vecMul (k j) A⁻¹) b - md.bands (Matrix.vecMul (k j + Pi.single i 1) A⁻¹) b) ^ 2)
  if ∀ i, err i < tol then .ok () else .error .assertionError

/-- The choice of the smearing (density_of_states.py 298-319). -/
def kindOf (smearing : String) (useGradients : Bool) : Except Err Kind :=
  if smearing = "tetras" then if useGradients then .error .notImplemented else .ok .tetras
  else if smearing = "cubes" then .ok (.cubes useGradients)
  else if smearing = "cubes+" then if useGradients then .error .notImplemented else .ok .cubesPlus
  else if smearing = "spheres" then .ok (.spheres useGradients)
  else .error .valueError

/-- The values of the bands (density_of_states.py 255-262). -/
noncomputable def evalBands {n : ℕ} (md : Model n) (smearing : String) (useGradients : Bool) (ks : List V3) : Except Err (List (Fin n → ℝ)) :=
  if (smearing = "spheres" ∨ smearing = "cubes") ∧ useGradients = true then
    match md.grad with
    | none => .error .valueError
    | some g => .ok (ks.map fun k b => (g k b).1)
  else .ok (ks.map md.bands)

open Classical in
/-- `DensityOfStates.__init__` (density_of_states.py 211-319).  `np.linalg.inv` of a singular matrix raises `LinAlgError`, a `ValueError`. -/
noncomputable def init {n : ℕ} (pinv : M3 → M3) (rnd : Fin 20 → V3) (md : Model n) (a : Args) : Except Err (Dos n) :=
  match a.ranges with
  | [rx, ry, rz] => do
    let x ← axis a.N a.wrap a.midpoint rx
    let y ← axis a.N a.wrap a.midpoint ry
    let z ← axis a.N a.wrap a.midpoint rz
    let sx ← stepOf x
    let sy ← stepOf y
    let sz ← stepOf z
    if a.A.det = 0 then .error .valueError
    else do
      let ks := grid a.A x y z
      match a.check with
        | none => .ok ()
        | some t => periodicCheck md a.A rnd t
      let bands ← evalBands md a.smearing a.useGradients ks
      let kind ← kindOf a.smearing a.useGradients
      .ok ⟨(rx.2 - rx.1) * (ry.2 - ry.1) * (rz.2 - rz.1), ![sx, sy, sz], ks, bands, bandsRange pinv md ![sx, sy, sz] ks bands, kind⟩
  | _ => .error .assertionError

end TB.DosInit

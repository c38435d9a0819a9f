import Mathlib.Analysis.Real.Sqrt
import Mathlib.Data.Fin.VecNotation
import Mathlib.LinearAlgebra.Matrix.Determinant.Basic
import Mathlib.LinearAlgebra.Matrix.NonsingularInverse
import Verif.Model.Err

/-!
# Model of `DensityOfStates.fermi_surface_samples` (density_of_states.py 735-863) and of the coordinates in `CubesSmearing.samples`
(smearing.py 217-247)

Numbers are real.  The areas and centres of the cut cubes (`cube_cut_area_com`) are parameters, and so are the new weights of
`improved_weights=True` (density_of_states.py 832-853).  A division by zero gives `nan` or an infinite number in the code; the theorems exclude it.
-/

namespace TB.FermiSamples

/-- Points and gradients. -/
abbrev V3 := Fin 3 → ℝ

/-- One sample of `samples`: point, gradient, weight. -/
structure Smpl where
  x : V3
  grad : V3
  w : ℝ

/-- Euclidean norm. -/
noncomputable def norm3 (g : V3) : ℝ := Real.sqrt (∑ c, g c ^ 2)

/-! ## `CubesSmearing.samples` -/

/-- The values computed for one cube: area and centre of mass (in the cube) from `cube_cut_area_com`, the centre of the cube and the gradient
`self.cubes[5:8]` in units of the steps, and the area scaling. -/
structure Cut where
  area : ℝ
  com : V3
  center : V3
  normal : V3
  scale : ℝ

/-- `L = self.B @ np.diag(self.step_sizes)` (smearing.py 220). -/
def stepMatrix (B : Matrix (Fin 3) (Fin 3) ℝ) (step : V3) : Matrix (Fin 3) (Fin 3) ℝ := B * Matrix.diagonal step

/-- `np.abs(np.linalg.det(basis2[:,1:].T @ L @ basis[:,1:]))` (smearing.py 228) for the factors `Q`, `Q2` of the QR decompositions. -/
noncomputable def areaScale (L Q Q2 : Matrix (Fin 3) (Fin 3) ℝ) : ℝ :=
  |(Matrix.of fun i j : Fin 2 => ∑ a, ∑ b, Q2 a i.succ * L a b * Q b j.succ).det|

open Classical in
/-- `samples` (smearing.py 229-247) after the computation of the scale. -/
noncomputable def cubeSamples (B : Matrix (Fin 3) (Fin 3) ℝ) (step : V3) (cuts : List Cut) : List Smpl :=
  (cuts.filter fun c => decide (1 / 10000 < c.area)).map fun c =>
    ⟨B.mulVec fun a => c.com a * step a + c.center a, Matrix.vecMul (fun a => c.normal a / step a) B⁻¹, c.area * c.scale⟩

/-! ## `fermi_surface_samples` -/

/-- The attributes used. `grad` is the method `bands_grad` of the model, if there is one. -/
structure Obj where
  ranges : List (ℝ × ℝ)
  samples : ℕ → ℝ → List Smpl
  detA : ℝ
  vol : ℝ
  model : Option (V3 → ℕ → ℝ)
  grad : Option (V3 → ℕ → ℝ × V3)
  /-- density_of_states.py 832-853: the new weights from points, gradients and `weight_by_gradient`. -/
  reweight : List V3 → List V3 → Bool → List ℝ

open Classical in
/-- `cut_band_indices` (density_of_states.py 394-400). -/
noncomputable def Obj.cut (o : Obj) (e : ℝ) : List ℕ :=
  (o.ranges.zipIdx.filter fun p => decide (p.1.1 < e ∧ e < p.1.2)).map Prod.snd

/-- `x -= grads * (bands / (1e-20 + norm(grads)**2))` (density_of_states.py 784, 829). -/
noncomputable def newton (x g : V3) (b : ℝ) : V3 := fun a => x a - g a * (b / (1 / 10 ^ 20 + ∑ c, g c ^ 2))

/-- Lines 774-784: scaled weight and Newton step. -/
noncomputable def Obj.improve (o : Obj) (model : V3 → ℕ → ℝ) (e : ℝ) (improved : Bool) (i : ℕ) (s : Smpl) : Smpl :=
  let w := s.w * (o.detA / o.vol)
  if improved then
    match o.grad with
    | some gr => ⟨newton s.x (gr s.x i).2 ((gr s.x i).1 - e), (gr s.x i).2, w⟩
    | none => ⟨newton s.x s.grad (model s.x i - e), s.grad, w⟩
  else ⟨s.x, s.grad, w⟩

/-- Lines 788-793: the weights of one band. -/
noncomputable def bandWeights (byGrad perBand : Bool) (l : List Smpl) : List ℝ :=
  let w := if byGrad then l.map fun s => s.w / (norm3 s.grad + 1 / 10 ^ 20) else l.map Smpl.w
  if perBand then w.map fun x => x / (l.map Smpl.w).sum else w

/-- `fermi_surface_samples` (density_of_states.py 735-863): points, band indices, weights, total area. -/
noncomputable def Obj.fermiSamples (o : Obj) (e : ℝ) (improvedPoints improvedWeights byGrad : Bool) (normalize : Option String) :
    Except Err (List V3 × List ℕ × List ℝ × ℝ) :=
  match o.model with
  | none => .error .assertionError
  | some model =>
    if ¬ (normalize = none ∨ normalize = some "band" ∨ normalize = some "total") then .error .assertionError
    else
      let bands := (o.cut e).map fun i => (i, (o.samples i e).map (o.improve model e improvedPoints i))
      let area := (bands.map fun b => (b.2.map Smpl.w).sum).sum
      let weights := bands.flatMap fun b => bandWeights (byGrad && !improvedWeights) (normalize == some "band") b.2
      let points := bands.flatMap fun b => b.2.map Smpl.x
      let idx := bands.flatMap fun b => List.replicate b.2.length b.1
      if improvedWeights then
        match o.grad with
        | none => .error .notImplemented
        | some gr =>
          let res := List.zipWith (fun x i => gr x i) points idx
          let points' := List.zipWith (fun x (r : ℝ × V3) => newton x r.2 r.1) points res
          let w := o.reweight points' (res.map Prod.snd) byGrad
          if normalize = some "band" then .error .notImplemented
          else .ok (points', idx, if normalize = some "total" then w.map fun x => x / w.sum else w, area)
      else .ok (points, idx, if normalize = some "total" then weights.map fun x => x / area else weights, area)

end TB.FermiSamples

import Verif.Model.Bulk

/-!
# Model of `KIntegral.hall_coefficient_metal_cubic`, `hall_coefficient` and `heat_capacity` (bulk_properties.py 394-431)

A division by zero gives `nan` or an infinite number in the code; the theorems exclude it.
-/

noncomputable section

namespace TB.Bulk
open Matrix

/-- `einsum("ni,nij,nj->n", v, h, v) - einsum("nj,nj,nii->n", v, v, h)` for one sample (bulk_properties.py 425). -/
def cubicTerm (v : Fin 3 → ℝ) (h : Matrix (Fin 3) (Fin 3) ℝ) : ℝ := (∑ i, ∑ j, v i * h i j * v j) - ∑ j, ∑ i, v j * v j * h i i

/-- `hall_coefficient_metal_cubic` (bulk_properties.py 420-431), one number per temperature. -/
def hallCubic (c : Const) (I : KInt) (A : Matrix (Fin 3) (Fin 3) ℝ) (spin : ℝ) : Except Err (List ℝ) := do
  let V := ((1e-10 : ℝ) • A).det
  let L ← integrateDfA c I A (fun _ s => cubicTerm s.v s.h) 0
  let r ← item L 0
  let L2 ← integrateDfA c I A (fun _ s => ∑ i, s.v i ^ 2) 0
  let r2 ← item L2 0
  .ok (List.zipWith (fun i i2 => (c.q / c.q * spin / 6 * i) / (c.q / c.q * spin / 3 * i2) ^ 2 * V) r r2)

/-- `hall_coefficient` (bulk_properties.py 403-418, deprecated). -/
def hallOld (c : Const) (I : KInt) (A : Matrix (Fin 3) (Fin 3) ℝ) (spin : ℝ) : Except Err (List ℝ) := do
  let V := ((1e-10 : ℝ) • A).det
  let L ← integrateDfA c I A (fun _ s => s.v 0 ^ 2 * s.h 1 1 - s.v 0 * s.v 1 * s.h 1 0) 0
  let r ← item L 0
  let L2 ← integrateDfA c I A (fun _ s => s.v 0 ^ 2) 0
  let r2 ← item L2 0
  .ok (List.zipWith (fun i i2 => (-c.q / c.q * spin * i) / (c.q / c.q * spin * i2) ^ 2 * V) r r2)

/-- `heat_capacity` (bulk_properties.py 396-401, deprecated); `kB` is the constant of density_of_states.py. -/
def heatCapacity (c : Const) (kB : ℝ) (I : KInt) (beta : List ℝ) (spin : ℝ) : Except Err (List ℝ) := do
  let r ← item (integrateDf I (fun e _ => e) 1) 1
  .ok (List.zipWith (fun i b => spin * i * c.q / (1 / (b * kB))) r beta)

end TB.Bulk

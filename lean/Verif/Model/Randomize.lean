import Verif.Model.BandStructure
import Verif.Model.Loss

/-!
# Model of `randomize`, `print_error` and `print_model_norms`

`bandstructure.py` 146-156 (`BandStructureModel.randomize`), 228-235 (`print_error`), 237-244 (`print_model_norms`); `tight_binding_asym.py` 309-323
(`AsymTightBindingModel.randomize`), 346-353 (`print_error`).

The numbers of `np.random.standard_normal` are parameters: one real matrix for each position of the list of matrices and each call.  The printed text is
represented by the numbers in it.
-/

namespace TB.Randomize
open TB

variable {d n : ℕ}

/-- The result of one call of `np.random.standard_normal` in the shape of the list of matrices. -/
abbrev Draw (n : ℕ) := ℕ → Fin n → Fin n → ℝ

/-- `sigma * standard_normal + sigma * 1j * standard_normal` (bandstructure.py 152-153, tight_binding_asym.py 315, 320) for the matrix `p`. -/
noncomputable def noise (sigma : ℝ) (X Y : Draw n) (p : ℕ) : CMat n := fun i j => sigma * X p i j + sigma * Complex.I * Y p i j

open Classical in
/-- `dparams *= np.where(np.abs(H) < 1e-8, 0, 1)` if `keep_zeros` (bandstructure.py 154-155, tight_binding_asym.py 316-317, 321-322). -/
noncomputable def masked (keep : Bool) (H D : CMat n) : CMat n :=
  if keep then fun i j => D i j * (if ‖H i j‖ < 1e-8 then 0 else 1) else D

/-- `H_r += dparams` (tight_binding_asym.py 315-318, 320-323). -/
noncomputable def series (sigma : ℝ) (keep : Bool) (X Y : Draw n) (s : Series d n) : Series d n :=
  ⟨s.terms.mapIdx fun p t => (t.1, t.2 + masked keep t.2 (noise sigma X Y p))⟩

/-- `AsymTightBindingModel.randomize` (tight_binding_asym.py 309-323): four calls of the generator. -/
noncomputable def asym (sigma : ℝ) (keep randomizeS : Bool) (X Y X' Y' : Draw n) (t : Tb d n) : Tb d n :=
  ⟨series sigma keep X Y t.H, if randomizeS then series sigma keep X' Y' t.S else t.S⟩

/-- `BandStructureModel.randomize` (bandstructure.py 146-156). -/
noncomputable def bs (sigma : ℝ) (keep : Bool) (X Y : Draw n) (b : BS.BSM d n) : BS.BSM d n :=
  { b with
    P0 := b.P0 + masked keep b.P0 (noise sigma X Y 0)
    Ps := b.Ps.mapIdx fun p P => P + masked keep P (noise sigma X Y (p + 1)) }

/-! ## Printing -/

/-- `np.broadcast_to(np.ravel(band_weights / np.mean(band_weights)), (m,))` (bandstructure.py 230, tight_binding_asym.py 348). -/
noncomputable def printWeights (w : List ℝ) (m : ℕ) : Except Err (List ℝ) :=
  let v := w.map fun x => x / (w.sum / w.length)
  if v.length = m then .ok v
  else match v with
  | [x] => .ok (List.replicate m x)
  | _ => .error .valueError

/-- `print_error` (bandstructure.py 228-235, tight_binding_asym.py 346-353): the numbers that are printed or put in the log; `bands` is `self(k_smpl)`. -/
noncomputable def printError (bands ref : Tab) (w : List ℝ) (off : ℕ) : Except Err (ℝ × List ℝ) :=
  if ref.rows = 0 then .error .indexError
  else do
    let v ← printWeights w ref.cols
    modelError bands ref v off

/-- `print_model_norms` (bandstructure.py 237-244): the lines, each with a neighbour or the index of the matrix. -/
noncomputable def printNorms (b : BS.BSM d n) : List ((RVec d ⊕ ℕ) × ℝ) :=
  match b.coeff with
  | .tb t => List.zipWith (fun r P => (.inl r, mnorm P)) t.neighbors b.params
  | .custom _ _ _ => b.params.mapIdx fun i P => (.inr i, mnorm P)

end TB.Randomize

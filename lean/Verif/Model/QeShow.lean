import Mathlib.Analysis.Complex.Norm
import Verif.Model.Err

/-!
# Model of `print_orbitals` (qespresso_interface.py 265-282) and of the lines drawn by `QECrystal.plot_bands` (466-474)

`np.argsort` is a parameter (the order of equal values is left open).  The printed text is represented by the pairs of name and percentage, `none` for
the text "None".  A `NaN` column is `none`.
-/

namespace TB.QeShow
open TB

/-- `np.abs(amplitudes)**2` (272). -/
noncomputable def distribution (amplitudes : List ℂ) : List ℝ := amplitudes.map fun z => ‖z‖ ^ 2

/-- The loop (275-278) over the flipped order. -/
noncomputable def orbLoop (dist : List ℝ) (orbitals : List String) (threshold : ℝ) : List ℕ → List (String × ℝ) → Except Err (List (String × ℝ))
  | [], values => .ok values
  | i :: l, values =>
    open Classical in
    if dist.getD i 0 < threshold then .ok values
    else match orbitals[i]? with
      | none => .error .indexError
      | some o => orbLoop dist orbitals threshold l (values ++ [(o, dist.getD i 0)])

/-- `print_orbitals` (265-282). -/
noncomputable def printOrbitals (argsort : List ℝ → List ℕ) (amplitudes : List ℂ) (orbitals : List String) (threshold : ℝ) :
    Except Err (Option (List (String × ℝ))) :=
  match orbLoop (distribution amplitudes) orbitals threshold (argsort (distribution amplitudes)).reverse [] with
  | .error e => .error e
  | .ok values => if values.isEmpty then .ok none else .ok (some values)

/-- One step of the loop (472-474) on the columns of `z`; comparisons with `NaN` are false. -/
noncomputable def breakStep (z : List (Option (ℝ × ℝ))) (i : ℕ) : List (Option (ℝ × ℝ)) :=
  match z[i]?, z[i + 1]? with
  | some (some a), some (some b) =>
    open Classical in
    if b.1 ≤ a.1 then z.insertIdx (i + 1) none else z
  | _, _ => z

/-- The columns that are drawn (472-475). -/
noncomputable def breakLines (z : List (ℝ × ℝ)) : List (Option (ℝ × ℝ)) := (List.range (z.length - 1)).reverse.foldl breakStep (z.map some)

end TB.QeShow

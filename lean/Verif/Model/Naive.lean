import Mathlib.Data.List.Sort
import Mathlib.Algebra.Order.Floor.Defs
import Mathlib.Algebra.Order.Floor.Ring
import Verif.Model.DosThermal
import Verif.Model.Err

/-!
# Model of `naive_fermi_energy` and `naive_energy` (density_of_states.py 181-191)

`bands` is a list of rows (the leading axes are flattened, row-major).  `none` stands for `nan`.
-/

namespace TB.Naive
open TB.Dos

/-- The built-in `round`: to the nearest integer, halves to the even one. -/
noncomputable def pyRound (x : ℝ) : ℤ :=
  open Classical in
  if x - ⌊x⌋ < 1 / 2 then ⌊x⌋ else if 1 / 2 < x - ⌊x⌋ then ⌊x⌋ + 1 else if Even ⌊x⌋ then ⌊x⌋ else ⌊x⌋ + 1

/-- End of a slice: negative numbers count from the end. -/
def clip (n : ℕ) (i : ℤ) : ℕ := if i < 0 then (i + n).toNat else min i.toNat n

/-- `l[i:j]`. -/
def slice {α : Type} (l : List α) (i j : ℤ) : List α := (l.take (clip l.length j)).drop (clip l.length i)

/-- `np.mean`; `nan` for an empty array. -/
noncomputable def mean (l : List ℝ) : Option ℝ := if l = [] then none else some (l.sum / l.length)

/-- `np.sort(np.ravel(bands))`. -/
noncomputable def sorted (bands : List (List ℝ)) : List ℝ := open Classical in bands.flatten.mergeSort fun a b => decide (a ≤ b)

/-- `naive_fermi_energy` (density_of_states.py 181-183). -/
noncomputable def naiveFermiEnergy (bands : List (List ℝ)) (electrons : ℝ) : Option ℝ :=
  let i := pyRound (bands.length * electrons)
  mean (slice (sorted bands) i (i + 2))

/-- `np.shape(bands)[-1]`: the length of the rows; 0 for the empty list. -/
def width (bands : List (List ℝ)) : ℕ := (bands.headD []).length

/-- `naive_energy` (density_of_states.py 186-191). At temperatures up to zero the quotient of two python integers raises `ZeroDivisionError`
for empty bands. -/
noncomputable def naiveEnergy (bands : List (List ℝ)) (mu T spin : ℝ) : Except Err (Option ℝ) :=
  open Classical in
  let e := bands.flatten
  if 0 < T then
    .ok ((mean (e.map fun x => x * fermi (1 / (kB * T)) (x - mu))).map fun m => m * width bands * spin)
  else if e.length = 0 then .error .zeroDivision
  else .ok (some ((e.filter fun x => decide (x ≤ mu)).sum * ((width bands : ℝ) / e.length) * spin))

end TB.Naive

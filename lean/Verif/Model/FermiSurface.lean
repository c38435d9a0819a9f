import Mathlib.Algebra.Order.Field.Basic
import Mathlib.Data.List.FinRange
import Verif.Model.Err

/-!
# Model of `fermi_surface.py`

`model` is any function from sample points to the `m` band energies.  The reshapes only change the form of the arrays (the grid
of samples is flattened in the same order everywhere), so a volume is the list of its values.  The plotting functions of the file
are not modelled.
-/

namespace TB.FS
variable {K : Type} [Field K] [LinearOrder K] {P : Type} {m : ℕ}

/-- `np.any(bands[:, i] > 0)` (fermi_surface.py 29). -/
def anyPos (col : List K) : Bool := col.any fun x => decide (x > 0)

/-- `np.any(bands[:, i] < 0)` (fermi_surface.py 29). -/
def anyNeg (col : List K) : Bool := col.any fun x => decide (x < 0)

/-- `fermi_surface` (fermi_surface.py 13-32): the volumes and the band indices.  `bands[0]` does not exist without samples. -/
def fermiSurface (model : P → Fin m → K) (eF : K) (ks : List P) : Except Err (List (List K) × List (Fin m)) :=
  let bands := ks.map fun k i => model k i - eF
  match bands with
  | [] => .error .indexError
  | _ :: _ =>
    .ok ((List.finRange m).foldl (fun (acc : List (List K) × List (Fin m)) i =>
      let col := bands.map fun r => r i
      if anyPos col && anyNeg col then (acc.1 ++ [col], acc.2 ++ [i]) else acc) ([], []))

end TB.FS

import Mathlib.Analysis.SpecialFunctions.Pow.Real
import Verif.Model.Naive

/-!
# Model of the data in the input of Wannier90 (`prepare_wannier`, `prepare_plot_wannier_bands`)

`qespresso_interface.py` 1193-1202 with the lines of the file that depend on it (1204-1206, 1218-1219, 1225, 1248-1250), and 1290-1302.  The k-points
and bands are those returned by `read_bands_crystal(incomplete=True)` (`Model/SpaceGroup`).  The constant lines of the file are left out; the texts of
the cell and the k-points are in `Model/QeCards`.
-/

namespace TB.Wannier
open TB

/-- `np.linspace(0, 1.0, n, endpoint=False)`. -/
noncomputable def fractions (n : ℕ) : List ℝ := (List.range n).map fun i : ℕ => (i : ℝ) * (1 / (n : ℝ))

/-- `np.stack(np.meshgrid(*(l,)*3), axis=-1).reshape(-1, 3)` (1199, 1299): the default indexing is `'xy'`, so entry `[a, b, c]` is
`(l[b], l[a], l[c])`. -/
def meshPoints (l : List ℝ) : List (Fin 3 → ℝ) :=
  l.flatMap fun ya => l.flatMap fun xb => l.map fun zc => ![xb, ya, zc]

/-- `round(np.cbrt(n))` (1196, 1296). -/
noncomputable def roundCbrt (n : ℕ) : ℤ := Naive.pyRound ((n : ℝ) ^ ((1 : ℝ) / 3))

/-- Lines 1194-1199: `grid_size` and `k_points`. -/
noncomputable def gridPart (symmetry : Bool) (gridSize : Option ℤ) (points : List (Fin 3 → ℝ)) : Except Err (ℤ × List (Fin 3 → ℝ)) :=
  match gridSize with
  | none =>
    if symmetry then .error .assertionError
    else if (points.length : ℤ) = roundCbrt points.length ^ 3 then .ok (roundCbrt points.length, points)
    else .error .assertionError
  | some n => if n < 0 then .error .valueError else .ok (n, meshPoints (fractions n.toNat))

/-- The file `{name}.win` (1202-1251): `num_bands`, `num_wann`, the frozen window if it is written, `length_unit`, `mp_grid` and the k-points. -/
structure Win where
  numBands : ℕ
  numWann : ℤ
  frozen : Option (ℝ × ℝ)
  lengthUnit : String
  mpGrid : ℤ
  kPoints : List (Fin 3 → ℝ)

/-- The dictionary of line 1225. -/
def lengthUnit (unit : String) : Except Err String :=
  if unit = "angstrom" then .ok "Ang" else if unit = "bohr" then .ok "Bohr" else .error .keyError

/-- `prepare_wannier` (1181-1255) until the file is written. -/
noncomputable def prepareWannier (unit : String) (points : List (Fin 3 → ℝ)) (bands : List (List ℝ)) (frozen : ℝ × ℝ) (wannierCount gridSize : Option ℤ)
    (symmetry : Bool) : Except Err Win :=
  match gridPart symmetry gridSize points with
  | .error e => .error e
  | .ok (n, ks) =>
    match bands with
    | [] => .error .indexError
    | b :: _ =>
      match lengthUnit unit with
      | .error e => .error e
      | .ok u => .ok ⟨b.length, wannierCount.getD b.length, if symmetry then none else some frozen, u, n, ks⟩

/-- `prepare_plot_wannier_bands` (1289-1332): the same data and `bands_num_points`; `indices` is `kpath.indices`. -/
noncomputable def preparePlot (unit : String) (points : List (Fin 3 → ℝ)) (bands : List (List ℝ)) (indices : List ℕ) (wannierCount gridSize : Option ℤ)
    (bandsNumPoints : Option ℕ) : Except Err (Win × ℕ) :=
  match bandsNumPoints, indices[1]? with
  | none, none => .error .indexError
  | none, some m => (prepareWannier unit points bands (0, 0) wannierCount gridSize false).map fun w => ({ w with frozen := none }, m)
  | some m, _ => (prepareWannier unit points bands (0, 0) wannierCount gridSize false).map fun w => ({ w with frozen := none }, m)

end TB.Wannier

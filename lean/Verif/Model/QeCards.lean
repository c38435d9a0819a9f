import Mathlib.Data.Real.Basic
import Mathlib.LinearAlgebra.Matrix.Notation
import Verif.Model.Symmetry

/-!
# Model of the texts written for Quantum Espresso and Wannier90

`qespresso_interface.py`: `k_points` (233-246), `k_grid` (248-263), `QECrystal._crystal` (847-860), `crystal_wannier` (1099-1113),
`k_points_wannier` (1158-1163), `k_path_wannier` (1165-1176); `kpaths.py`: `KPath.__str__` (245-249).

A text is a list of characters.  How Python prints a number and a count are parameters (`Fmt`), as is the order of `set(self.types)`.
-/

namespace TB.Cards
open TB

abbrev Text := List Char

/-- `f"{x}"` for a float and for an integer. -/
structure Fmt where
  num : ℝ → Text
  nat : ℤ → Text

def sp : Text := [' ']
def nl : Text := ['\n']

/-- Row `f"{x} {y} {z}"`. -/
def three (F : Fmt) (v : Fin 3 → ℝ) : Text := F.num (v 0) ++ sp ++ F.num (v 1) ++ sp ++ F.num (v 2)

/-- `k_points` (233-246). -/
def kPoints (F : Fmt) (points : List (Fin 3 → ℝ)) (unit : Text) : Text :=
  points.foldl (fun t p => t ++ (three F p ++ sp ++ ['1'] ++ nl)) ("K_POINTS {".toList ++ unit ++ "}\n".toList ++ F.nat points.length ++ nl)

/-- `k_grid` (248-263). -/
def kGrid (F : Fmt) (size : ℤ) (size2 size3 : Option ℤ) : Text :=
  "K_POINTS (automatic)\n".toList ++ F.nat size ++ sp ++ F.nat (size2.getD size) ++ sp ++ F.nat (size3.getD size) ++ " 0 0 0".toList

/-- `KPath.__str__` (kpaths.py 245-249). -/
def kPathStr (F : Fmt) (path : List (Fin 3 → ℝ)) : Text :=
  path.foldl (fun t p => t ++ (three F (fun i => p i * 2) ++ sp ++ ['1'] ++ nl)) ("K_POINTS {tpiba_b}\n".toList ++ F.nat path.length ++ nl)

/-- The fields used: `unit`, `A`, `basis`, `types` (`ibrav` is always 0). -/
structure Cell where
  unit : Text
  A : Mat ℝ 3
  basis : List (List ℝ)
  types : List Text

/-- The loops over `zip(self.basis, self.types)` (857-859, 1109-1111), `pre` before each line. -/
def atomLines (F : Fmt) (pre : Text) : List (List ℝ × Text) → Text → Except Err Text
  | [], t => .ok t
  | (b, ty) :: l, t =>
    if b.length ≠ 3 then .error .assertionError
    else atomLines F pre l (t ++ (pre ++ ty ++ sp ++ three F (fun i => b.getD i.val 0) ++ nl))

/-- The loop over the species (854-855); `mass` is `element_masses[element_numbers[t]]`, `pp` is `pp_files[t]` (`KeyError` if missing). -/
def speciesLines (F : Fmt) (mass : Text → Option ℝ) (pp : Text → Option Text) : List Text → Text → Except Err Text
  | [], t => .ok t
  | s :: l, t =>
    match mass s, pp s with
    | some m, some p => speciesLines F mass pp l (t ++ (sp ++ s ++ sp ++ F.num m ++ sp ++ p ++ nl))
    | _, _ => .error .keyError

/-- The columns of `A` as rows (848-852, 1102-1104). -/
def cellRows (F : Fmt) (A : Mat ℝ 3) : Text :=
  three F (fun i => A i 0) ++ nl ++ three F (fun i => A i 1) ++ nl ++ three F (fun i => A i 2) ++ nl

/-- `QECrystal._crystal` (847-860); `order` is `set(self.types)` in the order of the iteration. -/
def crystal (F : Fmt) (mass : Text → Option ℝ) (pp : Text → Option Text) (order : List Text) (c : Cell) : Except Err Text := do
  let t ← speciesLines F mass pp order ("CELL_PARAMETERS ".toList ++ c.unit ++ nl ++ cellRows F c.A ++ "ATOMIC_SPECIES\n".toList)
  let t ← atomLines F sp (c.basis.zip c.types) (t ++ "ATOMIC_POSITIONS crystal\n".toList)
  pure t.dropLast

/-- `crystal_wannier` (1099-1113). -/
def crystalWannier (F : Fmt) (c : Cell) : Except Err Text := do
  let t ← atomLines F [] (c.basis.zip c.types) ("begin unit_cell_cart\n".toList ++ c.unit ++ nl ++ cellRows F c.A ++
    "end unit_cell_cart\n\nbegin atoms_frac\n".toList)
  pure (t ++ "end atoms_frac".toList)

/-- `k_points_wannier` (1158-1163). -/
def kPointsWannier (F : Fmt) (points : List (Fin 3 → ℝ)) : Text :=
  points.foldl (fun t p => t ++ (three F p ++ nl)) "begin kpoints\n".toList ++ "end kpoints".toList

/-- The loop of `k_path_wannier` (1168-1174): the text and `prev`. -/
noncomputable def kPathLoop (F : Fmt) (A : Mat ℝ 3) : List (Text × (Fin 3 → ℝ)) → Text → Option Text → Text
  | [], t, _ => t
  | (name, k) :: l, t, prev =>
    let this := name ++ sp ++ three F (A.transpose.mulVec k)
    kPathLoop F A l (match prev with | some p => t ++ p ++ sp ++ this ++ nl | none => t) (some this)

/-- `k_path_wannier` (1165-1176); `marks` are the names with the points `kpath[i]` for `i` in `kpath.indices`. -/
noncomputable def kPathWannier (F : Fmt) (A : Mat ℝ 3) (marks : List (Text × (Fin 3 → ℝ))) : Text :=
  kPathLoop F A marks "begin kpoint_path\n".toList none ++ "end kpoint_path".toList

end TB.Cards

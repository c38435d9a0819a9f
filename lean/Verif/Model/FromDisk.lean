import Mathlib.Data.Real.Basic
import Mathlib.LinearAlgebra.Matrix.Notation
import Mathlib.LinearAlgebra.Matrix.NonsingularInverse
import Verif.Model.Symmetry

/-!
# Model of `qespresso_interface.py`: `from_disk` (1354-1421)

The XML document is given by the numbers and names that the code looks up (the lexing of XML is not modelled).  Missing elements raise
`IndexError` (`getElementsByTagName(...)[0]`).  Simplified: the elements below a section are all present, except the optional `smearing`;
a lattice vector or position without three numbers is a `ValueError` at once; `qe_prepare()` (downloads) is not modelled.
-/

namespace TB.FromDisk
open TB

/-- The part `input` or `output` of the document: names and pseudo potential files of the species, lattice vectors, name and position of
the atoms, cutoff, and kind and width of the smearing. -/
structure Section where
  species : List (String × String)
  a1 : List ℝ
  a2 : List ℝ
  a3 : List ℝ
  atoms : List (String × List ℝ)
  ecutwfc : ℝ
  smearing : Option (String × ℝ)

/-- The file `qe-data/{name}.xml`. -/
structure Doc where
  npool : ℤ
  nprocs : ℤ
  ndiag : ℤ
  ntasks : ℤ
  output : Option Section
  input : Option Section

/-- The fields of `QECrystal` (296-338). -/
structure Crystal where
  name : String
  A : Mat ℝ 3
  basis : List (Fin 3 → ℝ)
  types : List String
  cutoff : ℝ
  T : ℝ
  relativistic : Bool
  nk : ℤ
  nd : ℤ
  ni : ℤ
  nt : ℤ

/-- `[float(x) for x in …]` used as a vector. -/
def vec3 (l : List ℝ) : Except Err (Fin 3 → ℝ) :=
  if l.length = 3 then .ok fun i => l.getD i.val 0 else .error .valueError

/-- `pp_files[atom_type] = pseudo_file` for all species (1386-1393). -/
def addSpecies (pp : String → Option String) (l : List (String × String)) : String → Option String :=
  l.foldl (fun d s => fun t => if t = s.1 then some s.2 else d t) pp

/-- The loop over the atoms (1402-1408). -/
noncomputable def atomLoop (A : Mat ℝ 3) : List (String × List ℝ) → Except Err (List (Fin 3 → ℝ) × List String)
  | [] => .ok ([], [])
  | a :: l => do
    let p ← vec3 a.2
    if A.det = 0 then .error .valueError                        -- `np.linalg.inv` raises `LinAlgError`
    else do
      let r ← atomLoop A l
      pure ((A⁻¹.mulVec p) :: r.1, a.1 :: r.2)

/-- `from_disk` (1354-1421).  `bohr` is `bohr_to_angstrom`, `kB` is `6.3336231269e-6`; `pp` is the global dictionary `pp_files`, which is
returned as well. -/
noncomputable def fromDisk (bohr kB : ℝ) (name : String) (doc : Doc) (pp : String → Option String) (readOutput : Bool) :
    Except Err (Crystal × (String → Option String)) :=
  match (if readOutput then doc.output else doc.input) with     -- lines 1380-1383
  | none => .error .indexError
  | some s => do
    let pp' := addSpecies pp s.species                          -- lines 1386-1393
    let v1 ← vec3 s.a1                                          -- lines 1395-1397
    let v2 ← vec3 s.a2
    let v3 ← vec3 s.a3
    let A : Mat ℝ 3 := bohr • Matrix.of fun i j => ![v1, v2, v3] j i   -- lines 1398-1401; the unit is always "angstrom"
    let (basis, types) ← atomLoop A s.atoms                     -- lines 1402-1410
    let T := match s.smearing with                              -- lines 1413-1417
      | some (kind, degauss) => if kind = "fd" then degauss / kB else 0
      | none => 0
    pure (⟨name, A, basis, types, s.ecutwfc, T, false, doc.npool, doc.ndiag, doc.nprocs, doc.ntasks⟩, pp')

end TB.FromDisk

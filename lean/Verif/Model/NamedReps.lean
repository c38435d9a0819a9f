import Mathlib.Data.List.Sort
import Mathlib.LinearAlgebra.Matrix.Notation
import Verif.Model.NamedGroups
import Verif.Model.UnitaryRep

/-!
# Model of `unitary_representations.py`: named representations and `subspaces`
-/

namespace TB.UR

open Matrix

variable {F : Type} [Field F] [StarRing F] [DecidableEq F] {K : Type} [Field K] [LinearOrder K] [IsStrictOrderedRing K] {d N : ℕ}

/-- `UnitaryRepresentation.o3` (unitary_representations.py 529-536). -/
def o3 : Except Err (Rep ℚ ℚ 3 3) := do
  let σ ← Sym.cubic true
  .ok ⟨σ, σ.S, 0⟩

/-- `UnitaryRepresentation.so3` (unitary_representations.py 538-545). -/
def so3 : Except Err (Rep ℚ ℚ 3 3) := do
  let σ ← Sym.cubic true
  .ok ⟨σ, σ.S, 3⟩

/-- `UnitaryRepresentation.o3ri` (unitary_representations.py 547-555). -/
def o3ri : Except Err (Rep ℚ ℚ 3 3) := do
  let σ ← Sym.cubic true
  .ok ⟨σ, σ.S.map fun s => quarterSign s • s, 0⟩

/-- `UnitaryRepresentation.o3r` (unitary_representations.py 557-565). -/
def o3r : Except Err (Rep ℚ ℚ 3 3) := do
  let σ ← Sym.cubic true
  .ok ⟨σ, σ.S.map fun s => quarterSign s • s, 3⟩

/-- The generators in `d3` (unitary_representations.py 571-578); `w` is the argument `sqrt3`. -/
def d3Gen (w : F) : List (Mat ℚ 3 × Mat F 2) :=
  [(!![1, 0, 0; 0, 1, 0; 0, 0, 1], !![1, 0; 0, 1]),
   (!![0, 1, 0; -1, 0, 0; 0, 0, 1], !![1, 0; 0, -1]),
   (!![0, 0, -1; 0, 1, 0; 1, 0, 0], !![-(1 / 2), 1 / 2 * w; 1 / 2 * w, 1 / 2]),
   (!![1, 0, 0; 0, 0, 1; 0, -1, 0], !![-(1 / 2), -(1 / 2) * w; -(1 / 2) * w, 1 / 2])]

/-- `UnitaryRepresentation.d3` (unitary_representations.py 567-579). -/
def d3 (negate inversion : Bool) (w : F) : Except Err (Rep ℚ F 3 2) := fromGenerator (d3Gen w) inversion negate

/-- The generators in `one_dim` (unitary_representations.py 584-592). -/
def oneDimGen (invert : Bool) : List (Mat ℚ 3 × Mat ℚ 1) :=
  let x : ℚ := if invert then -1 else 1
  [(!![1, 0, 0; 0, 1, 0; 0, 0, 1], !![1]),
   (!![1, 0, 0; 0, 0, 1; 0, -1, 0], !![x]),
   (!![0, 0, -1; 0, 1, 0; 1, 0, 0], !![x]),
   (!![0, 1, 0; -1, 0, 0; 0, 0, 1], !![x])]

/-- `UnitaryRepresentation.one_dim` (unitary_representations.py 581-593). -/
def oneDim (invert negate inversion : Bool) : Except Err (Rep ℚ ℚ 3 1) := fromGenerator (oneDimGen invert) inversion negate

/-! ## `subspaces` -/

/-- `np.sum(np.abs(self.U), axis=0) > 1e-7` (unitary_representations.py 446), idealised to "some matrix has a nonzero entry
there". Rows as lists. -/
def Rep.occupancy (ρ : Rep K F d N) : List (List Bool) :=
  (List.finRange N).map fun i => (List.finRange N).map fun j => ρ.U.any fun u => decide (u i j ≠ 0)

/-- Lexicographic order of boolean rows, `False < True` (the order used by `np.unique(..., axis=0)`). -/
def rowLe : List Bool → List Bool → Bool
  | [], _ => true
  | _ :: _, [] => false
  | a :: l, b :: m => if a = b then rowLe l m else b

/-- `UnitaryRepresentation.subspaces` (unitary_representations.py 439-449). -/
def Rep.subspaces (ρ : Rep K F d N) : Except Err (List (List Bool) × List ℕ) :=
  let occ := ρ.occupancy
  let groups := occ.dedup.insertionSort fun a b => rowLe a b
  let counts := groups.map fun g => occ.count g
  if (groups.map fun g => g.count true) = counts ∧
      ((List.range N).all fun j => decide ((groups.countP fun g => g.getD j false) = 1)) then .ok (groups, counts)
  else .error .assertionError

end TB.UR

import Mathlib.LinearAlgebra.Matrix.Determinant.Basic
import Mathlib.LinearAlgebra.Matrix.NonsingularInverse
import Mathlib.Algebra.Order.Ring.Abs
import Mathlib.Algebra.Order.Field.Basic
import Verif.Model.Err

/-!
# Model of `symmetry.py`: class `Symmetry`, constructor, listing, generation

Numbers: a linearly ordered field `K` (floats are idealised).  Comparisons of the form
`norm(a - b) < 1e-7` are idealised to `a = b`, `abs(abs(det)-1) > 1e-7` to `|det| ≠ 1`.
The `projective` flag (space groups) is not modelled here: all symmetries are point groups.
-/

namespace TB

variable {K : Type} [Field K] [LinearOrder K] [IsStrictOrderedRing K] {d : ℕ}

/-- Square matrices of the dimension of the symmetry. -/
abbrev Mat (K : Type) (d : ℕ) := Matrix (Fin d) (Fin d) K

/-- `np.linalg.inv` in exact arithmetic (Cramer's rule, so that it can be evaluated); equal to Mathlib's matrix inverse
by `minv_eq`.  For a singular matrix numpy raises `LinAlgError`; where that can happen the caller's model says so. -/
def minv (A : Mat K d) : Mat K d := A.det⁻¹ • A.adjugate

omit [LinearOrder K] [IsStrictOrderedRing K] in
theorem minv_eq (A : Mat K d) : minv A = A⁻¹ := by
  rw [Matrix.inv_def, Ring.inverse_eq_inv', minv]

/-- Object state of `Symmetry` (symmetry.py 65-85): the matrix list `self.S` and `self.inversion`. -/
structure Sym (K : Type) (d : ℕ) where
  S : List (Mat K d)
  inversion : Bool
  deriving DecidableEq

/-- The test `pointcloud_distance(A, B) < 1e-6` (linalg.py 189-202) idealised to `= 0`, i.e. every point of `A`
occurs in `B`; that this is what a zero distance means is theorem `C18_pointcloud_distance_zero_iff`. -/
def pcZero (A B : List (Mat K d)) : Bool := A.all fun a => B.contains a

/-- `Symmetry.__init__` (symmetry.py 70-103). `self.S[0]` on an empty list raises `IndexError`. -/
def mkSym (S : List (Mat K d)) (inversion : Bool) : Except Err (Sym K d) :=
  match S with
  | [] => .error .indexError
  | s0 :: _ =>
    if s0 ≠ 1 then .error .valueError                                  -- lines 83-84
    else if S.any (fun s => decide (|s.det| ≠ 1)) then .error .valueError   -- lines 85-86
    else if pcZero S (S.map (fun s => -s)) then                       -- line 88
      if d % 2 = 1 then                                               -- lines 91-94
        .ok ⟨S.filter (fun s => decide (0 < s.det)), true⟩
      else .ok ⟨S, inversion⟩                                         -- lines 95-99
    else if inversion && decide (d % 2 = 0) then                      -- lines 100-103
      .ok ⟨S ++ S.map (fun s => -s), false⟩
    else .ok ⟨S, inversion⟩

/-- `Symmetry.__len__` (symmetry.py 143-145). -/
def Sym.len (σ : Sym K d) : ℕ := σ.S.length * (if σ.inversion then 2 else 1)

/-- `Symmetry.get_symmetry_operations` (symmetry.py 147-156). -/
def Sym.ops (σ : Sym K d) : List (Mat K d) :=
  if σ.inversion then σ.S ++ σ.S.map (fun s => -s) else σ.S

/-- `if not any(norm(s - S) < 1e-7): S.append(s)` (symmetry.py 264-265, 276-277). -/
def addNew {α : Type} [DecidableEq α] (S : List α) (s : α) : List α := if s ∈ S then S else S ++ [s]

/-- One round of the closure loop (symmetry.py 271-277): all products `a b` of the snapshot (row major) are
appended when new. -/
def genRound {α : Type} [DecidableEq α] [Mul α] (S : List α) : List α :=
  (S.flatMap fun a => S.map fun b => a * b).foldl addNew S

/-- The loop `for _ in range(200)` (symmetry.py 269-282); the first argument is the number of rounds left. -/
def genLoop {α : Type} [DecidableEq α] [Mul α] : ℕ → List α → Except Err (List α)
  | 0, S => .ok S
  | n + 1, S =>
    let S' := genRound S
    if 200 ≤ S'.length then .error .valueError
    else if S'.length ≤ S.length then .ok S'
    else genLoop n S'

/-- `Symmetry.from_generator` (symmetry.py 236-283).  `G[0]` of an empty list raises `IndexError`
(line 249). -/
def fromGenerator (G : List (Mat K d)) (inversion : Bool) : Except Err (Sym K d) :=
  if G.isEmpty then .error .indexError
  else
    let G1 := G.filter (fun s => decide (s ≠ 1))                       -- line 255
    if G1.isEmpty then mkSym [1] inversion                             -- lines 256-257
    else if G1.any (fun s => decide (|s.det| ≠ 1)) then .error .valueError  -- lines 258-260
    else
      let Gu := G1.foldl addNew []                                     -- lines 262-265
      match genLoop 200 (1 :: Gu) with                                 -- lines 266-282
      | .error e => .error e
      | .ok S => mkSym S inversion                                     -- line 283

/-- `Symmetry.__mul__` (symmetry.py 971-974); the dimension assertion holds by typing. -/
def Sym.mul (σ τ : Sym K d) : Except Err (Sym K d) :=
  fromGenerator (σ.S ++ τ.S) (σ.inversion || τ.inversion)

/-- `Symmetry.transform` (symmetry.py 209-233), non-projective branch: `S' = B S B⁻¹`.
`np.linalg.inv` raises `LinAlgError` (a subclass of `ValueError`) for singular `B`. -/
noncomputable def Sym.transform (σ : Sym K d) (B : Mat K d) : Except Err (Sym K d) :=
  if B.det = 0 then .error .valueError
  else mkSym (σ.S.map fun s => B * s * B⁻¹) σ.inversion

/-- `Symmetry.dual` (symmetry.py 285-289): inverse transpose of each operation. -/
noncomputable def Sym.dual (σ : Sym K d) : Except Err (Sym K d) :=
  mkSym (σ.S.map fun s => (s.transpose)⁻¹) σ.inversion

/-- `Symmetry.transpose` (symmetry.py 130-132). -/
def Sym.transpose (σ : Sym K d) : Except Err (Sym K d) :=
  mkSym (σ.S.map fun s => s.transpose) σ.inversion

/-- `Symmetry.copy` (symmetry.py 109-111). -/
def Sym.copy (σ : Sym K d) : Except Err (Sym K d) := mkSym σ.S σ.inversion

/-- `Symmetry.__eq__` (symmetry.py 134-141); the dimensions agree by typing. -/
def Sym.eq (σ τ : Sym K d) : Bool :=
  σ.inversion == τ.inversion && σ.len == τ.len && pcZero σ.S τ.S

/-- `Symmetry.check` (symmetry.py 121-124). -/
def Sym.check (σ : Sym K d) : Except Err Bool :=
  match fromGenerator σ.S σ.inversion with
  | .error e => .error e
  | .ok τ => .ok (σ.eq τ)

/-- `Symmetry.__contains__` (symmetry.py 956-969): `other in self`.  `len(self) % len(other)` with an empty
`other.S` cannot occur for constructed symmetries. -/
def Sym.contains (σ τ : Sym K d) : Bool :=
  if σ.len < τ.len then false
  else if σ.len % τ.len ≠ 0 then false
  else if τ.inversion && !σ.inversion then false
  else τ.S.all fun s => σ.S.contains s

end TB

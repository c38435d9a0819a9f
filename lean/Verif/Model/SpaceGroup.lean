import Mathlib.Algebra.Order.Floor.Ring
import Verif.Model.SymmetryDiv

/-!
# Model of the `projective` flag of `Symmetry` (symmetry.py) and of the reader `read_bands_crystal` (qespresso_interface.py 485-572)

A projective symmetry in `n - 1` dimensions holds `n × n` matrices; the model keeps the flag beside the object state of `Model/Symmetry`.
Shapes are typed, so the assertions on the shape of `basis_transform` are not modelled.  Tolerances are idealised to equality.
-/

namespace TB

variable {K : Type} [Field K] [LinearOrder K] [IsStrictOrderedRing K] {n : ℕ}

/-- Object state with the flag `self.projective` (symmetry.py 78-81). -/
structure PSym (K : Type) (n : ℕ) extends Sym K n where
  projective : Bool
  deriving DecidableEq

/-- `Symmetry.__init__` with the flag (symmetry.py 70-103); the flag takes no part in the checks. -/
def mkPSym (S : List (Mat K n)) (inversion projective : Bool) : Except Err (PSym K n) :=
  match mkSym S inversion with
  | .error e => .error e
  | .ok σ => .ok ⟨σ, projective⟩

/-- `Symmetry.space_dim` (symmetry.py 117-119). -/
def PSym.spaceDim (σ : PSym K n) : ℕ := n - (if σ.projective then 1 else 0)

/-- `Symmetry.space_group` (symmetry.py 918-921). -/
def spaceGroup (S : List (Mat K n)) (dim : ℕ) : Except Err (PSym K n) :=
  if S = [] then .error .indexError
  else if n = dim ∨ n = dim + 1 then mkPSym S false (decide (n = dim + 1))
  else .error .assertionError

/-- `s[:-1, :-1]`. -/
def cut (s : Mat K n) : Mat K (n - 1) := s.submatrix (Fin.castLE (Nat.sub_le n 1)) (Fin.castLE (Nat.sub_le n 1))

/-- `norm(s[:-1, -1]) + norm(s[-1, :-1])` is zero (symmetry.py 940); the value at `self.S[0]`, the identity, is zero. -/
def untranslated (s : Mat K n) : Bool :=
  decide (∀ p : Fin n × Fin n, p.1.val + 1 = n → p.2.val + 1 < n → s p.2 p.1 = 0 ∧ s p.1 p.2 = 0)

/-- `Symmetry.ignore_translation` (symmetry.py 944-954); the result has its own dimension. -/
def PSym.ignoreTranslation (σ : PSym K n) : Except Err ((m : ℕ) × PSym K m) :=
  if σ.projective then
    match mkPSym (σ.S.map cut) σ.inversion false with
    | .error e => .error e
    | .ok τ => .ok ⟨n - 1, τ⟩
  else .ok ⟨n, σ⟩

/-- `Symmetry.remove_translation` (symmetry.py 932-942): the constructor runs on the uncut matrices, inside `subgroup`. -/
def PSym.removeTranslation (σ : PSym K n) : Except Err ((m : ℕ) × PSym K m) :=
  if σ.projective then
    match σ.toSym.subgroup untranslated with
    | .error e => .error e
    | .ok τ => .ok ⟨n - 1, ⟨⟨τ.S.map cut, τ.inversion⟩, false⟩⟩
  else .error .assertionError

/-- `Symmetry.point_group` (symmetry.py 923-926). -/
def pointGroup (S : List (Mat K n)) (dim : ℕ) : Except Err ((m : ℕ) × PSym K m) :=
  match spaceGroup S dim with
  | .error e => .error e
  | .ok σ => σ.ignoreTranslation

/-- `Symmetry.strict_point_group` (symmetry.py 928-931). -/
def strictPointGroup (S : List (Mat K n)) (dim : ℕ) : Except Err ((m : ℕ) × PSym K m) :=
  match spaceGroup S dim with
  | .error e => .error e
  | .ok σ => σ.removeTranslation

/-- `np.block([[B, zeros], [zeros, eye(1)]])` (symmetry.py 228). -/
def blockOne (B : Mat K (n - 1)) : Mat K n := Matrix.of fun i j =>
  if h : i.val < n - 1 ∧ j.val < n - 1 then B ⟨i, h.1⟩ ⟨j, h.2⟩ else if i = j then 1 else 0

/-- `Symmetry.transform` of a projective symmetry (symmetry.py 225-233): the zero blocks have three rows or columns in every dimension, so
`np.block` raises `ValueError` unless the matrices have size four; `inv` raises for singular `B`. -/
def PSym.transformP (σ : PSym K n) (B : Mat K (n - 1)) : Except Err (PSym K n) :=
  if n ≠ 4 then .error .valueError
  else if B.det = 0 then .error .valueError
  else mkPSym (σ.S.map fun s => blockOne B * s * minv (blockOne B)) σ.inversion σ.projective

/-- `Symmetry.dual` (symmetry.py 285-289): keeps the flag. -/
def PSym.dual (σ : PSym K n) : Except Err (PSym K n) := mkPSym (σ.S.map fun s => minv s.transpose) σ.inversion σ.projective

/-- `Symmetry.transpose` (symmetry.py 130-132): drops the flag. -/
def PSym.transpose (σ : PSym K n) : Except Err (PSym K n) := mkPSym (σ.S.map fun s => s.transpose) σ.inversion false

/-- `Symmetry.copy` (symmetry.py 109-111). -/
def PSym.copy (σ : PSym K n) : Except Err (PSym K n) := mkPSym σ.S σ.inversion σ.projective

/-- `Symmetry.__mul__` (symmetry.py 971-974): drops the flag. -/
def PSym.mul (σ τ : PSym K n) : Except Err (PSym K n) :=
  match σ.toSym.mul τ.toSym with
  | .error e => .error e
  | .ok ρ => .ok ⟨ρ, false⟩

/-- What `read_bands_crystal` takes from the file (qespresso_interface.py 509-551): lattice vectors, operations with optional translation, k-points
with eigenvalues and the Fermi energy. -/
structure QEFile (K : Type) where
  a : Fin 3 → Fin 3 → K
  b : Fin 3 → Fin 3 → K
  syms : List (Mat K 3 × Option (Fin 3 → K))
  ks : List ((Fin 3 → K) × List K)
  fermi : K

/-- The values returned and the new `self.A`. -/
structure QEData (K : Type) where
  A : Mat K 3
  k : List (Fin 3 → K)
  bands : List (List K)
  S : List (Mat K 3) ⊕ List (Mat K 4)
  fermi : K

/-- `np.block([[s, t[:,None]], [zeros, eye(1)]])` (qespresso_interface.py 567). -/
def qeBlock (s : Mat K 3) (t : Fin 3 → K) : Mat K 4 := Matrix.of fun i j =>
  if hi : i.val < 3 then (if hj : j.val < 3 then s ⟨i, hi⟩ ⟨j, hj⟩ else t ⟨i, hi⟩) else if j.val < 3 then 0 else 1

/-- `read_bands_crystal` (qespresso_interface.py 485-572) after parsing; `angstrom` is `self.unit == "angstrom"`, `toA`, `toEV` the unit factors.
Not modelled: XML errors.  `np.linalg.inv` raises `LinAlgError` (a `ValueError`) for singular matrices, the product with an empty k-point array and
the array of rows of different lengths raise `ValueError`. -/
def readBandsCrystal [FloorRing K] (toA toEV : K) (angstrom : Bool) (f : QEFile K) : Except Err (QEData K) :=
  let rec' : Mat K 3 := (Matrix.of f.b).transpose                                        -- line 519
  if rec'.det = 0 then .error .valueError                                                -- line 520
  else if f.ks = [] then .error .valueError                                              -- line 552
  else
    let rots := if f.syms = [] then [1] else f.syms.map Prod.fst                          -- lines 534-559
    let trans := f.syms.map fun p => p.2.getD 0                                          -- lines 540-545
    if rots.any (fun s => decide (∃ p : Fin 3 × Fin 3, ((⌊s p.1 p.2⌋ : ℤ) : K) ≠ s p.1 p.2)) then .error .assertionError  -- line 561
    else if trans.length ≠ rots.length then .error .assertionError                       -- line 562
    else if rots.any (fun s => decide (s.det = 0)) then .error .valueError               -- line 569
    else if f.ks.any (fun p => decide (∃ q ∈ f.ks, q.2.length ≠ p.2.length)) then .error .valueError  -- line 572
    else .ok
      { A := (if angstrom then toA else 1) • (Matrix.of f.a).transpose                    -- lines 526-529
        k := f.ks.map fun p => (minv rec').mulVec p.1                                     -- line 552
        bands := f.ks.map fun p => p.2.map (· * toEV)                                     -- line 550
        S := if trans.all (fun t => decide (t = 0)) then .inl (rots.map fun s => minv s.transpose)
          else .inr ((rots.zip trans).map fun p => minv (qeBlock p.1 p.2).transpose)      -- lines 564-569
        fermi := f.fermi * toEV }                                                         -- line 571

end TB

import Mathlib.Data.Complex.Basic
import Mathlib.LinearAlgebra.Matrix.Notation

/-!
# The layout of the binary files of Quantum Espresso

A file is a sequence of records, each between two markers of four bytes.  Written independently of the reader.
-/

namespace TB.Spec.Qe

abbrev Word := List UInt8

/-- Two markers of four bytes. -/
structure Marks where
  pre : Word
  post : Word

/-- A record with its markers. -/
def record (m : Marks) (words : List Word) : Word := m.pre ++ words.flatten ++ m.post

/-- The words of a file with wave functions. -/
structure WaveFile where
  m1 : Marks
  ik : Word
  xk : List Word
  ispin : Word
  gamma : Word
  scalef : Word
  m2 : Marks
  ngw : Word
  igwx : Word
  npol : Word
  nbnd : Word
  m3 : Marks
  b1 : List Word
  b2 : List Word
  b3 : List Word
  m4 : Marks
  mill : List Word
  bands : List (Marks × List Word)

/-- The records of the bands (or spins). -/
def recordsOf (bands : List (Marks × List Word)) : Word := (bands.map fun r => record r.1 r.2).flatten

/-- The bytes of the file. -/
def WaveFile.bytes (w : WaveFile) : Word :=
  record w.m1 ([w.ik] ++ w.xk ++ [w.ispin, w.gamma, w.scalef]) ++ record w.m2 [w.ngw, w.igwx, w.npol, w.nbnd] ++
    record w.m3 (w.b1 ++ w.b2 ++ w.b3) ++ record w.m4 w.mill ++ recordsOf w.bands

def Marks.Ok (m : Marks) : Prop := m.pre.length = 4 ∧ m.post.length = 4

/-- `n` words of `size` bytes. -/
def Words (size n : ℕ) (l : List Word) : Prop := l.length = n ∧ ∀ x ∈ l, x.length = size

/-- The sizes are as documented: `ng` vectors, `np` polarisations, `nb` bands, and these numbers stand in the file. -/
structure WaveFile.Ok (i32 : Word → ℤ) (w : WaveFile) (ng np nb : ℕ) : Prop where
  m1 : w.m1.Ok
  m2 : w.m2.Ok
  m3 : w.m3.Ok
  m4 : w.m4.Ok
  ik : w.ik.length = 4
  xk : Words 8 3 w.xk
  ispin : w.ispin.length = 4
  gamma : w.gamma.length = 4
  scalef : w.scalef.length = 8
  ngw : w.ngw.length = 4
  igwx : w.igwx.length = 4 ∧ i32 w.igwx = ng
  npol : w.npol.length = 4 ∧ i32 w.npol = np
  nbnd : w.nbnd.length = 4 ∧ i32 w.nbnd = nb
  b1 : Words 8 3 w.b1
  b2 : Words 8 3 w.b2
  b3 : Words 8 3 w.b3
  mill : Words 4 (3 * ng) w.mill
  count : w.bands.length = nb
  bands : ∀ r ∈ w.bands, r.1.Ok ∧ Words 16 (np * ng) r.2

/-- The words of the file with the charge density. -/
structure ChargeFile where
  m1 : Marks
  gamma : Word
  ngm : Word
  nspin : Word
  m2 : Marks
  b1 : List Word
  b2 : List Word
  b3 : List Word
  m3 : Marks
  mill : List Word
  spins : List (Marks × List Word)

def ChargeFile.bytes (w : ChargeFile) : Word :=
  record w.m1 [w.gamma, w.ngm, w.nspin] ++ record w.m2 (w.b1 ++ w.b2 ++ w.b3) ++ record w.m3 w.mill ++ recordsOf w.spins

structure ChargeFile.Ok (i32 : Word → ℤ) (w : ChargeFile) (ng ns : ℕ) : Prop where
  m1 : w.m1.Ok
  m2 : w.m2.Ok
  m3 : w.m3.Ok
  gamma : w.gamma.length = 4
  ngm : w.ngm.length = 4 ∧ i32 w.ngm = ng
  nspin : w.nspin.length = 4 ∧ i32 w.nspin = ns
  b1 : Words 8 3 w.b1
  b2 : Words 8 3 w.b2
  b3 : Words 8 3 w.b3
  mill : Words 4 (3 * ng) w.mill
  count : w.spins.length = ns
  spins : ∀ r ∈ w.spins, r.1.Ok ∧ Words 16 ng r.2

/-- Lattice vectors as columns. -/
def columns (f64 : Word → ℝ) (b1 b2 b3 : List Word) : Matrix (Fin 3) (Fin 3) ℝ :=
  Matrix.of fun i j => f64 ((![b1, b2, b3] j).getD i.val [])

/-- Real and imaginary part in eight bytes each. -/
def complexOf (f64 : Word → ℝ) (w : Word) : ℂ := ⟨f64 (w.take 8), f64 (w.drop 8)⟩

/-- What `read_wavefunctions` must return for one k-point: coordinates `k` with `B k = xk`, the integer vectors row by row, and per band,
vector and polarisation the coefficient standing at that place of the band's record. -/
def WaveFile.Says (i32 : Word → ℤ) (f64 : Word → ℝ) (B : Matrix (Fin 3) (Fin 3) ℝ) (w : WaveFile) (ng np nb : ℕ)
    (o : (Fin 3 → ℝ) × List (List ℤ) × List (List (List ℂ))) : Prop :=
  (∀ a : Fin 3, w.xk[a.val]?.map f64 = some (B.mulVec o.1 a)) ∧
  o.2.1.length = ng ∧ (∀ g < ng, ∃ row : List ℤ, o.2.1[g]? = some row ∧ row.length = 3 ∧ ∀ a < 3, row[a]? = w.mill[g * 3 + a]?.map i32) ∧
  o.2.2.length = nb ∧ ∀ (n : ℕ) (r : Marks × List Word), w.bands[n]? = some r → ∃ coeff : List (List ℂ), o.2.2[n]? = some coeff ∧ coeff.length = ng ∧
    ∀ g < ng, ∃ row : List ℂ, coeff[g]? = some row ∧ row.length = np ∧ ∀ p < np, row[p]? = r.2[g * np + p]?.map (complexOf f64)

/-- The contents of the files `wfc*.dat`, in the order of the directory. -/
def wfcFiles (dir : List (List Char × Word)) : List Word :=
  (dir.filter fun f => "wfc".toList <+: f.1 ∧ ".dat".toList <:+ f.1).map Prod.snd

end TB.Spec.Qe

import Mathlib.Data.Complex.Basic
import Mathlib.LinearAlgebra.Matrix.Notation
import Verif.Model.Symmetry

/-!
# Model of `qespresso_interface.py`: the binary files, `QECrystal.read_wavefunctions` (711-788) and `read_charge_density` (790-825)

A file is a list of bytes; as the code only moves forward, the state of an open file is the list of bytes not read yet, and seeking past the
end leaves nothing.  How four bytes are an integer and eight bytes a number is a parameter (`Codec`).  `os.listdir` is a parameter: the names
in any order with the contents.  Simplified: negative counts in a file are read as zero, a missing part of the lattice vectors is a
`ValueError` at once, `norm(B - B_) < 1e-12` is `B = B_`.
-/

namespace TB.QeBin
open TB

abbrev Bytes := List UInt8

/-- How numpy reads `int32` and `float64`. -/
structure Codec where
  i32 : Bytes → ℤ
  f64 : Bytes → ℝ

/-- `complex128`: real and imaginary part. -/
def Codec.c128 (c : Codec) (b : Bytes) : ℂ := ⟨c.f64 (b.take 8), c.f64 (b.drop 8)⟩

/-- `np.fromfile(f, dtype, count=n)` for items of `size` bytes: the items and the rest of the file; fewer items if the file ends. -/
def items (size : ℕ) : ℕ → Bytes → List Bytes × Bytes
  | 0, b => ([], b)
  | n + 1, b => if b.length < size then ([], []) else
      let r := items size n (b.drop size)
      (b.take size :: r.1, r.2)

/-- `np.fromfile(f, dtype, count=1)[0]`. -/
def scalar (size : ℕ) (b : Bytes) : Except Err (Bytes × Bytes) :=
  match items size 1 b with
  | (x :: _, r) => .ok (x, r)
  | ([], _) => .error .indexError

/-- `l.reshape(n, m)` of a flat list. -/
def rows {α : Type} (m : ℕ) : ℕ → List α → List (List α)
  | 0, _ => []
  | n + 1, l => l.take m :: rows m n (l.drop m)

/-- `x[i,:] = l` for a row of length `n`: lists of other length are a `ValueError`, but one element is repeated. -/
def assignRow {α : Type} (n : ℕ) (l : List α) : Except Err (List α) :=
  if l.length = n then .ok l
  else match l with
    | [x] => .ok (List.replicate n x)
    | _ => .error .valueError

/-- The loops `for i in range(n)` over the records of complex numbers (778-780, 822-824): `count` numbers, eight bytes skipped. -/
def records (c : Codec) (count : ℕ) : ℕ → Bytes → Except Err (List (List ℂ))
  | 0, _ => .ok []
  | n + 1, b =>
    let r := items 16 count b
    match assignRow count (r.1.map c.c128) with
    | .error e => .error e
    | .ok row =>
      match records c count n (r.2.drop 8) with
      | .error e => .error e
      | .ok rest => .ok (row :: rest)

/-- The three lattice vectors as columns (758-761, 810-812), with the rest of the file. -/
def lattice (c : Codec) (b : Bytes) : Except Err (Mat ℝ 3 × Bytes) :=
  let b1 := items 8 3 b
  let b2 := items 8 3 b1.2
  let b3 := items 8 3 b2.2
  if b1.1.length = 3 ∧ b2.1.length = 3 ∧ b3.1.length = 3 then
    .ok (Matrix.of fun i j => c.f64 ((![b1.1, b2.1, b3.1] j).getD i.val []), b3.2)
  else .error .valueError

/-- What is kept from one file of wave functions: `ik`, `xk`, `mill`, `evc`. -/
structure Wave where
  ik : ℤ
  xk : Fin 3 → ℝ
  g : List (List ℤ)
  evc : List (List (List ℂ))

/-- `not (B is None or np.linalg.norm(B - B_) < 1e-12)` (762), the tolerance idealised to equality. -/
noncomputable def otherLattice (B : Option (Mat ℝ 3)) (B' : Mat ℝ 3) : Bool :=
  match B with
  | some B0 => decide (B0 ≠ B')
  | none => false

/-- One file (qespresso_interface.py 734-784); `B` is the lattice of the files before, the new one is returned as well. -/
noncomputable def readWave (c : Codec) (B : Option (Mat ℝ 3)) (b : Bytes) : Except Err (Mat ℝ 3 × Wave) := do
  let (ik, b) ← scalar 4 (b.drop 4)                                   -- lines 736-738
  let xk := items 8 3 b                                               -- line 739
  let (_, b) ← scalar 4 xk.2                                          -- line 740
  let (_, b) ← scalar 4 b                                             -- line 741
  let (_, b) ← scalar 8 b                                             -- line 742
  let (_, b) ← scalar 4 (b.drop 8)                                    -- lines 748-753
  let (igwx, b) ← scalar 4 b
  let (npol, b) ← scalar 4 b
  let (nbnd, b) ← scalar 4 b
  let (B', b) ← lattice c (b.drop 8)                                  -- lines 756-761
  if otherLattice B B' then .error .assertionError   -- line 762
  else do
    let ng := (c.i32 igwx).toNat
    let np := (c.i32 npol).toNat
    let mill := items 4 (3 * ng) (b.drop 8)                           -- lines 765-767
    if mill.1.length ≠ 3 * ng then .error .valueError                 -- line 768
    else do
      let evc ← records c (np * ng) (c.i32 nbnd).toNat (mill.2.drop 8)  -- lines 775-783
      pure (B', ⟨c.i32 ik, fun i => c.f64 (xk.1.getD i.val []), rows 3 ng (mill.1.map c.i32), evc.map (rows np ng)⟩)

/-- The loop over the files (731-784). -/
noncomputable def readWaves (c : Codec) : Option (Mat ℝ 3) → List Bytes → Except Err (Option (Mat ℝ 3) × List Wave)
  | B, [] => .ok (B, [])
  | B, f :: fs => do
    let (B', w) ← readWave c B f
    let (B'', ws) ← readWaves c (some B') fs
    pure (B'', w :: ws)

/-- Index of python: negative indices count from the end. -/
def pyIdx (n : ℕ) (z : ℤ) : Option ℕ :=
  if 0 ≤ z then (if z < n then some z.toNat else none) else if -n ≤ z then some (z + n).toNat else none

/-- `inv_order = np.zeros(n); inv_order[np.array(order) - 1] = np.arange(n)` (785-786): without files the array of indices has the wrong
type (`IndexError`); of equal indices the last wins. -/
def invOrder (order : List ℤ) : Except Err (List ℕ) :=
  if order = [] then .error .indexError
  else match order.mapM fun z => pyIdx order.length (z - 1) with
    | none => .error .indexError
    | some idx => .ok (idx.zipIdx.foldl (fun l p => l.set p.1 p.2) (List.replicate order.length 0))

/-- `file.startswith("wfc") and file.endswith(".dat")` (732). -/
def isWfc (name : List Char) : Bool := "wfc".toList.isPrefixOf name && ".dat".toList.isSuffixOf name

/-- `QECrystal.read_wavefunctions` (qespresso_interface.py 711-788): per k-point the coordinates, the integer vectors and the
coefficients.  `np.linalg.inv` of singular vectors raises `LinAlgError` (a `ValueError`). -/
noncomputable def readWavefunctions (c : Codec) (dir : List (List Char × Bytes)) :
    Except Err (List ((Fin 3 → ℝ) × List (List ℤ) × List (List (List ℂ)))) := do
  let (B, ws) ← readWaves c none ((dir.filter fun f => isWfc f.1).map Prod.snd)
  let inv ← invOrder (ws.map Wave.ik)
  match B with
  | none => .error .assertionError
  | some B =>
    if B.det = 0 then .error .valueError
    else pure (inv.map fun i =>
      let w := ws.getD i ⟨0, 0, [], []⟩
      (B⁻¹.mulVec w.xk, w.g, w.evc))

/-- `QECrystal.read_charge_density` (qespresso_interface.py 790-825): `g_smpl` and `rho_g`.  `rho_g` is an array of real numbers, so the
assignment of complex ones keeps the real parts (numpy only warns). -/
noncomputable def readChargeDensity (c : Codec) (b : Bytes) : Except Err (List (Fin 3 → ℝ) × List (List ℝ)) := do
  let (_, b) ← scalar 4 (b.drop 4)                                    -- lines 801-805
  let (ngm, b) ← scalar 4 b
  let (nspin, b) ← scalar 4 b
  let (B, b) ← lattice c (b.drop 8)                                   -- lines 808-812
  let ng := (c.i32 ngm).toNat
  let mill := items 4 (3 * ng) (b.drop 8)                             -- lines 814-816
  if mill.1.length ≠ 3 * ng then .error .valueError                   -- line 817
  else do
    let rho ← records c ng (c.i32 nspin).toNat mill.2                 -- lines 821-824; nothing is skipped before the loop
    pure ((rows 3 ng (mill.1.map c.i32)).map fun m => B.mulVec fun i => (m.getD i.val 0 : ℝ),   -- line 819
      rho.map fun r => r.map Complex.re)

end TB.QeBin

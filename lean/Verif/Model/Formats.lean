import Mathlib.Algebra.Order.Field.Basic
import Mathlib.Algebra.Order.Group.Abs
import Verif.Model.Err

/-!
# Model of `wannier90_tb_format.py` and `json_tb_format.py`

A text file is the list of its lines, a line the list of its tokens (`line.strip().split()`).  Tokens are of any type `Tok`;
`pInt` and `pFlt` are Python's `int` and `float` on a token (`none`: `ValueError`).  Floating point numbers are of a type `F`;
a complex number is the pair of its parts.  `np.argsort` of the lengths is a parameter `sort` (its order of equal lengths is
not specified).
-/

namespace TB.Fmt

/-- Integer position `(n₁, n₂, n₃)`. -/
abbrev Pos := ℤ × ℤ × ℤ

/-- `tuple([-x for x in pos])`. -/
def Pos.neg (p : Pos) : Pos := (-p.1, -p.2.1, -p.2.2)

/-- A complex number. -/
abbrev Cx (F : Type) := F × F

/-- One neighbour with its matrix (and matrix of position vectors); the lists `neighbors`, `params`, `r_params` grow together. -/
structure Block (F : Type) where
  pos : Pos
  H : ℕ → ℕ → Cx F
  r : ℕ → ℕ → Cx F × Cx F × Cx F

/-- The variables of the reading loop; `index` is `-1` for `none`. -/
structure St (F : Type) where
  blocks : List (Block F)
  index : Option ℕ

variable {F Tok : Type}

/-- The row or column addressed by `i` in an axis of length `n`; negative indices count from the end. -/
def pyIdx (n i : ℤ) : Option ℕ :=
  if 0 ≤ i ∧ i < n then some i.toNat else if -n ≤ i ∧ i < 0 then some (i + n).toNat else none

/-- Assignment of one entry. -/
def setAt {V : Type} (m : ℕ → ℕ → V) (i j : ℕ) (v : V) : ℕ → ℕ → V := fun a b => if a = i ∧ b = j then v else m a b

/-- `int` of a token. -/
def toInt (pInt : Tok → Option ℤ) (t : Tok) : Except Err ℤ :=
  match pInt t with
  | some x => .ok x
  | none => .error .valueError

/-- `float` of a token. -/
def toFlt (pFlt : Tok → Option F) (t : Tok) : Except Err F :=
  match pFlt t with
  | some x => .ok x
  | none => .error .valueError

/-- `int(file.readline().strip())`: a line that is not a single token is not a number. -/
def lineInt (pInt : Tok → Option ℤ) : List Tok → Except Err ℤ
  | [t] => toInt pInt t
  | _ => .error .valueError

/-- `i,j = int(parts[0]), int(parts[1])`. -/
def entryIdx (pInt : Tok → Option ℤ) (ti tj : Tok) : Except Err (ℤ × ℤ) := do
  let i ← toInt pInt ti
  let j ← toInt pInt tj
  return (i, j)

/-- `params[index][i-1, j-1] = v` on the list of blocks; `IndexError` when out of range. -/
def assign (bc : ℤ) (blocks : List (Block F)) (index : ℕ) (ij : ℤ × ℤ) (upd : Block F → ℕ → ℕ → Block F) : Except Err (List (Block F)) :=
  match pyIdx bc (ij.1 - 1), pyIdx bc (ij.2 - 1) with
  | some a, some b => .ok (blocks.modify index fun x => upd x a b)
  | _, _ => .error .indexError

/-- The block for a position: new block, existing block, or none when the negative position is known
(wannier90_tb_format.py 39-53 and 104-117).  `np.zeros` of a negative size raises `ValueError`. -/
def enter [Zero F] (bc : ℤ) (blocks : List (Block F)) (p : Pos) : Except Err (St F) :=
  match blocks.findIdx? fun b => decide (b.pos = p) with
  | some k => .ok ⟨blocks, some k⟩
  | none =>
    if p ≠ p.neg ∧ p.neg ∈ blocks.map Block.pos then .ok ⟨blocks, none⟩
    else if bc < 0 then .error .valueError
    else .ok ⟨blocks ++ [⟨p, fun _ _ => (0, 0), fun _ _ => ((0, 0), (0, 0), (0, 0))⟩], some blocks.length⟩

/-- One line of the loop of `load_tb` (wannier90_tb_format.py 33-73). -/
def tbLine [Zero F] (pInt : Tok → Option ℤ) (pFlt : Tok → Option F) (bc : ℤ) (s : St F) : List Tok → Except Err (St F)
  | [] => .ok s
  | [a, b, c] => do
    let x ← toInt pInt a
    let y ← toInt pInt b
    let z ← toInt pInt c
    enter bc s.blocks (x, y, z)
  | [a, b, c, d] =>
    match s.index with
    | none => .ok s
    | some k => do
      let ij ← entryIdx pInt a b
      let x ← toFlt pFlt c
      let y ← toFlt pFlt d
      let blocks ← assign bc s.blocks k ij fun blk i j => { blk with H := setAt blk.H i j (x, y) }
      return ⟨blocks, s.index⟩
  | [a, b, x1, x2, y1, y2, z1, z2] =>
    match s.index with
    | none => .ok s
    | some k => do
      let ij ← entryIdx pInt a b
      let x1 ← toFlt pFlt x1
      let x2 ← toFlt pFlt x2
      let y1 ← toFlt pFlt y1
      let y2 ← toFlt pFlt y2
      let z1 ← toFlt pFlt z1
      let z2 ← toFlt pFlt z2
      let blocks ← assign bc s.blocks k ij fun blk i j => { blk with r := setAt blk.r i j ((x1, x2), (y1, y2), (z1, z2)) }
      return ⟨blocks, s.index⟩
  | _ => .error .valueError

/-- One line of the loop of `load_hr` (wannier90_tb_format.py 99-126). -/
def hrLine [Zero F] (pInt : Tok → Option ℤ) (pFlt : Tok → Option F) (bc : ℤ) (s : St F) : List Tok → Except Err (St F)
  | [] => .ok s
  | [a, b, c, i, j, u, v] => do
    let x ← toInt pInt a
    let y ← toInt pInt b
    let z ← toInt pInt c
    let t ← enter bc s.blocks (x, y, z)
    match t.index with
    | none => return ⟨s.blocks, s.index⟩
    | some k =>
      let ij ← entryIdx pInt i j
      let x ← toFlt pFlt u
      let y ← toFlt pFlt v
      let blocks ← assign bc t.blocks k ij fun blk i j => { blk with H := setAt blk.H i j (x, y) }
      return ⟨blocks, t.index⟩
  | _ => .error .valueError

/-- `for line in file`. -/
def readLines (step : St F → List Tok → Except Err (St F)) (s : St F) (lines : List (List Tok)) : Except Err (St F) :=
  lines.foldlM step s

/-- `file.readline()`: at the end of the file it returns an empty line. -/
def readline (lines : List (List Tok)) : List Tok × List (List Tok) := (lines.headD [], lines.tail)

/-- The degeneracy loop of `load_tb` (wannier90_tb_format.py 20-26): all tokens up to the first blank line. -/
def tbDegeneracy : List (List Tok) → List Tok × List (List Tok)
  | [] => ([], [])
  | [] :: rest => ([], rest)
  | l :: rest => let r := tbDegeneracy rest; (l ++ r.1, r.2)

/-- `neighbors[order]` and so on (wannier90_tb_format.py 75-79, 128-131).  Without any block `np.array([])` has no second axis,
the norm is a single number and indexing with `[0]` raises `IndexError`. -/
def finish (sort : List (Block F) → List (Block F)) (blocks : List (Block F)) : Except Err (List (Block F)) :=
  if blocks.isEmpty then .error .indexError else .ok (sort blocks)

/-- `load_tb` (wannier90_tb_format.py 10-79): blocks, degeneracies, lattice vectors.  Rows of different length in the
lattice raise `ValueError` (`np.array` of an inhomogeneous list). -/
def loadTb [Zero F] (pInt : Tok → Option ℤ) (pFlt : Tok → Option F) (sort : List (Block F) → List (Block F))
    (lines : List (List Tok)) : Except Err (List (Block F) × List ℤ × List (List F)) := do
  let lines := (readline lines).2
  let (l1, lines) := readline lines
  let (l2, lines) := readline lines
  let (l3, lines) := readline lines
  let a1 ← l1.mapM (toFlt pFlt)
  let a2 ← l2.mapM (toFlt pFlt)
  let a3 ← l3.mapM (toFlt pFlt)
  if ¬ (a1.length = a2.length ∧ a2.length = a3.length) then .error .valueError
  else
    let (l, lines) := readline lines
    let bc ← lineInt pInt l
    let (l, lines) := readline lines
    let pc ← lineInt pInt l
    let (toks, lines) := tbDegeneracy lines
    let deg ← toks.mapM (toInt pInt)
    if pc ≠ deg.length then .error .assertionError
    else
      let s ← readLines (tbLine pInt pFlt bc) ⟨[], none⟩ lines
      let blocks ← finish sort s.blocks
      return (blocks, deg, [a1, a2, a3])

/-- The degeneracy loop of `load_hr` (wannier90_tb_format.py 90-95) with at most `fuel` rounds; `none`: still running. -/
def hrDegeneracy (pc : ℤ) : ℕ → List Tok → List (List Tok) → Option (List Tok × List (List Tok))
  | 0, _, _ => none
  | fuel + 1, acc, lines =>
    let (l, lines) := readline lines
    let acc := acc ++ l
    if pc ≤ acc.length then some (acc, lines) else hrDegeneracy pc fuel acc lines

/-- `load_hr` (wannier90_tb_format.py 83-131); `none`: the degeneracy loop needs more than `fuel` rounds. -/
def loadHr [Zero F] (pInt : Tok → Option ℤ) (pFlt : Tok → Option F) (sort : List (Block F) → List (Block F)) (fuel : ℕ)
    (lines : List (List Tok)) : Option (Except Err (List (Block F))) :=
  let lines := (readline lines).2
  let (l, lines) := readline lines
  match lineInt pInt l with
  | .error e => some (.error e)
  | .ok bc =>
    let (l, lines) := readline lines
    match lineInt pInt l with
    | .error e => some (.error e)
    | .ok pc =>
      match hrDegeneracy pc fuel [] lines with
      | none => none
      | some (toks, lines) => some (do
        let deg ← toks.mapM (toInt pInt)
        if pc ≠ deg.length then .error .assertionError
        else
          let s ← readLines (hrLine pInt pFlt bc) ⟨[], none⟩ lines
          finish sort s.blocks)

/-- `save_hr` (wannier90_tb_format.py 134-135). -/
def saveHr : Except Err Unit := .error .notImplemented

/-! ## JSON -/

/-- Content of the file written by `save` (json_tb_format.py 29-36): band count, flattened matrices with entries
`[re, im]`, neighbours. -/
structure Json (K : Type) where
  bandCount : ℕ
  params : List (List (List K))
  neighbors : List (List K)

section
variable {K : Type} [Field K] [LinearOrder K] [IsStrictOrderedRing K]

/-- The two `np.where` (json_tb_format.py 32-33): tiny parts are replaced by zero. -/
def clean (z : Cx K) : Cx K :=
  (if |z.1| < 1 / 10 ^ 14 then 0 else z.1, if |z.2| < 1 / 10 ^ 14 then 0 else z.2)

/-- `h.flat` of a `b × b` matrix, row by row. -/
def flat {V : Type} {b : ℕ} (h : Fin b → Fin b → V) : List V :=
  (List.finRange b).flatMap fun i => (List.finRange b).map fun j => h i j

/-- `save` (json_tb_format.py 25-36).  The matrices are an array of shape `(n, b, b)`.
`len(params[0])` raises `IndexError` without matrices. -/
def save {b : ℕ} (neighbors : List (List K)) (params : List (Fin b → Fin b → Cx K)) : Except Err (Json K) :=
  if params.isEmpty then .error .indexError
  else .ok ⟨b, params.map fun h => (flat h).map fun v => [(clean v).1, (clean v).2], neighbors⟩

/-- Entry `(p, i, j, c)` of `reshape(n, b, b, last)` of the flattened numbers. -/
def entry (l : List K) (b last p i j c : ℕ) : K := l.getD (((p * b + i) * b + j) * last + c) 0

/-- All rows have the same length (otherwise `np.array` raises `ValueError`). -/
def homogeneous (l : List (List K)) : Bool := l.all fun r => decide (r.length = (l.headD []).length)

/-- `load` (json_tb_format.py 9-23).  `reshape` with `-1` raises `ValueError` when the other factors have product zero or
do not divide the number of values.  The result is the sorted list of pairs (neighbour, matrix as a function of indices
below `band_count`). -/
def load (sort : List (List K × (ℕ → ℕ → Cx K)) → List (List K × (ℕ → ℕ → Cx K))) (f : Json K) :
    Except Err (List (List K × (ℕ → ℕ → Cx K))) :=
  if !(homogeneous f.neighbors && homogeneous (f.params.flatten) && f.params.all fun p => decide (p.length = (f.params.headD []).length))
  then .error .valueError
  else
    let l := f.params.flatten.flatten
    let n := f.neighbors.length
    let m := n * f.bandCount * f.bandCount
    if m = 0 ∨ l.length % m ≠ 0 then .error .valueError
    else
      let last := l.length / m
      if last = 2 then
        .ok (sort (f.neighbors.zipIdx.map fun x =>
          (x.1, fun i j => (entry l f.bandCount last x.2 i j 0, entry l f.bandCount last x.2 i j 1))))
      else if last ≠ 1 then .error .assertionError
      else .ok (sort (f.neighbors.zipIdx.map fun x => (x.1, fun i j => (entry l f.bandCount last x.2 i j 0, 0))))

end

end TB.Fmt

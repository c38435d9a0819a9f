import Verif.Model.Formats
import Mathlib.Algebra.Group.Prod
import Mathlib.Algebra.Order.Ring.Int

/-!
# Specification of the Wannier90 readers
-/

set_option linter.unusedSectionVars false

namespace TB.Fmt

variable {F Tok : Type}

/-- The position on a line with exactly three integers. -/
def Spec.header (pInt : Tok → Option ℤ) : List Tok → Option Pos
  | [a, b, c] => (pInt a).bind fun x => (pInt b).bind fun y => (pInt c).map fun z => (x, y, z)
  | _ => none

/-- All positions of a file body in file order. -/
def Spec.headers (pInt : Tok → Option ℤ) (body : List (List Tok)) : List Pos := body.filterMap (Spec.header pInt)

/-- `R` is the first member of the pair `±R` that occurs. -/
def Spec.First (hs : List Pos) (R : Pos) : Prop := hs.find? (fun q => decide (q = R ∨ q = -R)) = some R

/-- The row meant by the 1-based number `i` of a matrix with `bc` rows; `0, -1, …` count from the last row. -/
def Spec.row (bc i : ℤ) : Option ℕ := if -bc < i ∧ i ≤ bc then some ((i - 1) % bc).toNat else none

/-- A matrix entry `i j re im`. -/
def Spec.hEntry (pInt : Tok → Option ℤ) (pFlt : Tok → Option F) (bc : ℤ) : List Tok → Option (ℕ × ℕ × Cx F)
  | [a, b, c, d] => ((pInt a).bind (Spec.row bc)).bind fun i => ((pInt b).bind (Spec.row bc)).bind fun j =>
      (pFlt c).bind fun x => (pFlt d).map fun y => (i, j, (x, y))
  | _ => none

/-- A position entry `i j x y z` with complex components. -/
def Spec.rEntry (pInt : Tok → Option ℤ) (pFlt : Tok → Option F) (bc : ℤ) : List Tok → Option (ℕ × ℕ × Cx F × Cx F × Cx F)
  | [a, b, c, d, e, f, g, h] => ((pInt a).bind (Spec.row bc)).bind fun i => ((pInt b).bind (Spec.row bc)).bind fun j =>
      (pFlt c).bind fun x => (pFlt d).bind fun y => (pFlt e).bind fun z => (pFlt f).bind fun u => (pFlt g).bind fun v =>
        (pFlt h).map fun w => (i, j, (x, y), (z, u), (v, w))
  | _ => none

/-- The entries of a body with the position they stand under. -/
def Spec.entries {E : Type} (pInt : Tok → Option ℤ) (parse : List Tok → Option E) : Option Pos → List (List Tok) → List (Pos × E)
  | _, [] => []
  | cur, l :: ls =>
    match Spec.header pInt l with
    | some R => Spec.entries pInt parse (some R) ls
    | none =>
      (match cur, parse l with
       | some R, some e => [(R, e)]
       | _, _ => []) ++ Spec.entries pInt parse cur ls

/-- The value of the last entry for `(R, i, j)`, `z` if there is none. -/
def Spec.last {V : Type} (z : V) (es : List (Pos × ℕ × ℕ × V)) (R : Pos) (i j : ℕ) : V :=
  ((es.reverse.find? fun e => decide (e.1 = R ∧ e.2.1 = i ∧ e.2.2.1 = j)).map fun e => e.2.2.2).getD z

/-- Line `l` after the lines `pre` is acceptable: blank, a position, or an entry whose numbers parse and whose indices are in
range unless it belongs to a position that is left out. -/
def Spec.LineOk (pInt : Tok → Option ℤ) (pFlt : Tok → Option F) (bc : ℤ) (pre : List (List Tok)) (l : List Tok) : Prop :=
  l = [] ∨ (Spec.header pInt l ≠ none ∧ 0 ≤ bc) ∨
    ((l.length = 4 ∨ l.length = 8) ∧
      ((∀ R, (Spec.headers pInt pre).getLast? = some R → Spec.First (Spec.headers pInt pre) R) →
        (Spec.headers pInt pre) ≠ [] → Spec.hEntry pInt pFlt bc l ≠ none ∨ Spec.rEntry pInt pFlt bc l ≠ none))

/-- Square of the length of a position. -/
def Spec.len2 (p : Pos) : ℤ := p.1 ^ 2 + p.2.1 ^ 2 + p.2.2 ^ 2

/-- Contract of sorting by length. -/
def Spec.IsSort (sort : List (Block F) → List (Block F)) : Prop :=
  ∀ l, (sort l).Perm l ∧ (sort l).Pairwise fun a b => Spec.len2 a.pos ≤ Spec.len2 b.pos

/-- The blocks that belong to a body: one for each first position, with the last entries of the file. -/
def Spec.Content [Zero F] (pInt : Tok → Option ℤ) (pFlt : Tok → Option F) (bc : ℤ) (body : List (List Tok)) (bl : List (Block F)) : Prop :=
  (bl.map Block.pos).Nodup ∧ (∀ R, R ∈ bl.map Block.pos ↔ Spec.First (Spec.headers pInt body) R) ∧
    ∀ b ∈ bl, ∀ i j, b.H i j = Spec.last (0, 0) (Spec.entries pInt (Spec.hEntry pInt pFlt bc) none body) b.pos i j ∧
      b.r i j = Spec.last ((0, 0), (0, 0), (0, 0)) (Spec.entries pInt (Spec.rEntry pInt pFlt bc) none body) b.pos i j

end TB.Fmt

import Verif.Model.ObjExport

/-!
# Meaning of an `.obj` file

Vertices are numbered through the whole file, starting with one; a face belongs to the group and material named last before it.
-/

namespace TB.Spec.ObjFile
open TB.Obj

variable {K : Type}

/-- A triangle: group, material and the coordinates of the corners (`none` for a number without vertex). -/
structure Tri (K : Type) where
  band : ℕ
  color : ℕ
  corners : List (Option (K × K × K))

/-- State of a reader: vertices so far, group, material. -/
structure Reader (K : Type) where
  verts : List (K × K × K)
  band : ℕ
  color : ℕ

/-- The corner with a number. -/
def corner (vs : List (K × K × K)) : ℕ → Option (K × K × K)
  | 0 => none
  | i + 1 => vs[i]?

/-- All triangles of the file. -/
def readObj : List (Line K) → Reader K → List (Tri K)
  | [], _ => []
  | .group b :: l, r => readObj l { r with band := b }
  | .usemtl c :: l, r => readObj l { r with color := c }
  | .vertex x y z :: l, r => readObj l { r with verts := r.verts ++ [(x, y, z)] }
  | .face f :: l, r => ⟨r.band, r.color, f.map (corner r.verts)⟩ :: readObj l r
  | .comment :: l, r => readObj l r
  | .mtllib _ :: l, r => readObj l r
  | .object _ :: l, r => readObj l r
  | .smooth :: l, r => readObj l r

end TB.Spec.ObjFile

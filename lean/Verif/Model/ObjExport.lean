import Verif.Model.FermiSurface

/-!
# Model of `export_3D_fermi_surface` (fermi_surface.py 96-147)

A file is the list of its lines.  `measure.marching_cubes` (scikit-image) is a parameter: it gets the volume and its side and returns vertices in
units of the grid (the function passes no `spacing`) and triangles of vertex numbers, or raises.  The formatting `%.4f` of coordinates is a parameter.
Of the materials only the names are kept.
-/

namespace TB.Obj
open TB TB.FS

variable {K : Type} [Field K] [LinearOrder K]

/-- A line of the `.obj` file. -/
inductive Line (K : Type) where
  | comment
  | mtllib (file : String)
  | object (file : String)
  | smooth
  | group (band : ℕ)
  | vertex (x y z : K)
  | usemtl (color : ℕ)
  | face (vertices : List ℕ)

/-- The first two results of `marching_cubes`. -/
structure Mesh (K : Type) where
  verts : List (K × K × K)
  faces : List (List ℕ)

/-- `np.linspace(*k_range, N)`. -/
def linspace (a b : K) (N : ℕ) : List K := (List.range N).map fun i : ℕ => a + (i : K) * ((b - a) / ((N : K) - 1))

/-- The grid `xyz` (100-101) with `indexing='ij'`, flattened. -/
def grid (a b : K) (N : ℕ) : List (K × K × K) :=
  (linspace a b N).flatMap fun x => (linspace a b N).flatMap fun y => (linspace a b N).map fun z => (x, y, z)

/-- The lines of one surface (136-146). -/
def surfaceLines (fmt : K → K) (index band vertIndex : ℕ) (m : Mesh K) : List (Line K) :=
  [.group band] ++ m.verts.map (fun v => .vertex (fmt v.1) (fmt v.2.1) (fmt v.2.2)) ++ [.usemtl index] ++
    m.faces.map fun f => .face (f.map fun i => i + 1 + vertIndex)

/-- The loop (134-147): `index` counts the surfaces.  An exception ends the writing. -/
def loop (mc : List K → ℕ → Except Err (Mesh K)) (fmt : K → K) (N : ℕ) :
    List (List K × ℕ) → ℕ → ℕ → List (Line K) → List (Line K) × Except Err Unit
  | [], _, _, out => (out, .ok ())
  | (vol, band) :: l, index, vertIndex, out =>
    match mc vol N with
    | .error e => (out, .error e)
    | .ok m => loop mc fmt N l (index + 1) (vertIndex + m.verts.length) (out ++ surfaceLines fmt index band vertIndex m)

/-- `export_3D_fermi_surface` (96-147): names of the materials in the `.mtl` file, lines of the `.obj` file, exception. -/
def export_ {n : ℕ} (mc : List K → ℕ → Except Err (Mesh K)) (fmt : K → K) (colors : ℕ) (file : String) (model : K × K × K → Fin n → K) (eF : K)
    (N : ℕ) (range : K × K) : List ℕ × List (Line K) × Except Err Unit :=
  let header : List (Line K) := [.comment, .mtllib file, .object file, .smooth]
  let r := match fermiSurface model eF (grid range.1 range.2 N) with
    | .error e => (header, .error e)
    | .ok s => loop mc fmt N (s.1.zip (s.2.map Fin.val)) 0 0 header
  (List.range colors, r)

end TB.Obj

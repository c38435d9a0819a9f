import Mathlib.Analysis.Real.Sqrt
import Mathlib.Data.Complex.Basic
import Mathlib.LinearAlgebra.Matrix.Determinant.Basic
import Verif.Model.ObjExport

/-!
# Model of what the plot functions draw

`kpaths.py`: labels and colours of `KPath.plot` (122-193), `KPath.plot_comparison` (195-225); `fermi_surface.py`: `plot_3D_fermi_surface_to_ax` (35-81) and
`plot_2D_fermi_surface` (150-190).

The calls of matplotlib are replaced by the data that are passed to them.  Labels are lists of items instead of texts joined by commas.  The rounding of
the positions of labels and `marching_cubes` are parameters.
-/

namespace TB.Plots
open TB

/-! ## Labels of `KPath.plot` -/

/-- A piece of a label: `"3"` or `"3-7"`. -/
inductive Item where
  | one (i : ℕ)
  | span (a b : ℕ)

/-- One pass of the loop (180-184) over `bands[1:]`; `ranges` is never empty. -/
def rangeStep (ranges : List (ℕ × ℕ)) (i : ℕ) : List (ℕ × ℕ) :=
  match ranges.getLast? with
  | some (a, b) => if b + 1 = i then ranges.dropLast ++ [(a, b + 1)] else ranges ++ [(i, i)]
  | none => [(i, i)]

/-- `ranges` (179-184): `bands[0]` raises `IndexError` for the empty list. -/
def ranges : List ℕ → Except Err (List (ℕ × ℕ))
  | [] => .error .indexError
  | b :: l => .ok (l.foldl rangeStep [(b, b)])

/-- Lines 186-187. -/
def label (rs : List (ℕ × ℕ)) : List Item :=
  rs.flatMap fun r => if r.1 = r.2 then [.one r.1] else if r.1 + 1 = r.2 then [.one r.1, .one r.2] else [.span r.1 r.2]

/-- `y_ticks, inv = np.unique(edge_bands, return_inverse=True)` (171). -/
noncomputable def ticks (edge : List ℝ) : List ℝ := open Classical in edge.dedup.mergeSort fun a b => decide (a ≤ b)

/-- `inv`. -/
noncomputable def inverse (edge : List ℝ) : List ℕ := open Classical in edge.map fun x => (ticks edge).idxOf x

/-- The loop (172-174). -/
noncomputable def groups (edge : List ℝ) : List (List ℕ) :=
  (inverse edge).zipIdx.foldl (fun y x => y.modify x.1 fun l => l ++ [x.2]) (List.replicate (ticks edge).length [])

/-- `y_ticks` and `y_labels` (169-187); `rnd` is the rounding of lines 166-170. -/
noncomputable def labels (rnd : ℝ → ℝ) (bands : List ℝ) : Except Err (List (ℝ × List Item)) :=
  ((ticks (bands.map rnd)).zip (groups (bands.map rnd))).mapM fun x => (ranges x.2).map fun r => (x.1, label r)

/-! ## `KPath.plot_comparison` -/

/-- The error for the shift `i` (217-220). -/
noncomputable def shiftError (mod ref : List ℝ) (i : ℤ) : ℝ :=
  Real.sqrt (((mod.drop (max i 0).toNat).zip (ref.drop (max (-i) 0).toNat)).map fun x => (x.1 - x.2) ^ 2).sum

/-- `np.argmin`: the first index of the smallest value. -/
noncomputable def argmin : List ℝ → Except Err ℕ
  | [] => .error .valueError
  | x :: l => open Classical in .ok (((x :: l).findIdx? fun y => decide (∀ z ∈ x :: l, y ≤ z)).getD 0)

/-- `range(1 - nr, nm)` (216). -/
def shifts (nm nr : ℕ) : List ℤ := (List.range (nm + nr - 1)).map fun i : ℕ => (i : ℤ) + (1 - nr)

/-- `band_offset` (209-223) from the bands of both functions at the first point. -/
noncomputable def bandOffset (mod ref : List ℝ) : Except Err ℤ :=
  (argmin ((shifts mod.length ref.length).map (shiftError mod ref))).map fun (i : ℕ) => (i : ℤ) + (1 - ref.length)

/-- Position in the colour cycle of band `j` in `plot` with a `band_offset`: after that many empty plots (143-149). -/
def colour (bandOffset j : ℕ) : ℕ := bandOffset + j

/-- Colour of band `j` of the first function (224). -/
def colour1 (offset : ℤ) (j : ℕ) : ℕ := colour (max 0 (-offset)).toNat j

/-- Colour of band `j` of the second function (225). -/
def colour2 (offset : ℤ) (j : ℕ) : ℕ := colour (max 0 offset).toNat j

/-! ## Fermi surfaces -/

/-- `verts[faces]` and the enlargement (60-66): a corner of a triangle. -/
noncomputable def enlarge (t : Fin 3 → Fin 3 → ℝ) : Fin 3 → Fin 3 → ℝ := fun i a => t i a + 3 / 100 * (t i a - (t 0 a + t 1 a + t 2 a) / 3)

/-- The coordinates that are drawn (69). -/
noncomputable def toRange (N : ℕ) (range : ℝ × ℝ) (x : ℝ) : ℝ := x / N * (range.2 - range.1) + range.1

/-- A drawn triangle. -/
noncomputable def drawn (N : ℕ) (range : ℝ × ℝ) (t : Fin 3 → Fin 3 → ℝ) : Fin 3 → Fin 3 → ℝ := fun i a => toRange N range (enlarge t i a)

/-- The loop (52-60) over `zip(volumes, band_indices, colors)`: the triangles by band. -/
def surfaces (mesh : List ℝ → Except Err (List (Fin 3 → Fin 3 → ℝ))) (volumes : List (List ℝ)) (bands : List ℕ) (colors : ℕ) :
    Except Err (List (ℕ × List (Fin 3 → Fin 3 → ℝ))) :=
  ((volumes.zip bands).take colors).mapM fun x => (mesh x.1).map fun t => (x.2, t)

/-- `plot_3D_fermi_surface_to_ax` (35-81): the drawn triangles by band. -/
noncomputable def plot3D {n : ℕ} (mesh : List ℝ → Except Err (List (Fin 3 → Fin 3 → ℝ))) (colors : ℕ) (model : ℝ × ℝ × ℝ → Fin n → ℝ) (eF : ℝ) (N : ℕ)
    (range : ℝ × ℝ) : Except Err (List (ℕ × List (Fin 3 → Fin 3 → ℝ))) :=
  match FS.fermiSurface model eF (Obj.grid range.1 range.2 N) with
  | .error e => .error e
  | .ok s => (surfaces mesh s.1 (s.2.map Fin.val) colors).map fun l => l.map fun x => (x.1, x.2.map (drawn N range))

/-- `np.any(volume > 0) and np.any(volume < 0)` (173, 184). -/
noncomputable def crosses (volume : List ℝ) : Bool := FS.anyPos volume && FS.anyNeg volume

/-- A model for `plot_2D_fermi_surface`: the bands, and the Hamiltonian `f` if there is such an attribute. -/
structure Model2 where
  bandCount : ℕ
  bands : ℝ × ℝ × ℝ → Fin bandCount → ℝ
  f : Option (ℝ × ℝ × ℝ → Matrix (Fin bandCount) (Fin bandCount) ℂ)

/-- What is passed to `plt.contour`: the volume, the colour (`none` is black) and the style of the lines. -/
structure Contour where
  volume : List ℝ
  colour : Option ℕ
  style : ℕ

/-- The samples of the plane at `z` (152-155, 163-166). -/
noncomputable def plane (a b : ℝ) (N : ℕ) (z : ℝ) : List (ℝ × ℝ × ℝ) :=
  (Obj.linspace a b N).flatMap fun x => (Obj.linspace a b N).map fun y => (x, y, z)

/-- The loop over the bands (169-179); `bands[0]` does not exist without samples. -/
noncomputable def byBands (m : ℕ) (model : Model2) (eF : ℝ) (ks : List (ℝ × ℝ × ℝ)) : Except Err (List Contour) :=
  if ks = [] then .error .indexError
  else .ok (((List.finRange model.bandCount).foldl (fun (acc : List Contour × ℕ) i =>
    let volume := ks.map fun k => model.bands k i - eF
    if crosses volume then (acc.1 ++ [⟨volume, some acc.2, m % 4⟩], acc.2 + 1) else acc) ([], 0)).1)

/-- The determinants (183); their imaginary parts are zero. -/
noncomputable def detVolume {n : ℕ} (f : ℝ × ℝ × ℝ → Matrix (Fin n) (Fin n) ℂ) (eF : ℝ) (ks : List (ℝ × ℝ × ℝ)) : List ℝ :=
  ks.map fun k => (f k - (eF : ℂ) • (1 : Matrix (Fin n) (Fin n) ℂ)).det.re

/-- The other branch (181-186); `h[0]` does not exist without samples. -/
noncomputable def byDet (m : ℕ) (model : Model2) (eF : ℝ) (ks : List (ℝ × ℝ × ℝ)) : Except Err (List Contour) :=
  match model.f with
  | none => .error .attributeError
  | some f =>
    if ks = [] then .error .indexError
    else .ok (if crosses (detVolume f eF ks) then [⟨detVolume f eF ks, none, m % 4⟩] else [])

/-- `plot_2D_fermi_surface` (150-194) for one model: the contours for every `z`. -/
noncomputable def plot2D (model : Model2) (eF : ℝ) (z : List ℝ) (N : ℕ) (range : ℝ × ℝ) (accelerate : Bool) : Except Err (List (List Contour)) :=
  z.mapM fun z2 => if accelerate && model.f.isSome then byDet 0 model eF (plane range.1 range.2 N z2) else byBands 0 model eF (plane range.1 range.2 N z2)

/-- The same for a list of models, which has no attribute `f`. -/
noncomputable def plot2Ds (models : List Model2) (eF : ℝ) (z : List ℝ) (N : ℕ) (range : ℝ × ℝ) (_accelerate : Bool) :
    Except Err (List (List Contour)) :=
  z.mapM fun z2 => (models.zipIdx.mapM fun x => byBands x.2 x.1 eF (plane range.1 range.2 N z2)).map List.flatten

end TB.Plots

import Verif.Model.Smearing

/-!
# Model of `TetraSmearing` on whole grids (smearing.py 424-452)
-/

namespace TB.Smear

/-- A `TetraSmearing` object: the grid of values and whether it is periodic.  The source stores the eight rolled copies of the
grid (`self.tetras`, smearing.py 430-440), which are `gridCorners` of every cell. -/
structure TetraGrid where
  n0 : ℕ
  n1 : ℕ
  n2 : ℕ
  wrap : Bool
  v : ℕ → ℕ → ℕ → ℝ

/-- Number of cells along an axis (smearing.py 437-440): without `wrap` the last cells are cut off. -/
def TetraGrid.cells (wrap : Bool) (n : ℕ) : ℕ := if wrap then n else n - 1

/-- Corner values of a cell (smearing.py 430-432). -/
def TetraGrid.corners (o : TetraGrid) (i j k : ℕ) : Corners := gridCorners o.n0 o.n1 o.n2 o.v i j k

/-- `TetraSmearing.volume` (smearing.py 442-443), element `(i, j, k)` of the result. -/
noncomputable def TetraGrid.volume (o : TetraGrid) (value : ℝ) (i j k : ℕ) : ℝ :=
  cubeTetraCutVolume fun c => value - o.corners i j k c

/-- `TetraSmearing.dvolume` (smearing.py 445-446). -/
noncomputable def TetraGrid.dvolume (o : TetraGrid) (value : ℝ) (i j k : ℕ) : ℝ :=
  cubeTetraCutDvolume fun c => value - o.corners i j k c

/-- `TetraSmearing.volume_dvolume` (smearing.py 448-452). -/
noncomputable def TetraGrid.volumeDvolume (o : TetraGrid) (value : ℝ) (i j k : ℕ) : ℝ × ℝ :=
  let shifted : Corners := fun c => value - o.corners i j k c
  (cubeTetraCutVolume shifted, cubeTetraCutDvolume shifted)

end TB.Smear

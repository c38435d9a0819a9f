import Verif.Model.Smearing

/-!
# Model of `ExtraCubesSmearing` (smearing.py 259-317)

The constructor without the positions used by `samples`, `volume`, `dvolume`, `volume_dvolume`.  Arrays are functions of three indices together
with their lengths; `values[::2, ::2, ::2]` has `(n + 1) / 2` entries per axis.  The functions for one cell are those of `Model/Smearing`.
-/

namespace TB.Smear
open TB

/-- The object: lengths of `values`, the flag and the values. -/
structure ExtraCubes where
  n0 : ℕ
  n1 : ℕ
  n2 : ℕ
  wrap : Bool
  v : ℕ → ℕ → ℕ → ℝ

namespace ExtraCubes

/-- Number of cubes along an axis: `self.centers.shape[i]` (275-276). -/
def cubes (wrap : Bool) (n : ℕ) : ℕ := if wrap then n else n - 1

/-- `__init__` (264-293): the step sizes need two points per axis (270-274), the numbers of cubes must be even (278). -/
def make (n0 n1 n2 : ℕ) (wrap : Bool) (v : ℕ → ℕ → ℕ → ℝ) : Except Err ExtraCubes :=
  if n0 < 2 ∨ n1 < 2 ∨ n2 < 2 then .error .indexError
  else if cubes wrap n0 % 2 = 0 ∧ cubes wrap n1 % 2 = 0 ∧ cubes wrap n2 % 2 = 0 then .ok ⟨n0, n1, n2, wrap, v⟩
  else .error .assertionError

/-- `values[::2, ::2, ::2]` (281). -/
def strided (v : ℕ → ℕ → ℕ → ℝ) : ℕ → ℕ → ℕ → ℝ := fun i j k => v (2 * i) (2 * j) (2 * k)

/-- Centre value and gradient of a cell of the fine grid, `self.cubes[0]`. -/
noncomputable def fineFit (o : ExtraCubes) (i j k : ℕ) : ℝ × ℝ × ℝ × ℝ := cornerFit (gridCorners o.n0 o.n1 o.n2 o.v i j k)

/-- Centre value and gradient of a cell of the coarse grid, `self.cubes[1]`. -/
noncomputable def coarseFit (o : ExtraCubes) (i j k : ℕ) : ℝ × ℝ × ℝ × ℝ :=
  cornerFit (gridCorners ((o.n0 + 1) / 2) ((o.n1 + 1) / 2) ((o.n2 + 1) / 2) (strided o.v) i j k)

/-- `cube_cut_volume(value - cubes[0], *cubes[1:5])`. -/
noncomputable def cut (value : ℝ) (f : ℝ × ℝ × ℝ × ℝ) : ℝ := cubeCutVolume (value - f.1) (cubePrecomp f.2.1 f.2.2.1 f.2.2.2)

/-- `cube_cut_dvolume(value - cubes[0], *cubes[1:5])`. -/
noncomputable def dcut (value : ℝ) (f : ℝ × ℝ × ℝ × ℝ) : ℝ := cubeCutDvolume (value - f.1) (cubePrecomp f.2.1 f.2.2.1 f.2.2.2)

/-- `cube_cut_volume_dvolume(value - cubes[0], *cubes[1:5])`. -/
noncomputable def bothCut (value : ℝ) (f : ℝ × ℝ × ℝ × ℝ) : ℝ × ℝ := cubeCutBoth (value - f.1) (cubePrecomp f.2.1 f.2.2.1 f.2.2.2)

/-- The mean of the eight cells of the fine grid (298-299, 308-309, 315-316). -/
noncomputable def down (r : ℕ → ℕ → ℕ → ℝ) (i j k : ℕ) : ℝ :=
  (r (2 * i) (2 * j) (2 * k) + r (2 * i + 1) (2 * j) (2 * k) + r (2 * i) (2 * j + 1) (2 * k) + r (2 * i) (2 * j) (2 * k + 1) +
    r (2 * i + 1) (2 * j + 1) (2 * k + 1) + r (2 * i) (2 * j + 1) (2 * k + 1) + r (2 * i + 1) (2 * j) (2 * k + 1) +
    r (2 * i + 1) (2 * j + 1) (2 * k)) / 8

/-- `volume` (295-304), entry `(i, j, k)`; `reversed(self.cubes)` puts the coarse grid first. -/
noncomputable def volume (o : ExtraCubes) (value : ℝ) (i j k : ℕ) : ℝ :=
  extrapolatePoly 2 1 [cut value (o.coarseFit i j k), down (fun i j k => cut value (o.fineFit i j k)) i j k]

/-- `dvolume` (306-310). -/
noncomputable def dvolume (o : ExtraCubes) (value : ℝ) (i j k : ℕ) : ℝ :=
  extrapolatePoly 2 1 [dcut value (o.coarseFit i j k), down (fun i j k => dcut value (o.fineFit i j k)) i j k]

/-- `volume_dvolume` (312-317). -/
noncomputable def volumeDvolume (o : ExtraCubes) (value : ℝ) (i j k : ℕ) : ℝ × ℝ :=
  (extrapolatePoly 2 1 [(bothCut value (o.coarseFit i j k)).1, down (fun i j k => (bothCut value (o.fineFit i j k)).1) i j k],
   extrapolatePoly 2 1 [(bothCut value (o.coarseFit i j k)).2, down (fun i j k => (bothCut value (o.fineFit i j k)).2) i j k])

/-- Shape of the returned arrays along an axis: that of the coarse grid. -/
def outShape (wrap : Bool) (n : ℕ) : ℕ := cubes wrap ((n + 1) / 2)

/-- `np.mean` of an array of shape `m0 × m1 × m2` (as in `states_below_band`, density_of_states.py 350-356). -/
noncomputable def mean (m0 m1 m2 : ℕ) (f : ℕ → ℕ → ℕ → ℝ) : ℝ :=
  ((List.range m0).map fun i => ((List.range m1).map fun j => ((List.range m2).map fun k => f i j k).sum).sum).sum / (m0 * m1 * m2 : ℕ)

end ExtraCubes
end TB.Smear

import Verif.Model.FermiSamples
import Verif.Model.ExtraCubes

/-!
# Model of the surface samples of a whole grid: `CubesSmearing` (smearing.py 160-205, 217-247) and `ExtraCubesSmearing` (264-293, 319-349)

Constructors and `samples`, with the functions for one cell of `Model/Smearing` and the coordinates of `Model/FermiSamples`.  Arrays are functions of three indices
together with their lengths.  `np.linalg.qr` is a parameter: for a first column the factor `Q`.
-/

namespace TB.CubeSamples
open TB TB.FermiSamples TB.Smear

/-- The object: lattice, numbers of points, the arrays `positions` and `values`, `grads` if given, `wrap`. -/
structure Grid where
  A : Matrix (Fin 3) (Fin 3) ℝ
  n0 : ℕ
  n1 : ℕ
  n2 : ℕ
  P : ℕ → ℕ → ℕ → V3
  v : ℕ → ℕ → ℕ → ℝ
  grads : Option (ℕ → ℕ → ℕ → V3)
  wrap : Bool

namespace Grid

open Classical in
/-- The exceptions of `CubesSmearing.__init__`: singular lattice (161), fewer than two points along an axis (167-169), gradients without `wrap` (201-202). -/
noncomputable def make (g : Grid) : Except Err Grid :=
  if g.A.det = 0 then .error .valueError
  else if g.n0 < 2 ∨ g.n1 < 2 ∨ g.n2 < 2 then .error .indexError
  else if g.grads.isSome ∧ g.wrap = false then .error .notImplemented
  else .ok g

/-- `self.B = np.linalg.inv(A).T` (161, 265). -/
noncomputable def B (g : Grid) : Matrix (Fin 3) (Fin 3) ℝ := (g.A⁻¹).transpose

/-- `positions @ A` (164, 268). -/
def crystal (g : Grid) (i j k : ℕ) : V3 := Matrix.vecMul (g.P i j k) g.A

/-- `self.step_sizes` (166-170, 270-274). -/
def step (g : Grid) : V3 :=
  ![g.crystal 1 0 0 0 - g.crystal 0 0 0 0, g.crystal 0 1 0 1 - g.crystal 0 0 0 1, g.crystal 0 0 1 2 - g.crystal 0 0 0 2]

/-- `self.centers` (164, 172, 275): the middle of the cells, with gradients the points themselves. -/
noncomputable def center (g : Grid) (i j k : ℕ) : V3 :=
  match g.grads with
  | none => fun a => g.crystal i j k a + g.step a * (1 / 2)
  | some _ => g.crystal i j k

/-- `self.cubes[0]`, `self.cubes[5:8]` (176-194): value and gradient in units of the steps. -/
noncomputable def fit (g : Grid) (i j k : ℕ) : ℝ × ℝ × ℝ × ℝ :=
  match g.grads with
  | none => cornerFit (gridCorners g.n0 g.n1 g.n2 g.v i j k)
  | some d =>
    let c := Matrix.vecMul (d i j k) g.B
    (g.v i j k, c 0 * g.step 0, c 1 * g.step 1, c 2 * g.step 2)

/-- The cells in the order of `np.ravel`; without `wrap` the last ones are left out (173-174, 191-192, 276-277, 289-290). -/
def cells (g : Grid) : List (ℕ × ℕ × ℕ) :=
  (List.range (ExtraCubes.cubes g.wrap g.n0)).flatMap fun i => (List.range (ExtraCubes.cubes g.wrap g.n1)).flatMap fun j =>
    (List.range (ExtraCubes.cubes g.wrap g.n2)).map fun k => (i, j, k)

/-- The values computed in `samples` for a cell with centre value and gradient `f` (218-229, 320-331). -/
noncomputable def cutOf (g : Grid) (qr : V3 → Matrix (Fin 3) (Fin 3) ℝ) (value : ℝ) (center : V3) (f : ℝ × ℝ × ℝ × ℝ) : Cut :=
  let normal : V3 := ![f.2.1, f.2.2.1, f.2.2.2]
  let L := stepMatrix g.B g.step
  let r := cubeCutAreaCom (value - f.1) (cubePrecomp f.2.1 f.2.2.1 f.2.2.2) f.2.1 f.2.2.1 f.2.2.2
  ⟨r.1, ![r.2.1, r.2.2.1, r.2.2.2], center, normal, areaScale L (qr normal) (qr (Matrix.vecMul normal L⁻¹))⟩

/-- `CubesSmearing.samples` (217-247). -/
noncomputable def samples (g : Grid) (qr : V3 → Matrix (Fin 3) (Fin 3) ℝ) (value : ℝ) : List Smpl :=
  cubeSamples g.B g.step (g.cells.map fun c => g.cutOf qr value (g.center c.1 c.2.1 c.2.2) (g.fit c.1 c.2.1 c.2.2))

open Classical in
/-- `ExtraCubesSmearing.__init__` (264-293) has no gradients and needs even numbers of cubes. -/
noncomputable def makeExtra (g : Grid) : Except Err Grid :=
  if g.A.det = 0 then .error .valueError
  else do
    let _ ← ExtraCubes.make g.n0 g.n1 g.n2 g.wrap g.v
    return g

/-- `ExtraCubesSmearing.samples` (319-349): the fine grid `self.cubes[0]`. -/
noncomputable def samplesExtra (g : Grid) (qr : V3 → Matrix (Fin 3) (Fin 3) ℝ) (value : ℝ) : List Smpl :=
  cubeSamples g.B g.step (g.cells.map fun c => g.cutOf qr value (fun a => g.crystal c.1 c.2.1 c.2.2 a + g.step a * (1 / 2))
    ((⟨g.n0, g.n1, g.n2, g.wrap, g.v⟩ : ExtraCubes).fineFit c.1 c.2.1 c.2.2))

end Grid
end TB.CubeSamples

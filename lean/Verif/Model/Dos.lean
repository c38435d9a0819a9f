import Mathlib.Data.Finset.Sort
import Mathlib.Algebra.Order.Floor.Ring
import Mathlib.Analysis.SpecialFunctions.Log.Basic
import Mathlib.Analysis.SpecialFunctions.Trigonometric.Basic
import Verif.Model.Err
import Verif.Model.Loss
import Verif.Model.Logger
import Verif.Model.Smearing

/-!
# Model of `density_of_states.py`

Floating point numbers are real numbers.  A `DensityOfStates` object is the list of its bands: `self.bands_range[i]` and
the functions `np.mean(self.smearing[i].volume(e))`, `np.mean(self.smearing[i].dvolume(e))`.  `Band.cubes` and
`Band.spheres` build them from the grid of band energies.
-/

namespace TB.Dos

open TB.Smear

/-- One band of a `DensityOfStates` object (density_of_states.py 263-320). -/
structure Band where
  lo : ℝ
  hi : ℝ
  vol : ℝ → ℝ
  dvol : ℝ → ℝ

/-- The bands (density_of_states.py 202-320). -/
abbrev DoS := List Band

/-- A grid of band energies with `n₀ × n₁ × n₂` points. -/
structure Grid where
  n0 : ℕ
  n1 : ℕ
  n2 : ℕ
  get : ℕ → ℕ → ℕ → ℝ

/-- All grid points. -/
def Grid.points (g : Grid) : List (ℕ × ℕ × ℕ) :=
  (List.range g.n0).flatMap fun i => (List.range g.n1).flatMap fun j => (List.range g.n2).map fun k => (i, j, k)

/-- All values (`self.bands[..., i]`). -/
def Grid.values (g : Grid) : List ℝ := g.points.map fun p => g.get p.1 p.2.1 p.2.2

/-- `np.mean`. -/
noncomputable def mean (l : List ℝ) : ℝ := l.sum / l.length

/-- `(np.min(...), np.max(...))` (density_of_states.py 295) for a non-empty grid. -/
noncomputable def Grid.range (g : Grid) : ℝ × ℝ := (g.values.foldl min (g.get 0 0 0), g.values.foldl max (g.get 0 0 0))

/-- `CubesSmearing` without analytic gradients on a wrapped grid (density_of_states.py 305-306; smearing.py 174-205). -/
noncomputable def Band.cubes (g : Grid) : Band where
  lo := g.range.1
  hi := g.range.2
  vol e := mean (g.points.map fun p =>
    let c := cornerFit (gridCorners g.n0 g.n1 g.n2 g.get p.1 p.2.1 p.2.2)
    cubeCutVolume (e - c.1) (cubePrecomp c.2.1 c.2.2.1 c.2.2.2))
  dvol e := mean (g.points.map fun p =>
    let c := cornerFit (gridCorners g.n0 g.n1 g.n2 g.get p.1 p.2.1 p.2.2)
    cubeCutDvolume (e - c.1) (cubePrecomp c.2.1 c.2.2.1 c.2.2.2))

/-- `SphereSmearing` without analytic gradients on a wrapped grid (density_of_states.py 317-318; smearing.py 473-517). -/
noncomputable def Band.spheres (g : Grid) : Band where
  lo := g.range.1
  hi := g.range.2
  vol e := mean (g.points.map fun p =>
    let c := cornerFit (gridCorners g.n0 g.n1 g.n2 g.get p.1 p.2.1 p.2.2)
    (unitSphereCut (e - c.1) c.2.1 c.2.2.1 c.2.2.2).1)
  dvol e := mean (g.points.map fun p =>
    let c := cornerFit (gridCorners g.n0 g.n1 g.n2 g.get p.1 p.2.1 p.2.2)
    (unitSphereCut (e - c.1) c.2.1 c.2.2.1 c.2.2.2).2)

open Classical in
/-- `states_below_band` (density_of_states.py 350-356). -/
noncomputable def Band.statesBelow (b : Band) (e : ℝ) : ℝ :=
  if b.lo < e ∧ e < b.hi then b.vol e else if b.hi ≤ e then 1 else 0

/-- `states_below` (density_of_states.py 358-362). -/
noncomputable def statesBelow (d : DoS) (e : ℝ) : ℝ := d.foldl (fun s b => s + b.statesBelow e) 0

open Classical in
/-- `density_band` (density_of_states.py 384-388). -/
noncomputable def Band.density (b : Band) (e : ℝ) : ℝ := if b.lo < e ∧ e < b.hi then b.dvol e else 0

/-- `density` (density_of_states.py 377-382). -/
noncomputable def density (d : DoS) (e : ℝ) : ℝ := d.foldl (fun s b => s + b.density e) 0

open Classical in
/-- `states_density` (density_of_states.py 364-375); `volume_dvolume` is the pair of `volume` and `dvolume`
(theorem `C44_both` for cubes). -/
noncomputable def statesDensity (d : DoS) (e : ℝ) : ℝ × ℝ :=
  d.foldl (fun s b => if b.lo < e ∧ e < b.hi then (s.1 + b.vol e, s.2 + b.dvol e)
    else if b.hi ≤ e then (s.1 + 1, s.2) else s) (0, 0)

open Classical in
/-- `cut_band_indices` (density_of_states.py 394-400). -/
noncomputable def cutBandIndices (d : DoS) (e : ℝ) : List ℕ :=
  d.zipIdx.foldl (fun acc p => if p.1.lo < e ∧ e < p.1.hi then acc ++ [p.2] else acc) []

/-- The energies of `full_curve(N)` at `T = 0` (density_of_states.py 413-416): `np.unique` sorts and removes duplicates. -/
noncomputable def curveEnergies (d : DoS) (N : ℕ) : List ℝ :=
  (d.flatMap fun b => linspace b.lo b.hi N).toFinset.sort (· ≤ ·)

/-- `l[i]` of a Python list, with negative indices counted from the end; only used for indices in range. -/
noncomputable def pyGet (l : List ℝ) (i : ℤ) : ℝ := if 0 ≤ i then l.getD i.toNat 0 else l.getD (l.length - (-i).toNat) 0

open Classical in
/-- The start value of the root search (density_of_states.py 484-486).  Division by zero (only possible when the
lowest band is flat) gives zero in the model and `nan` in numpy. -/
noncomputable def fermiStart (d : DoS) (electrons : ℝ) : Except Err ℝ :=
  let e := curveEnergies d 2
  let s := e.map fun x => (statesDensity d x).1
  match s.findIdx? fun x => decide (electrons < x) with
  | none => .error .valueError
  | some k =>
    let i : ℤ := (k : ℤ) - 1
    .ok ((electrons - pyGet s i) / (pyGet s (i + 1) - pyGet s i) * (pyGet e (i + 1) - pyGet e i) + pyGet e i)

open Classical in
/-- The Newton steps (density_of_states.py 488-496); the first argument is the number of steps left, `last` says whether
the loop body was executed before (otherwise the error message uses an unbound variable).
If the density is zero: when no band is cut the density is the Python number `0.0` and the division raises
`ZeroDivisionError`; otherwise it is a numpy number, the quotient is infinite or `nan`, the comparison is false, and in the
next step (if there is one) no band is cut. -/
noncomputable def newton (d : DoS) (electrons tol : ℝ) : Bool → ℕ → ℝ → Except Err ℝ
  | first, 0, _ => if first then .error .nameError else .error .valueError
  | _, n + 1, e =>
    let r := statesDensity d e
    if r.2 = 0 then if cutBandIndices d e = [] ∨ 0 < n then .error .zeroDivision else .error .valueError
    else
      let delta := (r.1 - electrons) / r.2
      if |delta| ≤ tol then .ok (e - delta) else newton d electrons tol false n (e - delta)

open Classical in
/-- `fermi_energy` (density_of_states.py 455-496). -/
noncomputable def fermiEnergy (d : DoS) (electrons tol : ℝ) (maxsteps : ℕ) : Except Err ℝ :=
  if ¬ (0 ≤ electrons ∧ electrons ≤ d.length) then .error .assertionError
  else
    let eInt := pyRound electrons
    let search := match fermiStart d electrons with
      | .error e => .error e
      | .ok x => newton d electrons tol true maxsteps x
    if (eInt : ℝ) = electrons then
      if 0 < eInt ∧ eInt < d.length then
        match d[(eInt - 1).toNat]?, d[eInt.toNat]? with
        | some below, some above =>
          if below.hi < above.lo then .ok ((below.hi + above.lo) / 2) else search
        | _, _ => .error .indexError
      else if eInt = 0 then
        match d.head? with
        | some b => .ok b.lo
        | none => .error .indexError
      else
        match d.getLast? with
        | some b => .ok b.hi
        | none => .error .indexError
    else search

open Classical in
/-- `bandgap` (density_of_states.py 498-517). -/
noncomputable def bandgap (d : DoS) (electrons : ℝ) : Except Err ℝ :=
  if ¬ (0 ≤ electrons ∧ electrons ≤ d.length) then .error .assertionError
  else
    let eInt := pyRound electrons
    if (eInt : ℝ) ≠ electrons then .ok 0
    else if ¬ (0 < eInt ∧ eInt < d.length) then .error .assertionError
    else
      match d[(eInt - 1).toNat]?, d[eInt.toNat]? with
      | some below, some above => if below.hi < above.lo then .ok (above.lo - below.hi) else .ok 0
      | _, _ => .error .indexError

/-- `energy_range` (density_of_states.py 519-525). -/
noncomputable def energyRange (d : DoS) : Except Err (ℝ × ℝ) :=
  match d.head?, d.getLast? with
  | some a, some b => .ok (a.lo, b.hi)
  | _, _ => .error .indexError

/-- The trapezoidal sum `np.sum((y[:-1] + y[1:])/2 * (x[1:] - x[:-1]))` (density_of_states.py 608). -/
noncomputable def trapezoid : List (ℝ × ℝ) → ℝ
  | [] => 0
  | [_] => 0
  | p :: q :: l => (p.2 + q.2) / 2 * (q.1 - p.1) + trapezoid (q :: l)

/-- Every second element (`[::2]`). -/
def everySecond {α : Type} : List α → List α
  | [] => []
  | [a] => [a]
  | a :: _ :: l => a :: everySecond l

open Classical in
/-- One band of `energy` at `T = 0` (density_of_states.py 603-613); `states[-1]` is the value at the last energy. -/
noncomputable def Band.energy0 (b : Band) (mu : ℝ) (N : ℕ) : ℝ :=
  if b.lo < mu then
    let e := linspace b.lo (min b.hi mu) (N / 2 * 2 + 1)
    let pts := e.map fun x => (x, b.statesBelow x)
    let int1 := trapezoid pts
    let int2 := trapezoid (everySecond pts)
    mu * (pts.getLastD (0, 0)).2 - (int1 + (int1 - int2) / (4 - 1))
  else 0

/-- `energy(mu, T=0, N, spin_factor)` (density_of_states.py 601-617). -/
noncomputable def energy0 (d : DoS) (mu : ℝ) (N : ℕ) (spin : ℝ) : ℝ := (d.map fun b => b.energy0 mu N).sum * spin

/-! ## Convolution with the derivative of the Fermi function -/

/-- `f(e) = expit(-beta e)` (density_of_states.py 66, 106). -/
noncomputable def fermi (beta e : ℝ) : ℝ := 1 / (1 + Real.exp (beta * e))

/-- `F(e) = log_expit(beta e) / beta` (density_of_states.py 70-71); `log_expit(x) = -log(1 + exp(-x))`. -/
noncomputable def fermiInt (beta e : ℝ) : ℝ := -Real.log (1 + Real.exp (-(beta * e))) / beta

/-- `df(e) = -0.25 beta / cosh(0.5 beta e)²` (density_of_states.py 103). -/
noncomputable def dfermi (beta e : ℝ) : ℝ := -(1 / 4) * beta / Real.cosh (1 / 2 * beta * e) ^ 2

/-- `segment` (density_of_states.py 77-78). -/
noncomputable def convSegment (beta x : ℝ) (p q : ℝ × ℝ) : ℝ :=
  q.2 * fermi beta (x - q.1) - p.2 * fermi beta (x - p.1) +
    (q.2 - p.2) / (q.1 - p.1) * (fermiInt beta (x - q.1) - fermiInt beta (x - p.1))

/-- `dsegment` (density_of_states.py 111-112). -/
noncomputable def convDsegment (beta x : ℝ) (p q : ℝ × ℝ) : ℝ :=
  q.2 * dfermi beta (x - q.1) - p.2 * dfermi beta (x - p.1) +
    (q.2 - p.2) / (q.1 - p.1) * (fermi beta (x - q.1) - fermi beta (x - p.1))

/-- `np.sum(segment(x, e[:-1], e[1:], y[:-1], y[1:]))` (density_of_states.py 79, 113). -/
noncomputable def sumSegments (seg : ℝ × ℝ → ℝ × ℝ → ℝ) : List (ℝ × ℝ) → ℝ
  | [] => 0
  | [_] => 0
  | p :: q :: l => seg p q + sumSegments seg (q :: l)

/-- How the curve continues outside of the samples. -/
inductive Extra
  | none
  | flat
  | point (e n : ℝ)

/-- `convolve_df` for one curve (density_of_states.py 50-90). An empty curve raises `IndexError` with `'flat'`. -/
noncomputable def convolveDf (beta x : ℝ) (pts : List (ℝ × ℝ)) : Extra → Except Err ℝ
  | .none => .ok (sumSegments (convSegment beta x) pts)
  | .flat =>
    match pts.head?, pts.getLast? with
    | some p, some q =>
      .ok (sumSegments (convSegment beta x) pts + fermi beta (x - p.1) * p.2 + fermi beta (q.1 - x) * q.2)
    | _, _ => .error .indexError
  | .point e n => .ok (sumSegments (convSegment beta x) pts + fermi beta (e - x) * n)

/-- `convolve_ddf` for one curve (density_of_states.py 92-124). -/
noncomputable def convolveDdf (beta x : ℝ) (pts : List (ℝ × ℝ)) : Extra → Except Err ℝ
  | .none => .ok (sumSegments (convDsegment beta x) pts)
  | .flat =>
    match pts.head?, pts.getLast? with
    | some p, some q =>
      .ok (sumSegments (convDsegment beta x) pts + dfermi beta (x - p.1) * p.2 + dfermi beta (q.1 - x) * q.2)
    | _, _ => .error .indexError
  | .point e n => .ok (sumSegments (convDsegment beta x) pts + dfermi beta (e - x) * n)

open Classical in
/-- The loop of `secant` (density_of_states.py 132-143).
Division by zero raises `ZeroDivisionError` for Python numbers. -/
noncomputable def secantLoop (y tol : ℝ) (f : ℝ → ℝ) : ℕ → (a b fa fb : ℝ) → Except Err ℝ
  | 0, a, b, fa, fb => if fb - fa = 0 then .error .zeroDivision else .ok ((a * fb - b * fa) / (fb - fa))
  | n + 1, a, b, fa, fb =>
    if fb - fa = 0 then .error .zeroDivision
    else
      let x := (a * fb - b * fa) / (fb - fa)
      if a = x ∨ b = x then .ok x
      else
        let val := f x - y
        if |val| < tol ∨ fb = val then .ok x else secantLoop y tol f n b x fb val

/-- `secant` (density_of_states.py 122-143). -/
noncomputable def secant (y : ℝ) (f : ℝ → ℝ) (a b tol : ℝ) (maxI : ℕ) : Except Err ℝ :=
  secantLoop y tol f maxI a b (f a - y) (f b - y)

/-! ## Integrals against the derivative of the Fermi function -/

/-- `_int_df` (density_of_states.py 150-152). -/
noncomputable def intDf (x : ℝ) : ℝ := 1 / 2 * Real.tanh (x / 2)

/-- `_int_xdf` (density_of_states.py 155-159). -/
noncomputable def intXdf (x : ℝ) : ℝ :=
  let x := -|x|
  let ex := Real.exp x
  x * ex / (1 + ex) - Real.log (1 + ex)

/-- `_int_xxdf` (density_of_states.py 162-169); `Li2` is `scipy.special.spence(1 - x)`. -/
noncomputable def intXxdf (Li2 : ℝ → ℝ) (x : ℝ) : ℝ :=
  let s := sign x
  let x := -|x|
  let ex := Real.exp x
  let f := x * x * ex / (1 + ex) - 2 * x * Real.log (1 + ex) - (2 * Li2 (-ex) + Real.pi ^ 2 / 6)
  f * -s

/-- `int_poly` (density_of_states.py 172-178). -/
noncomputable def intPoly (Li2 : ℝ → ℝ) (x0 x1 a b c : ℝ) : ℝ :=
  a * (intXxdf Li2 x1 - intXxdf Li2 x0) + b * (intXdf x1 - intXdf x0) + c * (intDf x1 - intDf x0)

/-- The coefficients `a0`, `b0`, `c0` of one segment in `heat_capacity` (density_of_states.py 711-720), for the segment
`e0..e1` with densities `y0`, `y1`. -/
noncomputable def heatCoeffs (mu seebeck beta e0 e1 y0 y1 : ℝ) : ℝ × ℝ × ℝ :=
  let dx := e1 - e0
  let dy := y1 - y0
  let em := (e0 + e1) / 2
  let a := dy / dx
  let b := (y0 + y1) / 2
  ((a * (2 * em - mu + seebeck) + b) / beta ^ 2,
   (a * (-3 * em ^ 2 - em * seebeck - 2 * mu ^ 2 + mu * (5 * em + 2 * seebeck)) + b * (mu + seebeck)) / beta,
   a * (em ^ 3 - mu ^ 3 + mu ^ 2 * (3 * em + seebeck) + mu * (-3 * em ^ 2 - em * seebeck)) + b * mu * seebeck)

end TB.Dos

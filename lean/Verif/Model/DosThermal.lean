import Mathlib.Data.List.Chain
import Verif.Model.Dos

/-!
# Model of `density_of_states.py`: quantities at finite temperature

Results that can be `nan` or infinite are `Option ℝ`; `none` stands for "not a finite number".  The energies of a curve are used in the
divisions `(y1 - y0) / (x1 - x0)`; equal neighbouring energies carry equal values, so the quotient is `0 / 0`, which numpy evaluates to
`nan`, and the sum over all segments is `nan`.
-/

namespace TB.Dos

open Classical

/-- `k_B` in eV/K (density_of_states.py 10). -/
noncomputable def kB : ℝ := 861733326214518 / 10 ^ 19

/-- `np.linspace(lo, hi, N, endpoint=False)`. -/
noncomputable def linspaceOpen (lo hi : ℝ) (N : ℕ) : List ℝ := (List.range N).map fun i : ℕ => lo + (i : ℝ) * ((hi - lo) / N)

/-- `scipy.special.logit`. -/
noncomputable def logit (p : ℝ) : ℝ := Real.log (p / (1 - p))

/-- `_samples` (density_of_states.py 194-200); `expit(-beta * e)` is `fermi beta e`. -/
noncomputable def samples (e0 e1 mu beta : ℝ) (N : ℕ) : List ℝ :=
  let e0 := max (mu - 30 / beta) e0
  let e1 := min (mu + 30 / beta) e1
  (linspaceOpen (fermi beta (e0 - mu)) (1 / 2) (N / 2) ++ linspace (1 / 2) (fermi beta (e1 - mu)) ((N + 1) / 2)).map
    fun p => -logit p / beta + mu

/-- No division by zero in the segments of a curve with these energies. -/
def Proper (e : List ℝ) : Prop := e.IsChain (· ≠ ·)

/-- The pairs of energies and `self.states_below(energy)` (density_of_states.py 557, 571, 651). -/
noncomputable def stateCurve (d : DoS) (e : List ℝ) : List (ℝ × ℝ) := e.map fun x => (x, statesBelow d x)

/-! ## `full_curve` -/

/-- The energies of `full_curve` at `T ≠ 0` (density_of_states.py 428-429) for the energies `es` at `T = 0`. -/
noncomputable def extendedEnergies (es : List ℝ) (first last delta : ℝ) (N : ℕ) : List ℝ :=
  linspaceOpen (first - delta) first N ++ es ++ (linspaceOpen (last + delta) last N).reverse

/-- The values of a convolution that cannot raise. -/
noncomputable def convValue (beta x : ℝ) (pts : List (ℝ × ℝ)) (ext : Extra) : ℝ :=
  match convolveDf beta x pts ext with
  | .ok v => v
  | .error _ => 0

/-- `full_curve` (density_of_states.py 402-432): energies, states and density.  The energies at `T = 0` come from `np.unique`, so that
no two of them are equal. -/
noncomputable def fullCurve (d : DoS) (N : ℕ) (T : ℝ) : Except Err (List ℝ × List ℝ × List ℝ) :=
  let es := curveEnergies d N
  let states := es.map fun e => (statesDensity d e).1
  let density := es.map fun e => (statesDensity d e).2
  if T = 0 then .ok (es, states, density)
  else
    match es.head?, es.getLast? with
    | some first, some last =>
      let beta := 1 / (kB * T)
      let en := extendedEnergies es first last (5 / beta) N
      .ok (en, en.map fun x => convValue beta x (es.zip states) .flat, en.map fun x => convValue beta x (es.zip density) .none)
    | _, _ => .error .indexError

/-! ## `k_resolved_density` -/

/-- The value of `k_resolved_density` at one point of `self.k_smpl` (density_of_states.py 434-453); `cells` holds the functions `volume`
and `dvolume` of all bands at this point.  `N = 0` raises `IndexError` in `convolve_ddf`. -/
noncomputable def kResolvedDensity (d : DoS) (cells : List ((ℝ → ℝ) × (ℝ → ℝ))) (mu T : ℝ) (N : ℕ) : Except Err (Option ℝ) :=
  if ¬ 0 ≤ T then .error .assertionError
  else if T = 0 then .ok (some (cells.map fun c => c.2 mu).sum)
  else
    match energyRange d with
    | .error e => .error e
    | .ok r =>
      let beta := 1 / (kB * T)
      let en := samples r.1 r.2 mu beta N
      let pts := en.map fun e => (e, (cells.map fun c => c.1 e).sum)
      match convolveDdf beta mu pts .flat with
      | .error e => .error e
      | .ok v => .ok (if Proper en then some v else none)

/-! ## `chemical_potential` -/

/-- `secant(electrons, lambda x: convolve_df(x, ...), a, b, tol, maxsteps)` (density_of_states.py 565, 577).  The function values are numpy
numbers: a vanishing difference of function values gives an infinite or undefined point instead of an exception, and all later points are
not finite.  If the curve has equal neighbouring energies every point is `nan`. -/
noncomputable def solve (electrons tol : ℝ) (maxsteps : ℕ) (beta a b : ℝ) (pts : List (ℝ × ℝ)) (ext : Extra) :
    Except Err (Option ℝ) :=
  match convolveDf beta a pts ext with
  | .error e => .error e
  | .ok _ =>
    if Proper (pts.map Prod.fst) then
      match secant electrons (fun x => convValue beta x pts ext) a b tol maxsteps with
      | .ok x => .ok (some x)
      | .error _ => .ok none
    else .ok none

/-- The arguments and the values computed before the loop of `chemical_potential` (density_of_states.py 544-557). -/
structure ChemArgs where
  d : DoS
  electrons : ℝ
  N : ℕ
  tol : ℝ
  maxsteps : ℕ
  fermi : ℝ
  e0 : ℝ
  e1 : ℝ

/-- `T_lin` (density_of_states.py 552). -/
noncomputable def ChemArgs.tLin (c : ChemArgs) : ℝ := 1 / 4 * (1 / 4) * 2 / kB * max |c.e0 - c.fermi| |c.e1 - c.fermi|

/-- `states_lin` with its energies (density_of_states.py 553, 556). -/
noncomputable def ChemArgs.linCurve (c : ChemArgs) : List (ℝ × ℝ) := stateCurve c.d (linspace c.e0 c.e1 c.N)

/-- `energy_smpl`, `states` computed for the temperature `T` (density_of_states.py 571-574). -/
noncomputable def ChemArgs.curve (c : ChemArgs) (T : ℝ) : List (ℝ × ℝ) :=
  stateCurve c.d (samples c.e0 c.e1 c.fermi (1 / 4 / (kB * T)) c.N)

/-- The variables changed in the loop: `beta`, the curve (if it was computed already) and `res`. -/
structure ChemState where
  beta : ℝ
  curve : Option (List (ℝ × ℝ))
  res : List (Option ℝ)

/-- One pass of the loop (density_of_states.py 560-577). -/
noncomputable def ChemArgs.step (c : ChemArgs) (s : ChemState) (T : ℝ) : Except Err ChemState :=
  if T ≤ 0 then .ok { s with res := s.res ++ [some c.fermi] }
  else if c.tLin ≤ T then
    match solve c.electrons c.tol c.maxsteps (1 / (kB * T)) c.fermi (c.fermi + 1 / 10) c.linCurve .flat with
    | .error e => .error e
    | .ok x => .ok { s with beta := 1 / (kB * T), res := s.res ++ [x] }
  else
    let new := 1 / (kB * T)
    let curve := if 5 / 100 < |s.beta - new| / new then some (c.curve T) else s.curve
    match curve with
    | none => .error .nameError
    | some pts =>
      match solve c.electrons c.tol c.maxsteps new c.fermi (c.fermi + 1 / new) pts (.point c.e1 c.d.length) with
      | .error e => .error e
      | .ok x => .ok { beta := new, curve := some pts, res := s.res ++ [x] }

/-- The loop over the temperatures (density_of_states.py 560-577). -/
noncomputable def ChemArgs.loop (c : ChemArgs) (s : ChemState) (Ts : List ℝ) : Except Err ChemState :=
  Ts.foldl (fun r T => match r with | .error e => .error e | .ok s => c.step s T) (.ok s)

/-- `chemical_potential` (density_of_states.py 527-578); `np.max` of no temperatures raises `ValueError`. -/
noncomputable def chemicalPotential (d : DoS) (electrons : ℝ) (Ts : List ℝ) (N : ℕ) (tol : ℝ) (maxsteps : ℕ) :
    Except Err (List (Option ℝ)) :=
  match fermiEnergy d electrons tol maxsteps with
  | .error e => .error e
  | .ok ef =>
    match energyRange d with
    | .error e => .error e
    | .ok r =>
      if Ts = [] then .error .valueError
      else
        match ChemArgs.loop ⟨d, electrons, N, tol, maxsteps, ef, r.1, r.2⟩ ⟨-10000, none, []⟩ Ts with
        | .error e => .error e
        | .ok s => .ok s.res

/-! ## `seebeck` and `heat_capacity` -/

/-- The quotient of a difference of numbers that may not be finite; division by zero is not finite. -/
noncomputable def diffQuot (a b : Option ℝ) (h : ℝ) : Option ℝ :=
  match a, b with
  | some a, some b => if h = 0 then none else some ((a - b) / h)
  | _, _ => none

/-- `seebeck` (density_of_states.py 654-678); `inv_order[i]` is the number of positive temperatures before position `i`. -/
noncomputable def seebeck (d : DoS) (electrons : ℝ) (Ts : List ℝ) (N : ℕ) (h : ℝ) : Except Err (List (Option ℝ)) :=
  let pos := Ts.filter fun T => decide (0 < T)
  match pos.min? with
  | none => .error .valueError
  | some m =>
    if ¬ h < m then .error .assertionError
    else
      match chemicalPotential d electrons (pos.flatMap fun T => [T - h, T + h]) N (1 / 10 ^ 8) 30 with
      | .error e => .error e
      | .ok mu =>
        .ok ((List.range Ts.length).map fun i =>
          if 0 < Ts.getD i 0 then
            let k := ((Ts.take i).filter fun T => decide (0 < T)).length
            diffQuot ((mu[k * 2 + 1]?).getD none) ((mu[k * 2]?).getD none) (2 * h)
          else some 0)

/-- `segment` of `heat_capacity` (density_of_states.py 713-724). -/
noncomputable def heatSegment (Li2 : ℝ → ℝ) (mu seebeck beta : ℝ) (p q : ℝ × ℝ) : ℝ :=
  let c := heatCoeffs mu seebeck beta p.1 q.1 p.2 q.2
  intPoly Li2 ((p.1 - mu) * beta) ((q.1 - mu) * beta) c.1 c.2.1 c.2.2

/-- `heat_capacity` (density_of_states.py 681-729). -/
noncomputable def heatCapacity (Li2 : ℝ → ℝ) (d : DoS) (electrons T : ℝ) (N : ℕ) (spin h : ℝ) : Except Err (Option ℝ) :=
  if T ≤ 0 then .ok (some 0)
  else
    match energyRange d with
    | .error e => .error e
    | .ok r =>
      match chemicalPotential d electrons [T - h * T, T, T + h * T] N (1 / 10 ^ 8) 30 with
      | .error e => .error e
      | .ok mu =>
        match (mu[1]?).getD none, diffQuot ((mu[2]?).getD none) ((mu[0]?).getD none) (2 * (h * T)) with
        | some m, some q =>
          let beta := 1 / (kB * T)
          let en := samples r.1 r.2 m beta N
          .ok (if Proper en then
            some (sumSegments (heatSegment Li2 m (q * T) beta) (en.map fun e => (e, density d e)) / T * spin) else none)
        | _, _ => .ok none

/-! ## `energy` at finite temperature -/

/-- The Fermi distribution minus the step function used in `energy` (density_of_states.py 642); the step is zero at `mu`. -/
noncomputable def fermiStep (beta mu e : ℝ) : ℝ := fermi beta (e - mu) - if e < mu then 1 else 0

/-- `segment` of `energy` (density_of_states.py 636-644). -/
noncomputable def energySegment (Li2 : ℝ → ℝ) (beta mu : ℝ) (p q : ℝ × ℝ) : ℝ :=
  let a := (q.2 - p.2) / (q.1 - p.1)
  let b := p.2 - p.1 * a
  let f := fun e => (a * e / 2 + b) * e * fermiStep beta mu e
  a / 2 * intPoly Li2 ((p.1 - mu) * beta) ((q.1 - mu) * beta) (1 / beta ^ 2) (2 * mu / beta) (mu * mu) - (f q.1 - f p.1)

/-- `energy` (density_of_states.py 579-652) for all temperatures; `Band.energy0` is the part of one band at `T = 0`. -/
noncomputable def energy (Li2 : ℝ → ℝ) (d : DoS) (mu T : ℝ) (N : ℕ) (spin : ℝ) : Except Err (Option ℝ) :=
  match energyRange d with
  | .error e => .error e
  | .ok r =>
    if T ≤ 0 then .ok (some (energy0 d mu N spin))
    else
      let beta := 1 / (kB * T)
      let en := samples r.1 r.2 mu beta N
      match en.getLast? with
      | none => .error .indexError
      | some last =>
        .ok (if Proper en then
          some (((d.map fun b => b.energy0 mu N).sum +
            (sumSegments (energySegment Li2 beta mu) (stateCurve d en) +
              energySegment Li2 beta mu (last, d.length) (last + 8 / beta, d.length)) - density d mu * (mu * mu) / 2) * spin)
        else none)

end TB.Dos

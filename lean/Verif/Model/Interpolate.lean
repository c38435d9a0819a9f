import Mathlib.Algebra.BigOperators.Fin
import Mathlib.Data.Finset.Sort
import Mathlib.Analysis.SpecialFunctions.Pow.Real
import Verif.Model.SymmetryPoints

/-!
# Model of `kpaths.py`: `interpolate`, `interpolate_unstructured`, and of `realize_symmetric_data(average_bad_duplicates=True)`

Numbers are exact.  `κ` stands for `x ↦ np.round(x + np.pi, 4)`, the key of the sorts.  A row of band values is a vector of fixed length `B`.
`scipy.interpolate.RegularGridInterpolator` and `scipy.spatial.KDTree` are parameters.  Not modelled: a `grid` with fewer dimensions than the points,
points without coordinates, data with more than two axes, the warnings.
-/

namespace TB

variable {K : Type} [Field K] [LinearOrder K] [IsStrictOrderedRing K] {d B : ℕ}

/-! ## `collect_bad_duplicates`, `average_bad_duplicates` -/

/-- The loop over the sorted points (symmetry.py 584-607, `collect_bad_duplicates=True`): runs of equal neighbours.  A run is given by its first
element and the others. -/
def groupAdj {α : Type} (pt : α → Vec K d) : α → List α → List (α × List α)
  | p, [] => [(p, [])]
  | p, x :: l =>
    if pt p = pt x then
      match groupAdj pt x l with
      | [] => [(p, [])]
      | g :: gs => (p, g.1 :: g.2) :: gs
    else (p, []) :: groupAdj pt x l

/-- `Symmetry.realize_symmetric(collect_bad_duplicates=True)` (symmetry.py 526-613): points with the sorted list of their source indices
(`np.unique`). -/
def Sym.realizeCollect [FloorRing K] (σ : Sym K d) (κ : K → K) (unitCell : Bool) (ks : List (Vec K d)) :
    Except Err (List (Vec K d × List ℕ)) :=
  if ks.isEmpty then .error .indexError
  else
    let full := (σ.fullK ks).map fun p => if unitCell then (fun i => wrapCell (p.1 i), p.2) else p
    match sortCoords κ Prod.fst full with
    | [] => .error .indexError
    | x :: l => .ok ((groupAdj Prod.fst x l).map fun g => (g.1.1, (g.1.2 :: g.2.map Prod.snd).toFinset.sort (· ≤ ·)))

/-- `np.mean(rows, axis=0)`. -/
def meanRow (rows : List (Fin B → K)) : Fin B → K := fun b => (rows.map fun r => r b).sum / rows.length

/-- `Symmetry.realize_symmetric_data(average_bad_duplicates=True)` (symmetry.py 615-635); an index out of range raises `IndexError`. -/
def Sym.realizeAverage [FloorRing K] (σ : Sym K d) (κ : K → K) (unitCell : Bool) (ks : List (Vec K d)) (data : List (Fin B → K)) :
    Except Err (List (Vec K d × (Fin B → K))) :=
  match σ.realizeCollect κ unitCell ks with
  | .error e => .error e
  | .ok l => l.mapM fun p => match p.2.mapM fun i => data[i]? with
    | some rows => .ok (p.1, meanRow rows)
    | none => .error .indexError

/-! ## `interpolate` -/

/-- The loop `for i in reversed(range(kdim))` of stable sorts (kpaths.py 284-290). -/
def sortGrid {α : Type} (κ : K → K) (pt : α → Vec K d) (l : List α) : List α :=
  (List.finRange d).reverse.foldl (fun l i => stableSort (fun a => κ (pt a i)) l) l

/-- Position of an index in the flat array, row-major order (`np.reshape`). -/
def flatIdx : {d : ℕ} → (Fin d → ℕ) → (Fin d → ℕ) → ℕ
  | 0, _, _ => 0
  | _ + 1, n, idx => idx 0 * (∏ i, n (Fin.succ i)) + flatIdx (fun i => n i.succ) fun i => idx i.succ

/-- The arrays `used_k_smpl` and `used_bands` with their common grid shape. -/
structure GridData (K : Type) (d B : ℕ) where
  shape : Fin d → ℕ
  k : (Fin d → ℕ) → Vec K d
  v : (Fin d → ℕ) → Fin B → K

/-- `reshape` to the grid (kpaths.py 292-293). -/
def reshapeGrid (n : Fin d → ℕ) (l : List (Vec K d × (Fin B → K))) : GridData K d B where
  shape := n
  k := fun idx => (l.getD (flatIdx n idx) 0).1
  v := fun idx => (l.getD (flatIdx n idx) 0).2

/-- Index of the concatenation of `take([-1])`, the array and `take([0, 1])` along an axis of length `n`, mode `wrap`. -/
def takeWrap (n j : ℕ) : ℕ := if j = 0 then n - 1 else if j ≤ n then j - 1 else (j - n - 1) % n

/-- Multiple of `vec` that is added to the three parts. -/
def takeShift (n j : ℕ) : K := if j = 0 then -1 else if j ≤ n then 0 else 1

/-- One round of the loop of the periodic extension (kpaths.py 300-307). -/
def GridData.extend (g : GridData K d B) (i : Fin d) : GridData K d B where
  shape := Function.update g.shape i (g.shape i + 3)
  k := fun idx => g.k (Function.update idx i (takeWrap (g.shape i) (idx i))) + Pi.single i (takeShift (g.shape i) (idx i))
  v := fun idx => g.v (Function.update idx i (takeWrap (g.shape i) (idx i)))

/-- The coordinates along axis `c` given to the interpolator (kpaths.py 309-319), at index zero of the other axes. -/
def GridData.axis (g : GridData K d B) (c : Fin d) : List K := (List.range (g.shape c)).map fun j => g.k (Pi.single c j) c

/-- `scipy.interpolate.RegularGridInterpolator` with a method: the number of points it needs along every axis and the interpolated value. -/
structure Rgi (K : Type) (d B : ℕ) where
  minPts : ℕ
  eval : (Fin d → List K) → ((Fin d → ℕ) → Fin B → K) → Vec K d → Fin B → K

/-- Constructor and call of `RegularGridInterpolator`: `ValueError` for axes that are not strictly ascending or descending or too short, and for a
point out of bounds. -/
def Rgi.make (R : Rgi K d B) (axes : Fin d → List K) (v : (Fin d → ℕ) → Fin B → K) : Except Err (Vec K d → Except Err (Fin B → K)) :=
  if ∀ i, R.minPts ≤ (axes i).length ∧ ((axes i).Pairwise (· < ·) ∨ (axes i).Pairwise (· > ·)) then
    .ok fun x => if ∀ i, (∃ a ∈ axes i, a ≤ x i) ∧ ∃ a ∈ axes i, x i ≤ a then .ok (R.eval axes v x) else .error .valueError
  else .error .valueError

/-- `round(len(k_smpl)**(1 / kdim))` (kpaths.py 277). -/
noncomputable def defaultGrid (d N : ℕ) : ℕ := (round ((N : ℝ) ^ (1 / (d : ℝ)))).toNat

/-- `grid` (kpaths.py 276-279) for `N` points. -/
noncomputable def gridShape (N : ℕ) (grid : Option (Fin d → ℕ)) : Fin d → ℕ :=
  match grid with
  | some n => n
  | none => fun _ => defaultGrid d N

/-- The part of `interpolate` after the completion by symmetry (kpaths.py 276-325). -/
noncomputable def interpolateGrid [FloorRing K] (R : Rgi K d B) (κ : K → K) (data : List (Vec K d × (Fin B → K))) (periodic : Bool)
    (grid : Option (Fin d → ℕ)) : Except Err (Vec K d → Except Err (Fin B → K)) :=
  let n := gridShape data.length grid
  if ∏ i, n i ≠ data.length then .error .assertionError
  else
    let g := reshapeGrid n (sortGrid κ Prod.fst data)
    let g := if periodic then (List.finRange d).foldl GridData.extend g else g
    if 3 < d then .error .valueError
    else match R.make g.axis g.v with
    | .error e => .error e
    | .ok f => .ok (if periodic then fun k => f fun i => wrapCell (k i) else f)

/-- `interpolate` (kpaths.py 252-325). -/
noncomputable def interpolate [FloorRing K] (R : Rgi K d B) (κ : K → K) (ks : List (Vec K d)) (bands : List (Fin B → K)) (sym : Option (Sym K d))
    (periodic : Bool) (grid : Option (Fin d → ℕ)) : Except Err (Vec K d → Except Err (Fin B → K)) :=
  if ks = [] ∨ ks.length ≠ bands.length then .error .assertionError
  else match sym with
  | none => interpolateGrid R κ (ks.zip bands) periodic grid
  | some σ => match σ.realizeAverage κ periodic ks bands with
    | .error e => .error e
    | .ok data => interpolateGrid R κ data periodic grid

/-! ## `interpolate_unstructured` -/

/-- `interpolate_unstructured` (kpaths.py 331-346) for one point.  `near` is `KDTree.query` with the upper bound: the index of a nearest point, `none`
for a missing neighbour, which scipy reports as index `len(k_smpl)`.  A row of `nan` is `none`. -/
def interpolateUnstructured [FloorRing K] (near : List (Vec K d) → K → Vec K d → Option ℕ) (κ : K → K) (ks : List (Vec K d))
    (bands : List (Fin B → K)) (sym : Option (Sym K d)) (maxError : K) : Except Err (Vec K d → Except Err (Option (Fin B → K))) :=
  let start : Except Err (List (Vec K d × ℕ)) := match sym with
    | none => if ks.isEmpty then .error .indexError else .ok ks.zipIdx
    | some σ => σ.realize κ false ks
  match start with
  | .error e => .error e
  | .ok l =>
    let pts := l.map Prod.fst
    -- line 336: `data[order]`, only with a symmetry
    match (if sym.isSome then l.mapM fun p => bands[p.2]? else some bands) with
    | none => .error .indexError
    | some rows =>
      if rows = [] then .error .indexError
      else .ok fun k =>
        match (rows.map some ++ [none])[(near pts maxError k).getD pts.length]? with
        | some r => .ok r
        | none => .error .indexError

end TB

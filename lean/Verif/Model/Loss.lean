import Mathlib.Analysis.Real.Sqrt
import Mathlib.Algebra.BigOperators.Intervals
import Verif.Model.Err

/-!
# Model of `loss.py`

A two dimensional array is its shape and a function giving the entries; entries outside the shape are never used.
`band_offset` is not negative here.  `float("inf")` is `none`.
-/

namespace TB

/-- A two dimensional array of energies: one row per k point, one column per band. -/
structure Tab where
  rows : ℕ
  cols : ℕ
  get : ℕ → ℕ → ℝ

/-- Square of `np.linalg.norm` of an array. -/
def Tab.sq (t : Tab) : ℝ := ∑ i ∈ Finset.range t.rows, ∑ j ∈ Finset.range t.cols, t.get i j ^ 2

/-- `np.linalg.norm`. -/
noncomputable def Tab.norm (t : Tab) : ℝ := Real.sqrt t.sq

/-- `a - b` for arrays with the same number of rows, with the broadcasting rule of numpy for the columns. -/
def Tab.sub (a b : Tab) : Except Err Tab :=
  if a.cols = b.cols then .ok ⟨a.rows, a.cols, fun i j => a.get i j - b.get i j⟩
  else if a.cols = 1 then .ok ⟨a.rows, b.cols, fun i j => a.get i 0 - b.get i j⟩
  else if b.cols = 1 then .ok ⟨a.rows, a.cols, fun i j => a.get i j - b.get i 0⟩
  else .error .valueError

/-- `a[:, o:]` -/
def Tab.dropCols (a : Tab) (o : ℕ) : Tab := ⟨a.rows, a.cols - o, fun i j => a.get i (j + o)⟩
/-- `a[:, :c]` -/
def Tab.takeCols (a : Tab) (c : ℕ) : Tab := ⟨a.rows, min a.cols c, a.get⟩

/-- `err * np.reshape(band_weights, (1, -1))` when the number of weights is the number of columns or the
array has no columns and there is one weight. -/
def Tab.weight (a : Tab) (w : List ℝ) : Tab := ⟨a.rows, a.cols, fun i j => a.get i j * w.getD j 0⟩

/-- The assertions of `model_error` and `model_loss` (loss.py 10-13, 24-27). -/
def lossAsserts (bands ref : Tab) (w : List ℝ) : Except Err Unit :=
  if bands.rows ≠ ref.rows then .error .assertionError
  else if ref.rows = 0 then .error .indexError
  else if w.length ≠ ref.cols then .error .assertionError
  else .ok ()

/-- `np.max(np.abs(err), axis=0)` for an array with at least one row. -/
noncomputable def Tab.maxAbs (a : Tab) : List ℝ :=
  (List.range a.cols).map fun j => ((List.range a.rows).map fun i => |a.get i j|).foldl max 0

/-- `model_error` (loss.py 5-17). -/
noncomputable def modelError (bands ref : Tab) (w : List ℝ) (off : ℕ) : Except Err (ℝ × List ℝ) := do
  lossAsserts bands ref w
  let err ← ((bands.dropCols off).takeCols ref.cols).sub ref
  let maxErr := err.maxAbs
  let err := err.weight w
  return (err.norm / Real.sqrt bands.rows, maxErr)

/-- `model_loss` (loss.py 19-30). -/
noncomputable def modelLoss (bands ref : Tab) (w : List ℝ) (off : ℕ) : Except Err ℝ := do
  lossAsserts bands ref w
  let err ← ((bands.dropCols off).takeCols ref.cols).sub ref
  return (err.weight w).norm / Real.sqrt bands.rows

/-- `min(cost, x)` with `none` for infinity. -/
noncomputable def minInf (c : Option ℝ) (x : ℝ) : Option ℝ :=
  match c with
  | none => some x
  | some y => some (min y x)

open Classical in
/-- The masked difference of `model_windowed_loss` for offset `i` (loss.py 60-64). -/
noncomputable def windowDiff (bands ref : Tab) (lo hi : ℝ) (i : ℕ) : Tab :=
  let cmp := min bands.cols ref.cols
  if bands.cols < ref.cols then
    ⟨bands.rows, cmp, fun r j => (ref.get r (i + j) - bands.get r j) *
      (if lo ≤ ref.get r (i + j) ∧ ref.get r (i + j) ≤ hi then 1 else 0)⟩
  else
    ⟨bands.rows, cmp, fun r j => (ref.get r j - bands.get r (i + j)) *
      (if lo ≤ ref.get r j ∧ ref.get r j ≤ hi then 1 else 0)⟩

/-- `model_windowed_loss(..., allow_skipped_bands=False)` (loss.py 42-44, 53-66). -/
noncomputable def modelWindowedLoss (bands ref : Tab) (lo hi : ℝ) : Except Err (Option ℝ) :=
  if bands.rows ≠ ref.rows then .error .assertionError
  else if bands.rows = 0 then .error .indexError
  else
    let cmp := min bands.cols ref.cols
    let maxOffset := max bands.cols ref.cols - cmp
    let cost := (List.range maxOffset).foldl (fun c i => minInf c (windowDiff bands ref lo hi i).norm) none
    .ok (cost.map fun c => c / Real.sqrt bands.rows)

open Classical in
/-- `ref_bands[i][select]` (loss.py 48-49): the reference energies of row `i` inside the window. -/
noncomputable def selected (ref : Tab) (lo hi : ℝ) (i : ℕ) : List ℝ :=
  ((List.range ref.cols).map (ref.get i)).filter fun e => decide (lo ≤ e ∧ e ≤ hi)

/-- The cost matrix of line 49 for one k point, as a function. -/
def costMatrix (sel bands : List ℝ) (r c : ℕ) : ℝ := (sel.getD r 0 - bands.getD c 0) ^ 2

/-- `model_windowed_loss(..., allow_skipped_bands=True)` (loss.py 42-52).  `lsa m n c` are the pairs of row and column
returned by `scipy.optimize.linear_sum_assignment` for the `m × n` matrix `c` (contract `Spec.IsAssignment`). -/
noncomputable def modelSkippedLoss (lsa : ℕ → ℕ → (ℕ → ℕ → ℝ) → List (ℕ × ℕ)) (bands ref : Tab) (lo hi : ℝ) :
    Except Err ℝ :=
  if bands.rows ≠ ref.rows then .error .assertionError
  else if bands.rows = 0 then .error .zeroDivision
  else
    let cost := (List.range bands.rows).foldl (fun cost i =>
      let sel := selected ref lo hi i
      let row := (List.range bands.cols).map (bands.get i)
      let cm := costMatrix sel row
      cost + ((lsa sel.length row.length cm).map fun p => cm p.1 p.2).sum) 0
    .ok (Real.sqrt (cost / bands.rows))

/-- The entries of an array, row by row. -/
def Tab.entries (t : Tab) : List ℝ := (List.range t.rows).flatMap fun i => (List.range t.cols).map (t.get i)

/-- `np.min` and `np.max` of an array; they raise `ValueError` on an empty one. -/
noncomputable def Tab.min (t : Tab) : Except Err ℝ :=
  match t.entries with
  | [] => .error .valueError
  | e :: es => .ok (es.foldl Min.min e)
@[inherit_doc Tab.min]
noncomputable def Tab.max (t : Tab) : Except Err ℝ :=
  match t.entries with
  | [] => .error .valueError
  | e :: es => .ok (es.foldl Max.max e)

/-- `np.linspace(lo, hi, N)` for `N ≥ 2`. -/
noncomputable def linspace (lo hi : ℝ) (N : ℕ) : List ℝ := (List.range N).map fun i : ℕ => lo + (i : ℝ) * ((hi - lo) / (N - 1))

/-- The difference for offset `i` (loss.py 102-105). -/
def offsetDiff (bands ref : Tab) (i : ℕ) : Tab :=
  let cmp := Min.min bands.cols ref.cols
  if bands.cols < ref.cols then ⟨bands.rows, cmp, fun r j => ref.get r (i + j) - bands.get r j⟩
  else ⟨bands.rows, cmp, fun r j => ref.get r j - bands.get r (i + j)⟩

open Classical in
/-- The loop of `model_error_hist` (loss.py 101-111): the current best offset with its cost, `none` before the first. -/
noncomputable def bestOffset (bands ref : Tab) (D : ℕ) : Option (ℕ × ℝ) :=
  (List.range D).foldl (fun best i =>
    let c := (offsetDiff bands ref i).norm
    match best with
    | none => some (i, c)
    | some (_, c0) => if c < c0 then some (i, c) else best) none

open Classical in
/-- `model_error_hist(..., allow_skipped_bands=False)` (loss.py 68-72, 79-83, 95-112).  For equal band counts `error` stays
`None` and line 112 raises `TypeError`.  `bin_centers[1]` raises `IndexError` for fewer than two bins. -/
noncomputable def modelErrorHist (bands ref : Tab) (N : ℕ) : Except Err (List ℝ × List ℝ) := do
  if bands.rows ≠ ref.rows then throw .assertionError
  let rlo ← ref.min
  let blo ← bands.min
  let rhi ← ref.max
  let bhi ← bands.max
  if N < 2 then throw .indexError
  let centers := linspace (Max.max rlo blo) (Min.min rhi bhi) N
  let h := centers.getD 1 0 - centers.getD 0 0
  match bestOffset bands ref (Max.max bands.cols ref.cols - Min.min bands.cols ref.cols) with
  | none => throw .typeError
  | some (i, _) =>
    let diff := offsetDiff bands ref i
    let pairs := (List.range diff.rows).flatMap fun r => (List.range diff.cols).map fun j =>
      (ref.get r (if bands.cols < ref.cols then i + j else j), |diff.get r j|)
    return (centers, centers.map fun e =>
      ((pairs.filter fun p => decide (|p.1 - e| ≤ h / 2)).map Prod.snd).foldl Max.max 0)

end TB

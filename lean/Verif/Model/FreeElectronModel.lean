import Mathlib.Analysis.SpecialFunctions.Trigonometric.Basic
import Mathlib.Data.Fin.VecNotation
import Verif.Model.Supercell

/-!
# Model of `free_electron_model_orthogonal` (tight_binding_asym.py 893-928)

`neighbor_count` and `bands_per_direction` are natural numbers, the lattice constants exact real numbers.
-/

namespace TB
open Matrix

/-- `neighbors` (tight_binding_asym.py 908); `N` is `(neighbor_count+1)*bands_per_direction`. -/
def feNeighbors (a b c : ℝ) (N : ℕ) : List (RVec 3) :=
  0 :: (List.range' 1 (N - 1)).flatMap fun n : ℕ => [![a * n, 0, 0], ![0, b * n, 0], ![0, 0, c * n]]

/-- The three `if`s in the loop of lines 910-916. -/
noncomputable def feCoeff (a b c : ℝ) (n : RVec 3) : ℝ :=
  (if n 0 ≠ 0 ∧ n 1 = 0 ∧ n 2 = 0 then 2 * (-1 : ℝ) ^ round (n 0 / a) / n 0 ^ 2 else 0) +
  (if n 0 = 0 ∧ n 1 ≠ 0 ∧ n 2 = 0 then 2 * (-1 : ℝ) ^ round (n 1 / b) / n 1 ^ 2 else 0) +
  (if n 0 = 0 ∧ n 1 = 0 ∧ n 2 ≠ 0 then 2 * (-1 : ℝ) ^ round (n 2 / c) / n 2 ^ 2 else 0)

/-- The one by one matrix `[[z]]`. -/
def scal (z : ℂ) : CMat 1 := Matrix.of fun _ _ => z

/-- `H_r` (tight_binding_asym.py 909-917): one by one matrices, the first one is replaced. -/
noncomputable def feMatrices (a b c : ℝ) (N : ℕ) : List (CMat 1) :=
  (feNeighbors a b c N).mapIdx fun i n =>
    if i = 0 then scal ((Real.pi ^ 2 * (1 / a ^ 2 + 1 / b ^ 2 + 1 / c ^ 2) / 3 : ℝ) : ℂ)
    else scal (feCoeff a b c n : ℂ)

/-- `x /= f` for the array of neighbours (line 923). -/
noncomputable def Series.divNeighbors {d n : ℕ} (s : Series d n) (f : ℝ) : Series d n :=
  ⟨s.terms.map fun t => (fun i => t.1 i / f, t.2)⟩

/-- Lines 908-924: everything before `limit_neighbor_count`.  A lattice constant zero raises `ZeroDivisionError` in
line 917. -/
noncomputable def freeElectronFull (a b c : ℝ) (neighborCount bands : ℕ) : Except Err ((N : ℕ) × Tb 3 N) :=
  let N := (neighborCount + 1) * bands
  open Classical in
  if a = 0 ∨ b = 0 ∨ c = 0 then .error .zeroDivision
  else
    match mkSeries (feNeighbors a b c N) (feMatrices a b c N) with
    | .error e => .error e
    | .ok H =>
      match mkTb H with
      | .error e => .error e
      | .ok model =>
        match (model.mul (1 / (2 * Real.pi) ^ 2)).supercell (Matrix.diagonal ![a, b, c])
            ((bands : ℝ) • Matrix.diagonal ![a, b, c]) with
        | .error e => .error e
        | .ok r => .ok ⟨r.1, (⟨r.2.H.divNeighbors bands, r.2.S⟩ : Tb 3 r.1).mul ((bands : ℝ) ^ 2)⟩

/-- `free_electron_model_orthogonal` (tight_binding_asym.py 893-928), first component of the result.  `sort` is the
sorting of `limit_neighbor_count`. -/
noncomputable def freeElectron (sort : ∀ n, List (RVec 3 × CMat n) → List (RVec 3 × CMat n)) (a b c : ℝ)
    (neighborCount bands : ℕ) : Except Err ((N : ℕ) × Tb 3 N) :=
  match freeElectronFull a b c neighborCount bands with
  | .error e => .error e
  | .ok r => .ok ⟨r.1, ⟨(r.2.H.limitCount (sort r.1) ((neighborCount * 3 + 1 : ℕ) : ℤ)).1, r.2.S⟩⟩

end TB

import Mathlib.Analysis.Complex.Basic
import Verif.Model.Fourier
import Verif.Model.BandStructure

/-!
# Model of the start models from reference data: `init_from_ref`

`AsymTightBindingModel.init_from_ref` (tight_binding_asym.py 228-249), `BandStructureModel.init_from_ref` (bandstructure.py
132-148) and `BandStructureModel.init_tight_binding_from_ref` (117-130).  The numbers drawn by `np.random.random` are
arguments: `rnd i` are the two arrays drawn for the matrix number `i + 1`.  `k_smpl` and `ref_bands` are lists of rows; an
empty `k_smpl` is an empty list or an array of shape `(0,)` (an empty array of shape `(0, dim)` raises `ValueError` in
`np.argmin` where this model has `IndexError`).
-/

namespace TB.InitRef
open Matrix TB

variable {d e n : ℕ}

/-- `h = (a * 2 - 1) + 1j * (2 * b - 1)` (linalg.py 61) with the arrays `a`, `b` drawn by `np.random.random`. -/
noncomputable def randomPart (a b : Matrix (Fin n) (Fin n) ℝ) : CMat n :=
  Matrix.of fun i j => ((a i j * 2 - 1 : ℝ) : ℂ) + ((2 * b i j - 1 : ℝ) : ℂ) * Complex.I

/-- `random_hermitian(n)` (linalg.py 60-62). -/
noncomputable def randomHermitian (a b : Matrix (Fin n) (Fin n) ℝ) : CMat n := randomPart a b + (randomPart a b)ᴴ

/-- `l[i]`. -/
def fetch {A : Type} : Option A → Except Err A
  | none => .error .indexError
  | some a => .ok a

open Classical in
/-- `np.argmin`: the position of the first smallest entry. -/
noncomputable def argmin (l : List ℝ) : ℕ := l.findIdx fun x => decide (∀ y ∈ l, x ≤ y)

open Classical in
/-- `k0_index = np.argmin(norm(k_smpl)); assert norm(k_smpl[k0_index]) == 0; k0_bands = ref_bands[k0_index]`
(tight_binding_asym.py 236-238, bandstructure.py 134-136). -/
noncomputable def zeroRow {A : Type} (ks : List (RVec e)) (ref : List A) : Except Err A :=
  match ks[argmin (ks.map vnorm)]? with
  | none => .error .indexError
  | some k =>
    if vnorm k ≠ 0 then .error .assertionError
    else fetch ref[argmin (ks.map vnorm)]?

/-- `H_r` (tight_binding_asym.py 242-243). -/
noncomputable def asymHr (m : ℕ) (row : Fin n → ℝ) (rnd : ℕ → Matrix (Fin n) (Fin n) ℝ × Matrix (Fin n) (Fin n) ℝ) : List (CMat n) :=
  let scale : ℝ := ((⨆ i, row i) - ⨅ i, row i) * (1 / 1000)
  (diagonal fun i => (row i : ℂ)) :: (List.range (m - 1)).map fun i => (scale : ℂ) • randomHermitian (rnd i).1 (rnd i).2

/-- The model before `normalize` (tight_binding_asym.py 244-247). -/
noncomputable def asymTb (N : List (RVec d)) (Hr : List (CMat n)) (useS : Bool) : Except Err (Tb d n) := do
  let H ← mkSeries N Hr
  if useS then
    let S ← Series.unitMatrix N n
    return ⟨H, S⟩
  else mkTb H

/-- `AsymTightBindingModel.init_from_ref` for the start values `row` at `k = 0` (tight_binding_asym.py 239-249). `np.max` of an
empty array raises `ValueError`. -/
noncomputable def asymBuild (eigh : CMat n → (Fin n → ℝ) × CMat n) (sorting : CMat n → Equiv.Perm (Fin n)) (N : List (RVec d))
    (row : Fin n → ℝ) (useS : Bool) (rnd : ℕ → Matrix (Fin n) (Fin n) ℝ × Matrix (Fin n) (Fin n) ℝ) : Except Err (Tb d n) :=
  if n = 0 then .error .valueError
  else do
    let t ← asymTb N (asymHr N.length row rnd) useS
    t.normalize eigh sorting

open Classical in
/-- `AsymTightBindingModel.init_from_ref` (tight_binding_asym.py 228-249). -/
noncomputable def asymInit (eigh : CMat n → (Fin n → ℝ) × CMat n) (sorting : CMat n → Equiv.Perm (Fin n)) (N : List (RVec d))
    (ks : List (RVec e)) (ref : List (Fin n → ℝ)) (useS : Bool)
    (rnd : ℕ → Matrix (Fin n) (Fin n) ℝ × Matrix (Fin n) (Fin n) ℝ) : Except Err (Tb d n) :=
  match ks, N with
  | [], _ => .error .indexError
  | _, [] => .error .indexError
  | _, r0 :: _ =>
    if e ≠ d then .error .assertionError
    else if vnorm r0 ≠ 0 then .error .assertionError
    else do
      let row ← zeroRow ks ref
      asymBuild eigh sorting N row useS rnd

/-- `np.concatenate([[k0_bands[0]] * left_pad, k0_bands, [k0_bands[-1]] * right_pad])` (bandstructure.py 137-140); a list
times a negative number is empty. -/
def pad (row : List ℝ) (bandOffset addBands : ℤ) : Except Err (List ℝ) :=
  match row.head?, row.getLast? with
  | some a, some b => .ok (List.replicate bandOffset.toNat a ++ row ++ List.replicate (addBands - bandOffset).toNat b)
  | _, _ => .error .indexError

/-- `BandStructureModel.init_from_ref` (bandstructure.py 132-148): number of bands and model. -/
noncomputable def bsInit (c : BS.Coeff d) (paramCount : ℕ) (ks : List (RVec e)) (ref : List (List ℝ)) (bandOffset addBands : ℤ)
    (rnd : (n : ℕ) → ℕ → Matrix (Fin n) (Fin n) ℝ × Matrix (Fin n) (Fin n) ℝ) : Except Err ((n : ℕ) × BS.BSM d n) := do
  let row ← zeroRow ks ref
  let p ← pad row bandOffset addBands
  return ⟨p.length, c, diagonal fun i => (p.get i : ℂ),
    (List.range (paramCount - 1)).map fun i => ((1 / 1000 : ℝ) : ℂ) • randomHermitian (rnd p.length i).1 (rnd p.length i).2, none⟩

/-- `BandStructureModel.init_tight_binding_from_ref` (bandstructure.py 117-130); the attributes `sym`, `neighbors`,
`cos_reduced`, `exp` are the data `t` of the coefficient functions. -/
noncomputable def bsInitTb (t : BS.TBData d) (ks : List (RVec e)) (ref : List (List ℝ)) (bandOffset addBands : ℤ)
    (rnd : (n : ℕ) → ℕ → Matrix (Fin n) (Fin n) ℝ × Matrix (Fin n) (Fin n) ℝ) : Except Err ((n : ℕ) × BS.BSM d n) :=
  bsInit (.tb t) t.termCount.toNat ks ref bandOffset addBands rnd

end TB.InitRef

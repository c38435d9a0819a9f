import Mathlib.Analysis.SpecialFunctions.Trigonometric.Basic
import Mathlib.LinearAlgebra.Matrix.ConjTranspose
import Mathlib.LinearAlgebra.Matrix.Determinant.Basic
import Mathlib.LinearAlgebra.Matrix.NonsingularInverse
import Verif.Model.Fourier

/-!
# Model of `bandstructure.py`: `BandStructureModel`

Numbers are exact real and complex numbers; the dimension `d` and the number of bands `n` are type parameters, so the
shape assertions of `__init__` (lines 77-79) hold by construction.  The array `params`, which is never empty (line 80),
is stored as its first matrix `P0` and the list `Ps` of the others.  The coefficient functions of a default tight
binding model read the array `neighbors` of the object (they are closures linked to it), so they are computed from the
current data instead of being stored.  That copies of a model share this array is modelled in `Sharing.lean`.
Every method is modelled for one k point; the code treats the points of an array of k points independently.
Not modelled in this file: the optimisers (`Descent.lean`), `randomize` and the printing methods (`Randomize.lean`), files (`Files.lean`); plotting is not modelled at all.
-/

namespace TB.BS
open Matrix TB

variable {d n m : ℕ}

/-- The data of a default tight binding model: `sym.S`, `sym.inversion`, `neighbors`, `cos_reduced`, `exp`
(bandstructure.py 113-117). -/
structure TBData (d : ℕ) where
  S : List (Matrix (Fin d) (Fin d) ℝ)
  inversion : Bool
  neighbors : List (RVec d)
  cosReduced : Bool
  exp : Bool

/-- `coeff_funcs[part](x)` (bandstructure.py 929-947). Only `part = 0`, and `part = 1` in the last case, exist; others
are not reached as `params` has `term_count` matrices. -/
noncomputable def TBData.func (t : TBData d) (part : ℕ) (x : ℝ) : ℂ :=
  if t.exp then
    if t.cosReduced then Complex.exp (Complex.I * x) - 1 else Complex.exp (Complex.I * x)
  else if t.inversion then
    if t.cosReduced then Real.cos x - 1 else Real.cos x
  else if part = 0 then
    if t.cosReduced then Real.cos x - 1 else Real.cos x
  else Real.sin x

/-- `coeff_dfuncs[part](x)` (bandstructure.py 933, 938, 943). -/
noncomputable def TBData.dfunc (t : TBData d) (part : ℕ) (x : ℝ) : ℂ :=
  if t.exp then Complex.I * Complex.exp (Complex.I * x)
  else if t.inversion then -(Real.sin x : ℂ)
  else if part = 0 then -(Real.sin x : ℂ)
  else Real.cos x

/-- `coeff_neg_ddfuncs[part](x)` (bandstructure.py 934, 939, 944). -/
noncomputable def TBData.negddfunc (t : TBData d) (part : ℕ) (x : ℝ) : ℂ :=
  if t.exp then Complex.exp (Complex.I * x)
  else if t.inversion then Real.cos x
  else if part = 0 then Real.cos x
  else Real.sin x

/-- `neighbors[i % len(neighbors) + part]` (bandstructure.py 955-956, 970-971, 984-985). The index is in range for
`i < term_count`. -/
noncomputable def TBData.rOrig (t : TBData d) (i : ℕ) : RVec d :=
  t.neighbors.getD (i % t.neighbors.length + i / t.neighbors.length) 0

/-- `f_i_sym` (bandstructure.py 949-961). -/
noncomputable def TBData.fi (t : TBData d) (k : RVec d) (i : ℕ) : ℂ :=
  if i = 0 then 1
  else t.S.foldl (fun res s =>
    res + t.func (i / t.neighbors.length) (2 * Real.pi * (k ⬝ᵥ s.mulVec (t.rOrig i)))) 0

/-- `df_i_sym` (bandstructure.py 964-976), component `a`. -/
noncomputable def TBData.dfi (t : TBData d) (k : RVec d) (i : ℕ) (a : Fin d) : ℂ :=
  if i = 0 then 0
  else t.S.foldl (fun res s =>
    res + t.dfunc (i / t.neighbors.length) (2 * Real.pi * (k ⬝ᵥ s.mulVec (t.rOrig i))) *
      (s.mulVec (t.rOrig i) a : ℝ)) 0 * (2 * Real.pi : ℝ)

/-- `ddf_i_sym` (bandstructure.py 979-992), components `a`, `b`. -/
noncomputable def TBData.ddfi (t : TBData d) (k : RVec d) (i : ℕ) (a b : Fin d) : ℂ :=
  if i = 0 then 0
  else t.S.foldl (fun res s =>
    res - t.negddfunc (i / t.neighbors.length) (2 * Real.pi * (k ⬝ᵥ s.mulVec (t.rOrig i))) *
      ((s.mulVec (t.rOrig i) a * s.mulVec (t.rOrig i) b : ℝ) : ℂ)) 0 * ((2 * Real.pi) ^ 2 : ℝ)

/-- Where the coefficient functions come from: given by the user (lines 58-70) or `_get_tight_binding_coeff_funcs`. -/
inductive Coeff (d : ℕ) where
  | custom (fi : RVec d → ℕ → ℂ) (dfi : RVec d → ℕ → Fin d → ℂ) (ddfi : Option (RVec d → ℕ → Fin d → Fin d → ℂ))
  | tb (data : TBData d)

/-- `self.f_i`. -/
noncomputable def Coeff.fi : Coeff d → RVec d → ℕ → ℂ
  | .custom f _ _ => f
  | .tb t => t.fi
/-- `self.df_i`. -/
noncomputable def Coeff.dfi : Coeff d → RVec d → ℕ → Fin d → ℂ
  | .custom _ f _ => f
  | .tb t => t.dfi
/-- `self.ddf_i`. -/
noncomputable def Coeff.ddfi : Coeff d → Option (RVec d → ℕ → Fin d → Fin d → ℂ)
  | .custom _ _ f => f
  | .tb t => some t.ddfi

/-- Object state of `BandStructureModel` (bandstructure.py 67-76). -/
structure BSM (d n : ℕ) where
  coeff : Coeff d
  P0 : CMat n
  Ps : List (CMat n)
  symmetrizer : Option (CMat n × List (CMat n) → CMat n × List (CMat n)) := none

/-- `self.params` as a list. -/
def BSM.params (b : BSM d n) : List (CMat n) := b.P0 :: b.Ps

/-- `_get_tight_binding_coeff_funcs`: `term_count` (bandstructure.py 935, 940, 945). -/
def TBData.termCount (t : TBData d) : ℤ :=
  if t.exp then t.neighbors.length
  else if t.inversion then t.neighbors.length
  else t.neighbors.length * 2 - 1

/-- `init_tight_binding` (bandstructure.py 104-118): zero matrices. A negative `term_count` makes `np.zeros` raise
`ValueError`, zero fails the assertion of line 80. -/
noncomputable def init (t : TBData d) (n : ℕ) : Except Err (BSM d n) :=
  if t.termCount < 0 then .error .valueError
  else if t.termCount = 0 then .error .assertionError
  else .ok ⟨.tb t, 0, List.replicate (t.termCount.toNat - 1) 0, none⟩

/-- The common shape of `f`, `df`, `ddf` (bandstructure.py 166-172, 183-188, 200-205): sum the matrices after the first
one with the coefficients `c i`, add the adjoint, add the first matrix. -/
noncomputable def BSM.hsum (b : BSM d n) (c : ℕ → ℂ) : CMat n :=
  let mat := ∑ i ∈ Finset.range b.Ps.length, c (i + 1) • b.Ps.getD i 0
  mat + matᴴ + c 0 • b.P0

/-- `f` (bandstructure.py 158-172). -/
noncomputable def BSM.f (b : BSM d n) (k : RVec d) : CMat n := b.hsum (b.coeff.fi k)

/-- `df` (bandstructure.py 174-188), component `a`. -/
noncomputable def BSM.df (b : BSM d n) (k : RVec d) (a : Fin d) : CMat n := b.hsum fun i => b.coeff.dfi k i a

/-- `ddf` (bandstructure.py 190-205), components `a`, `b`. -/
noncomputable def BSM.ddf (b : BSM d n) (k : RVec d) (a a' : Fin d) : Except Err (CMat n) :=
  match b.coeff.ddfi with
  | none => .error .assertionError
  | some g => .ok (b.hsum fun i => g k i a a')

/-- `P + np.conj(np.swapaxes(P, -1, -2))`. -/
def plusAdj (P : CMat n) : CMat n := P + Pᴴ

/-- `params_complex` (bandstructure.py 594-623). -/
noncomputable def BSM.paramsComplex (b : BSM d n) : Except Err (List (CMat n)) :=
  match b.coeff with
  | .custom _ _ _ => .error .valueError
  | .tb t =>
    if t.exp then
      .ok ((if t.cosReduced then b.P0 - (b.Ps.map plusAdj).sum else b.P0) :: b.Ps)
    else if t.inversion = false then
      -- `params[1:n]` and `params[n:]` of `params = P0 :: Ps`
      let c := (b.params.length + 1) / 2
      let A := b.Ps.take (c - 1)
      let B := b.Ps.drop (c - 1)
      -- arrays of different length do not broadcast
      if A.length ≠ B.length ∧ A.length ≠ 1 ∧ B.length ≠ 1 then .error .valueError
      else .ok ((if t.cosReduced then b.P0 - (A.map plusAdj).sum else b.P0) ::
        List.zipWith (fun a b => a + (-Complex.I) • b) A B)
    else
      .ok ((if t.cosReduced then b.P0 - (b.Ps.map plusAdj).sum else b.P0) :: b.Ps)

/-- `set_params_complex` (bandstructure.py 625-653). An empty `H_r` for an empty neighbour list cannot be reached, as
such a model is not constructed; it raises `IndexError` when `params[0]` is used. -/
noncomputable def BSM.setParamsComplex (b : BSM d n) (H : List (CMat n)) : BSM d n × Except Err Unit :=
  match b.coeff with
  | .custom _ _ _ => (b, .error .valueError)
  | .tb t =>
    if H.length ≠ t.neighbors.length then (b, .error .valueError)
    else match H with
    | [] => (b, .error .indexError)
    | H0 :: Hs =>
      if t.exp then
        ({ b with P0 := if t.cosReduced then H0 + (Hs.map plusAdj).sum else H0, Ps := Hs }, .ok ())
      else
        let A0 : CMat n := (1 / 2 : ℂ) • plusAdj H0
        let A : List (CMat n) := Hs.map fun X => (1 / 2 : ℂ) • plusAdj X
        let P0 := if t.cosReduced then A0 + (2 : ℂ) • A.sum else A0
        if t.inversion = false then
          let B : List (CMat n) := Hs.map fun X => (1 / 2 : ℂ) • (Complex.I • (X - Xᴴ))
          ({ b with P0 := P0, Ps := A ++ B }, .ok ())
        else ({ b with P0 := P0, Ps := A }, .ok ())

/-- `save(format="python")` followed by `load` (bandstructure.py 693-697, 723-732): the coefficients, neighbours,
symmetry matrices and inversion flag are written with `repr` and read with `eval` (taken to be the identity); the
options are always `cos_reduced=True, exp=False`. -/
noncomputable def BSM.saveLoadPython (b : BSM d n) : Except Err (BSM d n) := do
  let H ← b.paramsComplex
  match b.coeff with
  | .custom _ _ _ => .error .valueError
  | .tb t =>
    let b' ← init { t with cosReduced := true, exp := false } n
    let r := b'.setParamsComplex H
    let _ ← r.2
    return r.1

/-- `permute` (bandstructure.py 588-592); `order` is an index array of length `n`. -/
def BSM.permute (b : BSM d n) (order : Fin n → Fin n) : BSM d n :=
  { b with P0 := b.P0.submatrix order order, Ps := b.Ps.map fun P => P.submatrix order order }

/-- `transform` (bandstructure.py 809-821). -/
noncomputable def BSM.transform (b : BSM d n) (A : Matrix (Fin d) (Fin d) ℝ) : BSM d n × Except Err Unit :=
  match b.coeff with
  | .custom _ _ _ => (b, .error .valueError)
  | .tb t => ({ b with coeff := .tb { t with neighbors := t.neighbors.map fun r => A.mulVec r } }, .ok ())

/-- `__add__` with a number (bandstructure.py 897-901). -/
noncomputable def BSM.shift (b : BSM d n) (c : ℝ) : BSM d n := { b with P0 := b.P0 + (c : ℂ) • 1 }

/-- `__mul__` (bandstructure.py 903-906). -/
noncomputable def BSM.mul (b : BSM d n) (c : ℝ) : BSM d n :=
  { b with P0 := (c : ℂ) • b.P0, Ps := b.Ps.map fun P => (c : ℂ) • P }

/-- `np.linalg.norm` of an array of positions. -/
noncomputable def listNorm (l : List (RVec d)) : ℝ := Real.sqrt (l.map fun r => ∑ a, r a ^ 2).sum

open Classical in
/-- `__add__` for two models (bandstructure.py 886-896). The options and neighbours are compared, the symmetries are
not; the result uses the coefficient functions of the first model. `self.neighbors - other.neighbors` raises
`ValueError` for different lengths (unless one of them is one, which is not modelled and reported as such an error,
too). `direct_sum` of arrays of different length raises `ValueError` (`np.broadcast_shapes`, linalg.py 19).
The result keeps the symmetrizer of the first model, whose matrices have the wrong size; this is not modelled. -/
noncomputable def BSM.add (b : BSM d n) (c : BSM d m) : Except Err (BSM d (n + m)) :=
  match b.coeff, c.coeff with
  | .tb t, .tb u =>
    if t.cosReduced ≠ u.cosReduced then .error .assertionError
    else if t.exp ≠ u.exp then .error .assertionError
    else if t.neighbors.length ≠ u.neighbors.length then .error .valueError
    else if ¬ listNorm (List.zipWith (· - ·) t.neighbors u.neighbors) < 1e-8 then .error .assertionError
    else if b.Ps.length ≠ c.Ps.length then .error .valueError
    else .ok ⟨.tb t, dsum b.P0 c.P0, List.zipWith (fun P Q => dsum P Q) b.Ps c.Ps, none⟩
  | _, _ => .error .assertionError

/-- One step of the loop of `normalize` (bandstructure.py 577-586) for the index `i`, `0 < i`: multiply column `i` of
every matrix by `sign` and row `i` by its conjugate. -/
def phaseCol (i : Fin n) (sign : ℂ) (P : CMat n) : CMat n := fun a b =>
  (if a = i then (starRingEnd ℂ) sign else 1) * ((if b = i then sign else 1) * P a b)

open Classical in
/-- The loop body of lines 578-586. `P1` is `params[1]`, `R` are the other matrices. -/
noncomputable def phaseStep (st : CMat n × List (CMat n)) (i : ℕ) : CMat n × List (CMat n) :=
  if h : 0 < i ∧ i < n then
    let p : Fin n := ⟨i - 1, by omega⟩
    let q : Fin n := ⟨i, h.2⟩
    let x := st.1 p q
    let a := ‖x‖
    if a > 1e-14 then
      let sign := (starRingEnd ℂ) x / a
      (phaseCol q sign st.1, st.2.map (phaseCol q sign))
    else (fun r c => if r = p ∧ c = q then 0 else st.1 r c, st.2)
  else st

/-- The condition of line 562: `exp is None or not exp or (sym is not None and sym.inversion)`. -/
def Coeff.needHerm : Coeff d → Bool
  | .custom _ _ _ => true
  | .tb t => !t.exp || t.inversion

/-- `normalize` (bandstructure.py 552-586). `eigh` is the library routine. -/
noncomputable def BSM.normalize (eigh : CMat n → (Fin n → ℝ) × CMat n) (b : BSM d n) : BSM d n :=
  match b.symmetrizer with
  | some s => { b with P0 := (s (b.P0, b.Ps)).1, Ps := (s (b.P0, b.Ps)).2 }
  | none =>
    let Ps := if b.coeff.needHerm then b.Ps.map fun P => (1 / 2 : ℂ) • plusAdj P else b.Ps
    let P0 := (1 / 2 : ℂ) • plusAdj b.P0
    let ev := (eigh P0).2
    let P0 := evᴴ * P0 * ev
    match Ps.map fun P => evᴴ * P * ev with
    | [] => { b with P0 := P0, Ps := [] }
    | P1 :: Q =>
      let st := ((List.range n).drop 1).foldl phaseStep (P1, P0 :: Q)
      match st with
      | (P1, P0 :: Q) => { b with P0 := P0, Ps := P1 :: Q }
      | (P1, []) => { b with Ps := [P1] }  -- not reached, the steps keep the length

/-- Element types of the arrays that users pass. -/
inductive DType | bool | int32 | int64 | float32 | float64 | complex64 | complex128
  deriving DecidableEq, Repr

/-- `np.result_type` of two element types. -/
def DType.promote : DType → DType → DType
  | .complex128, _ | _, .complex128 => .complex128
  | .complex64, .float64 | .float64, .complex64 | .complex64, .int64 | .int64, .complex64 | .complex64, .int32
  | .int32, .complex64 => .complex128
  | .complex64, _ | _, .complex64 => .complex64
  | .float64, _ | _, .float64 => .float64
  | .float32, .int64 | .int64, .float32 | .float32, .int32 | .int32, .float32 => .float64
  | .float32, _ | _, .float32 => .float32
  | .int64, _ | _, .int64 => .int64
  | .int32, _ | _, .int32 => .int32
  | .bool, .bool => .bool

/-- Element type of `np.linalg.inv` of an array. -/
def DType.inv : DType → DType
  | .float32 => .float32
  | .complex64 => .complex64
  | .complex128 => .complex128
  | _ => .float64

open Classical in
/-- `supercell` up to the assertion of line 857 (bandstructure.py 823-857); `dA`, `dA'` are the element types of the two
arrays. `matrix = np.linalg.inv(A_original) @ A_new`; `np.round` keeps the element type; the corners of the unit box have
type `int64` and are multiplied by `matrix`. The code after the assertion is `rest`. A singular `A_original` raises
`LinAlgError` (here `valueError`, its base class). -/
noncomputable def BSM.supercell {α : Type} (b : BSM d n) (dA dA' : DType) (A A' : Matrix (Fin d) (Fin d) ℝ) (rest : α) :
    Except Err α :=
  match b.coeff with
  | .custom _ _ _ => .error .valueError
  | .tb t =>
    if t.neighbors = [] then .error .indexError
    else if A.det = 0 then .error .valueError
    else if ¬ ∀ i j, |((A⁻¹ * A') i j) - round ((A⁻¹ * A') i j)| < 1e-7 then .error .assertionError
    else if t.S.length * (if t.inversion then 2 else 1) ≠ 1 then .error .assertionError
    else
      let matrix := DType.promote dA.inv dA'
      let box := DType.promote .int64 matrix
      if box ≠ .int64 then .error .assertionError
      else .ok rest

end TB.BS

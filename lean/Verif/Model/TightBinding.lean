import Mathlib.Analysis.SpecialFunctions.Trigonometric.Basic
import Mathlib.Analysis.Complex.Trigonometric
import Mathlib.Data.Real.Star
import Verif.Model.Fourier
import Verif.Model.EigGrad
import Verif.Model.UnitaryRep

/-!
# Model of `tight_binding.py`: class `TightBindingModel`

Numbers are exact.  The matrix size `n` of `unitary_repr.U` and `params` is part of the type, so the shape assertions of lines 38, 41 and 42 hold by
construction.  Every method is modelled for one k point.  The branches `if self.sym.inversion` of the methods are left out: the constructor
raises for every symmetry with inversion (`C105_constructor`).  `init_from_ref` is in `Model/TbmInitRef.lean`.  Not modelled: `copy_transformed` (it returns
`...`), arrays of integers or of real numbers as parameters, and the unreachable lines after `return` in `normalize`.
-/

namespace TB
open Matrix

variable {d n : ℕ}

/-- Object state of `TightBindingModel` (tight_binding.py 18-45). -/
structure TBM (d n : ℕ) where
  nbrs : List (RVec d)
  params : List (CMat n)
  symm : List (CMat n) → Except Err (List (CMat n))

open Classical in
/-- `TightBindingModel.__init__` (tight_binding.py 18-45).  With inversion, lines 33-34 use `self.params` before it is set.  `np.shape(U)[1]` of an
empty array raises `IndexError` (lines 37, 44). -/
noncomputable def mkTBM (ρ : UR.Rep ℝ ℂ d n) (nbrs : List (RVec d)) (params : Option (List (CMat n))) : Except Err (TBM d n) :=
  match nbrs with
  | [] => .error .assertionError
  | r0 :: _ =>
    if vnorm r0 ≠ 0 then .error .assertionError
    else match ρ.symmetrizer nbrs with
    | .error e => .error e
    | .ok symm =>
      if ρ.sym.inversion then .error .attributeError
      else if ρ.U = [] then .error .indexError
      else match params with
      | some P => if P.length = nbrs.length * 2 - 1 then .ok ⟨nbrs, P, symm⟩ else .error .assertionError
      | none => .ok ⟨nbrs, List.replicate (nbrs.length * 2 - 1) 0, symm⟩

/-- The choice of the neighbour and of cosine or sine in `f_i`, `df_i`, `ddf_i` (tight_binding.py 163-186, 189-213, 216-241): `one` is the value for
`i = 0`, `fc` and `fs` the functions `c` and `s` of the neighbour. -/
def TBM.pick (t : TBM d n) (one : ℂ) (fc fs : RVec d → ℂ) (i : ℕ) : Except Err ℂ :=
  if i = 0 then .ok one
  else
    let part := i / t.nbrs.length
    match t.nbrs[i % t.nbrs.length + part]? with
    | none => .error .indexError
    | some r => .ok (if i < t.nbrs.length then fc r else fs r)

/-- `2*np.pi * (k @ r)`. -/
noncomputable def phase (k r : RVec d) : ℝ := 2 * Real.pi * (k ⬝ᵥ r)

/-- `f_i` (tight_binding.py 163-186). -/
noncomputable def TBM.fi (t : TBM d n) (k : RVec d) (i : ℕ) : Except Err ℂ :=
  t.pick 1 (fun r => ((Real.cos (phase k r) - 1 : ℝ) : ℂ)) (fun r => ((Real.sin (phase k r) : ℝ) : ℂ)) i

/-- `df_i` (tight_binding.py 189-213), component `a`. -/
noncomputable def TBM.dfi (t : TBM d n) (k : RVec d) (a : Fin d) (i : ℕ) : Except Err ℂ :=
  t.pick 0 (fun r => ((-(2 * Real.pi * Real.sin (phase k r) * r a) : ℝ) : ℂ))
    (fun r => ((2 * Real.pi * Real.cos (phase k r) * r a : ℝ) : ℂ)) i

/-- `ddf_i` (tight_binding.py 216-241), components `a`, `b`. -/
noncomputable def TBM.ddfi (t : TBM d n) (k : RVec d) (a b : Fin d) (i : ℕ) : Except Err ℂ :=
  t.pick 0 (fun r => ((-(Real.cos (phase k r) * ((2 * Real.pi) ^ 2 * (r a * r b))) : ℝ) : ℂ))
    (fun r => ((-(Real.sin (phase k r) * ((2 * Real.pi) ^ 2 * (r a * r b))) : ℝ) : ℂ)) i

/-- One round of the loop of `f`, `df`, `ddf`. -/
noncomputable def msumStep (g : ℕ → Except Err ℂ) (mat : CMat n) (p : CMat n × ℕ) : Except Err (CMat n) :=
  match g p.2 with
  | .error e => .error e
  | .ok c => .ok (mat + c • p.1)

/-- The loop `mat += coefficient(i) * params[i]` of `f`, `df`, `ddf` (tight_binding.py 245-246, 257-259, 264-265, 276-278, 283-284, 295-297);
`self.params[0]` of no parameters raises `IndexError`. -/
noncomputable def TBM.msum (t : TBM d n) (g : ℕ → Except Err ℂ) : Except Err (CMat n) :=
  if t.params = [] then .error .indexError
  else t.params.zipIdx.foldlM (msumStep g) 0

/-- `f` (tight_binding.py 244-260). -/
noncomputable def TBM.f (t : TBM d n) (k : RVec d) : Except Err (CMat n) := t.msum (t.fi k)

/-- `df` (tight_binding.py 263-279), component `a`. -/
noncomputable def TBM.df (t : TBM d n) (k : RVec d) (a : Fin d) : Except Err (CMat n) := t.msum (t.dfi k a)

/-- `ddf` (tight_binding.py 282-298), components `a`, `b`. -/
noncomputable def TBM.ddf (t : TBM d n) (k : RVec d) (a b : Fin d) : Except Err (CMat n) := t.msum (t.ddfi k a b)

/-- `normalize` (tight_binding.py 398-402). -/
def TBM.normalize (t : TBM d n) : TBM d n × Except Err Unit :=
  match t.symm t.params with
  | .error e => (t, .error e)
  | .ok P => ({ t with params := P }, .ok ())

/-- `params_complex` (tight_binding.py 428-437).  The addition in place raises `ValueError` unless the shapes agree or the added array has
length one. -/
noncomputable def TBM.paramsComplex (t : TBM d n) : Except Err (List (CMat n)) :=
  let H : List (CMat n) := t.params.map fun P => (1 / 2 : ℂ) • P
  let c := (t.params.length + 1) / 2
  let old := H.drop 1
  let new := (H.drop c).map fun P => Complex.I • P
  if new.length = old.length then .ok ((H.take 1 ++ List.zipWith (· + ·) old new).take c)
  else match new with
  | [x] => .ok ((H.take 1 ++ old.map (· + x)).take c)
  | _ => .error .valueError

/-- `set_from_complex` (tight_binding.py 440-452).  For an empty list `np.swapaxes` raises `AxisError`, a `ValueError`, after `self.params` has been
assigned. -/
noncomputable def TBM.setFromComplex (t : TBM d n) (H : List (CMat n)) : TBM d n × Except Err Unit :=
  match H with
  | [] => ({ t with params := [] }, .error .valueError)
  | H0 :: Hs =>
    let half : CMat n → CMat n := fun X => (1 / 2 : ℂ) • X
    let A0 := half (H0 + H0ᴴ)
    let A := Hs.map fun X => half (X + Xᴴ)
    let B := Hs.map fun X => half (Complex.I • (X - Xᴴ))
    ({ t with params := (A0 + (2 : ℂ) • A.sum) :: (A ++ B).map fun X => (2 : ℂ) • X }, .ok ())

/-- `copy` (tight_binding.py 488-489): the bound method `self.df_i` is passed as list of neighbours, `len` of it raises `TypeError`. -/
def TBM.copy (_ : TBM d n) : Except Err (TBM d n) := .error .typeError

/-- Gradient entry of `bands_grad` and `bands_grad_hess` (tight_binding.py 462-466, 475-476) for the derivative `dH` of one variable; `ev` comes from
`np.linalg.eigh`. -/
def tbmGrad (ev dH : CMat n) (i : Fin n) : ℝ := (rot ev dH i i).re

/-- Hessian entry of `bands_grad_hess` (tight_binding.py 470-486) for two variables.  The summand `1e-40` of line 484 is dropped; the diagonal is zero
before the division (lines 480-481), so a quotient by zero occurs only for degenerate bands. -/
noncomputable def tbmHess (e : Fin n → ℝ) (ev dHp dHq ddH : CMat n) (i : Fin n) : ℝ :=
  (rot ev ddH i i).re -
    2 * (∑ k, rot ev dHp i k * ((if k = i then 0 else rot ev dHq k i) / ((e k - e i : ℝ) : ℂ))).re

end TB

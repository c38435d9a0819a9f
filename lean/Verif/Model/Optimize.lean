import Verif.Model.BandStructure

/-!
# Model of `optimize_cg` (tight_binding_asym.py 545-692 and bandstructure.py 406-550)

The arrays of the functions are functions on finite index types: `K` k samples, `P` parameter matrices, `n` orbitals, `B`
reference bands.  Numbers are exact.  Library routines are parameters: `np.linalg.eigh`, `geigh`, `np.linalg.pinv`,
`np.linalg.cholesky`.  `np.einsum(..., out=x)` with `x` also an operand is taken to compute the result before it is stored (numpy
copies overlapping operands).  Not modelled: the logger, `KeyboardInterrupt`, the einsum paths (they do not change the result),
`train_S` (tight_binding_asym.py 562-563, 574-583, 630-632: it recomputes the same `S` and `S_r_mask` is never used).
-/

namespace TB.Opt
open Matrix TB

/-! ## `conjugate_gradient_solve` on arrays of any shape -/

section CG
variable {E : Type} [AddCommGroup E] [Module ℝ E]

/-- The variables of the loop (linalg.py 248-257). -/
structure CGV (E : Type) where
  x : E
  r : E
  d : E
  rSqr : ℝ

/-- The loop of `conjugate_gradient_solve` (linalg.py 259-278); `left` is `max_i + 1 - i`, the number of passes which may still follow.
`ip` is the real part of `np.sum(x.conj() * y)`. -/
noncomputable def cgV (ip : E → E → ℝ) (A : E → E) (err : ℝ) : ℕ → CGV E → E
  | left, s =>
    let Ad := A s.d
    let dSqr := ip s.d Ad
    if dSqr = 0 then s.x
    else
      let alpha := s.rSqr / dSqr
      let x := s.x - alpha • s.d
      if s.rSqr ≤ err ^ 2 then x
      else match left with
        | 0 => x
        | left + 1 =>
          let r := s.r - alpha • Ad
          let rSqr := ip r r
          cgV ip A err left ⟨x, r, (rSqr / s.rSqr) • s.d + r, rSqr⟩

/-- `conjugate_gradient_solve(A, b, err=err, max_i=max_i)` (linalg.py 233-278). -/
noncomputable def cgSolveV (ip : E → E → ℝ) (A : E → E) (b : E) (err : ℝ) (maxI : ℤ) : E :=
  cgV ip A err (maxI + 1).toNat ⟨0, -b, -b, ip (-b) (-b)⟩

end CG

/-! ## one step -/

variable {K P n B d : ℕ}

/-- Parameter array of shape `(P, n, n)`. -/
abbrev Par (P n : ℕ) := Fin P → CMat n

/-- Real part of `np.sum(x.conj() * y)`. -/
noncomputable def parIp (x y : Par P n) : ℝ := ∑ p, ∑ i, ∑ j, (star (x p i j) * y p i j).re

/-- `H = np.einsum("nkl,in->ikl", params, f_i); H += conj(swapaxes(H))` (tight_binding_asym.py 628-629, bandstructure.py 495-496) for
the sample `k`. -/
noncomputable def fmat (F : Fin K → Fin P → ℂ) (x : Par P n) (k : Fin K) : CMat n :=
  (∑ p, F k p • x p) + (∑ p, F k p • x p)ᴴ

/-- `precond(x)`: `np.einsum("lk,kij->lij", E_mat, x)` (tight_binding_asym.py 605-614, bandstructure.py 477-487). -/
noncomputable def applyE (E : Matrix (Fin P) (Fin P) ℂ) (x : Par P n) : Par P n := fun l => ∑ p, E l p • x p

/-- `np.einsum("id,jd->ij", v, conj(v))` for one `d`. -/
def outer (v : Fin n → ℂ) : CMat n := vecMulVec v (star v)

/-- The data of an iteration: `f_i` with the first column halved, `E_mat`, `weights` and the eigenvectors of the bands in
the window. -/
structure Lin (K P n B : ℕ) where
  F : Fin K → Fin P → ℂ
  E : Matrix (Fin P) (Fin P) ℂ
  w : Fin B → ℝ
  v : Fin K → Fin B → Fin n → ℂ

/-- `c_i_E_mat_c` (tight_binding_asym.py 602, 611, bandstructure.py 475, 484): `Σ_p conj(f_i[k, p]) conj(E_mat[p, l])`. -/
noncomputable def Lin.cE (c : Lin K P n B) (k : Fin K) (l : Fin P) : ℂ := ∑ p, star (c.F k p) * star (c.E p l)

/-- `b` (tight_binding_asym.py 655-657, bandstructure.py 519-521), for the difference `diff` before it is weighted. -/
noncomputable def Lin.rhs (c : Lin K P n B) (diff : Fin K → Fin B → ℝ) : Par P n := fun l =>
  ∑ k, ∑ b, (c.cE k l * ((diff k b * c.w b : ℝ) : ℂ)) • outer (c.v k b)

/-- `A(x)` (tight_binding_asym.py 666-671, bandstructure.py 528-530). -/
noncomputable def Lin.A (c : Lin K P n B) (x : Par P n) : Par P n :=
  let y := applyE c.E (((K : ℝ)⁻¹) • x)
  fun l => ∑ k, ∑ b, (c.cE k l * (c.w b : ℂ) * (star (c.v k b) ⬝ᵥ (fmat c.F y k *ᵥ c.v k b))) • outer (c.v k b)

/-- The result of the solver: `conjugate_gradient_solve(A, b, err=norm(b)*1e-3, max_i=max_cg_iterations)`
(tight_binding_asym.py 675, bandstructure.py 532). -/
noncomputable def Lin.solve (c : Lin K P n B) (diff : Fin K → Fin B → ℝ) (maxCg : ℤ) : Par P n :=
  let b := c.rhs diff
  cgSolveV parIp c.A b (Real.sqrt (parIp b b) * 1e-3) maxCg

/-- `step` (tight_binding_asym.py 675-676, bandstructure.py 532-533). -/
noncomputable def Lin.step (c : Lin K P n B) (diff : Fin K → Fin B → ℝ) (maxCg : ℤ) : Par P n :=
  ((K : ℝ)⁻¹) • applyE c.E (c.solve diff maxCg)

/-! ## the loop -/

/-- Arguments of the loop that do not change. `win b` is `band_offset + b`. -/
structure Fit (K P n B : ℕ) where
  F : Fin K → Fin P → ℂ
  E : Matrix (Fin P) (Fin P) ℂ
  S : Fin K → CMat n
  ref : Fin K → Fin B → ℝ
  bw : Fin B → ℝ
  win : Fin B → Fin n
  conv : ℝ
  thr : ℝ
  maxCg : ℤ

variable (geigh : CMat n → CMat n → (Fin n → ℝ) × CMat n)

/-- `diff = eigvals - ref_bands` (tight_binding_asym.py 633-638, bandstructure.py 497-502). -/
noncomputable def Fit.diff (c : Fit K P n B) (x : Par P n) (k : Fin K) (b : Fin B) : ℝ :=
  (geigh (fmat c.F x k) (c.S k)).1 (c.win b) - c.ref k b

/-- `eigvecs` in the window, column `b` at sample `k` (tight_binding_asym.py 633-635, bandstructure.py 497-499). -/
noncomputable def Fit.vec (c : Fit K P n B) (x : Par P n) (k : Fin K) (b : Fin B) (i : Fin n) : ℂ :=
  (geigh (fmat c.F x k) (c.S k)).2 i (c.win b)

/-- The linearised problem at the parameters `x`; `weights` are the squared band weights (tight_binding_asym.py 557-558,
bandstructure.py 443-444). -/
noncomputable def Fit.lin (c : Fit K P n B) (x : Par P n) : Lin K P n B :=
  ⟨c.F, c.E, fun b => c.bw b * c.bw b, c.vec geigh x⟩

/-- `new_loss` (tight_binding_asym.py 642-643, bandstructure.py 506-507). -/
noncomputable def Fit.loss (c : Fit K P n B) (x : Par P n) : ℝ :=
  Real.sqrt (∑ k, ∑ b, (c.diff geigh x k b * c.bw b) ^ 2) / Real.sqrt K

open Classical in
/-- The stop condition (tight_binding_asym.py 644, bandstructure.py 508). `none` is `float("inf")`; a quotient by zero is
not smaller than the threshold. -/
noncomputable def stop (conv thr : ℝ) (last : Option ℝ) (new : ℝ) : Bool :=
  (match last with
    | none => false
    | some l => decide (new ≠ 0 ∧ |l / new - 1| < conv)) || decide (new < thr)

/-- `params[0] += conj(params[0].T); params[0] /= 2` (tight_binding_asym.py 682-683, bandstructure.py 541-542). -/
noncomputable def herm0 (x : Par P n) : Par P n := fun p => if (p : ℕ) = 0 then (1 / 2 : ℂ) • (x p + (x p)ᴴ) else x p

/-- The parameters after one iteration that was not stopped; `post` is the symmetrizer and the mask of `keep_zeros`
(tight_binding_asym.py 678-683, bandstructure.py 535-542). -/
noncomputable def Fit.next (c : Fit K P n B) (post : Par P n → Par P n) (x : Par P n) : Par P n :=
  herm0 (post (x - (c.lin geigh x).step (c.diff geigh x) c.maxCg))

/-- The loop over the iterations (tight_binding_asym.py 626-686, bandstructure.py 493-544). -/
noncomputable def Fit.run (c : Fit K P n B) (post : Par P n → Par P n) : ℕ → Option ℝ → Par P n → Par P n
  | 0, _, x => x
  | m + 1, last, x =>
    if stop c.conv c.thr last (c.loss geigh x) then x
    else c.run post m (some (c.loss geigh x)) (c.next geigh post x)

/-! ## set up -/

/-- `E_mat` (tight_binding_asym.py 590-614, bandstructure.py 462-487).  `chol` raises `LinAlgError`, a `ValueError`, for a matrix which is not
positive definite. -/
noncomputable def mkE (pinv : Matrix (Fin P) (Fin P) ℂ → Matrix (Fin P) (Fin P) ℂ)
    (chol : Matrix (Fin P) (Fin P) ℂ → Except Err (Matrix (Fin P) (Fin P) ℂ)) (precond : Bool)
    (F : Fin K → Fin P → ℂ) : Except Err (Matrix (Fin P) (Fin P) ℂ) :=
  if precond then do
    let L ← chol (pinv ((Matrix.of F)ᴴ * Matrix.of F))
    .ok (((Real.sqrt K : ℝ) : ℂ) • L)
  else .ok 1

open Classical in
/-- `H_r_mask` (tight_binding_asym.py 561, bandstructure.py 447). -/
noncomputable def mask (l : List (CMat n)) (x : Par P n) : Par P n := fun p => Matrix.of fun i j =>
  x p i j * if ‖l.getD p 0 i j‖ < 1e-14 then 0 else 1

/-- `f_i` with the first column halved (tight_binding_asym.py 565-570): the neighbours of `terms`. -/
noncomputable def coef (ks : Fin K → RVec d) (terms : List (RVec d × CMat n)) (k : Fin K) (p : Fin terms.length) : ℂ :=
  if (p : ℕ) = 0 then TB.fi (ks k) terms[p].1 / 2 else TB.fi (ks k) terms[p].1

/-- The array `H_r` of a series. -/
def arr (terms : List (RVec d × CMat n)) : Par terms.length n := fun p => terms[p].2

/-- A series with the array replaced. -/
def setArr (terms : List (RVec d × CMat n)) (x : Par terms.length n) : Series d n :=
  ⟨List.ofFn fun p => (terms[p].1, x p)⟩

/-- The routines of numpy and scipy. -/
structure Lib (n : ℕ) where
  eigh : CMat n → (Fin n → ℝ) × CMat n
  sorting : CMat n → Equiv.Perm (Fin n)
  geigh : CMat n → CMat n → (Fin n → ℝ) × CMat n
  pinv : ∀ P, Matrix (Fin P) (Fin P) ℂ → Matrix (Fin P) (Fin P) ℂ
  chol : ∀ P, Matrix (Fin P) (Fin P) ℂ → Except Err (Matrix (Fin P) (Fin P) ℂ)

/-- The value of a series at the samples, for the array `S` of tight_binding_asym.py line 620. -/
noncomputable def valueAt (s : Series d n) (k : RVec d) : CMat n :=
  match s.f k with
  | .ok M => M
  | .error _ => 0

/-- `AsymTightBindingModel.optimize_cg` (tight_binding_asym.py 545-692): the object afterwards, or the exception.  `f_i` is computed from the neighbours
after `normalize`, which does not change them.  An exception of `geigh` (overlap not positive definite) is not modelled. -/
noncomputable def optimizeCg (lib : Lib n) (t : Tb d n) (ks : Fin K → RVec d) (ref : Fin K → Fin B → ℝ) (bw : Fin B → ℝ) (off : ℤ)
    (iterations : ℕ) (keepZeros precond : Bool) (conv thr : ℝ) (maxCg : ℤ) : Except Err (Tb d n) :=
  if K = 0 ∨ t.H.terms = [] then .error .indexError
  else if h : 0 ≤ off ∧ off ≤ (n : ℤ) - B then do
    let _ ← mkE (lib.pinv _) (lib.chol _) precond (coef ks t.H.terms)
    let t1 ← t.normalize lib.eigh lib.sorting
    let E ← mkE (lib.pinv _) (lib.chol _) precond (coef ks t1.H.terms)
    let c : Fit K t1.H.terms.length n B := ⟨coef ks t1.H.terms, E, fun k => valueAt t1.S (ks k), ref, bw,
      fun b => ⟨off.toNat + b, by omega⟩, conv, thr, maxCg⟩
    let post := fun x => if keepZeros then mask (t.H.terms.map Prod.snd) x else x
    let x := c.run lib.geigh post iterations none (arr t1.H.terms)
    (⟨setArr t1.H.terms x, t1.S⟩ : Tb d n).normalize lib.eigh lib.sorting
  else .error .assertionError

/-- `params` of a `BandStructureModel` as an array. -/
def bsArr (b : BS.BSM d n) : Par (b.Ps.length + 1) n := Fin.cases b.P0 fun p => b.Ps[p]

/-- A model with the array replaced. -/
def bsSet (b : BS.BSM d n) {P : ℕ} (x : Par (P + 1) n) : BS.BSM d n :=
  { b with P0 := x 0, Ps := List.ofFn fun p => x p.succ }

/-- `f_i` with the first column halved (bandstructure.py 449-452). -/
noncomputable def bsCoef (ks : Fin K → RVec d) (b : BS.BSM d n) (k : Fin K) (p : Fin (b.Ps.length + 1)) : ℂ :=
  if (p : ℕ) = 0 then b.coeff.fi (ks k) p / 2 else b.coeff.fi (ks k) p

/-- `self.symmetrizer(params)` on an array (bandstructure.py 536-537); a symmetrizer which changes the number of matrices is not modelled. -/
noncomputable def bsSym {P : ℕ} (s : CMat n × List (CMat n) → CMat n × List (CMat n)) (x : Par (P + 1) n) : Par (P + 1) n :=
  let r := s (x 0, List.ofFn fun p => x p.succ)
  Fin.cases r.1 fun p => r.2.getD p 0

/-- `BandStructureModel.optimize_cg` (bandstructure.py 406-550). -/
noncomputable def bsOptimizeCg (lib : Lib n) (t : BS.BSM d n) (ks : Fin K → RVec d) (ref : Fin K → Fin B → ℝ) (bw : Fin B → ℝ)
    (off : ℤ) (iterations : ℕ) (keepZeros precond : Bool) (conv thr : ℝ) (maxCg : ℤ) : Except Err (BS.BSM d n) :=
  if K = 0 then .error .indexError
  else if h : 0 ≤ off ∧ off ≤ (n : ℤ) - B then do
    let _ ← mkE (lib.pinv _) (lib.chol _) precond (bsCoef ks t)
    let t1 := t.normalize lib.eigh
    let E ← mkE (lib.pinv _) (lib.chol _) precond (bsCoef ks t1)
    let c : Fit K (t1.Ps.length + 1) n B := ⟨bsCoef ks t1, E, fun _ => 1, ref, bw, fun b => ⟨off.toNat + b, by omega⟩, conv, thr, maxCg⟩
    let post := fun x =>
      let x := match t1.symmetrizer with
        | some s => bsSym s x
        | none => x
      if keepZeros then mask t.params x else x
    let x := c.run lib.geigh post iterations none (bsArr t1)
    .ok ((bsSet t1 x).normalize lib.eigh)
  else .error .assertionError

end TB.Opt

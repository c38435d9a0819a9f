import Verif.Model.Optimize

/-!
# Model of `AsymTightBindingModel.optimize` (tight_binding_asym.py 356-543)

As in `Optimize`: `K` samples, `P` coefficient matrices, `n` orbitals, `B` reference bands, exact numbers, library routines as parameters.
Simplified: a quotient by zero which numpy turns into `inf` or `nan` (all band weights zero) is zero.  Not modelled: the logger,
`KeyboardInterrupt`, negative `batch_div`, `use_lstsq_stepsize=True`, the exception of `geigh` for an overlap which is not positive definite, the
changes of the object before an exception.
-/

namespace TB.Opt
open Matrix TB

variable {K P n B d : ℕ}

/-- What the loop uses.  `F` is `f_i` with the first column halved, `S` the overlap at all samples, `accel` is `max_accel_global`, `mask` the factor of
`keep_zeros`. -/
structure AD (K P n B : ℕ) where
  F : Fin K → Fin P → ℂ
  S : Fin K → CMat n
  ref : Fin K → Fin B → ℝ
  bw : Fin B → ℝ
  win : Fin B → Fin n
  batchDiv : ℕ
  lr : ℝ
  trainS : Bool
  usePinv : Bool
  accel : ℝ
  reg : ℝ
  mask : Par P n → Par P n
  conv : ℝ
  thr : ℝ
  pinv : ∀ P K, Matrix (Fin P) (Fin K) ℂ → Matrix (Fin K) (Fin P) ℂ

/-- `k_smpl[iteration % batch_div::batch_div]` (tight_binding_asym.py 428-430). -/
def AD.batch (c : AD K P n B) (it : ℕ) : Finset (Fin K) := Finset.univ.filter fun k => k.val % c.batchDiv = it % c.batchDiv

/-- Position of the sample `k` in its batch. -/
def AD.pos (c : AD K P n B) (k : Fin K) : Fin K := ⟨k.val / c.batchDiv, (Nat.div_le_self _ _).trans_lt k.2⟩

/-- `batch_f_i` (tight_binding_asym.py 430). -/
def AD.batchF (c : AD K P n B) (it : ℕ) (i : Fin (c.batch it).card) (p : Fin P) : ℂ :=
  if h : it % c.batchDiv + i * c.batchDiv < K then c.F ⟨_, h⟩ p else 0

/-- `norm` (tight_binding_asym.py 391, 441, 463). -/
noncomputable def AD.norm (_ : AD K P n B) : ℝ := P - 1 + (1 / 2) ^ 3

/-- `batch_c_i` (tight_binding_asym.py 384-393, 431, 437-443). -/
noncomputable def AD.C (c : AD K P n B) (it : ℕ) (k : Fin K) (p : Fin P) : ℂ :=
  if c.usePinv then
    if h : (c.pos k).val < (c.batch it).card then
      c.pinv P _ (Matrix.of (c.batchF it))ᵀ ⟨_, h⟩ p * (if (p : ℕ) = 0 then 2 else 1) * ((c.norm : ℝ) : ℂ) * (c.batch it).card
    else 0
  else star (c.F k p)

/-- `self.H.H_r[1:] *= regularization` (tight_binding_asym.py 446-447). -/
noncomputable def AD.regd (c : AD K P n B) (x : Par P n) : Par P n := fun p => if (p : ℕ) = 0 then x p else c.reg • x p

variable (geigh : CMat n → CMat n → (Fin n → ℝ) × CMat n)

/-- `geigh(H, S)` for the sample `k` of the batch (tight_binding_asym.py 450-455, linalg.py 67-82): the Hamiltonians are those of the batch, the overlaps
those of all samples, so the overlap is the one of the sample whose number is the position of `k` in the batch. -/
noncomputable def AD.sol (c : AD K P n B) (x : Par P n) (k : Fin K) : (Fin n → ℝ) × CMat n := geigh (fmat c.F x k) (c.S (c.pos k))

/-- `diff = batch_ref - eigvals` (tight_binding_asym.py 456, 467). -/
noncomputable def AD.diff (c : AD K P n B) (x : Par P n) (k : Fin K) (b : Fin B) : ℝ := c.ref k b - (c.sol geigh x k).1 (c.win b)

/-- `eigvecs`, column `b` at sample `k` (tight_binding_asym.py 457). -/
noncomputable def AD.vec (c : AD K P n B) (x : Par P n) (k : Fin K) (b : Fin B) (i : Fin n) : ℂ := (c.sol geigh x k).2 i (c.win b)

/-- `loss` (tight_binding_asym.py 474-483): the norm of the weighted differences for `batch_div == 1`, where the position is the number of the sample, and
`self.error` otherwise. -/
noncomputable def AD.loss (c : AD K P n B) (x : Par P n) : ℝ :=
  Real.sqrt (∑ k, ∑ b, ((c.ref k b - (geigh (fmat c.F x k) (c.S k)).1 (c.win b)) * c.bw b) ^ 2) / Real.sqrt K

/-- `H_diff` before the product with the eigenvectors (tight_binding_asym.py 474, 491-492). -/
noncomputable def AD.weighted (c : AD K P n B) (x : Par P n) (k : Fin K) (b : Fin B) : ℝ := c.diff geigh x k b * c.bw b * c.bw b / c.norm

/-- `H_r_add` (tight_binding_asym.py 494-495). -/
noncomputable def AD.grad (c : AD K P n B) (it : ℕ) (x : Par P n) : Par P n := fun p =>
  ∑ k ∈ c.batch it, ∑ b, (c.C it k p * (c.weighted geigh x k b : ℂ)) • outer (c.vec geigh x k b)

/-- `H_r_add[0] = (H_r_add[0] + H_r_add[0].T.conj()) / 4` (tight_binding_asym.py 499). -/
noncomputable def quarter0 (x : Par P n) : Par P n := fun p => if (p : ℕ) = 0 then (1 / 4 : ℂ) • (x p + (x p)ᴴ) else x p

/-- `alpha` (tight_binding_asym.py 366, 516). -/
noncomputable def AD.alpha (c : AD K P n B) (it : ℕ) : ℝ := 1 / 2 / (c.batch it).card / (⨆ b, c.bw b) ^ 2

/-- `max_accel` (tight_binding_asym.py 435). -/
noncomputable def AD.maxAccel (c : AD K P n B) (it : ℕ) : ℝ := min ((c.batch it).card : ℝ) c.accel

/-- `H_r_add` (tight_binding_asym.py 496-499, 518, 527). -/
noncomputable def AD.add (c : AD K P n B) (it : ℕ) (x last : Par P n) : Par P n :=
  (c.lr * c.alpha it) • quarter0 (c.mask (c.grad geigh it x)) + (1 - 1 / c.maxAccel it) • last

/-- The loop (tight_binding_asym.py 427-535); `it` is `iteration`, the first argument the number of iterations left.  `batch_div = 0` raises in
`iteration % batch_div`, `train_S` in `S += ...` (line 454) since `S` has no value, an empty batch in `batch_ref[0]` (line 456). -/
noncomputable def AD.run (c : AD K P n B) : ℕ → ℕ → Option ℝ → Par P n → Par P n → Except Err (Par P n)
  | 0, _, _, _, x => .ok x
  | m + 1, it, lastLoss, last, x =>
    if c.batchDiv = 0 then .error .zeroDivision
    else if c.trainS then .error .nameError
    else if c.batch it = ∅ then .error .indexError
    else
      let x := c.regd x
      let loss := c.loss geigh x
      let check := it % 100 = 0 ∨ c.batchDiv = 1
      if check ∧ stop c.conv c.thr lastLoss loss then .ok x
      else if c.maxAccel it = 0 then .error .zeroDivision
      else
        let a := c.add geigh it x last
        AD.run c m (it + 1) (if check then some loss else lastLoss) a (x + a)

/-- `max_accel_global` (tight_binding_asym.py 373-375, 415-416). -/
noncomputable def adAccel (usePinv : Bool) (batchDiv K : ℕ) : Option ℝ → ℝ
  | some a => a
  | none => if batchDiv = 1 ∧ usePinv then 1 else K

/-- The arguments of `AsymTightBindingModel.optimize` without `iterations`, `band_offset` and the ignored second argument. -/
structure ADArgs (K B d : ℕ) where
  ks : Fin K → RVec d
  ref : Fin K → Fin B → ℝ
  bw : Fin B → ℝ
  batchDiv : ℕ
  lr : ℝ
  trainS : Bool
  usePinv : Bool
  maxAccel : Option ℝ
  reg : ℝ
  keepZeros : Bool
  conv : ℝ
  thr : ℝ

/-- The loop data for the model `t` before and `t1` after `normalize`, which keeps the neighbours.  The mask (tight_binding_asym.py 369-370) is that of `t`, the
overlap (line 421) that of `t1`. -/
noncomputable def ADArgs.ad (a : ADArgs K B d) (pinv : ∀ P K, Matrix (Fin P) (Fin K) ℂ → Matrix (Fin K) (Fin P) ℂ) (t t1 : Tb d n)
    (win : Fin B → Fin n) : AD K t1.H.terms.length n B :=
  { F := coef a.ks t1.H.terms, S := fun k => valueAt t1.S (a.ks k), ref := a.ref, bw := a.bw, win := win, batchDiv := a.batchDiv, lr := a.lr,
    trainS := a.trainS, usePinv := a.usePinv, accel := adAccel a.usePinv a.batchDiv K a.maxAccel, reg := a.reg,
    mask := fun x => if a.keepZeros then mask (t.H.terms.map Prod.snd) x else x, conv := a.conv, thr := a.thr, pinv := pinv }

/-- `AsymTightBindingModel.optimize` (tight_binding_asym.py 356-543): the object afterwards or the exception.  `np.max` of no weights raises `ValueError`
(line 366). -/
noncomputable def tbOptimize (lib : Lib n) (pinv : ∀ P K, Matrix (Fin P) (Fin K) ℂ → Matrix (Fin K) (Fin P) ℂ) (t : Tb d n) (a : ADArgs K B d)
    (off : ℤ) (iterations : ℕ) : Except Err (Tb d n) :=
  if K = 0 ∨ t.H.terms = [] then .error .indexError
  else if h : 0 ≤ off ∧ off ≤ (n : ℤ) - B then
    if B = 0 then .error .valueError
    else do
      let t1 ← t.normalize lib.eigh lib.sorting
      let x ← (a.ad pinv t t1 fun b => ⟨off.toNat + b, by omega⟩).run lib.geigh iterations 0 none 0 (arr t1.H.terms)
      (⟨setArr t1.H.terms x, t1.S⟩ : Tb d n).normalize lib.eigh lib.sorting
  else .error .assertionError

end TB.Opt

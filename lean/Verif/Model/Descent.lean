import Verif.Model.Optimize

/-!
# Model of `BandStructureModel.optimize` (bandstructure.py 246-405)

As in `Optimize`: `K` samples, `P` parameter matrices, `n` orbitals, `B` reference bands, exact numbers, library routines as
parameters.  Simplified: quotients by zero which numpy turns into `inf` or `nan` (mean weight zero, all coefficient functions zero at a
sample, mean weight of a batch zero) are zero.  The loss of `self.error` for `batch_div != 1` is a parameter.  Not modelled: the logger,
`KeyboardInterrupt`, negative `batch_div`.
-/

namespace TB.Opt
open Matrix TB

variable {K P n B d : ℕ}

/-- What the loop uses.  `F`, `C` are `f_i` (first column halved) and `c_i`, `symm` the symmetrizer, `err` the loss of `self.error`, `accel` is
`max_accel_global`. -/
structure GD (K P n B : ℕ) where
  F : Fin K → Fin P → ℂ
  C : Fin K → Fin P → ℂ
  ref : Fin K → Fin B → ℝ
  kw : Fin K → ℝ
  bw : Fin B → ℝ
  win : Fin B → Fin n
  batchDiv : ℕ
  trainK0 : Bool
  reg : ℝ
  lr : ℝ
  accel : ℝ
  keepZeros : Bool
  conv : ℝ
  thr : ℝ
  symm : Par P n → Par P n
  err : Par P n → ℝ

/-- `k_smpl[iteration % batch_div::batch_div]` (bandstructure.py 334-339). -/
def GD.batch (c : GD K P n B) (it : ℕ) : Finset (Fin K) := Finset.univ.filter fun k => k.val % c.batchDiv = it % c.batchDiv

/-- `band_weights_normalized` (bandstructure.py 296). -/
noncomputable def GD.bwN (c : GD K P n B) (b : Fin B) : ℝ := c.bw b / ((∑ b, c.bw b) / B)

/-- `batch_weights` (bandstructure.py 340). -/
noncomputable def GD.kwN (c : GD K P n B) (it : ℕ) (k : Fin K) : ℝ := c.kw k / ((∑ k ∈ c.batch it, c.kw k) / (c.batch it).card)

/-- `s` (bandstructure.py 355). -/
noncomputable def GD.s (c : GD K P n B) (k : Fin K) : ℝ := ∑ p, ‖c.F k p‖ ^ 2

/-- `self.params[1:] *= regularization` (bandstructure.py 344-345). -/
noncomputable def GD.regd (c : GD K P n B) (x : Par P n) : Par P n := fun p => if (p : ℕ) = 0 then x p else c.reg • x p

variable (geigh : CMat n → CMat n → (Fin n → ℝ) × CMat n)

/-- `diff = batch_ref - eigvals` (bandstructure.py 348-356). -/
noncomputable def GD.diff (c : GD K P n B) (x : Par P n) (k : Fin K) (b : Fin B) : ℝ :=
  c.ref k b - (geigh (fmat c.F x k) 1).1 (c.win b)

/-- `eigvecs`, column `b` at sample `k` (bandstructure.py 350-352). -/
noncomputable def GD.vec (c : GD K P n B) (x : Par P n) (k : Fin K) (b : Fin B) (i : Fin n) : ℂ := (geigh (fmat c.F x k) 1).2 i (c.win b)

/-- `loss` for `batch_div == 1` (bandstructure.py 360). -/
noncomputable def GD.loss (c : GD K P n B) (x : Par P n) : ℝ :=
  Real.sqrt (∑ k, ∑ b, (c.diff geigh x k b * c.bw b) ^ 2) / Real.sqrt K

/-- The scaled `diff` (bandstructure.py 376-379). -/
noncomputable def GD.weighted (c : GD K P n B) (it : ℕ) (x : Par P n) (k : Fin K) (b : Fin B) : ℝ :=
  c.diff geigh x k b * c.bwN b * c.kwN it k * (1 / 2 / (c.batch it).card / c.s k)

/-- `params_add` before the symmetrizer (bandstructure.py 380-382). -/
noncomputable def GD.grad (c : GD K P n B) (it : ℕ) (x : Par P n) : Par P n := fun p =>
  ∑ k ∈ c.batch it, ∑ b, (c.C k p * (c.weighted geigh it x k b : ℂ)) • outer (c.vec geigh x k b)

/-- `params_add[0] *= 0.0` (bandstructure.py 385-387). -/
def zero0 (x : Par P n) : Par P n := fun p => if (p : ℕ) = 0 then 0 else x p

open Classical in
/-- The factor of `keep_zeros` (bandstructure.py 388-390). -/
noncomputable def maskOf (x y : Par P n) : Par P n := fun p => Matrix.of fun i j => y p i j * if ‖x p i j‖ < 1e-14 then 0 else 1

/-- `max_accel` (bandstructure.py 341). -/
noncomputable def GD.maxAccel (c : GD K P n B) (it : ℕ) : ℝ := min ((c.batch it).card : ℝ) c.accel

/-- `params_add` (bandstructure.py 382-393). -/
noncomputable def GD.add (c : GD K P n B) (it : ℕ) (x last : Par P n) : Par P n :=
  let y := c.symm (c.grad geigh it x)
  let y := if c.trainK0 then y else zero0 y
  let y := if c.keepZeros then maskOf x y else y
  c.lr • y + (1 - 1 / c.maxAccel it) • last

/-- The loss of the stop condition (bandstructure.py 357-366). -/
noncomputable def GD.cur (c : GD K P n B) (x : Par P n) : ℝ := if c.batchDiv = 1 then c.loss geigh x else c.err x

/-- The loop (bandstructure.py 333-398); `it` is `iteration`, the first argument the number of iterations left.  The index error of an empty
batch is that of `batch_ref[0]` (line 351); `batch_div = 0` raises in `iteration % batch_div`. -/
noncomputable def GD.run (c : GD K P n B) : ℕ → ℕ → Option ℝ → Par P n → Par P n → Except Err (Par P n)
  | 0, _, _, _, x => .ok x
  | m + 1, it, lastLoss, last, x =>
    if c.batchDiv = 0 then .error .zeroDivision
    else if c.batch it = ∅ then .error .indexError
    else
      let x := c.regd x
      let loss := c.cur geigh x
      let check := it % 100 = 0 ∨ c.batchDiv = 1
      if check ∧ stop c.conv c.thr lastLoss loss then .ok x
      else if c.maxAccel it = 0 then .error .zeroDivision
      else
        let a := c.add geigh it x last
        GD.run c m (it + 1) (if check then some loss else lastLoss) a (x + a)

/-- `c_i` (bandstructure.py 303-325): the conjugate of `f_i`, or the pseudoinverse of `f_i.T` scaled by `s` and the number of samples. -/
noncomputable def gdC (pinv : ∀ P K, Matrix (Fin P) (Fin K) ℂ → Matrix (Fin K) (Fin P) ℂ) (usePinv : Bool) (batchDiv : ℕ)
    (F : Fin K → Fin P → ℂ) (k : Fin K) (p : Fin P) : ℂ :=
  if batchDiv = 1 ∧ usePinv then pinv P K (Matrix.of F)ᵀ k p * ((∑ q, ‖F k q‖ ^ 2 : ℝ) : ℂ) * K else star (F k p)

/-- `max_accel_global` (bandstructure.py 311-312, 326-327). -/
noncomputable def gdAccel (usePinv : Bool) (batchDiv K : ℕ) : Option ℝ → ℝ
  | some a => a
  | none => if batchDiv = 1 ∧ usePinv then 1 else K

/-- The arguments of `BandStructureModel.optimize` without `iterations`, `band_offset`. -/
structure GDArgs (K B d : ℕ) where
  ks : Fin K → RVec d
  kw : Fin K → ℝ
  ref : Fin K → Fin B → ℝ
  bw : Fin B → ℝ
  batchDiv : ℕ
  trainK0 : Bool
  reg : ℝ
  lr : ℝ
  maxAccel : Option ℝ
  usePinv : Bool
  keepZeros : Bool
  conv : ℝ
  thr : ℝ

/-- The loop data for the normalised model `t1`. -/
noncomputable def GDArgs.gd (a : GDArgs K B d) (pinv : ∀ P K, Matrix (Fin P) (Fin K) ℂ → Matrix (Fin K) (Fin P) ℂ)
    (err : BS.BSM d n → ℝ) (t1 : BS.BSM d n) (win : Fin B → Fin n) : GD K (t1.Ps.length + 1) n B :=
  { F := bsCoef a.ks t1, C := gdC pinv a.usePinv a.batchDiv (bsCoef a.ks t1), ref := a.ref, kw := a.kw, bw := a.bw, win := win,
    batchDiv := a.batchDiv, trainK0 := a.trainK0, reg := a.reg, lr := a.lr, accel := gdAccel a.usePinv a.batchDiv K a.maxAccel,
    keepZeros := a.keepZeros, conv := a.conv, thr := a.thr,
    symm := match t1.symmetrizer with
      | some s => bsSym s
      | none => id,
    err := fun x => err (bsSet t1 x) }

/-- `BandStructureModel.optimize` (bandstructure.py 246-405): the object afterwards or the exception. -/
noncomputable def bsOptimize (lib : Lib n) (pinv : ∀ P K, Matrix (Fin P) (Fin K) ℂ → Matrix (Fin K) (Fin P) ℂ) (err : BS.BSM d n → ℝ)
    (t : BS.BSM d n) (a : GDArgs K B d) (off : ℤ) (iterations : ℕ) : Except Err (BS.BSM d n) :=
  if K = 0 then .error .indexError
  else if h : 0 ≤ off ∧ off ≤ (n : ℤ) - B then do
    let t1 := t.normalize lib.eigh
    let x ← (a.gd pinv err t1 fun b => ⟨off.toNat + b, by omega⟩).run lib.geigh iterations 0 none 0 (bsArr t1)
    .ok ((bsSet t1 x).normalize lib.eigh)
  else .error .assertionError

end TB.Opt

import Verif.Model.TightBinding
import Verif.Model.Optimize

/-!
# Model of `TightBindingModel.optimize` (tight_binding.py 309-396)

`K` samples, `P` parameter matrices, `n` orbitals, `B` reference bands, exact numbers; `eigh` (`np.linalg.eigh`) is a parameter.  Only the case without inversion is
modelled, as in `TightBinding`.  Not modelled: the printed losses, `KeyboardInterrupt`, negative `batch_div`, the array given to the constructor, which
is changed in place by `self.params += ...` if it has complex entries.
-/

namespace TB.Opt
open Matrix TB

variable {K P n B d : ℕ}

/-- What the loop uses; `F` is `f_i_c` (tight_binding.py 338-341), which is also `f_i_s`. -/
structure TD (K P n B : ℕ) where
  F : Fin K → Fin P → ℝ
  ref : Fin K → Fin B → ℝ
  w : Fin B → ℝ
  win : Fin B → Fin n
  batchDiv : ℕ
  lr : ℝ
  trainK0 : Bool

/-- The samples `iteration % batch_div::batch_div` (tight_binding.py 356-360). -/
def TD.batch (c : TD K P n B) (it : ℕ) : Finset (Fin K) := Finset.univ.filter fun k => k.val % c.batchDiv = it % c.batchDiv

/-- `f` from the cached values (tight_binding.py 343-344, 365). -/
def TD.fm (c : TD K P n B) (x : Par P n) (k : Fin K) : CMat n := ∑ p, (c.F k p : ℂ) • x p

/-- `sc` (tight_binding.py 373). -/
noncomputable def TD.sc (c : TD K P n B) (it : ℕ) (k : Fin K) : ℝ := (2 / (c.batch it).card) / ∑ p, (|c.F k p| ^ 2 + |c.F k p| ^ 2)

variable (eigh : CMat n → (Fin n → ℝ) × CMat n)

/-- `diff` after the weights (tight_binding.py 374-375). -/
noncomputable def TD.diff (c : TD K P n B) (x : Par P n) (k : Fin K) (b : Fin B) : ℝ := (c.ref k b - (eigh (c.fm x k)).1 (c.win b)) * c.w b

/-- `diff` as a matrix (tight_binding.py 376). -/
noncomputable def TD.mat (c : TD K P n B) (x : Par P n) (k : Fin K) : CMat n :=
  ∑ b, (c.diff eigh x k b : ℂ) • outer fun i => (eigh (c.fm x k)).2 i (c.win b)

/-- `einsum_cs(batch_f_i_c * sc, ...)` (tight_binding.py 345-346, 377): the argument is multiplied with `sc` a second time inside. -/
noncomputable def TD.grad (c : TD K P n B) (it : ℕ) (x : Par P n) : Par P n := fun p =>
  ∑ k ∈ c.batch it, ((c.F k p * c.sc it k * c.sc it k : ℝ) : ℂ) • c.mat eigh x k

/-- `params_add` (tight_binding.py 377-383); the symmetrizer is the identity. -/
noncomputable def TD.add (c : TD K P n B) (it : ℕ) (x last : Par P n) : Par P n := fun p =>
  (if c.trainK0 = false ∧ (p : ℕ) = 0 then 0 else c.lr • c.grad eigh it x p) + (1 - 1 / ((c.batch it).card : ℝ)) • last p

/-- The loop (tight_binding.py 355-392); `it` is `iteration`, the first argument the number of iterations left.  `batch_div = 0` raises in
`iteration % batch_div`, an empty batch in `batch_ref[0]` (line 361). -/
noncomputable def TD.run (c : TD K P n B) : ℕ → ℕ → Par P n → Par P n → Except Err (Par P n)
  | 0, _, _, x => .ok x
  | m + 1, it, last, x =>
    if c.batchDiv = 0 then .error .zeroDivision
    else if c.batch it = ∅ then .error .indexError
    else
      let a := c.add eigh it x last
      TD.run c m (it + 1) a (x + a)

/-- The arguments of `optimize` without `band_offset` and `iterations`; `kw` is `k_smpl_weights` as a list. -/
structure TDArgs (K B d : ℕ) where
  ks : Fin K → RVec d
  kw : List ℝ
  ref : Fin K → Fin B → ℝ
  w : Fin B → ℝ
  batchDiv : ℕ
  lr : ℝ
  trainK0 : Bool

/-- The cached coefficients (tight_binding.py 338-340). -/
noncomputable def tdF (t : TBM d n) (ks : Fin K → RVec d) (k : Fin K) (p : Fin t.params.length) : ℝ :=
  match t.fi (ks k) p with
  | .ok c => c.re
  | .error _ => 0

/-- The loop data. -/
noncomputable def TDArgs.td (a : TDArgs K B d) (t : TBM d n) (win : Fin B → Fin n) : TD K t.params.length n B :=
  { F := tdF t a.ks, ref := a.ref, w := a.w, win := win, batchDiv := a.batchDiv, lr := a.lr, trainK0 := a.trainK0 }

open Classical in
/-- `optimize` (tight_binding.py 309-396).  `ref_bands[0]` of no samples raises `IndexError`; weights of another number than one or `K` cannot be
broadcast (line 349); otherwise they are not used (`batch_weights` of lines 357, 362). -/
noncomputable def _root_.TB.TBM.optimize (t : TBM d n) (a : TDArgs K B d) (off : ℤ) (iterations : ℕ) : Except Err (TBM d n) :=
  if K = 0 then .error .indexError
  else if h : 0 ≤ off ∧ off ≤ (n : ℤ) - B then
    if ∃ k, ∃ p : Fin t.params.length, ∃ e, t.fi (a.ks k) p = .error e then .error .indexError
    else if ¬ (a.kw.length = 1 ∨ a.kw.length = K) then .error .valueError
    else match (a.td t fun b => ⟨off.toNat + b, by omega⟩).run eigh iterations 0 0 fun p => t.params[p] with
    | .error e => .error e
    | .ok x =>
      match t.symm (List.ofFn x) with
      | .error e => .error e
      | .ok l => .ok { t with params := l }
  else .error .assertionError

end TB.Opt

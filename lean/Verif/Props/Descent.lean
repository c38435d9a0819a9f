import Verif.Lemmas.Descent

/-!
# C100: `BandStructureModel.optimize`
-/

set_option linter.unusedSectionVars false

namespace TB.Opt
open Matrix TB
open scoped ComplexOrder

variable {K P n B d : ℕ} {geigh : CMat n → CMat n → (Fin n → ℝ) × CMat n}

theorem gd_run_succ (c : GD K P n B) (m it : ℕ) (ll : Option ℝ) (last x : Par P n) :
    c.run geigh (m + 1) it ll last x =
      if c.batchDiv = 0 then .error .zeroDivision
      else if c.batch it = ∅ then .error .indexError
      else if (it % 100 = 0 ∨ c.batchDiv = 1) ∧ stop c.conv c.thr ll (c.cur geigh (c.regd x)) then
        .ok (c.regd x)
      else if c.maxAccel it = 0 then .error .zeroDivision
      else c.run geigh m (it + 1) (if it % 100 = 0 ∨ c.batchDiv = 1 then some (c.cur geigh (c.regd x)) else ll)
        (c.add geigh it (c.regd x) last) (c.regd x + c.add geigh it (c.regd x) last) := by
  rw [GD.run]

/-- An invariant of the parameters and the last change. -/
theorem gd_inv (c : GD K P n B) (Q : Par P n → Par P n → Prop) (hr : ∀ x l, Q x l → Q (c.regd x) l)
    (ha : ∀ it x l, Q x l → Q (x + c.add geigh it x l) (c.add geigh it x l)) :
    ∀ m it ll l x y, Q x l → c.run geigh m it ll l x = .ok y → ∃ l', Q y l' := by
  intro m
  induction m with
  | zero =>
    intro it ll l x y h hy
    rw [GD.run] at hy
    cases hy
    exact ⟨l, h⟩
  | succ m ih =>
    intro it ll l x y h hy
    rw [gd_run_succ] at hy
    split at hy
    · cases hy
    split at hy
    · cases hy
    split at hy
    · cases hy
      exact ⟨l, hr x l h⟩
    split at hy
    · cases hy
    · exact ih _ _ _ _ _ (ha it _ l (hr x l h)) hy

/-- C100.  With `train_k0=False` the first matrix is the same after the loop, whatever the other options are. -/
theorem C100_train_k0 (c : GD K (P + 1) n B) (hk : c.trainK0 = false) (m it : ℕ) (ll : Option ℝ) (x y : Par (P + 1) n)
    (h : c.run geigh m it ll 0 x = .ok y) : y 0 = x 0 := by
  obtain ⟨l', h1, -⟩ := gd_inv c (fun z l => z 0 = x 0 ∧ l 0 = 0) (by
    rintro z l ⟨h1, h2⟩
    exact ⟨by simp [GD.regd, h1], h2⟩) (by
    rintro it z l ⟨h1, h2⟩
    have h3 : c.add geigh it z l 0 = 0 := by
      simp only [GD.add, hk]
      rw [Pi.add_apply, Pi.smul_apply, Pi.smul_apply, h2, smul_zero, add_zero]
      have h4 : (if false = true then c.symm (c.grad geigh it z) else zero0 (c.symm (c.grad geigh it z))) 0 = 0 := by
        simp [zero0]
      split
      · ext i j
        simp only [maskOf, of_apply, Matrix.smul_apply]
        rw [h4]
        simp
      · rw [h4, smul_zero]
    exact ⟨by rw [Pi.add_apply, h3, add_zero, h1], h3⟩) m it ll 0 x y ⟨rfl, rfl⟩ h
  exact h1

/-- C100.  With `keep_zeros=True` every entry that is zero before the loop is zero after it, whatever the other options are. -/
theorem C100_keep_zeros (c : GD K P n B) (hk : c.keepZeros = true) (m it : ℕ) (ll : Option ℝ) (x y : Par P n)
    (h : c.run geigh m it ll 0 x = .ok y) (p : Fin P) (i j : Fin n) (h0 : x p i j = 0) : y p i j = 0 := by
  obtain ⟨l', h1, -⟩ := gd_inv c (fun z l => z p i j = 0 ∧ l p i j = 0) (by
    rintro z l ⟨h1, h2⟩
    refine ⟨?_, h2⟩
    simp only [GD.regd]
    split
    · exact h1
    · rw [Matrix.smul_apply, h1, smul_zero]) (by
    rintro it z l ⟨h1, h2⟩
    have h3 : c.add geigh it z l p i j = 0 := by
      simp only [GD.add, hk, if_true]
      rw [Pi.add_apply, Matrix.add_apply, Pi.smul_apply, Pi.smul_apply, Matrix.smul_apply, Matrix.smul_apply, h2, smul_zero, add_zero]
      simp only [maskOf, of_apply]
      have h4 : ‖z p i j‖ < 1e-14 := by rw [h1]; norm_num
      simp [h4]
    exact ⟨by rw [Pi.add_apply, Matrix.add_apply, h3, h1, add_zero], h3⟩) m it ll 0 x y ⟨h0, rfl⟩ h
  exact h1

/-- The functional whose gradient is followed: the weights of the bands are not squared, those of the samples are divided by the norm of the coefficients. -/
noncomputable def Spec.gdSq (geigh : CMat n → CMat n → (Fin n → ℝ) × CMat n) (c : GD K P n B) (x : Par P n) : ℝ :=
  ∑ k, ∑ b, c.bw b * c.kw k / (∑ p, ‖c.F k p‖ ^ 2) * ((geigh (fmat c.F x k) 1).1 (c.win b) - c.ref k b) ^ 2

theorem applyE_one (x : Par P n) : applyE 1 x = x := by
  funext l
  simp only [applyE, Matrix.one_apply, ite_smul, one_smul, zero_smul, Finset.sum_ite_eq, Finset.mem_univ, if_true]

/-- Adjoint of the first order change for the array `grad`. -/
theorem parIp_grad (F : Fin K → Fin P → ℂ) (v : Fin K → Fin B → Fin n → ℂ) (q : Fin K → Fin B → ℝ) (z : Par P n) :
    2 * parIp z (fun p => ∑ k, ∑ b, (star (F k p) * (q k b : ℂ)) • outer (v k b)) = ∑ k, ∑ b, q k b * jac F v z k b := by
  have h := parIp_outer (⟨F, 1, fun _ => 0, v⟩ : Lin K P n B) z q
  have h1 : ∀ k l, (⟨F, 1, fun _ => 0, v⟩ : Lin K P n B).cE k l = star (F k l) := by
    intro k l
    simp only [Lin.cE, Matrix.one_apply]
    rw [Finset.sum_eq_single l]
    · simp
    · intro p _ hp; simp [hp]
    · simp
  simp only [h1] at h
  rw [h]
  simp only [applyE_one]

theorem band_deriv (hg : Spec.GeighOk geigh) (F : Fin K → Fin P → ℂ) (x y : Par P n) (k : Fin K) (b : Fin n)
    (hs : ∀ j, j ≠ b → (geigh (fmat F x k) 1).1 j ≠ (geigh (fmat F x k) 1).1 b) :
    HasDerivAt (fun t : ℝ => (geigh (fmat F (x + t • y) k) 1).1 b)
      ((star (fun i => (geigh (fmat F x k) 1).2 i b) ⬝ᵥ (fmat F y k *ᵥ fun i => (geigh (fmat F x k) 1).2 i b)).re) 0 := by
  have h := C52_simple (fun t : ℝ => fmat F (x + t • y) k) (fun _ => 1)
    (fun t => (geigh (fmat F (x + t • y) k) 1).2) (fmat F y k) 0
    (fun t => (geigh (fmat F (x + t • y) k) 1).1) 0
    (Filter.Eventually.of_forall fun t => hg _ _ (fmat_herm _ _ _) PosDef.one)
    (by
      intro i j
      have h2 : ∀ t : ℝ, fmat F (x + t • y) k i j = fmat F x k i j + (t : ℂ) * fmat F y k i j := by
        intro t; rw [fmat_add, fmat_smul]; rfl
      simp only [h2]
      have h3 : HasDerivAt (fun t : ℝ => (t : ℂ)) 1 0 := (hasDerivAt_id (0 : ℝ)).ofReal_comp
      simpa using (h3.mul_const (fmat F y k i j)).const_add (fmat F x k i j))
    (fun i j => hasDerivAt_const _ _) b (by simpa using hs)
  refine h.congr_deriv ?_
  simp only [zero_smul, add_zero]
  rw [geighGrad]
  have h4 : rot (geigh (fmat F x k) 1).2 (0 : CMat n) = 0 := by simp [rot]
  rw [h4, rot_apply]
  simp

/-- Derivative of a weighted square loss with identity overlap. -/
theorem wsq_deriv (hg : Spec.GeighOk geigh) (F : Fin K → Fin P → ℂ) (win : Fin B → Fin n) (ref : Fin K → Fin B → ℝ) (w : Fin K → Fin B → ℝ)
    (x : Par P n) (hs : ∀ k b j, j ≠ win b → (geigh (fmat F x k) 1).1 j ≠ (geigh (fmat F x k) 1).1 (win b)) (y : Par P n) :
    HasDerivAt (fun t : ℝ => ∑ k, ∑ b, w k b * ((geigh (fmat F (x + t • y) k) 1).1 (win b) - ref k b) ^ 2)
      (2 * ∑ k, ∑ b, w k b * ((geigh (fmat F x k) 1).1 (win b) - ref k b) * jac F (fun k b i => (geigh (fmat F x k) 1).2 i (win b)) y k b) 0 := by
  have h1 : ∀ k b, HasDerivAt (fun t : ℝ => (geigh (fmat F (x + t • y) k) 1).1 (win b))
      (jac F (fun k b i => (geigh (fmat F x k) 1).2 i (win b)) y k b) 0 :=
    fun k b => band_deriv hg F x y k (win b) (hs k b)
  have h5 : ∀ k b, HasDerivAt (fun t : ℝ => w k b * ((geigh (fmat F (x + t • y) k) 1).1 (win b) - ref k b) ^ 2)
      (2 * (w k b * ((geigh (fmat F x k) 1).1 (win b) - ref k b) * jac F (fun k b i => (geigh (fmat F x k) 1).2 i (win b)) y k b)) 0 := by
    intro k b
    refine ((((h1 k b).sub_const (ref k b)).pow 2).const_mul (w k b)).congr_deriv ?_
    simp only [zero_smul, add_zero]
    push_cast
    ring
  have h6 := HasDerivAt.fun_sum (u := Finset.univ) fun k _ => HasDerivAt.fun_sum (u := Finset.univ) fun b _ => h5 k b
  refine h6.congr_deriv ?_
  simp only [Finset.mul_sum]

/-- C100.  Without pseudoinverse, batches, symmetrizer and last change, at simple bands and for positive weights: the change of the parameters is zero for every learning rate, or
`Spec.gdSq` decreases strictly for all small learning rates. -/
theorem C100_descent (hg : Spec.GeighOk geigh) (c : GD K P n B) (hb : c.batchDiv = 1) (hC : ∀ k p, c.C k p = star (c.F k p))
    (hsy : c.symm = id) (hk0 : c.trainK0 = true) (hz : c.keepZeros = false) (hbw : ∀ b, 0 < c.bw b) (hkw : ∀ k, 0 < c.kw k)
    (x : Par P n) (hs : ∀ k b j, j ≠ c.win b → (geigh (fmat c.F x k) 1).1 j ≠ (geigh (fmat c.F x k) 1).1 (c.win b)) (it : ℕ) :
    (∀ lr : ℝ, ({ c with lr := lr } : GD K P n B).add geigh it x 0 = 0) ∨
    ∃ t0 > (0 : ℝ), ∀ lr : ℝ, 0 < lr → lr < t0 → Spec.gdSq geigh c (x + ({ c with lr := lr } : GD K P n B).add geigh it x 0) < Spec.gdSq geigh c x := by
  have hadd : ∀ lr : ℝ, ({ c with lr := lr } : GD K P n B).add geigh it x 0 = lr • c.grad geigh it x := by
    intro lr
    simp only [GD.add, hsy, hk0, hz, if_true, id, smul_zero, add_zero]
    rfl
  simp only [hadd]
  by_cases h0 : c.grad geigh it x = 0
  · left; intro lr; rw [h0, smul_zero]
  right
  have hK : 0 < K := by
    by_contra h
    have hK0 : K = 0 := by omega
    subst hK0
    refine h0 ?_
    funext p
    simp [GD.grad, Finset.eq_empty_of_isEmpty (c.batch it)]
  have hB : 0 < B := by
    by_contra h
    have hK0 : B = 0 := by omega
    subst hK0
    exact h0 (by funext p; simp [GD.grad])
  have hKr : (0 : ℝ) < K := by exact_mod_cast hK
  have hBr : (0 : ℝ) < B := by exact_mod_cast hB
  have : NeZero K := ⟨hK.ne'⟩
  have : NeZero B := ⟨hB.ne'⟩
  have hmb : 0 < (∑ b, c.bw b) / B := div_pos (Finset.sum_pos (fun b _ => hbw b) ⟨0, Finset.mem_univ _⟩) hBr
  have hmk : 0 < (∑ k, c.kw k) / K := div_pos (Finset.sum_pos (fun b _ => hkw b) ⟨0, Finset.mem_univ _⟩) hKr
  set mb := (∑ b, c.bw b) / B with hmb'
  set mk := (∑ k, c.kw k) / K with hmk'
  have hu := batch_one c hb it
  have hw : ∀ k b, c.weighted geigh it x k b = -(1 / (2 * K * mb * mk)) *
      (c.bw b * c.kw k / (∑ p, ‖c.F k p‖ ^ 2) * ((geigh (fmat c.F x k) 1).1 (c.win b) - c.ref k b)) := by
    intro k b
    simp only [GD.weighted, GD.bwN, GD.kwN, GD.diff, GD.s, hu, Finset.card_univ, Fintype.card_fin]
    rw [← hmb', ← hmk']
    generalize (∑ p, ‖c.F k p‖ ^ 2) = s
    field_simp
    ring
  have hd := wsq_deriv hg c.F c.win c.ref (fun k b => c.bw b * c.kw k / (∑ p, ‖c.F k p‖ ^ 2)) x hs (c.grad geigh it x)
  have hp := parIp_grad c.F (c.vec geigh x) (c.weighted geigh it x) (c.grad geigh it x)
  have hgr : (fun p => ∑ k, ∑ b, (star (c.F k p) * (c.weighted geigh it x k b : ℂ)) • outer (c.vec geigh x k b)) = c.grad geigh it x := by
    funext p
    simp only [GD.grad, hu, hC]
  rw [hgr] at hp
  have hpos : 0 < parIp (c.grad geigh it x) (c.grad geigh it x) :=
    lt_of_le_of_ne (parIp_isIp.nonneg _) fun h => h0 (parIp_isIp.zero _ h.symm)
  have hneg : (2 * ∑ k, ∑ b, c.bw b * c.kw k / (∑ p, ‖c.F k p‖ ^ 2) * ((geigh (fmat c.F x k) 1).1 (c.win b) - c.ref k b) *
      jac c.F (fun k b i => (geigh (fmat c.F x k) 1).2 i (c.win b)) (c.grad geigh it x) k b) < 0 := by
    have h1 : ∑ k, ∑ b, c.weighted geigh it x k b * jac c.F (c.vec geigh x) (c.grad geigh it x) k b = -(1 / (2 * K * mb * mk)) *
        ∑ k, ∑ b, c.bw b * c.kw k / (∑ p, ‖c.F k p‖ ^ 2) * ((geigh (fmat c.F x k) 1).1 (c.win b) - c.ref k b) *
          jac c.F (fun k b i => (geigh (fmat c.F x k) 1).2 i (c.win b)) (c.grad geigh it x) k b := by
      simp only [Finset.mul_sum]
      refine Finset.sum_congr rfl fun k _ => Finset.sum_congr rfl fun b _ => ?_
      rw [hw, mul_assoc]
      rfl
    rw [h1] at hp
    have h2 : 0 < 1 / (2 * (K : ℝ) * mb * mk) := by positivity
    nlinarith
  obtain ⟨t0, h1, h2⟩ := neg_deriv_decreases hd hneg
  refine ⟨t0, h1, fun lr h3 h4 => ?_⟩
  have h5 := h2 lr h3 h4
  simp only [zero_smul, add_zero] at h5
  exact h5

/-! ## exact fit -/

/-- C100.  With the pseudoinverse and the other defaults, samples which are independent under the coefficient functions, all bands as reference and constant weights: the loop leaves
the parameters if their loss is below the threshold, and fits the reference exactly otherwise, for every number of iterations but zero. -/
theorem C100_exact (hg : Spec.GeighOk geigh) (c : GD K P n n) (G : Fin K → Fin P → ℂ) (hc : c.Exact G) (hK : K ≠ 0)
    (hsy : c.symm = id) (hk0 : c.trainK0 = true) (hz : c.keepZeros = false) (hlr : c.lr = 1) (hreg : c.reg = 1) (hacc : c.accel = 1)
    (hmono : ∀ k, Monotone (c.ref k)) (m : ℕ) (x : Par P n) :
    ∃ y, c.run geigh (m + 1) 0 none 0 x = .ok y ∧
      ((y = x ∧ c.loss geigh x < c.thr) ∨ ∀ k, (geigh (fmat c.F y k) 1).1 = c.ref k) := by
  have hreg' : ∀ x : Par P n, c.regd x = x := by
    intro x; funext p; simp [GD.regd, hreg]
  have hma : ∀ it, c.maxAccel it = 1 := by
    intro it
    rw [GD.maxAccel, batch_one c hc.batch, hacc, Finset.card_univ, Fintype.card_fin, min_eq_right]
    exact_mod_cast Nat.one_le_iff_ne_zero.2 hK
  have hadd : ∀ it x l, c.add geigh it x l = c.grad geigh it x := by
    intro it x l
    simp [GD.add, hsy, hk0, hz, hlr, hma]
  have hb : c.batchDiv ≠ 0 := by rw [hc.batch]; exact one_ne_zero
  have hne : ∀ it, c.batch it ≠ ∅ := by
    intro it h
    rw [batch_one c hc.batch] at h
    have : (⟨0, Nat.pos_of_ne_zero hK⟩ : Fin K) ∈ (∅ : Finset (Fin K)) := h ▸ Finset.mem_univ _
    simp at this
  have hstep : ∀ it x k, (geigh (fmat c.F (x + c.grad geigh it x) k) 1).1 = c.ref k := by
    intro it x k
    rw [exact_step hg c G hc x it k]
    have h1 := (geigh_spectral (hg _ _ (fmat_herm c.F x k) PosDef.one)).1
    have h2 := spectral_geigh h1 (hmono k)
    refine geigh_unique (hg _ _ ?_ PosDef.one) h2
    rw [← exact_step hg c G hc x it k]
    exact fmat_herm _ _ _
  have hrest : ∀ m it ll l x, (∀ k, (geigh (fmat c.F x k) 1).1 = c.ref k) → ∃ y, c.run geigh m it ll l x = .ok y ∧
      ∀ k, (geigh (fmat c.F y k) 1).1 = c.ref k := by
    intro m
    induction m with
    | zero => intro it ll l x hx; exact ⟨x, rfl, hx⟩
    | succ m ih =>
      intro it ll l x hx
      rw [gd_run_succ, if_neg hb, if_neg (hne it)]
      split
      · exact ⟨_, rfl, by rw [hreg']; exact hx⟩
      · rw [if_neg (by rw [hma]; exact one_ne_zero), hreg', hadd]
        exact ih _ _ _ _ (hstep it x)
  rw [gd_run_succ, if_neg hb, if_neg (hne 0), hreg']
  split
  · rename_i h
    refine ⟨x, rfl, Or.inl ⟨rfl, ?_⟩⟩
    have h1 := h.2
    simp only [stop, Bool.false_or, decide_eq_true_eq, GD.cur, hc.batch, if_true] at h1
    exact h1
  · rw [if_neg (by rw [hma]; exact one_ne_zero), hadd]
    obtain ⟨y, h1, h2⟩ := hrest m 1 (if 0 % 100 = 0 ∨ c.batchDiv = 1 then some (c.cur geigh x) else none) (c.grad geigh 0 x)
      (x + c.grad geigh 0 x) (hstep 0 x)
    exact ⟨y, h1, Or.inr h2⟩

/-! ## the whole function -/

/-- The samples are independent under the first `N` coefficient functions. -/
def Spec.IndepSamples (ks : Fin K → RVec d) (c : BS.Coeff d) (N : ℕ) : Prop :=
  ∀ y : Fin K → ℂ, (∀ p < N, ∑ k, y k * c.fi (ks k) p = 0) → y = 0

/-- Root mean square over the samples of the weighted differences. -/
noncomputable def Spec.bsLoss (geigh : CMat n → CMat n → (Fin n → ℝ) × CMat n) (a : GDArgs K B d) (t : BS.BSM d n) (off : ℤ)
    (h : 0 ≤ off ∧ off ≤ (n : ℤ) - B) : ℝ :=
  Real.sqrt (∑ k, ∑ b : Fin B, ((a.ref k b - (geigh (t.f (a.ks k)) 1).1 ⟨off.toNat + b, by omega⟩) * a.bw b) ^ 2) / Real.sqrt K

variable {lib : Lib n} {pinv : ∀ P K, Matrix (Fin P) (Fin K) ℂ → Matrix (Fin K) (Fin P) ℂ} {err : BS.BSM d n → ℝ}

theorem gd_loss_eq (a : GDArgs K B d) (t1 : BS.BSM d n) (off : ℤ) (h : 0 ≤ off ∧ off ≤ (n : ℤ) - B) (hP : t1.P0.IsHermitian)
    (hr : ∀ k, star (t1.coeff.fi k 0) = t1.coeff.fi k 0) :
    (a.gd pinv err t1 fun b => ⟨off.toNat + b, by omega⟩).loss geigh (bsArr t1) = Spec.bsLoss geigh a t1 off h := by
  rw [GD.loss, Spec.bsLoss]
  congr 2
  refine Finset.sum_congr rfl fun k _ => Finset.sum_congr rfl fun b _ => ?_
  rw [GD.diff]
  have h1 : fmat (bsCoef a.ks t1) (bsArr t1) k = t1.f (a.ks k) := by
    rw [C99_bs_hamiltonian t1 a.ks (bsArr t1) hP k (hr _), bsSet_bsArr]
  simp only [GDArgs.gd]
  rw [h1]

theorem bsOpt_form (hK : K ≠ 0) (t : BS.BSM d n) (a : GDArgs K B d) (off : ℤ) (h : 0 ≤ off ∧ off ≤ (n : ℤ) - B) (m : ℕ) :
    bsOptimize lib pinv err t a off m =
      ((a.gd pinv err (t.normalize lib.eigh) fun b => ⟨off.toNat + b, by omega⟩).run lib.geigh m 0 none 0 (bsArr (t.normalize lib.eigh))).map
        fun x => (bsSet (t.normalize lib.eigh) x).normalize lib.eigh := by
  rw [bsOptimize, if_neg hK, dif_pos h]
  simp only
  cases GD.run lib.geigh _ m 0 none 0 (bsArr (t.normalize lib.eigh)) <;> rfl

/-- C100.  With the defaults `batch_div=1`, `train_k0=True`, `regularization=1`, `learning_rate=1`, `use_pinv=True`, `keep_zeros=False` and no symmetrizer, all bands as sorted reference, constant
weights and samples which are independent under the coefficient functions, a call with at least one iteration succeeds.  Either the loss of the normalised model was already below the
threshold and it is kept.  Or the result is, up to the entries of at most `1e-14` dropped by `normalize`, one basis change of matrices whose bands are the reference at every
sample. -/
theorem C100_fit (hE : BS.Spec.IsEigh lib.eigh) (hg : Spec.GeighOk lib.geigh) (hp : Spec.RectPinv pinv) (hK : K ≠ 0) (t : BS.BSM d n)
    (hs : t.symmetrizer = none) (hN : Spec.RealOrExp t.coeff) (hr : ∀ k, star (t.coeff.fi k 0) = t.coeff.fi k 0) (a : GDArgs K n d)
    (hb : a.batchDiv = 1) (hk0 : a.trainK0 = true) (hreg : a.reg = 1) (hlr : a.lr = 1) (hacc : a.maxAccel = none) (hu : a.usePinv = true) (hz : a.keepZeros = false)
    (hbw : ∃ w : ℝ, w ≠ 0 ∧ ∀ b, a.bw b = w) (hkw : ∃ w : ℝ, w ≠ 0 ∧ ∀ k, a.kw k = w) (hmono : ∀ k, Monotone (a.ref k))
    (hind : Spec.IndepSamples a.ks t.coeff t.params.length) (m : ℕ) :
    ∃ t', bsOptimize lib pinv err t a 0 (m + 1) = .ok t' ∧
      ((Spec.bsLoss lib.geigh a (t.normalize lib.eigh) 0 (by simp) < a.thr ∧ t' = (t.normalize lib.eigh).normalize lib.eigh) ∨
        ∃ (V : CMat n) (M : Fin K → CMat n), Vᴴ * V = 1 ∧ (∀ k, (M k).IsHermitian ∧ (lib.geigh (M k) 1).1 = a.ref k) ∧
          ∀ k i j, ‖t'.f (a.ks k) i j - (Vᴴ * M k * V) i j‖ ≤ 1e-14 * ‖t.coeff.fi (a.ks k) 1‖) := by
  obtain ⟨W, -, -, ⟨w, -, hw⟩, hc1, hl1, hs1⟩ := normalize_any lib.eigh hE t hs hN
  rw [bsOpt_form hK t a 0 (by simp)]
  set t1 := t.normalize lib.eigh with ht1
  have hP : t1.P0.IsHermitian := by
    rw [hw, IsHermitian, diagonal_conjTranspose]
    congr 1
    funext i
    simp
  have hr1 : ∀ k, star (t1.coeff.fi k 0) = t1.coeff.fi k 0 := by rw [hc1]; exact hr
  set c := a.gd pinv err t1 fun b => ⟨(0 : ℤ).toNat + b, by have := b.2; simp⟩ with hcdef
  have hex : c.Exact fun k p => pinv (t1.Ps.length + 1) K (Matrix.of (bsCoef a.ks t1))ᵀ k p := by
    refine ⟨hb, ?_, ?_, fun b => Fin.ext (by simp [hcdef, GDArgs.gd]), hbw, hkw⟩
    · refine pinv_left hp (bsCoef a.ks t1) fun y hy => hind y fun p hp => ?_
      have hlt : p < t1.Ps.length + 1 := by rw [hl1]; simpa [BS.BSM.params] using hp
      have h1 := hy ⟨p, hlt⟩
      simp only [bsCoef, hc1] at h1
      by_cases h0 : p = 0
      · simp only [h0, if_true] at h1
        have h2 : ∑ k, y k * (t.coeff.fi (a.ks k) 0 / 2) = (∑ k, y k * t.coeff.fi (a.ks k) 0) / 2 := by
          rw [Finset.sum_div]
          exact Finset.sum_congr rfl fun k _ => by ring
        rw [h2, div_eq_zero_iff] at h1
        rw [h0]
        exact h1.resolve_right two_ne_zero
      · simpa only [if_neg h0] using h1
    · intro k p
      simp only [hcdef, GDArgs.gd, gdC, hb, hu, and_self, if_true]
  obtain ⟨y, h1, h2⟩ := C100_exact hg c _ hex hK (by simp [hcdef, GDArgs.gd, hs1]) hk0 hz hlr hreg (by simp [hcdef, GDArgs.gd, gdAccel, hacc, hb, hu]) hmono m
    (bsArr t1)
  rw [h1]
  refine ⟨_, rfl, ?_⟩
  rcases h2 with ⟨rfl, h2⟩ | h2
  · left
    refine ⟨?_, by dsimp only; rw [bsSet_bsArr]⟩
    rw [← gd_loss_eq (pinv := pinv) (err := err) a t1 0 (by simp) hP hr1]
    exact h2
  · right
    obtain ⟨V, h3, h4, -⟩ := normalize_any lib.eigh hE (bsSet t1 y) hs1 (by show Spec.RealOrExp t1.coeff; rw [hc1]; exact hN)
    refine ⟨V, fun k => fmat (bsCoef a.ks t1) y k, h3, fun k => ⟨fmat_herm _ _ _, h2 k⟩, fun k i j => ?_⟩
    have h5 := h4 (a.ks k) i j
    show ‖((bsSet t1 y).normalize lib.eigh).f (a.ks k) i j - (Vᴴ * fmat (bsCoef a.ks t1) y k * V) i j‖ ≤ _
    rw [fmat_bs t1 a.ks y k (hr1 _)]
    have h6 : (bsSet t1 y).coeff = t.coeff := hc1
    refine h5.trans (le_of_eq ?_)
    rw [h6]

/-- C100.  Without iterations, or with all samples in one batch and a loss of the normalised model below the threshold, the call only normalises the model. -/
theorem C100_kept (hE : BS.Spec.IsEigh lib.eigh) (hK : K ≠ 0) (t : BS.BSM d n) (hs : t.symmetrizer = none) (hN : Spec.RealOrExp t.coeff)
    (hr : ∀ k, star (t.coeff.fi k 0) = t.coeff.fi k 0) (a : GDArgs K B d) (off : ℤ) (h : 0 ≤ off ∧ off ≤ (n : ℤ) - B) (m : ℕ)
    (hfit : m = 0 ∨ a.batchDiv = 1 ∧ a.reg = 1 ∧ Spec.bsLoss lib.geigh a (t.normalize lib.eigh) off h < a.thr) :
    bsOptimize lib pinv err t a off m = .ok ((t.normalize lib.eigh).normalize lib.eigh) := by
  obtain ⟨W, -, -, ⟨w, -, hw⟩, hc1, hl1, hs1⟩ := normalize_any lib.eigh hE t hs hN
  rw [bsOpt_form hK t a off h]
  rcases hfit with rfl | ⟨h1, h2, h3⟩
  · rw [GD.run, Except.map, bsSet_bsArr]
  · cases m with
    | zero => rw [GD.run, Except.map, bsSet_bsArr]
    | succ m =>
      set t1 := t.normalize lib.eigh with ht1
      have hP : t1.P0.IsHermitian := by
        rw [hw, IsHermitian, diagonal_conjTranspose]
        congr 1
        funext i
        simp
      have hreg : ∀ win x, (a.gd pinv err t1 win).regd x = x := by
        intro win x; funext p; simp [GD.regd, GDArgs.gd, h2]
      rw [gd_run_succ, if_neg (by show ¬ a.batchDiv = 0; rw [h1]; exact one_ne_zero), if_neg (by
        rw [batch_one _ h1]
        intro h
        have : (⟨0, Nat.pos_of_ne_zero hK⟩ : Fin K) ∈ (∅ : Finset (Fin K)) := h ▸ Finset.mem_univ _
        simp at this), if_pos, hreg, Except.map, bsSet_bsArr]
      refine ⟨Or.inr h1, ?_⟩
      rw [hreg, stop]
      simp only [Bool.false_or, decide_eq_true_eq]
      rw [GD.cur, if_pos (show (a.gd pinv err t1 fun b => ⟨off.toNat + b, by omega⟩).batchDiv = 1 from h1), gd_loss_eq a t1 off h hP (by rw [hc1]; exact hr)]
      exact h3

/-- C100.  A successful call without symmetrizer returns the same coefficient functions, the same number of matrices and a first matrix which is diagonal with ascending real entries. -/
theorem C100_result (hE : BS.Spec.IsEigh lib.eigh) (t t' : BS.BSM d n) (hs : t.symmetrizer = none) (hN : Spec.RealOrExp t.coeff) (a : GDArgs K B d)
    (off : ℤ) (m : ℕ) (h : bsOptimize lib pinv err t a off m = .ok t') :
    t'.coeff = t.coeff ∧ t'.params.length = t.params.length ∧ ∃ w : Fin n → ℝ, Monotone w ∧ t'.P0 = diagonal fun i => (w i : ℂ) := by
  obtain ⟨W, -, -, -, hc1, hl1, hs1⟩ := normalize_any lib.eigh hE t hs hN
  by_cases hK : K = 0
  · rw [bsOptimize, if_pos hK] at h; cases h
  by_cases hoff : 0 ≤ off ∧ off ≤ (n : ℤ) - B
  swap
  · rw [bsOptimize, if_neg hK, dif_neg hoff] at h; cases h
  rw [bsOpt_form hK t a off hoff] at h
  revert h
  cases hrun : GD.run lib.geigh _ m 0 none 0 (bsArr (t.normalize lib.eigh)) with
  | error e => intro h; cases h
  | ok x =>
    intro h
    rw [Except.map] at h
    rw [← Except.ok.inj h]
    obtain ⟨V, -, -, h3, h4, h5, -⟩ := normalize_any lib.eigh hE (bsSet (t.normalize lib.eigh) x) hs1 (by
      show Spec.RealOrExp (t.normalize lib.eigh).coeff; rw [hc1]; exact hN)
    refine ⟨h4.trans hc1, ?_, h3⟩
    simp only [BS.BSM.params, List.length_cons]
    rw [h5]
    simp [bsSet, hl1]

theorem fi_zero_reduced (data : BS.TBData d) (h : data.cosReduced = true) (i : ℕ) (hi : i ≠ 0) : data.fi 0 i = 0 := by
  rw [BS.TBData.fi, if_neg hi, BS.foldl_add_sum, zero_add]
  refine List.sum_eq_zero fun x hx => ?_
  obtain ⟨s, -, rfl⟩ := List.mem_map.1 hx
  simp only [zero_dotProduct, mul_zero, BS.TBData.func, h, if_true]
  split
  · simp
  · split
    · simp
    · split <;> simp

theorem f_reduced (b : BS.BSM d n) (data : BS.TBData d) (hc : b.coeff = .tb data) (h : data.cosReduced = true) : b.f 0 = b.P0 := by
  have h1 : ∀ i, b.coeff.fi 0 (i + 1) = 0 := by
    intro i
    rw [hc]
    exact fi_zero_reduced data h (i + 1) (by omega)
  have h2 : b.coeff.fi 0 0 = 1 := by rw [hc]; simp [BS.Coeff.fi, BS.TBData.fi]
  simp only [BS.BSM.f, BS.BSM.hsum, h1, h2, zero_smul, Finset.sum_const_zero, conjTranspose_zero, add_zero, zero_add, one_smul]

/-- C100.  For a model with `cos_reduced=True` a call with `train_k0=False` changes `f(0)` by a change of the basis only, whatever the other arguments are. -/
theorem C100_train_k0_f (hE : BS.Spec.IsEigh lib.eigh) (t t' : BS.BSM d n) (hs : t.symmetrizer = none) (data : BS.TBData d) (hc : t.coeff = .tb data)
    (hei : data.exp = false ∨ data.inversion = false) (hred : data.cosReduced = true) (hP : t.P0.IsHermitian) (a : GDArgs K B d)
    (hk : a.trainK0 = false) (off : ℤ) (m : ℕ) (h : bsOptimize lib pinv err t a off m = .ok t') :
    ∃ V : CMat n, Vᴴ * V = 1 ∧ t'.f 0 = Vᴴ * t.f 0 * V := by
  have hN : Spec.RealOrExp t.coeff := Or.inr ⟨data, hc, hei⟩
  have key : ∀ b : BS.BSM d n, b.symmetrizer = none → b.coeff = t.coeff → b.P0.IsHermitian →
      ∃ V : CMat n, Vᴴ * V = 1 ∧ (b.normalize lib.eigh).P0 = Vᴴ * b.P0 * V := by
    intro b hb1 hb2 hb3
    obtain ⟨V, h1, h2, -, h3, -⟩ := normalize_any lib.eigh hE b hb1 (by rw [hb2]; exact hN)
    refine ⟨V, h1, ?_⟩
    ext i j
    have h4 := h2 0 i j
    rw [hb2, hc] at h4
    have h5 : (BS.Coeff.tb data).fi 0 1 = 0 := fi_zero_reduced data hred 1 one_ne_zero
    rw [h5, norm_zero, mul_zero, norm_le_zero_iff, sub_eq_zero] at h4
    rw [f_reduced _ data (by rw [h3, hb2, hc]) hred, f_reduced _ data (by rw [← hc, ← hb2]) hred] at h4
    rw [h4]
    have h6 : (1 / 2 : ℂ) • BS.plusAdj b.P0 = b.P0 := by
      rw [BS.plusAdj, hb3.eq]; module
    simp only [h6]
  obtain ⟨W, -, -, ⟨w, -, hw⟩, hc1, hl1, hs1⟩ := normalize_any lib.eigh hE t hs hN
  have hcoeff := (C100_result hE t t' hs hN a off m h).1
  have hP1 : (t.normalize lib.eigh).P0.IsHermitian := by
    rw [hw, IsHermitian, diagonal_conjTranspose]
    congr 1
    funext i
    simp
  by_cases hK : K = 0
  · rw [bsOptimize, if_pos hK] at h; cases h
  by_cases hoff : 0 ≤ off ∧ off ≤ (n : ℤ) - B
  swap
  · rw [bsOptimize, if_neg hK, dif_neg hoff] at h; cases h
  rw [bsOpt_form hK t a off hoff] at h
  revert h
  cases hrun : GD.run lib.geigh _ m 0 none 0 (bsArr (t.normalize lib.eigh)) with
  | error e => intro h; cases h
  | ok x =>
    intro h
    rw [Except.map] at h
    have h1 := C100_train_k0 _ hk m 0 none _ x hrun
    have h2 : (bsSet (t.normalize lib.eigh) x).P0 = (t.normalize lib.eigh).P0 := h1
    obtain ⟨V1, hV1, e1⟩ := key t hs rfl hP
    obtain ⟨V2, hV2, e2⟩ := key (bsSet (t.normalize lib.eigh) x) hs1 hc1 (by rw [h2]; exact hP1)
    refine ⟨V1 * V2, ?_, ?_⟩
    · rw [conjTranspose_mul, Matrix.mul_assoc, ← Matrix.mul_assoc V1ᴴ, hV1, Matrix.one_mul, hV2]
    · rw [f_reduced t' data (by rw [hcoeff, hc]) hred, f_reduced t data hc hred, ← Except.ok.inj h, e2, h2, e1, conjTranspose_mul]
      simp only [Matrix.mul_assoc]

/-- C100.  The exceptions: an invalid offset; `batch_div=0`; more batches than samples (fewer than 100), if the iterations reach an empty batch and the first loss is not below the threshold. -/
theorem C100_errors (hK : K ≠ 0) (t : BS.BSM d n) (a : GDArgs K B d) (off : ℤ) (m : ℕ) :
    (¬ (0 ≤ off ∧ off ≤ (n : ℤ) - B) → bsOptimize lib pinv err t a off m = .error .assertionError) ∧
    (0 ≤ off ∧ off ≤ (n : ℤ) - B → a.batchDiv = 0 → bsOptimize lib pinv err t a off (m + 1) = .error .zeroDivision) ∧
    (0 ≤ off ∧ off ≤ (n : ℤ) - B → K < a.batchDiv → K < 100 → K < m → a.reg = 1 → a.maxAccel = none → a.thr ≤ err (t.normalize lib.eigh) →
      bsOptimize lib pinv err t a off m = .error .indexError) := by
  refine ⟨?_, ?_, ?_⟩
  · intro h
    rw [bsOptimize, if_neg hK, dif_neg h]
  · intro h h0
    rw [bsOpt_form hK t a off h, gd_run_succ, if_pos (show (a.gd pinv err (t.normalize lib.eigh) fun b => ⟨off.toNat + b, by omega⟩).batchDiv = 0 from h0)]
    rfl
  · intro h hd h100 hm hreg hacc hthr
    rw [bsOpt_form hK t a off h]
    set t1 := t.normalize lib.eigh
    set c := a.gd pinv err t1 fun b => ⟨off.toNat + b, by omega⟩ with hc
    have hbd : c.batchDiv = a.batchDiv := rfl
    have hregd : ∀ x, c.regd x = x := by
      intro x; funext p; simp [GD.regd, hc, GDArgs.gd, hreg]
    have hmem : ∀ it, it ≤ K → ∀ k, k ∈ c.batch it ↔ k.1 = it := by
      intro it hit k
      have := k.2
      rw [GD.batch, Finset.mem_filter, hbd, Nat.mod_eq_of_lt (by omega), Nat.mod_eq_of_lt (by omega)]
      simp
    have hcard : ∀ it, it < K → (c.batch it).card = 1 := by
      intro it hit
      rw [Finset.card_eq_one]
      refine ⟨⟨it, hit⟩, ?_⟩
      ext k
      rw [hmem it hit.le, Finset.mem_singleton, Fin.ext_iff]
    have hrun : ∀ j it ll l x, it + j = K → (it = 0 → ll = none ∧ x = bsArr t1) → ∀ r, c.run lib.geigh (j + 1 + r) it ll l x = .error .indexError := by
      intro j
      induction j with
      | zero =>
        intro it ll l x h1 _ r
        rw [show 0 + 1 + r = r + 1 by omega, gd_run_succ, if_neg (by rw [hbd]; omega), if_pos]
        ext k
        rw [hmem it (by omega)]
        have := k.2
        simp; omega
      | succ j ih =>
        intro it ll l x h1 h2 r
        rw [show j + 1 + 1 + r = (j + 1 + r) + 1 by omega, gd_run_succ, if_neg (by rw [hbd]; omega), if_neg, if_neg, if_neg]
        · exact ih (it + 1) _ _ _ (by omega) (by omega) r
        · rw [GD.maxAccel, hcard it (by omega)]
          have : c.accel = K := by simp [hc, GDArgs.gd, gdAccel, hacc]; omega
          rw [this, Nat.cast_one, min_eq_left]
          · exact one_ne_zero
          · exact_mod_cast Nat.one_le_iff_ne_zero.2 hK
        · rintro ⟨h3, h4⟩
          rcases h3 with h3 | h3
          · have h5 : it = 0 := by omega
            obtain ⟨rfl, rfl⟩ := h2 h5
            rw [hregd, stop] at h4
            simp only [Bool.false_or, decide_eq_true_eq] at h4
            rw [GD.cur, if_neg (by rw [hbd]; omega)] at h4
            have h6 : c.err (bsArr t1) = err t1 := by
              show err (bsSet t1 (bsArr t1)) = _
              rw [bsSet_bsArr]
            rw [h6] at h4
            exact absurd h4 (not_lt.2 hthr)
          · rw [hbd] at h3; omega
        · intro h3
          have := hcard it (by omega)
          rw [h3] at this
          simp at this
    obtain ⟨r, rfl⟩ : ∃ r, m = K + 1 + r := ⟨m - (K + 1), by omega⟩
    rw [hrun K 0 none 0 _ (by omega) (fun _ => ⟨rfl, rfl⟩) r]
    rfl

/-! ## defects and examples -/

/-- A chain with one band, `params` zero, not `cos_reduced`. -/
def exChain : BS.BSM 1 1 := ⟨.tb ⟨[1], true, [0, ![1]], false, false⟩, 0, [0], none⟩

/-- One sample at zero with the reference `1`, `train_k0=False`, without pseudoinverse. -/
noncomputable def exChainArgs : GDArgs 1 1 1 := ⟨fun _ => 0, fun _ => 1, fun _ _ => 1, fun _ => 1, 1, false, 1, 1, none, false, false, 1e-3, 1e-16⟩

theorem exChain_norm (eigh : CMat 1 → (Fin 1 → ℝ) × CMat 1) : exChain.normalize eigh = exChain := by
  simp [BS.BSM.normalize, exChain, BS.plusAdj]

theorem exChain_fi (k : RVec 1) : exChain.coeff.fi k 1 = Real.cos (2 * Real.pi * k 0) := by
  simp [exChain, BS.Coeff.fi, BS.TBData.fi, BS.TBData.func, BS.TBData.rOrig]
  rfl

theorem exChain_fi0 (k : RVec 1) : exChain.coeff.fi k 0 = 1 := by
  simp [exChain, BS.Coeff.fi, BS.TBData.fi]

/-- C100, defect.  Without `cos_reduced` the value `f(0)` is not kept by `train_k0=False`: for the zero model and one sample at zero with the reference `1`, one iteration changes it from `0`
to `4/5`. -/
theorem C100_train_k0_defect {lib : Lib 1} (hE : BS.Spec.IsEigh lib.eigh) (hg : Spec.GeighOk lib.geigh)
    (pinv : ∀ P K, Matrix (Fin P) (Fin K) ℂ → Matrix (Fin K) (Fin P) ℂ) (err : BS.BSM 1 1 → ℝ) :
    exChain.f 0 = 0 ∧ ∃ t', bsOptimize lib pinv err exChain exChainArgs 0 1 = .ok t' ∧ ‖t'.f 0 0 0 - 4 / 5‖ ≤ 1e-14 := by
  have hf0 : exChain.f 0 = 0 := by
    simp [BS.BSM.f, BS.BSM.hsum, exChain]
  refine ⟨hf0, ?_⟩
  rw [bsOpt_form one_ne_zero exChain exChainArgs 0 (by simp), exChain_norm]
  set c := exChainArgs.gd pinv err exChain fun b => ⟨(0 : ℤ).toNat + b, by have := b.2; simp⟩ with hc
  have hF0 : c.F 0 0 = 1 / 2 := by
    show bsCoef exChainArgs.ks exChain 0 0 = _
    simp [bsCoef, exChain_fi0]
  have hF1 : c.F 0 1 = 1 := by
    show bsCoef exChainArgs.ks exChain 0 1 = _
    have : bsCoef exChainArgs.ks exChain 0 1 = exChain.coeff.fi 0 1 := rfl
    rw [this, exChain_fi]
    simp
  have hx : bsArr exChain = 0 := by
    funext p
    fin_cases p <;> rfl
  have hfm : fmat c.F (bsArr exChain) 0 = 0 := by rw [hx]; simp [fmat]
  have hgg := hg 0 1 isHermitian_zero PosDef.one
  have he : (lib.geigh 0 1).1 0 = 0 := by
    have h1 := congrFun (congrFun hgg.diag 0) 0
    simpa [rot] using h1.symm
  have hv : (lib.geigh 0 1).2 0 0 * star ((lib.geigh 0 1).2 0 0) = 1 := by
    have h1 := congrFun (congrFun (geigh_spectral hgg).1 0) 0
    simpa [mul_apply] using h1
  have hu := batch_one c rfl 0
  have hdiff : c.diff lib.geigh (bsArr exChain) 0 0 = 1 := by
    have h1 : c.win 0 = 0 := rfl
    have h2 : c.ref 0 0 = 1 := rfl
    rw [GD.diff, hfm, h1, he, h2, sub_zero]
  have hs : c.s 0 = 5 / 4 := by
    rw [GD.s]
    have h : ∀ g : Fin (exChain.Ps.length + 1) → ℝ, ∑ p, g p = g 0 + g 1 := fun g => Fin.sum_univ_two g
    rw [h, hF0, hF1]
    norm_num
  have hw : c.weighted lib.geigh 0 (bsArr exChain) 0 0 = 2 / 5 := by
    have h1 : c.bwN 0 = 1 := by
      rw [GD.bwN]
      simp [hc, GDArgs.gd, exChainArgs]
    have h2 : c.kwN 0 0 = 1 := by
      rw [GD.kwN, hu]
      simp [hc, GDArgs.gd, exChainArgs]
    rw [GD.weighted, hdiff, h1, h2, hs, hu]
    norm_num
  have hadd1 : c.add lib.geigh 0 (bsArr exChain) 0 1 = (2 / 5 : ℂ) • 1 := by
    have h1 : c.add lib.geigh 0 (bsArr exChain) 0 1 = c.grad lib.geigh 0 (bsArr exChain) 1 := by
      have h2 : ∀ g : Par (exChain.Ps.length + 1) 1, (1 : ℝ) • zero0 g 1 = g 1 := by
        intro g
        rw [one_smul, zero0, if_neg]
        exact one_ne_zero
      simp only [GD.add]
      rw [smul_zero, add_zero]
      exact h2 _
    rw [h1, GD.grad, hu]
    ext i j
    rw [Subsingleton.elim i 0, Subsingleton.elim j 0]
    simp only [Finset.univ_unique, Finset.sum_singleton]
    have h3 : c.C (default : Fin 1) 1 = star (c.F 0 1) := by
      show gdC pinv false 1 c.F 0 1 = _
      simp [gdC]
    rw [h3, hF1, Subsingleton.elim (default : Fin 1) 0, hw, Matrix.smul_apply, outer, vecMulVec_apply, Pi.star_apply]
    have h4 : c.vec lib.geigh (bsArr exChain) 0 0 0 = (lib.geigh 0 1).2 0 0 := by rw [GD.vec, hfm]; rfl
    rw [h4, hv]
    norm_num
  have hadd0 : c.add lib.geigh 0 (bsArr exChain) 0 0 = 0 := by
    simp only [GD.add]
    rw [smul_zero, add_zero]
    simp [hc, GDArgs.gd, exChainArgs, zero0]
  have hregd : c.regd (bsArr exChain) = bsArr exChain := by
    rw [hx]; funext p; simp [GD.regd]
  have hrun : c.run lib.geigh 1 0 none 0 (bsArr exChain) = .ok (bsArr exChain + c.add lib.geigh 0 (bsArr exChain) 0) := by
    rw [gd_run_succ, if_neg (show ¬ c.batchDiv = 0 from one_ne_zero), if_neg (by rw [hu]; simp), hregd, if_neg, if_neg, GD.run]
    · rw [GD.maxAccel, hu]
      simp [hc, GDArgs.gd, exChainArgs, gdAccel]
    · rintro ⟨-, h1⟩
      rw [stop] at h1
      simp only [Bool.false_or, decide_eq_true_eq] at h1
      rw [GD.cur, if_pos (show c.batchDiv = 1 from rfl), GD.loss] at h1
      simp only [Finset.univ_unique, Finset.sum_singleton, Fin.default_eq_zero, hdiff] at h1
      have h2 : c.bw 0 = 1 := rfl
      have h3 : c.thr = 1e-16 := rfl
      rw [h2, h3] at h1
      norm_num at h1
  rw [hrun]
  refine ⟨_, rfl, ?_⟩
  set y := bsArr exChain + c.add lib.geigh 0 (bsArr exChain) 0 with hy
  have hy0 : y 0 = 0 := by rw [hy, Pi.add_apply, hadd0, hx]; simp
  have hy1 : y 1 = (2 / 5 : ℂ) • 1 := by rw [hy, Pi.add_apply, hadd1, hx]; simp
  have hset : bsSet exChain y = ⟨exChain.coeff, 0, [(2 / 5 : ℂ) • 1], none⟩ := by
    rw [← hy0, ← hy1]
    rfl
  show ‖((bsSet exChain y).normalize lib.eigh).f 0 0 0 - 4 / 5‖ ≤ _
  rw [hset]
  obtain ⟨V, h1, h2, -⟩ := normalize_any lib.eigh hE (⟨exChain.coeff, 0, [(2 / 5 : ℂ) • 1], none⟩ : BS.BSM 1 1) rfl
    (Or.inr ⟨_, rfl, Or.inl rfl⟩)
  have h3 := h2 0 0 0
  have h4 : ({ (⟨exChain.coeff, 0, [(2 / 5 : ℂ) • 1], none⟩ : BS.BSM 1 1) with P0 := (1 / 2 : ℂ) • BS.plusAdj 0 } : BS.BSM 1 1).f 0 = (4 / 5 : ℂ) • 1 := by
    simp only [BS.BSM.f, BS.BSM.hsum, BS.plusAdj, List.length_singleton, Finset.range_one, Finset.sum_singleton, zero_add, exChain_fi]
    ext i j
    rw [Subsingleton.elim i 0, Subsingleton.elim j 0]
    simp
    norm_num
  rw [h4, Matrix.mul_smul, Matrix.mul_one, Matrix.smul_mul, h1] at h3
  simp only [exChain_fi, Pi.zero_apply, mul_zero, Real.cos_zero, Complex.ofReal_one, norm_one, mul_one, Matrix.smul_apply, one_apply_eq, smul_eq_mul] at h3
  exact h3

/-- A model with zeros on the diagonal of the first matrix. -/
def exZeros : BS.BSM 1 2 := ⟨.tb ⟨[1], true, [0], true, false⟩, exFlip, [], none⟩

/-- C100, defect.  The zeros of the model are not kept by `keep_zeros=True`: `optimize` normalises it before the mask is computed and at the end. -/
theorem C100_keep_zeros_defect {lib : Lib 2} (hE : BS.Spec.IsEigh lib.eigh) (pinv : ∀ P K, Matrix (Fin P) (Fin K) ℂ → Matrix (Fin K) (Fin P) ℂ)
    (err : BS.BSM 1 2 → ℝ) (hK : K ≠ 0) (a : GDArgs K B 1) (ha : a.trainK0 = false) (_hz : a.keepZeros = true) (off : ℤ) (h : 0 ≤ off ∧ off ≤ (2 : ℤ) - B) :
    exZeros.P0 0 0 = 0 ∧ (∃ t', bsOptimize lib pinv err exZeros a off 0 = .ok t') ∧
      ∀ m t', bsOptimize lib pinv err exZeros a off m = .ok t' → t'.P0 0 0 ≠ 0 := by
  have hX : exFlip.IsHermitian := by
    ext i j; fin_cases i <;> fin_cases j <;> simp [exFlip]
  refine ⟨by simp [exZeros, exFlip], ⟨_, C100_kept hE hK exZeros rfl (Or.inr ⟨_, rfl, Or.inl rfl⟩) (fun k => ?_) a off h 0 (Or.inl rfl)⟩, ?_⟩
  · simp [exZeros, BS.Coeff.fi, BS.TBData.fi]
  · intro m t' ht h0
    obtain ⟨V, h1, h2⟩ := C100_train_k0_f hE exZeros t' rfl _ rfl (Or.inl rfl) rfl hX a ha off m ht
    obtain ⟨hc, -, w, -, hw⟩ := C100_result hE exZeros t' rfl (Or.inr ⟨_, rfl, Or.inl rfl⟩) a off m ht
    rw [f_reduced t' _ hc rfl, f_reduced exZeros _ rfl rfl] at h2
    have h3 := congrArg det h2
    have h4 := congrArg det h1
    rw [det_mul, det_one] at h4
    rw [det_mul, det_mul, mul_right_comm, h4, one_mul] at h3
    have h5 : det exZeros.P0 = -1 := by simp [exZeros, exFlip, det_fin_two]
    rw [h5, det_fin_two, h0, zero_mul, hw, diagonal_apply_ne _ (show (0 : Fin 2) ≠ 1 by decide)] at h3
    norm_num at h3

/-- Two samples of the chain, at zero and at the zone boundary, and one iteration with the defaults. -/
noncomputable def exFitChain : GDArgs 2 1 1 :=
  ⟨![0, ![1 / 2]], fun _ => 1, ![![3], ![5]], fun _ => 2, 1, true, 1, 1, none, true, false, 1e-3, 1e-16⟩

theorem exFitChain_indep : Spec.IndepSamples exFitChain.ks exChain.coeff exChain.params.length := by
  intro y hy
  have h0 := hy 0 (by simp [BS.BSM.params])
  have h1 := hy 1 (by simp [BS.BSM.params, exChain])
  simp only [Fin.sum_univ_two, exChain_fi0, exChain_fi, exFitChain, cons_val_zero, cons_val_one, Pi.zero_apply, mul_zero, Real.cos_zero] at h0 h1
  rw [show 2 * Real.pi * (1 / 2) = Real.pi by ring, Real.cos_pi] at h1
  push_cast at h1
  funext k
  fin_cases k
  · show y 0 = 0
    linear_combination (h0 + h1) / 2
  · show y 1 = 0
    linear_combination (h0 - h1) / 2

/-- `C100_fit` applies to the chain: with one iteration both samples are fitted. -/
example {lib : Lib 1} {pinv : ∀ P K, Matrix (Fin P) (Fin K) ℂ → Matrix (Fin K) (Fin P) ℂ} (err : BS.BSM 1 1 → ℝ) (hE : BS.Spec.IsEigh lib.eigh)
    (hg : Spec.GeighOk lib.geigh) (hp : Spec.RectPinv pinv) : ∃ t', bsOptimize lib pinv err exChain exFitChain 0 1 = .ok t' := by
  obtain ⟨t', h, -⟩ := C100_fit (err := err) hE hg hp two_ne_zero exChain rfl (Or.inr ⟨_, rfl, Or.inl rfl⟩) (fun k => by rw [exChain_fi0]; simp) exFitChain
    rfl rfl rfl rfl rfl rfl rfl ⟨2, two_ne_zero, fun _ => rfl⟩ ⟨1, one_ne_zero, fun _ => rfl⟩ (fun k i j _ => by rw [Subsingleton.elim i j])
    exFitChain_indep 0
  exact ⟨t', h⟩

/-- The library routines exist. -/
example : (∃ eigh : CMat 2 → (Fin 2 → ℝ) × CMat 2, BS.Spec.IsEigh eigh) ∧ (∃ geigh : CMat 2 → CMat 2 → (Fin 2 → ℝ) × CMat 2, Spec.GeighOk geigh) ∧
    ∃ pinv, Spec.RectPinv pinv := ⟨exists_bs_eigh 2, exists_geighOk 2, exists_rectPinv⟩

/-- `C100_descent` applies to the chain without pseudoinverse. -/
example (hg : Spec.GeighOk (n := 1) geigh') (err : BS.BSM 1 1 → ℝ) (pinv : ∀ P K, Matrix (Fin P) (Fin K) ℂ → Matrix (Fin K) (Fin P) ℂ) (x : Par 2 1) :=
  C100_descent hg (({ exFitChain with usePinv := false } : GDArgs 2 1 1).gd pinv err exChain fun b => b) rfl
    (fun k p => by simp [GDArgs.gd, gdC]) rfl rfl rfl (fun _ => two_pos) (fun _ => one_pos) x
    (fun k b j h => absurd (Subsingleton.elim j b) h) 0

end TB.Opt

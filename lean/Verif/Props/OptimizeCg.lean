import Verif.Lemmas.Optimize

/-!
# C99: `optimize_cg` of `AsymTightBindingModel` and `BandStructureModel`
-/

set_option linter.unusedSectionVars false

namespace TB.Opt
open Matrix TB Filter Topology
open scoped ComplexOrder

variable {K P n B d : ℕ}

/-- Contract of `geigh`. -/
def Spec.GeighOk (geigh : CMat n → CMat n → (Fin n → ℝ) × CMat n) : Prop :=
  ∀ H S : CMat n, H.IsHermitian → S.PosDef → TB.Spec.IsGeigh H S (geigh H S).1 (geigh H S).2

/-- Such a routine exists. -/
theorem exists_geighOk (n : ℕ) : ∃ geigh : CMat n → CMat n → (Fin n → ℝ) × CMat n, Spec.GeighOk geigh := by
  classical
  refine ⟨fun H S => if h : H.IsHermitian ∧ S.PosDef then
    (Classical.choose (SE.exists_geigh h.1 h.2), Classical.choose (Classical.choose_spec (SE.exists_geigh h.1 h.2))) else (0, 0), ?_⟩
  intro H S hH hS
  simp only [dif_pos (show H.IsHermitian ∧ S.PosDef from ⟨hH, hS⟩)]
  exact Classical.choose_spec (Classical.choose_spec (SE.exists_geigh hH hS))

/-- The weighted square of the difference between bands and reference. -/
noncomputable def Spec.sq (geigh : CMat n → CMat n → (Fin n → ℝ) × CMat n) (c : Fit K P n B) (x : Par P n) : ℝ :=
  ∑ k, ∑ b, (c.bw b * ((geigh (fmat c.F x k) (c.S k)).1 (c.win b) - c.ref k b)) ^ 2

variable {geigh : CMat n → CMat n → (Fin n → ℝ) × CMat n}

theorem loss_eq (c : Fit K P n B) (x : Par P n) : c.loss geigh x = Real.sqrt (Spec.sq geigh c x) / Real.sqrt K := by
  rw [Fit.loss, Spec.sq]
  congr 2
  refine Finset.sum_congr rfl fun k _ => Finset.sum_congr rfl fun b _ => ?_
  rw [Fit.diff, mul_comm]

/-- The bands of the window are simple at the parameters `x` for every sample. -/
def Spec.Simple (geigh : CMat n → CMat n → (Fin n → ℝ) × CMat n) (c : Fit K P n B) (x : Par P n) : Prop :=
  ∀ k b j, j ≠ c.win b → (geigh (fmat c.F x k) (c.S k)).1 j ≠ (geigh (fmat c.F x k) (c.S k)).1 (c.win b)

theorem sq_deriv (hg : Spec.GeighOk geigh) (c : Fit K P n B) (hS : ∀ k, (c.S k).PosDef) (x : Par P n) (hs : Spec.Simple geigh c x)
    (y : Par P n) : HasDerivAt (fun t : ℝ => Spec.sq geigh c (x + t • y))
      (2 * ∑ k, ∑ b, c.diff geigh x k b * (c.bw b * c.bw b) * jac c.F (c.vec geigh x) y k b) 0 := by
  have h1 : ∀ k b, HasDerivAt (fun t : ℝ => (geigh (fmat c.F (x + t • y) k) (c.S k)).1 (c.win b))
      (jac c.F (c.vec geigh x) y k b) 0 := by
    intro k b
    have h := C52_simple (fun t : ℝ => fmat c.F (x + t • y) k) (fun _ => c.S k)
      (fun t => (geigh (fmat c.F (x + t • y) k) (c.S k)).2) (fmat c.F y k) 0
      (fun t => (geigh (fmat c.F (x + t • y) k) (c.S k)).1) 0
      (Eventually.of_forall fun t => hg _ _ (fmat_herm _ _ _) (hS k))
      (by
        intro i j
        have h2 : ∀ t : ℝ, fmat c.F (x + t • y) k i j = fmat c.F x k i j + (t : ℂ) * fmat c.F y k i j := by
          intro t; rw [fmat_add, fmat_smul]; rfl
        simp only [h2]
        have h3 : HasDerivAt (fun t : ℝ => (t : ℂ)) 1 0 := (hasDerivAt_id (0 : ℝ)).ofReal_comp
        simpa using (h3.mul_const (fmat c.F y k i j)).const_add (fmat c.F x k i j))
      (fun i j => hasDerivAt_const _ _) (c.win b) (by simpa using hs k b)
    refine h.congr_deriv ?_
    simp only [zero_smul, add_zero]
    rw [geighGrad]
    have h4 : rot (geigh (fmat c.F x k) (c.S k)).2 (0 : CMat n) = 0 := by simp [rot]
    rw [h4, rot_apply]
    simp [jac]
    rfl
  have h5 : ∀ k b, HasDerivAt (fun t : ℝ => (c.bw b * ((geigh (fmat c.F (x + t • y) k) (c.S k)).1 (c.win b) - c.ref k b)) ^ 2)
      (2 * (c.diff geigh x k b * (c.bw b * c.bw b) * jac c.F (c.vec geigh x) y k b)) 0 := by
    intro k b
    refine ((((h1 k b).sub_const (c.ref k b)).const_mul (c.bw b)).pow 2).congr_deriv ?_
    simp only [zero_smul, add_zero, Fit.diff]
    push_cast
    ring
  have h6 := HasDerivAt.fun_sum (u := Finset.univ) fun k _ => HasDerivAt.fun_sum (u := Finset.univ) fun b _ => h5 k b
  refine h6.congr_deriv ?_
  simp only [Finset.mul_sum]

theorem neg_deriv_decreases {f : ℝ → ℝ} {D : ℝ} (h : HasDerivAt f D 0) (hD : D < 0) : ∃ t0 > (0 : ℝ), ∀ t : ℝ, 0 < t → t < t0 → f t < f 0 := by
  have h1 := (hasDerivAt_iff_isLittleO.1 h).def (c := -D / 2) (by linarith)
  rw [Metric.eventually_nhds_iff] at h1
  obtain ⟨t0, ht0, h2⟩ := h1
  refine ⟨t0, ht0, fun t h3 h4 => ?_⟩
  have h5 := h2 (y := t) (by rw [Real.dist_eq, sub_zero, abs_of_pos h3]; exact h4)
  rw [sub_zero, smul_eq_mul, Real.norm_eq_abs, Real.norm_eq_abs, abs_of_pos h3] at h5
  have h6 := (abs_le.1 h5).2
  nlinarith

theorem applyE_surj {E : Matrix (Fin P) (Fin P) ℂ} (hE : IsUnit E.det) (y : Par P n) : ∃ z, applyE E z = y := by
  refine ⟨applyE E⁻¹ y, ?_⟩
  funext l
  simp only [applyE, Finset.smul_sum, smul_smul]
  rw [Finset.sum_comm]
  simp only [← Finset.sum_smul]
  have h1 : ∀ q, (∑ p, E l p * E⁻¹ p q) = (1 : Matrix (Fin P) (Fin P) ℂ) l q := by
    intro q
    rw [← Matrix.mul_apply, Matrix.mul_nonsing_inv E hE]
  simp only [h1, Matrix.one_apply, ite_smul, one_smul, zero_smul, Finset.sum_ite_eq, Finset.mem_univ, if_true]

/-- C99.  At parameters where the fitted bands are simple, one of two things holds for every setting of the conjugate gradient solver: either the
derivative of the square loss vanishes in all directions and the step is zero, or the loss decreases strictly along the
negative step. -/
theorem C99_descent (hg : Spec.GeighOk geigh) (c : Fit K P n B) (hK : K ≠ 0) (hE : IsUnit c.E.det) (hS : ∀ k, (c.S k).PosDef) (x : Par P n)
    (hs : Spec.Simple geigh c x) :
    ((∀ y, HasDerivAt (fun t : ℝ => Spec.sq geigh c (x + t • y)) 0 0) ∧ (c.lin geigh x).step (c.diff geigh x) c.maxCg = 0) ∨
    ((∃ D < 0, HasDerivAt (fun t : ℝ => Spec.sq geigh c (x - t • (c.lin geigh x).step (c.diff geigh x) c.maxCg)) D 0) ∧
      ∃ t0 > (0 : ℝ), ∀ t : ℝ, 0 < t → t < t0 →
        c.loss geigh (x - t • (c.lin geigh x).step (c.diff geigh x) c.maxCg) < c.loss geigh x) := by
  set L := c.lin geigh x with hL
  set df := c.diff geigh x with hdf
  have hw : ∀ b, 0 ≤ L.w b := fun b => mul_self_nonneg _
  have hK' : (0 : ℝ) < K := by exact_mod_cast Nat.pos_of_ne_zero hK
  by_cases hb : L.rhs df = 0
  · left
    constructor
    · intro y
      obtain ⟨z, rfl⟩ := applyE_surj hE y
      refine (sq_deriv hg c hS x hs (applyE c.E z)).congr_deriv ?_
      have h1 := parIp_rhs L z df
      rw [hb, parIp_isIp.zero_right, mul_zero] at h1
      change 2 * ∑ k, ∑ b, df k b * L.w b * jac L.F L.v (applyE L.E z) k b = 0
      rw [← h1, mul_zero]
    · rw [Lin.step, Lin.solve, hb, cgSolveV_zero (A_isPSD L hw)]
      have : applyE L.E (0 : Par P n) = 0 := by funext l; simp [applyE]
      rw [this, smul_zero]
  · right
    have hneg := cgSolveV_neg parIp_isIp (A_isPSD L hw) (L.rhs df) (rhs_kernel L hw df)
      (Real.sqrt (parIp (L.rhs df) (L.rhs df)) * 1e-3) c.maxCg hb
    change phi parIp L.A (L.rhs df) (L.solve df c.maxCg) < 0 at hneg
    set y := L.solve df c.maxCg with hy
    have hpos : 0 < parIp y (L.rhs df) := by
      have h1 := (A_isPSD L hw).nonneg y
      rw [phi, parIp_isIp.symm (L.rhs df)] at hneg
      linarith
    have h2 := sq_deriv hg c hS x hs (-L.step df c.maxCg)
    have h3 : ∀ t : ℝ, x + t • -L.step df c.maxCg = x - t • L.step df c.maxCg := fun t => by rw [smul_neg, ← sub_eq_add_neg]
    simp only [h3] at h2
    have h4 : 2 * ∑ k, ∑ b, c.diff geigh x k b * (c.bw b * c.bw b) * jac c.F (c.vec geigh x) (-L.step df c.maxCg) k b =
        -(4 / K * parIp y (L.rhs df)) := by
      have h5 := parIp_rhs L y df
      have h6 : ∀ k b, jac c.F (c.vec geigh x) (-L.step df c.maxCg) k b = -((K : ℝ)⁻¹ * jac L.F L.v (applyE L.E y) k b) := by
        intro k b
        rw [← neg_one_smul ℝ, jac_smul, Lin.step, jac_smul]
        change -1 * ((K : ℝ)⁻¹ * jac L.F L.v (applyE L.E y) k b) = _
        ring
      simp only [h6]
      have h7 : (∑ k, ∑ b, c.diff geigh x k b * (c.bw b * c.bw b) * -((K : ℝ)⁻¹ * jac L.F L.v (applyE L.E y) k b)) =
          -(K : ℝ)⁻¹ * ∑ k, ∑ b, df k b * L.w b * jac L.F L.v (applyE L.E y) k b := by
        simp only [Finset.mul_sum]
        refine Finset.sum_congr rfl fun k _ => Finset.sum_congr rfl fun b _ => ?_
        change c.diff geigh x k b * (c.bw b * c.bw b) * _ = -(K : ℝ)⁻¹ * (c.diff geigh x k b * (c.bw b * c.bw b) * _)
        ring
      rw [h7, ← h5]
      field_simp
      ring
    rw [h4] at h2
    have hD : -(4 / K * parIp y (L.rhs df)) < 0 := by
      have : 0 < 4 / K * parIp y (L.rhs df) := by positivity
      linarith
    refine ⟨⟨_, hD, h2⟩, ?_⟩
    obtain ⟨t0, ht0, h8⟩ := neg_deriv_decreases h2 hD
    refine ⟨t0, ht0, fun t h9 h10 => ?_⟩
    have h11 := h8 t h9 h10
    rw [zero_smul, sub_zero] at h11
    rw [loss_eq, loss_eq]
    refine div_lt_div_of_pos_right (Real.sqrt_lt_sqrt ?_ h11) (Real.sqrt_pos.2 hK')
    exact Finset.sum_nonneg fun k _ => Finset.sum_nonneg fun b _ => sq_nonneg _

/-- C99.  The linearised fit, in which band `b` at sample `k` changes by `v† δH v`: the step strictly reduces the weighted square loss
unless it is zero, whatever the settings of the solver. -/
theorem C99_linear (c : Fit K P n B) (hK : K ≠ 0) (x : Par P n) :
    let s := (c.lin geigh x).step (c.diff geigh x) c.maxCg
    s = 0 ∨ ∑ k, ∑ b, (c.bw b * (c.diff geigh x k b - (rot (geigh (fmat c.F x k) (c.S k)).2 (fmat c.F s k) (c.win b) (c.win b)).re)) ^ 2 <
      ∑ k, ∑ b, (c.bw b * c.diff geigh x k b) ^ 2 := by
  intro s
  set L := c.lin geigh x with hL
  set df := c.diff geigh x with hdf
  have hw : ∀ b, 0 ≤ L.w b := fun b => mul_self_nonneg _
  by_cases hb : L.rhs df = 0
  · left
    show L.step df c.maxCg = 0
    rw [Lin.step, Lin.solve, hb, cgSolveV_zero (A_isPSD L hw)]
    have : applyE L.E (0 : Par P n) = 0 := by funext l; simp [applyE]
    rw [this, smul_zero]
  · right
    have hneg := cgSolveV_neg parIp_isIp (A_isPSD L hw) (L.rhs df) (rhs_kernel L hw df)
      (Real.sqrt (parIp (L.rhs df) (L.rhs df)) * 1e-3) c.maxCg hb
    change phi parIp L.A (L.rhs df) (L.solve df c.maxCg) < 0 at hneg
    rw [phi_eq L hK] at hneg
    have hK' : (0 : ℝ) < (K : ℝ) / 2 := by have : (0 : ℝ) < K := by exact_mod_cast Nat.pos_of_ne_zero hK
                                           linarith
    have h1 : (∑ k, ∑ b, L.w b * (df k b - jac L.F L.v ((K : ℝ)⁻¹ • applyE L.E (L.solve df c.maxCg)) k b) ^ 2) <
        ∑ k, ∑ b, L.w b * df k b ^ 2 := by
      by_contra h
      have := mul_nonneg hK'.le (sub_nonneg.2 (not_lt.1 h))
      linarith
    refine lt_of_eq_of_lt ?_ (lt_of_lt_of_eq h1 ?_)
    · refine Finset.sum_congr rfl fun k _ => Finset.sum_congr rfl fun b _ => ?_
      rw [rot_apply, mul_pow]
      change _ = c.bw b * c.bw b * (df k b - jac L.F L.v (L.step df c.maxCg) k b) ^ 2
      rw [sq (c.bw b)]
      rfl
    · refine Finset.sum_congr rfl fun k _ => Finset.sum_congr rfl fun b _ => ?_
      change c.bw b * c.bw b * _ = _
      ring

/-- C99.  If the solver reached a solution of its equation, the step minimises the weighted square loss of the linearised fit among
all changes of the parameters. -/
theorem C99_minimizer (c : Fit K P n B) (hK : K ≠ 0) (hE : IsUnit c.E.det) (x : Par P n)
    (hsol : (c.lin geigh x).A ((c.lin geigh x).solve (c.diff geigh x) c.maxCg) = (c.lin geigh x).rhs (c.diff geigh x)) (y : Par P n) :
    let s := (c.lin geigh x).step (c.diff geigh x) c.maxCg
    ∑ k, ∑ b, (c.bw b * (c.diff geigh x k b - (rot (geigh (fmat c.F x k) (c.S k)).2 (fmat c.F s k) (c.win b) (c.win b)).re)) ^ 2 ≤
      ∑ k, ∑ b, (c.bw b * (c.diff geigh x k b - (rot (geigh (fmat c.F x k) (c.S k)).2 (fmat c.F y k) (c.win b) (c.win b)).re)) ^ 2 := by
  intro s
  set L := c.lin geigh x with hL
  set df := c.diff geigh x with hdf
  have hw : ∀ b, 0 ≤ L.w b := fun b => mul_self_nonneg _
  have hK0 : (0 : ℝ) < K := by exact_mod_cast Nat.pos_of_ne_zero hK
  have hK' : (0 : ℝ) < (K : ℝ) / 2 := by linarith
  obtain ⟨z, hz⟩ := applyE_surj hE ((K : ℝ) • y)
  have hz' : (K : ℝ)⁻¹ • applyE L.E z = y := by
    change (K : ℝ)⁻¹ • applyE c.E z = y
    rw [hz, smul_smul, inv_mul_cancel₀ hK0.ne', one_smul]
  have hphi : phi parIp L.A (L.rhs df) (L.solve df c.maxCg) ≤ phi parIp L.A (L.rhs df) z := by
    set u := L.solve df c.maxCg with hu
    have hA := A_isPSD L hw
    have h1 := phi_step parIp_isIp hA (L.rhs df) u (u - z) 1
    have h2 : u - (1 : ℝ) • (u - z) = z := by rw [one_smul, sub_sub_cancel]
    rw [h2, hsol, sub_self, parIp_isIp.zero_left] at h1
    rw [h1]
    have := hA.nonneg (u - z)
    linarith
  rw [phi_eq L hK, phi_eq L hK, hz'] at hphi
  have h1 : (∑ k, ∑ b, L.w b * (df k b - jac L.F L.v ((K : ℝ)⁻¹ • applyE L.E (L.solve df c.maxCg)) k b) ^ 2) ≤
      ∑ k, ∑ b, L.w b * (df k b - jac L.F L.v y k b) ^ 2 := by
    have := le_of_mul_le_mul_left hphi hK'
    linarith
  have h2 : ∀ q : Par P n, (∑ k, ∑ b, (c.bw b * (df k b - (rot (geigh (fmat c.F x k) (c.S k)).2 (fmat c.F q k) (c.win b) (c.win b)).re)) ^ 2) =
      ∑ k, ∑ b, L.w b * (df k b - jac L.F L.v q k b) ^ 2 := by
    intro q
    refine Finset.sum_congr rfl fun k _ => Finset.sum_congr rfl fun b _ => ?_
    rw [rot_apply, mul_pow]
    change _ = c.bw b * c.bw b * (df k b - jac L.F L.v q k b) ^ 2
    rw [sq (c.bw b)]
    rfl
  rw [h2, h2]
  exact h1

end TB.Opt

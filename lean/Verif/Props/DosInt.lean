import Mathlib.Analysis.SpecialFunctions.Integrals.Basic
import Mathlib.Analysis.SpecialFunctions.Log.Deriv
import Mathlib.Analysis.SpecialFunctions.ExpDeriv
import Mathlib.Analysis.SpecialFunctions.Trigonometric.DerivHyp
import Mathlib.Analysis.Calculus.SmoothSeries
import Mathlib.NumberTheory.ZetaValues
import Mathlib.MeasureTheory.Integral.DivergenceTheorem
import Mathlib.Tactic.Linarith
import Mathlib.Tactic.Ring
import Mathlib.Tactic.NormNum
import Mathlib.Tactic.FieldSimp
import Verif.Model.Dos

/-!
# C66: integrals of quadratic polynomials against the derivative of the Fermi function
-/

namespace TB.Dos

open TB.Smear intervalIntegral MeasureTheory Filter Topology

/-- What is used of the dilogarithm on `[-1, 0)`. -/
structure Spec.IsLi2 (Li2 : ℝ → ℝ) : Prop where
  deriv : ∀ x, -1 < x → x < 0 → HasDerivAt Li2 (-Real.log (1 - x) / x) x
  cont : ContinuousOn Li2 (Set.Icc (-1) 0)
  value : Li2 (-1) = -Real.pi ^ 2 / 12

/-- `exp(t) / (1 + exp(t))²`, the negative derivative of `1 / (1 + exp(t))`. -/
noncomputable def Spec.bell (t : ℝ) : ℝ := Real.exp t / (1 + Real.exp t) ^ 2

/-- The series of the dilogarithm. -/
noncomputable def li2Series (x : ℝ) : ℝ := ∑' n : ℕ, x ^ (n + 1) / ((n : ℝ) + 1) ^ 2

theorem summable_sq : Summable fun n : ℕ => 1 / ((n : ℝ) + 1) ^ 2 := by
  have := (summable_nat_add_iff 1).2 (Real.summable_one_div_nat_pow.2 (one_lt_two))
  simpa using this

/-- The conditions on the dilogarithm can be met. -/
theorem exists_li2 : Spec.IsLi2 li2Series := by
  refine ⟨?_, ?_, ?_⟩
  · intro x h1 h2
    set r := (1 + |x|) / 2 with hr
    have hx : |x| < 1 := abs_lt.2 ⟨h1, by linarith⟩
    have hr1 : r < 1 := by rw [hr]; linarith
    have hr0 : |x| < r := by rw [hr]; linarith
    have hr00 : 0 ≤ r := (abs_nonneg x).trans hr0.le
    have hu : Summable fun n : ℕ => r ^ n := summable_geometric_of_lt_one hr00 hr1
    have hg : ∀ (n : ℕ) (y : ℝ), y ∈ Set.Ioo (-r) r →
        HasDerivAt (fun y : ℝ => y ^ (n + 1) / ((n : ℝ) + 1) ^ 2) (y ^ n / ((n : ℝ) + 1)) y := by
      intro n y _
      refine ((hasDerivAt_pow (n + 1) y).div_const _).congr_deriv ?_
      have : (n : ℝ) + 1 ≠ 0 := by positivity
      push_cast
      field_simp
    have hg' : ∀ (n : ℕ) (y : ℝ), y ∈ Set.Ioo (-r) r → ‖y ^ n / ((n : ℝ) + 1)‖ ≤ r ^ n := by
      intro n y hy
      rw [norm_div, norm_pow, Real.norm_eq_abs, Real.norm_eq_abs]
      have h3 : |y| ≤ r := abs_le.2 ⟨hy.1.le, hy.2.le⟩
      have h4 : (1 : ℝ) ≤ |(n : ℝ) + 1| := by
        rw [abs_of_pos (by positivity)]
        have := Nat.cast_nonneg (α := ℝ) n
        linarith
      calc |y| ^ n / |(n : ℝ) + 1| ≤ |y| ^ n / 1 := div_le_div_of_nonneg_left (by positivity) one_pos h4
        _ ≤ r ^ n := by rw [div_one]; exact pow_le_pow_left₀ (abs_nonneg _) h3 n
    have h0 : (0 : ℝ) ∈ Set.Ioo (-r) r := by
      have : 0 < r := lt_of_le_of_lt (abs_nonneg x) hr0
      exact ⟨by linarith, this⟩
    have hmem : x ∈ Set.Ioo (-r) r := abs_lt.1 hr0
    have hsum0 : Summable fun n : ℕ => (0 : ℝ) ^ (n + 1) / ((n : ℝ) + 1) ^ 2 := by simp [summable_zero]
    have hd := hasDerivAt_tsum_of_isPreconnected hu isOpen_Ioo isPreconnected_Ioo hg hg' h0 hsum0 hmem
    have hlog := Real.hasSum_pow_div_log_of_abs_lt_one hx
    have hval : ∑' n : ℕ, x ^ n / ((n : ℝ) + 1) = -Real.log (1 - x) / x := by
      have hx0 : x ≠ 0 := h2.ne
      rw [← hlog.tsum_eq, eq_div_iff hx0, mul_comm, ← tsum_mul_left]
      refine tsum_congr fun n => ?_
      rw [pow_succ]; ring
    rw [hval] at hd
    exact hd
  · refine continuousOn_tsum (u := fun n : ℕ => 1 / ((n : ℝ) + 1) ^ 2) (fun n => ?_) summable_sq fun n x hx => ?_
    · fun_prop
    · rw [norm_div, norm_pow, Real.norm_eq_abs, Real.norm_eq_abs, abs_of_pos (show (0 : ℝ) < ((n : ℝ) + 1) ^ 2 by positivity)]
      have : |x| ^ (n + 1) ≤ 1 := pow_le_one₀ (abs_nonneg _) (abs_le.2 ⟨hx.1, hx.2.trans zero_le_one⟩)
      gcongr
  · have hz : HasSum (fun n : ℕ => 1 / ((n : ℝ) + 1) ^ 2) (Real.pi ^ 2 / 6) := by
      have := (hasSum_nat_add_iff' 1).2 hasSum_zeta_two
      simpa using this
    have ho : HasSum (fun n : ℕ => 1 / (((2 * n + 1 : ℕ) : ℝ) + 1) ^ 2) (Real.pi ^ 2 / 24) := by
      have h := hz.mul_left (1 / 4)
      rw [show 1 / 4 * (Real.pi ^ 2 / 6) = Real.pi ^ 2 / 24 by ring] at h
      have e : (fun n : ℕ => 1 / (((2 * n + 1 : ℕ) : ℝ) + 1) ^ 2) = fun n : ℕ => 1 / 4 * (1 / ((n : ℝ) + 1) ^ 2) := by
        funext n
        have : (n : ℝ) + 1 ≠ 0 := by positivity
        push_cast
        rw [show 2 * (n : ℝ) + 1 + 1 = 2 * (n + 1) by ring]
        field_simp
        norm_num
      rw [e]
      exact h
    have hinj : Function.Injective fun n : ℕ => 2 * n := fun a b h => by simpa using h
    have he := (summable_sq.comp_injective hinj).hasSum
    set E := ∑' n : ℕ, ((fun n : ℕ => 1 / ((n : ℝ) + 1) ^ 2) ∘ fun n => 2 * n) n with hE
    have hEO : E + Real.pi ^ 2 / 24 = Real.pi ^ 2 / 6 :=
      (HasSum.even_add_odd (f := fun n : ℕ => 1 / ((n : ℝ) + 1) ^ 2) he ho).unique hz
    have hb : HasSum (fun n : ℕ => (-1 : ℝ) ^ (n + 1) / ((n : ℝ) + 1) ^ 2) (-E + Real.pi ^ 2 / 24) := by
      refine HasSum.even_add_odd ?_ ?_
      · have e : (fun k : ℕ => (-1 : ℝ) ^ (2 * k + 1) / (((2 * k : ℕ) : ℝ) + 1) ^ 2) =
            fun n => -((fun n : ℕ => 1 / ((n : ℝ) + 1) ^ 2) ∘ fun n => 2 * n) n := by
          funext k
          rw [pow_succ, pow_mul]
          norm_num [neg_div]
        rw [e]
        exact he.neg
      · have e : (fun k : ℕ => (-1 : ℝ) ^ (2 * k + 1 + 1) / (((2 * k + 1 : ℕ) : ℝ) + 1) ^ 2) =
            fun n : ℕ => 1 / (((2 * n + 1 : ℕ) : ℝ) + 1) ^ 2 := by
          funext k
          rw [pow_succ, pow_succ, pow_mul]
          norm_num
        rw [e]
        exact ho
    rw [li2Series, hb.tsum_eq]
    linarith

theorem bell_even (t : ℝ) : Spec.bell (-t) = Spec.bell t := by
  rw [Spec.bell, Spec.bell, Real.exp_neg]
  have := Real.exp_pos t
  field_simp
  ring

theorem bell_continuous : Continuous Spec.bell := by
  unfold Spec.bell
  refine Continuous.div (by fun_prop) (by fun_prop) fun e => ?_
  positivity

theorem intDf_deriv (t : ℝ) : HasDerivAt intDf (Spec.bell t) t := by
  have h0 : HasDerivAt (fun t : ℝ => t / 2) (1 / 2) t := by simpa using (hasDerivAt_id t).div_const 2
  have h1 : HasDerivAt (fun t : ℝ => 1 - 1 / (1 + Real.exp t) - 1 / 2) (Spec.bell t) t := by
    have h2 := (((Real.hasDerivAt_exp t).const_add 1).inv (by positivity : (1 + Real.exp t) ≠ 0))
    have h3 := (h2.const_sub 1).sub_const (1 / 2)
    simp only [one_div] at h3 ⊢
    refine h3.congr_deriv ?_
    rw [Spec.bell]
    ring
  have e : intDf = fun t : ℝ => 1 - 1 / (1 + Real.exp t) - 1 / 2 := by
    funext t
    rw [intDf, Real.tanh_eq_sinh_div_cosh, Real.sinh_eq, Real.cosh_eq]
    set s := Real.exp (t / 2) with hs
    have h1 : Real.exp t = s ^ 2 := by rw [hs, ← Real.exp_nat_mul]; congr 1; push_cast; ring
    have h2 : Real.exp (-(t / 2)) = s⁻¹ := Real.exp_neg _
    have h3 : 0 < s := Real.exp_pos _
    rw [h1, h2]
    field_simp
    ring
  rw [e]
  exact h1

/-- The antiderivative of `t bell(t)` for negative arguments. -/
noncomputable def xdfNeg (t : ℝ) : ℝ := t * Real.exp t / (1 + Real.exp t) - Real.log (1 + Real.exp t)

theorem xdfNeg_deriv (t : ℝ) : HasDerivAt xdfNeg (t * Spec.bell t) t := by
  have hne : (1 + Real.exp t) ≠ 0 := by positivity
  have h1 := (((hasDerivAt_id t).mul (Real.hasDerivAt_exp t)).div ((Real.hasDerivAt_exp t).const_add 1) hne).sub
    (((Real.hasDerivAt_exp t).const_add 1).log hne)
  refine h1.congr_deriv ?_
  rw [Spec.bell]
  simp only [id_eq, Pi.mul_apply]
  field_simp
  ring

/-- The antiderivative of `t² bell(t)` for negative arguments. -/
noncomputable def xxdfNeg (Li2 : ℝ → ℝ) (t : ℝ) : ℝ :=
  t * t * Real.exp t / (1 + Real.exp t) - 2 * t * Real.log (1 + Real.exp t) - (2 * Li2 (-Real.exp t) + Real.pi ^ 2 / 6)

theorem xxdfNeg_deriv (Li2 : ℝ → ℝ) (hL : Spec.IsLi2 Li2) (t : ℝ) (ht : t < 0) : HasDerivAt (xxdfNeg Li2) (t ^ 2 * Spec.bell t) t := by
  have hne : (1 + Real.exp t) ≠ 0 := by positivity
  have hlt : Real.exp t < 1 := by rw [← Real.exp_zero]; exact Real.exp_lt_exp.2 ht
  have hL1 := (hL.deriv (-Real.exp t) (by linarith) (by have := Real.exp_pos t; linarith)).comp t (Real.hasDerivAt_exp t).neg
  have h1 := (((((hasDerivAt_id t).mul (hasDerivAt_id t)).mul (Real.hasDerivAt_exp t)).div ((Real.hasDerivAt_exp t).const_add 1) hne).sub
    (((hasDerivAt_id t).const_mul 2).mul (((Real.hasDerivAt_exp t).const_add 1).log hne))).sub
      ((hL1.const_mul 2).add_const (Real.pi ^ 2 / 6))
  refine h1.congr_deriv ?_
  rw [Spec.bell, sub_neg_eq_add]
  have := Real.exp_pos t
  simp only [id_eq, Pi.mul_apply]
  field_simp
  ring

theorem intXdf_eq (t : ℝ) : intXdf t = xdfNeg t := by
  rcases le_or_gt t 0 with h | h
  · simp only [intXdf, abs_of_nonpos h, neg_neg, xdfNeg]
  · simp only [intXdf, abs_of_pos h, xdfNeg]
    rw [Real.exp_neg]
    have hp := Real.exp_pos t
    have e : 1 + (Real.exp t)⁻¹ = (1 + Real.exp t) * (Real.exp t)⁻¹ := by field_simp; ring
    have e2 : Real.log (1 + (Real.exp t)⁻¹) = Real.log (1 + Real.exp t) - t := by
      rw [e, Real.log_mul (by positivity) (by positivity), Real.log_inv, Real.log_exp]; ring
    rw [e2, e]
    field_simp
    ring

theorem intXdf_deriv (t : ℝ) : HasDerivAt intXdf (t * Spec.bell t) t := by
  have : intXdf = xdfNeg := funext intXdf_eq
  rw [this]
  exact xdfNeg_deriv t

theorem xxdfNeg_zero (Li2 : ℝ → ℝ) (hL : Spec.IsLi2 Li2) : xxdfNeg Li2 0 = 0 := by
  rw [xxdfNeg, Real.exp_zero, hL.value]; ring

theorem xxdfNeg_cont (Li2 : ℝ → ℝ) (hL : Spec.IsLi2 Li2) : ContinuousOn (xxdfNeg Li2) (Set.Iic 0) := by
  unfold xxdfNeg
  have hLc : ContinuousOn (fun t : ℝ => Li2 (-Real.exp t)) (Set.Iic 0) := by
    refine hL.cont.comp (by fun_prop) fun t ht => ?_
    have h1 := Real.exp_pos t
    have h2 : Real.exp t ≤ 1 := Real.exp_le_one_iff.2 ht
    exact ⟨by linarith, by linarith⟩
  have hne : ∀ t : ℝ, (1 + Real.exp t) ≠ 0 := fun t => by positivity
  refine ContinuousOn.sub (ContinuousOn.sub ?_ ?_) ?_
  · exact (Continuous.div (by fun_prop) (by fun_prop) hne).continuousOn
  · exact ((by fun_prop : Continuous fun t : ℝ => 2 * t).mul
      (Continuous.log (by fun_prop) hne)).continuousOn
  · exact (continuousOn_const.mul hLc).add continuousOn_const

theorem intXxdf_neg (Li2 : ℝ → ℝ) (hL : Spec.IsLi2 Li2) (t : ℝ) (ht : t ≤ 0) : intXxdf Li2 t = xxdfNeg Li2 t := by
  rcases ht.lt_or_eq with h | rfl
  · simp only [intXxdf, abs_of_neg h, neg_neg, xxdfNeg, sign, if_pos h]
    ring
  · rw [xxdfNeg_zero Li2 hL]
    simp [intXxdf, sign]

theorem intXxdf_pos (Li2 : ℝ → ℝ) (hL : Spec.IsLi2 Li2) (t : ℝ) (ht : 0 ≤ t) : intXxdf Li2 t = -xxdfNeg Li2 (-t) := by
  rcases ht.lt_or_eq with h | rfl
  · simp only [intXxdf, abs_of_pos h, xxdfNeg, sign, if_neg (not_lt.2 h.le), if_pos h]
    ring
  · rw [neg_zero, xxdfNeg_zero Li2 hL]
    simp [intXxdf, sign]

theorem intXxdf_cont (Li2 : ℝ → ℝ) (hL : Spec.IsLi2 Li2) : Continuous (intXxdf Li2) := by
  have h1 : ContinuousOn (intXxdf Li2) (Set.Iic 0) :=
    (xxdfNeg_cont Li2 hL).congr fun t ht => intXxdf_neg Li2 hL t ht
  have h2 : ContinuousOn (intXxdf Li2) (Set.Ici 0) := by
    have : ContinuousOn (fun t => -xxdfNeg Li2 (-t)) (Set.Ici 0) :=
      ((xxdfNeg_cont Li2 hL).comp continuous_neg.continuousOn fun t ht => by
        simp only [Set.mem_Ici] at ht
        simpa using ht).neg
    exact this.congr fun t ht => intXxdf_pos Li2 hL t ht
  rw [← continuousOn_univ, ← Set.Iic_union_Ici (a := (0 : ℝ))]
  exact h1.union_of_isClosed h2 isClosed_Iic isClosed_Ici

theorem intXxdf_deriv (Li2 : ℝ → ℝ) (hL : Spec.IsLi2 Li2) (t : ℝ) (ht : t ≠ 0) :
    HasDerivAt (intXxdf Li2) (t ^ 2 * Spec.bell t) t := by
  rcases ht.lt_or_gt with h | h
  · refine (xxdfNeg_deriv Li2 hL t h).congr_of_eventuallyEq ?_
    filter_upwards [Iio_mem_nhds h] with s hs
    exact intXxdf_neg Li2 hL s (le_of_lt hs)
  · have h1 := (xxdfNeg_deriv Li2 hL (-t) (by linarith)).comp t (hasDerivAt_neg t)
    have h2 := h1.neg
    rw [bell_even] at h2
    have h3 : HasDerivAt (fun s => -xxdfNeg Li2 (-s)) (t ^ 2 * Spec.bell t) t := by
      refine h2.congr_deriv ?_
      ring
    refine h3.congr_of_eventuallyEq ?_
    filter_upwards [Ioi_mem_nhds h] with s hs
    exact intXxdf_pos Li2 hL s (le_of_lt hs)

/-- C66.  `int_poly` is the integral of a quadratic polynomial times the negative derivative of `1 / (1 + exp(t))`. -/
theorem C66_int_poly (Li2 : ℝ → ℝ) (hL : Spec.IsLi2 Li2) (x0 x1 a b c : ℝ) :
    intPoly Li2 x0 x1 a b c = ∫ t in x0..x1, (a * t ^ 2 + b * t + c) * Spec.bell t := by
  have hcont : Continuous fun t => a * intXxdf Li2 t + b * intXdf t + c * intDf t := by
    have c1 : Continuous intXdf := continuous_iff_continuousAt.2 fun t => (intXdf_deriv t).continuousAt
    have c2 : Continuous intDf := continuous_iff_continuousAt.2 fun t => (intDf_deriv t).continuousAt
    exact ((continuous_const.mul (intXxdf_cont Li2 hL)).add (continuous_const.mul c1)).add (continuous_const.mul c2)
  have hd : ∀ t ≠ 0, HasDerivAt (fun t => a * intXxdf Li2 t + b * intXdf t + c * intDf t)
      ((a * t ^ 2 + b * t + c) * Spec.bell t) t := by
    intro t ht
    refine ((((intXxdf_deriv Li2 hL t ht).const_mul a).add ((intXdf_deriv t).const_mul b)).add
      ((intDf_deriv t).const_mul c)).congr_deriv ?_
    ring
  have hi : IntervalIntegrable (fun t => (a * t ^ 2 + b * t + c) * Spec.bell t) volume x0 x1 := by
    refine Continuous.intervalIntegrable ?_ _ _
    have := bell_continuous
    fun_prop
  rw [MeasureTheory.integral_eq_of_hasDerivAt_off_countable _ _ (Set.countable_singleton (0 : ℝ)) hcont.continuousOn
    (fun t ht => hd t (by simpa using ht.2)) hi, intPoly]
  ring

/-- C66 for the series of the dilogarithm. -/
example (x0 x1 : ℝ) : intPoly li2Series x0 x1 1 2 3 = ∫ t in x0..x1, (1 * t ^ 2 + 2 * t + 3) * Spec.bell t :=
  C66_int_poly li2Series exists_li2 x0 x1 1 2 3

end TB.Dos

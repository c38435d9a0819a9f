import Mathlib.NumberTheory.ZetaValues
import Mathlib.Analysis.SpecialFunctions.Gaussian.GaussianIntegral
import Mathlib.Analysis.SpecialFunctions.Gamma.Basic
import Mathlib.MeasureTheory.Measure.Lebesgue.Integral
import Mathlib.MeasureTheory.Integral.IntegralEqImproper
import Mathlib.Analysis.SpecificLimits.Normed
import Mathlib.Analysis.Real.Pi.Bounds
import Mathlib.Tactic.Linarith
import Mathlib.Tactic.Ring
import Mathlib.Tactic.FieldSimp
import Mathlib.Tactic.NormNum
import Mathlib.Tactic.Positivity

/-!
# Moments of the derivative of the Fermi function and of the "half Fermi function"
-/

namespace TB.Gauss
open MeasureTheory Set

/-- `-f'(x)` for the Fermi function `f(x) = 1 / (1 + e^x)`. -/
noncomputable def W (x : ℝ) : ℝ := Real.exp x / (1 + Real.exp x) ^ 2

/-- `1 / (1 + e^|x|)`. -/
noncomputable def V (x : ℝ) : ℝ := 1 / (1 + Real.exp |x|)

theorem half_integrable (k : ℕ) (r : ℝ) (hr : 0 < r) : IntegrableOn (fun x => x ^ k * Real.exp (-(r * x))) (Ioi 0) := by
  have := integrableOn_rpow_mul_exp_neg_mul_rpow (p := 1) (s := k) (b := r) (by have : (0 : ℝ) ≤ k := k.cast_nonneg; linarith) one_pos hr
  refine this.congr_fun (fun x hx => ?_) measurableSet_Ioi
  simp only [Real.rpow_natCast, Real.rpow_one, neg_mul]

theorem half (k : ℕ) (r : ℝ) (hr : 0 < r) : ∫ x in Ioi (0 : ℝ), x ^ k * Real.exp (-(r * x)) = k.factorial / r ^ (k + 1) := by
  have := Real.integral_rpow_mul_exp_neg_mul_Ioi (a := k + 1) (r := r) (by positivity) hr
  rw [Real.Gamma_nat_eq_factorial] at this
  simp only [add_sub_cancel_right, Real.rpow_natCast] at this
  rw [this, show ((k : ℝ) + 1) = ((k + 1 : ℕ) : ℝ) by push_cast; rfl, Real.rpow_natCast, one_div, inv_pow]
  field_simp

theorem W_even (x : ℝ) : W (-x) = W x := by
  unfold W
  rw [Real.exp_neg]
  have := Real.exp_pos x
  field_simp
  ring

theorem W_neg (x : ℝ) : W x = Real.exp (-x) / (1 + Real.exp (-x)) ^ 2 := by rw [← W_even, W]

theorem W_nonneg (x : ℝ) : 0 ≤ W x := by unfold W; positivity

theorem V_even (x : ℝ) : V (-x) = V x := by unfold V; rw [abs_neg]

theorem V_nonneg (x : ℝ) : 0 ≤ V x := by unfold V; positivity

theorem W_le (x : ℝ) (hx : 0 < x) : W x ≤ Real.exp (-(1 * x)) := by
  rw [W_neg, one_mul]
  have := Real.exp_pos (-x)
  refine div_le_self this.le ?_
  nlinarith

theorem V_le (x : ℝ) (hx : 0 < x) : V x ≤ Real.exp (-(1 * x)) := by
  unfold V
  rw [abs_of_pos hx, one_mul, Real.exp_neg, one_div]
  exact inv_anti₀ (Real.exp_pos x) (by linarith)

theorem W_cont : Continuous W := by
  unfold W
  refine Real.continuous_exp.div (by fun_prop) fun x => ?_
  have := Real.exp_pos x
  positivity

theorem V_cont : Continuous V := by
  unfold V
  refine continuous_const.div (by fun_prop) fun x => ?_
  have := Real.exp_pos |x|
  positivity

/-- Integrability of monomials against an even weight with exponential decay. -/
theorem integrable_mono (G : ℝ → ℝ) (hc : Continuous G) (he : ∀ x, G (-x) = G x) (h0 : ∀ x, 0 ≤ G x)
    (hle : ∀ x, 0 < x → G x ≤ Real.exp (-(1 * x))) (k : ℕ) : Integrable fun x : ℝ => x ^ k * G x := by
  have hI : IntegrableOn (fun x : ℝ => x ^ k * G x) (Ioi 0) := by
    refine (half_integrable k 1 one_pos).mono' ((continuous_pow k).mul hc).aestronglyMeasurable ?_
    refine (ae_restrict_iff' measurableSet_Ioi).2 (Filter.Eventually.of_forall fun x hx => ?_)
    have hx : 0 < x := hx
    rw [Real.norm_eq_abs, abs_of_nonneg (mul_nonneg (pow_nonneg hx.le k) (h0 x))]
    exact mul_le_mul_of_nonneg_left (hle x hx) (pow_nonneg hx.le k)
  have hJ : IntegrableOn (fun x : ℝ => x ^ k * G x) (Iio 0) := by
    have h1 : IntegrableOn (fun x : ℝ => (-1) ^ k * (x ^ k * G x)) (Ioi 0) := hI.const_mul _
    have h2 : IntegrableOn (fun x : ℝ => (fun y : ℝ => y ^ k * G y) (-x)) (Ioi 0) := by
      refine h1.congr_fun (fun x _ => ?_) measurableSet_Ioi
      simp only [he]
      rw [neg_pow]
      ring
    have h3 := (measurePreserving_neg_real.integrableOn_comp_preimage (Homeomorph.neg ℝ).measurableEmbedding
      (f := fun y : ℝ => y ^ k * G y) (s := Iio 0)).1 (by simpa [Function.comp_def] using h2)
    exact h3
  have h4 : IntegrableOn (fun x : ℝ => x ^ k * G x) (Ici 0) := (integrableOn_Ici_iff_integrableOn_Ioi enorm_ne_top).2 hI
  have := hJ.union h4
  rwa [Iio_union_Ici, integrableOn_univ] at this
where
  measurePreserving_neg_real : MeasurePreserving (fun x : ℝ => -x) volume volume := Measure.measurePreserving_neg volume

/-- Even moments from the half line. -/
theorem even_moment (G : ℝ → ℝ) (he : ∀ x, G (-x) = G x) (k : ℕ) :
    ∫ x : ℝ, x ^ (2 * k) * G x = 2 * ∫ x in Ioi (0 : ℝ), x ^ (2 * k) * G x := by
  rw [← integral_comp_abs (f := fun x => x ^ (2 * k) * G x)]
  congr 1
  funext x
  rcases abs_cases x with ⟨h, _⟩ | ⟨h, _⟩
  · rw [h]
  · rw [h, he, Even.neg_pow (even_two_mul k)]

/-- Odd moments vanish. -/
theorem odd_moment (G : ℝ → ℝ) (he : ∀ x, G (-x) = G x) (k : ℕ) : ∫ x : ℝ, x ^ (2 * k + 1) * G x = 0 := by
  have h := integral_neg_eq_self (fun x : ℝ => x ^ (2 * k + 1) * G x) volume
  have h2 : (fun x : ℝ => (-x) ^ (2 * k + 1) * G (-x)) = fun x => -(x ^ (2 * k + 1) * G x) := by
    funext x
    rw [he, Odd.neg_pow (odd_two_mul_add_one k)]
    ring
  simp only [h2, integral_neg] at h
  linarith

/-! ## Series -/

theorem hs_congr {f g : ℕ → ℝ} {a : ℝ} (h : ∀ n, f n = g n) : HasSum f a ↔ HasSum g a := by rw [funext h]

theorem exp_neg_lt {x : ℝ} (hx : 0 < x) : ‖-Real.exp (-x)‖ < 1 := by
  rw [norm_neg, Real.norm_eq_abs, abs_of_pos (Real.exp_pos _)]
  rw [← Real.exp_zero]
  exact Real.exp_lt_exp.2 (by linarith)

theorem pow_neg_exp (x : ℝ) (n : ℕ) : (-Real.exp (-x)) ^ n = (-1) ^ n * Real.exp (-(n * x)) := by
  rw [neg_pow, ← Real.exp_nat_mul, mul_neg]

/-- `∫ x^k W(x)` over the half line is `k! Σ (-1)^(n+1) / n^k`. -/
theorem W_series (k : ℕ) (hk : 2 ≤ k) :
    HasSum (fun n : ℕ => -((-1) ^ n * (k.factorial / (n : ℝ) ^ k))) (∫ x in Ioi (0 : ℝ), x ^ k * W x) := by
  let F : ℕ → ℝ → ℝ := fun n x => -((-1) ^ n * n) * (x ^ k * Real.exp (-(n * x)))
  have hF : ∀ n, IntegrableOn (F n) (Ioi 0) := by
    intro n
    rcases Nat.eq_zero_or_pos n with rfl | hn
    · simp [F]
    · exact (half_integrable k n (by exact_mod_cast hn)).const_mul _
  have hint : ∀ n, ∫ x in Ioi (0 : ℝ), F n x = -((-1) ^ n * (k.factorial / (n : ℝ) ^ k)) := by
    intro n
    rcases Nat.eq_zero_or_pos n with rfl | hn
    · simp [F, show k ≠ 0 by omega]
    · have hn' : (0 : ℝ) < n := by exact_mod_cast hn
      simp only [F]
      rw [integral_const_mul, half k n hn', pow_succ]
      field_simp
  have hnorm : ∀ n, ∫ x in Ioi (0 : ℝ), ‖F n x‖ = k.factorial / (n : ℝ) ^ k := by
    intro n
    have : ∀ x ∈ Ioi (0 : ℝ), ‖F n x‖ = (n : ℝ) * (x ^ k * Real.exp (-(n * x))) := by
      intro x hx
      have hx : 0 < x := hx
      simp only [F]
      rw [norm_mul, norm_neg, norm_mul, norm_pow, norm_neg, norm_one, one_pow, one_mul, Real.norm_natCast, Real.norm_eq_abs,
        abs_of_nonneg (mul_nonneg (pow_nonneg hx.le k) (Real.exp_pos _).le)]
    rw [setIntegral_congr_fun measurableSet_Ioi this, integral_const_mul]
    rcases Nat.eq_zero_or_pos n with rfl | hn
    · simp [show k ≠ 0 by omega]
    · have hn' : (0 : ℝ) < n := by exact_mod_cast hn
      rw [half k n hn', pow_succ]
      field_simp
  have hs : Summable fun n => ∫ x in Ioi (0 : ℝ), ‖F n x‖ := by
    simp only [hnorm]
    have := (Real.summable_one_div_nat_pow.2 (show 1 < k by omega)).mul_left (k.factorial : ℝ)
    refine this.congr fun n => by ring
  have h := hasSum_integral_of_summable_integral_norm hF hs
  simp only [hint] at h
  suffices he : ∫ x in Ioi (0 : ℝ), x ^ k * W x = ∫ x in Ioi (0 : ℝ), ∑' n, F n x by rw [he]; exact h
  refine setIntegral_congr_fun measurableSet_Ioi fun x hx => ?_
  have hx : 0 < x := hx
  have h2 := (hasSum_coe_mul_geometric_of_norm_lt_one (exp_neg_lt hx)).mul_left (-(x ^ k))
  have h3 : HasSum (fun n => F n x) (-(x ^ k) * (-Real.exp (-x) / (1 - -Real.exp (-x)) ^ 2)) := by
    refine (hs_congr fun n => ?_).1 h2
    simp only [F]
    rw [pow_neg_exp]
    ring
  rw [h3.tsum_eq, W_neg, sub_neg_eq_add]
  ring

/-- `∫ x^k V(x)` over the half line is `k! Σ (-1)^(n+1) / n^(k+1)`. -/
theorem V_series (k : ℕ) (hk : 1 ≤ k) :
    HasSum (fun n : ℕ => -((-1) ^ n * (k.factorial / (n : ℝ) ^ (k + 1)))) (∫ x in Ioi (0 : ℝ), x ^ k * V x) := by
  let F : ℕ → ℝ → ℝ := fun n x => if n = 0 then 0 else -(-1) ^ n * (x ^ k * Real.exp (-(n * x)))
  have hF : ∀ n, IntegrableOn (F n) (Ioi 0) := by
    intro n
    rcases Nat.eq_zero_or_pos n with rfl | hn
    · simp [F]
    · simp only [F, hn.ne', if_false]
      exact (half_integrable k n (by exact_mod_cast hn)).const_mul _
  have hint : ∀ n, ∫ x in Ioi (0 : ℝ), F n x = -((-1) ^ n * (k.factorial / (n : ℝ) ^ (k + 1))) := by
    intro n
    rcases Nat.eq_zero_or_pos n with rfl | hn
    · simp [F]
    · have hn' : (0 : ℝ) < n := by exact_mod_cast hn
      simp only [F, hn.ne', if_false]
      rw [integral_const_mul, half k n hn']
      ring
  have hnorm : ∀ n, ∫ x in Ioi (0 : ℝ), ‖F n x‖ = k.factorial / (n : ℝ) ^ (k + 1) := by
    intro n
    rcases Nat.eq_zero_or_pos n with rfl | hn
    · simp [F]
    · have : ∀ x ∈ Ioi (0 : ℝ), ‖F n x‖ = x ^ k * Real.exp (-(n * x)) := by
        intro x hx
        have hx : 0 < x := hx
        simp only [F, hn.ne', if_false]
        rw [norm_mul, norm_neg, norm_pow, norm_neg, norm_one, one_pow, one_mul, Real.norm_eq_abs,
          abs_of_nonneg (mul_nonneg (pow_nonneg hx.le k) (Real.exp_pos _).le)]
      have hn' : (0 : ℝ) < n := by exact_mod_cast hn
      rw [setIntegral_congr_fun measurableSet_Ioi this, half k n hn']
  have hs : Summable fun n => ∫ x in Ioi (0 : ℝ), ‖F n x‖ := by
    simp only [hnorm]
    have := (Real.summable_one_div_nat_pow.2 (show 1 < k + 1 by omega)).mul_left (k.factorial : ℝ)
    refine this.congr fun n => by ring
  have h := hasSum_integral_of_summable_integral_norm hF hs
  simp only [hint] at h
  suffices he : ∫ x in Ioi (0 : ℝ), x ^ k * V x = ∫ x in Ioi (0 : ℝ), ∑' n, F n x by rw [he]; exact h
  refine setIntegral_congr_fun measurableSet_Ioi fun x hx => ?_
  have hx : 0 < x := hx
  have h2 := (hasSum_geometric_of_norm_lt_one (exp_neg_lt hx)).mul_left (-(x ^ k))
  have h3 : HasSum (fun n => F n x + if n = 0 then -(x ^ k) else 0) (-(x ^ k) * (1 - -Real.exp (-x))⁻¹) := by
    refine (hs_congr fun n => ?_).1 h2
    simp only [F]
    rcases Nat.eq_zero_or_pos n with rfl | hn
    · simp
    · simp only [hn.ne', if_false]
      rw [pow_neg_exp]
      ring
  have h4 := h3.sub (hasSum_ite_eq (0 : ℕ) (-(x ^ k)))
  simp only [add_sub_cancel_right] at h4
  rw [h4.tsum_eq, sub_neg_eq_add]
  unfold V
  rw [abs_of_pos hx, Real.exp_neg]
  have := Real.exp_pos x
  have h5 : (1 + (Real.exp x)⁻¹)⁻¹ = Real.exp x / (1 + Real.exp x) := by
    rw [inv_eq_iff_eq_inv, inv_div]
    field_simp
    ring
  rw [sub_neg_eq_add, h5]
  field_simp
  ring

/-! ## Values of the moments -/

theorem W_deriv (x : ℝ) : HasDerivAt (fun x : ℝ => -(1 / (1 + Real.exp x))) (W x) x := by
  have h1 : HasDerivAt (fun x : ℝ => 1 + Real.exp x) (Real.exp x) x := (Real.hasDerivAt_exp x).const_add 1
  have hne : 1 + Real.exp x ≠ 0 := by have := Real.exp_pos x; positivity
  have h2 := (h1.inv hne).neg
  refine (h2.congr_deriv ?_).congr_of_eventuallyEq (Filter.Eventually.of_forall fun y => by simp [one_div])
  unfold W
  ring

theorem W_moment_0 : ∫ x : ℝ, W x = 1 := by
  have hI : Integrable W := by
    have := integrable_mono W W_cont W_even W_nonneg W_le 0
    simpa using this
  have hbot : Filter.Tendsto (fun x : ℝ => -(1 / (1 + Real.exp x))) Filter.atBot (nhds (-1)) := by
    have h1 : Filter.Tendsto (fun x : ℝ => -(1 / (1 + Real.exp x))) Filter.atBot (nhds (-(1 / (1 + 0)))) :=
      (tendsto_const_nhds.div (tendsto_const_nhds.add Real.tendsto_exp_atBot) (by norm_num)).neg
    simpa using h1
  have htop : Filter.Tendsto (fun x : ℝ => -(1 / (1 + Real.exp x))) Filter.atTop (nhds 0) := by
    have h1 : Filter.Tendsto (fun x : ℝ => 1 + Real.exp x) Filter.atTop Filter.atTop :=
      Filter.tendsto_atTop_add_const_left _ _ Real.tendsto_exp_atTop
    have h2 := h1.inv_tendsto_atTop.neg
    rw [neg_zero] at h2
    refine h2.congr fun x => by simp [one_div]
  have := integral_of_hasDerivAt_of_tendsto W_deriv hI hbot htop
  rw [this]
  norm_num

theorem V_moment_0 : ∫ x : ℝ, V x = 2 * Real.log 2 := by
  have h0 := even_moment V V_even 0
  simp only [mul_zero, pow_zero, one_mul] at h0
  rw [h0]
  congr 1
  have hder : ∀ x ∈ Ici (0 : ℝ), HasDerivAt (fun x : ℝ => -Real.log (1 + Real.exp (-x))) (V x) x := by
    intro x hx
    have hx : 0 ≤ x := hx
    have h1 : HasDerivAt (fun x : ℝ => 1 + Real.exp (-x)) (Real.exp (-x) * (-1)) x := ((hasDerivAt_neg x).exp).const_add 1
    have hne : 1 + Real.exp (-x) ≠ 0 := by have := Real.exp_pos (-x); positivity
    refine (h1.log hne).neg.congr_deriv ?_
    unfold V
    rw [abs_of_nonneg hx, Real.exp_neg]
    have := Real.exp_pos x
    field_simp
    ring
  have hI : IntegrableOn V (Ioi 0) := by
    have := integrable_mono V V_cont V_even V_nonneg V_le 0
    simp only [pow_zero, one_mul] at this
    exact this.integrableOn
  have htop : Filter.Tendsto (fun x : ℝ => -Real.log (1 + Real.exp (-x))) Filter.atTop (nhds 0) := by
    have h1 : Filter.Tendsto (fun x : ℝ => 1 + Real.exp (-x)) Filter.atTop (nhds (1 + 0)) :=
      tendsto_const_nhds.add (Real.tendsto_exp_neg_atTop_nhds_zero)
    have h2 := (h1.log (by norm_num)).neg
    simpa using h2
  have := integral_Ioi_of_hasDerivAt_of_tendsto' hder hI htop
  rw [this]
  norm_num

theorem eta_even (k : ℕ) (hk : k ≠ 0) (c Z : ℝ) (h : HasSum (fun n : ℕ => 1 / (n : ℝ) ^ (2 * k)) Z) :
    HasSum (fun n : ℕ => -((-1) ^ n * (c / (n : ℝ) ^ (2 * k)))) (c * (1 - 2 / 4 ^ k) * Z) := by
  have he : HasSum (fun m : ℕ => 1 / ((2 * m : ℕ) : ℝ) ^ (2 * k)) (1 / 4 ^ k * Z) := by
    refine (hs_congr fun m => ?_).1 (h.mul_left (1 / 4 ^ k))
    push_cast
    rw [mul_pow, pow_mul (2 : ℝ), show (2 : ℝ) ^ 2 = 4 by norm_num, one_div_mul_one_div]
  have hsum : Summable fun m : ℕ => 1 / ((2 * m + 1 : ℕ) : ℝ) ^ (2 * k) :=
    h.summable.comp_injective (i := fun m : ℕ => 2 * m + 1) fun a b hab => by simpa using hab
  have ho := hsum.hasSum
  have hu := h.unique (HasSum.even_add_odd (f := fun n : ℕ => 1 / (n : ℝ) ^ (2 * k)) he ho)
  have e2 : HasSum (fun m : ℕ => -((-1) ^ (2 * m) * (c / ((2 * m : ℕ) : ℝ) ^ (2 * k)))) (-c * (1 / 4 ^ k * Z)) := by
    refine (hs_congr fun m => ?_).1 (he.mul_left (-c))
    rw [pow_mul (-1 : ℝ), neg_one_sq, one_pow]
    ring
  have o2 : HasSum (fun m : ℕ => -((-1) ^ (2 * m + 1) * (c / ((2 * m + 1 : ℕ) : ℝ) ^ (2 * k)))) (c * (Z - 1 / 4 ^ k * Z)) := by
    have ho' : HasSum (fun m : ℕ => 1 / ((2 * m + 1 : ℕ) : ℝ) ^ (2 * k)) (Z - 1 / 4 ^ k * Z) := by
      rw [show Z - 1 / 4 ^ k * Z = ∑' m : ℕ, 1 / ((2 * m + 1 : ℕ) : ℝ) ^ (2 * k) by linarith]
      exact ho
    refine (hs_congr fun m => ?_).1 (ho'.mul_left c)
    rw [pow_succ, pow_mul (-1 : ℝ), neg_one_sq, one_pow]
    ring
  have := HasSum.even_add_odd (f := fun n : ℕ => -((-1) ^ n * (c / (n : ℝ) ^ (2 * k)))) e2 o2
  convert this using 1
  ring

theorem W_moment (k : ℕ) (hk : k ≠ 0) : ∫ x : ℝ, x ^ (2 * k) * W x =
    (1 - 2 / 4 ^ k) * ((-1 : ℝ) ^ (k + 1) * 4 ^ k * Real.pi ^ (2 * k) * bernoulli (2 * k)) := by
  rw [even_moment W W_even, (W_series (2 * k) (by omega)).unique (eta_even k hk _ _ (hasSum_zeta_nat hk))]
  have hf : ((2 * k).factorial : ℝ) ≠ 0 := by exact_mod_cast (2 * k).factorial_ne_zero
  have h4 : (4 : ℝ) ^ k = 2 * 2 ^ (2 * k - 1) := by
    rw [← pow_succ', Nat.sub_add_cancel (by omega), pow_mul]
    norm_num
  field_simp
  rw [h4]
  ring

/-- Partial sums of the alternating series. -/
def altsum (s : ℕ) : ℕ → ℚ
  | 0 => 0
  | n + 1 => altsum s n + (if n % 2 = 0 then 1 else -1) / ((n + 1) ^ s : ℕ)

theorem altsum_cast (s n : ℕ) (c : ℝ) :
    ∑ i ∈ Finset.range n, (-1) ^ i * (c / ((i + 1 : ℕ) : ℝ) ^ s) = c * (altsum s n : ℝ) := by
  induction n with
  | zero => simp [altsum]
  | succ n ih =>
    rw [Finset.sum_range_succ, ih, altsum]
    have hs : (-1 : ℝ) ^ n = if n % 2 = 0 then 1 else -1 := by
      split
      · exact Even.neg_one_pow (Nat.even_iff.2 (by assumption))
      · exact Odd.neg_one_pow (Nat.odd_iff.2 (by omega))
    rw [hs]
    push_cast
    split <;> ring

theorem V_bounds (k N : ℕ) (hk : k ≠ 0) : 2 * ((2 * k).factorial : ℝ) * (altsum (2 * k + 1) (2 * N) : ℝ) ≤ ∫ x : ℝ, x ^ (2 * k) * V x ∧
    ∫ x : ℝ, x ^ (2 * k) * V x ≤ 2 * ((2 * k).factorial : ℝ) * (altsum (2 * k + 1) (2 * N + 1) : ℝ) := by
  rw [even_moment V V_even]
  have h := V_series (2 * k) (by omega)
  have h1 := (hasSum_nat_add_iff' 1).2 h
  rw [Finset.sum_range_one] at h1
  have h0 : -((-1 : ℝ) ^ 0 * (((2 * k).factorial : ℝ) / ((0 : ℕ) : ℝ) ^ (2 * k + 1))) = 0 := by simp
  rw [h0, sub_zero] at h1
  have h2 := h1.tendsto_sum_nat
  have h3 : Filter.Tendsto (fun n => ∑ i ∈ Finset.range n, (-1) ^ i * (((2 * k).factorial : ℝ) / ((i + 1 : ℕ) : ℝ) ^ (2 * k + 1))) Filter.atTop
      (nhds (∫ x in Ioi (0 : ℝ), x ^ (2 * k) * V x)) := by
    refine h2.congr fun n => Finset.sum_congr rfl fun i _ => ?_
    rw [pow_succ (-1 : ℝ)]
    ring
  have ha : Antitone fun i : ℕ => ((2 * k).factorial : ℝ) / ((i + 1 : ℕ) : ℝ) ^ (2 * k + 1) := by
    intro i j hij
    have h5 : ((i + 1 : ℕ) : ℝ) ≤ ((j + 1 : ℕ) : ℝ) := by exact_mod_cast Nat.succ_le_succ hij
    have h6 : (0 : ℝ) < ((i + 1 : ℕ) : ℝ) := by exact_mod_cast Nat.succ_pos i
    exact div_le_div_of_nonneg_left (by positivity) (pow_pos h6 _) (pow_le_pow_left₀ h6.le h5 _)
  have l1 := Antitone.alternating_series_le_tendsto h3 ha N
  have l2 := Antitone.tendsto_le_alternating_series h3 ha N
  rw [altsum_cast] at l1 l2
  constructor <;> linarith

theorem b'6 : bernoulli' 6 = 1 / 42 := by
  rw [bernoulli'_def]
  norm_num [Finset.sum_range_succ, Nat.choose, bernoulli'_zero, bernoulli'_one, bernoulli'_two, bernoulli'_three, bernoulli'_four,
    bernoulli'_eq_zero_of_odd (n := 5) (by decide)]

theorem b'8 : bernoulli' 8 = -1 / 30 := by
  rw [bernoulli'_def]
  norm_num [Finset.sum_range_succ, Nat.choose, bernoulli'_zero, bernoulli'_one, bernoulli'_two, bernoulli'_three, bernoulli'_four, b'6,
    bernoulli'_eq_zero_of_odd (n := 5) (by decide), bernoulli'_eq_zero_of_odd (n := 7) (by decide)]

theorem b'10 : bernoulli' 10 = 5 / 66 := by
  rw [bernoulli'_def]
  norm_num [Finset.sum_range_succ, Nat.choose, bernoulli'_zero, bernoulli'_one, bernoulli'_two, bernoulli'_three, bernoulli'_four, b'6, b'8,
    bernoulli'_eq_zero_of_odd (n := 5) (by decide), bernoulli'_eq_zero_of_odd (n := 7) (by decide), bernoulli'_eq_zero_of_odd (n := 9) (by decide)]

theorem b'12 : bernoulli' 12 = -691 / 2730 := by
  rw [bernoulli'_def]
  norm_num [Finset.sum_range_succ, Nat.choose, bernoulli'_zero, bernoulli'_one, bernoulli'_two, bernoulli'_three, bernoulli'_four, b'6, b'8,
    b'10, bernoulli'_eq_zero_of_odd (n := 5) (by decide), bernoulli'_eq_zero_of_odd (n := 7) (by decide), bernoulli'_eq_zero_of_odd (n := 9) (by decide),
    bernoulli'_eq_zero_of_odd (n := 11) (by decide)]

theorem W_moment_2 : ∫ x : ℝ, x ^ 2 * W x = 1 / 3 * Real.pi ^ 2 := by
  have := W_moment 1 (by norm_num)
  rw [show 2 * 1 = 2 from rfl, bernoulli_two] at this
  rw [this]; push_cast; ring
theorem W_moment_4 : ∫ x : ℝ, x ^ 4 * W x = 7 / 15 * Real.pi ^ 4 := by
  have := W_moment 2 (by norm_num)
  rw [show 2 * 2 = 4 from rfl, bernoulli_eq_bernoulli'_of_ne_one (by norm_num), bernoulli'_four] at this
  rw [this]; push_cast; ring
theorem W_moment_6 : ∫ x : ℝ, x ^ 6 * W x = 31 / 21 * Real.pi ^ 6 := by
  have := W_moment 3 (by norm_num)
  rw [show 2 * 3 = 6 from rfl, bernoulli_eq_bernoulli'_of_ne_one (by norm_num), b'6] at this
  rw [this]; push_cast; ring
theorem W_moment_8 : ∫ x : ℝ, x ^ 8 * W x = 127 / 15 * Real.pi ^ 8 := by
  have := W_moment 4 (by norm_num)
  rw [show 2 * 4 = 8 from rfl, bernoulli_eq_bernoulli'_of_ne_one (by norm_num), b'8] at this
  rw [this]; push_cast; ring
theorem W_moment_10 : ∫ x : ℝ, x ^ 10 * W x = 2555 / 33 * Real.pi ^ 10 := by
  have := W_moment 5 (by norm_num)
  rw [show 2 * 5 = 10 from rfl, bernoulli_eq_bernoulli'_of_ne_one (by norm_num), b'10] at this
  rw [this]; push_cast; ring
theorem W_moment_12 : ∫ x : ℝ, x ^ 12 * W x = 1414477 / 1365 * Real.pi ^ 12 := by
  have := W_moment 6 (by norm_num)
  rw [show 2 * 6 = 12 from rfl, bernoulli_eq_bernoulli'_of_ne_one (by norm_num), b'12] at this
  rw [this]; push_cast; ring

end TB.Gauss

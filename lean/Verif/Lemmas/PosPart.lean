import Mathlib.MeasureTheory.Integral.IntervalIntegral.FundThmCalculus
import Mathlib.MeasureTheory.Integral.DivergenceTheorem
import Mathlib.Analysis.Calculus.Deriv.Pow
import Mathlib.Analysis.Calculus.Deriv.Slope
import Mathlib.Analysis.Calculus.Deriv.Comp
import Mathlib.Analysis.Calculus.Deriv.Mul
import Mathlib.Analysis.Calculus.Deriv.Add
import Mathlib.Tactic.Linarith
import Mathlib.Tactic.FieldSimp
import Mathlib.Tactic.Ring
import Mathlib.Tactic.NormNum
import Mathlib.Tactic.Positivity

/-!
# Powers of the positive part: derivative and integral along a line
-/

namespace TB.Smear

open MeasureTheory

/-- `max(0, u)^n`. -/
noncomputable def pp (n : ℕ) (u : ℝ) : ℝ := (max 0 u) ^ n

theorem pp_of_nonneg {n : ℕ} {u : ℝ} (h : 0 ≤ u) : pp n u = u ^ n := by rw [pp, max_eq_right h]

theorem pp_of_nonpos {n : ℕ} {u : ℝ} (h : u ≤ 0) : pp (n + 1) u = 0 := by rw [pp, max_eq_left h]; simp

theorem pp_nonneg (n : ℕ) (u : ℝ) : 0 ≤ pp n u := pow_nonneg (le_max_left _ _) _

theorem continuous_pp (n : ℕ) : Continuous (pp n) := (continuous_const.max continuous_id).pow n

theorem hasDerivAt_pp {n : ℕ} {u : ℝ} (hu : u ≠ 0) : HasDerivAt (pp (n + 1)) ((n + 1) * (if 0 < u then u ^ n else 0)) u := by
  rcases lt_or_gt_of_ne hu with h | h
  · rw [if_neg (by linarith), mul_zero]
    refine (hasDerivAt_const u (0 : ℝ)).congr_of_eventuallyEq ?_
    filter_upwards [Iio_mem_nhds h] with y hy
    exact pp_of_nonpos (le_of_lt hy)
  · rw [if_pos h]
    have h1 := hasDerivAt_pow (n + 1) u
    simp only [Nat.add_sub_cancel] at h1
    push_cast at h1
    refine h1.congr_of_eventuallyEq ?_
    filter_upwards [Ioi_mem_nhds h] with y hy
    exact pp_of_nonneg (le_of_lt hy)

theorem hasDerivAt_pp' (n : ℕ) (u : ℝ) : HasDerivAt (pp (n + 2)) ((n + 2) * pp (n + 1) u) u := by
  by_cases hu : u = 0
  · subst hu
    have h0 : pp (n + 1) 0 = 0 := pp_of_nonpos le_rfl
    rw [h0, mul_zero, hasDerivAt_iff_tendsto_slope_zero]
    have hlim : Filter.Tendsto (fun t : ℝ => |t| ^ (n + 1)) (nhdsWithin 0 {0}ᶜ) (nhds 0) := by
      have : Continuous fun t : ℝ => |t| ^ (n + 1) := by fun_prop
      have h2 := this.tendsto 0
      simp only [abs_zero, ne_eq, Nat.succ_ne_zero, not_false_eq_true, zero_pow] at h2
      exact h2.mono_left nhdsWithin_le_nhds
    refine squeeze_zero_norm' ?_ hlim
    filter_upwards [self_mem_nhdsWithin] with t ht
    have ht' : 0 < |t| := abs_pos.2 ht
    rw [zero_add, show pp (n + 2) 0 = 0 from pp_of_nonpos le_rfl, sub_zero, smul_eq_mul, Real.norm_eq_abs, abs_mul,
      abs_inv, pp, abs_pow, abs_of_nonneg (le_max_left 0 t)]
    have : max 0 t ≤ |t| := max_le (abs_nonneg t) (le_abs_self t)
    calc |t|⁻¹ * (max 0 t) ^ (n + 2) ≤ |t|⁻¹ * |t| ^ (n + 2) := by
          refine mul_le_mul_of_nonneg_left (pow_le_pow_left₀ (le_max_left _ _) this _) (by positivity)
      _ = |t| ^ (n + 1) := by rw [pow_succ |t| (n + 1)]; field_simp
  · have := hasDerivAt_pp (n := n + 1) hu
    convert this using 1
    push_cast
    rw [pp]
    rcases lt_or_gt_of_ne hu with h | h
    · rw [if_neg (by linarith), max_eq_left h.le]; simp
    · rw [if_pos h, max_eq_right h.le]; ring

/-- Integral of a power of the positive part along a line. -/
theorem integral_pp (n : ℕ) (α β l r : ℝ) (hβ : β ≠ 0) :
    ∫ y in l..r, pp (n + 1) (α + β * y) = (pp (n + 2) (α + β * r) - pp (n + 2) (α + β * l)) / (β * (n + 2)) := by
  have hn : ((n : ℝ) + 2) ≠ 0 := by positivity
  have hd : ∀ y, HasDerivAt (fun y => pp (n + 2) (α + β * y) / (β * (n + 2))) (pp (n + 1) (α + β * y)) y := by
    intro y
    have h1 : HasDerivAt (fun y : ℝ => α + β * y) β y := by
      simpa using ((hasDerivAt_id y).const_mul β).const_add α
    have h2 := ((hasDerivAt_pp' n (α + β * y)).comp y h1).div_const (β * (n + 2))
    refine h2.congr_deriv ?_
    field_simp
  rw [intervalIntegral.integral_eq_sub_of_hasDerivAt (fun y _ => hd y)
    (Continuous.intervalIntegrable ((continuous_pp _).comp (by fun_prop)) _ _)]
  ring

theorem step_integrable (α β l r : ℝ) (hβ : β ≠ 0) :
    IntervalIntegrable (fun y => if 0 < α + β * y then (1 : ℝ) else 0) volume l r := by
  rcases lt_or_gt_of_ne hβ with h | h
  · refine Antitone.intervalIntegrable fun x y hxy => ?_
    by_cases h1 : 0 < α + β * y
    · have : 0 < α + β * x := by nlinarith
      rw [if_pos h1, if_pos this]
    · rw [if_neg h1]; split_ifs <;> norm_num
  · refine Monotone.intervalIntegrable fun x y hxy => ?_
    by_cases h1 : 0 < α + β * x
    · have : 0 < α + β * y := by nlinarith
      rw [if_pos h1, if_pos this]
    · rw [if_neg h1]; split_ifs <;> norm_num

/-- Integral of the indicator of the positive side along a line. -/
theorem integral_step (α β l r : ℝ) (hβ : β ≠ 0) :
    ∫ y in l..r, (if 0 < α + β * y then (1 : ℝ) else 0) = (pp 1 (α + β * r) - pp 1 (α + β * l)) / β := by
  have hcont : Continuous fun y => pp 1 (α + β * y) / β := ((continuous_pp 1).comp (by fun_prop)).div_const _
  have hd : ∀ y, y ∉ ({-α / β} : Set ℝ) →
      HasDerivAt (fun y => pp 1 (α + β * y) / β) (if 0 < α + β * y then (1 : ℝ) else 0) y := by
    intro y hy
    have hne : α + β * y ≠ 0 := by
      intro h0
      apply hy
      rw [Set.mem_singleton_iff, eq_div_iff hβ]
      linarith
    have h1 : HasDerivAt (fun y : ℝ => α + β * y) β y := by
      simpa using ((hasDerivAt_id y).const_mul β).const_add α
    have h2 := ((hasDerivAt_pp (n := 0) hne).comp y h1).div_const β
    refine h2.congr_deriv ?_
    by_cases h : 0 < α + β * y
    · rw [if_pos h, if_pos h]; field_simp; simp
    · rw [if_neg h, if_neg h]; simp
  have hint := step_integrable α β l r hβ
  rw [integral_eq_of_hasDerivAt_off_countable _ _ (Set.countable_singleton (-α / β)) hcont.continuousOn
    (fun y hy => hd y hy.2) hint]
  ring

end TB.Smear

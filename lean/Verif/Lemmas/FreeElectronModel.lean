import Mathlib.Analysis.PSeries
import Mathlib.NumberTheory.ZetaValues
import Mathlib.Tactic.Ring
import Mathlib.Tactic.LinearCombination
import Mathlib.Tactic.FieldSimp

/-! # The Fourier series of the parabola, with error bound -/

namespace TB.FE
open Finset

theorem bernoulli_two_eval (x : ℝ) :
    (Polynomial.map (algebraMap ℚ ℝ) (Polynomial.bernoulli 2)).eval x = x ^ 2 - x + 1 / 6 := by
  rw [Polynomial.bernoulli]
  simp only [Finset.sum_range_succ, Finset.sum_range_zero, Polynomial.map_add, Polynomial.eval_add]
  simp [bernoulli_two, Polynomial.map_monomial, bernoulli_one]
  ring

theorem cos_half (n : ℕ) (y : ℝ) : Real.cos (2 * Real.pi * n * (y + 1 / 2)) = (-1) ^ n * Real.cos (2 * Real.pi * y * n) := by
  have : 2 * Real.pi * n * (y + 1 / 2) = 2 * Real.pi * y * n + n * Real.pi := by ring
  rw [this, Real.cos_add_nat_mul_pi]

/-- The series of the parabola on `[-1/2, 1/2]`. -/
theorem parabola_hasSum {y : ℝ} (hy : |y| ≤ 1 / 2) :
    HasSum (fun n : ℕ => (-1 : ℝ) ^ n / (n : ℝ) ^ 2 * Real.cos (2 * Real.pi * y * n)) (Real.pi ^ 2 * (y ^ 2 - 1 / 12)) := by
  rw [abs_le] at hy
  have h := hasSum_one_div_nat_pow_mul_cos (k := 1) one_ne_zero (x := y + 1 / 2) ⟨by linarith, by linarith⟩
  rw [mul_one, bernoulli_two_eval] at h
  convert! h using 1
  · funext n
    rw [cos_half]; ring
  · norm_num [Nat.factorial]; ring

theorem parabola_bound {y : ℝ} (hy : |y| ≤ 1 / 2) {N : ℕ} (hN : 1 ≤ N) :
    |(∑ n ∈ Ico 1 N, (-1 : ℝ) ^ n / (n : ℝ) ^ 2 * Real.cos (2 * Real.pi * y * n)) - Real.pi ^ 2 * (y ^ 2 - 1 / 12)| ≤ (2 : ℝ) / N := by
  set f := fun n : ℕ => (-1 : ℝ) ^ n / (n : ℝ) ^ 2 * Real.cos (2 * Real.pi * y * n) with hf
  have hlim := ((parabola_hasSum hy).tendsto_sum_nat).const_sub (∑ n ∈ Ico 1 N, f n)
  refine le_of_tendsto hlim.abs (Filter.eventually_atTop.2 ⟨N, fun M hM => ?_⟩)
  have h0 : ∑ n ∈ range M, f n = ∑ n ∈ Ico 1 N, f n + ∑ n ∈ Ico N M, f n := by
    rw [Finset.range_eq_Ico, ← Finset.sum_Ico_consecutive f (Nat.zero_le 1) (hN.trans hM), ← Finset.sum_Ico_consecutive f hN hM]
    simp [hf]
  have h1 : ∑ n ∈ Ico N M, f n = ∑ n ∈ Ioo (N - 1) M, f n := by
    congr 1
    ext n
    simp only [mem_Ico, mem_Ioo]
    omega
  change |∑ n ∈ Ico 1 N, f n - ∑ n ∈ range M, f n| ≤ _
  rw [h0, sub_add_cancel_left, abs_neg, h1]
  refine (Finset.abs_sum_le_sum_abs _ _).trans ((Finset.sum_le_sum fun n _ => ?_).trans
    ((sum_Ioo_inv_sq_le (α := ℝ) (N - 1) M).trans ?_))
  · simp only [hf]
    rw [abs_mul, abs_div, abs_pow, abs_neg, abs_one, one_pow, abs_of_nonneg (by positivity : (0 : ℝ) ≤ (n : ℝ) ^ 2)]
    calc _ ≤ 1 / (n : ℝ) ^ 2 * 1 := mul_le_mul_of_nonneg_left (Real.abs_cos_le_one _) (by positivity)
      _ = _ := by rw [mul_one, one_div]
  · rw [Nat.cast_sub hN]; simp

end TB.FE

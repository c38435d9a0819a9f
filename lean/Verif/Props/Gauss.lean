import Verif.Model.Gauss
import Verif.Lemmas.Gauss
import Verif.Props.DosConv
import Mathlib.Algebra.Polynomial.Eval.Degree
import Mathlib.Analysis.Complex.ExponentialBounds

/-!
# C120: the Gauss rules for the Fermi function
-/

namespace TB.Gauss
open MeasureTheory Polynomial

/-! ## Specification -/

/-- The polynomial `p(y / beta + mu)` in `y`. -/
noncomputable def Spec.scaled (p : ℝ[X]) (mu beta : ℝ) : ℝ[X] := p.comp (C (1 / beta) * X + C mu)

/-- The sum of the sizes of the terms of `p(y / beta + mu)`, each averaged with the weight `G(y)`. -/
noncomputable def Spec.size (G : ℝ → ℝ) (D : ℕ) (p : ℝ[X]) (mu beta : ℝ) : ℝ :=
  ∑ k ∈ Finset.range (D + 1), |(Spec.scaled p mu beta).coeff k| * ∫ y : ℝ, |y| ^ k * G y

/-- `-f'(y)` for `f(y) = 1 / (1 + e^y)`. -/
noncomputable def Spec.dfWeight (y : ℝ) : ℝ := -deriv (fun x : ℝ => 1 / (1 + Real.exp x)) y

/-- `1 / (1 + e^|y|)`. -/
noncomputable def Spec.fWeight (y : ℝ) : ℝ := 1 / (1 + Real.exp |y|)

/-! ## Lemmas -/

theorem dfWeight_eq : Spec.dfWeight = W := by
  funext y
  have h := (W_deriv y).neg
  have h2 : (fun x : ℝ => 1 / (1 + Real.exp x)) = -fun x : ℝ => -(1 / (1 + Real.exp x)) := by
    funext x
    simp
  unfold Spec.dfWeight
  rw [h2, h.deriv, neg_neg]

theorem scaled_eval (p : ℝ[X]) (mu beta y : ℝ) : (Spec.scaled p mu beta).eval y = p.eval (y / beta + mu) := by
  unfold Spec.scaled
  rw [eval_comp]
  congr 1
  simp
  ring

theorem scaled_degree (p : ℝ[X]) (mu beta : ℝ) (D : ℕ) (hp : p.natDegree ≤ D) : (Spec.scaled p mu beta).natDegree < D + 1 := by
  have h1 : (C (1 / beta) * X + C mu).natDegree ≤ 1 := natDegree_linear_le
  have h2 : (Spec.scaled p mu beta).natDegree ≤ p.natDegree * (C (1 / beta) * X + C mu).natDegree := natDegree_comp_le
  have h3 : p.natDegree * (C (1 / beta) * X + C mu).natDegree ≤ p.natDegree * 1 := Nat.mul_le_mul_left _ h1
  omega

/-- The moments of a rule. -/
def Rule.moment (r : Rule) (k : ℕ) : ℚ :=
  (if k = 0 then r.w0 else 0) + (r.pairs.map fun p => p.2 * ((-p.1) ^ k + p.1 ^ k)).sum

theorem moment_odd (r : Rule) (k : ℕ) : r.moment (2 * k + 1) = 0 := by
  unfold Rule.moment
  rw [if_neg (by omega), zero_add]
  apply List.sum_eq_zero
  intro x hx
  obtain ⟨p, -, rfl⟩ := List.mem_map.1 hx
  rw [Odd.neg_pow (odd_two_mul_add_one k)]
  ring

theorem sum_eq (r : Rule) (p : ℝ[X]) (mu beta : ℝ) (D : ℕ) (hp : p.natDegree ≤ D) :
    r.sum (fun x => p.eval x) mu beta = ∑ k ∈ Finset.range (D + 1), (Spec.scaled p mu beta).coeff k * (r.moment k : ℝ) := by
  have he : ∀ y : ℝ, p.eval (y / beta + mu) = ∑ k ∈ Finset.range (D + 1), (Spec.scaled p mu beta).coeff k * y ^ k := by
    intro y
    rw [← scaled_eval, eval_eq_sum_range' (scaled_degree p mu beta D hp)]
  unfold Rule.sum Rule.moment
  simp only [he]
  induction r.pairs with
  | nil =>
    simp only [List.map_nil, List.sum_nil, add_zero]
    rw [Finset.mul_sum]
    refine Finset.sum_congr rfl fun k _ => ?_
    by_cases hk : k = 0
    · subst hk; simp; ring
    · simp [hk]
  | cons a l ih =>
    rw [List.map_cons, List.sum_cons, ← add_assoc, add_comm (_ * _) (_ * _), add_assoc, ih, mul_add, Finset.mul_sum, Finset.mul_sum,
      ← Finset.sum_add_distrib, ← Finset.sum_add_distrib]
    refine Finset.sum_congr rfl fun k _ => ?_
    rw [List.map_cons, List.sum_cons]
    push_cast
    ring

/-- Bounds for the moments give bounds for polynomials. -/
theorem rule_error (r : Rule) (G : ℝ → ℝ) (hG : ∀ k : ℕ, Integrable fun x : ℝ => x ^ k * G x) (c eps : ℝ) (D : ℕ)
    (h : ∀ k ≤ D, |c * (r.moment k : ℝ) - ∫ y : ℝ, y ^ k * G y| ≤ eps * ∫ y : ℝ, |y| ^ k * G y) (p : ℝ[X]) (hp : p.natDegree ≤ D) (mu beta : ℝ) :
    |c * r.sum (fun x => p.eval x) mu beta - ∫ y : ℝ, p.eval (y / beta + mu) * G y| ≤ eps * Spec.size G D p mu beta := by
  have hi : ∫ y : ℝ, p.eval (y / beta + mu) * G y = ∑ k ∈ Finset.range (D + 1), (Spec.scaled p mu beta).coeff k * ∫ y : ℝ, y ^ k * G y := by
    have : (fun y : ℝ => p.eval (y / beta + mu) * G y) =
        fun y => ∑ k ∈ Finset.range (D + 1), (Spec.scaled p mu beta).coeff k * (y ^ k * G y) := by
      funext y
      rw [← scaled_eval, eval_eq_sum_range' (scaled_degree p mu beta D hp), Finset.sum_mul]
      exact Finset.sum_congr rfl fun k _ => by ring
    rw [this, integral_finsetSum _ fun k _ => (hG k).const_mul _]
    exact Finset.sum_congr rfl fun k _ => integral_const_mul _ _
  rw [hi, sum_eq r p mu beta D hp, Finset.mul_sum, ← Finset.sum_sub_distrib]
  refine (Finset.abs_sum_le_sum_abs _ _).trans ?_
  unfold Spec.size
  rw [Finset.mul_sum]
  refine Finset.sum_le_sum fun k hk => ?_
  have := h k (by rw [Finset.mem_range] at hk; omega)
  calc |c * ((Spec.scaled p mu beta).coeff k * (r.moment k : ℝ)) - (Spec.scaled p mu beta).coeff k * ∫ y : ℝ, y ^ k * G y|
      = |(Spec.scaled p mu beta).coeff k| * |c * (r.moment k : ℝ) - ∫ y : ℝ, y ^ k * G y| := by rw [← abs_mul]; congr 1; ring
    _ ≤ |(Spec.scaled p mu beta).coeff k| * (eps * ∫ y : ℝ, |y| ^ k * G y) := mul_le_mul_of_nonneg_left this (abs_nonneg _)
    _ = _ := by ring

theorem abs_even (G : ℝ → ℝ) (k : ℕ) : ∫ y : ℝ, |y| ^ (2 * k) * G y = ∫ y : ℝ, y ^ (2 * k) * G y := by
  congr 1
  funext y
  rw [Even.pow_abs (even_two_mul k)]

/-- Only the even moments have to be checked. -/
theorem even_enough (r : Rule) (G : ℝ → ℝ) (he : ∀ x, G (-x) = G x) (h0 : ∀ x, 0 ≤ G x) (c eps : ℝ) (heps : 0 ≤ eps) (D : ℕ)
    (h : ∀ k, 2 * k ≤ D → |c * (r.moment (2 * k) : ℝ) - ∫ y : ℝ, y ^ (2 * k) * G y| ≤ eps * ∫ y : ℝ, y ^ (2 * k) * G y) (k : ℕ) (hk : k ≤ D) :
    |c * (r.moment k : ℝ) - ∫ y : ℝ, y ^ k * G y| ≤ eps * ∫ y : ℝ, |y| ^ k * G y := by
  obtain ⟨j, rfl | rfl⟩ := Nat.even_or_odd' k
  · rw [abs_even]
    exact h j hk
  · rw [moment_odd, odd_moment G he, Rat.cast_zero, mul_zero, sub_zero, abs_zero]
    exact mul_nonneg heps (integral_nonneg fun y => mul_nonneg (pow_nonneg (abs_nonneg y) _) (h0 y))

theorem close (m M lo hi eps : ℝ) (heps : 0 ≤ eps) (heps1 : eps ≤ 1) (h1 : lo ≤ M) (h2 : M ≤ hi) (h3 : m ≤ (1 + eps) * lo)
    (h4 : (1 - eps) * hi ≤ m) : |m - M| ≤ eps * M := by
  rw [abs_le]
  constructor <;> nlinarith

theorem W_close (m : ℚ) (a : ℚ) (k : ℕ) (M : ℝ) (hM : M = (a : ℝ) * Real.pi ^ k) (ha : 0 ≤ a)
    (h3 : m ≤ (1 + 1 / 10 ^ 15) * (a * (314159265358979323846 / 10 ^ 20) ^ k))
    (h4 : (1 - 1 / 10 ^ 15) * (a * (314159265358979323847 / 10 ^ 20) ^ k) ≤ m) : |1 * (m : ℝ) - M| ≤ 1 / 10 ^ 15 * M := by
  have p1 : (314159265358979323846 / 10 ^ 20 : ℝ) ≤ Real.pi := by have := Real.pi_gt_d20; norm_num at this ⊢; linarith
  have p2 : Real.pi ≤ (314159265358979323847 / 10 ^ 20 : ℝ) := by have := Real.pi_lt_d20; norm_num at this ⊢; linarith
  have ha' : (0 : ℝ) ≤ a := by exact_mod_cast ha
  rw [one_mul, hM]
  refine close _ _ ((a : ℝ) * (314159265358979323846 / 10 ^ 20) ^ k) ((a : ℝ) * (314159265358979323847 / 10 ^ 20) ^ k) _ (by norm_num) (by norm_num)
    (mul_le_mul_of_nonneg_left (pow_le_pow_left₀ (by norm_num) p1 k) ha')
    (mul_le_mul_of_nonneg_left (pow_le_pow_left₀ Real.pi_pos.le p2 k) ha') ?_ ?_
  · have := (Rat.cast_le (K := ℝ)).2 h3
    push_cast at this
    exact this
  · have := (Rat.cast_le (K := ℝ)).2 h4
    push_cast at this
    exact this

theorem W_check (r : Rule) (D : ℕ) (h : ∀ k, 2 * k ≤ D → k = 0 ∨ ∃ a : ℚ, 0 ≤ a ∧ ∫ x : ℝ, x ^ (2 * k) * W x = (a : ℝ) * Real.pi ^ (2 * k) ∧
      r.moment (2 * k) ≤ (1 + 1 / 10 ^ 15) * (a * (314159265358979323846 / 10 ^ 20) ^ (2 * k)) ∧
      (1 - 1 / 10 ^ 15) * (a * (314159265358979323847 / 10 ^ 20) ^ (2 * k)) ≤ r.moment (2 * k)) (h0 : |r.moment 0 - 1| ≤ 1 / 10 ^ 15)
    (k : ℕ) (hk : k ≤ D) : |1 * (r.moment k : ℝ) - ∫ y : ℝ, y ^ k * W y| ≤ 1 / 10 ^ 15 * ∫ y : ℝ, |y| ^ k * W y := by
  refine even_enough r W W_even W_nonneg 1 _ (by norm_num) D (fun j hj => ?_) k hk
  rcases h j hj with rfl | ⟨a, h1, h2, h3, h4⟩
  · simp only [mul_zero, pow_zero, one_mul, W_moment_0]
    have := (Rat.cast_le (K := ℝ)).2 h0
    push_cast at this
    linarith
  · exact W_close _ a _ _ h2 h1 h3 h4

theorem W_integrable (k : ℕ) : Integrable fun x : ℝ => x ^ k * W x := integrable_mono W W_cont W_even W_nonneg W_le k
theorem V_integrable (k : ℕ) : Integrable fun x : ℝ => x ^ k * V x := integrable_mono V V_cont V_even V_nonneg V_le k

theorem moments5 : ∀ k ≤ 9, |1 * (rule5.moment k : ℝ) - ∫ y : ℝ, y ^ k * W y| ≤ 1 / 10 ^ 15 * ∫ y : ℝ, |y| ^ k * W y := by
  refine W_check rule5 9 (fun k hk => ?_) (by decide +kernel)
  have : k = 0 ∨ k = 1 ∨ k = 2 ∨ k = 3 ∨ k = 4 := by omega
  rcases this with rfl | rfl | rfl | rfl | rfl
  · exact Or.inl rfl
  · exact Or.inr ⟨1 / 3, by norm_num, by simpa using W_moment_2, by decide +kernel, by decide +kernel⟩
  · exact Or.inr ⟨7 / 15, by norm_num, by simpa using W_moment_4, by decide +kernel, by decide +kernel⟩
  · exact Or.inr ⟨31 / 21, by norm_num, by simpa using W_moment_6, by decide +kernel, by decide +kernel⟩
  · exact Or.inr ⟨127 / 15, by norm_num, by simpa using W_moment_8, by decide +kernel, by decide +kernel⟩

theorem moments7 : ∀ k ≤ 13, |1 * (rule7.moment k : ℝ) - ∫ y : ℝ, y ^ k * W y| ≤ 1 / 10 ^ 15 * ∫ y : ℝ, |y| ^ k * W y := by
  refine W_check rule7 13 (fun k hk => ?_) (by decide +kernel)
  have : k = 0 ∨ k = 1 ∨ k = 2 ∨ k = 3 ∨ k = 4 ∨ k = 5 ∨ k = 6 := by omega
  rcases this with rfl | rfl | rfl | rfl | rfl | rfl | rfl
  · exact Or.inl rfl
  · exact Or.inr ⟨1 / 3, by norm_num, by simpa using W_moment_2, by decide +kernel, by decide +kernel⟩
  · exact Or.inr ⟨7 / 15, by norm_num, by simpa using W_moment_4, by decide +kernel, by decide +kernel⟩
  · exact Or.inr ⟨31 / 21, by norm_num, by simpa using W_moment_6, by decide +kernel, by decide +kernel⟩
  · exact Or.inr ⟨127 / 15, by norm_num, by simpa using W_moment_8, by decide +kernel, by decide +kernel⟩
  · exact Or.inr ⟨2555 / 33, by norm_num, by simpa using W_moment_10, by decide +kernel, by decide +kernel⟩
  · exact Or.inr ⟨1414477 / 1365, by norm_num, by simpa using W_moment_12, by decide +kernel, by decide +kernel⟩

theorem V_check (r : Rule) (D : ℕ) (h : ∀ k, 2 * k ≤ D → k = 0 ∨
      (0 ≤ r.moment (2 * k) ∧ 2 * (6931471808 / 10 ^ 10) * r.moment (2 * k) ≤ (1 + 1 / 10 ^ 7) * (2 * ((2 * k).factorial : ℚ) * altsum (2 * k + 1) (2 * 200)) ∧
      (1 - 1 / 10 ^ 7) * (2 * ((2 * k).factorial : ℚ) * altsum (2 * k + 1) (2 * 200 + 1)) ≤ 2 * (6931471803 / 10 ^ 10) * r.moment (2 * k)))
    (h0 : |r.moment 0 - 1| ≤ 1 / 10 ^ 7) (k : ℕ) (hk : k ≤ D) :
    |2 * Real.log 2 * (r.moment k : ℝ) - ∫ y : ℝ, y ^ k * V y| ≤ 1 / 10 ^ 7 * ∫ y : ℝ, |y| ^ k * V y := by
  have l1 := Real.log_two_gt_d9
  have l2 := Real.log_two_lt_d9
  norm_num at l1 l2
  refine even_enough r V V_even V_nonneg _ _ (by norm_num) D (fun j hj => ?_) k hk
  rcases h j hj with rfl | ⟨h1, h3, h4⟩
  · simp only [mul_zero, pow_zero, one_mul, V_moment_0]
    have h5 := (Rat.cast_le (K := ℝ)).2 h0
    push_cast at h5
    have h6 : (0 : ℝ) < 2 * Real.log 2 := by linarith
    rw [show 2 * Real.log 2 * (r.moment 0 : ℝ) - 2 * Real.log 2 = 2 * Real.log 2 * ((r.moment 0 : ℝ) - 1) by ring, abs_mul, abs_of_pos h6, mul_comm]
    exact mul_le_mul_of_nonneg_right h5 h6.le
  · by_cases hj0 : j = 0
    · subst hj0
      simp only [mul_zero, pow_zero, one_mul, V_moment_0]
      have h5 := (Rat.cast_le (K := ℝ)).2 h0
      push_cast at h5
      have h6 : (0 : ℝ) < 2 * Real.log 2 := by linarith
      rw [show 2 * Real.log 2 * (r.moment 0 : ℝ) - 2 * Real.log 2 = 2 * Real.log 2 * ((r.moment 0 : ℝ) - 1) by ring, abs_mul, abs_of_pos h6, mul_comm]
      exact mul_le_mul_of_nonneg_right h5 h6.le
    · obtain ⟨b1, b2⟩ := V_bounds j 200 hj0
      have h1' : (0 : ℝ) ≤ (r.moment (2 * j) : ℝ) := by exact_mod_cast h1
      have h3' := (Rat.cast_le (K := ℝ)).2 h3
      have h4' := (Rat.cast_le (K := ℝ)).2 h4
      push_cast at h3' h4'
      refine close _ _ _ _ _ (by norm_num) (by norm_num) b1 b2 (le_trans ?_ h3') (le_trans h4' ?_)
      · refine mul_le_mul_of_nonneg_right ?_ h1'
        norm_num
        linarith
      · refine mul_le_mul_of_nonneg_right ?_ h1'
        norm_num
        linarith

theorem moments4 : ∀ k ≤ 7, |2 * Real.log 2 * (rule4.moment k : ℝ) - ∫ y : ℝ, y ^ k * V y| ≤ 1 / 10 ^ 7 * ∫ y : ℝ, |y| ^ k * V y := by
  refine V_check rule4 7 (fun k hk => ?_) (by decide +kernel)
  have : k = 0 ∨ k = 1 ∨ k = 2 ∨ k = 3 := by omega
  rcases this with rfl | rfl | rfl | rfl
  · exact Or.inl rfl
  all_goals exact Or.inr ⟨by decide +kernel, by decide +kernel, by decide +kernel⟩

theorem moments6 : ∀ k ≤ 11, |2 * Real.log 2 * (rule6.moment k : ℝ) - ∫ y : ℝ, y ^ k * V y| ≤ 1 / 10 ^ 7 * ∫ y : ℝ, |y| ^ k * V y := by
  refine V_check rule6 11 (fun k hk => ?_) (by decide +kernel)
  have : k = 0 ∨ k = 1 ∨ k = 2 ∨ k = 3 ∨ k = 4 ∨ k = 5 := by omega
  rcases this with rfl | rfl | rfl | rfl | rfl | rfl
  · exact Or.inl rfl
  all_goals exact Or.inr ⟨by decide +kernel, by decide +kernel, by decide +kernel⟩

/-- Substitution `e = y / beta + mu`. -/
theorem subst_energy (h G : ℝ → ℝ) (mu beta : ℝ) (hb : 0 < beta) :
    ∫ e : ℝ, h e * G (beta * (e - mu)) = 1 / beta * ∫ y : ℝ, h (y / beta + mu) * G y := by
  have h1 := integral_sub_right_eq_self (fun e : ℝ => h (e + mu) * G (beta * e)) mu (μ := volume)
  simp only [sub_add_cancel] at h1
  rw [h1]
  have h2 := Measure.integral_comp_mul_left (fun y : ℝ => h (y / beta + mu) * G y) beta
  rw [abs_of_pos (inv_pos.2 hb), smul_eq_mul] at h2
  rw [one_div, ← h2]
  congr 1
  funext e
  rw [mul_div_cancel_left₀ _ hb.ne']

/-! ## Theorems -/

/-- **C120.** `gauss_5_df` integrates polynomials up to the degree 9 against the derivative of the Fermi function `-beta f'(beta (e - mu))`, with
an error up to 1e-15 of the size of the terms. -/
theorem C120_gauss_5_df (p : ℝ[X]) (hp : p.natDegree ≤ 9) (mu beta : ℝ) (hb : 0 < beta) :
    |gauss5df (fun e => p.eval e) mu beta - ∫ e : ℝ, p.eval e * (beta * Spec.dfWeight (beta * (e - mu)))| ≤
      1 / 10 ^ 15 * Spec.size Spec.dfWeight 9 p mu beta := by
  rw [subst_energy (fun e => p.eval e) (fun y => beta * Spec.dfWeight y) mu beta hb, dfWeight_eq]
  have h := rule_error rule5 W W_integrable 1 _ 9 moments5 p hp mu beta
  rw [one_mul] at h
  have : 1 / beta * ∫ y : ℝ, p.eval (y / beta + mu) * (beta * W y) = ∫ y : ℝ, p.eval (y / beta + mu) * W y := by
    rw [← integral_const_mul]
    congr 1
    funext y
    field_simp
  rw [this]
  exact h

/-- **C120.** `gauss_7_df` is exact up to the degree 13 in the same sense. -/
theorem C120_gauss_7_df (p : ℝ[X]) (hp : p.natDegree ≤ 13) (mu beta : ℝ) (hb : 0 < beta) :
    |gauss7df (fun e => p.eval e) mu beta - ∫ e : ℝ, p.eval e * (beta * Spec.dfWeight (beta * (e - mu)))| ≤
      1 / 10 ^ 15 * Spec.size Spec.dfWeight 13 p mu beta := by
  rw [subst_energy (fun e => p.eval e) (fun y => beta * Spec.dfWeight y) mu beta hb, dfWeight_eq]
  have h := rule_error rule7 W W_integrable 1 _ 13 moments7 p hp mu beta
  rw [one_mul] at h
  have : 1 / beta * ∫ y : ℝ, p.eval (y / beta + mu) * (beta * W y) = ∫ y : ℝ, p.eval (y / beta + mu) * W y := by
    rw [← integral_const_mul]
    congr 1
    funext y
    field_simp
  rw [this]
  exact h

theorem f_error (r : Rule) (D : ℕ) (hr : ∀ k ≤ D, |2 * Real.log 2 * (r.moment k : ℝ) - ∫ y : ℝ, y ^ k * V y| ≤ 1 / 10 ^ 7 * ∫ y : ℝ, |y| ^ k * V y)
    (p : ℝ[X]) (hp : p.natDegree ≤ D) (mu beta : ℝ) (hb : 0 < beta) :
    |r.sum (fun e => p.eval e) mu beta / beta * 2 * Real.log 2 - ∫ e : ℝ, p.eval e * Spec.fWeight (beta * (e - mu))| ≤
      1 / 10 ^ 7 / beta * Spec.size Spec.fWeight D p mu beta := by
  have hV : Spec.fWeight = V := rfl
  rw [subst_energy (fun e => p.eval e) Spec.fWeight mu beta hb, hV]
  have h := rule_error r V V_integrable (2 * Real.log 2) _ D hr p hp mu beta
  calc _ = |1 / beta * (2 * Real.log 2 * r.sum (fun x => p.eval x) mu beta - ∫ y : ℝ, p.eval (y / beta + mu) * V y)| := by
        congr 1; ring
    _ = 1 / beta * |2 * Real.log 2 * r.sum (fun x => p.eval x) mu beta - ∫ y : ℝ, p.eval (y / beta + mu) * V y| := by
        rw [abs_mul, abs_of_pos (one_div_pos.2 hb)]
    _ ≤ 1 / beta * (1 / 10 ^ 7 * Spec.size V D p mu beta) := mul_le_mul_of_nonneg_left h (one_div_pos.2 hb).le
    _ = _ := by ring

/-- **C120.** `gauss_4_f` integrates polynomials up to the degree 7 against `1 / (1 + exp |beta (e - mu)|)`, with an error up to 1e-7 of the size of
the terms. -/
theorem C120_gauss_4_f (p : ℝ[X]) (hp : p.natDegree ≤ 7) (mu beta : ℝ) (hb : 0 < beta) :
    |gauss4f (fun e => p.eval e) mu beta - ∫ e : ℝ, p.eval e * Spec.fWeight (beta * (e - mu))| ≤
      1 / 10 ^ 7 / beta * Spec.size Spec.fWeight 7 p mu beta := f_error rule4 7 moments4 p hp mu beta hb

/-- **C120.** `gauss_6_f` the same up to the degree 11. -/
theorem C120_gauss_6_f (p : ℝ[X]) (hp : p.natDegree ≤ 11) (mu beta : ℝ) (hb : 0 < beta) :
    |gauss6f (fun e => p.eval e) mu beta - ∫ e : ℝ, p.eval e * Spec.fWeight (beta * (e - mu))| ≤
      1 / 10 ^ 7 / beta * Spec.size Spec.fWeight 11 p mu beta := f_error rule6 11 moments6 p hp mu beta hb

/-- **C120.** The weights are positive, so monotone functions stay ordered. -/
theorem C120_monotone (f g : ℝ → ℝ) (h : ∀ e, f e ≤ g e) (mu beta : ℝ) (hb : 0 < beta) :
    gauss5df f mu beta ≤ gauss5df g mu beta ∧ gauss7df f mu beta ≤ gauss7df g mu beta ∧ gauss4f f mu beta ≤ gauss4f g mu beta ∧
      gauss6f f mu beta ≤ gauss6f g mu beta := by
  have key : ∀ r : Rule, 0 ≤ r.w0 → (∀ p ∈ r.pairs, 0 ≤ p.2) → r.sum f mu beta ≤ r.sum g mu beta := by
    intro r h0 hp
    unfold Rule.sum
    refine add_le_add (mul_le_mul_of_nonneg_left (h _) (by exact_mod_cast h0)) (List.sum_le_sum fun p hp' => ?_)
    exact mul_le_mul_of_nonneg_left (add_le_add (h _) (h _)) (by exact_mod_cast hp p hp')
  have hl : 0 ≤ Real.log 2 := Real.log_nonneg (by norm_num)
  refine ⟨key _ (by decide +kernel) (by decide +kernel), key _ (by decide +kernel) (by decide +kernel), ?_, ?_⟩
  · unfold gauss4f
    exact mul_le_mul_of_nonneg_right (mul_le_mul_of_nonneg_right (div_le_div_of_nonneg_right (key _ (by decide +kernel) (by decide +kernel)) hb.le) (by norm_num)) hl
  · unfold gauss6f
    exact mul_le_mul_of_nonneg_right (mul_le_mul_of_nonneg_right (div_le_div_of_nonneg_right (key _ (by decide +kernel) (by decide +kernel)) hb.le) (by norm_num)) hl

/-- **C120.** The degrees are the largest possible: for `((e - mu) beta)^10` the error of `gauss_5_df` is more than a quarter of the integral. -/
theorem C120_degree (mu beta : ℝ) (hb : 0 < beta) :
    gauss5df (fun e => ((e - mu) * beta) ^ 10) mu beta ≤ 3 / 4 * ∫ e : ℝ, ((e - mu) * beta) ^ 10 * (beta * Spec.dfWeight (beta * (e - mu))) := by
  rw [subst_energy (fun e => ((e - mu) * beta) ^ 10) (fun y => beta * Spec.dfWeight y) mu beta hb, dfWeight_eq]
  have h1 : 1 / beta * ∫ y : ℝ, ((y / beta + mu - mu) * beta) ^ 10 * (beta * W y) = ∫ y : ℝ, y ^ 10 * W y := by
    rw [← integral_const_mul]
    congr 1
    funext y
    field_simp
    ring
  have h2 : gauss5df (fun e => ((e - mu) * beta) ^ 10) mu beta = (rule5.moment 10 : ℝ) := by
    simp only [gauss5df, Rule.sum, Rule.moment, rule5, List.map_cons, List.map_nil, List.sum_cons, List.sum_nil]
    have hb' := hb.ne'
    push_cast
    field_simp
    ring
  rw [h1, h2, W_moment_10]
  have p1 : (314159265358979323846 / 10 ^ 20 : ℝ) ≤ Real.pi := by have := Real.pi_gt_d20; norm_num at this ⊢; linarith
  have p2 := pow_le_pow_left₀ (by norm_num) p1 10
  have h3 : rule5.moment 10 ≤ 3 / 4 * (2555 / 33 * (314159265358979323846 / 10 ^ 20) ^ 10) := by decide +kernel
  have h3' := (Rat.cast_le (K := ℝ)).2 h3
  push_cast at h3'
  linarith

/-! ## Examples -/

-- the constant 1 and a cubic polynomial
example (mu beta : ℝ) (hb : 0 < beta) : |gauss5df (fun e => (1 : ℝ[X]).eval e) mu beta -
    ∫ e : ℝ, (1 : ℝ[X]).eval e * (beta * Spec.dfWeight (beta * (e - mu)))| ≤ 1 / 10 ^ 15 * Spec.size Spec.dfWeight 9 1 mu beta :=
  C120_gauss_5_df 1 (by simp) mu beta hb
example : |gauss6f (fun e => (X ^ 3 + X : ℝ[X]).eval e) 1 40 - ∫ e : ℝ, (X ^ 3 + X : ℝ[X]).eval e * Spec.fWeight (40 * (e - 1))| ≤
    1 / 10 ^ 7 / 40 * Spec.size Spec.fWeight 11 (X ^ 3 + X) 1 40 :=
  C120_gauss_6_f (X ^ 3 + X) ((natDegree_add_le _ _).trans (by simp)) 1 40 (by norm_num)
example : |gauss7df (fun e => (X ^ 12 : ℝ[X]).eval e) 0 1 - ∫ e : ℝ, (X ^ 12 : ℝ[X]).eval e * (1 * Spec.dfWeight (1 * (e - 0)))| ≤
    1 / 10 ^ 15 * Spec.size Spec.dfWeight 13 (X ^ 12) 0 1 := C120_gauss_7_df (X ^ 12) (by simp) 0 1 one_pos
example : |gauss4f (fun e => (X ^ 6 : ℝ[X]).eval e) 0 1 - ∫ e : ℝ, (X ^ 6 : ℝ[X]).eval e * Spec.fWeight (1 * (e - 0))| ≤
    1 / 10 ^ 7 / 1 * Spec.size Spec.fWeight 7 (X ^ 6) 0 1 := C120_gauss_4_f (X ^ 6) (by simp) 0 1 one_pos
example : gauss5df (fun e => e ^ 2) 0 1 ≤ gauss5df (fun e => e ^ 2 + 1) 0 1 := (C120_monotone _ _ (fun e => by simp) 0 1 one_pos).1

end TB.Gauss

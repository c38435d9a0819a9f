import Verif.Lemmas.OptimizeTb

/-!
# Eigenvalues of neighbouring hermitian matrices

Weyl's estimate for sorted eigenvalues, from the min-max principle.
-/

set_option linter.unusedSectionVars false

namespace TB.SE
open Matrix

variable {n : ℕ}

/-- A matrix with entries of size at most `η` has a quadratic form of size at most `η n |a|²`. -/
theorem form_entry (D : CMat n) {η : ℝ} (hD : ∀ i j, ‖D i j‖ ≤ η) (a : Fin n → ℂ) :
    |(star a ⬝ᵥ (D *ᵥ a)).re| ≤ η * n * ∑ i, ‖a i‖ ^ 2 := by
  have hη : 0 ≤ η ∨ n = 0 := by
    rcases Nat.eq_zero_or_pos n with h | h
    · exact Or.inr h
    · exact Or.inl ((norm_nonneg _).trans (hD ⟨0, h⟩ ⟨0, h⟩))
  rcases hη with hη | rfl
  · refine (Complex.abs_re_le_norm _).trans ?_
    have h1 : ‖star a ⬝ᵥ (D *ᵥ a)‖ ≤ ∑ i, ∑ j, ‖a i‖ * η * ‖a j‖ := by
      rw [dotProduct]
      refine (norm_sum_le _ _).trans (Finset.sum_le_sum fun i _ => ?_)
      rw [norm_mul, mulVec, dotProduct, Pi.star_apply, norm_star]
      rw [show ∑ j, ‖a i‖ * η * ‖a j‖ = ‖a i‖ * ∑ j, η * ‖a j‖ by rw [Finset.mul_sum]; exact Finset.sum_congr rfl fun _ _ => by ring]
      refine mul_le_mul_of_nonneg_left ((norm_sum_le _ _).trans (Finset.sum_le_sum fun j _ => ?_)) (norm_nonneg _)
      rw [norm_mul]
      exact mul_le_mul_of_nonneg_right (hD i j) (norm_nonneg _)
    refine h1.trans ?_
    have h2 : ∑ i, ∑ j, ‖a i‖ * η * ‖a j‖ = η * (∑ i, ‖a i‖) ^ 2 := by
      rw [sq, Finset.sum_mul_sum, Finset.mul_sum]
      refine Finset.sum_congr rfl fun i _ => ?_
      rw [Finset.mul_sum]
      exact Finset.sum_congr rfl fun _ _ => by ring
    rw [h2, mul_assoc]
    refine mul_le_mul_of_nonneg_left ?_ hη
    have := sq_sum_le_card_mul_sum_sq (s := (Finset.univ : Finset (Fin n))) (f := fun i => ‖a i‖)
    simpa using this
  · simp

theorem form_one (a : Fin n → ℂ) : (star a ⬝ᵥ ((1 : CMat n) *ᵥ a)).re = ∑ i, ‖a i‖ ^ 2 := by
  have := star_dot_diag (fun _ => (1 : ℝ)) a
  simpa using this

/-- Weyl's estimate, one side. -/
theorem weyl_le {H H' V W : CMat n} {e f : Fin n → ℝ} (h : Spec.IsGeigh H 1 e V) (g : Spec.IsGeigh H' 1 f W) {δ : ℝ}
    (hD : ∀ a : Fin n → ℂ, (star a ⬝ᵥ ((H - H') *ᵥ a)).re ≤ δ * ∑ i, ‖a i‖ ^ 2) (i : Fin n) : e i ≤ f i + δ := by
  refine minmax h (det_of_norm g.norm) i _ fun a ha => ?_
  have h1 : rot W H = rot W H' + rot W (H - H') := by
    simp only [rot, Matrix.mul_sub, Matrix.sub_mul]
    abel
  have h2 : (star a ⬝ᵥ (rot W (H - H') *ᵥ a)).re ≤ δ * ∑ i, ‖a i‖ ^ 2 := by
    rw [← star_rot]
    refine (hD _).trans_eq ?_
    rw [← form_one, star_rot, g.norm, form_one]
  rw [h1, add_mulVec, dotProduct_add, Complex.add_re, g.norm, form_one, g.diag, star_dot_diag, add_mul]
  refine add_le_add ?_ h2
  rw [Finset.mul_sum]
  refine Finset.sum_le_sum fun j _ => ?_
  by_cases hj : i < j
  · simp [ha j hj]
  · exact mul_le_mul_of_nonneg_right (g.mono (not_lt.1 hj)) (sq_nonneg _)

/-- Weyl's estimate for matrices that differ by at most `η` in each entry. -/
theorem weyl {H H' V W : CMat n} {e f : Fin n → ℝ} (h : Spec.IsGeigh H 1 e V) (g : Spec.IsGeigh H' 1 f W) {η : ℝ}
    (hD : ∀ i j, ‖H i j - H' i j‖ ≤ η) (i : Fin n) : |e i - f i| ≤ η * n := by
  have h1 : e i ≤ f i + η * n := by
    refine weyl_le h g (fun a => ?_) i
    exact (le_abs_self _).trans (form_entry (H - H') (fun i j => hD i j) a)
  have h2 : f i ≤ e i + η * n := by
    refine weyl_le g h (fun a => ?_) i
    exact (le_abs_self _).trans (form_entry (H' - H) (fun i j => by rw [Matrix.sub_apply, norm_sub_rev]; exact hD i j) a)
  rw [abs_le]
  constructor <;> linarith

/-- The sum of the eigenvalues is the trace. -/
theorem sum_eig {H V : CMat n} {e : Fin n → ℝ} (h : Spec.IsGeigh H 1 e V) : ∑ i, (e i : ℂ) = H.trace := by
  have h1 : Vᴴ * V = 1 := by simpa [rot] using h.norm
  have h2 : V * Vᴴ = 1 := mul_eq_one_comm.1 h1
  have h3 : (rot V H).trace = H.trace := by
    rw [rot, Matrix.mul_assoc, Matrix.trace_mul_comm, Matrix.mul_assoc, h2, Matrix.mul_one]
  rw [← h3, h.diag, trace_diagonal]

end TB.SE

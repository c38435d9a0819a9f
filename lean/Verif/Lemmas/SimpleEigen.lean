import Mathlib.Analysis.Calculus.Deriv.Mul
import Mathlib.Analysis.Calculus.Deriv.Add
import Mathlib.Analysis.Complex.Basic
import Mathlib.LinearAlgebra.Dimension.Constructions
import Mathlib.LinearAlgebra.FiniteDimensional.Lemmas
import Mathlib.LinearAlgebra.Matrix.NonsingularInverse
import Mathlib.Algebra.Order.Chebyshev
import Mathlib.Analysis.Calculus.Deriv.Star
import Mathlib.Analysis.Matrix.Spectrum
import Mathlib.LinearAlgebra.Matrix.Adjugate
import Mathlib.LinearAlgebra.Matrix.PosDef
import Mathlib.Analysis.Complex.Order
import Mathlib.Data.Fin.Tuple.Sort
import Mathlib.Tactic.Linarith
import Mathlib.Tactic.Ring
import Verif.Props.EigGrad

/-!
# Simple eigenvalues are differentiable

The sorted generalised eigenvalues of a differentiable pair `(H(t), S(t))`: at a point where the eigenvalue number `i` is simple,
it is differentiable with the derivative of first order perturbation theory.  No assumption on eigenvectors for `t ≠ 0`.
-/

set_option linter.unusedSectionVars false

namespace TB
open Matrix Filter Topology

variable {n : ℕ}

/-- The contract of `geigh` (`scipy.linalg.eigh(H, S)`): sorted eigenvalues `e` and a matrix `V` with `V† S V = 1`,
`V† H V = diag(e)`. -/
structure Spec.IsGeigh (H S : CMat n) (e : Fin n → ℝ) (V : CMat n) : Prop where
  norm : rot V S = 1
  diag : rot V H = diagonal fun i => (e i : ℂ)
  mono : Monotone e

namespace SE

theorem star_dot_diag (e : Fin n → ℝ) (b : Fin n → ℂ) :
    (star b ⬝ᵥ (diagonal (fun i => (e i : ℂ)) *ᵥ b)).re = ∑ j, e j * ‖b j‖ ^ 2 := by
  rw [dotProduct, Complex.re_sum]
  refine Finset.sum_congr rfl fun j _ => ?_
  rw [mulVec_diagonal, Pi.star_apply, Complex.star_def, mul_left_comm, Complex.conj_mul', ← Complex.ofReal_pow, ← Complex.ofReal_mul,
    Complex.ofReal_re]

theorem star_rot (V M : CMat n) (a : Fin n → ℂ) : star (V *ᵥ a) ⬝ᵥ (M *ᵥ (V *ᵥ a)) = star a ⬝ᵥ (rot V M *ᵥ a) := by
  rw [rot, star_mulVec, ← dotProduct_mulVec, mulVec_mulVec, mulVec_mulVec, Matrix.mul_assoc]

theorem det_of_norm {S V : CMat n} (h : rot V S = 1) : V.det ≠ 0 := by
  intro h0
  have := congrArg Matrix.det h
  rw [rot, Matrix.det_mul, h0, mul_zero, Matrix.det_one] at this
  exact zero_ne_one this

/-- One direction of the min-max principle. -/
theorem minmax {H S V W : CMat n} {e : Fin n → ℝ} (h : Spec.IsGeigh H S e V) (hW : W.det ≠ 0) (i : Fin n) (c : ℝ)
    (hc : ∀ a : Fin n → ℂ, (∀ j, i < j → a j = 0) → (star a ⬝ᵥ (rot W H *ᵥ a)).re ≤ c * (star a ⬝ᵥ (rot W S *ᵥ a)).re) :
    e i ≤ c := by
  have hV := det_of_norm h.norm
  -- a vector in the span of the first `i + 1` columns of `W` without components along the first `i` columns of `V`
  let L : ({j : Fin n // j ≤ i} → ℂ) →ₗ[ℂ] ({j : Fin n // j < i} → ℂ) :=
    { toFun := fun a l => (V⁻¹ *ᵥ (W *ᵥ fun j => if hj : j ≤ i then a ⟨j, hj⟩ else 0)) l.1
      map_add' := by
        intro a b
        funext l
        have : (fun j : Fin n => if hj : j ≤ i then (a + b) ⟨j, hj⟩ else 0) =
            (fun j => if hj : j ≤ i then a ⟨j, hj⟩ else 0) + fun j => if hj : j ≤ i then b ⟨j, hj⟩ else 0 := by
          funext j; by_cases hj : j ≤ i <;> simp [hj]
        change (V⁻¹ *ᵥ (W *ᵥ _)) l.1 = _
        rw [this, mulVec_add, mulVec_add]
        rfl
      map_smul' := by
        intro r a
        funext l
        have : (fun j : Fin n => if hj : j ≤ i then (r • a) ⟨j, hj⟩ else 0) =
            r • fun j => if hj : j ≤ i then a ⟨j, hj⟩ else 0 := by
          funext j; by_cases hj : j ≤ i <;> simp [hj]
        change (V⁻¹ *ᵥ (W *ᵥ _)) l.1 = _
        rw [this, mulVec_smul, mulVec_smul]
        rfl }
  have hker : LinearMap.ker L ≠ ⊥ := by
    apply LinearMap.ker_ne_bot_of_finrank_lt
    rw [Module.finrank_fintype_fun_eq_card, Module.finrank_fintype_fun_eq_card]
    rw [Fintype.card_subtype, Fintype.card_subtype]
    apply Finset.card_lt_card
    rw [Finset.ssubset_iff_of_subset (fun j hj => by
      simp only [Finset.mem_filter, Finset.mem_univ, true_and] at hj ⊢; exact hj.le)]
    exact ⟨i, by simp, by simp⟩
  obtain ⟨a', ha', hne⟩ := (Submodule.ne_bot_iff _).1 hker
  set a : Fin n → ℂ := fun j => if hj : j ≤ i then a' ⟨j, hj⟩ else 0 with ha
  have hane : a ≠ 0 := by
    intro h0
    apply hne
    funext j
    have := congrFun h0 j.1
    rw [ha] at this
    simpa [j.2] using this
  set b := V⁻¹ *ᵥ (W *ᵥ a) with hb
  have hb0 : ∀ j, j < i → b j = 0 := by
    intro j hj
    exact congrFun (LinearMap.mem_ker.1 ha') ⟨j, hj⟩
  have hVb : V *ᵥ b = W *ᵥ a := by
    rw [hb, mulVec_mulVec, Matrix.mul_nonsing_inv V (isUnit_iff_ne_zero.2 hV), one_mulVec]
  have hbne : b ≠ 0 := by
    intro h0
    rw [h0, mulVec_zero] at hVb
    apply hane
    have := congrArg (W⁻¹ *ᵥ ·) hVb
    simp only [mulVec_zero, mulVec_mulVec, Matrix.nonsing_inv_mul W (isUnit_iff_ne_zero.2 hW), one_mulVec] at this
    exact this.symm
  have h1 := hc a fun j hj => by simp [ha, not_le.2 hj]
  rw [← star_rot W, ← star_rot W, ← hVb, star_rot V, star_rot V, h.norm, h.diag, star_dot_diag, one_mulVec] at h1
  have h2 : (star b ⬝ᵥ b).re = ∑ j, ‖b j‖ ^ 2 := by
    have := star_dot_diag (fun _ => 1) b
    simpa using this
  rw [h2, Finset.mul_sum] at h1
  have hpos : 0 < ∑ j, ‖b j‖ ^ 2 := by
    obtain ⟨j, hj⟩ := Function.ne_iff.1 hbne
    exact Finset.sum_pos' (fun _ _ => by positivity) ⟨j, Finset.mem_univ _, by
      have : b j ≠ 0 := hj
      positivity⟩
  have h3 : ∑ j, e i * ‖b j‖ ^ 2 ≤ ∑ j, e j * ‖b j‖ ^ 2 := by
    refine Finset.sum_le_sum fun j _ => ?_
    by_cases hj : j < i
    · rw [hb0 j hj]; simp
    · exact mul_le_mul_of_nonneg_right (h.mono (not_lt.1 hj)) (by positivity)
  rw [← Finset.mul_sum] at h3
  rw [← Finset.mul_sum] at h1
  exact le_of_mul_le_mul_right (h3.trans h1) hpos

/-- Bound of a hermitian form whose entry `i, i` is small. -/
theorem form_bound (F : CMat n) (i : Fin n) (e : Fin n → ℝ) {g M η τ : ℝ} (hη : 0 < η) (hM : 0 ≤ M) (hτ : 0 ≤ τ)
    (hg : ∀ j, j < i → e j ≤ -g) (hF : ∀ j l, ‖F j l - (if j = l ∧ j ≠ i then (e j : ℂ) else 0)‖ ≤ M * τ) (hFi : ‖F i i‖ ≤ η * τ)
    (a : Fin n → ℂ) (ha : ∀ j, i < j → a j = 0) :
    (star a ⬝ᵥ (F *ᵥ a)).re ≤ (-g + (M * n + M ^ 2 * n / η) * τ) * (∑ j, ‖a j‖ ^ 2 - ‖a i‖ ^ 2) + 2 * η * τ * ‖a i‖ ^ 2 := by
  set y : Fin n → ℝ := fun j => ‖a j‖ with hy
  set s := ∑ j ∈ Finset.univ.erase i, y j with hs
  set T := ∑ j ∈ Finset.univ.erase i, y j ^ 2 with hT
  have hTeq : ∑ j, ‖a j‖ ^ 2 - ‖a i‖ ^ 2 = T := by
    rw [← Finset.add_sum_erase Finset.univ (fun j => ‖a j‖ ^ 2) (Finset.mem_univ i), add_sub_cancel_left]
  have hsn : 0 ≤ s := Finset.sum_nonneg fun j _ => norm_nonneg _
  have hsT : s ^ 2 ≤ n * T := by
    have h1 := sq_sum_le_card_mul_sum_sq (s := Finset.univ.erase i) (f := y)
    refine h1.trans (mul_le_mul_of_nonneg_right ?_ (Finset.sum_nonneg fun j _ => by positivity))
    have : (Finset.univ.erase i).card ≤ n := (Finset.card_le_univ _).trans (by simp)
    exact_mod_cast this
  -- split the form
  have hsplit : (star a ⬝ᵥ (F *ᵥ a)).re ≤ ∑ j ∈ Finset.univ.erase i, e j * y j ^ 2 +
      (η * τ * y i ^ 2 + M * τ * (s ^ 2 + 2 * s * y i)) := by
    have e1 : star a ⬝ᵥ (F *ᵥ a) = ∑ j, ∑ l, star (a j) * F j l * a l := by
      simp only [dotProduct, mulVec, Finset.mul_sum, Pi.star_apply, mul_assoc]
    have e2 : ∀ j l, star (a j) * F j l * a l =
        star (a j) * (if j = l ∧ j ≠ i then (e j : ℂ) else 0) * a l +
          star (a j) * (F j l - if j = l ∧ j ≠ i then (e j : ℂ) else 0) * a l := by intro j l; ring
    rw [e1]
    simp only [e2, Finset.sum_add_distrib]
    rw [Complex.add_re]
    refine add_le_add (le_of_eq ?_) ?_
    · rw [Complex.re_sum, ← Finset.add_sum_erase Finset.univ _ (Finset.mem_univ i)]
      have h0 : (∑ l, star (a i) * (if i = l ∧ i ≠ i then (e i : ℂ) else 0) * a l).re = 0 := by simp
      rw [h0, zero_add]
      refine Finset.sum_congr rfl fun j hj => ?_
      have hji : j ≠ i := Finset.ne_of_mem_erase hj
      rw [Finset.sum_eq_single j]
      · rw [if_pos ⟨rfl, hji⟩, Complex.star_def, mul_right_comm, Complex.conj_mul', ← Complex.ofReal_pow, ← Complex.ofReal_mul,
          Complex.ofReal_re, mul_comm]
      · intro l _ hl
        rw [if_neg (fun h => hl h.1.symm)]; simp
      · simp
    · refine (Complex.re_le_norm _).trans ((norm_sum_le _ _).trans ?_)
      have hb : ∀ j l, ‖star (a j) * (F j l - if j = l ∧ j ≠ i then (e j : ℂ) else 0) * a l‖ ≤ M * τ * (y j * y l) := by
        intro j l
        rw [norm_mul, norm_mul, norm_star]
        calc _ ≤ ‖a j‖ * (M * τ) * ‖a l‖ := by
              gcongr
              exact hF j l
          _ = _ := by simp only [hy]; ring
      have hbi : ‖star (a i) * (F i i - if i = i ∧ i ≠ i then (e i : ℂ) else 0) * a i‖ ≤ η * τ * y i ^ 2 := by
        rw [if_neg (fun h => h.2 rfl), sub_zero, norm_mul, norm_mul, norm_star]
        calc _ ≤ ‖a i‖ * (η * τ) * ‖a i‖ := by gcongr
          _ = _ := by simp only [hy]; ring
      have hrow : ∀ j, j ≠ i → ‖∑ l, star (a j) * (F j l - if j = l ∧ j ≠ i then (e j : ℂ) else 0) * a l‖ ≤
          M * τ * (y j * (s + y i)) := by
        intro j _
        refine (norm_sum_le _ _).trans ((Finset.sum_le_sum fun l _ => hb j l).trans (le_of_eq ?_))
        rw [← Finset.mul_sum, ← Finset.mul_sum, ← Finset.add_sum_erase Finset.univ y (Finset.mem_univ i), add_comm s]
      have hrowi : ‖∑ l, star (a i) * (F i l - if i = l ∧ i ≠ i then (e i : ℂ) else 0) * a l‖ ≤
          η * τ * y i ^ 2 + M * τ * (y i * s) := by
        refine (norm_sum_le _ _).trans ?_
        rw [← Finset.add_sum_erase Finset.univ _ (Finset.mem_univ i)]
        refine add_le_add hbi ((Finset.sum_le_sum fun l _ => hb i l).trans (le_of_eq ?_))
        rw [← Finset.mul_sum, ← Finset.mul_sum]
      rw [← Finset.add_sum_erase Finset.univ _ (Finset.mem_univ i)]
      refine (add_le_add hrowi (Finset.sum_le_sum fun j hj => hrow j (Finset.ne_of_mem_erase hj))).trans (le_of_eq ?_)
      rw [← Finset.mul_sum, ← Finset.sum_mul]
      ring
  have hdiag : ∑ j ∈ Finset.univ.erase i, e j * y j ^ 2 ≤ -g * T := by
    rw [hT, Finset.mul_sum]
    refine Finset.sum_le_sum fun j hj => ?_
    rcases lt_or_gt_of_ne (Finset.ne_of_mem_erase hj) with h | h
    · exact mul_le_mul_of_nonneg_right (hg j h) (by positivity)
    · simp [hy, ha j h]
  rw [hTeq]
  have hyi : 0 ≤ y i := norm_nonneg _
  have hmix : 2 * M * s * y i ≤ M ^ 2 / η * s ^ 2 + η * y i ^ 2 := by
    have h := sq_nonneg (M * s - η * y i)
    rw [div_mul_eq_mul_div, div_add' _ _ _ hη.ne', le_div_iff₀ hη]
    nlinarith
  have h4 : M * τ * (s ^ 2 + 2 * s * y i) ≤ τ * ((M * n + M ^ 2 * n / η) * T + η * y i ^ 2) := by
    have h5 : M * (s ^ 2 + 2 * s * y i) ≤ (M * n + M ^ 2 * n / η) * T + η * y i ^ 2 := by
      have h6 : M * s ^ 2 ≤ M * (n * T) := mul_le_mul_of_nonneg_left hsT hM
      have h7 : M ^ 2 / η * s ^ 2 ≤ M ^ 2 / η * (n * T) := mul_le_mul_of_nonneg_left hsT (by positivity)
      have h8 : (M * n + M ^ 2 * n / η) * T = M * (n * T) + M ^ 2 / η * (n * T) := by ring
      linarith
    have := mul_le_mul_of_nonneg_left h5 hτ
    linarith
  change _ ≤ _ * T + 2 * η * τ * y i ^ 2
  linarith

theorem MDeriv.rot {H : ℝ → CMat n} {dH : CMat n} {x : ℝ} (W : CMat n) (hH : Spec.MDeriv H dH x) :
    Spec.MDeriv (fun t => TB.rot W (H t)) (TB.rot W dH) x := by
  intro i j
  simp only [TB.rot, Matrix.mul_apply, conjTranspose_apply, Finset.sum_mul]
  exact HasDerivAt.fun_sum fun k _ => HasDerivAt.fun_sum fun l _ =>
    ((hasDerivAt_const x _).mul (hH l k)).mul_const _ |>.congr_deriv (by simp)

/-- The form of a matrix close to the identity. -/
theorem form_lower (F : CMat n) {η : ℝ} (hF : ∀ j l, ‖F j l - (1 : CMat n) j l‖ ≤ η) (a : Fin n → ℂ) :
    (1 - n * η) * ∑ j, ‖a j‖ ^ 2 ≤ (star a ⬝ᵥ (F *ᵥ a)).re := by
  by_cases hn : n = 0
  · subst hn; simp
  have hη : 0 ≤ η := (norm_nonneg _).trans (hF ⟨0, Nat.pos_of_ne_zero hn⟩ ⟨0, Nat.pos_of_ne_zero hn⟩)
  have h1 : star a ⬝ᵥ (F *ᵥ a) = star a ⬝ᵥ a + star a ⬝ᵥ ((F - 1) *ᵥ a) := by
    rw [← dotProduct_add, sub_mulVec, one_mulVec, add_sub_cancel]
  have h2 : (star a ⬝ᵥ a).re = ∑ j, ‖a j‖ ^ 2 := by
    have := star_dot_diag (fun _ => 1) a
    simpa using this
  have h3 : ‖star a ⬝ᵥ ((F - 1) *ᵥ a)‖ ≤ η * (∑ j, ‖a j‖) ^ 2 := by
    rw [dotProduct, sq, Finset.sum_mul, Finset.mul_sum]
    refine (norm_sum_le _ _).trans (Finset.sum_le_sum fun j _ => ?_)
    rw [norm_mul, Pi.star_apply, norm_star, mul_left_comm]
    refine mul_le_mul_of_nonneg_left ?_ (norm_nonneg _)
    rw [mulVec, dotProduct, Finset.mul_sum]
    refine (norm_sum_le _ _).trans (Finset.sum_le_sum fun l _ => ?_)
    rw [norm_mul]
    exact mul_le_mul_of_nonneg_right (hF j l) (norm_nonneg _)
  have h4 : (∑ j, ‖a j‖) ^ 2 ≤ n * ∑ j, ‖a j‖ ^ 2 := by
    have := sq_sum_le_card_mul_sum_sq (s := (Finset.univ : Finset (Fin n))) (f := fun j => ‖a j‖)
    simpa using this
  have h5 := (abs_le.1 ((Complex.abs_re_le_norm _).trans h3)).1
  rw [h1, Complex.add_re, h2]
  have h6 := mul_le_mul_of_nonneg_left h4 hη
  linarith

theorem isHermitian_of_geigh {H S V : CMat n} {e : Fin n → ℝ} (h : Spec.IsGeigh H S e V) : H.IsHermitian ∧ S.IsHermitian := by
  have hV := isUnit_iff_ne_zero.2 (det_of_norm h.norm)
  have key : ∀ M D : CMat n, TB.rot V M = D → D.IsHermitian → M.IsHermitian := by
    intro M D hM hD
    have hMeq : M = (V⁻¹)ᴴ * D * V⁻¹ := by
      rw [← hM, TB.rot]
      have h1 : (V⁻¹)ᴴ * Vᴴ = 1 := by rw [← conjTranspose_mul, Matrix.mul_nonsing_inv V hV, conjTranspose_one]
      calc M = ((V⁻¹)ᴴ * Vᴴ) * M * (V * V⁻¹) := by rw [h1, Matrix.mul_nonsing_inv V hV, Matrix.one_mul, Matrix.mul_one]
        _ = _ := by simp only [Matrix.mul_assoc]
    rw [hMeq]
    exact isHermitian_conjTranspose_mul_mul _ hD
  refine ⟨key H _ h.diag ?_, key S _ h.norm isHermitian_one⟩
  exact isHermitian_diagonal_of_self_adjoint _ (by
    funext j; simp)

variable {H S V : ℝ → CMat n} {dH dS : CMat n} {e : ℝ → Fin n → ℝ} {x : ℝ}

theorem rot_herm {W M : CMat n} (h : M.IsHermitian) (i : Fin n) : (TB.rot W M i i).im = 0 := by
  have h1 : (TB.rot W M).IsHermitian := isHermitian_conjTranspose_mul_mul W h
  have h2 := h1.apply i i
  exact Complex.conj_eq_iff_im.1 h2

theorem deriv_real (hH : Spec.MDeriv H dH x) (hherm : ∀ᶠ t in 𝓝 x, (H t).IsHermitian) (W : CMat n) (i : Fin n) :
    (TB.rot W dH i i).im = 0 := by
  have h1 := MDeriv.rot W hH i i
  have h2 := Complex.imCLM.hasFDerivAt.comp_hasDerivAt x h1
  have h3 : HasDerivAt (fun _ : ℝ => (0 : ℝ)) (TB.rot W dH i i).im x :=
    h2.congr_of_eventuallyEq (hherm.mono fun t ht => (rot_herm ht i).symm)
  exact h3.unique (hasDerivAt_const x 0)

theorem upper (hg : ∀ᶠ t in 𝓝 x, Spec.IsGeigh (H t) (S t) (e t) (V t)) (hH : Spec.MDeriv H dH x) (hS : Spec.MDeriv S dS x)
    (i : Fin n) (hi : ∀ j, j ≠ i → e x j ≠ e x i) {ε : ℝ} (hε : 0 < ε) :
    ∀ᶠ t in 𝓝 x, e t i ≤ e x i + (t - x) * geighGrad (e x) (V x) dH dS i + ε * |t - x| := by
  set δ := geighGrad (e x) (V x) dH dS i with hδ
  set W := V x with hW
  have h0 := hg.self_of_nhds
  have hn : (0 : ℝ) < n := by exact_mod_cast i.pos
  -- the gap below
  obtain ⟨g, hgpos, hgap⟩ : ∃ g : ℝ, 0 < g ∧ ∀ j, j < i → e x j - e x i ≤ -g := by
    by_cases hne : (Finset.univ.filter fun j : Fin n => j < i).Nonempty
    · obtain ⟨j0, hj0, hmax⟩ := Finset.exists_max_image _ (fun j => e x j) hne
      have hj0' : j0 < i := by simpa using hj0
      have hlt : e x j0 < e x i := lt_of_le_of_ne (h0.mono hj0'.le) (hi j0 hj0'.ne)
      refine ⟨e x i - e x j0, by linarith, fun j hj => ?_⟩
      have := hmax j (by simpa using hj)
      linarith
    · refine ⟨1, one_pos, fun j hj => ?_⟩
      exact absurd ⟨j, by simpa using hj⟩ hne
  -- the matrix `G`
  set G : ℝ → CMat n := fun t => TB.rot W (H t) - ((e x i + (t - x) * δ : ℝ) : ℂ) • TB.rot W (S t) with hG
  set G' : CMat n := TB.rot W dH - ((δ : ℂ) • (1 : CMat n) + (e x i : ℂ) • TB.rot W dS) with hG'
  have hGd : Spec.MDeriv G G' x := by
    intro j l
    have h1 : HasDerivAt (fun t : ℝ => ((e x i + (t - x) * δ : ℝ) : ℂ)) (δ : ℂ) x := by
      have : HasDerivAt (fun t : ℝ => e x i + (t - x) * δ) δ x := by
        have := (((hasDerivAt_id x).sub_const x).mul_const δ).const_add (e x i)
        simpa using this
      exact this.ofReal_comp
    have h2 := (MDeriv.rot W hH j l).sub (h1.mul (MDeriv.rot W hS j l))
    have h3 : TB.rot W (S x) = 1 := h0.norm
    simp only [h3, sub_self, zero_mul, add_zero] at h2
    exact h2
  have hG0 : G x = diagonal fun j => ((e x j - e x i : ℝ) : ℂ) := by
    simp only [hG]
    rw [hW, h0.norm, h0.diag, sub_self, zero_mul, add_zero]
    ext j l
    by_cases hjl : j = l
    · subst hjl; simp
    · simp [hjl]
  have hherm : ∀ᶠ t in 𝓝 x, (H t).IsHermitian ∧ (S t).IsHermitian := hg.mono fun t ht => isHermitian_of_geigh ht
  have hGii : G' i i = 0 := by
    have h1 := deriv_real hH (hherm.mono fun _ h => h.1) W i
    have h2 := deriv_real hS (hherm.mono fun _ h => h.2) W i
    apply Complex.ext
    · simp [hG', hδ, geighGrad, h2]
      ring
    · simp [hG', h1, h2]
  -- eventual bounds
  set η := ε / 4 with hη
  have hηpos : 0 < η := by positivity
  set M := ∑ j, ∑ l, (‖G' j l‖ + 1) with hM
  have hMj : ∀ j l, ‖G' j l‖ + 1 ≤ M := by
    intro j l
    refine le_trans ?_ (Finset.single_le_sum (f := fun j => ∑ l, (‖G' j l‖ + 1)) (fun j _ => Finset.sum_nonneg fun l _ => by positivity)
      (Finset.mem_univ j))
    exact Finset.single_le_sum (f := fun l => ‖G' j l‖ + 1) (fun l _ => by positivity) (Finset.mem_univ l)
  have hM0 : 0 ≤ M := Finset.sum_nonneg fun j _ => Finset.sum_nonneg fun l _ => by positivity
  have b1 : ∀ᶠ t in 𝓝 x, ∀ j l, ‖G t j l - G x j l‖ ≤ M * |t - x| := by
    rw [eventually_all]; intro j; rw [eventually_all]; intro l
    have := (hasDerivAt_iff_isLittleO.1 (hGd j l)).def (c := 1) one_pos
    filter_upwards [this] with t ht
    have e1 : G t j l - G x j l = (G t j l - G x j l - (t - x) • G' j l) + (t - x) • G' j l := by ring
    rw [e1]
    refine (norm_add_le _ _).trans ?_
    rw [norm_smul, Real.norm_eq_abs]
    rw [one_mul, Real.norm_eq_abs] at ht
    have := mul_le_mul_of_nonneg_right (hMj j l) (abs_nonneg (t - x))
    linarith
  have b2 : ∀ᶠ t in 𝓝 x, ‖G t i i‖ ≤ η * |t - x| := by
    have := (hasDerivAt_iff_isLittleO.1 (hGd i i)).def (c := η) hηpos
    filter_upwards [this] with t ht
    rw [hGii, smul_zero, sub_zero, hG0, diagonal_apply_eq, sub_self, Complex.ofReal_zero, sub_zero, Real.norm_eq_abs] at ht
    exact ht
  have b3 : ∀ᶠ t in 𝓝 x, ∀ j l, ‖TB.rot W (S t) j l - (1 : CMat n) j l‖ ≤ 1 / (2 * n) := by
    rw [eventually_all]; intro j; rw [eventually_all]; intro l
    have hc := (MDeriv.rot W hS j l).continuousAt
    have h1 : Tendsto (fun t => ‖TB.rot W (S t) j l - (1 : CMat n) j l‖) (𝓝 x) (𝓝 0) := by
      have := (hc.sub (continuousAt_const (y := (1 : CMat n) j l))).norm
      have h3 : TB.rot W (S x) = 1 := h0.norm
      simpa [ContinuousAt, h3] using this
    exact (h1.eventually (gt_mem_nhds (show (0 : ℝ) < 1 / (2 * n) by positivity))).mono fun t ht => le_of_lt ht
  have b4 : ∀ᶠ t in 𝓝 x, (M * n + M ^ 2 * n / η) * |t - x| ≤ g := by
    have h1 : Tendsto (fun t : ℝ => (M * n + M ^ 2 * n / η) * |t - x|) (𝓝 x) (𝓝 0) := by
      have : ContinuousAt (fun t : ℝ => (M * n + M ^ 2 * n / η) * |t - x|) x := by fun_prop
      simpa [ContinuousAt] using this
    exact (h1.eventually (gt_mem_nhds hgpos)).mono fun t ht => le_of_lt ht
  filter_upwards [hg, b1, b2, b3, b4] with t ht c1 c2 c3 c4
  refine minmax ht (det_of_norm h0.norm) i _ fun a ha => ?_
  have f1 := form_bound (G t) i (fun j => e x j - e x i) hηpos hM0 (abs_nonneg (t - x)) hgap (by
    intro j l
    have := c1 j l
    rw [hG0] at this
    convert this using 3
    rw [diagonal_apply]
    by_cases hjl : j = l
    · by_cases hji : j = i
      · subst hji; simp [hjl]
      · simp [hjl, show l ≠ i from hjl ▸ hji]
    · simp [hjl]) c2 a ha
  have f2 := form_lower _ c3 a
  have e1 : (star a ⬝ᵥ (TB.rot W (H t) *ᵥ a)).re =
      (star a ⬝ᵥ (G t *ᵥ a)).re + (e x i + (t - x) * δ) * (star a ⬝ᵥ (TB.rot W (S t) *ᵥ a)).re := by
    simp only [hG]
    rw [sub_mulVec, smul_mulVec, dotProduct_sub, dotProduct_smul, Complex.sub_re, smul_eq_mul, Complex.re_ofReal_mul]
    ring
  rw [e1]
  set T := ∑ j, ‖a j‖ ^ 2 - ‖a i‖ ^ 2 with hT
  have hTn : 0 ≤ T := by
    rw [hT, sub_nonneg]
    exact Finset.single_le_sum (f := fun j => ‖a j‖ ^ 2) (fun j _ => by positivity) (Finset.mem_univ i)
  have hsum : ∑ j, ‖a j‖ ^ 2 = T + ‖a i‖ ^ 2 := by rw [hT]; ring
  rw [hsum] at f2
  have f3 : (1 - (n : ℝ) * (1 / (2 * n))) = 1 / 2 := by field_simp; norm_num
  rw [f3] at f2
  have f4 := mul_le_mul_of_nonneg_left f2 (mul_nonneg hε.le (abs_nonneg (t - x)))
  have f5 := mul_nonneg (sub_nonneg.2 c4) hTn
  have f6 : 0 ≤ ε * |t - x| * T := by positivity
  have f7 : 2 * η * |t - x| * ‖a i‖ ^ 2 = 1 / 2 * (ε * |t - x| * ‖a i‖ ^ 2) := by rw [hη]; ring
  nlinarith [f1, f4, f5, f6, f7]

theorem geigh_neg {H S V : CMat n} {e : Fin n → ℝ} (h : Spec.IsGeigh H S e V) :
    Spec.IsGeigh (-H) S (fun j => -e j.rev) (V.submatrix id Fin.rev) := by
  have key : ∀ M : CMat n, TB.rot (V.submatrix id Fin.rev) M = (TB.rot V M).submatrix Fin.rev Fin.rev := by
    intro M; ext i j; simp [TB.rot, Matrix.mul_apply]
  refine ⟨?_, ?_, ?_⟩
  · rw [key, h.norm]
    ext i j; simp [Matrix.one_apply]
  · have : TB.rot (V.submatrix id Fin.rev) (-H) = -TB.rot (V.submatrix id Fin.rev) H := by
      simp [TB.rot]
    rw [this, key, h.diag]
    ext i j
    by_cases hij : i = j
    · subst hij; simp
    · simp [hij]
  · intro a b hab
    exact neg_le_neg (h.mono (Fin.rev_le_rev.2 hab))

/-- A simple sorted eigenvalue is differentiable, with the derivative of first order perturbation theory. -/
theorem hasDerivAt_band (hg : ∀ᶠ t in 𝓝 x, Spec.IsGeigh (H t) (S t) (e t) (V t)) (hH : Spec.MDeriv H dH x)
    (hS : Spec.MDeriv S dS x) (i : Fin n) (hi : ∀ j, j ≠ i → e x j ≠ e x i) :
    HasDerivAt (fun t => e t i) (geighGrad (e x) (V x) dH dS i) x := by
  rw [hasDerivAt_iff_isLittleO, Asymptotics.isLittleO_iff]
  intro c hc
  have h1 := upper hg hH hS i hi hc
  have h2 := upper (H := fun t => -H t) (S := S) (V := fun t => (V t).submatrix id Fin.rev) (dH := -dH) (dS := dS)
    (e := fun t j => -e t j.rev) (x := x) (hg.mono fun t ht => geigh_neg ht) (fun j l => (hH j l).neg) hS i.rev
    (by
      intro j hj h
      refine hi j.rev (fun h' => hj (by rw [← h', Fin.rev_rev])) ?_
      simpa using h) hc
  have hgr : geighGrad (fun j => -e x j.rev) ((V x).submatrix id Fin.rev) (-dH) dS i.rev = -geighGrad (e x) (V x) dH dS i := by
    have key : ∀ M : CMat n, TB.rot ((V x).submatrix id Fin.rev) M = (TB.rot (V x) M).submatrix Fin.rev Fin.rev := by
      intro M; ext i j; simp [TB.rot, Matrix.mul_apply]
    simp only [geighGrad, key, submatrix_apply, Fin.rev_rev]
    have : TB.rot (V x) (-dH) = -TB.rot (V x) dH := by simp [TB.rot]
    rw [this]
    simp
    ring
  filter_upwards [h1, h2] with t g1 g2
  rw [hgr, Fin.rev_rev] at g2
  rw [smul_eq_mul, Real.norm_eq_abs, Real.norm_eq_abs, abs_le]
  constructor <;> linarith

/-- Sorted eigenvalues are continuous, whether simple or not: one side. -/
theorem upper_cont (hg : ∀ᶠ t in 𝓝 x, Spec.IsGeigh (H t) (S t) (e t) (V t)) (hH : ∀ j l, ContinuousAt (fun t => H t j l) x)
    (hS : ∀ j l, ContinuousAt (fun t => S t j l) x) (i : Fin n) {ε : ℝ} (hε : 0 < ε) : ∀ᶠ t in 𝓝 x, e t i ≤ e x i + ε := by
  have h0 := hg.self_of_nhds
  have hn : (0 : ℝ) < n := by exact_mod_cast i.pos
  set W := V x with hW
  have hrot : ∀ {M : ℝ → CMat n}, (∀ j l, ContinuousAt (fun t => M t j l) x) → ∀ j l, ContinuousAt (fun t => TB.rot W (M t) j l) x := by
    intro M hM j l
    simp only [TB.rot, Matrix.mul_apply, conjTranspose_apply]
    exact tendsto_finsetSum _ fun k _ => ((tendsto_finsetSum _ fun q _ => (tendsto_const_nhds.mul (hM q k))).mul tendsto_const_nhds)
  -- the form with the sign turned, normalised by the identity
  set G : ℝ → CMat n := fun t => ((e x i + ε : ℝ) : ℂ) • TB.rot W (S t) - TB.rot W (H t) with hG
  have hG0 : G x = diagonal fun j => ((e x i + ε - e x j : ℝ) : ℂ) := by
    simp only [hG]
    rw [hW, h0.norm, h0.diag]
    ext j l
    by_cases hjl : j = l
    · subst hjl; simp
    · simp [hjl]
  have b : ∀ᶠ t in 𝓝 x, ∀ j l, ‖G t j l - G x j l‖ ≤ ε / n := by
    rw [eventually_all]; intro j; rw [eventually_all]; intro l
    have hc : ContinuousAt (fun t => G t j l) x := by
      have := (continuousAt_const (y := ((e x i + ε : ℝ) : ℂ)) (x := x)).mul (hrot hS j l) |>.sub (hrot hH j l)
      exact this
    have h1 : Tendsto (fun t => ‖G t j l - G x j l‖) (𝓝 x) (𝓝 0) := by
      have := (hc.sub (continuousAt_const (y := G x j l))).norm
      simpa [ContinuousAt] using this
    exact (h1.eventually (gt_mem_nhds (show (0 : ℝ) < ε / n by positivity))).mono fun t ht => le_of_lt ht
  filter_upwards [hg, b] with t ht hb
  refine minmax ht (det_of_norm h0.norm) i _ fun a ha => ?_
  have h1 : (∑ j, (e x i + ε - e x j) * ‖a j‖ ^ 2) = (star a ⬝ᵥ (G x *ᵥ a)).re := by rw [hG0, star_dot_diag]
  have h2 : ε * ∑ j, ‖a j‖ ^ 2 ≤ ∑ j, (e x i + ε - e x j) * ‖a j‖ ^ 2 := by
    rw [Finset.mul_sum]
    refine Finset.sum_le_sum fun j _ => ?_
    by_cases hj : i < j
    · simp [ha j hj]
    · have := h0.mono (not_lt.1 hj)
      exact mul_le_mul_of_nonneg_right (by linarith) (by positivity)
  have h3 := form_lower (1 + (G t - G x)) (η := ε / n) (fun j l => by
    rw [Matrix.add_apply, add_sub_cancel_left, Matrix.sub_apply]; exact hb j l) a
  have h4 : (star a ⬝ᵥ ((1 + (G t - G x)) *ᵥ a)).re = ∑ j, ‖a j‖ ^ 2 + ((star a ⬝ᵥ (G t *ᵥ a)).re - (star a ⬝ᵥ (G x *ᵥ a)).re) := by
    have h2 : (star a ⬝ᵥ a).re = ∑ j, ‖a j‖ ^ 2 := by
      have := star_dot_diag (fun _ => 1) a
      simpa using this
    rw [add_mulVec, one_mulVec, sub_mulVec, dotProduct_add, dotProduct_sub, Complex.add_re, Complex.sub_re, h2]
  rw [h4, mul_div_cancel₀ _ hn.ne'] at h3
  have e1 : (star a ⬝ᵥ (G t *ᵥ a)).re =
      (e x i + ε) * (star a ⬝ᵥ (TB.rot W (S t) *ᵥ a)).re - (star a ⬝ᵥ (TB.rot W (H t) *ᵥ a)).re := by
    simp only [hG]
    rw [sub_mulVec, smul_mulVec, dotProduct_sub, dotProduct_smul, Complex.sub_re, smul_eq_mul, Complex.re_ofReal_mul]
  linarith

theorem continuous_band (hg : ∀ᶠ t in 𝓝 x, Spec.IsGeigh (H t) (S t) (e t) (V t)) (hH : ∀ j l, ContinuousAt (fun t => H t j l) x)
    (hS : ∀ j l, ContinuousAt (fun t => S t j l) x) (i : Fin n) : ContinuousAt (fun t => e t i) x := by
  rw [Metric.continuousAt_iff']
  intro ε hε
  have h1 := upper_cont hg hH hS i (half_pos hε)
  have h2 := upper_cont (H := fun t => -H t) (S := S) (V := fun t => (V t).submatrix id Fin.rev)
    (e := fun t j => -e t j.rev) (x := x) (hg.mono fun t ht => geigh_neg ht) (fun j l => (hH j l).neg) hS i.rev (half_pos hε)
  filter_upwards [h1, h2] with t g1 g2
  rw [Fin.rev_rev] at g2
  rw [Real.dist_eq, abs_lt]
  constructor <;> linarith

/-- Simplicity persists. -/
theorem eventually_simple (hg : ∀ᶠ t in 𝓝 x, Spec.IsGeigh (H t) (S t) (e t) (V t)) (hH : ∀ j l, ContinuousAt (fun t => H t j l) x)
    (hS : ∀ j l, ContinuousAt (fun t => S t j l) x) (i : Fin n) (hi : ∀ j, j ≠ i → e x j ≠ e x i) :
    ∀ᶠ t in 𝓝 x, ∀ j, j ≠ i → e t j ≠ e t i := by
  rw [eventually_all]
  intro j
  by_cases hj : j = i
  · exact Eventually.of_forall fun t h => absurd hj h
  · have := ((continuous_band hg hH hS j).sub (continuous_band hg hH hS i)).eventually_ne (sub_ne_zero.2 (hi j hj))
    filter_upwards [this] with t ht _
    exact sub_ne_zero.1 ht

theorem differentiableAt_det {M : ℝ → CMat n} (hM : ∀ i j, DifferentiableAt ℝ (fun t => M t i j) x) :
    DifferentiableAt ℝ (fun t => (M t).det) x := by
  simp only [Matrix.det_apply]
  refine DifferentiableAt.fun_sum fun σ _ => ?_
  refine DifferentiableAt.fun_const_smul ?_ _
  exact DifferentiableAt.fun_finsetProd fun k _ => hM _ _

theorem differentiableAt_adjugate {M : ℝ → CMat n} (hM : ∀ i j, DifferentiableAt ℝ (fun t => M t i j) x) (i j : Fin n) :
    DifferentiableAt ℝ (fun t => (M t).adjugate i j) x := by
  simp only [adjugate_apply]
  refine differentiableAt_det fun a b => ?_
  by_cases ha : a = j
  · subst ha; simp
  · simp only [updateRow_ne ha]; exact hM a b

/-- A differentiable normalised eigenvector of a simple eigenvalue, equal to the given one at `x`. -/
theorem exists_branch (hg : ∀ᶠ t in 𝓝 x, Spec.IsGeigh (H t) 1 (e t) (V t)) (H1 : ℝ → CMat n)
    (hH : ∀ᶠ t in 𝓝 x, Spec.MDeriv H (H1 t) t) (i : Fin n) (hi : ∀ j, j ≠ i → e x j ≠ e x i) :
    ∃ v v1 : ℝ → Fin n → ℂ, (∀ᶠ t in 𝓝 x, Spec.VDeriv v (v1 t) t) ∧ (∀ᶠ t in 𝓝 x, star (v t) ⬝ᵥ v t = 1) ∧
      (∀ᶠ t in 𝓝 x, (H t).mulVec (v t) = (e t i : ℂ) • v t) ∧ ∀ j, V x j i = v x j := by
  have h0 := hg.self_of_nhds
  have hunit : (V x)ᴴ * V x = 1 := by have := h0.norm; rwa [TB.rot, Matrix.mul_one] at this
  have hcontH : ∀ j l, ContinuousAt (fun t => H t j l) x := fun j l => (hH.self_of_nhds j l).continuousAt
  have hsimple := eventually_simple hg hcontH (fun j l => continuousAt_const) i hi
  have hone : ∀ t, Spec.MDeriv (fun _ => (1 : CMat n)) 0 t := fun t a b => hasDerivAt_const _ _
  -- the band is differentiable near x
  have hband : ∀ᶠ t in 𝓝 x, DifferentiableAt ℝ (fun t => e t i) t := by
    filter_upwards [hg.eventually_nhds, hH, hsimple] with t h1 h2 h3
    exact (hasDerivAt_band h1 h2 (hone t) i h3).differentiableAt
  set M : ℝ → CMat n := fun t => H t - (e t i : ℂ) • (1 : CMat n) with hM
  have hMd : ∀ᶠ t in 𝓝 x, ∀ a b, DifferentiableAt ℝ (fun t => M t a b) t := by
    filter_upwards [hH, hband] with t h1 h2 a b
    exact (h1 a b).differentiableAt.sub ((h2.hasDerivAt.ofReal_comp.differentiableAt).mul_const _)
  set p : ℝ := ∏ j ∈ Finset.univ.erase i, (e x j - e x i) with hp
  have hp0 : p ≠ 0 := Finset.prod_ne_zero_iff.2 fun j hj => sub_ne_zero.2 (hi j (Finset.ne_of_mem_erase hj))
  set c : Fin n → ℂ := fun j => V x j i with hc
  set w : ℝ → Fin n → ℂ := fun t => ((p⁻¹ : ℝ) : ℂ) • ((M t).adjugate *ᵥ c) with hw
  have hwd : ∀ᶠ t in 𝓝 x, ∀ a, DifferentiableAt ℝ (fun t => w t a) t := by
    filter_upwards [hMd] with t h1 a
    simp only [hw, Pi.smul_apply, mulVec, dotProduct, smul_eq_mul]
    exact (DifferentiableAt.fun_sum fun b _ => (differentiableAt_adjugate h1 a b).mul_const _).const_mul _
  -- value at x
  have hMx : M x = V x * diagonal (fun j => ((e x j - e x i : ℝ) : ℂ)) * (V x)ᴴ := by
    have hunit' : V x * (V x)ᴴ = 1 := mul_eq_one_comm.1 hunit
    have h1 : diagonal (fun j => ((e x j - e x i : ℝ) : ℂ)) = TB.rot (V x) (M x) := by
      rw [hM, TB.rot, Matrix.mul_sub, Matrix.sub_mul, ← TB.rot, h0.diag, Matrix.mul_smul, Matrix.smul_mul, Matrix.mul_one, hunit]
      ext a b
      by_cases hab : a = b
      · subst hab; simp
      · simp [hab]
    rw [h1, TB.rot]
    calc M x = (V x * (V x)ᴴ) * M x * (V x * (V x)ᴴ) := by rw [hunit', Matrix.one_mul, Matrix.mul_one]
      _ = _ := by simp only [Matrix.mul_assoc]
  have hadjV : (V x).adjugate = (V x).det • (V x)ᴴ := by
    have h1 : (V x).adjugate * (V x) = (V x).det • 1 := adjugate_mul _
    calc (V x).adjugate = (V x).adjugate * (V x * (V x)ᴴ) := by rw [mul_eq_one_comm.1 hunit, Matrix.mul_one]
      _ = _ := by rw [← Matrix.mul_assoc, h1, smul_one_mul]
  have hadjVh : ((V x)ᴴ).adjugate = ((V x)ᴴ).det • V x := by
    have h1 : ((V x)ᴴ).adjugate * (V x)ᴴ = ((V x)ᴴ).det • 1 := adjugate_mul _
    calc ((V x)ᴴ).adjugate = ((V x)ᴴ).adjugate * ((V x)ᴴ * V x) := by rw [hunit, Matrix.mul_one]
      _ = _ := by rw [← Matrix.mul_assoc, h1, smul_one_mul]
  have hdet : ((V x)ᴴ).det * (V x).det = 1 := by rw [← det_mul, hunit, det_one]
  have hVc : (V x)ᴴ *ᵥ c = Pi.single i 1 := by
    have : c = V x *ᵥ Pi.single i 1 := by rw [mulVec_single_one]; rfl
    rw [this, mulVec_mulVec, hunit, one_mulVec]
  have hwx : w x = c := by
    have h1 : (M x).adjugate *ᵥ c = (p : ℂ) • c := by
      rw [hMx, adjugate_mul_distrib, adjugate_mul_distrib, hadjV, hadjVh, adjugate_diagonal, ← mulVec_mulVec, ← mulVec_mulVec,
        smul_mulVec, smul_mulVec, hVc, mulVec_smul, mulVec_smul, smul_smul, hdet, one_smul]
      have h2 : (diagonal fun k => ∏ j ∈ Finset.univ.erase k, ((e x j - e x i : ℝ) : ℂ)) *ᵥ Pi.single i 1 =
          (p : ℂ) • Pi.single i 1 := by
        ext a
        rw [mulVec_diagonal, Pi.smul_apply, smul_eq_mul]
        by_cases ha : a = i
        · subst ha; simp [hp]
        · simp [ha]
      rw [h2, mulVec_smul, mulVec_single_one]
      rfl
    simp only [hw]
    rw [h1, smul_smul, ← Complex.ofReal_mul, inv_mul_cancel₀ hp0, Complex.ofReal_one, one_smul]
  -- norm
  set N : ℝ → ℝ := fun t => ∑ a, ‖w t a‖ ^ 2 with hN
  have hNre : ∀ t, N t = (∑ a, star (w t a) * w t a).re := by
    intro t
    rw [hN, Complex.re_sum]
    refine Finset.sum_congr rfl fun a _ => ?_
    rw [Complex.star_def, Complex.conj_mul', ← Complex.ofReal_pow, Complex.ofReal_re]
  have hNd : ∀ᶠ t in 𝓝 x, DifferentiableAt ℝ N t := by
    filter_upwards [hwd] with t h1
    have h2 : N = fun t => (∑ a, star (w t a) * w t a).re := funext hNre
    rw [h2]
    have h3 : DifferentiableAt ℝ (fun t => ∑ a, star (w t a) * w t a) t :=
      DifferentiableAt.fun_sum fun a _ => (h1 a).star.mul (h1 a)
    exact (Complex.reCLM.hasFDerivAt.comp_hasDerivAt t h3.hasDerivAt).differentiableAt
  have hNx : N x = 1 := by
    rw [hNre, hwx]
    have := congrFun (congrFun hunit i) i
    rw [one_apply_eq, Matrix.mul_apply] at this
    simp only [conjTranspose_apply] at this
    rw [this]; rfl
  have hNpos : ∀ᶠ t in 𝓝 x, 0 < N t := by
    have := hNd.self_of_nhds.continuousAt
    exact this.eventually (lt_mem_nhds (by rw [hNx]; exact one_pos))
  set v : ℝ → Fin n → ℂ := fun t => (((Real.sqrt (N t))⁻¹ : ℝ) : ℂ) • w t with hv
  have hvd : ∀ᶠ t in 𝓝 x, ∀ a, DifferentiableAt ℝ (fun t => v t a) t := by
    filter_upwards [hwd, hNd, hNpos] with t h1 h2 h3 a
    have h4 : DifferentiableAt ℝ (fun t => (Real.sqrt (N t))⁻¹) t := (h2.sqrt h3.ne').inv (Real.sqrt_pos.2 h3).ne'
    exact (h4.hasDerivAt.ofReal_comp.differentiableAt).mul (h1 a)
  refine ⟨v, fun t a => deriv (fun s => v s a) t, ?_, ?_, ?_, ?_⟩
  · filter_upwards [hvd] with t h1 a
    exact (h1 a).hasDerivAt
  · filter_upwards [hNpos] with t h1
    have hsum : star (w t) ⬝ᵥ w t = (N t : ℂ) := by
      rw [hN, dotProduct]
      push_cast
      refine Finset.sum_congr rfl fun a _ => ?_
      rw [Pi.star_apply, Complex.star_def, Complex.conj_mul']
    simp only [hv]
    rw [star_smul, smul_dotProduct, dotProduct_smul, hsum, smul_eq_mul, smul_eq_mul, Complex.star_def, Complex.conj_ofReal,
      ← Complex.ofReal_mul, ← Complex.ofReal_mul]
    have : (Real.sqrt (N t))⁻¹ * ((Real.sqrt (N t))⁻¹ * N t) = 1 := by
      have h2 := Real.mul_self_sqrt h1.le
      have h3 := (Real.sqrt_pos.2 h1).ne'
      field_simp
      linarith
    rw [this, Complex.ofReal_one]
  · filter_upwards [hg] with t h1
    have hdet0 : (M t).det = 0 := by
      have h2 : TB.rot (V t) (M t) = diagonal (fun j => ((e t j - e t i : ℝ) : ℂ)) := by
        have hn := h1.norm
        rw [TB.rot, Matrix.mul_one] at hn
        rw [hM, TB.rot, Matrix.mul_sub, Matrix.sub_mul, ← TB.rot, h1.diag, Matrix.mul_smul, Matrix.smul_mul, Matrix.mul_one, hn]
        ext a b
        by_cases hab : a = b
        · subst hab; simp
        · simp [hab]
      have h3 := congrArg Matrix.det h2
      rw [TB.rot, det_mul, det_mul, det_diagonal, Finset.prod_eq_zero (Finset.mem_univ i) (by simp)] at h3
      have h4 := det_of_norm h1.norm
      have h5 : ((V t)ᴴ).det ≠ 0 := by rw [det_conjTranspose]; exact star_ne_zero.2 h4
      rcases mul_eq_zero.1 h3 with h | h
      · exact (mul_eq_zero.1 h).resolve_left h5
      · exact absurd h h4
    have h2 : M t *ᵥ w t = 0 := by
      simp only [hw]
      rw [mulVec_smul, mulVec_mulVec, mul_adjugate, hdet0, zero_smul, zero_mulVec, smul_zero]
    have h3 : M t *ᵥ v t = 0 := by simp only [hv]; rw [mulVec_smul, h2, smul_zero]
    rw [hM, sub_mulVec, smul_mulVec, one_mulVec, sub_eq_zero] at h3
    exact h3
  · intro j
    simp only [hv]
    rw [hNx, Real.sqrt_one, inv_one, Complex.ofReal_one, one_smul, hwx]

open scoped ComplexOrder in
/-- The library routine exists: sorted generalised eigenvalues and eigenvectors of a hermitian pair with positive definite overlap. -/
theorem exists_geigh {H S : CMat n} (hH : H.IsHermitian) (hS : S.PosDef) : ∃ e V, Spec.IsGeigh H S e V := by
  obtain ⟨eigh, he⟩ := exists_eigh (n := n)
  obtain ⟨hu, hd⟩ := he S hS.1
  set la := (eigh S).1
  set U := (eigh S).2
  have hUS : TB.rot U S = diagonal fun j => (la j : ℂ) := by
    rw [TB.rot, hd]
    calc Uᴴ * (U * diagonal (fun j => (la j : ℂ)) * Uᴴ) * U = (Uᴴ * U) * diagonal (fun j => (la j : ℂ)) * (Uᴴ * U) := by
          simp only [Matrix.mul_assoc]
      _ = _ := by rw [hu, Matrix.one_mul, Matrix.mul_one]
  have hpos : ∀ j, 0 < la j := by
    intro j
    have h1 : (0 : ℂ) < star (U *ᵥ Pi.single j 1) ⬝ᵥ (S *ᵥ (U *ᵥ Pi.single j 1)) := by
      refine hS.dotProduct_mulVec_pos fun h0 => ?_
      have := congrArg (Uᴴ *ᵥ ·) h0
      simp only [mulVec_mulVec, hu, one_mulVec, mulVec_zero] at this
      have h2 := congrFun this j
      simp at h2
    rw [star_rot, hUS] at h1
    have h2 := (Complex.lt_def.1 h1).1
    rw [star_dot_diag, Finset.sum_eq_single j (fun l _ hl => by simp [hl]) (by simp)] at h2
    simpa using h2
  set D : CMat n := diagonal fun j => (((Real.sqrt (la j))⁻¹ : ℝ) : ℂ) with hD
  have hLS : TB.rot (U * D) S = 1 := by
    have : TB.rot (U * D) S = Dᴴ * TB.rot U S * D := by simp only [TB.rot, conjTranspose_mul, Matrix.mul_assoc]
    rw [this, hUS, hD, diagonal_conjTranspose, diagonal_mul_diagonal, diagonal_mul_diagonal, ← diagonal_one]
    congr 1
    funext j
    simp only [Pi.star_apply, Complex.star_def, Complex.conj_ofReal]
    rw [← Complex.ofReal_mul, ← Complex.ofReal_mul]
    have h2 := Real.mul_self_sqrt (hpos j).le
    have h3 := (Real.sqrt_pos.2 (hpos j)).ne'
    have : (Real.sqrt (la j))⁻¹ * la j * (Real.sqrt (la j))⁻¹ = 1 := by
      field_simp
      linarith
    rw [this, Complex.ofReal_one]
  obtain ⟨hu2, hd2⟩ := he (TB.rot (U * D) H) (isHermitian_conjTranspose_mul_mul _ hH)
  set f := (eigh (TB.rot (U * D) H)).1
  set U2 := (eigh (TB.rot (U * D) H)).2
  set σ := Tuple.sort f
  have key : ∀ M : CMat n, TB.rot ((U * D * U2).submatrix id σ) M = (TB.rot U2 (TB.rot (U * D) M)).submatrix σ σ := by
    intro M
    have : TB.rot ((U * D * U2).submatrix id σ) M = (TB.rot (U * D * U2) M).submatrix σ σ := by
      ext i j; simp [TB.rot, Matrix.mul_apply]
    rw [this]
    congr 1
    simp only [TB.rot, conjTranspose_mul, Matrix.mul_assoc]
  refine ⟨fun j => f (σ j), (U * D * U2).submatrix id σ, ?_, ?_, Tuple.monotone_sort f⟩
  · rw [key, hLS, TB.rot, Matrix.mul_one, hu2]
    ext i j; simp [Matrix.one_apply]
  · rw [key]
    have : TB.rot U2 (TB.rot (U * D) H) = diagonal fun j => (f j : ℂ) := by
      conv_lhs => rw [hd2]
      rw [TB.rot]
      calc U2ᴴ * (U2 * diagonal (fun j => (f j : ℂ)) * U2ᴴ) * U2 = (U2ᴴ * U2) * diagonal (fun j => (f j : ℂ)) * (U2ᴴ * U2) := by
            simp only [Matrix.mul_assoc]
        _ = _ := by rw [hu2, Matrix.one_mul, Matrix.mul_one]
    rw [this]
    ext i j
    by_cases hij : i = j
    · subst hij; simp
    · simp [hij]

end SE
end TB

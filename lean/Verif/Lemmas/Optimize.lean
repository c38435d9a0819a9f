import Mathlib.LinearAlgebra.Matrix.Rank
import Mathlib.Tactic.Module
import Verif.Model.Optimize
import Verif.Props.SimpleBands

/-!
# Lemmas on `optimize_cg`: the linearised problem and the conjugate gradient method on a semidefinite form
-/

set_option linter.unusedSectionVars false

namespace TB.Opt
open Matrix TB

/-! ## conjugate gradient -/

section CG
variable {E : Type} [AddCommGroup E] [Module ℝ E]

/-- A real inner product. -/
structure IsIp (ip : E → E → ℝ) : Prop where
  add : ∀ x y z, ip x (y + z) = ip x y + ip x z
  smul : ∀ (a : ℝ) x y, ip x (a • y) = a * ip x y
  symm : ∀ x y, ip x y = ip y x
  nonneg : ∀ x, 0 ≤ ip x x
  zero : ∀ x, ip x x = 0 → x = 0

variable {ip : E → E → ℝ}

theorem IsIp.add_left (h : IsIp ip) (x y z : E) : ip (x + y) z = ip x z + ip y z := by
  rw [h.symm, h.add, h.symm z x, h.symm z y]
theorem IsIp.smul_left (h : IsIp ip) (a : ℝ) (x y : E) : ip (a • x) y = a * ip x y := by
  rw [h.symm, h.smul, h.symm y x]
theorem IsIp.neg (h : IsIp ip) (x y : E) : ip x (-y) = -ip x y := by
  rw [← neg_one_smul ℝ y, h.smul, neg_one_mul]
theorem IsIp.neg_left (h : IsIp ip) (x y : E) : ip (-x) y = -ip x y := by rw [h.symm, h.neg, h.symm]
theorem IsIp.sub (h : IsIp ip) (x y z : E) : ip x (y - z) = ip x y - ip x z := by
  rw [sub_eq_add_neg, h.add, h.neg, ← sub_eq_add_neg]
theorem IsIp.sub_left (h : IsIp ip) (x y z : E) : ip (x - y) z = ip x z - ip y z := by
  rw [h.symm, h.sub, h.symm z x, h.symm z y]
theorem IsIp.zero_right (h : IsIp ip) (x : E) : ip x 0 = 0 := by
  rw [← zero_smul ℝ (0 : E), h.smul, zero_mul]
theorem IsIp.zero_left (h : IsIp ip) (x : E) : ip 0 x = 0 := by rw [h.symm, h.zero_right]

/-- A real linear, symmetric, positive semidefinite function. -/
structure IsPSD (ip : E → E → ℝ) (A : E → E) : Prop where
  add : ∀ x y, A (x + y) = A x + A y
  smul : ∀ (a : ℝ) x, A (a • x) = a • A x
  symm : ∀ x y, ip x (A y) = ip (A x) y
  nonneg : ∀ x, 0 ≤ ip x (A x)

variable {A : E → E}

theorem IsPSD.zero (h : IsPSD ip A) : A 0 = 0 := by simpa using h.smul 0 0

theorem IsPSD.sub_smul (h : IsPSD ip A) (x d : E) (a : ℝ) : A (x - a • d) = A x - a • A d := by
  rw [sub_eq_add_neg, ← neg_smul, h.add, h.smul, neg_smul, ← sub_eq_add_neg]

/-- The functional which is minimised. -/
def phi (ip : E → E → ℝ) (A : E → E) (b x : E) : ℝ := ip x (A x) - 2 * ip b x

theorem phi_step (hip : IsIp ip) (hA : IsPSD ip A) (b x d : E) (a : ℝ) :
    phi ip A b (x - a • d) = phi ip A b x - 2 * a * ip (A x - b) d + a ^ 2 * ip d (A d) := by
  have h1 : ip d (A x) = ip (A x) d := hip.symm _ _
  have h2 : ip x (A d) = ip (A x) d := hA.symm _ _
  simp only [phi, hA.sub_smul, hip.sub, hip.sub_left, hip.smul, hip.smul_left, h1, h2]
  ring

/-- The loop does not increase the functional. -/
theorem cgV_le (hip : IsIp ip) (hA : IsPSD ip A) (b : E) (err : ℝ) : ∀ (left : ℕ) (s : CGV E), s.r = A s.x - b → s.rSqr = ip s.r s.r →
    ip s.r s.d = s.rSqr → phi ip A b (cgV ip A err left s) ≤ phi ip A b s.x ∧
      (ip s.d (A s.d) ≠ 0 → phi ip A b (cgV ip A err left s) ≤ phi ip A b s.x - s.rSqr ^ 2 / ip s.d (A s.d)) := by
  intro left
  induction left with
  | zero =>
    intro s h1 h2 h3
    rw [cgV]
    by_cases h0 : ip s.d (A s.d) = 0
    · simp [h0]
    · have hpos : 0 < ip s.d (A s.d) := lt_of_le_of_ne (hA.nonneg _) (Ne.symm h0)
      have key : phi ip A b (s.x - (s.rSqr / ip s.d (A s.d)) • s.d) = phi ip A b s.x - s.rSqr ^ 2 / ip s.d (A s.d) := by
        rw [phi_step hip hA, ← h1, h3]; field_simp; ring
      have hn : 0 ≤ s.rSqr ^ 2 / ip s.d (A s.d) := by positivity
      simp only [h0, if_false, ite_self, key]
      exact ⟨by linarith, fun _ => le_rfl⟩
  | succ left ih =>
    intro s h1 h2 h3
    rw [cgV]
    by_cases h0 : ip s.d (A s.d) = 0
    · simp [h0]
    · have hpos : 0 < ip s.d (A s.d) := lt_of_le_of_ne (hA.nonneg _) (Ne.symm h0)
      have key : phi ip A b (s.x - (s.rSqr / ip s.d (A s.d)) • s.d) = phi ip A b s.x - s.rSqr ^ 2 / ip s.d (A s.d) := by
        rw [phi_step hip hA, ← h1, h3]; field_simp; ring
      have hn : 0 ≤ s.rSqr ^ 2 / ip s.d (A s.d) := by positivity
      simp only [h0, if_false]
      by_cases he : s.rSqr ≤ err ^ 2
      · simp only [he, if_true, key]
        exact ⟨by linarith, fun _ => le_rfl⟩
      · simp only [he, if_false]
        set r' := s.r - (s.rSqr / ip s.d (A s.d)) • A s.d with hr'
        have h5 : ip r' s.d = 0 := by
          rw [hr', hip.sub_left, hip.smul_left, h3, hip.symm (A s.d), div_mul_cancel₀ _ h0, sub_self]
        have h4 := (ih ⟨s.x - (s.rSqr / ip s.d (A s.d)) • s.d, r', (ip r' r' / s.rSqr) • s.d + r', ip r' r'⟩ (by
          simp only [hr', hA.sub_smul, h1]; abel) rfl (by
          simp only [hip.add, hip.smul]
          rw [h5, mul_zero, zero_add])).1
        simp only [key] at h4
        exact ⟨by linarith, fun _ => h4⟩

/-- The result lies in every subspace which contains `b` and is invariant under `A`. -/
theorem cgV_mem (U : Submodule ℝ E) (hU : ∀ x ∈ U, A x ∈ U) (err : ℝ) : ∀ (left : ℕ) (s : CGV E), s.x ∈ U → s.r ∈ U → s.d ∈ U →
    cgV ip A err left s ∈ U := by
  intro left
  induction left with
  | zero =>
    intro s h1 h2 h3
    rw [cgV]
    have := U.sub_mem h1 (U.smul_mem (s.rSqr / ip s.d (A s.d)) h3)
    by_cases h0 : ip s.d (A s.d) = 0
    · simpa [h0] using h1
    · simpa [h0] using this
  | succ left ih =>
    intro s h1 h2 h3
    rw [cgV]
    have h4 := U.sub_mem h1 (U.smul_mem (s.rSqr / ip s.d (A s.d)) h3)
    by_cases h0 : ip s.d (A s.d) = 0
    · simpa [h0] using h1
    · simp only [h0, if_false]
      by_cases he : s.rSqr ≤ err ^ 2
      · simpa [he] using h4
      · simp only [he, if_false]
        have h5 := U.sub_mem h2 (U.smul_mem (s.rSqr / ip s.d (A s.d)) (hU _ h3))
        exact ih _ h4 h5 (U.add_mem (U.smul_mem _ h3) h5)

theorem cgSolveV_mem (U : Submodule ℝ E) (hU : ∀ x ∈ U, A x ∈ U) (b : E) (hb : b ∈ U) (err : ℝ) (maxI : ℤ) :
    cgSolveV ip A b err maxI ∈ U := cgV_mem U hU err _ _ U.zero_mem (U.neg_mem hb) (U.neg_mem hb)

/-- Started at zero the solver makes the functional negative, unless `b = 0`, provided that `b` has no component in the kernel of the form. -/
theorem cgSolveV_neg (hip : IsIp ip) (hA : IsPSD ip A) (b : E) (hb : ip b (A b) = 0 → b = 0) (err : ℝ) (maxI : ℤ) (hne : b ≠ 0) :
    phi ip A b (cgSolveV ip A b err maxI) < 0 := by
  have h := (cgV_le hip hA b err (maxI + 1).toNat ⟨0, -b, -b, ip (-b) (-b)⟩ (by simp [hA.zero]) rfl rfl).2
  have h1 : ip (-b) (A (-b)) = ip b (A b) := by
    have : A (-b) = -A b := by rw [← neg_one_smul ℝ b, hA.smul, neg_one_smul]
    rw [this, hip.neg, hip.neg_left, neg_neg]
  have h2 : ip (-b) (-b) = ip b b := by rw [hip.neg, hip.neg_left, neg_neg]
  have hne' : ip b (A b) ≠ 0 := fun h0 => hne (hb h0)
  have hpos : 0 < ip b (A b) := lt_of_le_of_ne (hA.nonneg _) (Ne.symm hne')
  have hbpos : 0 < ip b b := lt_of_le_of_ne (hip.nonneg _) (fun h0 => hne (hip.zero b h0.symm))
  simp only [h1, h2] at h
  have h3 := h hne'
  have h0 : phi ip A b 0 = 0 := by simp [phi, hip.zero_left, hip.zero_right]
  rw [h0] at h3
  have : 0 < ip b b ^ 2 / ip b (A b) := by positivity
  rw [cgSolveV, h2]
  linarith

theorem cgSolveV_zero (hA : IsPSD ip A) (err : ℝ) (maxI : ℤ) : cgSolveV ip A 0 err maxI = 0 := by
  have := cgSolveV_mem (ip := ip) (A := A) ⊥ (by intro x hx; rw [Submodule.mem_bot] at hx ⊢; rw [hx, hA.zero]) 0 (Submodule.zero_mem _) err maxI
  exact (Submodule.mem_bot ℝ).1 this

end CG

/-- On vectors this is the function modelled for C49. -/
theorem cgV_eq_cgLoop {n : ℕ} (A : (Fin n → ℝ) → Fin n → ℝ) (err : ℝ) (maxI : ℕ) : ∀ (left fuel : ℕ) (s : CG ℝ n), s.i + left = maxI + 1 →
    left < fuel → cgLoop A err maxI fuel s = some (cgV (fun x y => ∑ j, x j * y j) A err left ⟨s.x, s.r, s.d, s.rSqr⟩) := by
  intro left
  induction left with
  | zero =>
    intro fuel s hi hf
    obtain ⟨fuel, rfl⟩ : ∃ f, fuel = f + 1 := ⟨fuel - 1, by omega⟩
    rw [cgLoop, cgStep, cgV]
    by_cases h0 : ∑ j, s.d j * A s.d j = 0
    · simp [h0]
    · by_cases he : s.rSqr ≤ err ^ 2
      · simp [h0, he]
      · simp [h0, he, show maxI < s.i by omega]
  | succ left ih =>
    intro fuel s hi hf
    obtain ⟨fuel, rfl⟩ : ∃ f, fuel = f + 1 := ⟨fuel - 1, by omega⟩
    rw [cgLoop, cgStep, cgV]
    by_cases h0 : ∑ j, s.d j * A s.d j = 0
    · simp [h0]
    · by_cases he : s.rSqr ≤ err ^ 2
      · simp [h0, he]
      · simp only [h0, he, if_false, show ¬ s.i > maxI by omega]
        exact ih fuel _ (by simp only; omega) (by omega)

theorem cgSolve_eq {n : ℕ} (A : (Fin n → ℝ) → Fin n → ℝ) (b : Fin n → ℝ) (err : ℝ) (maxI fuel : ℕ) (h : maxI + 1 < fuel) :
    cgSolve A b none err (some maxI) fuel = some (cgSolveV (fun x y => ∑ j, x j * y j) A b err maxI, none) := by
  rw [cgSolve, Option.getD_some, cgV_eq_cgLoop A err maxI (maxI + 1) fuel _ (by simp [cgInit]) h]
  rfl

/-! ## the linearised problem -/

variable {K P n B d : ℕ}

theorem parIp_isIp : IsIp (parIp (P := P) (n := n)) where
  add x y z := by simp [parIp, mul_add, Finset.sum_add_distrib]
  smul a x y := by
    simp only [parIp, Pi.smul_apply, Matrix.smul_apply, Finset.mul_sum]
    refine Finset.sum_congr rfl fun p _ => Finset.sum_congr rfl fun i _ => Finset.sum_congr rfl fun j _ => ?_
    rw [Complex.real_smul, mul_left_comm, Complex.re_ofReal_mul]
  symm x y := by
    simp only [parIp]
    refine Finset.sum_congr rfl fun p _ => Finset.sum_congr rfl fun i _ => Finset.sum_congr rfl fun j _ => ?_
    simp [Complex.mul_re]; ring
  nonneg x := by
    refine Finset.sum_nonneg fun p _ => Finset.sum_nonneg fun i _ => Finset.sum_nonneg fun j _ => ?_
    rw [Complex.star_def, Complex.conj_mul', ← Complex.ofReal_pow, Complex.ofReal_re]
    positivity
  zero x h := by
    have hnn : ∀ p i j, 0 ≤ (star (x p i j) * x p i j).re := by
      intro p i j
      rw [Complex.star_def, Complex.conj_mul', ← Complex.ofReal_pow, Complex.ofReal_re]
      positivity
    funext p
    ext i j
    rw [parIp, Finset.sum_eq_zero_iff_of_nonneg (fun p _ => Finset.sum_nonneg fun i _ => Finset.sum_nonneg fun j _ => hnn p i j)] at h
    have h1 := h p (Finset.mem_univ p)
    rw [Finset.sum_eq_zero_iff_of_nonneg (fun i _ => Finset.sum_nonneg fun j _ => hnn p i j)] at h1
    have h2 := h1 i (Finset.mem_univ i)
    rw [Finset.sum_eq_zero_iff_of_nonneg (fun j _ => hnn p i j)] at h2
    have h3 := h2 j (Finset.mem_univ j)
    rw [Complex.star_def, Complex.conj_mul', ← Complex.ofReal_pow, Complex.ofReal_re] at h3
    simpa using h3

theorem fmat_add (F : Fin K → Fin P → ℂ) (x y : Par P n) (k : Fin K) : fmat F (x + y) k = fmat F x k + fmat F y k := by
  simp only [fmat, Pi.add_apply, smul_add, Finset.sum_add_distrib, conjTranspose_add]
  abel

theorem fmat_smul (F : Fin K → Fin P → ℂ) (a : ℝ) (x : Par P n) (k : Fin K) : fmat F (a • x) k = (a : ℂ) • fmat F x k := by
  have h : ∀ p, F k p • (a • x) p = (a : ℂ) • F k p • x p := by
    intro p
    rw [Pi.smul_apply, smul_comm]
    ext i j; simp
  simp only [fmat, h, ← Finset.smul_sum, conjTranspose_smul, Complex.star_def, Complex.conj_ofReal, smul_add]

theorem fmat_herm (F : Fin K → Fin P → ℂ) (x : Par P n) (k : Fin K) : (fmat F x k).IsHermitian := by
  rw [fmat, IsHermitian, conjTranspose_add, conjTranspose_conjTranspose, add_comm]

theorem applyE_add (E : Matrix (Fin P) (Fin P) ℂ) (x y : Par P n) : applyE E (x + y) = applyE E x + applyE E y := by
  funext l; simp [applyE, smul_add, Finset.sum_add_distrib]

theorem applyE_smul (E : Matrix (Fin P) (Fin P) ℂ) (a : ℝ) (x : Par P n) : applyE E (a • x) = a • applyE E x := by
  funext l
  simp only [applyE, Pi.smul_apply, Finset.smul_sum]
  exact Finset.sum_congr rfl fun p _ => smul_comm _ _ _

/-- The change of the eigenvalue with eigenvector `v` to first order. -/
noncomputable def jac (F : Fin K → Fin P → ℂ) (v : Fin K → Fin B → Fin n → ℂ) (x : Par P n) (k : Fin K) (b : Fin B) : ℝ :=
  (star (v k b) ⬝ᵥ (fmat F x k *ᵥ v k b)).re

theorem jac_add (F : Fin K → Fin P → ℂ) (v : Fin K → Fin B → Fin n → ℂ) (x y : Par P n) (k b) :
    jac F v (x + y) k b = jac F v x k b + jac F v y k b := by
  simp [jac, fmat_add, add_mulVec, dotProduct_add]

theorem jac_smul (F : Fin K → Fin P → ℂ) (v : Fin K → Fin B → Fin n → ℂ) (a : ℝ) (x : Par P n) (k b) :
    jac F v (a • x) k b = a * jac F v x k b := by
  rw [jac, fmat_smul, smul_mulVec, dotProduct_smul, smul_eq_mul, Complex.re_ofReal_mul, jac]

theorem form_real {M : CMat n} (hM : M.IsHermitian) (v : Fin n → ℂ) : star v ⬝ᵥ (M *ᵥ v) = (((star v ⬝ᵥ (M *ᵥ v)).re : ℝ) : ℂ) := by
  have h : star (star v ⬝ᵥ (M *ᵥ v)) = star v ⬝ᵥ (M *ᵥ v) := by
    rw [← star_dotProduct, star_mulVec, hM.eq, dotProduct_mulVec]
  exact (Complex.conj_eq_iff_re.1 h).symm

theorem form_half (M : CMat n) (v : Fin n → ℂ) : 2 * (star v ⬝ᵥ (M *ᵥ v)).re = (star v ⬝ᵥ ((M + Mᴴ) *ᵥ v)).re := by
  have h : star v ⬝ᵥ (Mᴴ *ᵥ v) = star (star v ⬝ᵥ (M *ᵥ v)) := by
    rw [← star_dotProduct, star_mulVec, dotProduct_mulVec]
  rw [add_mulVec, dotProduct_add, Complex.add_re, h, Complex.star_def, Complex.conj_re]
  ring

/-- Pairing with a sum of projectors. -/
theorem parIp_outer (c : Lin K P n B) (z : Par P n) (q : Fin K → Fin B → ℝ) :
    2 * parIp z (fun l => ∑ k, ∑ b, (c.cE k l * (q k b : ℂ)) • outer (c.v k b)) = ∑ k, ∑ b, q k b * jac c.F c.v (applyE c.E z) k b := by
  have h1 : parIp z (fun l => ∑ k, ∑ b, (c.cE k l * (q k b : ℂ)) • outer (c.v k b)) =
      ∑ k, ∑ b, q k b * (star (c.v k b) ⬝ᵥ ((∑ p, c.F k p • applyE c.E z p) *ᵥ c.v k b)).re := by
    have h2 : ∀ k b, star (star (c.v k b) ⬝ᵥ ((∑ p, c.F k p • applyE c.E z p) *ᵥ c.v k b)) =
        ∑ l, ∑ i, ∑ j, star (z l i j) * (c.cE k l * (c.v k b i * star (c.v k b j))) := by
      intro k b
      have h3 : (∑ p, c.F k p • applyE c.E z p) = ∑ l, star (c.cE k l) • z l := by
        simp only [applyE, Finset.smul_sum, smul_smul, Lin.cE, star_sum, star_mul', star_star, Finset.sum_smul]
        rw [Finset.sum_comm]
      rw [h3]
      simp only [dotProduct, mulVec, Matrix.sum_apply, Matrix.smul_apply, smul_eq_mul, Finset.mul_sum, Finset.sum_mul, star_sum,
        star_mul', star_star, Pi.star_apply]
      calc _ = ∑ i, ∑ l, ∑ j, c.v k b i * (c.cE k l * star (z l i j) * star (c.v k b j)) := by
            refine Finset.sum_congr rfl fun i _ => ?_
            rw [Finset.sum_comm]
        _ = _ := by
            rw [Finset.sum_comm]
            refine Finset.sum_congr rfl fun l _ => Finset.sum_congr rfl fun i _ => Finset.sum_congr rfl fun j _ => ?_
            ring
    have h4 : ∀ k b, (star (c.v k b) ⬝ᵥ ((∑ p, c.F k p • applyE c.E z p) *ᵥ c.v k b)).re =
        ∑ l, ∑ i, ∑ j, (star (z l i j) * (c.cE k l * (c.v k b i * star (c.v k b j)))).re := by
      intro k b
      have := congrArg Complex.re (h2 k b)
      rw [Complex.star_def, Complex.conj_re] at this
      rw [this]; simp only [Complex.re_sum]; rfl
    simp only [h4, Finset.mul_sum]
    simp only [parIp, Matrix.sum_apply, Matrix.smul_apply, outer, vecMulVec_apply, Pi.star_apply, smul_eq_mul, Finset.mul_sum,
      Complex.re_sum]
    have h5 : ∀ l i j k b, (star (z l i j) * (c.cE k l * (q k b : ℂ) * (c.v k b i * star (c.v k b j)))).re =
        q k b * (star (z l i j) * (c.cE k l * (c.v k b i * star (c.v k b j)))).re := by
      intro l i j k b
      rw [← Complex.re_ofReal_mul]; congr 1; ring
    simp only [h5]
    -- exchange the order of the sums
    have sw : ∀ f : Fin P → Fin n → Fin n → Fin K → Fin B → ℝ,
        (∑ l, ∑ i, ∑ j, ∑ k, ∑ b, f l i j k b) = ∑ k, ∑ b, ∑ l, ∑ i, ∑ j, f l i j k b := by
      intro f
      simp only [← Fintype.sum_prod_type']
      let e : Fin P × Fin n × Fin n × Fin K × Fin B ≃ Fin K × Fin B × Fin P × Fin n × Fin n :=
        ⟨fun y => (y.2.2.2.1, y.2.2.2.2, y.1, y.2.1, y.2.2.1), fun y => (y.2.2.1, y.2.2.2.1, y.2.2.2.2, y.1, y.2.1),
          fun _ => rfl, fun _ => rfl⟩
      exact Fintype.sum_equiv e _ _ fun _ => rfl
    exact sw _
  rw [h1, Finset.mul_sum]
  refine Finset.sum_congr rfl fun k _ => ?_
  rw [Finset.mul_sum]
  refine Finset.sum_congr rfl fun b _ => ?_
  rw [mul_left_comm, form_half]
  rfl

theorem parIp_rhs (c : Lin K P n B) (z : Par P n) (diff : Fin K → Fin B → ℝ) :
    2 * parIp z (c.rhs diff) = ∑ k, ∑ b, diff k b * c.w b * jac c.F c.v (applyE c.E z) k b :=
  parIp_outer c z fun k b => diff k b * c.w b

theorem A_eq (c : Lin K P n B) (x : Par P n) :
    c.A x = fun l => ∑ k, ∑ b, (c.cE k l * ((c.w b * ((K : ℝ)⁻¹ * jac c.F c.v (applyE c.E x) k b) : ℝ) : ℂ)) • outer (c.v k b) := by
  funext l
  simp only [Lin.A]
  refine Finset.sum_congr rfl fun k _ => Finset.sum_congr rfl fun b _ => ?_
  rw [form_real (fmat_herm _ _ _)]
  have : (star (c.v k b) ⬝ᵥ (fmat c.F (applyE c.E ((K : ℝ)⁻¹ • x)) k *ᵥ c.v k b)).re = (K : ℝ)⁻¹ * jac c.F c.v (applyE c.E x) k b := by
    rw [applyE_smul, ← jac_smul]; rfl
  rw [this]
  push_cast
  congr 1
  ring

theorem parIp_A (c : Lin K P n B) (z x : Par P n) :
    2 * parIp z (c.A x) = (K : ℝ)⁻¹ * ∑ k, ∑ b, c.w b * jac c.F c.v (applyE c.E x) k b * jac c.F c.v (applyE c.E z) k b := by
  rw [A_eq, parIp_outer, Finset.mul_sum]
  refine Finset.sum_congr rfl fun k _ => ?_
  rw [Finset.mul_sum]
  exact Finset.sum_congr rfl fun b _ => by ring

theorem A_isPSD (c : Lin K P n B) (hw : ∀ b, 0 ≤ c.w b) : IsPSD parIp c.A where
  add x y := by
    funext l
    simp only [A_eq, Pi.add_apply, applyE_add, jac_add, ← Finset.sum_add_distrib, ← add_smul]
    refine Finset.sum_congr rfl fun k _ => Finset.sum_congr rfl fun b _ => ?_
    congr 1; push_cast; ring
  smul a x := by
    funext l
    simp only [A_eq, Pi.smul_apply, applyE_smul, jac_smul, Finset.smul_sum]
    refine Finset.sum_congr rfl fun k _ => Finset.sum_congr rfl fun b _ => ?_
    rw [← Complex.coe_smul, smul_smul]
    congr 1; push_cast; ring
  symm x y := by
    have h1 := parIp_A c x y
    have h2 := parIp_A c y x
    rw [parIp_isIp.symm (c.A x)]
    have : (∑ k, ∑ b, c.w b * jac c.F c.v (applyE c.E y) k b * jac c.F c.v (applyE c.E x) k b) =
        ∑ k, ∑ b, c.w b * jac c.F c.v (applyE c.E x) k b * jac c.F c.v (applyE c.E y) k b :=
      Finset.sum_congr rfl fun k _ => Finset.sum_congr rfl fun b _ => by ring
    rw [this] at h1
    linarith
  nonneg x := by
    have h1 := parIp_A c x x
    have : 0 ≤ (K : ℝ)⁻¹ * ∑ k, ∑ b, c.w b * jac c.F c.v (applyE c.E x) k b * jac c.F c.v (applyE c.E x) k b := by
      refine mul_nonneg (by positivity) (Finset.sum_nonneg fun k _ => Finset.sum_nonneg fun b _ => ?_)
      rw [mul_assoc]; exact mul_nonneg (hw b) (mul_self_nonneg _)
    linarith

/-- The right hand side has no component in the kernel. -/
theorem rhs_kernel (c : Lin K P n B) (hw : ∀ b, 0 ≤ c.w b) (diff : Fin K → Fin B → ℝ)
    (h : parIp (c.rhs diff) (c.A (c.rhs diff)) = 0) : c.rhs diff = 0 := by
  by_cases hK : K = 0
  · subst hK; funext l; simp [Lin.rhs]
  have h1 := parIp_A c (c.rhs diff) (c.rhs diff)
  rw [h, mul_zero] at h1
  have hK' : (K : ℝ)⁻¹ ≠ 0 := inv_ne_zero (by exact_mod_cast hK)
  have h2 := (mul_eq_zero.1 h1.symm).resolve_left hK'
  have hnn : ∀ k b, 0 ≤ c.w b * jac c.F c.v (applyE c.E (c.rhs diff)) k b * jac c.F c.v (applyE c.E (c.rhs diff)) k b := by
    intro k b; rw [mul_assoc]; exact mul_nonneg (hw b) (mul_self_nonneg _)
  rw [Finset.sum_eq_zero_iff_of_nonneg (fun k _ => Finset.sum_nonneg fun b _ => hnn k b)] at h2
  apply parIp_isIp.zero
  have h3 := parIp_rhs c (c.rhs diff) diff
  have h4 : (∑ k, ∑ b, diff k b * c.w b * jac c.F c.v (applyE c.E (c.rhs diff)) k b) = 0 := by
    refine Finset.sum_eq_zero fun k _ => Finset.sum_eq_zero fun b _ => ?_
    have h5 := h2 k (Finset.mem_univ k)
    rw [Finset.sum_eq_zero_iff_of_nonneg (fun b _ => hnn k b)] at h5
    have h6 := h5 b (Finset.mem_univ b)
    rcases mul_eq_zero.1 h6 with h7 | h7
    · rw [mul_assoc, h7, mul_zero]
    · rw [h7, mul_zero]
  linarith

/-- The functional of the solver is the change of the linearised weighted square loss. -/
theorem phi_eq (c : Lin K P n B) (hK : K ≠ 0) (diff : Fin K → Fin B → ℝ) (y : Par P n) :
    phi parIp c.A (c.rhs diff) y = (K : ℝ) / 2 * (∑ k, ∑ b, c.w b * (diff k b - jac c.F c.v ((K : ℝ)⁻¹ • applyE c.E y) k b) ^ 2 -
      ∑ k, ∑ b, c.w b * diff k b ^ 2) := by
  have hK' : (K : ℝ) ≠ 0 := by exact_mod_cast hK
  have h1 := parIp_A c y y
  have h2 := parIp_rhs c y diff
  rw [phi, parIp_isIp.symm (c.rhs diff)]
  have h3 : parIp y (c.A y) - 2 * parIp y (c.rhs diff) =
      1 / 2 * ((K : ℝ)⁻¹ * ∑ k, ∑ b, c.w b * jac c.F c.v (applyE c.E y) k b * jac c.F c.v (applyE c.E y) k b) -
        ∑ k, ∑ b, diff k b * c.w b * jac c.F c.v (applyE c.E y) k b := by linarith
  rw [h3, ← Finset.sum_sub_distrib]
  simp only [← Finset.sum_sub_distrib, Finset.mul_sum]
  refine Finset.sum_congr rfl fun k _ => Finset.sum_congr rfl fun b _ => ?_
  rw [jac_smul]
  field_simp
  ring

end TB.Opt

import Mathlib.LinearAlgebra.Matrix.Hermitian
import Mathlib.Analysis.SpecialFunctions.ExpDeriv
import Mathlib.Analysis.Calculus.Deriv.Star
import Mathlib.Analysis.SpecialFunctions.Complex.Circle
import Verif.Model.Fourier
import Verif.Props.Linalg

/-! # Lemmas about Fourier series -/

namespace TB
open Matrix

variable {d n m : ℕ}

theorem vnorm_eq_zero {r : RVec d} : vnorm r = 0 ↔ r = 0 := by
  rw [vnorm, Real.sqrt_eq_zero (Finset.sum_nonneg fun i _ => sq_nonneg _),
    Finset.sum_eq_zero_iff_of_nonneg fun i _ => sq_nonneg _]
  constructor
  · intro h; ext i; exact pow_eq_zero_iff two_ne_zero |>.1 (h i (Finset.mem_univ i))
  · rintro rfl i _; simp

theorem vnorm_nonneg (r : RVec d) : 0 ≤ vnorm r := Real.sqrt_nonneg _

/-- The constructor succeeds exactly if the first neighbour is zero and the lengths agree. -/
theorem mkSeries_ok {N : List (RVec d)} {H : List (CMat n)} {s : Series d n} :
    mkSeries N H = .ok s ↔ (∃ rest, N = 0 :: rest) ∧ N.length = H.length ∧ s = ⟨N.zip H⟩ := by
  cases N with
  | nil => simp [mkSeries]
  | cons r0 rest =>
    simp only [mkSeries]
    by_cases h0 : vnorm r0 = 0
    · rw [if_neg (not_not.2 h0)]
      have := vnorm_eq_zero.1 h0
      subst this
      by_cases h1 : (0 :: rest : List (RVec d)).length = H.length
      · rw [if_neg (not_not.2 h1)]
        simp only [Except.ok.injEq]
        exact ⟨fun h => ⟨⟨rest, rfl⟩, h1, h.symm⟩, fun h => h.2.2.symm⟩
      · rw [if_pos h1]
        simp only [reduceCtorEq, false_iff]
        exact fun h => h1 h.2.1
    · rw [if_pos h0]
      simp only [reduceCtorEq, List.cons.injEq, false_iff]
      rintro ⟨⟨_, h, -⟩, -⟩
      exact h0 (vnorm_eq_zero.2 h)

/-- The first neighbour is zero (so the series is not empty). -/
def Spec.Starts0 (s : Series d n) : Prop := ∃ H0 rest, s.terms = (0, H0) :: rest

theorem mkSeries_starts {N : List (RVec d)} {H : List (CMat n)} {s : Series d n} (h : mkSeries N H = .ok s) :
    Spec.Starts0 s := by
  obtain ⟨⟨rest, rfl⟩, hl, rfl⟩ := mkSeries_ok.1 h
  cases H with
  | nil => simp at hl
  | cons H0 H => exact ⟨H0, rest.zip H, rfl⟩

theorem foldl_smul (c : RVec d → ℂ) (l : List (RVec d × CMat n)) (M : CMat n) :
    l.foldl (fun mat t => mat + c t.1 • t.2) M = M + (l.map fun t => c t.1 • t.2).sum := by
  induction l generalizing M with
  | nil => simp
  | cons a l ih => simp [ih, add_assoc]

theorem sum_conjTranspose (l : List (CMat n)) : l.sumᴴ = (l.map fun M => Mᴴ).sum := by
  induction l with
  | nil => simp
  | cons a l ih => simp [conjTranspose_add, ih]

theorem hsum_cons (c : RVec d → ℂ) (t0 : RVec d × CMat n) (rest : List (RVec d × CMat n)) :
    hsum c (t0 :: rest) = .ok (c t0.1 • t0.2 + (rest.map fun t => c t.1 • t.2 + (c t.1 • t.2)ᴴ).sum) := by
  simp only [hsum, foldl_smul, zero_add]
  congr 1
  rw [add_comm]
  congr 1
  rw [sum_conjTranspose, List.map_map, ← List.sum_map_add]
  rfl

theorem fi_zero (k : RVec d) : fi k 0 = 1 := by simp [fi]
theorem dfi_zero (k : RVec d) (a : Fin d) : dfi k 0 a = 0 := by simp [dfi]
theorem ddfi_zero (k : RVec d) (a b : Fin d) : ddfi k 0 a b = 0 := by simp [ddfi]

/-- The value of a series with constant term `H0` and further terms `rest` at `k`. -/
noncomputable def Spec.value (H0 : CMat n) (rest : List (RVec d × CMat n)) (k : RVec d) : CMat n :=
  H0 + (rest.map fun t =>
    Complex.exp (2 * Real.pi * Complex.I * ((k ⬝ᵥ t.1 : ℝ) : ℂ)) • t.2 +
    (Complex.exp (2 * Real.pi * Complex.I * ((k ⬝ᵥ t.1 : ℝ) : ℂ)) • t.2)ᴴ).sum

theorem f_eq (H0 : CMat n) (rest : List (RVec d × CMat n)) (k : RVec d) :
    (⟨(0, H0) :: rest⟩ : Series d n).f k = .ok (Spec.value H0 rest k) := by
  rw [Series.f, hsum_cons, fi_zero, one_smul]; rfl

theorem df_eq (H0 : CMat n) (rest : List (RVec d × CMat n)) (k : RVec d) (a : Fin d) :
    (⟨(0, H0) :: rest⟩ : Series d n).df k a =
      .ok (rest.map fun t => dfi k t.1 a • t.2 + (dfi k t.1 a • t.2)ᴴ).sum := by
  rw [Series.df, hsum_cons, dfi_zero, zero_smul, zero_add]

theorem ddf_eq (H0 : CMat n) (rest : List (RVec d × CMat n)) (k : RVec d) (a b : Fin d) :
    (⟨(0, H0) :: rest⟩ : Series d n).ddf k a b =
      .ok (rest.map fun t => ddfi k t.1 a b • t.2 + (ddfi k t.1 a b • t.2)ᴴ).sum := by
  rw [Series.ddf, hsum_cons, ddfi_zero, zero_smul, zero_add]

theorem herm_sum (c : RVec d → ℂ) (rest : List (RVec d × CMat n)) :
    (rest.map fun t : RVec d × CMat n => c t.1 • t.2 + (c t.1 • t.2)ᴴ).sum.IsHermitian := by
  induction rest with
  | nil => simp
  | cons t rest ih =>
    rw [List.map_cons, List.sum_cons]
    exact IsHermitian.add (by rw [IsHermitian, conjTranspose_add, conjTranspose_conjTranspose, add_comm]) ih

/-- `k·(g)` integer means the phase is one. -/
theorem fi_periodic (k g r : RVec d) (z : ℤ) (hz : g ⬝ᵥ r = z) : fi (k + g) r = fi k r := by
  rw [fi, fi, add_dotProduct, hz]
  push_cast
  rw [mul_add, Complex.exp_add, show 2 * (Real.pi : ℂ) * Complex.I * (z : ℂ) = z * (2 * Real.pi * Complex.I) by ring,
    Complex.exp_int_mul_two_pi_mul_I, mul_one]

theorem dfi_eq (k r : RVec d) (a : Fin d) : dfi k r a = 2 * Real.pi * Complex.I * fi k r * (r a : ℂ) := rfl
theorem ddfi_eq (k r : RVec d) (a b : Fin d) :
    ddfi k r a b = (2 * Real.pi * Complex.I) ^ 2 * fi k r * ((r a : ℂ) * (r b : ℂ)) := rfl

/-- Derivative of the phase in direction `v`. -/
theorem fi_hasDerivAt (k v r : RVec d) :
    HasDerivAt (fun t : ℝ => fi (k + t • v) r) (∑ a, (v a : ℂ) * dfi k r a) 0 := by
  have e : ∀ t : ℝ, fi (k + t • v) r =
      Complex.exp (2 * Real.pi * Complex.I * (((k ⬝ᵥ r : ℝ) : ℂ) + (t : ℂ) * ((v ⬝ᵥ r : ℝ) : ℂ))) := by
    intro t
    rw [fi, add_dotProduct, smul_dotProduct, smul_eq_mul]
    push_cast
    rfl
  have h1 : HasDerivAt (fun t : ℝ => (t : ℂ)) 1 (0 : ℝ) := Complex.ofRealCLM.hasDerivAt
  have h2 : HasDerivAt (fun t : ℝ => 2 * (Real.pi : ℂ) * Complex.I * (((k ⬝ᵥ r : ℝ) : ℂ) + (t : ℂ) * ((v ⬝ᵥ r : ℝ) : ℂ)))
      (2 * Real.pi * Complex.I * (1 * ((v ⬝ᵥ r : ℝ) : ℂ))) 0 :=
    ((h1.mul_const _).const_add _).const_mul _
  have h3 := h2.cexp
  rw [funext e]
  refine h3.congr_deriv ?_
  simp only [dfi_eq, fi]
  have hv : ((v ⬝ᵥ r : ℝ) : ℂ) = ∑ a, (v a : ℂ) * (r a : ℂ) := by
    rw [dotProduct]; push_cast; rfl
  simp only [Complex.ofReal_zero, zero_mul, add_zero]
  rw [hv, one_mul, Finset.mul_sum, Finset.mul_sum]
  exact Finset.sum_congr rfl fun a _ => by ring

theorem dfi_hasDerivAt (k v r : RVec d) (a : Fin d) :
    HasDerivAt (fun t : ℝ => dfi (k + t • v) r a) (∑ b, (v b : ℂ) * ddfi k r a b) 0 := by
  have h := (fi_hasDerivAt k v r).const_mul (2 * (Real.pi : ℂ) * Complex.I)
  have h2 := h.mul_const (r a : ℂ)
  refine h2.congr_deriv ?_
  simp only [ddfi_eq, dfi_eq]
  rw [Finset.mul_sum, Finset.sum_mul]
  exact Finset.sum_congr rfl fun b _ => by ring

theorem star_hasDerivAt {g : ℝ → ℂ} {g' : ℂ} {x : ℝ} (h : HasDerivAt g g' x) :
    HasDerivAt (fun t => star (g t)) (star g') x := h.star

theorem list_sum_apply (l : List (CMat n)) (i j : Fin n) : l.sum i j = (l.map fun M => M i j).sum := by
  induction l with
  | nil => simp
  | cons a l ih => simp [Matrix.add_apply, ih]

/-- Derivative of a hermitian sum, entry by entry. -/
theorem hsum_hasDerivAt (c : ℝ → RVec d → ℂ) (c' : RVec d → ℂ) (h : ∀ r, HasDerivAt (fun t => c t r) (c' r) 0)
    (rest : List (RVec d × CMat n)) (i j : Fin n) :
    HasDerivAt (fun t : ℝ => (rest.map fun x => c t x.1 • x.2 + (c t x.1 • x.2)ᴴ).sum i j)
      ((rest.map fun x => c' x.1 • x.2 + (c' x.1 • x.2)ᴴ).sum i j) 0 := by
  induction rest with
  | nil => simpa using hasDerivAt_const (0 : ℝ) (0 : ℂ)
  | cons x rest ih =>
    simp only [List.map_cons, List.sum_cons, Matrix.add_apply, conjTranspose_apply, Matrix.smul_apply, smul_eq_mul]
    exact (((h x.1).mul_const _).add (((h x.1).mul_const _).star)).add ih

theorem sum_smul_terms (v : RVec d) (D : RVec d → Fin d → ℂ) (rest : List (RVec d × CMat n)) (i j : Fin n) :
    (rest.map fun x => (∑ a, (v a : ℂ) * D x.1 a) • x.2 + ((∑ a, (v a : ℂ) * D x.1 a) • x.2)ᴴ).sum i j =
      ∑ a, (v a : ℂ) * ((rest.map fun x => D x.1 a • x.2 + (D x.1 a • x.2)ᴴ).sum i j) := by
  induction rest with
  | nil => simp
  | cons x rest ih =>
    simp only [List.map_cons, List.sum_cons, Matrix.add_apply, conjTranspose_apply, Matrix.smul_apply, smul_eq_mul, ih,
      star_mul', star_sum, mul_add, Finset.sum_add_distrib, Finset.sum_mul]
    congr 2
    · exact Finset.sum_congr rfl fun a _ => by ring
    · refine Finset.sum_congr rfl fun a _ => ?_
      simp; ring

end TB

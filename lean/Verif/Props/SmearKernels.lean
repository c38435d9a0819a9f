import Mathlib.Tactic.Linarith
import Mathlib.Tactic.FieldSimp
import Mathlib.Tactic.Ring
import Mathlib.Tactic.LinearCombination
import Mathlib.Tactic.NormNum
import Mathlib.Tactic.Positivity
import Mathlib.Analysis.Real.Pi.Bounds
import Mathlib.Analysis.SpecialFunctions.Integrals.Basic
import Verif.Lemmas.PosPart
import Verif.Model.Smearing
import Verif.Props.SmearCube

/-!
# C46: sphere and tetrahedron kernels
-/

namespace TB.Smear

open MeasureTheory

/-- The distance of the plane from the centre in units of the radius, clamped. -/
noncomputable def Spec.clamp (u : ℝ) : ℝ := max (min u 1) (-1)

theorem clamp_bounds (u : ℝ) : -1 ≤ Spec.clamp u ∧ Spec.clamp u ≤ 1 :=
  ⟨le_max_right _ _, max_le (min_le_right _ _) (by norm_num)⟩

theorem sphere_fst (a0 ax ay az : ℝ) : (unitSphereCut a0 ax ay az).1 =
    (1 + Spec.clamp (a0 / (norm3 ax ay az (1 / 10 ^ 50) * sphereRadius))) ^ 2 *
      (2 - Spec.clamp (a0 / (norm3 ax ay az (1 / 10 ^ 50) * sphereRadius))) * (1 / 4) := by
  rw [unitSphereCut, Spec.clamp]; ring

theorem radius_pos : 0 < sphereRadius := by rw [sphereRadius]; norm_num

theorem scale_pos (ax ay az : ℝ) : 0 < norm3 ax ay az (1 / 10 ^ 50) * sphereRadius :=
  mul_pos (norm3_pos _ _ _ (by positivity)) radius_pos

/-- C46.  The returned volume is the fraction of the volume of a ball on one side of the plane: the integral of the areas
`π (1 - x²)` of the cross sections from `-1` to the clamped distance, divided by the volume of the ball. -/
theorem C46_sphere_true_volume (a0 ax ay az : ℝ) :
    (unitSphereCut a0 ax ay az).1 =
      (∫ x in (-1 : ℝ)..(Spec.clamp (a0 / (norm3 ax ay az (1 / 10 ^ 50) * sphereRadius))), Real.pi * (1 - x ^ 2)) /
        (∫ x in (-1 : ℝ)..1, Real.pi * (1 - x ^ 2)) := by
  have key : ∀ d : ℝ, ∫ x in (-1 : ℝ)..d, Real.pi * (1 - x ^ 2) = Real.pi * ((d - d ^ 3 / 3) + 2 / 3) := by
    intro d
    rw [intervalIntegral.integral_const_mul, intervalIntegral.integral_sub (by simp)
      (Continuous.intervalIntegrable (by fun_prop) _ _), integral_pow, intervalIntegral.integral_const]
    norm_num
    ring
  rw [key, key, sphere_fst]
  have := Real.pi_pos
  field_simp
  ring

/-- C46.  The radius in the source gives a ball of volume one up to `1e-9`. -/
theorem C46_sphere_radius : |4 / 3 * Real.pi * sphereRadius ^ 3 - 1| < 1 / 10 ^ 9 := by
  have h1 := Real.pi_gt_d20
  have h2 := Real.pi_lt_d20
  rw [abs_lt, sphereRadius]
  constructor <;> nlinarith

theorem W_mono {c d : ℝ} (h1 : -1 ≤ c) (h2 : c ≤ d) (h3 : d ≤ 1) :
    (1 + c) ^ 2 * (2 - c) * (1 / 4) ≤ (1 + d) ^ 2 * (2 - d) * (1 / 4) := by
  nlinarith [mul_nonneg (sub_nonneg.2 h2) (mul_nonneg (by linarith : (0 : ℝ) ≤ 1 + c) (by linarith : (0 : ℝ) ≤ 1 - d)),
    mul_nonneg (sub_nonneg.2 h2) (mul_nonneg (by linarith : (0 : ℝ) ≤ 1 + d) (by linarith : (0 : ℝ) ≤ 1 - c)),
    mul_nonneg (sub_nonneg.2 h2) (mul_nonneg (by linarith : (0 : ℝ) ≤ 1 + d) (by linarith : (0 : ℝ) ≤ 1 - d)),
    mul_nonneg (sub_nonneg.2 h2) (mul_nonneg (by linarith : (0 : ℝ) ≤ 1 + c) (by linarith : (0 : ℝ) ≤ 1 - c)),
    mul_nonneg (sub_nonneg.2 h2) (sq_nonneg (c - d))]

theorem clamp_mono : Monotone Spec.clamp := fun _ _ h => max_le_max (min_le_min h le_rfl) le_rfl

theorem clamp_neg (u : ℝ) : Spec.clamp (-u) = -Spec.clamp u := by
  rw [Spec.clamp, Spec.clamp]
  rcases le_total u 1 with h1 | h1 <;> rcases le_total u (-1) with h2 | h2
  · rw [min_eq_left h1, max_eq_right h2, min_eq_right (by linarith), max_eq_left (by linarith)]; norm_num
  · rw [min_eq_left h1, max_eq_left h2, min_eq_left (by linarith), max_eq_left (by linarith)]
  · linarith
  · rw [min_eq_right h1, min_eq_left (show -u ≤ 1 by linarith), max_eq_right (show -u ≤ -1 by linarith),
      max_eq_left (show (-1 : ℝ) ≤ 1 by norm_num)]

/-- C46.  The sphere kernel is a distribution function: it never decreases, it lies between zero and one, is zero or one if the
plane misses the sphere, and opposite offsets are complementary. -/
theorem C46_sphere_distribution (ax ay az : ℝ) :
    (Monotone fun a0 => (unitSphereCut a0 ax ay az).1) ∧
    ∀ a0, 0 ≤ (unitSphereCut a0 ax ay az).1 ∧ (unitSphereCut a0 ax ay az).1 ≤ 1 ∧
      (a0 ≤ -(norm3 ax ay az (1 / 10 ^ 50) * sphereRadius) → (unitSphereCut a0 ax ay az).1 = 0) ∧
      (norm3 ax ay az (1 / 10 ^ 50) * sphereRadius ≤ a0 → (unitSphereCut a0 ax ay az).1 = 1) ∧
      (unitSphereCut (-a0) ax ay az).1 = 1 - (unitSphereCut a0 ax ay az).1 := by
  have hs := scale_pos ax ay az
  set s := norm3 ax ay az (1 / 10 ^ 50) * sphereRadius with hsd
  constructor
  · intro x y hxy
    simp only [sphere_fst]
    exact W_mono (clamp_bounds _).1 (clamp_mono (div_le_div_of_nonneg_right hxy hs.le)) (clamp_bounds _).2
  · intro a0
    simp only [sphere_fst, ← hsd]
    have hb := clamp_bounds (a0 / s)
    refine ⟨?_, ?_, fun h => ?_, fun h => ?_, ?_⟩
    · have := W_mono le_rfl hb.1 hb.2; norm_num at this ⊢; linarith
    · have := W_mono hb.1 hb.2 le_rfl; norm_num at this ⊢; linarith
    · have h1 : a0 / s ≤ -1 := by rw [div_le_iff₀ hs]; linarith
      rw [Spec.clamp, min_eq_left (by linarith), max_eq_right h1]; norm_num
    · have h1 : 1 ≤ a0 / s := by rw [le_div_iff₀ hs]; linarith
      rw [Spec.clamp, min_eq_right h1, max_eq_left (by norm_num)]; norm_num
    · rw [neg_div, clamp_neg]; ring

theorem hasDerivAt_W (u : ℝ) : HasDerivAt (fun u => (1 + Spec.clamp u) ^ 2 * (2 - Spec.clamp u) * (1 / 4))
    ((1 + Spec.clamp u) * (1 - Spec.clamp u) * (3 / 4)) u := by
  rcases lt_or_ge u 1 with h | h
  · have e1 : ∀ {v : ℝ}, v < 1 → (1 + Spec.clamp v) ^ 2 * (2 - Spec.clamp v) * (1 / 4) = pp 2 (1 + v) * (2 - v) * (1 / 4) := by
      intro v hv
      rw [Spec.clamp, min_eq_left hv.le, pp]
      rcases le_total (-1) v with h1 | h1
      · rw [max_eq_left h1, max_eq_right (by linarith)]
      · rw [max_eq_right h1, max_eq_left (by linarith)]; norm_num
    have hp : HasDerivAt (fun v => pp 2 (1 + v)) (2 * pp 1 (1 + u)) u := by
      have h1 := (hasDerivAt_pp' 0 (1 + u)).comp u ((hasDerivAt_id u).const_add 1)
      have e : ((0 : ℕ) : ℝ) + 2 = 2 := by norm_num
      rw [e, mul_one] at h1
      exact h1
    have h2 := (hp.mul ((hasDerivAt_id u).const_sub 2)).mul_const (1 / 4 : ℝ)
    have h3 : HasDerivAt (fun u => (1 + Spec.clamp u) ^ 2 * (2 - Spec.clamp u) * (1 / 4))
        ((2 * pp 1 (1 + u) * (2 - u) + pp 2 (1 + u) * -1) * (1 / 4)) u := by
      refine h2.congr_of_eventuallyEq ?_
      filter_upwards [Iio_mem_nhds h] with v hv
      exact e1 hv
    refine h3.congr_deriv ?_
    rw [Spec.clamp, min_eq_left h.le, pp, pp]
    rcases le_total (-1) u with h1 | h1
    · rw [max_eq_left h1, max_eq_right (by linarith)]; ring
    · rw [max_eq_right h1, max_eq_left (by linarith)]; norm_num
  · have e1 : ∀ {v : ℝ}, -1 < v → (1 + Spec.clamp v) ^ 2 * (2 - Spec.clamp v) * (1 / 4) =
        1 - pp 2 (1 - v) * (2 + v) * (1 / 4) := by
      intro v hv
      rw [Spec.clamp, pp]
      rcases le_total v 1 with h1 | h1
      · rw [min_eq_left h1, max_eq_left hv.le, max_eq_right (by linarith)]; ring
      · rw [min_eq_right h1, max_eq_left (by norm_num), max_eq_left (by linarith)]; norm_num
    have hp : HasDerivAt (fun v => pp 2 (1 - v)) (2 * pp 1 (1 - u) * -1) u := by
      have h1 := (hasDerivAt_pp' 0 (1 - u)).comp u ((hasDerivAt_id u).const_sub 1)
      have e : ((0 : ℕ) : ℝ) + 2 = 2 := by norm_num
      rw [e] at h1
      exact h1
    have h2 := ((hp.mul ((hasDerivAt_id u).const_add 2)).mul_const (1 / 4 : ℝ)).const_sub 1
    have h3 : HasDerivAt (fun u => (1 + Spec.clamp u) ^ 2 * (2 - Spec.clamp u) * (1 / 4))
        (-((2 * pp 1 (1 - u) * -1 * (2 + u) + pp 2 (1 - u) * 1) * (1 / 4))) u := by
      refine h2.congr_of_eventuallyEq ?_
      filter_upwards [Ioi_mem_nhds (show (-1 : ℝ) < u by linarith)] with v hv
      exact e1 hv
    refine h3.congr_deriv ?_
    rw [Spec.clamp, min_eq_right h, max_eq_left (by norm_num), pp, pp, max_eq_left (by linarith)]
    norm_num

/-- C46.  The second value returned is the derivative of the first with respect to the offset, at every offset. -/
theorem C46_sphere_derivative (a0 ax ay az : ℝ) :
    HasDerivAt (fun a0 => (unitSphereCut a0 ax ay az).1) (unitSphereCut a0 ax ay az).2 a0 := by
  have hs := scale_pos ax ay az
  have hn := norm3_pos ax ay az (t := 1 / 10 ^ 50) (by positivity)
  have hr := radius_pos
  simp only [sphere_fst]
  have h := (hasDerivAt_W (a0 / (norm3 ax ay az (1 / 10 ^ 50) * sphereRadius))).comp a0
    ((hasDerivAt_id a0).div_const (norm3 ax ay az (1 / 10 ^ 50) * sphereRadius))
  refine h.congr_deriv ?_
  rw [unitSphereCut, Spec.clamp]
  simp only
  field_simp

/-! ## Tetrahedron -/

/-- Volume of the part of the unit tetrahedron `x, y, z ≥ 0, x + y + z ≤ 1` on which `a0 + ax x + ay y + az z` is positive. -/
noncomputable def Spec.tetra (a0 ax ay az : ℝ) : ℝ :=
  ∫ x in (0 : ℝ)..1, ∫ y in (0 : ℝ)..(1 - x), ∫ z in (0 : ℝ)..(1 - x - y),
    if 0 < a0 + ax * x + ay * y + az * z then (1 : ℝ) else 0

/-- Divided difference of the power of the positive part. -/
noncomputable def dd (k : ℕ) (a0 ax ay az : ℝ) : ℝ :=
  -(pp k a0 / (ax * ay * az)) + pp k (a0 + ax) / (ax * (ax - ay) * (ax - az)) +
    pp k (a0 + ay) / (ay * (ay - ax) * (ay - az)) + pp k (a0 + az) / (az * (az - ax) * (az - ay))

/-- Pairwise distinct corner values. -/
structure Spec.Generic (ax ay az : ℝ) : Prop where
  x : ax ≠ 0
  y : ay ≠ 0
  z : az ≠ 0
  xy : ax ≠ ay
  xz : ax ≠ az
  yz : ay ≠ az

theorem tetra_z {az : ℝ} (hz : az ≠ 0) (a0 ax ay x y : ℝ) :
    ∫ z in (0 : ℝ)..(1 - x - y), (if 0 < a0 + ax * x + ay * y + az * z then (1 : ℝ) else 0) =
      (pp 1 ((a0 + ax * x + az * (1 - x)) + (ay - az) * y) - pp 1 ((a0 + ax * x) + ay * y)) / az := by
  rw [integral_step (a0 + ax * x + ay * y) az _ _ hz]
  congr 3 <;> ring

theorem tetra_y {ax ay az : ℝ} (h : Spec.Generic ax ay az) (a0 x : ℝ) :
    ∫ y in (0 : ℝ)..(1 - x), (pp 1 ((a0 + ax * x + az * (1 - x)) + (ay - az) * y) - pp 1 ((a0 + ax * x) + ay * y)) / az =
      ((pp 2 ((a0 + ay) + (ax - ay) * x) - pp 2 ((a0 + az) + (ax - az) * x)) / (2 * (ay - az)) -
        (pp 2 ((a0 + ay) + (ax - ay) * x) - pp 2 (a0 + ax * x)) / (2 * ay)) / az := by
  have hyz : ay - az ≠ 0 := sub_ne_zero.2 h.yz
  have hy := h.y
  rw [intervalIntegral.integral_div, intervalIntegral.integral_sub (ii_pp _ _ _ _ _) (ii_pp _ _ _ _ _),
    integral_pp 0 _ _ _ _ hyz, integral_pp 0 _ _ _ _ hy]
  rw [show a0 + ax * x + az * (1 - x) + (ay - az) * (1 - x) = (a0 + ay) + (ax - ay) * x by ring,
    show a0 + ax * x + az * (1 - x) + (ay - az) * 0 = (a0 + az) + (ax - az) * x by ring,
    show a0 + ax * x + ay * (1 - x) = (a0 + ay) + (ax - ay) * x by ring,
    show a0 + ax * x + ay * 0 = a0 + ax * x by ring]
  push_cast
  rw [zero_add, mul_comm (ay - az) 2, mul_comm ay 2]

theorem tetra_eq {ax ay az : ℝ} (h : Spec.Generic ax ay az) (a0 : ℝ) : Spec.tetra a0 ax ay az = dd 3 a0 ax ay az / 6 := by
  have hx := h.x
  have hy := h.y
  have hz := h.z
  have hyz : ay - az ≠ 0 := sub_ne_zero.2 h.yz
  have hxy : ax - ay ≠ 0 := sub_ne_zero.2 h.xy
  have hxz : ax - az ≠ 0 := sub_ne_zero.2 h.xz
  have e : ∀ x, (∫ y in (0 : ℝ)..(1 - x), ∫ z in (0 : ℝ)..(1 - x - y),
      if 0 < a0 + ax * x + ay * y + az * z then (1 : ℝ) else 0) =
      ((pp 2 ((a0 + ay) + (ax - ay) * x) - pp 2 ((a0 + az) + (ax - az) * x)) / (2 * (ay - az)) -
        (pp 2 ((a0 + ay) + (ax - ay) * x) - pp 2 (a0 + ax * x)) / (2 * ay)) / az := by
    intro x
    simp only [tetra_z hz]
    exact tetra_y h a0 x
  rw [Spec.tetra]
  simp only [e]
  rw [intervalIntegral.integral_div, intervalIntegral.integral_sub
      (((ii_pp _ _ _ _ _).sub (ii_pp _ _ _ _ _)).div_const _) (((ii_pp _ _ _ _ _).sub (ii_pp _ _ _ _ _)).div_const _),
    intervalIntegral.integral_div, intervalIntegral.integral_div,
    intervalIntegral.integral_sub (ii_pp _ _ _ _ _) (ii_pp _ _ _ _ _),
    intervalIntegral.integral_sub (ii_pp _ _ _ _ _) (ii_pp _ _ _ _ _),
    integral_pp 1 _ _ _ _ hxy, integral_pp 1 _ _ _ _ hxz, integral_pp 1 _ _ _ _ hx, dd]
  rw [show a0 + ay + (ax - ay) * 1 = a0 + ax by ring, show a0 + ay + (ax - ay) * 0 = a0 + ay by ring,
    show a0 + az + (ax - az) * 1 = a0 + ax by ring, show a0 + az + (ax - az) * 0 = a0 + az by ring,
    show a0 + ax * 1 = a0 + ax by ring, show a0 + ax * 0 = a0 by ring]
  have hzy : az - ay ≠ 0 := sub_ne_zero.2 h.yz.symm
  have hyx : ay - ax ≠ 0 := sub_ne_zero.2 h.xy.symm
  have hzx : az - ax ≠ 0 := sub_ne_zero.2 h.xz.symm
  generalize pp 3 (a0 + ax) = p1
  generalize pp 3 (a0 + ay) = p2
  generalize pp 3 (a0 + az) = p3
  generalize pp 3 a0 = p0
  push_cast
  rw [show ay - ax = -(ax - ay) by ring, show az - ay = -(ay - az) by ring, show az - ax = -(ax - az) by ring]
  field_simp
  ring

theorem dd_swap12 (k : ℕ) (a0 x y z : ℝ) : dd k a0 x y z = dd k a0 y x z := by rw [dd, dd]; ring

theorem dd_swap23 (k : ℕ) (a0 x y z : ℝ) : dd k a0 x y z = dd k a0 x z y := by rw [dd, dd]; ring

theorem pp_scale (k : ℕ) (u : ℝ) {N : ℝ} (hN : 0 < N) : pp k (u / N) = pp k u / N ^ k := by
  rw [pp, pp, ← div_pow]
  congr 1
  rcases le_total 0 u with h | h
  · rw [max_eq_right h, max_eq_right (div_nonneg h hN.le)]
  · rw [max_eq_left h, max_eq_left (div_nonpos_of_nonpos_of_nonneg h hN.le), zero_div]

theorem dd3_scale {a0 x y z N : ℝ} (hN : 0 < N) : dd 3 (a0 / N) (x / N) (y / N) (z / N) = dd 3 a0 x y z := by
  simp only [dd, ← add_div, ← sub_div, pp_scale _ _ hN]
  have h : N ^ 3 ≠ 0 := by positivity
  have e : ∀ p a b c : ℝ, p / N ^ 3 / (a / N * (b / N) * (c / N)) = p / (a * b * c) := by
    intro p a b c
    rw [show a / N * (b / N) * (c / N) = a * b * c / N ^ 3 by field_simp]
    rw [div_div_div_cancel_right₀ h]
  simp only [e]

theorem dd2_scale {a0 x y z N : ℝ} (hN : 0 < N) : dd 2 (a0 / N) (x / N) (y / N) (z / N) = N * dd 2 a0 x y z := by
  simp only [dd, ← add_div, ← sub_div, pp_scale _ _ hN]
  have e : ∀ p a b c : ℝ, p / N ^ 2 / (a / N * (b / N) * (c / N)) = N * (p / (a * b * c)) := by
    intro p a b c
    rw [show a / N * (b / N) * (c / N) = a * b * c / N ^ 3 by field_simp, div_div_eq_mul_div, div_mul_eq_mul_div,
      mul_div_assoc', div_div, mul_comm (N ^ 2), ← div_div]
    rw [show p * N ^ 3 / (a * b * c) / N ^ 2 = N * p / (a * b * c) * (N ^ 2 / N ^ 2) by ring, div_self (by positivity),
      mul_one]
  simp only [e]
  ring

/-- Sorting three distinct numbers. -/
theorem sort3_spec (a b c : ℝ) (P : ℝ → ℝ → ℝ → Prop) (h12 : ∀ x y z, P x y z → P y x z) (h23 : ∀ x y z, P x y z → P x z y)
    (h : P a b c) : P (sort3 a b c).1 (sort3 a b c).2.1 (sort3 a b c).2.2 ∧
      (sort3 a b c).1 ≤ (sort3 a b c).2.1 ∧ (sort3 a b c).2.1 ≤ (sort3 a b c).2.2 := by
  rw [sort3]
  rcases le_total a b with h1 | h1
  · rw [min_eq_left h1, max_eq_right h1]
    rcases le_total b c with h2 | h2
    · rw [min_eq_left h2, min_eq_left (h1.trans h2), max_eq_right h1, max_eq_right h2]
      exact ⟨h, h1, h2⟩
    · rw [min_eq_right h2, max_eq_left h2]
      rcases le_total a c with h3 | h3
      · rw [min_eq_left h3, max_eq_right h3]; exact ⟨h23 _ _ _ h, h3, h2⟩
      · rw [min_eq_right h3, max_eq_left h3]; exact ⟨h12 _ _ _ (h23 _ _ _ h), h3, h1⟩
  · rw [min_eq_right h1, max_eq_left h1]
    rcases le_total a c with h2 | h2
    · rw [min_eq_left h2, min_eq_left (h1.trans h2), max_eq_right h1, max_eq_right h2]
      exact ⟨h12 _ _ _ h, h1, h2⟩
    · rw [min_eq_right h2, max_eq_left h2]
      rcases le_total b c with h3 | h3
      · rw [min_eq_left h3, max_eq_right h3]; exact ⟨h23 _ _ _ (h12 _ _ _ h), h3, h2⟩
      · rw [min_eq_right h3, max_eq_left h3]; exact ⟨h12 _ _ _ (h23 _ _ _ (h12 _ _ _ h)), h3, h1⟩

/-- Distinct corner values which are far enough from equality that nothing is clamped. -/
structure Spec.Clear (ax ay az : ℝ) : Prop where
  generic : Spec.Generic ax ay az
  x : 4 / 10 ^ 9 * norm3 ax ay az (1 / 10 ^ 50) ≤ |ax|
  y : 4 / 10 ^ 9 * norm3 ax ay az (1 / 10 ^ 50) ≤ |ay|
  z : 4 / 10 ^ 9 * norm3 ax ay az (1 / 10 ^ 50) ≤ |az|

/-- What the preparation gives: either the sorted scaled values, or the negated ones in opposite order. -/
theorem tetraPrep_spec {ax ay az : ℝ} (h : Spec.Clear ax ay az) (a0 : ℝ) :
    let N := norm3 ax ay az (1 / 10 ^ 50)
    ∃ x y z : ℝ, x < y ∧ y < z ∧ Spec.Generic x y z ∧
      (∀ k b0, dd k b0 (ax / N) (ay / N) (az / N) = dd k b0 x y z) ∧
      ((0 ≤ y + a0 / N ∧ tetraPrep a0 ax ay az = (false, a0 / N, x, y, z)) ∨
        (y + a0 / N < 0 ∧ tetraPrep a0 ax ay az = (true, -(a0 / N), -z, -y, -x))) := by
  intro N
  have hN : 0 < N := norm3_pos _ _ _ (by positivity)
  have hg : Spec.Generic (ax / N) (ay / N) (az / N) := by
    have e : ∀ {u v : ℝ}, u ≠ v → u / N ≠ v / N := fun h h' => h ((div_left_inj' hN.ne').1 h')
    exact ⟨div_ne_zero h.generic.x hN.ne', div_ne_zero h.generic.y hN.ne', div_ne_zero h.generic.z hN.ne',
      e h.generic.xy, e h.generic.xz, e h.generic.yz⟩
  have hc : ∀ u : ℝ, 4 / 10 ^ 9 * N ≤ |u| → 4 / 10 ^ 9 ≤ |u / N| := by
    intro u hu
    rw [abs_div, abs_of_pos hN, le_div_iff₀ hN]
    exact hu
  obtain ⟨⟨h1, h2, h3, h4, h5⟩, o1, o2⟩ := sort3_spec (ax / N) (ay / N) (az / N)
    (fun x y z => Spec.Generic x y z ∧ (∀ k b0, dd k b0 (ax / N) (ay / N) (az / N) = dd k b0 x y z) ∧
      4 / 10 ^ 9 ≤ |x| ∧ 4 / 10 ^ 9 ≤ |y| ∧ 4 / 10 ^ 9 ≤ |z|)
    (fun x y z ⟨g, d, p, q, r⟩ => ⟨⟨g.y, g.x, g.z, g.xy.symm, g.yz, g.xz⟩, fun k b0 => by rw [d, dd_swap12], q, p, r⟩)
    (fun x y z ⟨g, d, p, q, r⟩ => ⟨⟨g.x, g.z, g.y, g.xz, g.xy, g.yz.symm⟩, fun k b0 => by rw [d, dd_swap23], p, r, q⟩)
    ⟨hg, fun _ _ => rfl, hc _ h.x, hc _ h.y, hc _ h.z⟩
  set s := sort3 (ax / N) (ay / N) (az / N) with hs
  refine ⟨s.1, s.2.1, s.2.2, lt_of_le_of_ne o1 h1.xy, lt_of_le_of_ne o2 h1.yz, h1, h2, ?_⟩
  have nc : ∀ {u c : ℝ}, 4 / 10 ^ 9 ≤ |u| → c ≤ 4 / 10 ^ 9 → ¬ |u| < c := fun h h' => by linarith
  rcases lt_or_ge (s.2.1 + a0 / N) 0 with hd | hd
  · right
    refine ⟨hd, ?_⟩
    rw [tetraPrep]
    rw [← hs, decide_eq_true hd]
    simp only [if_true, abs_neg]
    rw [if_neg (nc h5 le_rfl), if_neg (nc h4 (by norm_num)), if_neg (nc h3 (by norm_num))]
  · left
    refine ⟨hd, ?_⟩
    rw [tetraPrep]
    rw [← hs, decide_eq_false (not_lt.2 hd)]
    simp only [Bool.false_eq_true, if_false]
    rw [if_neg (nc h3 le_rfl), if_neg (nc h4 (by norm_num)), if_neg (nc h5 (by norm_num))]

theorem guardDiff_of_ne {d : ℝ} (h : d ≠ 0) : guardDiff d = d := if_neg h

theorem tetraVolume_eq {ax ay az : ℝ} (h : Spec.Clear ax ay az) (a0 : ℝ) :
    unitTetraCutVolume a0 ax ay az = dd 3 a0 ax ay az / 6 := by
  have hN : 0 < norm3 ax ay az (1 / 10 ^ 50) := norm3_pos _ _ _ (by positivity)
  obtain ⟨x, y, z, hxy, hyz, g, hdd, hprep⟩ := tetraPrep_spec h a0
  set N := norm3 ax ay az (1 / 10 ^ 50)
  rw [← dd3_scale hN, hdd]
  set b := a0 / N with hb
  have hx := g.x
  have hy := g.y
  have hz := g.z
  have d1 : x - y ≠ 0 := sub_ne_zero.2 g.xy
  have d2 : x - z ≠ 0 := sub_ne_zero.2 g.xz
  have d3 : y - z ≠ 0 := sub_ne_zero.2 g.yz
  have d1' : y - x ≠ 0 := sub_ne_zero.2 g.xy.symm
  have d2' : z - x ≠ 0 := sub_ne_zero.2 g.xz.symm
  have d3' : z - y ≠ 0 := sub_ne_zero.2 g.yz.symm
  rcases hprep with ⟨hd, e⟩ | ⟨hd, e⟩
  · rw [unitTetraCutVolume, e]
    simp only [Bool.false_eq_true, if_false]
    rw [guardDiff_of_ne d1', guardDiff_of_ne d2', dd]
    have e0 := pp3_odd b
    have e1 := pp3_odd (b + x)
    rw [pp_of_nonneg (show 0 ≤ b + y by linarith), pp_of_nonneg (show 0 ≤ b + z by linarith)]
    have f0 : max 0 (-b) ^ 3 = pp 3 b - b ^ 3 := by rw [← e0, pp]; rw [pp]; ring
    have f1 : max 0 (-x - b) ^ 3 = pp 3 (b + x) - (b + x) ^ 3 := by
      rw [← e1, show -(b + x) = -x - b by ring, pp]; rw [pp]; ring
    rw [f0, f1]
    generalize pp 3 b = p0
    generalize pp 3 (b + x) = p1
    congr 1
    rw [show y - x = -(x - y) by ring, show z - y = -(y - z) by ring, show z - x = -(x - z) by ring]
    field_simp
    ring
  · rw [unitTetraCutVolume, e]
    simp only [if_true]
    rw [guardDiff_of_ne (show -y - -z ≠ 0 by rw [show -y - -z = z - y by ring]; exact d3'),
      guardDiff_of_ne (show -x - -z ≠ 0 by rw [show -x - -z = z - x by ring]; exact d2'), dd,
      pp_of_nonpos (show b + y ≤ 0 by linarith), pp_of_nonpos (show b + x ≤ 0 by linarith)]
    have f0 : max 0 (- -b) ^ 3 = pp 3 b := by rw [neg_neg]; rfl
    have f1 : max 0 (- -z - -b) ^ 3 = pp 3 (b + z) := by rw [show - -z - -b = b + z by ring]; rfl
    rw [f0, f1]
    generalize pp 3 b = p0
    generalize pp 3 (b + z) = p1
    congr 1
    rw [show -y - -z = z - y by ring, show -x - -z = z - x by ring]
    field_simp
    ring

theorem tetraDvolume_eq {ax ay az : ℝ} (h : Spec.Clear ax ay az) (a0 : ℝ) :
    unitTetraCutDvolume a0 ax ay az = dd 2 a0 ax ay az / 2 := by
  have hN : 0 < norm3 ax ay az (1 / 10 ^ 50) := norm3_pos _ _ _ (by positivity)
  obtain ⟨x, y, z, hxy, hyz, g, hdd, hprep⟩ := tetraPrep_spec h a0
  have key : dd 2 a0 ax ay az = dd 2 (a0 / norm3 ax ay az (1 / 10 ^ 50)) x y z / norm3 ax ay az (1 / 10 ^ 50) := by
    rw [← hdd, dd2_scale hN]; field_simp
  set N := norm3 ax ay az (1 / 10 ^ 50) with hNd
  rw [key]
  set b := a0 / N with hb
  have hx := g.x
  have hy := g.y
  have hz := g.z
  have d1 : x - y ≠ 0 := sub_ne_zero.2 g.xy
  have d2 : x - z ≠ 0 := sub_ne_zero.2 g.xz
  have d3 : y - z ≠ 0 := sub_ne_zero.2 g.yz
  have d1' : y - x ≠ 0 := sub_ne_zero.2 g.xy.symm
  have d2' : z - x ≠ 0 := sub_ne_zero.2 g.xz.symm
  have d3' : z - y ≠ 0 := sub_ne_zero.2 g.yz.symm
  rcases hprep with ⟨hd, e⟩ | ⟨hd, e⟩
  · rw [unitTetraCutDvolume, e, ← hNd]
    simp only
    rw [guardDiff_of_ne d1', guardDiff_of_ne d2', dd]
    have e0 := pp2_even b
    have e1 := pp2_even (b + x)
    rw [pp_of_nonneg (show 0 ≤ b + y by linarith), pp_of_nonneg (show 0 ≤ b + z by linarith)]
    have f0 : max 0 (-b) ^ 2 = b ^ 2 - pp 2 b := by rw [← e0]; simp only [pp]; ring
    have f1 : max 0 (-x - b) ^ 2 = (b + x) ^ 2 - pp 2 (b + x) := by
      rw [← e1, show -(b + x) = -x - b by ring]; simp only [pp]; ring
    rw [f0, f1]
    generalize pp 2 b = p0
    generalize pp 2 (b + x) = p1
    rw [div_right_comm]
    congr 2
    rw [show y - x = -(x - y) by ring, show z - y = -(y - z) by ring, show z - x = -(x - z) by ring]
    field_simp
    ring
  · rw [unitTetraCutDvolume, e, ← hNd]
    simp only
    rw [guardDiff_of_ne (show -y - -z ≠ 0 by rw [show -y - -z = z - y by ring]; exact d3'),
      guardDiff_of_ne (show -x - -z ≠ 0 by rw [show -x - -z = z - x by ring]; exact d2'), dd,
      pp_of_nonpos (show b + y ≤ 0 by linarith), pp_of_nonpos (show b + x ≤ 0 by linarith)]
    have f0 : max 0 (- -b) ^ 2 = pp 2 b := by rw [neg_neg]; rfl
    have f1 : max 0 (- -z - -b) ^ 2 = pp 2 (b + z) := by rw [show - -z - -b = b + z by ring]; rfl
    rw [f0, f1]
    generalize pp 2 b = p0
    generalize pp 2 (b + z) = p1
    rw [div_right_comm]
    congr 2
    rw [show -y - -z = z - y by ring, show -x - -z = z - x by ring]
    field_simp
    ring

/-- C46.  For pairwise distinct corner values (so far apart that nothing is clamped) the result is the volume of the part of
the tetrahedron on which the linear interpolation is positive. -/
theorem C46_tetra_true_volume (a0 ax ay az : ℝ) (h : Spec.Clear ax ay az) :
    unitTetraCutVolume a0 ax ay az = Spec.tetra a0 ax ay az := by
  rw [tetraVolume_eq h, tetra_eq h.generic]

theorem hasDerivAt_dd (ax ay az a0 : ℝ) : HasDerivAt (fun a0 => dd 3 a0 ax ay az) (3 * dd 2 a0 ax ay az) a0 := by
  have h0 := (hasDerivAt_shift 0 a0).div_const (ax * ay * az)
  simp only [add_zero] at h0
  have h1 := (hasDerivAt_shift ax a0).div_const (ax * (ax - ay) * (ax - az))
  have h2 := (hasDerivAt_shift ay a0).div_const (ay * (ay - ax) * (ay - az))
  have h3 := (hasDerivAt_shift az a0).div_const (az * (az - ax) * (az - ay))
  have h := ((h0.neg.add h1).add h2).add h3
  refine h.congr_deriv ?_
  rw [dd]
  ring

/-- C46.  The density of the tetrahedron is the derivative of its volume. -/
theorem C46_tetra_derivative (a0 ax ay az : ℝ) (h : Spec.Clear ax ay az) :
    HasDerivAt (fun a0 => unitTetraCutVolume a0 ax ay az) (unitTetraCutDvolume a0 ax ay az) a0 := by
  have e : (fun a0 => unitTetraCutVolume a0 ax ay az) = fun a0 => dd 3 a0 ax ay az / 6 :=
    funext fun x => tetraVolume_eq h x
  rw [e, tetraDvolume_eq h]
  refine ((hasDerivAt_dd ax ay az a0).div_const 6).congr_deriv ?_
  ring

theorem tetra_nonneg (a0 ax ay az : ℝ) : 0 ≤ Spec.tetra a0 ax ay az := by
  rw [Spec.tetra]
  refine intervalIntegral.integral_nonneg (by norm_num) fun x hx => ?_
  refine intervalIntegral.integral_nonneg (by linarith [hx.2]) fun y hy => ?_
  refine intervalIntegral.integral_nonneg (by linarith [hy.2]) fun z hz => ?_
  split_ifs <;> norm_num

theorem dd_compl {ax ay az : ℝ} (g : Spec.Generic ax ay az) (a0 : ℝ) : dd 3 (-a0) (-ax) (-ay) (-az) = 1 - dd 3 a0 ax ay az := by
  have hx := g.x
  have hy := g.y
  have hz := g.z
  have d1 : ax - ay ≠ 0 := sub_ne_zero.2 g.xy
  have d2 : ax - az ≠ 0 := sub_ne_zero.2 g.xz
  have d3 : ay - az ≠ 0 := sub_ne_zero.2 g.yz
  have e0 := pp3_odd a0
  have e1 := pp3_odd (a0 + ax)
  have e2 := pp3_odd (a0 + ay)
  have e3 := pp3_odd (a0 + az)
  rw [show -(a0 + ax) = -a0 + -ax by ring] at e1
  rw [show -(a0 + ay) = -a0 + -ay by ring] at e2
  rw [show -(a0 + az) = -a0 + -az by ring] at e3
  rw [dd, dd, show pp 3 (-a0) = pp 3 a0 - a0 ^ 3 by linarith, show pp 3 (-a0 + -ax) = pp 3 (a0 + ax) - (a0 + ax) ^ 3 by linarith,
    show pp 3 (-a0 + -ay) = pp 3 (a0 + ay) - (a0 + ay) ^ 3 by linarith,
    show pp 3 (-a0 + -az) = pp 3 (a0 + az) - (a0 + az) ^ 3 by linarith]
  generalize pp 3 a0 = p0
  generalize pp 3 (a0 + ax) = p1
  generalize pp 3 (a0 + ay) = p2
  generalize pp 3 (a0 + az) = p3
  rw [show -ax - -ay = -(ax - ay) by ring, show -ax - -az = -(ax - az) by ring, show -ay - -ax = ax - ay by ring,
    show -ay - -az = -(ay - az) by ring, show -az - -ax = ax - az by ring, show -az - -ay = ay - az by ring,
    show ay - ax = -(ax - ay) by ring, show az - ax = -(ax - az) by ring, show az - ay = -(ay - az) by ring]
  field_simp
  ring

theorem dd_mono {ax ay az : ℝ} (g : Spec.Generic ax ay az) : Monotone fun a0 => dd 3 a0 ax ay az := by
  intro s t hst
  have e : ∀ a0, dd 3 a0 ax ay az = 6 * Spec.tetra a0 ax ay az := fun a0 => by rw [tetra_eq g]; ring
  simp only [e]
  have : Spec.tetra s ax ay az ≤ Spec.tetra t ax ay az := by
    rw [Spec.tetra, Spec.tetra]
    have ey : ∀ a0 x, (∫ y in (0 : ℝ)..(1 - x), ∫ z in (0 : ℝ)..(1 - x - y),
        if 0 < a0 + ax * x + ay * y + az * z then (1 : ℝ) else 0) =
        ((pp 2 ((a0 + ay) + (ax - ay) * x) - pp 2 ((a0 + az) + (ax - az) * x)) / (2 * (ay - az)) -
          (pp 2 ((a0 + ay) + (ax - ay) * x) - pp 2 (a0 + ax * x)) / (2 * ay)) / az := by
      intro a0 x
      simp only [tetra_z g.z]
      exact tetra_y g a0 x
    have cx : ∀ a0, IntervalIntegrable (fun x => ∫ y in (0 : ℝ)..(1 - x), ∫ z in (0 : ℝ)..(1 - x - y),
        if 0 < a0 + ax * x + ay * y + az * z then (1 : ℝ) else 0) volume 0 1 := by
      intro a0
      simp only [ey]
      refine Continuous.intervalIntegrable ?_ _ _
      unfold pp
      fun_prop
    refine intervalIntegral.integral_mono_on (by norm_num) (cx s) (cx t) fun x hx => ?_
    have cy : ∀ a0, IntervalIntegrable (fun y => ∫ z in (0 : ℝ)..(1 - x - y),
        if 0 < a0 + ax * x + ay * y + az * z then (1 : ℝ) else 0) volume 0 (1 - x) := by
      intro a0
      simp only [tetra_z g.z]
      refine Continuous.intervalIntegrable ?_ _ _
      unfold pp
      fun_prop
    refine intervalIntegral.integral_mono_on (by linarith [hx.2]) (cy s) (cy t) fun y hy => ?_
    have cz : ∀ a0, IntervalIntegrable (fun z => if 0 < a0 + ax * x + ay * y + az * z then (1 : ℝ) else 0) volume 0
        (1 - x - y) := by
      intro a0
      exact step_integrable _ _ _ _ g.z
    refine intervalIntegral.integral_mono_on (by linarith [hy.2]) (cz s) (cz t) fun z hz => ?_
    by_cases h1 : 0 < s + ax * x + ay * y + az * z
    · rw [if_pos h1, if_pos (by linarith)]
    · rw [if_neg h1]; split_ifs <;> norm_num
  linarith

/-- C46.  The volume of the tetrahedron never decreases, lies between zero and one sixth (the volume of the whole
tetrahedron), and the parts for a function and its negative add up to the whole. -/
theorem C46_tetra_distribution (ax ay az : ℝ) (h : Spec.Clear ax ay az) :
    (Monotone fun a0 => unitTetraCutVolume a0 ax ay az) ∧
    ∀ a0, 0 ≤ unitTetraCutVolume a0 ax ay az ∧ unitTetraCutVolume a0 ax ay az ≤ 1 / 6 ∧
      unitTetraCutVolume (-a0) (-ax) (-ay) (-az) = 1 / 6 - unitTetraCutVolume a0 ax ay az ∧
      0 ≤ unitTetraCutDvolume a0 ax ay az ∧
      (0 ≤ a0 → 0 ≤ a0 + ax → 0 ≤ a0 + ay → 0 ≤ a0 + az → unitTetraCutVolume a0 ax ay az = 1 / 6) ∧
      (a0 ≤ 0 → a0 + ax ≤ 0 → a0 + ay ≤ 0 → a0 + az ≤ 0 → unitTetraCutVolume a0 ax ay az = 0) := by
  have hm : Monotone fun a0 => unitTetraCutVolume a0 ax ay az := by
    intro s t hst
    simp only [tetraVolume_eq h]
    have := dd_mono h.generic hst
    simp only at this
    linarith
  have hneg : Spec.Clear (-ax) (-ay) (-az) := by
    have g := h.generic
    have en : norm3 (-ax) (-ay) (-az) (1 / 10 ^ 50) = norm3 ax ay az (1 / 10 ^ 50) := by rw [norm3, norm3]; congr 2; ring
    refine ⟨⟨neg_ne_zero.2 g.x, neg_ne_zero.2 g.y, neg_ne_zero.2 g.z, fun e => g.xy (neg_injective e),
      fun e => g.xz (neg_injective e), fun e => g.yz (neg_injective e)⟩, ?_, ?_, ?_⟩ <;> rw [en, abs_neg]
    exacts [h.x, h.y, h.z]
  have hcompl : ∀ a0, unitTetraCutVolume (-a0) (-ax) (-ay) (-az) = 1 / 6 - unitTetraCutVolume a0 ax ay az := by
    intro a0
    rw [tetraVolume_eq hneg, tetraVolume_eq h, dd_compl h.generic]; ring
  have hnn : ∀ a0, 0 ≤ unitTetraCutVolume a0 ax ay az := fun a0 => by
    rw [C46_tetra_true_volume _ _ _ _ h]; exact tetra_nonneg _ _ _ _
  have hzero : ∀ {a0 ax ay az : ℝ}, Spec.Clear ax ay az → a0 ≤ 0 → a0 + ax ≤ 0 → a0 + ay ≤ 0 → a0 + az ≤ 0 →
      unitTetraCutVolume a0 ax ay az = 0 := by
    intro a0 ax ay az h h0 h1 h2 h3
    rw [tetraVolume_eq h, dd, pp_of_nonpos h0, pp_of_nonpos h1, pp_of_nonpos h2, pp_of_nonpos h3]; simp
  refine ⟨hm, fun a0 => ⟨hnn a0, ?_, hcompl a0, ?_, fun h0 h1 h2 h3 => ?_, hzero h⟩⟩
  · have h1 := hcompl a0
    have h2 : 0 ≤ unitTetraCutVolume (-a0) (-ax) (-ay) (-az) := by
      rw [C46_tetra_true_volume _ _ _ _ hneg]; exact tetra_nonneg _ _ _ _
    linarith
  · rw [← (C46_tetra_derivative a0 ax ay az h).deriv]
    exact hm.deriv_nonneg
  · have h4 := hcompl a0
    rw [hzero hneg (by linarith) (by linarith) (by linarith) (by linarith)] at h4
    linarith

theorem hasDerivAt_list_sum {α : Type} (l : List α) (f : α → ℝ → ℝ) (f' : α → ℝ) (x : ℝ)
    (h : ∀ a ∈ l, HasDerivAt (f a) (f' a) x) : HasDerivAt (fun y => (l.map fun a => f a y).sum) (l.map f').sum x := by
  induction l with
  | nil => simpa using hasDerivAt_const x (0 : ℝ)
  | cons a l ih =>
    simp only [List.map_cons, List.sum_cons]
    exact (h a (by simp)).add (ih fun b hb => h b (by simp [hb]))

/-- The six tetrahedra of a cell have corner values which are far enough apart. -/
def Spec.ClearCell (v : Corners) : Prop :=
  ∀ p ∈ ([(1, 3), (3, 2), (2, 6), (6, 4), (4, 5), (5, 1)] : List (Fin 8 × Fin 8)),
    Spec.Clear (-(v 7 - v 0)) (-(v p.1 - v 0)) (-(v p.2 - v 0))

/-- C46.  The six tetrahedra of a cell give a distribution function as well: `TetraSmearing.volume(value)` never
decreases, lies between zero and one, is one or zero if all corner values are below or above the value, and
`dvolume` is its derivative. -/
theorem C46_cell_distribution (v : Corners) (h : Spec.ClearCell v) :
    let V := fun value : ℝ => cubeTetraCutVolume fun c => value - v c
    Monotone V ∧ (∀ value, 0 ≤ V value ∧ V value ≤ 1 ∧
      ((∀ c, v c ≤ value) → V value = 1) ∧ ((∀ c, value ≤ v c) → V value = 0) ∧
      HasDerivAt V (cubeTetraCutDvolume fun c => value - v c) value) := by
  intro V
  have e : ∀ (p : Fin 8 × Fin 8) (value : ℝ), tetraCutVolume (value - v 0) (value - v 7) (value - v p.1) (value - v p.2) =
      unitTetraCutVolume (value - v 0) (-(v 7 - v 0)) (-(v p.1 - v 0)) (-(v p.2 - v 0)) := by
    intro p value
    rw [tetraCutVolume]
    congr 1 <;> ring
  have e' : ∀ (p : Fin 8 × Fin 8) (value : ℝ), tetraCutDvolume (value - v 0) (value - v 7) (value - v p.1) (value - v p.2) =
      unitTetraCutDvolume (value - v 0) (-(v 7 - v 0)) (-(v p.1 - v 0)) (-(v p.2 - v 0)) := by
    intro p value
    rw [tetraCutDvolume]
    congr 1 <;> ring
  have hV : ∀ value, V value = ((([(1, 3), (3, 2), (2, 6), (6, 4), (4, 5), (5, 1)] : List (Fin 8 × Fin 8)).map fun p =>
      unitTetraCutVolume (value - v 0) (-(v 7 - v 0)) (-(v p.1 - v 0)) (-(v p.2 - v 0)))).sum := by
    intro value
    simp only [V, cubeTetraCutVolume, List.map_cons, List.map_nil, List.sum_cons, List.sum_nil, ← e]
    ring
  have hD : ∀ value, cubeTetraCutDvolume (fun c => value - v c) =
      ((([(1, 3), (3, 2), (2, 6), (6, 4), (4, 5), (5, 1)] : List (Fin 8 × Fin 8)).map fun p =>
      unitTetraCutDvolume (value - v 0) (-(v 7 - v 0)) (-(v p.1 - v 0)) (-(v p.2 - v 0)))).sum := by
    intro value
    simp only [cubeTetraCutDvolume, List.map_cons, List.map_nil, List.sum_cons, List.sum_nil, ← e']
    ring
  have F : V = fun value => ((([(1, 3), (3, 2), (2, 6), (6, 4), (4, 5), (5, 1)] : List (Fin 8 × Fin 8)).map fun p =>
      unitTetraCutVolume (value - v 0) (-(v 7 - v 0)) (-(v p.1 - v 0)) (-(v p.2 - v 0)))).sum := funext hV
  have D := fun p hp => C46_tetra_distribution _ _ _ (h p hp)
  simp only [List.mem_cons, List.not_mem_nil, or_false] at D
  have D1 := D (1, 3) (by simp)
  have D2 := D (3, 2) (by simp)
  have D3 := D (2, 6) (by simp)
  have D4 := D (6, 4) (by simp)
  have D5 := D (4, 5) (by simp)
  have D6 := D (5, 1) (by simp)
  refine ⟨?_, fun value => ⟨?_, ?_, fun hv => ?_, fun hv => ?_, ?_⟩⟩
  · intro s t hst
    rw [hV, hV]
    have hst' : s - v 0 ≤ t - v 0 := by linarith
    have := D1.1 hst'
    have := D2.1 hst'
    have := D3.1 hst'
    have := D4.1 hst'
    have := D5.1 hst'
    have := D6.1 hst'
    simp only [List.map_cons, List.map_nil, List.sum_cons, List.sum_nil] at *
    linarith
  · rw [hV]
    have := (D1.2 (value - v 0)).1
    have := (D2.2 (value - v 0)).1
    have := (D3.2 (value - v 0)).1
    have := (D4.2 (value - v 0)).1
    have := (D5.2 (value - v 0)).1
    have := (D6.2 (value - v 0)).1
    simp only [List.map_cons, List.map_nil, List.sum_cons, List.sum_nil] at *
    linarith
  · rw [hV]
    have := (D1.2 (value - v 0)).2.1
    have := (D2.2 (value - v 0)).2.1
    have := (D3.2 (value - v 0)).2.1
    have := (D4.2 (value - v 0)).2.1
    have := (D5.2 (value - v 0)).2.1
    have := (D6.2 (value - v 0)).2.1
    simp only [List.map_cons, List.map_nil, List.sum_cons, List.sum_nil] at *
    linarith
  · rw [hV]
    have hc : ∀ c, 0 ≤ value - v 0 + -(v c - v 0) := fun c => by linarith [hv c]
    have h0 : 0 ≤ value - v 0 := by linarith [hv 0]
    have := (D1.2 (value - v 0)).2.2.2.2.1 h0 (hc _) (hc _) (hc _)
    have := (D2.2 (value - v 0)).2.2.2.2.1 h0 (hc _) (hc _) (hc _)
    have := (D3.2 (value - v 0)).2.2.2.2.1 h0 (hc _) (hc _) (hc _)
    have := (D4.2 (value - v 0)).2.2.2.2.1 h0 (hc _) (hc _) (hc _)
    have := (D5.2 (value - v 0)).2.2.2.2.1 h0 (hc _) (hc _) (hc _)
    have := (D6.2 (value - v 0)).2.2.2.2.1 h0 (hc _) (hc _) (hc _)
    simp only [List.map_cons, List.map_nil, List.sum_cons, List.sum_nil] at *
    linarith
  · rw [hV]
    have hc : ∀ c, value - v 0 + -(v c - v 0) ≤ 0 := fun c => by linarith [hv c]
    have h0 : value - v 0 ≤ 0 := by linarith [hv 0]
    have := (D1.2 (value - v 0)).2.2.2.2.2 h0 (hc _) (hc _) (hc _)
    have := (D2.2 (value - v 0)).2.2.2.2.2 h0 (hc _) (hc _) (hc _)
    have := (D3.2 (value - v 0)).2.2.2.2.2 h0 (hc _) (hc _) (hc _)
    have := (D4.2 (value - v 0)).2.2.2.2.2 h0 (hc _) (hc _) (hc _)
    have := (D5.2 (value - v 0)).2.2.2.2.2 h0 (hc _) (hc _) (hc _)
    have := (D6.2 (value - v 0)).2.2.2.2.2 h0 (hc _) (hc _) (hc _)
    simp only [List.map_cons, List.map_nil, List.sum_cons, List.sum_nil] at *
    linarith
  · rw [hD, F]
    have G : ∀ p ∈ ([(1, 3), (3, 2), (2, 6), (6, 4), (4, 5), (5, 1)] : List (Fin 8 × Fin 8)),
        HasDerivAt (fun value => unitTetraCutVolume (value - v 0) (-(v 7 - v 0)) (-(v p.1 - v 0)) (-(v p.2 - v 0)))
          (unitTetraCutDvolume (value - v 0) (-(v 7 - v 0)) (-(v p.1 - v 0)) (-(v p.2 - v 0))) value := by
      intro p hp
      have := (C46_tetra_derivative (value - v 0) _ _ _ (h p hp)).comp value ((hasDerivAt_id value).sub_const (v 0))
      rw [mul_one] at this
      exact this
    exact hasDerivAt_list_sum _ _ _ value G

/-- Sufficient condition with rational numbers. -/
theorem clear_of {ax ay az : ℝ} (g : Spec.Generic ax ay az) (hx : 1 ≤ |ax|) (hy : 1 ≤ |ay|) (hz : 1 ≤ |az|)
    (hn : ax ^ 2 + ay ^ 2 + az ^ 2 ≤ 10 ^ 8) : Spec.Clear ax ay az := by
  have h : Real.sqrt (ax ^ 2 + ay ^ 2 + az ^ 2) ≤ 10 ^ 4 := by
    rw [Real.sqrt_le_left (by positivity)]
    norm_num at hn ⊢
    exact hn
  have hN : 4 / 10 ^ 9 * norm3 ax ay az (1 / 10 ^ 50) ≤ 1 := by
    rw [norm3]
    have : (1 : ℝ) / 10 ^ 50 ≤ 1 := by norm_num
    nlinarith
  exact ⟨g, hN.trans hx, hN.trans hy, hN.trans hz⟩

/-- A tetrahedron with corner values 0, 1, 2, -3, cut at one half. -/
example : unitTetraCutVolume (1 / 2) 1 2 (-3) = Spec.tetra (1 / 2) 1 2 (-3) := by
  refine C46_tetra_true_volume _ _ _ _ (clear_of ⟨?_, ?_, ?_, ?_, ?_, ?_⟩ ?_ ?_ ?_ ?_) <;> norm_num

/-- A cell with corner values 0, 1, ..., 6 and 10. -/
example : Spec.ClearCell ![0, 1, 2, 3, 4, 5, 6, 10] := by
  intro p hp
  simp only [List.mem_cons, List.not_mem_nil, or_false] at hp
  rcases hp with rfl | rfl | rfl | rfl | rfl | rfl <;>
    refine clear_of ⟨?_, ?_, ?_, ?_, ?_, ?_⟩ ?_ ?_ ?_ ?_ <;> simp <;> norm_num

/-! ## Extrapolation -/

theorem extrapolate_aux (p : ℕ) (hp : 0 < p) (n : ℕ) : ∀ (m : ℕ) (_ : 0 < m) (L : ℝ) (c : ℕ → ℝ),
    extrapolatePoly p m ((List.range (n + 1)).map fun i : ℕ =>
      L + ∑ j ∈ Finset.range n, c j * (1 / (2 ^ p : ℝ) ^ (m + j)) ^ i) = L := by
  induction n with
  | zero => intro m hm L c; simp [extrapolatePoly]
  | succ n ih =>
    intro m hm L c
    have hq : (1 : ℝ) < 2 ^ p := one_lt_pow₀ (by norm_num) hp.ne'
    have hqm : (1 : ℝ) < (2 ^ p : ℝ) ^ m := one_lt_pow₀ hq hm.ne'
    have hlen : ∀ T : List ℝ, 2 ≤ T.length → extrapolatePoly p m T =
        extrapolatePoly p (m + 1) (List.zipWith (fun a b => b + (b - a) / ((2 ^ p : ℝ) ^ m - 1)) T T.tail) := by
      intro T hT
      match T, hT with
      | x :: y :: l, _ => rw [extrapolatePoly]; rfl
    rw [hlen _ (by simp)]
    have e : List.zipWith (fun a b => b + (b - a) / ((2 ^ p : ℝ) ^ m - 1))
        ((List.range (n + 1 + 1)).map fun i : ℕ => L + ∑ j ∈ Finset.range (n + 1), c j * (1 / (2 ^ p : ℝ) ^ (m + j)) ^ i)
        ((List.range (n + 1 + 1)).map fun i : ℕ => L + ∑ j ∈ Finset.range (n + 1), c j * (1 / (2 ^ p : ℝ) ^ (m + j)) ^ i).tail =
        (List.range (n + 1)).map fun i : ℕ => L + ∑ j ∈ Finset.range n,
          (c (j + 1) * ((1 / (2 ^ p : ℝ) ^ (m + (j + 1))) * (2 ^ p : ℝ) ^ m - 1) / ((2 ^ p : ℝ) ^ m - 1)) *
            (1 / (2 ^ p : ℝ) ^ (m + 1 + j)) ^ i := by
      refine List.ext_getElem (by simp) fun i h1 h2 => ?_
      simp only [List.getElem_zipWith, List.getElem_map, List.getElem_range, List.getElem_tail]
      have hd : (2 ^ p : ℝ) ^ m - 1 ≠ 0 := by linarith
      set Q := (2 ^ p : ℝ) ^ m with hQ
      have hQ0 : Q ≠ 0 := by positivity
      have term : ∀ (d r : ℝ), d * r ^ (i + 1) + (d * r ^ (i + 1) - d * r ^ i) / (Q - 1) =
          d * (r * Q - 1) / (Q - 1) * r ^ i := by
        intro d r
        rw [pow_succ]
        field_simp
        ring
      have : L + ∑ j ∈ Finset.range (n + 1), c j * (1 / (2 ^ p : ℝ) ^ (m + j)) ^ (i + 1) +
          (L + ∑ j ∈ Finset.range (n + 1), c j * (1 / (2 ^ p : ℝ) ^ (m + j)) ^ (i + 1) -
            (L + ∑ j ∈ Finset.range (n + 1), c j * (1 / (2 ^ p : ℝ) ^ (m + j)) ^ i)) / (Q - 1) =
          L + ∑ j ∈ Finset.range (n + 1), (c j * (1 / (2 ^ p : ℝ) ^ (m + j)) ^ (i + 1) +
            (c j * (1 / (2 ^ p : ℝ) ^ (m + j)) ^ (i + 1) - c j * (1 / (2 ^ p : ℝ) ^ (m + j)) ^ i) / (Q - 1)) := by
        rw [Finset.sum_add_distrib, ← Finset.sum_div, Finset.sum_sub_distrib]
        ring
      rw [this]
      simp only [term]
      rw [Finset.sum_range_succ', add_zero, ← hQ]
      have z : c 0 * (1 / Q * Q - 1) / (Q - 1) * (1 / Q) ^ i = 0 := by
        rw [one_div, inv_mul_cancel₀ hQ0]; simp
      rw [z, add_zero]
      congr 1
      refine Finset.sum_congr rfl fun j _ => ?_
      rw [show m + 1 + j = m + (j + 1) by ring]
    rw [e]
    exact ih (m + 1) (by omega) L _

/-- C60.  If `n + 1` results for step sizes halved each time are `L` plus `n` error terms with the powers `p, 2p, ..., n p` of
the step size, the extrapolation returns `L`. -/
theorem C60_richardson (p : ℕ) (hp : 0 < p) (n : ℕ) (L h : ℝ) (c : ℕ → ℝ) :
    extrapolatePoly p 1 ((List.range (n + 1)).map fun i : ℕ =>
      L + ∑ j ∈ Finset.range n, c j * (h / 2 ^ i) ^ (p * (j + 1))) = L := by
  have := extrapolate_aux p hp n 1 one_pos L fun j => c j * h ^ (p * (j + 1))
  have e : ∀ i j : ℕ, c j * h ^ (p * (j + 1)) * (1 / (2 ^ p : ℝ) ^ (1 + j)) ^ i = c j * (h / 2 ^ i) ^ (p * (j + 1)) := by
    intro i j
    rw [mul_assoc, div_pow, div_pow, one_pow, ← pow_mul, ← pow_mul, ← pow_mul, mul_one_div,
      show p * ((1 + j) * i) = i * (p * (j + 1)) by ring]
  simp only [e] at this
  exact this

/-- C60.  The extrapolated cell volume of `ExtraCubesSmearing` is not a distribution function: it is only known to lie between
`-1/3` and `4/3`, and both ends occur for coarse and fine volumes between zero and one. -/
theorem C60_extrapolated_range (coarse fine : ℝ) (h1 : 0 ≤ coarse) (h2 : coarse ≤ 1) (h3 : 0 ≤ fine) (h4 : fine ≤ 1) :
    -1 / 3 ≤ extrapolatePoly 2 1 [coarse, fine] ∧ extrapolatePoly 2 1 [coarse, fine] ≤ 4 / 3 ∧
    extrapolatePoly 2 1 [0, 1] = 4 / 3 ∧ extrapolatePoly 2 1 [1, 0] = -1 / 3 := by
  have e : ∀ a b : ℝ, extrapolatePoly 2 1 [a, b] = b + (b - a) / 3 := by
    intro a b
    rw [extrapolatePoly, show List.zipWith (fun a b => b + (b - a) / ((2 ^ 2 : ℝ) ^ 1 - 1)) [a, b] [b] =
      [b + (b - a) / ((2 ^ 2 : ℝ) ^ 1 - 1)] from rfl, extrapolatePoly]
    norm_num
  rw [e, e, e]
  refine ⟨?_, ?_, ?_, ?_⟩ <;> linarith

example : extrapolatePoly 2 1 [5 + 3 * 4, 5 + 3 * 1] = 5 := by
  have := C60_richardson 2 (by norm_num) 1 5 2 fun _ => 3
  norm_num [List.range_succ] at this ⊢
  exact this

end TB.Smear

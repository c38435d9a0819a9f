import Mathlib.Tactic.Linarith
import Mathlib.Tactic.FieldSimp
import Mathlib.Tactic.Ring
import Mathlib.Tactic.LinearCombination
import Mathlib.Tactic.NormNum
import Mathlib.Tactic.Positivity
import Mathlib.Analysis.Calculus.Deriv.Abs
import Verif.Lemmas.PosPart
import Verif.Model.Smearing

/-!
# C44, C45: cutting a cube with a plane
-/

namespace TB.Smear

open MeasureTheory

/-- Volume of the part of the unit cube `[-1/2, 1/2]³` on which `a x + b y + c z < t`, as an iterated integral. -/
noncomputable def Spec.below (a b c t : ℝ) : ℝ :=
  ∫ x in (-1 / 2 : ℝ)..(1 / 2), ∫ y in (-1 / 2 : ℝ)..(1 / 2), ∫ z in (-1 / 2 : ℝ)..(1 / 2),
    if a * x + b * y + c * z < t then (1 : ℝ) else 0

/-- One dimensional distribution function. -/
noncomputable def g1 (c t : ℝ) : ℝ := (pp 1 (t + c / 2) - pp 1 (t - c / 2)) / c

/-- Two dimensional distribution function. -/
noncomputable def g2 (b c t : ℝ) : ℝ :=
  (pp 2 (t + (b + c) / 2) - pp 2 (t + (-b + c) / 2) - pp 2 (t + (b - c) / 2) + pp 2 (t + (-b - c) / 2)) / (2 * b * c)

/-- Three dimensional distribution function. -/
noncomputable def g3 (a b c t : ℝ) : ℝ :=
  (pp 3 (t + (a + b + c) / 2) - pp 3 (t + (-a + b + c) / 2) - pp 3 (t + (a - b + c) / 2) - pp 3 (t + (a + b - c) / 2) +
    pp 3 (t + (a - b - c) / 2) + pp 3 (t + (-a + b - c) / 2) + pp 3 (t + (-a - b + c) / 2) -
    pp 3 (t + (-a - b - c) / 2)) / (6 * a * b * c)

theorem int_g1 {c : ℝ} (hc : c ≠ 0) (s t : ℝ) :
    ∫ z in (-1 / 2 : ℝ)..(1 / 2), (if s + c * z < t then (1 : ℝ) else 0) = g1 c (t - s) := by
  have h := integral_step (t - s) (-c) (-1 / 2) (1 / 2) (neg_ne_zero.2 hc)
  have he : ∀ z, (if 0 < t - s + -c * z then (1 : ℝ) else 0) = if s + c * z < t then (1 : ℝ) else 0 := by
    intro z
    by_cases h1 : s + c * z < t
    · rw [if_pos h1, if_pos (by linarith)]
    · rw [if_neg h1, if_neg (by linarith)]
  simp only [he] at h
  rw [h, g1, show t - s + -c * (1 / 2) = t - s - c / 2 by ring, show t - s + -c * (-1 / 2) = t - s + c / 2 by ring]
  field_simp
  ring

theorem continuous_g1 (c : ℝ) : Continuous (g1 c) := by
  unfold g1
  exact ((continuous_pp 1).comp (by fun_prop) |>.sub ((continuous_pp 1).comp (by fun_prop))).div_const _

theorem continuous_g2 (b c : ℝ) : Continuous (g2 b c) := by
  have h := continuous_pp 2
  unfold g2
  exact ((((h.comp (by fun_prop : Continuous fun t : ℝ => t + (b + c) / 2)).sub
    (h.comp (by fun_prop : Continuous fun t : ℝ => t + (-b + c) / 2))).sub
    (h.comp (by fun_prop : Continuous fun t : ℝ => t + (b - c) / 2))).add
    (h.comp (by fun_prop : Continuous fun t : ℝ => t + (-b - c) / 2))).div_const _

theorem ii_pp (n : ℕ) (α β l r : ℝ) : IntervalIntegrable (fun y => pp n (α + β * y)) volume l r :=
  Continuous.intervalIntegrable ((continuous_pp n).comp (by fun_prop)) _ _

theorem int_g2 {b c : ℝ} (hb : b ≠ 0) (hc : c ≠ 0) (t : ℝ) :
    ∫ y in (-1 / 2 : ℝ)..(1 / 2), g1 c (t - b * y) = g2 b c t := by
  have e : ∀ y, g1 c (t - b * y) = (pp 1 ((t + c / 2) + (-b) * y) - pp 1 ((t - c / 2) + (-b) * y)) / c := by
    intro y
    rw [g1]
    congr 3 <;> ring
  simp only [e]
  rw [intervalIntegral.integral_div, intervalIntegral.integral_sub (ii_pp _ _ _ _ _) (ii_pp _ _ _ _ _),
    integral_pp 0 _ _ _ _ (neg_ne_zero.2 hb), integral_pp 0 _ _ _ _ (neg_ne_zero.2 hb), g2,
    show t + c / 2 + -b * (1 / 2) = t + (-b + c) / 2 by ring, show t + c / 2 + -b * (-1 / 2) = t + (b + c) / 2 by ring,
    show t - c / 2 + -b * (1 / 2) = t + (-b - c) / 2 by ring, show t - c / 2 + -b * (-1 / 2) = t + (b - c) / 2 by ring]
  field_simp
  push_cast
  ring

theorem int_g3 {a b c : ℝ} (ha : a ≠ 0) (hb : b ≠ 0) (hc : c ≠ 0) (t : ℝ) :
    ∫ x in (-1 / 2 : ℝ)..(1 / 2), g2 b c (t - a * x) = g3 a b c t := by
  have e : ∀ x, g2 b c (t - a * x) = (pp 2 ((t + (b + c) / 2) + (-a) * x) - pp 2 ((t + (-b + c) / 2) + (-a) * x) -
      pp 2 ((t + (b - c) / 2) + (-a) * x) + pp 2 ((t + (-b - c) / 2) + (-a) * x)) / (2 * b * c) := by
    intro x
    rw [g2, show t - a * x + (b + c) / 2 = (t + (b + c) / 2) + (-a) * x by ring,
      show t - a * x + (-b + c) / 2 = (t + (-b + c) / 2) + (-a) * x by ring,
      show t - a * x + (b - c) / 2 = (t + (b - c) / 2) + (-a) * x by ring,
      show t - a * x + (-b - c) / 2 = (t + (-b - c) / 2) + (-a) * x by ring]
  simp only [e]
  rw [intervalIntegral.integral_div, intervalIntegral.integral_add
      (((ii_pp _ _ _ _ _).sub (ii_pp _ _ _ _ _)).sub (ii_pp _ _ _ _ _)) (ii_pp _ _ _ _ _),
    intervalIntegral.integral_sub ((ii_pp _ _ _ _ _).sub (ii_pp _ _ _ _ _)) (ii_pp _ _ _ _ _),
    intervalIntegral.integral_sub (ii_pp _ _ _ _ _) (ii_pp _ _ _ _ _),
    integral_pp 1 _ _ _ _ (neg_ne_zero.2 ha), integral_pp 1 _ _ _ _ (neg_ne_zero.2 ha),
    integral_pp 1 _ _ _ _ (neg_ne_zero.2 ha), integral_pp 1 _ _ _ _ (neg_ne_zero.2 ha), g3]
  rw [show t + (b + c) / 2 + -a * (1 / 2) = t + (-a + b + c) / 2 by ring,
    show t + (b + c) / 2 + -a * (-1 / 2) = t + (a + b + c) / 2 by ring,
    show t + (-b + c) / 2 + -a * (1 / 2) = t + (-a - b + c) / 2 by ring,
    show t + (-b + c) / 2 + -a * (-1 / 2) = t + (a - b + c) / 2 by ring,
    show t + (b - c) / 2 + -a * (1 / 2) = t + (-a + b - c) / 2 by ring,
    show t + (b - c) / 2 + -a * (-1 / 2) = t + (a + b - c) / 2 by ring,
    show t + (-b - c) / 2 + -a * (1 / 2) = t + (-a - b - c) / 2 by ring,
    show t + (-b - c) / 2 + -a * (-1 / 2) = t + (a - b - c) / 2 by ring]
  field_simp
  push_cast
  ring

theorem below_eq {a b c : ℝ} (ha : a ≠ 0) (hb : b ≠ 0) (hc : c ≠ 0) (t : ℝ) : Spec.below a b c t = g3 a b c t := by
  rw [Spec.below, ← int_g3 ha hb hc]
  congr 1
  funext x
  rw [← int_g2 hb hc]
  congr 1
  funext y
  rw [int_g1 hc]
  congr 1
  ring

theorem pp3_odd (u : ℝ) : pp 3 u - pp 3 (-u) = u ^ 3 := by
  rcases le_total 0 u with h | h
  · rw [pp_of_nonneg h, pp_of_nonpos (by linarith)]; ring
  · rw [pp_of_nonpos h, pp_of_nonneg (by linarith)]; ring

theorem pp2_even (u : ℝ) : pp 2 u + pp 2 (-u) = u ^ 2 := by
  rcases le_total 0 u with h | h
  · rw [pp_of_nonneg h, pp_of_nonpos (by linarith)]; ring
  · rw [pp_of_nonpos h, pp_of_nonneg (by linarith)]; ring

theorem g3_symm {a b c : ℝ} (ha : a ≠ 0) (hb : b ≠ 0) (hc : c ≠ 0) (t : ℝ) : g3 a b c (-t) = 1 - g3 a b c t := by
  have h1 := pp3_odd (t + (a + b + c) / 2)
  have h2 := pp3_odd (t + (-a + b + c) / 2)
  have h3 := pp3_odd (t + (a - b + c) / 2)
  have h4 := pp3_odd (t + (a + b - c) / 2)
  have h5 := pp3_odd (t + (a - b - c) / 2)
  have h6 := pp3_odd (t + (-a + b - c) / 2)
  have h7 := pp3_odd (t + (-a - b + c) / 2)
  have h8 := pp3_odd (t + (-a - b - c) / 2)
  rw [show -(t + (a + b + c) / 2) = -t + (-a - b - c) / 2 by ring] at h1
  rw [show -(t + (-a + b + c) / 2) = -t + (a - b - c) / 2 by ring] at h2
  rw [show -(t + (a - b + c) / 2) = -t + (-a + b - c) / 2 by ring] at h3
  rw [show -(t + (a + b - c) / 2) = -t + (-a - b + c) / 2 by ring] at h4
  rw [show -(t + (a - b - c) / 2) = -t + (-a + b + c) / 2 by ring] at h5
  rw [show -(t + (-a + b - c) / 2) = -t + (a - b + c) / 2 by ring] at h6
  rw [show -(t + (-a - b + c) / 2) = -t + (a + b - c) / 2 by ring] at h7
  rw [show -(t + (-a - b - c) / 2) = -t + (a + b + c) / 2 by ring] at h8
  rw [eq_sub_iff_add_eq, g3, g3, ← add_div, div_eq_one_iff_eq (by positivity)]
  linear_combination h1 - h2 - h3 - h4 + h5 + h6 + h7 - h8

/-- Positive components with a sum that the cut-off `3**.5/2` does not reach. -/
structure Normal.Ok (n : Normal) : Prop where
  ax : 0 < n.ax
  ay : 0 < n.ay
  az : 0 < n.az
  norm : 0 < n.norm
  sum : n.ax + n.ay + n.az ≤ Real.sqrt 3

theorem norm3_pos (a b c : ℝ) {t : ℝ} (ht : 0 < t) : 0 < norm3 a b c t := by
  rw [norm3]; have := Real.sqrt_nonneg (a ^ 2 + b ^ 2 + c ^ 2); linarith

theorem cubePrecomp_ok (ax ay az : ℝ) : (cubePrecomp ax ay az).Ok := by
  set N := norm3 |ax| |ay| |az| (1 / 10 ^ 40) with hN
  have hNpos : 0 < N := norm3_pos _ _ _ (by positivity)
  have he : 0 < EPSILON := by rw [EPSILON]; positivity
  have hcp : cubePrecomp ax ay az = ⟨max (|ax| / N) EPSILON, max (|ay| / N) EPSILON, max (|az| / N) EPSILON, N⟩ := rfl
  rw [hcp]
  refine ⟨lt_max_of_lt_right he, lt_max_of_lt_right he, lt_max_of_lt_right he, hNpos, ?_⟩
  simp only
  set u := |ax| / N with hu
  set v := |ay| / N with hv
  set w := |az| / N with hw
  have hu0 : 0 ≤ u := by positivity
  have hv0 : 0 ≤ v := by positivity
  have hw0 : 0 ≤ w := by positivity
  have hsq : u ^ 2 + v ^ 2 + w ^ 2 ≤ 1 := by
    rw [hu, hv, hw, div_pow, div_pow, div_pow, ← add_div, ← add_div, div_le_one (by positivity)]
    have h1 : |ax| ^ 2 + |ay| ^ 2 + |az| ^ 2 = Real.sqrt (|ax| ^ 2 + |ay| ^ 2 + |az| ^ 2) ^ 2 :=
      (Real.sq_sqrt (by positivity)).symm
    rw [h1]
    refine pow_le_pow_left₀ (Real.sqrt_nonneg _) ?_ 2
    rw [hN, norm3]
    have : (0 : ℝ) < 1 / 10 ^ 40 := by positivity
    linarith
  have h3 : (17 / 10 : ℝ) < Real.sqrt 3 := by
    rw [Real.lt_sqrt (by norm_num)]; norm_num
  have hE : EPSILON = 1 / 10 ^ 4 := rfl
  have two : ∀ x y : ℝ, x ^ 2 + y ^ 2 ≤ 1 → x + y ≤ 15 / 10 := fun x y h => by
    nlinarith [sq_nonneg (x - y), sq_nonneg (x + y - 1)]
  have one : ∀ x : ℝ, x ^ 2 ≤ 1 → x ≤ 1 := fun x h => by nlinarith
  rcases max_cases u EPSILON with ⟨e1, -⟩ | ⟨e1, -⟩ <;> rcases max_cases v EPSILON with ⟨e2, -⟩ | ⟨e2, -⟩ <;>
    rcases max_cases w EPSILON with ⟨e3, -⟩ | ⟨e3, -⟩ <;> rw [e1, e2, e3]
  · refine Real.le_sqrt_of_sq_le ?_
    nlinarith [sq_nonneg (u - v), sq_nonneg (v - w), sq_nonneg (u - w)]
  · have := two u v (by nlinarith); rw [hE]; linarith
  · have := two u w (by nlinarith); rw [hE]; linarith
  · have := one u (by nlinarith); rw [hE]; linarith
  · have := two v w (by nlinarith); rw [hE]; linarith
  · have := one v (by nlinarith); rw [hE]; linarith
  · have := one w (by nlinarith); rw [hE]; linarith
  · rw [hE]; linarith

/-- The sum of the three terms for pairs of components is the one with the smallest difference. -/
theorem pp_pairs (k : ℕ) {a b c t : ℝ} (ha : 0 < a) (hb : 0 < b) (hc : 0 < c) (ht : 0 ≤ t) :
    pp (k + 1) (-(min (min ((-a + b + c) / 2) ((a - b + c) / 2)) ((a + b - c) / 2)) - t) =
      pp (k + 1) (-t + (a - b - c) / 2) + pp (k + 1) (-t + (-a + b - c) / 2) + pp (k + 1) (-t + (-a - b + c) / 2) := by
  have z : ∀ {u : ℝ}, u ≤ 0 → pp (k + 1) u = 0 := fun h => pp_of_nonpos h
  rcases le_total ((-a + b + c) / 2) ((a - b + c) / 2) with h1 | h1
  · rw [min_eq_left h1]
    rcases le_total ((-a + b + c) / 2) ((a + b - c) / 2) with h2 | h2
    · rw [min_eq_left h2, z (show -t + (-a + b - c) / 2 ≤ 0 by linarith), z (show -t + (-a - b + c) / 2 ≤ 0 by linarith),
        add_zero, add_zero]
      congr 1; ring
    · rw [min_eq_right h2, z (show -t + (a - b - c) / 2 ≤ 0 by linarith), z (show -t + (-a + b - c) / 2 ≤ 0 by linarith),
        zero_add, zero_add]
      congr 1; ring
  · rw [min_eq_right h1]
    rcases le_total ((a - b + c) / 2) ((a + b - c) / 2) with h2 | h2
    · rw [min_eq_left h2, z (show -t + (a - b - c) / 2 ≤ 0 by linarith), z (show -t + (-a - b + c) / 2 ≤ 0 by linarith),
        zero_add, add_zero]
      congr 1; ring
    · rw [min_eq_right h2, z (show -t + (a - b - c) / 2 ≤ 0 by linarith), z (show -t + (-a + b - c) / 2 ≤ 0 by linarith),
        zero_add, zero_add]
      congr 1; ring

theorem g1_mono {c : ℝ} (hc : 0 < c) : Monotone (g1 c) := by
  intro s t hst
  rw [g1, g1, div_le_div_iff_of_pos_right hc, pp, pp, pp, pp, pow_one, pow_one, pow_one, pow_one]
  rcases max_cases 0 (s + c / 2) with h1 | h1 <;> rcases max_cases 0 (s - c / 2) with h2 | h2 <;>
    rcases max_cases 0 (t + c / 2) with h3 | h3 <;> rcases max_cases 0 (t - c / 2) with h4 | h4 <;> linarith

theorem g2_mono {b c : ℝ} (hb : 0 < b) (hc : 0 < c) : Monotone (g2 b c) := by
  intro s t hst
  rw [← int_g2 hb.ne' hc.ne', ← int_g2 hb.ne' hc.ne']
  refine intervalIntegral.integral_mono_on (by norm_num)
    (Continuous.intervalIntegrable ((continuous_g1 c).comp (by fun_prop)) _ _)
    (Continuous.intervalIntegrable ((continuous_g1 c).comp (by fun_prop)) _ _) fun y _ => ?_
  exact g1_mono hc (by linarith)

theorem g3_mono {a b c : ℝ} (ha : 0 < a) (hb : 0 < b) (hc : 0 < c) : Monotone (g3 a b c) := by
  intro s t hst
  rw [← int_g3 ha.ne' hb.ne' hc.ne', ← int_g3 ha.ne' hb.ne' hc.ne']
  refine intervalIntegral.integral_mono_on (by norm_num)
    (Continuous.intervalIntegrable ((continuous_g2 b c).comp (by fun_prop)) _ _)
    (Continuous.intervalIntegrable ((continuous_g2 b c).comp (by fun_prop)) _ _) fun y _ => ?_
  exact g2_mono hb hc (by linarith)

theorem g3_zero {a b c t : ℝ} (ha : 0 < a) (hb : 0 < b) (hc : 0 < c) (ht : t ≤ -(a + b + c) / 2) : g3 a b c t = 0 := by
  rw [g3, pp_of_nonpos (by linarith), pp_of_nonpos (by linarith), pp_of_nonpos (by linarith), pp_of_nonpos (by linarith),
    pp_of_nonpos (by linarith), pp_of_nonpos (by linarith), pp_of_nonpos (by linarith), pp_of_nonpos (by linarith)]
  simp

theorem g3_one {a b c t : ℝ} (ha : 0 < a) (hb : 0 < b) (hc : 0 < c) (ht : (a + b + c) / 2 ≤ t) : g3 a b c t = 1 := by
  have := g3_symm ha.ne' hb.ne' hc.ne' t
  rw [g3_zero ha hb hc (by linarith)] at this
  linarith

theorem g3_bounds {a b c : ℝ} (ha : 0 < a) (hb : 0 < b) (hc : 0 < c) (t : ℝ) : 0 ≤ g3 a b c t ∧ g3 a b c t ≤ 1 := by
  constructor
  · rw [← g3_zero ha hb hc (t := min t (-(a + b + c) / 2)) (min_le_right _ _)]
    exact g3_mono ha hb hc (min_le_left _ _)
  · rw [← g3_one ha hb hc (t := max t ((a + b + c) / 2)) (le_max_right _ _)]
    exact g3_mono ha hb hc (le_max_left _ _)

/-- The bracket of `cube_cut_volume` for a non-negative offset. -/
theorem bracket_eq {a b c t : ℝ} (ha : 0 < a) (hb : 0 < b) (hc : 0 < c) (ht : 0 ≤ t) :
    ((max 0 ((a + b + c) / 2 - t)) ^ 3 - (max 0 ((-a + b + c) / 2 - t)) ^ 3 - (max 0 ((a - b + c) / 2 - t)) ^ 3 +
      (max 0 (-(min (min ((-a + b + c) / 2) ((a - b + c) / 2)) ((a + b - c) / 2)) - t)) ^ 3 -
      (max 0 ((a + b - c) / 2 - t)) ^ 3) / (6 * a * b * c) = g3 a b c (-t) := by
  have h := pp_pairs 2 ha hb hc ht
  rw [pp] at h
  rw [h, g3, pp_of_nonpos (show -t + (-a - b - c) / 2 ≤ 0 by linarith)]
  simp only [pp]
  rw [show (a + b + c) / 2 - t = -t + (a + b + c) / 2 by ring, show (-a + b + c) / 2 - t = -t + (-a + b + c) / 2 by ring,
    show (a - b + c) / 2 - t = -t + (a - b + c) / 2 by ring, show (a + b - c) / 2 - t = -t + (a + b - c) / 2 by ring]
  congr 1
  ring

theorem cubeCutVolume_eq (a0 : ℝ) {n : Normal} (h : n.Ok) : cubeCutVolume a0 n = g3 n.ax n.ay n.az (a0 / n.norm) := by
  have ht : 0 ≤ |a0| / n.norm := div_nonneg (abs_nonneg _) h.norm.le
  have key : (if |a0| / n.norm < Real.sqrt 3 / 2 then min 1 (g3 n.ax n.ay n.az (-(|a0| / n.norm))) else 0) =
      g3 n.ax n.ay n.az (-(|a0| / n.norm)) := by
    by_cases hc : |a0| / n.norm < Real.sqrt 3 / 2
    · rw [if_pos hc, min_eq_right (g3_bounds h.ax h.ay h.az _).2]
    · rw [if_neg hc, g3_zero h.ax h.ay h.az]
      have := h.sum
      linarith
  rw [cubeCutVolume]
  rw [bracket_eq h.ax h.ay h.az ht, key]
  by_cases h0 : a0 < 0
  · rw [if_pos h0, abs_of_neg h0]; congr 1; ring
  · rw [if_neg h0, g3_symm h.ax.ne' h.ay.ne' h.az.ne', abs_of_nonneg (by linarith)]; ring

/-- C44.  For every cell value and every gradient, the returned volume is the volume of the part of the unit cube on which
the clamped normal, applied to the position, is below the scaled offset. -/
theorem C44_true_volume (a0 ax ay az : ℝ) :
    cubeCutVolume a0 (cubePrecomp ax ay az) =
      Spec.below (max (|ax| / (cubePrecomp ax ay az).norm) (1 / 10 ^ 4)) (max (|ay| / (cubePrecomp ax ay az).norm) (1 / 10 ^ 4))
        (max (|az| / (cubePrecomp ax ay az).norm) (1 / 10 ^ 4)) (a0 / (cubePrecomp ax ay az).norm) := by
  have h := cubePrecomp_ok ax ay az
  rw [cubeCutVolume_eq a0 h]
  exact (below_eq h.ax.ne' h.ay.ne' h.az.ne' _).symm

theorem below_neg_x (a b c t : ℝ) : Spec.below (-a) b c t = Spec.below a b c t := by
  rw [Spec.below, Spec.below]
  have h := intervalIntegral.integral_comp_neg (a := (-1 / 2 : ℝ)) (b := 1 / 2) (fun x =>
    ∫ y in (-1 / 2 : ℝ)..(1 / 2), ∫ z in (-1 / 2 : ℝ)..(1 / 2), if a * x + b * y + c * z < t then (1 : ℝ) else 0)
  rw [show -(1 / 2 : ℝ) = -1 / 2 by norm_num, show -(-1 / 2 : ℝ) = 1 / 2 by norm_num] at h
  rw [← h]
  simp only [mul_neg, neg_mul]

theorem below_neg_y (a b c t : ℝ) : Spec.below a (-b) c t = Spec.below a b c t := by
  rw [Spec.below, Spec.below]
  congr 1
  funext x
  have h := intervalIntegral.integral_comp_neg (a := (-1 / 2 : ℝ)) (b := 1 / 2) (fun y =>
    ∫ z in (-1 / 2 : ℝ)..(1 / 2), if a * x + b * y + c * z < t then (1 : ℝ) else 0)
  rw [show -(1 / 2 : ℝ) = -1 / 2 by norm_num, show -(-1 / 2 : ℝ) = 1 / 2 by norm_num] at h
  rw [← h]
  simp only [mul_neg, neg_mul]

theorem below_neg_z (a b c t : ℝ) : Spec.below a b (-c) t = Spec.below a b c t := by
  rw [Spec.below, Spec.below]
  congr 1
  funext x
  congr 1
  funext y
  have h := intervalIntegral.integral_comp_neg (a := (-1 / 2 : ℝ)) (b := 1 / 2) (fun z =>
    if a * x + b * y + c * z < t then (1 : ℝ) else 0)
  rw [show -(1 / 2 : ℝ) = -1 / 2 by norm_num, show -(-1 / 2 : ℝ) = 1 / 2 by norm_num] at h
  rw [← h]
  simp only [mul_neg, neg_mul]

theorem below_abs (a b c t : ℝ) : Spec.below |a| |b| |c| t = Spec.below a b c t := by
  rcases abs_choice a with h1 | h1 <;> rcases abs_choice b with h2 | h2 <;> rcases abs_choice c with h3 | h3 <;>
    rw [h1, h2, h3] <;> simp only [below_neg_x, below_neg_y, below_neg_z]

theorem below_scale (a b c t : ℝ) {N : ℝ} (hN : 0 < N) : Spec.below (a / N) (b / N) (c / N) (t / N) = Spec.below a b c t := by
  rw [Spec.below, Spec.below]
  have : ∀ x y z : ℝ, (a / N * x + b / N * y + c / N * z < t / N) = (a * x + b * y + c * z < t) := by
    intro x y z
    rw [show a / N * x + b / N * y + c / N * z = (a * x + b * y + c * z) / N by ring, div_lt_div_iff_of_pos_right hN]
  simp only [this]

/-- C44.  If no component of the gradient is smaller than the `1e-4`-th part of its norm, nothing is clamped, and
`CubesSmearing.volume(value)` of a cell with centre value `a0` and gradient `(ax, ay, az)` (any signs) is the volume of
the part of the cell on which the linear interpolation is below `value`. -/
theorem C44_unclamped_volume (value a0 ax ay az : ℝ)
    (hx : (cubePrecomp ax ay az).norm / 10 ^ 4 ≤ |ax|) (hy : (cubePrecomp ax ay az).norm / 10 ^ 4 ≤ |ay|)
    (hz : (cubePrecomp ax ay az).norm / 10 ^ 4 ≤ |az|) :
    cubeCutVolume (value - a0) (cubePrecomp ax ay az) =
      ∫ x in (-1 / 2 : ℝ)..(1 / 2), ∫ y in (-1 / 2 : ℝ)..(1 / 2), ∫ z in (-1 / 2 : ℝ)..(1 / 2),
        if a0 + (ax * x + ay * y + az * z) < value then (1 : ℝ) else 0 := by
  have h := cubePrecomp_ok ax ay az
  have hN := h.norm
  have e : ∀ u : ℝ, (cubePrecomp ax ay az).norm / 10 ^ 4 ≤ |u| →
      max (|u| / (cubePrecomp ax ay az).norm) (1 / 10 ^ 4) = |u| / (cubePrecomp ax ay az).norm := by
    intro u hu
    refine max_eq_left ?_
    rw [le_div_iff₀ hN]
    linarith
  rw [C44_true_volume, e _ hx, e _ hy, e _ hz, below_scale _ _ _ _ hN, below_abs, Spec.below]
  have : ∀ x y z : ℝ, (ax * x + ay * y + az * z < value - a0) = (a0 + (ax * x + ay * y + az * z) < value) := by
    intro x y z
    rw [lt_sub_iff_add_lt']
  simp only [this]

/-- C44.  Between zero and one; zero or one if the plane does not meet the cube; one half for offset zero; complementary
for opposite offsets. -/
theorem C44_range (a0 ax ay az : ℝ) :
    let n := cubePrecomp ax ay az
    0 ≤ cubeCutVolume a0 n ∧ cubeCutVolume a0 n ≤ 1 ∧
    (a0 ≤ -(n.norm * (n.ax + n.ay + n.az) / 2) → cubeCutVolume a0 n = 0) ∧
    (n.norm * (n.ax + n.ay + n.az) / 2 ≤ a0 → cubeCutVolume a0 n = 1) ∧
    cubeCutVolume 0 n = 1 / 2 ∧ cubeCutVolume (-a0) n = 1 - cubeCutVolume a0 n := by
  intro n
  have h : n.Ok := cubePrecomp_ok ax ay az
  rw [cubeCutVolume_eq _ h, cubeCutVolume_eq _ h, cubeCutVolume_eq _ h]
  have hb := g3_bounds h.ax h.ay h.az (a0 / n.norm)
  refine ⟨hb.1, hb.2, fun h1 => g3_zero h.ax h.ay h.az ?_, fun h1 => g3_one h.ax h.ay h.az ?_, ?_, ?_⟩
  · rw [div_le_iff₀ h.norm]; linarith
  · rw [le_div_iff₀ h.norm]; linarith
  · have := g3_symm h.ax.ne' h.ay.ne' h.az.ne' (0 / n.norm)
    rw [show -(0 / n.norm) = 0 / n.norm by simp] at this
    linarith
  · rw [neg_div, g3_symm h.ax.ne' h.ay.ne' h.az.ne']

/-- C44.  The volume never decreases with the offset. -/
theorem C44_monotone (ax ay az : ℝ) : Monotone fun a0 => cubeCutVolume a0 (cubePrecomp ax ay az) := by
  intro s t hst
  have h := cubePrecomp_ok ax ay az
  simp only [cubeCutVolume_eq _ h]
  exact g3_mono h.ax h.ay h.az (div_le_div_of_nonneg_right hst h.norm.le)

/-- C44.  Both functions of the source give the same volume. -/
theorem C44_both (a0 ax ay az : ℝ) :
    cubeCutBoth a0 (cubePrecomp ax ay az) =
      (cubeCutVolume a0 (cubePrecomp ax ay az), cubeCutDvolume a0 (cubePrecomp ax ay az)) := by
  set n := cubePrecomp ax ay az
  have h : n.Ok := cubePrecomp_ok ax ay az
  have ht : 0 ≤ |a0| / n.norm := div_nonneg (abs_nonneg _) h.norm.le
  rw [cubeCutVolume_eq _ h, cubeCutBoth, cubeCutDvolume]
  rw [show 6 * (n.ax * n.ay * n.az) = 6 * n.ax * n.ay * n.az by ring, bracket_eq h.ax h.ay h.az ht,
    show 2 * (n.ax * n.ay * n.az * n.norm) = 2 * (n.ax * n.ay * n.az) * n.norm by ring]
  have key : (if |a0| / n.norm < Real.sqrt 3 / 2 then g3 n.ax n.ay n.az (-(|a0| / n.norm)) else 0) =
      g3 n.ax n.ay n.az (-(|a0| / n.norm)) := by
    by_cases hc : |a0| / n.norm < Real.sqrt 3 / 2
    · rw [if_pos hc]
    · rw [if_neg hc, g3_zero h.ax h.ay h.az]
      have := h.sum
      linarith
  rw [key]
  congr 1
  by_cases h0 : a0 < 0
  · rw [if_pos h0, abs_of_neg h0]; congr 1; ring
  · rw [if_neg h0, g3_symm h.ax.ne' h.ay.ne' h.az.ne', abs_of_nonneg (by linarith)]; ring

/-- Derivative of `g3`. -/
noncomputable def dg3 (a b c t : ℝ) : ℝ :=
  (pp 2 (t + (a + b + c) / 2) - pp 2 (t + (-a + b + c) / 2) - pp 2 (t + (a - b + c) / 2) - pp 2 (t + (a + b - c) / 2) +
    pp 2 (t + (a - b - c) / 2) + pp 2 (t + (-a + b - c) / 2) + pp 2 (t + (-a - b + c) / 2) -
    pp 2 (t + (-a - b - c) / 2)) / (2 * a * b * c)

theorem hasDerivAt_shift (s t : ℝ) : HasDerivAt (fun t => pp 3 (t + s)) (3 * pp 2 (t + s)) t := by
  have h := (hasDerivAt_pp' 1 (t + s)).comp t ((hasDerivAt_id t).add_const s)
  have e : ((1 : ℕ) : ℝ) + 2 = 3 := by norm_num
  rw [e, mul_one] at h
  exact h

theorem hasDerivAt_g3 {a b c : ℝ} (ha : a ≠ 0) (hb : b ≠ 0) (hc : c ≠ 0) (t : ℝ) :
    HasDerivAt (g3 a b c) (dg3 a b c t) t := by
  have h := (((((((hasDerivAt_shift ((a + b + c) / 2) t).sub (hasDerivAt_shift ((-a + b + c) / 2) t)).sub
    (hasDerivAt_shift ((a - b + c) / 2) t)).sub (hasDerivAt_shift ((a + b - c) / 2) t)).add
    (hasDerivAt_shift ((a - b - c) / 2) t)).add (hasDerivAt_shift ((-a + b - c) / 2) t)).add
    (hasDerivAt_shift ((-a - b + c) / 2) t)).sub (hasDerivAt_shift ((-a - b - c) / 2) t)
  have h2 := h.div_const (6 * a * b * c)
  refine h2.congr_deriv ?_
  rw [dg3]
  field_simp
  ring

theorem dg3_even {a b c : ℝ} (t : ℝ) : dg3 a b c (-t) = dg3 a b c t := by
  have h1 := pp2_even (t + (a + b + c) / 2)
  have h2 := pp2_even (t + (-a + b + c) / 2)
  have h3 := pp2_even (t + (a - b + c) / 2)
  have h4 := pp2_even (t + (a + b - c) / 2)
  have h5 := pp2_even (t + (a - b - c) / 2)
  have h6 := pp2_even (t + (-a + b - c) / 2)
  have h7 := pp2_even (t + (-a - b + c) / 2)
  have h8 := pp2_even (t + (-a - b - c) / 2)
  rw [show -(t + (a + b + c) / 2) = -t + (-a - b - c) / 2 by ring] at h1
  rw [show -(t + (-a + b + c) / 2) = -t + (a - b - c) / 2 by ring] at h2
  rw [show -(t + (a - b + c) / 2) = -t + (-a + b - c) / 2 by ring] at h3
  rw [show -(t + (a + b - c) / 2) = -t + (-a - b + c) / 2 by ring] at h4
  rw [show -(t + (a - b - c) / 2) = -t + (-a + b + c) / 2 by ring] at h5
  rw [show -(t + (-a + b - c) / 2) = -t + (a - b + c) / 2 by ring] at h6
  rw [show -(t + (-a - b + c) / 2) = -t + (a + b - c) / 2 by ring] at h7
  rw [show -(t + (-a - b - c) / 2) = -t + (a + b + c) / 2 by ring] at h8
  rw [dg3, dg3]
  congr 1
  linear_combination -h1 + h2 + h3 + h4 - h5 - h6 - h7 + h8

theorem dg3_zero {a b c t : ℝ} (ha : 0 < a) (hb : 0 < b) (hc : 0 < c) (ht : t ≤ -(a + b + c) / 2) : dg3 a b c t = 0 := by
  rw [dg3, pp_of_nonpos (by linarith), pp_of_nonpos (by linarith), pp_of_nonpos (by linarith), pp_of_nonpos (by linarith),
    pp_of_nonpos (by linarith), pp_of_nonpos (by linarith), pp_of_nonpos (by linarith), pp_of_nonpos (by linarith)]
  simp

theorem dg3_nonneg {a b c : ℝ} (ha : 0 < a) (hb : 0 < b) (hc : 0 < c) (t : ℝ) : 0 ≤ dg3 a b c t := by
  have h : dg3 a b c t = (g2 b c (t + a / 2) - g2 b c (t - a / 2)) / a := by
    rw [dg3, g2, g2, show t + a / 2 + (b + c) / 2 = t + (a + b + c) / 2 by ring,
      show t + a / 2 + (-b + c) / 2 = t + (a - b + c) / 2 by ring, show t + a / 2 + (b - c) / 2 = t + (a + b - c) / 2 by ring,
      show t + a / 2 + (-b - c) / 2 = t + (a - b - c) / 2 by ring, show t - a / 2 + (b + c) / 2 = t + (-a + b + c) / 2 by ring,
      show t - a / 2 + (-b + c) / 2 = t + (-a - b + c) / 2 by ring,
      show t - a / 2 + (b - c) / 2 = t + (-a + b - c) / 2 by ring,
      show t - a / 2 + (-b - c) / 2 = t + (-a - b - c) / 2 by ring]
    field_simp
    ring
  rw [h]
  have := g2_mono hb hc (show t - a / 2 ≤ t + a / 2 by linarith)
  exact div_nonneg (by linarith) ha.le

theorem cubeCutDvolume_eq (a0 : ℝ) {n : Normal} (h : n.Ok) :
    cubeCutDvolume a0 n = dg3 n.ax n.ay n.az (a0 / n.norm) / n.norm := by
  have ht : 0 ≤ |a0| / n.norm := div_nonneg (abs_nonneg _) h.norm.le
  have e : dg3 n.ax n.ay n.az (a0 / n.norm) = dg3 n.ax n.ay n.az (-(|a0| / n.norm)) := by
    rcases abs_choice a0 with h1 | h1 <;> rw [h1]
    · rw [dg3_even]
    · rw [neg_div, neg_neg]
  have hp := pp_pairs 1 h.ax h.ay h.az ht
  rw [pp] at hp
  rw [cubeCutDvolume]
  rw [hp, e]
  have hb : ∀ x : ℝ, x = dg3 n.ax n.ay n.az (-(|a0| / n.norm)) / n.norm →
      (if |a0| / n.norm < Real.sqrt 3 / 2 then x else 0) = dg3 n.ax n.ay n.az (-(|a0| / n.norm)) / n.norm := by
    intro x hx
    by_cases hc : |a0| / n.norm < Real.sqrt 3 / 2
    · rw [if_pos hc, hx]
    · rw [if_neg hc, dg3_zero h.ax h.ay h.az, zero_div]
      have := h.sum
      linarith
  apply hb
  have hpos := h.ax
  have hpos2 := h.ay
  have hpos3 := h.az
  rw [dg3, pp_of_nonpos (show -(|a0| / n.norm) + (-n.ax - n.ay - n.az) / 2 ≤ 0 by linarith)]
  simp only [pp]
  rw [show (n.ax + n.ay + n.az) / 2 - |a0| / n.norm = -(|a0| / n.norm) + (n.ax + n.ay + n.az) / 2 by ring,
    show (-n.ax + n.ay + n.az) / 2 - |a0| / n.norm = -(|a0| / n.norm) + (-n.ax + n.ay + n.az) / 2 by ring,
    show (n.ax - n.ay + n.az) / 2 - |a0| / n.norm = -(|a0| / n.norm) + (n.ax - n.ay + n.az) / 2 by ring,
    show (n.ax + n.ay - n.az) / 2 - |a0| / n.norm = -(|a0| / n.norm) + (n.ax + n.ay - n.az) / 2 by ring, div_div]
  congr 1 <;> ring

/-- C45.  The returned density is the derivative of the returned volume with respect to the offset, at every offset. -/
theorem C45_derivative (a0 ax ay az : ℝ) :
    HasDerivAt (fun a0 => cubeCutVolume a0 (cubePrecomp ax ay az)) (cubeCutDvolume a0 (cubePrecomp ax ay az)) a0 := by
  have h := cubePrecomp_ok ax ay az
  set n := cubePrecomp ax ay az
  have e : (fun a0 => cubeCutVolume a0 n) = fun a0 => g3 n.ax n.ay n.az (a0 / n.norm) :=
    funext fun x => cubeCutVolume_eq x h
  rw [e, cubeCutDvolume_eq a0 h]
  have h1 := (hasDerivAt_g3 h.ax.ne' h.ay.ne' h.az.ne' (a0 / n.norm)).comp a0 ((hasDerivAt_id a0).div_const n.norm)
  refine h1.congr_deriv ?_
  ring

/-- C45.  The density is never negative, and zero if the plane does not meet the cube. -/
theorem C45_nonneg (a0 ax ay az : ℝ) :
    let n := cubePrecomp ax ay az
    0 ≤ cubeCutDvolume a0 n ∧ (n.norm * (n.ax + n.ay + n.az) / 2 ≤ |a0| → cubeCutDvolume a0 n = 0) := by
  intro n
  have h : n.Ok := cubePrecomp_ok ax ay az
  rw [cubeCutDvolume_eq a0 h]
  refine ⟨div_nonneg (dg3_nonneg h.ax h.ay h.az _) h.norm.le, fun h1 => ?_⟩
  have : (n.ax + n.ay + n.az) / 2 ≤ |a0| / n.norm := by rw [le_div_iff₀ h.norm]; linarith
  rcases abs_choice a0 with h2 | h2 <;> rw [h2] at this
  · rw [← dg3_even, dg3_zero h.ax h.ay h.az (by linarith), zero_div]
  · rw [neg_div] at this
    rw [dg3_zero h.ax h.ay h.az (by linarith), zero_div]

/-- C45.  The whole density integrates to one: the volume goes from zero to one. -/
theorem C45_total (ax ay az l r : ℝ) :
    let n := cubePrecomp ax ay az
    l ≤ -(n.norm * (n.ax + n.ay + n.az) / 2) → n.norm * (n.ax + n.ay + n.az) / 2 ≤ r →
      ∫ a0 in l..r, cubeCutDvolume a0 n = 1 := by
  intro n hl hr
  have h : n.Ok := cubePrecomp_ok ax ay az
  have hc : Continuous fun a0 => cubeCutDvolume a0 n := by
    have e : (fun a0 => cubeCutDvolume a0 n) = fun a0 => dg3 n.ax n.ay n.az (a0 / n.norm) / n.norm :=
      funext fun x => cubeCutDvolume_eq x h
    rw [e]
    unfold dg3 pp
    fun_prop
  rw [intervalIntegral.integral_eq_sub_of_hasDerivAt (fun y _ => C45_derivative y ax ay az) (hc.intervalIntegrable _ _),
    (C44_range r ax ay az).2.2.2.1 hr, (C44_range l ax ay az).2.2.1 hl, sub_zero]

/-- C58.  If the corner values come from a linear function, centre value and gradient are those of the function. -/
theorem C58_linear_exact (α gx gy gz : ℝ) :
    cornerFit (fun c => α + gx * ((c.val % 2 : ℕ) : ℝ) + gy * ((c.val / 2 % 2 : ℕ) : ℝ) + gz * ((c.val / 4 % 2 : ℕ) : ℝ)) =
      (α + gx * (1 / 2) + gy * (1 / 2) + gz * (1 / 2), gx, gy, gz) := by
  simp only [cornerFit, Fin.isValue]
  norm_num [Fin.val_ofNat]
  refine ⟨?_, ?_, ?_, ?_⟩ <;> ring

/-- C58.  The corner values of a cell of the wrapped grid are the values of the periodic function at the cell and at its next
neighbours in positive x, y, z direction (bits 0, 1, 2 of the corner number). -/
theorem C58_corners (n0 n1 n2 : ℕ) (V : ℕ → ℕ → ℕ → ℝ) (h0 : ∀ i j k, V (i % n0) j k = V i j k)
    (h1 : ∀ i j k, V i (j % n1) k = V i j k) (h2 : ∀ i j k, V i j (k % n2) = V i j k) (i j k : ℕ) (c : Fin 8) :
    gridCorners n0 n1 n2 V i j k c = V (i + c.val % 2) (j + c.val / 2 % 2) (k + c.val / 4 % 2) := by
  rw [gridCorners]
  rcases Nat.mod_two_eq_zero_or_one c.val with a | a <;> rcases Nat.mod_two_eq_zero_or_one (c.val / 2) with b | b <;>
    rcases Nat.mod_two_eq_zero_or_one (c.val / 4) with d | d <;> simp [a, b, d, h0, h1, h2]

/-- C58.  A function that is linear in a cell of the grid (not at its wrapped end) is recovered exactly. -/
theorem C58_grid_linear (n0 n1 n2 : ℕ) (v : ℕ → ℕ → ℕ → ℝ) (α gx gy gz : ℝ) (i j k : ℕ)
    (hi : i + 1 < n0) (hj : j + 1 < n1) (hk : k + 1 < n2)
    (hv : ∀ a ≤ 1, ∀ b ≤ 1, ∀ c ≤ 1, v (i + a) (j + b) (k + c) = α + gx * a + gy * b + gz * c) :
    cornerFit (gridCorners n0 n1 n2 v i j k) = (α + gx * (1 / 2) + gy * (1 / 2) + gz * (1 / 2), gx, gy, gz) := by
  rw [← C58_linear_exact α gx gy gz]
  congr 1
  funext c
  rw [← hv _ (by omega) _ (by omega) _ (by omega), gridCorners, Nat.mod_eq_of_lt hi, Nat.mod_eq_of_lt hj, Nat.mod_eq_of_lt hk]
  rcases Nat.mod_two_eq_zero_or_one c.val with a | a <;> rcases Nat.mod_two_eq_zero_or_one (c.val / 2) with b | b <;>
    rcases Nat.mod_two_eq_zero_or_one (c.val / 4) with d | d <;> simp [a, b, d]

example : cornerFit (gridCorners 3 3 3 (fun i j k => 1 + 2 * i + 3 * j + 5 * k) 1 1 1) = (1 + 10 + 5, 2, 3, 5) := by
  rw [C58_grid_linear 3 3 3 _ 11 2 3 5 1 1 1 (by norm_num) (by norm_num) (by norm_num) (fun a _ b _ c _ => by push_cast; ring)]
  norm_num

/-- C58.  Among all linear functions, the fit has the smallest sum of squared deviations from the corner values. -/
theorem C58_least_squares (a : Corners) (m gx gy gz : ℝ) :
    let dev := fun (m gx gy gz : ℝ) => ∑ c : Fin 8, (a c - (m + gx * (((c.val % 2 : ℕ) : ℝ) - 1 / 2) +
      gy * (((c.val / 2 % 2 : ℕ) : ℝ) - 1 / 2) + gz * (((c.val / 4 % 2 : ℕ) : ℝ) - 1 / 2))) ^ 2
    dev (cornerFit a).1 (cornerFit a).2.1 (cornerFit a).2.2.1 (cornerFit a).2.2.2 ≤ dev m gx gy gz := by
  intro dev
  have hd : ∀ m gx gy gz, dev m gx gy gz = dev (cornerFit a).1 (cornerFit a).2.1 (cornerFit a).2.2.1 (cornerFit a).2.2.2 +
      (8 * (m - (cornerFit a).1) ^ 2 + 2 * (gx - (cornerFit a).2.1) ^ 2 + 2 * (gy - (cornerFit a).2.2.1) ^ 2 +
        2 * (gz - (cornerFit a).2.2.2) ^ 2) := by
    intro m gx gy gz
    simp only [dev, cornerFit, Fin.sum_univ_eight, Fin.isValue]
    norm_num [Fin.val_ofNat]
    ring
  rw [hd m gx gy gz]
  nlinarith [sq_nonneg (m - (cornerFit a).1), sq_nonneg (gx - (cornerFit a).2.1), sq_nonneg (gy - (cornerFit a).2.2.1),
    sq_nonneg (gz - (cornerFit a).2.2.2)]

/-- C59.  The area returned for a cut is the density times the norm of the gradient. -/
theorem C59_area (a0 ax ay az sx sy sz : ℝ) :
    (cubeCutAreaCom a0 (cubePrecomp ax ay az) sx sy sz).1 =
      (cubePrecomp ax ay az).norm * cubeCutDvolume a0 (cubePrecomp ax ay az) := by
  have h := cubePrecomp_ok ax ay az
  set n := cubePrecomp ax ay az
  rw [cubeCutDvolume_eq a0 h, mul_div_cancel₀ _ h.norm.ne', cubeCutAreaCom]
  simp only
  rw [if_pos (abs_ne_zero.2 (mul_pos (mul_pos h.ax h.ay) h.az).ne')]
  by_cases hc : |a0 / n.norm| < Real.sqrt 3 / 2
  · rw [if_pos hc, dg3]
    simp only [pp]
    rw [show 2 * n.ax * n.ay * n.az = 2 * (n.ax * n.ay * n.az) by ring]
    congr 1
    simp only [add_comm (a0 / n.norm)]
    ring
  · rw [if_neg hc, zero_div]
    have hs := h.sum
    rcases abs_choice (a0 / n.norm) with h1 | h1 <;> rw [h1] at hc
    · rw [← dg3_even, dg3_zero h.ax h.ay h.az (by linarith)]
    · rw [dg3_zero h.ax h.ay h.az (by linarith)]

theorem com_term {a b c t c1 c2 c3 u : ℝ} (ha : a ≠ 0) (hb : b ≠ 0) (hc : c ≠ 0) (hu : u = -(a * c1 + b * c2 + c * c3) / 2 + t) :
    a * ((max 0 u) ^ 2 * (c1 / 2 + 1 / 3 / a * max 0 u)) + b * ((max 0 u) ^ 2 * (c2 / 2 + 1 / 3 / b * max 0 u)) +
      c * ((max 0 u) ^ 2 * (c3 / 2 + 1 / 3 / c * max 0 u)) = (max 0 u) ^ 2 * t := by
  rcases le_total u 0 with h | h
  · rw [max_eq_left h]; ring
  · rw [max_eq_right h, hu]; field_simp; ring

/-- C59.  The sample point of a cut lies on the plane: the clamped normal (with the signs of the gradient) applied to it is the
scaled offset. -/
theorem C59_on_plane (a0 ax ay az : ℝ) (hx : ax ≠ 0) (hy : ay ≠ 0) (hz : az ≠ 0)
    (harea : (cubeCutAreaCom a0 (cubePrecomp ax ay az) ax ay az).1 ≠ 0) :
    let n := cubePrecomp ax ay az
    let p := (cubeCutAreaCom a0 n ax ay az).2
    sign ax * n.ax * p.1 + sign ay * n.ay * p.2.1 + sign az * n.az * p.2.2 = a0 / n.norm := by
  intro n p
  have h : n.Ok := cubePrecomp_ok ax ay az
  have hsgn : ∀ {x : ℝ}, x ≠ 0 → sign x * sign x = 1 := by
    intro x hx
    rw [sign]
    rcases lt_or_gt_of_ne hx with h1 | h1
    · rw [if_pos h1]; norm_num
    · rw [if_neg (by linarith), if_pos h1]; norm_num
  have sx := hsgn hx
  have sy := hsgn hy
  have sz := hsgn hz
  set t := a0 / n.norm with ht
  have hp := h.ax.ne'
  have hq := h.ay.ne'
  have hr := h.az.ne'
  have T0 := com_term (c1 := -1) (c2 := -1) (c3 := -1) (t := t) hp hq hr (u := (n.ax + n.ay + n.az) / 2 + t) (by ring)
  have T1 := com_term (c1 := 1) (c2 := -1) (c3 := -1) (t := t) hp hq hr (u := (-n.ax + n.ay + n.az) / 2 + t) (by ring)
  have T2 := com_term (c1 := -1) (c2 := 1) (c3 := -1) (t := t) hp hq hr (u := (n.ax - n.ay + n.az) / 2 + t) (by ring)
  have T3 := com_term (c1 := -1) (c2 := -1) (c3 := 1) (t := t) hp hq hr (u := (n.ax + n.ay - n.az) / 2 + t) (by ring)
  have T4 := com_term (c1 := -1) (c2 := 1) (c3 := 1) (t := t) hp hq hr (u := (n.ax - n.ay - n.az) / 2 + t) (by ring)
  have T5 := com_term (c1 := 1) (c2 := -1) (c3 := 1) (t := t) hp hq hr (u := (-n.ax + n.ay - n.az) / 2 + t) (by ring)
  have T6 := com_term (c1 := 1) (c2 := 1) (c3 := -1) (t := t) hp hq hr (u := (-n.ax - n.ay + n.az) / 2 + t) (by ring)
  have T7 := com_term (c1 := 1) (c2 := 1) (c3 := 1) (t := t) hp hq hr (u := (-n.ax - n.ay - n.az) / 2 + t) (by ring)
  have hcut : |t| < Real.sqrt 3 / 2 := by
    by_contra hc
    apply harea
    change (cubeCutAreaCom a0 n ax ay az).1 = 0
    rw [cubeCutAreaCom]
    simp only
    rw [if_neg (show ¬ |a0 / n.norm| < Real.sqrt 3 / 2 from hc)]
    simp
  have harea' : (cubeCutAreaCom a0 n ax ay az).1 ≠ 0 := harea
  have hpe : p = (cubeCutAreaCom a0 n ax ay az).2 := rfl
  rw [cubeCutAreaCom] at hpe harea'
  simp only at hpe harea'
  rw [← ht, if_pos hcut] at hpe harea'
  set A := (max 0 ((n.ax + n.ay + n.az) / 2 + t)) ^ 2 - (max 0 ((-n.ax + n.ay + n.az) / 2 + t)) ^ 2 -
    (max 0 ((n.ax - n.ay + n.az) / 2 + t)) ^ 2 + (max 0 ((n.ax - n.ay - n.az) / 2 + t)) ^ 2 -
    (max 0 ((n.ax + n.ay - n.az) / 2 + t)) ^ 2 + (max 0 ((-n.ax + n.ay - n.az) / 2 + t)) ^ 2 +
    (max 0 ((-n.ax - n.ay + n.az) / 2 + t)) ^ 2 - (max 0 ((-n.ax - n.ay - n.az) / 2 + t)) ^ 2 with hA
  have hA0 : A ≠ 0 := by
    intro h0
    apply harea'
    rw [h0]
    simp
  rw [hpe]
  simp only [if_pos hA0]
  generalize max 0 ((n.ax + n.ay + n.az) / 2 + t) = v0 at *
  generalize max 0 ((-n.ax + n.ay + n.az) / 2 + t) = v1 at *
  generalize max 0 ((n.ax - n.ay + n.az) / 2 + t) = v2 at *
  generalize max 0 ((n.ax + n.ay - n.az) / 2 + t) = v3 at *
  generalize max 0 ((n.ax - n.ay - n.az) / 2 + t) = v4 at *
  generalize max 0 ((-n.ax + n.ay - n.az) / 2 + t) = v5 at *
  generalize max 0 ((-n.ax - n.ay + n.az) / 2 + t) = v6 at *
  generalize max 0 ((-n.ax - n.ay - n.az) / 2 + t) = v7 at *
  have split : ∀ s q x y : ℝ, s * q * (x * y / A) = s * y * (q * x) / A := by intros; ring
  rw [split, split, split, sx, sy, sz, one_mul, one_mul, one_mul, ← add_div, ← add_div, div_eq_iff hA0, hA]
  linear_combination T0 - T1 - T2 + T4 - T3 + T5 + T6 - T7

/-- The hypotheses of `C44_unclamped_volume` hold for the gradient `(2, -3, 6)`. -/
example (value a0 : ℝ) : cubeCutVolume (value - a0) (cubePrecomp 2 (-3) 6) =
    ∫ x in (-1 / 2 : ℝ)..(1 / 2), ∫ y in (-1 / 2 : ℝ)..(1 / 2), ∫ z in (-1 / 2 : ℝ)..(1 / 2),
      if a0 + (2 * x + -3 * y + 6 * z) < value then (1 : ℝ) else 0 := by
  have hn : (cubePrecomp 2 (-3) 6).norm = 7 + 1 / 10 ^ 40 := by
    have h7 : Real.sqrt (|(2 : ℝ)| ^ 2 + |(-3 : ℝ)| ^ 2 + |(6 : ℝ)| ^ 2) = 7 := by
      rw [abs_neg, abs_of_pos (by norm_num : (0 : ℝ) < 2), abs_of_pos (by norm_num : (0 : ℝ) < 3),
        abs_of_pos (by norm_num : (0 : ℝ) < 6), show (2 : ℝ) ^ 2 + 3 ^ 2 + 6 ^ 2 = 7 ^ 2 by norm_num]
      exact Real.sqrt_sq (by norm_num)
    change norm3 _ _ _ _ = _
    rw [norm3, h7]
  refine C44_unclamped_volume value a0 2 (-3) 6 ?_ ?_ ?_ <;> rw [hn] <;> norm_num [abs_of_pos]

/-- A cut through the centre takes half of the cell, with a non-zero density. -/
example : cubeCutVolume 0 (cubePrecomp 2 (-3) 6) = 1 / 2 := (C44_range 0 2 (-3) 6).2.2.2.2.1

/-- The cut through the centre of a cell with gradient `(1, -1, 1)` has a non-zero area. -/
example : (cubeCutAreaCom 0 (cubePrecomp 1 (-1) 1) 1 (-1) 1).1 ≠ 0 := by
  have h := cubePrecomp_ok 1 (-1) 1
  rw [C59_area, cubeCutDvolume_eq 0 h, mul_div_cancel₀ _ h.norm.ne']
  have e : cubePrecomp 1 (-1) 1 = ⟨(cubePrecomp 1 (-1) 1).ax, (cubePrecomp 1 (-1) 1).ax, (cubePrecomp 1 (-1) 1).ax,
      (cubePrecomp 1 (-1) 1).norm⟩ := by
    simp [cubePrecomp]
  have h0 := h.ax
  rw [e]
  simp only
  generalize (cubePrecomp 1 (-1) 1).ax = a at h0
  rw [zero_div, dg3, pp_of_nonneg (by linarith), pp_of_nonneg (by linarith), pp_of_nonneg (by linarith),
    pp_of_nonneg (by linarith), pp_of_nonpos (by linarith), pp_of_nonpos (by linarith), pp_of_nonpos (by linarith),
    pp_of_nonpos (by linarith)]
  have : 0 < a ^ 2 := by positivity
  refine div_ne_zero ?_ (by positivity)
  nlinarith

end TB.Smear

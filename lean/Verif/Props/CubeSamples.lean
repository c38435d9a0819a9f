import Verif.Model.CubeSamples
import Verif.Props.FermiSamples
import Verif.Props.SmearCube
import Mathlib.Analysis.Calculus.Deriv.MeanValue

/-!
# C151: the surface samples of a whole grid
-/

namespace TB.PropsCubeSamples
open TB TB.FermiSamples TB.Smear TB.CubeSamples TB.CubeSamples.Grid Matrix

/-- A regular grid: in crystal coordinates the points are `o + s * (i, j, k)`. -/
def Spec.Regular (g : Grid) (o s : V3) : Prop :=
  g.A.det ≠ 0 ∧ (∀ a, s a ≠ 0) ∧ ∀ i j k, g.P i j k = (g.A⁻¹).transpose.mulVec fun a => o a + s a * ![(i : ℝ), j, k] a

/-- No component of the gradient (in units of the steps) is small against the others. -/
def Spec.Steep (x : V3) : Prop := ∀ a, (Real.sqrt (x 0 ^ 2 + x 1 ^ 2 + x 2 ^ 2) + 1 / 10 ^ 40) / 10 ^ 4 ≤ |x a|

/-- How far the value of the linear fit at a sample may be off because of the clamping. -/
noncomputable def Spec.slack (x : V3) : ℝ := 3 / 2 / 10 ^ 4 * (Real.sqrt (x 0 ^ 2 + x 1 ^ 2 + x 2 ^ 2) + 1 / 10 ^ 40)

/-- The plane through a cell. -/
def Spec.normal (f : ℝ × ℝ × ℝ × ℝ) : V3 := ![f.2.1, f.2.2.1, f.2.2.2]

theorem B_det (g : Grid) (h : g.A.det ≠ 0) : g.B.det ≠ 0 := by
  rw [Grid.B, det_transpose, det_nonsing_inv, Ring.inverse_eq_inv']
  exact inv_ne_zero h

theorem crystal_eq (g : Grid) (o s : V3) (h : Spec.Regular g o s) (i j k : ℕ) : g.crystal i j k = fun a => o a + s a * ![(i : ℝ), j, k] a := by
  rw [crystal, h.2.2, mulVec_transpose, vecMul_vecMul, nonsing_inv_mul _ (isUnit_iff_ne_zero.2 h.1), vecMul_one]

theorem step_eq (g : Grid) (o s : V3) (h : Spec.Regular g o s) : g.step = s := by
  funext a
  simp only [step, crystal_eq g o s h]
  fin_cases a <;> simp

theorem mem_cells (g : Grid) (i j k : ℕ) : (i, j, k) ∈ g.cells ↔ i < ExtraCubes.cubes g.wrap g.n0 ∧ j < ExtraCubes.cubes g.wrap g.n1 ∧
    k < ExtraCubes.cubes g.wrap g.n2 := by
  simp only [cells, List.mem_flatMap, List.mem_range, List.mem_map, Prod.mk.injEq]
  constructor
  · rintro ⟨i', hi, j', hj, k', hk, rfl, rfl, rfl⟩
    exact ⟨hi, hj, hk⟩
  · rintro ⟨hi, hj, hk⟩
    exact ⟨i, hi, j, hj, k, hk, rfl, rfl, rfl⟩

/-! ## the centre of mass stays in the cell -/

/-- The first coordinate of the centre of mass times the area, before the signs. -/
noncomputable def comNum (a b c t : ℝ) : ℝ :=
  pp 2 (t + (a + b + c) / 2) * (-1 / 2) + 1 / 3 / a * pp 3 (t + (a + b + c) / 2) - (pp 2 (t + (-a + b + c) / 2) * (1 / 2) + 1 / 3 / a * pp 3 (t + (-a + b + c) / 2)) -
  (pp 2 (t + (a - b + c) / 2) * (-1 / 2) + 1 / 3 / a * pp 3 (t + (a - b + c) / 2)) + (pp 2 (t + (a - b - c) / 2) * (-1 / 2) + 1 / 3 / a * pp 3 (t + (a - b - c) / 2)) -
  (pp 2 (t + (a + b - c) / 2) * (-1 / 2) + 1 / 3 / a * pp 3 (t + (a + b - c) / 2)) + (pp 2 (t + (-a + b - c) / 2) * (1 / 2) + 1 / 3 / a * pp 3 (t + (-a + b - c) / 2)) +
  (pp 2 (t + (-a - b + c) / 2) * (1 / 2) + 1 / 3 / a * pp 3 (t + (-a - b + c) / 2)) - (pp 2 (t + (-a - b - c) / 2) * (1 / 2) + 1 / 3 / a * pp 3 (t + (-a - b - c) / 2))

/-- The area before the division. -/
noncomputable def areaNum (a b c t : ℝ) : ℝ :=
  pp 2 (t + (a + b + c) / 2) - pp 2 (t + (-a + b + c) / 2) - pp 2 (t + (a - b + c) / 2) + pp 2 (t + (a - b - c) / 2) -
    pp 2 (t + (a + b - c) / 2) + pp 2 (t + (-a + b - c) / 2) + pp 2 (t + (-a - b + c) / 2) - pp 2 (t + (-a - b - c) / 2)

theorem comNum_le {a b c : ℝ} (ha : 0 < a) (hb : 0 < b) (hc : 0 < c) (t : ℝ) : 0 ≤ areaNum a b c t ∧ |comNum a b c t| ≤ areaNum a b c t / 2 := by
  let R : ℝ → ℝ := fun s => pp 3 (s + (b + c) / 2) - pp 3 (s + (-b + c) / 2) - pp 3 (s + (b - c) / 2) + pp 3 (s + (-b - c) / 2)
  have hR : ∀ s, HasDerivAt R (3 * (2 * b * c * g2 b c s)) s := by
    intro s
    have h := (((hasDerivAt_shift ((b + c) / 2) s).sub (hasDerivAt_shift ((-b + c) / 2) s)).sub (hasDerivAt_shift ((b - c) / 2) s)).add
      (hasDerivAt_shift ((-b - c) / 2) s)
    refine h.congr_deriv ?_
    rw [g2]
    field_simp
  obtain ⟨ξ, hξ, e⟩ := exists_hasDerivAt_eq_slope R (fun s => 3 * (2 * b * c * g2 b c s)) (show t - a / 2 < t + a / 2 by linarith)
    (fun s _ => (hR s).continuousAt.continuousWithinAt) (fun s _ => hR s)
  have h1 := g2_mono hb hc hξ.1.le
  have h2 := g2_mono hb hc hξ.2.le
  have hbc : 0 < 2 * b * c := by positivity
  have h1' := mul_le_mul_of_nonneg_left h1 hbc.le
  have h2' := mul_le_mul_of_nonneg_left h2 hbc.le
  have eA : areaNum a b c t = 2 * b * c * g2 b c (t + a / 2) - 2 * b * c * g2 b c (t - a / 2) := by
    rw [areaNum, g2, g2, show t + a / 2 + (b + c) / 2 = t + (a + b + c) / 2 by ring,
      show t + a / 2 + (-b + c) / 2 = t + (a - b + c) / 2 by ring, show t + a / 2 + (b - c) / 2 = t + (a + b - c) / 2 by ring,
      show t + a / 2 + (-b - c) / 2 = t + (a - b - c) / 2 by ring, show t - a / 2 + (b + c) / 2 = t + (-a + b + c) / 2 by ring,
      show t - a / 2 + (-b + c) / 2 = t + (-a - b + c) / 2 by ring,
      show t - a / 2 + (b - c) / 2 = t + (-a + b - c) / 2 by ring,
      show t - a / 2 + (-b - c) / 2 = t + (-a - b - c) / 2 by ring]
    field_simp
    ring
  have eC : comNum a b c t = -(2 * b * c * g2 b c (t + a / 2) + 2 * b * c * g2 b c (t - a / 2)) / 2 + (R (t + a / 2) - R (t - a / 2)) / (3 * a) := by
    simp only [R]
    rw [comNum, g2, g2, show t + a / 2 + (b + c) / 2 = t + (a + b + c) / 2 by ring,
      show t + a / 2 + (-b + c) / 2 = t + (a - b + c) / 2 by ring, show t + a / 2 + (b - c) / 2 = t + (a + b - c) / 2 by ring,
      show t + a / 2 + (-b - c) / 2 = t + (a - b - c) / 2 by ring, show t - a / 2 + (b + c) / 2 = t + (-a + b + c) / 2 by ring,
      show t - a / 2 + (-b + c) / 2 = t + (-a - b + c) / 2 by ring,
      show t - a / 2 + (b - c) / 2 = t + (-a + b - c) / 2 by ring,
      show t - a / 2 + (-b - c) / 2 = t + (-a - b - c) / 2 by ring]
    field_simp
    ring
  have eR : (R (t + a / 2) - R (t - a / 2)) / (3 * a) = 2 * b * c * g2 b c ξ := by
    have h3 : t + a / 2 - (t - a / 2) = a := by ring
    rw [h3, eq_div_iff ha.ne'] at e
    rw [← e]
    field_simp
  rw [eC, eA, eR]
  exact ⟨by linarith, abs_le.2 ⟨by linarith, by linarith⟩⟩

/-- The model in these terms. -/
theorem areaCom_eq (a0 : ℝ) (n : Normal) (sx sy sz : ℝ) :
    cubeCutAreaCom a0 n sx sy sz =
      (if |n.ax * n.ay * n.az| ≠ 0 then (if |a0 / n.norm| < Real.sqrt 3 / 2 then areaNum n.ax n.ay n.az (a0 / n.norm) else 0) / (2 * (n.ax * n.ay * n.az)) else 0,
       if (if |a0 / n.norm| < Real.sqrt 3 / 2 then areaNum n.ax n.ay n.az (a0 / n.norm) else 0) ≠ 0 then
        comNum n.ax n.ay n.az (a0 / n.norm) * sign sx / (if |a0 / n.norm| < Real.sqrt 3 / 2 then areaNum n.ax n.ay n.az (a0 / n.norm) else 0) else 0,
       if (if |a0 / n.norm| < Real.sqrt 3 / 2 then areaNum n.ax n.ay n.az (a0 / n.norm) else 0) ≠ 0 then
        comNum n.ay n.ax n.az (a0 / n.norm) * sign sy / (if |a0 / n.norm| < Real.sqrt 3 / 2 then areaNum n.ax n.ay n.az (a0 / n.norm) else 0) else 0,
       if (if |a0 / n.norm| < Real.sqrt 3 / 2 then areaNum n.ax n.ay n.az (a0 / n.norm) else 0) ≠ 0 then
        comNum n.az n.ax n.ay (a0 / n.norm) * sign sz / (if |a0 / n.norm| < Real.sqrt 3 / 2 then areaNum n.ax n.ay n.az (a0 / n.norm) else 0) else 0) := by
  obtain ⟨a, b, c, N⟩ := n
  rw [cubeCutAreaCom]
  simp only
  generalize a0 / N = t
  have p3 : ∀ u : ℝ, pp 3 u = max 0 u ^ 3 := fun u => rfl
  have p2 : ∀ u : ℝ, pp 2 u = max 0 u ^ 2 := fun u => rfl
  have eA : max 0 ((a + b + c) / 2 + t) ^ 2 - max 0 ((-a + b + c) / 2 + t) ^ 2 - max 0 ((a - b + c) / 2 + t) ^ 2 + max 0 ((a - b - c) / 2 + t) ^ 2 -
      max 0 ((a + b - c) / 2 + t) ^ 2 + max 0 ((-a + b - c) / 2 + t) ^ 2 + max 0 ((-a - b + c) / 2 + t) ^ 2 - max 0 ((-a - b - c) / 2 + t) ^ 2 = areaNum a b c t := by
    simp only [areaNum, p2, add_comm t]
  rw [eA]
  refine Prod.ext rfl (Prod.ext ?_ (Prod.ext ?_ ?_)) <;> simp only
  · congr 3
    simp only [comNum, p2, p3, add_comm t]
    ring
  · congr 3
    simp only [comNum, p2, p3, add_comm t, show b + a + c = a + b + c by ring, show -b + a + c = a - b + c by ring, show b - a + c = -a + b + c by ring,
      show b - a - c = -a + b - c by ring, show b + a - c = a + b - c by ring, show -b + a - c = a - b - c by ring, show -b - a + c = -a - b + c by ring,
      show -b - a - c = -a - b - c by ring]
    ring
  · congr 3
    simp only [comNum, p2, p3, add_comm t, show c + a + b = a + b + c by ring, show -c + a + b = a + b - c by ring, show c - a + b = -a + b + c by ring,
      show c - a - b = -a - b + c by ring, show c + a - b = a - b + c by ring, show -c + a - b = a - b - c by ring, show -c - a + b = -a + b - c by ring,
      show -c - a - b = -a - b - c by ring]
    ring

theorem areaNum_perm1 (a b c t : ℝ) : areaNum b a c t = areaNum a b c t := by
  simp only [areaNum, show b + a + c = a + b + c by ring, show -b + a + c = a - b + c by ring, show b - a + c = -a + b + c by ring,
      show b - a - c = -a + b - c by ring, show b + a - c = a + b - c by ring, show -b + a - c = a - b - c by ring, show -b - a + c = -a - b + c by ring,
      show -b - a - c = -a - b - c by ring]
  ring

theorem areaNum_perm2 (a b c t : ℝ) : areaNum c a b t = areaNum a b c t := by
  simp only [areaNum, show c + a + b = a + b + c by ring, show -c + a + b = a + b - c by ring, show c - a + b = -a + b + c by ring,
      show c - a - b = -a - b + c by ring, show c + a - b = a - b + c by ring, show -c + a - b = a - b - c by ring, show -c - a + b = -a + b - c by ring,
      show -c - a - b = -a - b - c by ring]
  ring

theorem sign_le (x : ℝ) : |sign x| ≤ 1 := by
  rw [sign]
  split_ifs <;> norm_num

theorem over_le {A C s : ℝ} (hA : 0 ≤ A) (hC : |C| ≤ A / 2) (hs : |s| ≤ 1) (q : Prop) [Decidable q] :
    |if (if q then A else 0) ≠ 0 then C * s / (if q then A else 0) else 0| ≤ 1 / 2 := by
  by_cases hq : q
  · simp only [if_pos hq]
    by_cases h0 : A ≠ 0
    · rw [if_pos h0, abs_div, abs_mul, abs_of_nonneg hA, div_le_iff₀ (lt_of_le_of_ne hA h0.symm)]
      nlinarith [abs_nonneg C, abs_nonneg s]
    · rw [if_neg h0, abs_zero]; norm_num
  · simp only [if_neg hq]
    norm_num

/-- C151: the centre of mass of a cut lies in the cell. -/
theorem C151_inside (a0 ax ay az sx sy sz : ℝ) :
    |(cubeCutAreaCom a0 (cubePrecomp ax ay az) sx sy sz).2.1| ≤ 1 / 2 ∧ |(cubeCutAreaCom a0 (cubePrecomp ax ay az) sx sy sz).2.2.1| ≤ 1 / 2 ∧
      |(cubeCutAreaCom a0 (cubePrecomp ax ay az) sx sy sz).2.2.2| ≤ 1 / 2 := by
  have h := cubePrecomp_ok ax ay az
  rw [areaCom_eq]
  set n := cubePrecomp ax ay az
  obtain ⟨hA, h1⟩ := comNum_le h.ax h.ay h.az (a0 / n.norm)
  have h2 := (comNum_le h.ay h.ax h.az (a0 / n.norm)).2
  have h3 := (comNum_le h.az h.ax h.ay (a0 / n.norm)).2
  rw [areaNum_perm1] at h2
  rw [areaNum_perm2] at h3
  exact ⟨over_le hA h1 (sign_le sx) _, over_le hA h2 (sign_le sy) _, over_le hA h3 (sign_le sz) _⟩

/-- The centre of mass of the cut of `2x + 3y - z = 1`. -/
example : |(cubeCutAreaCom 1 (cubePrecomp 2 3 (-1)) 2 3 (-1)).2.1| ≤ 1 / 2 := (C151_inside 1 2 3 (-1) 2 3 (-1)).1

/-- The numerators of the centre of mass and of the area lie on the plane. -/
theorem com_plane {a b c : ℝ} (ha : a ≠ 0) (hb : b ≠ 0) (hc : c ≠ 0) (t : ℝ) :
    a * comNum a b c t + b * comNum b a c t + c * comNum c a b t = t * areaNum a b c t := by
  have hp : ∀ u : ℝ, pp 3 u = u * pp 2 u := by
    intro u
    rcases le_total u 0 with h | h
    · rw [pp_of_nonpos h, pp_of_nonpos h, mul_zero]
    · rw [pp_of_nonneg h, pp_of_nonneg h]; ring
  simp only [comNum, areaNum, hp, show b + a + c = a + b + c by ring, show -b + a + c = a - b + c by ring, show b - a + c = -a + b + c by ring,
      show b - a - c = -a + b - c by ring, show b + a - c = a + b - c by ring, show -b + a - c = a - b - c by ring, show -b - a + c = -a - b + c by ring,
      show -b - a - c = -a - b - c by ring, show c + a + b = a + b + c by ring, show -c + a + b = a + b - c by ring, show c - a + b = -a + b + c by ring,
      show c - a - b = -a - b + c by ring, show c + a - b = a - b + c by ring, show -c + a - b = a - b - c by ring, show -c - a + b = -a + b - c by ring,
      show -c - a - b = -a - b - c by ring]
  field_simp
  ring

/-- The returned centre of mass is near to the plane, also for clamped components. -/
theorem near_plane (a0 : ℝ) (x : V3) (ha : (cubeCutAreaCom a0 (cubePrecomp (x 0) (x 1) (x 2)) (x 0) (x 1) (x 2)).1 ≠ 0) :
    |x 0 * (cubeCutAreaCom a0 (cubePrecomp (x 0) (x 1) (x 2)) (x 0) (x 1) (x 2)).2.1 +
      x 1 * (cubeCutAreaCom a0 (cubePrecomp (x 0) (x 1) (x 2)) (x 0) (x 1) (x 2)).2.2.1 +
      x 2 * (cubeCutAreaCom a0 (cubePrecomp (x 0) (x 1) (x 2)) (x 0) (x 1) (x 2)).2.2.2 - a0| ≤
      3 / 2 / 10 ^ 4 * (Real.sqrt (x 0 ^ 2 + x 1 ^ 2 + x 2 ^ 2) + 1 / 10 ^ 40) := by
  have hN : (cubePrecomp (x 0) (x 1) (x 2)).norm = Real.sqrt (x 0 ^ 2 + x 1 ^ 2 + x 2 ^ 2) + 1 / 10 ^ 40 := by
    simp only [cubePrecomp, Smear.norm3, sq_abs]
  rw [← hN]
  have hax : (cubePrecomp (x 0) (x 1) (x 2)).ax = max (|x 0| / (cubePrecomp (x 0) (x 1) (x 2)).norm) EPSILON := rfl
  have hay : (cubePrecomp (x 0) (x 1) (x 2)).ay = max (|x 1| / (cubePrecomp (x 0) (x 1) (x 2)).norm) EPSILON := rfl
  have haz : (cubePrecomp (x 0) (x 1) (x 2)).az = max (|x 2| / (cubePrecomp (x 0) (x 1) (x 2)).norm) EPSILON := rfl
  have h := cubePrecomp_ok (x 0) (x 1) (x 2)
  have hpos := h.norm
  rw [areaCom_eq] at ha ⊢
  set n := cubePrecomp (x 0) (x 1) (x 2)
  have hq : |a0 / n.norm| < Real.sqrt 3 / 2 := by
    by_contra hq
    simp [hq] at ha
  simp only [if_pos hq] at ha ⊢
  obtain ⟨hA, h1⟩ := comNum_le h.ax h.ay h.az (a0 / n.norm)
  have h2 := (comNum_le h.ay h.ax h.az (a0 / n.norm)).2
  have h3 := (comNum_le h.az h.ax h.ay (a0 / n.norm)).2
  rw [areaNum_perm1] at h2
  rw [areaNum_perm2] at h3
  have hpl := com_plane h.ax.ne' h.ay.ne' h.az.ne' (a0 / n.norm)
  have hA0 : areaNum n.ax n.ay n.az (a0 / n.norm) ≠ 0 := by
    intro h0
    rw [h0] at ha
    simp at ha
  simp only [if_pos hA0]
  have hAp := lt_of_le_of_ne hA hA0.symm
  generalize comNum n.ax n.ay n.az (a0 / n.norm) = C0 at *
  generalize comNum n.ay n.ax n.az (a0 / n.norm) = C1 at *
  generalize comNum n.az n.ax n.ay (a0 / n.norm) = C2 at *
  generalize areaNum n.ax n.ay n.az (a0 / n.norm) = A at *
  have hsg : ∀ y : ℝ, y * sign y = |y| := by
    intro y
    rw [sign]
    split_ifs with h1 h2
    · rw [abs_of_neg h1]; ring
    · rw [abs_of_pos h2, mul_one]
    · have : y = 0 := le_antisymm (not_lt.1 h2) (not_lt.1 h1)
      simp [this]
  have hE : (0 : ℝ) ≤ EPSILON := by rw [EPSILON]; positivity
  have hd : ∀ y : ℝ, |(|y| - n.norm * max (|y| / n.norm) EPSILON)| ≤ n.norm * EPSILON := by
    intro y
    have e : |y| = n.norm * (|y| / n.norm) := by field_simp
    have h0 : 0 ≤ |y| / n.norm := div_nonneg (abs_nonneg _) hpos.le
    rcases le_total (|y| / n.norm) EPSILON with hm | hm
    · rw [max_eq_right hm, abs_sub_comm, abs_of_nonneg]
      · linarith [abs_nonneg y]
      · have := mul_le_mul_of_nonneg_left hm hpos.le
        linarith
    · rw [max_eq_left hm, ← e, sub_self, abs_zero]
      exact mul_nonneg hpos.le hE
  have d0 := hd (x 0)
  have d1 := hd (x 1)
  have d2 := hd (x 2)
  rw [← hax] at d0
  rw [← hay] at d1
  rw [← haz] at d2
  have ea : a0 = n.norm * (n.ax * C0 + n.ay * C1 + n.az * C2) / A := by
    rw [hpl]
    field_simp
  have e : x 0 * (C0 * sign (x 0) / A) + x 1 * (C1 * sign (x 1) / A) + x 2 * (C2 * sign (x 2) / A) - a0 =
      ((|x 0| - n.norm * n.ax) * C0 + (|x 1| - n.norm * n.ay) * C1 + (|x 2| - n.norm * n.az) * C2) / A := by
    have q : ∀ y C : ℝ, y * (C * sign y / A) = |y| * C / A := by
      intro y C
      rw [← hsg y]
      ring
    rw [q, q, q, ea]
    ring
  rw [e, abs_div, abs_of_pos hAp, div_le_iff₀ hAp]
  have m : ∀ u C : ℝ, |u| ≤ n.norm * EPSILON → |C| ≤ A / 2 → |u * C| ≤ n.norm * EPSILON * (A / 2) := by
    intro u C hu hC
    rw [abs_mul]
    exact mul_le_mul hu hC (abs_nonneg _) (mul_nonneg hpos.le hE)
  have m0 := m _ _ d0 h1
  have m1 := m _ _ d1 h2
  have m2 := m _ _ d2 h3
  refine (abs_add_le _ _).trans ((add_le_add ((abs_add_le _ _).trans (add_le_add m0 m1)) m2).trans (le_of_eq ?_))
  rw [EPSILON]
  ring

/-- The returned centre of mass lies on the plane of the linear fit. -/
theorem on_plane (a0 : ℝ) (x : V3) (hst : Spec.Steep x) (ha : (cubeCutAreaCom a0 (cubePrecomp (x 0) (x 1) (x 2)) (x 0) (x 1) (x 2)).1 ≠ 0) :
    x 0 * (cubeCutAreaCom a0 (cubePrecomp (x 0) (x 1) (x 2)) (x 0) (x 1) (x 2)).2.1 +
      x 1 * (cubeCutAreaCom a0 (cubePrecomp (x 0) (x 1) (x 2)) (x 0) (x 1) (x 2)).2.2.1 +
      x 2 * (cubeCutAreaCom a0 (cubePrecomp (x 0) (x 1) (x 2)) (x 0) (x 1) (x 2)).2.2.2 = a0 := by
  have hN : (cubePrecomp (x 0) (x 1) (x 2)).norm = Real.sqrt (x 0 ^ 2 + x 1 ^ 2 + x 2 ^ 2) + 1 / 10 ^ 40 := by
    simp only [cubePrecomp, Smear.norm3, sq_abs]
  have hpos : 0 < (cubePrecomp (x 0) (x 1) (x 2)).norm := by
    rw [hN]
    have := Real.sqrt_nonneg (x 0 ^ 2 + x 1 ^ 2 + x 2 ^ 2)
    positivity
  have hne : ∀ a, x a ≠ 0 := by
    intro a h0
    have := hst a
    rw [h0, abs_zero, ← hN] at this
    have : 0 < (cubePrecomp (x 0) (x 1) (x 2)).norm / 10 ^ 4 := by positivity
    linarith
  have hmax : ∀ a, max (|x a| / (cubePrecomp (x 0) (x 1) (x 2)).norm) EPSILON = |x a| / (cubePrecomp (x 0) (x 1) (x 2)).norm := by
    intro a
    apply max_eq_left
    rw [EPSILON, le_div_iff₀ hpos]
    have := hst a
    rw [← hN] at this
    linarith
  have hsg : ∀ y : ℝ, y ≠ 0 → sign y * |y| = y := by
    intro y hy
    rw [sign]
    rcases lt_or_gt_of_ne hy with h | h
    · rw [if_pos h, abs_of_neg h]; ring
    · rw [if_neg (not_lt.2 h.le), if_pos h, abs_of_pos h, one_mul]
  have key := C59_on_plane a0 (x 0) (x 1) (x 2) (hne 0) (hne 1) (hne 2) ha
  simp only at key
  have e0 : sign (x 0) * (cubePrecomp (x 0) (x 1) (x 2)).ax = x 0 / (cubePrecomp (x 0) (x 1) (x 2)).norm := by
    have : (cubePrecomp (x 0) (x 1) (x 2)).ax = |x 0| / (cubePrecomp (x 0) (x 1) (x 2)).norm := hmax 0
    rw [this, ← mul_div_assoc, hsg _ (hne 0)]
  have e1 : sign (x 1) * (cubePrecomp (x 0) (x 1) (x 2)).ay = x 1 / (cubePrecomp (x 0) (x 1) (x 2)).norm := by
    have : (cubePrecomp (x 0) (x 1) (x 2)).ay = |x 1| / (cubePrecomp (x 0) (x 1) (x 2)).norm := hmax 1
    rw [this, ← mul_div_assoc, hsg _ (hne 1)]
  have e2 : sign (x 2) * (cubePrecomp (x 0) (x 1) (x 2)).az = x 2 / (cubePrecomp (x 0) (x 1) (x 2)).norm := by
    have : (cubePrecomp (x 0) (x 1) (x 2)).az = |x 2| / (cubePrecomp (x 0) (x 1) (x 2)).norm := hmax 2
    rw [this, ← mul_div_assoc, hsg _ (hne 2)]
  rw [e0, e1, e2] at key
  have := hpos.ne'
  field_simp at key
  linarith

/-- C151: every sample comes from a cell and lies in it.  Its gradient is that of the linear fit of the cell.  The linear fit has the wanted value at the sample, up to
0.00015 times the size of the gradient, and exactly if no component of the gradient is clamped. -/
theorem C151_cell (g : Grid) (qr : V3 → Matrix (Fin 3) (Fin 3) ℝ) (value : ℝ) (hA : g.A.det ≠ 0) (hs : ∀ a, g.step a ≠ 0) (s : Smpl)
    (h : s ∈ g.samples qr value) : ∃ i j k, (i < ExtraCubes.cubes g.wrap g.n0 ∧ j < ExtraCubes.cubes g.wrap g.n1 ∧ k < ExtraCubes.cubes g.wrap g.n2) ∧
      (∀ y : V3, s.grad ⬝ᵥ g.B.mulVec (fun a => y a * g.step a) = Spec.normal (g.fit i j k) ⬝ᵥ y) ∧
      (∃ y : V3, (∀ a, |y a| ≤ 1 / 2) ∧ s.x = g.B.mulVec fun a => g.center i j k a + y a * g.step a) ∧
      |(g.fit i j k).1 + s.grad ⬝ᵥ (s.x - g.B.mulVec (g.center i j k)) - value| ≤ Spec.slack (Spec.normal (g.fit i j k)) ∧
      (Spec.Steep (Spec.normal (g.fit i j k)) → (g.fit i j k).1 + s.grad ⬝ᵥ (s.x - g.B.mulVec (g.center i j k)) = value) := by
  obtain ⟨c, hc, hsx⟩ := List.mem_map.1 h
  obtain ⟨hc1, hc2⟩ := List.mem_filter.1 hc
  obtain ⟨⟨i, j, k⟩, hm, rfl⟩ := List.mem_map.1 hc1
  have hmem : s ∈ cubeSamples g.B g.step [g.cutOf qr value (g.center i j k) (g.fit i j k)] :=
    List.mem_map.2 ⟨_, List.mem_filter.2 ⟨List.mem_singleton.2 rfl, hc2⟩, hsx⟩
  obtain ⟨c', hc', h1, -, h2⟩ := C118_cube_gradient g.B g.step _ (B_det g hA) hs s hmem
  rw [List.mem_singleton.1 hc'] at h1 h2
  have e2 := h2 0
  simp only [dotProduct_zero, Pi.zero_apply, zero_mul, zero_add] at e2
  have harea : (0 : ℝ) < (g.cutOf qr value (g.center i j k) (g.fit i j k)).area := lt_trans (by norm_num) h1
  have e4 : (g.cutOf qr value (g.center i j k) (g.fit i j k)).normal ⬝ᵥ (g.cutOf qr value (g.center i j k) (g.fit i j k)).com =
      s.grad ⬝ᵥ (s.x - g.B.mulVec (g.center i j k)) := by
    have : s.grad ⬝ᵥ (s.x - g.B.mulVec (g.center i j k)) =
        -(s.grad ⬝ᵥ (g.B.mulVec (fun a => (g.cutOf qr value (g.center i j k) (g.fit i j k)).center a) - s.x)) := by
      rw [← dotProduct_neg, neg_sub]
      rfl
    rw [this, ← e2]
    ring
  have e5 := Fin.sum_univ_three fun a => (g.cutOf qr value (g.center i j k) (g.fit i j k)).normal a * (g.cutOf qr value (g.center i j k) (g.fit i j k)).com a
  refine ⟨i, j, k, (mem_cells g i j k).1 hm, fun y => ?_, ⟨(g.cutOf qr value (g.center i j k) (g.fit i j k)).com, ?_, ?_⟩, ?_, fun hst => ?_⟩
  · have e1 := h2 y
    have e3 : g.B.mulVec (fun a => y a * g.step a) =
        (g.B.mulVec (fun a => y a * g.step a + (g.cutOf qr value (g.center i j k) (g.fit i j k)).center a) - s.x) -
          (g.B.mulVec (fun a => (g.cutOf qr value (g.center i j k) (g.fit i j k)).center a) - s.x) := by
      rw [sub_sub_sub_cancel_right, ← mulVec_sub]
      congr 1
      funext a
      simp
    rw [e3, dotProduct_sub, ← e1, ← e2]
    simp only [cutOf, Spec.normal]
    ring
  · obtain ⟨i1, i2, i3⟩ := C151_inside (value - (g.fit i j k).1) (g.fit i j k).2.1 (g.fit i j k).2.2.1 (g.fit i j k).2.2.2 (g.fit i j k).2.1 (g.fit i j k).2.2.1
      (g.fit i j k).2.2.2
    intro a
    fin_cases a
    · exact i1
    · exact i2
    · exact i3
  · rw [← hsx]
    simp only
    congr 1
    funext a
    rw [add_comm]
    rfl
  · have e3 := near_plane (value - (g.fit i j k).1) (Spec.normal (g.fit i j k)) harea.ne'
    rw [← e4, dotProduct, e5]
    have e6 : ∀ u v w : ℝ, u + v - w = v - (w - u) := by intros; ring
    rw [e6]
    exact e3
  · have e3 := on_plane (value - (g.fit i j k).1) (Spec.normal (g.fit i j k)) hst harea.ne'
    have e7 := e5.trans e3
    rw [← e4, dotProduct, e7]
    ring

theorem grad_unique (g : Grid) (hA : g.A.det ≠ 0) (hs : ∀ a, g.step a ≠ 0) (u w : V3)
    (h : ∀ y : V3, u ⬝ᵥ g.B.mulVec (fun a => y a * g.step a) = w ⬝ᵥ g.B.mulVec (fun a => y a * g.step a)) : u = w := by
  funext b
  have hx : ∀ x : V3, u ⬝ᵥ x = w ⬝ᵥ x := fun x => ?_
  · have := hx (Pi.single b 1)
    rwa [dotProduct_single_one, dotProduct_single_one] at this
  have := h fun a => (g.B⁻¹.mulVec x) a / g.step a
  have e : (fun a => (g.B⁻¹.mulVec x) a / g.step a * g.step a) = g.B⁻¹.mulVec x := by
    funext a
    exact div_mul_cancel₀ _ (hs a)
  rw [e, mulVec_mulVec, mul_nonsing_inv _ (isUnit_iff_ne_zero.2 (B_det g hA)), one_mulVec] at this
  exact this

/-- The fit of affine values. -/
theorem fit_affine (g : Grid) (o s G : V3) (α : ℝ) (hr : Spec.Regular g o s) (hw : g.wrap = false) (hg : g.grads = none)
    (hv : ∀ i j k, i < g.n0 → j < g.n1 → k < g.n2 → g.v i j k = α + G ⬝ᵥ g.P i j k) (i j k : ℕ)
    (hm : i < ExtraCubes.cubes g.wrap g.n0 ∧ j < ExtraCubes.cubes g.wrap g.n1 ∧ k < ExtraCubes.cubes g.wrap g.n2) :
    (g.fit i j k).1 = α + G ⬝ᵥ g.B.mulVec (g.center i j k) ∧ Spec.normal (g.fit i j k) = fun a => vecMul G g.B a * s a := by
  rw [hw] at hm
  simp only [ExtraCubes.cubes, Bool.false_eq_true, if_false] at hm
  obtain ⟨hi, hj, hk⟩ := hm
  have hP : ∀ i j k, G ⬝ᵥ g.P i j k = vecMul G g.B ⬝ᵥ fun a => o a + s a * ![(i : ℝ), j, k] a := by
    intro i j k
    rw [hr.2.2, ← Grid.B, dotProduct_mulVec]
  have e : g.fit i j k = ((α + G ⬝ᵥ g.P i j k) + (vecMul G g.B 0 * s 0) * (1 / 2) + (vecMul G g.B 1 * s 1) * (1 / 2) + (vecMul G g.B 2 * s 2) * (1 / 2),
      vecMul G g.B 0 * s 0, vecMul G g.B 1 * s 1, vecMul G g.B 2 * s 2) := by
    rw [fit, hg]
    exact C58_grid_linear g.n0 g.n1 g.n2 g.v (α + G ⬝ᵥ g.P i j k) (vecMul G g.B 0 * s 0) (vecMul G g.B 1 * s 1) (vecMul G g.B 2 * s 2) i j k
      (by omega) (by omega) (by omega) (by
        intro a ha b hb c hc
        rw [hv _ _ _ (by omega) (by omega) (by omega), hP, hP, dotProduct, dotProduct, Fin.sum_univ_three, Fin.sum_univ_three]
        simp only [cons_val_zero, cons_val_one, cons_val]
        push_cast
        ring)
  constructor
  · rw [e, hP, center, hg]
    simp only
    rw [dotProduct_mulVec, crystal_eq g o s hr, step_eq g o s hr, dotProduct, dotProduct, Fin.sum_univ_three, Fin.sum_univ_three]
    simp only [cons_val_zero, cons_val_one, cons_val]
    ring
  · rw [e, Spec.normal]
    funext a
    fin_cases a <;> rfl

/-- C151: for affine values on a regular grid every sample has the exact gradient, and lies on the surface up to the slack, exactly if no component of the gradient is
clamped. -/
theorem C151_affine (g : Grid) (qr : V3 → Matrix (Fin 3) (Fin 3) ℝ) (value : ℝ) (o s G : V3) (α : ℝ) (hr : Spec.Regular g o s) (hw : g.wrap = false)
    (hg : g.grads = none) (hv : ∀ i j k, i < g.n0 → j < g.n1 → k < g.n2 → g.v i j k = α + G ⬝ᵥ g.P i j k) (p : Smpl) (hp : p ∈ g.samples qr value) :
    p.grad = G ∧ |α + G ⬝ᵥ p.x - value| ≤ Spec.slack (fun a => vecMul G g.B a * s a) ∧ (Spec.Steep (fun a => vecMul G g.B a * s a) → α + G ⬝ᵥ p.x = value) := by
  have hs : ∀ a, g.step a ≠ 0 := by
    rw [step_eq g o s hr]
    exact hr.2.1
  obtain ⟨i, j, k, hm, h1, -, h3, h2⟩ := C151_cell g qr value hr.1 hs p hp
  obtain ⟨e1, e2⟩ := fit_affine g o s G α hr hw hg hv i j k hm
  have hG : p.grad = G := by
    apply grad_unique g hr.1 hs
    intro y
    rw [h1, e2, dotProduct_mulVec, step_eq g o s hr, dotProduct, dotProduct]
    exact Finset.sum_congr rfl fun a _ => by ring
  rw [← e2]
  refine ⟨hG, ?_, fun hst => ?_⟩
  · rw [e1, hG, dotProduct_sub] at h3
    have e3 : α + G ⬝ᵥ g.B.mulVec (g.center i j k) + (G ⬝ᵥ p.x - G ⬝ᵥ g.B.mulVec (g.center i j k)) - value = α + G ⬝ᵥ p.x - value := by ring
    rwa [e3] at h3
  have := h2 hst
  rw [e1, hG, dotProduct_sub] at this
  linarith

/-- C151: with given gradients (which must be wrapped) the samples of affine values with their gradient are exact as well. -/
theorem C151_affine_grads (g : Grid) (qr : V3 → Matrix (Fin 3) (Fin 3) ℝ) (value : ℝ) (o s G : V3) (α : ℝ) (hr : Spec.Regular g o s)
    (hg : g.grads = some fun _ _ _ => G) (hv : ∀ i j k, g.v i j k = α + G ⬝ᵥ g.P i j k) (p : Smpl) (hp : p ∈ g.samples qr value) :
    p.grad = G ∧ |α + G ⬝ᵥ p.x - value| ≤ Spec.slack (fun a => vecMul G g.B a * s a) ∧ (Spec.Steep (fun a => vecMul G g.B a * s a) → α + G ⬝ᵥ p.x = value) := by
  have hs : ∀ a, g.step a ≠ 0 := by
    rw [step_eq g o s hr]
    exact hr.2.1
  obtain ⟨i, j, k, hm, h1, -, h3, h2⟩ := C151_cell g qr value hr.1 hs p hp
  have e1 : (g.fit i j k).1 = α + G ⬝ᵥ g.B.mulVec (g.center i j k) := by
    rw [fit, center, hg]
    simp only
    rw [hv, hr.2.2, crystal_eq g o s hr]
    rfl
  have e2 : Spec.normal (g.fit i j k) = fun a => vecMul G g.B a * s a := by
    rw [fit, hg, Spec.normal, step_eq g o s hr]
    funext a
    fin_cases a <;> rfl
  have hG : p.grad = G := by
    apply grad_unique g hr.1 hs
    intro y
    rw [h1, e2, dotProduct_mulVec, step_eq g o s hr, dotProduct, dotProduct]
    exact Finset.sum_congr rfl fun a _ => by ring
  rw [← e2]
  refine ⟨hG, ?_, fun hst => ?_⟩
  · rw [e1, hG, dotProduct_sub] at h3
    have e3 : α + G ⬝ᵥ g.B.mulVec (g.center i j k) + (G ⬝ᵥ p.x - G ⬝ᵥ g.B.mulVec (g.center i j k)) - value = α + G ⬝ᵥ p.x - value := by ring
    rwa [e3] at h3
  have := h2 hst
  rw [e1, hG, dotProduct_sub] at this
  linarith

/-- C151: `ExtraCubesSmearing` gives the samples of `CubesSmearing`: there is no extrapolation in them. -/
theorem C151_extra (g : Grid) (qr : V3 → Matrix (Fin 3) (Fin 3) ℝ) (value : ℝ) (hg : g.grads = none) : g.samplesExtra qr value = g.samples qr value := by
  rw [samplesExtra, samples]
  congr 1
  refine List.map_congr_left fun c _ => ?_
  rw [center, fit, hg]
  rfl

/-- C151: there is one sample for every cell whose area is above 1e-4, in the order of the cells. -/
theorem C151_count (g : Grid) (qr : V3 → Matrix (Fin 3) (Fin 3) ℝ) (value : ℝ) :
    (g.samples qr value).map (fun p => p.grad) = (g.cells.filter fun c => decide (1 / 10000 <
      (cubePrecomp (g.fit c.1 c.2.1 c.2.2).2.1 (g.fit c.1 c.2.1 c.2.2).2.2.1 (g.fit c.1 c.2.1 c.2.2).2.2.2).norm * cubeCutDvolume (value - (g.fit c.1 c.2.1 c.2.2).1)
        (cubePrecomp (g.fit c.1 c.2.1 c.2.2).2.1 (g.fit c.1 c.2.1 c.2.2).2.2.1 (g.fit c.1 c.2.1 c.2.2).2.2.2))).map fun c =>
        vecMul (fun a => Spec.normal (g.fit c.1 c.2.1 c.2.2) a / g.step a) g.B⁻¹ := by
  rw [samples, cubeSamples, List.filter_map, List.map_map, List.map_map]
  have : ((fun c : Cut => decide (1 / 10000 < c.area)) ∘ fun c : ℕ × ℕ × ℕ => g.cutOf qr value (g.center c.1 c.2.1 c.2.2) (g.fit c.1 c.2.1 c.2.2)) =
      fun c => decide (1 / 10000 < (cubePrecomp (g.fit c.1 c.2.1 c.2.2).2.1 (g.fit c.1 c.2.1 c.2.2).2.2.1 (g.fit c.1 c.2.1 c.2.2).2.2.2).norm *
        cubeCutDvolume (value - (g.fit c.1 c.2.1 c.2.2).1)
        (cubePrecomp (g.fit c.1 c.2.1 c.2.2).2.1 (g.fit c.1 c.2.1 c.2.2).2.2.1 (g.fit c.1 c.2.1 c.2.2).2.2.2)) := by
    funext c
    refine decide_eq_decide.2 (Eq.to_iff (congrArg (fun x : ℝ => 1 / 10000 < x) ?_))
    exact C59_area _ _ _ _ (g.fit c.1 c.2.1 c.2.2).2.1 (g.fit c.1 c.2.1 c.2.2).2.2.1 (g.fit c.1 c.2.1 c.2.2).2.2.2
  rw [this]
  rfl

/-- C151: the weight divided by the size of the gradient is the density of states of the cell (the derivative of `volume`) times the volume of a cell in reciprocal
space. -/
theorem C151_density (g : Grid) (qr : V3 → Matrix (Fin 3) (Fin 3) ℝ) (hqr : ∀ n, FermiSamples.Spec.IsQ (qr n) n) (value : ℝ) (hA : g.A.det ≠ 0)
    (hs : ∀ a, g.step a ≠ 0) (p : Smpl) (hp : p ∈ g.samples qr value) (hn : p.grad ≠ 0) :
    ∃ c ∈ g.cells, 0 < FermiSamples.norm3 p.grad ∧ p.w / FermiSamples.norm3 p.grad =
      cubeCutDvolume (value - (g.fit c.1 c.2.1 c.2.2).1) (cubePrecomp (g.fit c.1 c.2.1 c.2.2).2.1 (g.fit c.1 c.2.1 c.2.2).2.2.1 (g.fit c.1 c.2.1 c.2.2).2.2.2) *
        (1 + 1 / 10 ^ 40 / FermiSamples.norm3 (Spec.normal (g.fit c.1 c.2.1 c.2.2))) * |g.A.det|⁻¹ * |g.step 0 * g.step 1 * g.step 2| := by
  obtain ⟨c, hc, e⟩ := List.mem_map.1 hp
  obtain ⟨hc1, hc2⟩ := List.mem_filter.1 hc
  obtain ⟨q, hq, rfl⟩ := List.mem_map.1 hc1
  set c := g.cutOf qr value (g.center q.1 q.2.1 q.2.2) (g.fit q.1 q.2.1 q.2.2) with hcd
  have hne' : Spec.normal (g.fit q.1 q.2.1 q.2.2) ≠ 0 := by
    intro h0
    apply hn
    rw [← e]
    change vecMul (fun a => Spec.normal (g.fit q.1 q.2.1 q.2.2) a / g.step a) _ = 0
    rw [h0]
    simp only [Pi.zero_apply, zero_div]
    exact zero_vecMul _
  obtain ⟨c', hc', h1, h2⟩ := C118_coarea g.B g.step [c] (B_det g hA) hs (by
    intro c' hc'
    rw [List.mem_singleton.1 hc']
    exact ⟨hne', _, _, hqr _, hqr _, rfl⟩) p (List.mem_map.2 ⟨c, List.mem_filter.2 ⟨List.mem_singleton.2 rfl, hc2⟩, e⟩)
  rw [List.mem_singleton.1 hc'] at h2
  refine ⟨q, hq, h1, ?_⟩
  rw [h2]
  have hB : |g.B.det| = |g.A.det|⁻¹ := by
    rw [Grid.B, det_transpose, det_nonsing_inv, Ring.inverse_eq_inv', abs_inv]
  have ha : c.area = _ := C59_area (value - (g.fit q.1 q.2.1 q.2.2).1) (g.fit q.1 q.2.1 q.2.2).2.1 (g.fit q.1 q.2.1 q.2.2).2.2.1
    (g.fit q.1 q.2.1 q.2.2).2.2.2 (g.fit q.1 q.2.1 q.2.2).2.1 (g.fit q.1 q.2.1 q.2.2).2.2.1 (g.fit q.1 q.2.1 q.2.2).2.2.2
  have hN : (cubePrecomp (g.fit q.1 q.2.1 q.2.2).2.1 (g.fit q.1 q.2.1 q.2.2).2.2.1 (g.fit q.1 q.2.1 q.2.2).2.2.2).norm =
      FermiSamples.norm3 (Spec.normal (g.fit q.1 q.2.1 q.2.2)) + 1 / 10 ^ 40 := by
    simp only [cubePrecomp, Smear.norm3, sq_abs, FermiSamples.norm3, Fin.sum_univ_three, Spec.normal]
    rfl
  have hne : FermiSamples.norm3 (Spec.normal (g.fit q.1 q.2.1 q.2.2)) ≠ 0 := norm3_ne hne'
  rw [ha, hN, hB]
  change _ / FermiSamples.norm3 (Spec.normal (g.fit q.1 q.2.1 q.2.2)) * _ = _
  generalize cubeCutDvolume _ _ = D
  field_simp

/-- There is a decomposition as assumed in `C151_density`. -/
theorem exists_qr : ∃ qr : V3 → Matrix (Fin 3) (Fin 3) ℝ, ∀ n, FermiSamples.Spec.IsQ (qr n) n := by
  have h : ∀ n : V3, ∃ Q, FermiSamples.Spec.IsQ Q n := by
    intro n
    by_cases hn : n = 0
    · exact ⟨1, by simp, 0, fun a => by simp [hn]⟩
    have hr := norm3_ne hn
    set r := FermiSamples.norm3 n
    have hr2 : r ^ 2 = n 0 ^ 2 + n 1 ^ 2 + n 2 ^ 2 := by
      rw [norm3_sq, dotProduct, Fin.sum_univ_three]
      ring
    by_cases h0 : n 0 = r
    · refine ⟨1, by simp, r, fun a => ?_⟩
      rw [h0] at hr2
      have h12 : n 1 = 0 ∧ n 2 = 0 := by
        constructor <;> nlinarith [sq_nonneg (n 1), sq_nonneg (n 2)]
      fin_cases a
      · simpa [one_apply] using h0
      · simpa [one_apply] using h12.1
      · simpa [one_apply] using h12.2
    · have hd : r - n 0 ≠ 0 := sub_ne_zero.2 fun h => h0 h.symm
      let w : V3 := ![n 0 - r, n 1, n 2]
      refine ⟨Matrix.of fun a b => (if a = b then 1 else 0) - w a * w b / (r * (r - n 0)), ?_, r, fun a => ?_⟩
      · have hw : w 0 ^ 2 + w 1 ^ 2 + w 2 ^ 2 = 2 * (r * (r - n 0)) := by
          simp only [w, cons_val_zero, cons_val_one, cons_val]
          linear_combination -hr2
        have hm : r * (r - n 0) ≠ 0 := mul_ne_zero hr hd
        generalize r * (r - n 0) = m at hw hm
        generalize w = w at hw
        ext a b
        rw [mul_apply, Fin.sum_univ_three]
        simp only [transpose_apply, of_apply]
        have key : w a * w b * (w 0 ^ 2 + w 1 ^ 2 + w 2 ^ 2) = 2 * m * (w a * w b) := by rw [hw]; ring
        fin_cases a <;> fin_cases b <;> simp [one_apply] at key ⊢ <;> field_simp <;> linear_combination key
      · fin_cases a
        · simp [w]
          field_simp
          ring
        · simp [w]
          field_simp
          ring
        · simp [w]
          field_simp
          ring
  exact ⟨fun n => (h n).choose, fun n => (h n).choose_spec⟩

/-- The lattice of unit cubes with the values `i + j + k`. -/
noncomputable def unitGrid : Grid := ⟨1, 3, 3, 3, fun i j k => ![(i : ℝ), j, k], fun i j k => i + j + k, none, false⟩

theorem unitGrid_regular : Spec.Regular unitGrid 0 1 := by
  refine ⟨by simp [unitGrid], fun a => by simp, fun i j k => ?_⟩
  simp only [unitGrid, inv_one, transpose_one, one_mulVec]
  funext a
  simp

theorem unitGrid_steep : Spec.Steep (fun a => vecMul ![1, 1, 1] unitGrid.B a * (1 : V3) a) := by
  intro a
  have hB : unitGrid.B = 1 := by simp [Grid.B, unitGrid]
  simp only [hB, vecMul_one, Pi.one_apply, mul_one, cons_val_zero, cons_val_one, cons_val]
  have h3 : Real.sqrt (1 ^ 2 + 1 ^ 2 + 1 ^ 2) ≤ 2 := Real.sqrt_le_iff.2 ⟨by norm_num, by norm_num⟩
  have : |(![1, 1, 1] : V3) a| = 1 := by fin_cases a <;> simp
  rw [this, div_le_iff₀ (by norm_num)]
  have : (1 : ℝ) / 10 ^ 40 ≤ 1 := by norm_num
  exact (add_le_add h3 this).trans (by norm_num)

/-- All samples of the grid of values `i + j + k` lie on the plane `x + y + z = 3/2`. -/
example (qr : V3 → Matrix (Fin 3) (Fin 3) ℝ) (p : Smpl) (hp : p ∈ unitGrid.samples qr (3 / 2)) :
    p.grad = ![1, 1, 1] ∧ p.x 0 + p.x 1 + p.x 2 = 3 / 2 := by
  obtain ⟨h1, -, h2⟩ := C151_affine unitGrid qr (3 / 2) 0 1 ![1, 1, 1] 0 unitGrid_regular rfl rfl (fun i j k _ _ _ => by
    simp [unitGrid, dotProduct, Fin.sum_univ_three]) p hp
  refine ⟨h1, ?_⟩
  have := h2 unitGrid_steep
  rw [dotProduct, Fin.sum_univ_three] at this
  simpa using this

/-- Also the samples of a grid whose values are constant along two axes are near the surface. -/
example (qr : V3 → Matrix (Fin 3) (Fin 3) ℝ) (p : Smpl) (hp : p ∈ (⟨1, 3, 3, 3, fun i j k => ![(i : ℝ), j, k], fun i _ _ => i, none, false⟩ : Grid).samples qr 1) :
    p.grad = ![1, 0, 0] ∧ |p.x 0 - 1| ≤ 3 / 10 ^ 4 := by
  obtain ⟨h1, h2, -⟩ := C151_affine _ qr 1 0 1 ![1, 0, 0] 0 (show Spec.Regular ⟨1, 3, 3, 3, fun i j k => ![(i : ℝ), j, k], fun i _ _ => i, none, false⟩ 0 1 from
    unitGrid_regular) rfl rfl (fun i j k _ _ _ => by simp [dotProduct, Fin.sum_univ_three]) p hp
  refine ⟨h1, ?_⟩
  have e : (fun a => vecMul ![1, 0, 0] (⟨1, 3, 3, 3, fun i j k => ![(i : ℝ), j, k], fun i _ _ => i, none, false⟩ : Grid).B a * (1 : V3) a) = ![1, 0, 0] := by
    simp [Grid.B]
  rw [e, Spec.slack, dotProduct, Fin.sum_univ_three] at h2
  simp only [cons_val_zero, cons_val_one, cons_val, zero_add, one_mul, zero_mul, add_zero] at h2
  refine h2.trans ?_
  norm_num

/-- The same with given gradients. -/
example (qr : V3 → Matrix (Fin 3) (Fin 3) ℝ) (p : Smpl) (hp : p ∈ (⟨1, 3, 3, 3, fun i j k => ![(i : ℝ), j, k], fun i j k => i + j + k,
    some fun _ _ _ => ![1, 1, 1], true⟩ : Grid).samples qr 2) : p.grad = ![1, 1, 1] := by
  refine (C151_affine_grads _ qr 2 0 1 ![1, 1, 1] 0 ?_ rfl (fun i j k => by simp [dotProduct, Fin.sum_univ_three]) p hp).1
  exact unitGrid_regular

/-- The cell at the origin is cut. -/
theorem unitGrid_cut (qr : V3 → Matrix (Fin 3) (Fin 3) ℝ) : ∃ p, p ∈ unitGrid.samples qr (3 / 2) := by
  have hf : unitGrid.fit 0 0 0 = (3 / 2, 1, 1, 1) := by
    simp only [fit, unitGrid]
    rw [C58_grid_linear 3 3 3 _ 0 1 1 1 0 0 0 (by norm_num) (by norm_num) (by norm_num) (fun a _ b _ c _ => by push_cast; ring)]
    norm_num
  have h := cubePrecomp_ok 1 1 1
  have ha : (1 : ℝ) / 10000 < (cubePrecomp 1 1 1).norm * cubeCutDvolume (3 / 2 - 3 / 2) (cubePrecomp 1 1 1) := by
    rw [cubeCutDvolume_eq _ h, mul_div_cancel₀ _ h.norm.ne', sub_self, zero_div]
    have e : cubePrecomp 1 1 1 = ⟨(cubePrecomp 1 1 1).ax, (cubePrecomp 1 1 1).ax, (cubePrecomp 1 1 1).ax, (cubePrecomp 1 1 1).norm⟩ := rfl
    have h0 := h.ax
    have h1 : (cubePrecomp 1 1 1).ax ≤ 1 := by
      have hs : (1 : ℝ) ≤ Real.sqrt (|1| ^ 2 + |1| ^ 2 + |1| ^ 2) := Real.one_le_sqrt.2 (by norm_num)
      simp only [cubePrecomp, Smear.norm3, EPSILON]
      refine max_le ?_ (by norm_num)
      rw [abs_one] at hs ⊢
      rw [div_le_one (by positivity)]
      have : (0 : ℝ) < 1 / 10 ^ 40 := by positivity
      exact hs.trans (le_add_of_nonneg_right this.le)
    rw [e]
    simp only
    generalize (cubePrecomp 1 1 1).ax = a at h0 h1
    rw [dg3, pp_of_nonneg (by linarith), pp_of_nonneg (by linarith), pp_of_nonneg (by linarith),
      pp_of_nonneg (by linarith), pp_of_nonpos (by linarith), pp_of_nonpos (by linarith), pp_of_nonpos (by linarith),
      pp_of_nonpos (by linarith), lt_div_iff₀ (by positivity)]
    nlinarith [mul_pos h0 h0, mul_pos (mul_pos h0 h0) h0]
  have hmem : ((0, 0, 0) : ℕ × ℕ × ℕ) ∈ unitGrid.cells := (mem_cells unitGrid 0 0 0).2 (by simp [unitGrid, ExtraCubes.cubes])
  have := C151_count unitGrid qr (3 / 2)
  have hl : unitGrid.samples qr (3 / 2) ≠ [] := by
    intro h0
    rw [h0, List.map_nil, eq_comm, List.map_eq_nil_iff, List.filter_eq_nil_iff] at this
    refine this _ hmem ?_
    simp only [hf]
    exact decide_eq_true ha
  exact List.exists_mem_of_ne_nil _ hl

/-- The hypotheses of `C151_cell` and `C151_density` are met. -/
example : ∃ (qr : V3 → Matrix (Fin 3) (Fin 3) ℝ) (p : Smpl), (∀ n, FermiSamples.Spec.IsQ (qr n) n) ∧ p ∈ unitGrid.samples qr (3 / 2) ∧ p.grad ≠ 0 ∧
    unitGrid.A.det ≠ 0 ∧ ∀ a, unitGrid.step a ≠ 0 := by
  obtain ⟨qr, hq⟩ := exists_qr
  obtain ⟨p, hp⟩ := unitGrid_cut qr
  refine ⟨qr, p, hq, hp, ?_, unitGrid_regular.1, ?_⟩
  · have h1 := (C151_affine unitGrid qr (3 / 2) 0 1 ![1, 1, 1] 0 unitGrid_regular rfl rfl (fun i j k _ _ _ => by
      simp [unitGrid, dotProduct, Fin.sum_univ_three]) p hp).1
    rw [h1]
    intro h
    have := congrFun h 0
    simp at this
  · rw [step_eq unitGrid 0 1 unitGrid_regular]
    intro a
    simp

/-- C151: the exceptions of the constructors; `ExtraCubesSmearing` needs an even number of cubes along every axis. -/
theorem C151_make (g : Grid) :
    (g.make = .ok g ↔ g.A.det ≠ 0 ∧ 2 ≤ g.n0 ∧ 2 ≤ g.n1 ∧ 2 ≤ g.n2 ∧ (g.grads.isSome → g.wrap = true)) ∧
    (g.A.det ≠ 0 → 2 ≤ g.n0 → 2 ≤ g.n1 → 2 ≤ g.n2 → g.grads.isSome → g.wrap = false → g.make = .error .notImplemented) ∧
    (g.makeExtra = .ok g ↔ g.A.det ≠ 0 ∧ 2 ≤ g.n0 ∧ 2 ≤ g.n1 ∧ 2 ≤ g.n2 ∧
      (if g.wrap then g.n0 % 2 = 0 ∧ g.n1 % 2 = 0 ∧ g.n2 % 2 = 0 else g.n0 % 2 = 1 ∧ g.n1 % 2 = 1 ∧ g.n2 % 2 = 1)) := by
  refine ⟨?_, ?_, ?_⟩
  · rw [make]
    by_cases h1 : g.A.det = 0
    · simp [h1]
    rw [if_neg h1]
    by_cases h2 : g.n0 < 2 ∨ g.n1 < 2 ∨ g.n2 < 2
    · rw [if_pos h2]
      constructor
      · intro h; cases h
      · rintro ⟨-, a, b, c, -⟩; omega
    rw [if_neg h2]
    by_cases h3 : g.grads.isSome = true ∧ g.wrap = false
    · rw [if_pos h3]
      constructor
      · intro h; cases h
      · rintro ⟨-, -, -, -, h⟩
        have := h h3.1
        rw [h3.2] at this
        cases this
    · rw [if_neg h3]
      refine ⟨fun _ => ⟨h1, by omega, by omega, by omega, fun h => ?_⟩, fun _ => rfl⟩
      by_contra hw
      exact h3 ⟨h, by simpa using hw⟩
  · intro h1 a b c h h'
    rw [make, if_neg h1, if_neg (by omega), if_pos ⟨h, h'⟩]
  · rw [makeExtra]
    by_cases h1 : g.A.det = 0
    · simp [h1]
    rw [if_neg h1, ExtraCubes.make]
    by_cases h2 : g.n0 < 2 ∨ g.n1 < 2 ∨ g.n2 < 2
    · rw [if_pos h2]
      constructor
      · intro h; cases h
      · rintro ⟨-, a, b, c, -⟩; omega
    rw [if_neg h2]
    by_cases h3 : ExtraCubes.cubes g.wrap g.n0 % 2 = 0 ∧ ExtraCubes.cubes g.wrap g.n1 % 2 = 0 ∧ ExtraCubes.cubes g.wrap g.n2 % 2 = 0
    · rw [if_pos h3]
      refine ⟨fun _ => ⟨h1, by omega, by omega, by omega, ?_⟩, fun _ => rfl⟩
      cases hw : g.wrap <;> rw [hw] at h3 <;> simp only [ExtraCubes.cubes, Bool.false_eq_true, if_false, if_true] at h3 ⊢ <;> omega
    · rw [if_neg h3]
      constructor
      · intro h; cases h
      · rintro ⟨-, a, b, c, h⟩
        exfalso
        apply h3
        cases hw : g.wrap <;> rw [hw] at h <;> simp only [ExtraCubes.cubes, Bool.false_eq_true, if_false, if_true] at h ⊢ <;> omega

example : unitGrid.make = .ok unitGrid ∧ unitGrid.makeExtra = .ok unitGrid :=
  ⟨(C151_make unitGrid).1.2 ⟨unitGrid_regular.1, by simp [unitGrid]⟩, (C151_make unitGrid).2.2.2 ⟨unitGrid_regular.1, by simp [unitGrid]⟩⟩

end TB.PropsCubeSamples

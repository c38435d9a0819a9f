import Verif.Lemmas.TetraLimit
import Verif.Lemmas.CellVol
import Verif.Model.TetraGrid

/-!
# Property theorems of C146: the tetrahedron method for arbitrary corner values

C46 needs pairwise different values at the corners of a tetrahedron, none of which is clamped.  Equal values are the rule on
symmetric grids.  Here there is no such restriction: the only case left out is a tetrahedron on which the function is constant
and equal to the value asked for, which `C146_flat` treats on its own.
-/

namespace TB.PropsTetraAll

open TB.Smear MeasureTheory

/-- The function is not constant, or it is constant and different from zero. -/
def Spec.Fine (a0 ax ay az : ℝ) : Prop :=
  1 / 10 ^ 50 ≤ Real.sqrt (ax ^ 2 + ay ^ 2 + az ^ 2) ∨ (ax = 0 ∧ ay = 0 ∧ az = 0 ∧ 4 / 10 ^ 59 ≤ |a0|)

theorem norm_zero : norm3 0 0 0 (1 / 10 ^ 50) = 1 / 10 ^ 50 := by
  rw [norm3]; norm_num

theorem clampTo_zero {c t : ℝ} (h : 0 < c) : clampTo c t 0 = t := by
  rw [clampTo, abs_zero, if_pos h]

theorem sort3_zero : sort3 (0 : ℝ) 0 0 = (0, 0, 0) := by simp [sort3]

/-- The volume of a tetrahedron on which the function is constant. -/
theorem flat_value (a0 : ℝ) : unitTetraCutVolume a0 0 0 0 =
    (if a0 < 0 then tvol (-(a0 * 10 ^ 50)) (-4 / 10 ^ 9) (1 / 10 ^ 9) (2 / 10 ^ 9)
      else 1 - tvol (a0 * 10 ^ 50) (-4 / 10 ^ 9) (1 / 10 ^ 9) (2 / 10 ^ 9)) / 6 := by
  have e : a0 / (1 / 10 ^ 50) = a0 * 10 ^ 50 := by rw [div_div_eq_mul_div, div_one]
  rw [unitTetra_eq, norm_zero, zero_div, sort3_zero]
  simp only [e, zero_add, neg_zero, sorted]
  rw [clampTo_zero (by norm_num), clampTo_zero (by norm_num), clampTo_zero (by norm_num)]
  have hs : a0 * 10 ^ 50 < 0 ↔ a0 < 0 := by
    constructor
    · intro h
      by_contra hc
      push Not at hc
      have : 0 ≤ a0 * 10 ^ 50 := by positivity
      linarith
    · intro h
      exact mul_neg_of_neg_of_pos h (by positivity)
  by_cases h : a0 < 0
  · rw [if_pos h, if_pos (hs.2 h)]
  · rw [if_neg h, if_neg (fun h' => h (hs.1 h'))]

theorem tvol_far {b x y z : ℝ} (h1 : 0 ≤ b) (h2 : -x ≤ b) : tvol b x y z = 0 := by
  rw [tvol, max_eq_left (by linarith), max_eq_left (by linarith)]
  norm_num

theorem generic123 : Smear.Spec.Generic 1 2 3 := ⟨by norm_num, by norm_num, by norm_num, by norm_num, by norm_num, by norm_num⟩

theorem tetra_full {a0 ax ay az : ℝ} (h0 : 0 < a0) (hx : 0 < a0 + ax) (hy : 0 < a0 + ay) (hz : 0 < a0 + az) :
    Smear.Spec.tetra a0 ax ay az = 1 / 6 := by
  have e : Smear.Spec.tetra a0 ax ay az = Smear.Spec.tetra 1 1 2 3 := by
    rw [tetra_measure, tetra_measure]
    congr 1
    ext ⟨x, y, z⟩
    simp only [tset, Set.mem_ofPred_eq]
    refine and_congr_right fun h1 => and_congr_right fun h2 => and_congr_right fun h3 => ⟨fun _ => ?_, fun _ => ?_⟩
    · linarith [h1.1, h2.1, h3.1]
    · have : a0 + ax * x + ay * y + az * z =
          a0 * (1 - x - y - z) + (a0 + ax) * x + (a0 + ay) * y + (a0 + az) * z := by ring
      rw [this]
      have p0 : 0 ≤ a0 * (1 - x - y - z) := mul_nonneg h0.le (by linarith [h3.2])
      have p1 := mul_pos hx h1.1
      have p2 := mul_pos hy h2.1
      have p3 := mul_pos hz h3.1
      linarith
  rw [e, tetra_eq generic123, dd]
  norm_num [pp]

theorem tetra_empty {a0 ax ay az : ℝ} (h0 : a0 ≤ 0) (hx : a0 + ax ≤ 0) (hy : a0 + ay ≤ 0) (hz : a0 + az ≤ 0) :
    Smear.Spec.tetra a0 ax ay az = 0 := by
  rw [tetra_measure, show tset a0 ax ay az = ∅ from ?_]
  · simp
  · refine Set.eq_empty_of_forall_notMem ?_
    rintro ⟨x, y, z⟩ ⟨h1, h2, h3, h4⟩
    simp only at h1 h2 h3 h4
    have : a0 + ax * x + ay * y + az * z =
        a0 * (1 - x - y - z) + (a0 + ax) * x + (a0 + ay) * y + (a0 + az) * z := by ring
    rw [this] at h4
    have p0 : a0 * (1 - x - y - z) ≤ 0 := mul_nonpos_of_nonpos_of_nonneg h0 (by linarith [h3.2])
    have p1 := mul_nonpos_of_nonpos_of_nonneg hx h1.1.le
    have p2 := mul_nonpos_of_nonpos_of_nonneg hy h2.1.le
    have p3 := mul_nonpos_of_nonpos_of_nonneg hz h3.1.le
    linarith

/-! ## One tetrahedron -/

/-- C146.  For all corner values, equal or not, the result differs from the volume of the part of the tetrahedron on which the
linear interpolation is positive by at most `8e-8` (the source promises an error "of magnitude 1e-8 in the special cases"). -/
theorem C146_accuracy (a0 ax ay az : ℝ) (h : Spec.Fine a0 ax ay az) :
    |unitTetraCutVolume a0 ax ay az - Smear.Spec.tetra a0 ax ay az| ≤ 8 / 10 ^ 8 := by
  rcases h with h | ⟨rfl, rfl, rfl, h⟩
  · refine (tetra_error (δ := 8 / 10 ^ 9) h (by norm_num) le_rfl (fun _ _ => Or.inl rfl)).trans (by norm_num)
  · rw [flat_value]
    have hb : ∀ t : ℝ, 4 / 10 ^ 59 ≤ t → (4 : ℝ) / 10 ^ 9 ≤ t * 10 ^ 50 := by
      intro t ht
      calc (4 : ℝ) / 10 ^ 9 = 4 / 10 ^ 59 * 10 ^ 50 := by norm_num
        _ ≤ t * 10 ^ 50 := mul_le_mul_of_nonneg_right ht (by positivity)
    rcases lt_or_ge a0 0 with h0 | h0
    · rw [abs_of_neg h0] at h
      have := hb _ h
      rw [if_pos h0, tvol_far (by linarith [show (0 : ℝ) ≤ 4 / 10 ^ 9 by norm_num])
        (by linarith [show -(-4 / 10 ^ 9 : ℝ) = 4 / 10 ^ 9 by norm_num]),
        tetra_empty h0.le (by linarith) (by linarith) (by linarith)]
      norm_num
    · rw [abs_of_nonneg h0] at h
      have := hb _ h
      have h1 : 0 < a0 := lt_of_lt_of_le (by norm_num) h
      rw [if_neg (not_lt.2 h0), tvol_far (by linarith [show (0 : ℝ) ≤ 4 / 10 ^ 9 by norm_num])
        (by linarith [show -(-4 / 10 ^ 9 : ℝ) = 4 / 10 ^ 9 by norm_num]),
        tetra_full h1 (by linarith) (by linarith) (by linarith)]
      norm_num

/-- C146.  If no slope is clamped (each is zero-free compared with the norm), the result is the volume itself, also if corner
values are equal. -/
theorem C146_exact (a0 ax ay az : ℝ) (hn : 1 / 10 ^ 50 ≤ Real.sqrt (ax ^ 2 + ay ^ 2 + az ^ 2))
    (h : ∀ u, u = ax ∨ u = ay ∨ u = az → 4 / 10 ^ 9 * (Real.sqrt (ax ^ 2 + ay ^ 2 + az ^ 2) + 1 / 10 ^ 50) ≤ |u|) :
    unitTetraCutVolume a0 ax ay az = Smear.Spec.tetra a0 ax ay az := by
  have := tetra_error (a0 := a0) (δ := 0) hn le_rfl (by norm_num) (fun u hu => Or.inr (by
    have hN : 0 < norm3 ax ay az (1 / 10 ^ 50) := norm3_pos _ _ _ (by positivity)
    rw [abs_div, abs_of_pos hN, le_div_iff₀ hN]
    exact h u hu))
  rw [mul_zero] at this
  exact sub_eq_zero.1 (abs_eq_zero.1 (le_antisymm this (abs_nonneg _)))

/-- Two equal slopes, and a third one: both theorems apply. -/
example : Spec.Fine (-1) 2 2 (-1) ∧ (∀ u : ℝ, u = 2 ∨ u = 2 ∨ u = -1 →
    4 / 10 ^ 9 * (Real.sqrt (2 ^ 2 + 2 ^ 2 + (-1) ^ 2) + 1 / 10 ^ 50) ≤ |u|) := by
  have e : Real.sqrt (2 ^ 2 + 2 ^ 2 + (-1) ^ 2) = 3 := by
    rw [show (2 : ℝ) ^ 2 + 2 ^ 2 + (-1) ^ 2 = 3 ^ 2 by norm_num]
    exact Real.sqrt_sq (by norm_num)
  refine ⟨Or.inl (by rw [e]; norm_num), ?_⟩
  rw [e]
  rintro u (rfl | rfl | rfl) <;> norm_num

/-- A function which depends on one coordinate only. -/
example : Spec.Fine (-1 / 2) 1 0 0 ∧ Spec.Fine 1 0 0 0 := by
  constructor
  · refine Or.inl ?_
    rw [show (1 : ℝ) ^ 2 + 0 ^ 2 + 0 ^ 2 = 1 by norm_num, Real.sqrt_one]
    norm_num
  · exact Or.inr ⟨rfl, rfl, rfl, by norm_num⟩

theorem sort3_mid (a b c : ℝ) : (sort3 a b c).2.1 = a ∨ (sort3 a b c).2.1 = b ∨ (sort3 a b c).2.1 = c := by
  have t := (sort3_track a b c).1.all (fun u => u = a ∨ u = b ∨ u = c) (Or.inl rfl) (Or.inr (Or.inl rfl)) (Or.inr (Or.inr rfl))
  exact t.2.1

/-- C146.  The density is the derivative of the volume for all slopes, clamped or not, wherever the value at none of the three
outer corners is zero. -/
theorem C146_derivative (a0 ax ay az : ℝ) (hx : a0 + ax ≠ 0) (hy : a0 + ay ≠ 0) (hz : a0 + az ≠ 0) :
    HasDerivAt (fun a0 => unitTetraCutVolume a0 ax ay az) (unitTetraCutDvolume a0 ax ay az) a0 := by
  have hN : 0 < norm3 ax ay az (1 / 10 ^ 50) := norm3_pos _ _ _ (by positivity)
  have hv := fun t => unitTetra_eq t ax ay az
  have hd := unitTetraD_eq a0 ax ay az
  simp only at hv hd
  set N := norm3 ax ay az (1 / 10 ^ 50)
  set s := sort3 (ax / N) (ay / N) (az / N) with hs
  have hm : s.2.1 + a0 / N ≠ 0 := by
    have e : ∀ {u : ℝ}, a0 + u ≠ 0 → u / N + a0 / N ≠ 0 := by
      intro u hu
      rw [← add_div]
      exact div_ne_zero (by rwa [add_comm]) hN.ne'
    rcases sort3_mid (ax / N) (ay / N) (az / N) with h | h | h <;> rw [← hs] at h <;> rw [h]
    exacts [e hx, e hy, e hz]
  have hc : Continuous fun t : ℝ => s.2.1 + t / N := by fun_prop
  have hq : HasDerivAt (fun t : ℝ => t / N) (1 / N) a0 := (hasDerivAt_id a0).div_const N
  rw [hd]
  rcases lt_or_gt_of_ne hm with h | h
  · rw [if_pos h]
    have h1 := ((hasDerivAt_tvol (-(a0 / N)) (clampTo (4 / 10 ^ 9) (-4 / 10 ^ 9) (-s.2.2)) (clampTo (1 / 10 ^ 9) (1 / 10 ^ 9) (-s.2.1))
      (clampTo (2 / 10 ^ 9) (2 / 10 ^ 9) (-s.1))).comp a0 hq.neg).div_const 6
    refine (h1.congr_deriv ?_).congr_of_eventuallyEq ?_
    · rw [sorted]
      ring
    · filter_upwards [(hc.continuousAt (x := a0)).eventually (eventually_lt_nhds h)] with t ht
      rw [hv, if_pos ht]
      rfl
  · rw [if_neg (not_lt.2 h.le)]
    have h1 := ((((hasDerivAt_tvol (a0 / N) (clampTo (4 / 10 ^ 9) (-4 / 10 ^ 9) s.1) (clampTo (1 / 10 ^ 9) (1 / 10 ^ 9) s.2.1)
      (clampTo (2 / 10 ^ 9) (2 / 10 ^ 9) s.2.2)).comp a0 hq).const_sub 1)).div_const 6
    refine (h1.congr_deriv ?_).congr_of_eventuallyEq ?_
    · rw [sorted]
      ring
    · filter_upwards [(hc.continuousAt (x := a0)).eventually (eventually_gt_nhds h)] with t ht
      rw [hv, if_neg (not_lt.2 (le_of_lt ht))]
      rfl

/-- A clamped slope. -/
example : (1 : ℝ) / 3 + 0 ≠ 0 ∧ (1 : ℝ) / 3 + 1 ≠ 0 := by norm_num

/-- C146.  On a tetrahedron where the function is zero everywhere the code counts `7/15` of the tetrahedron; nothing of it is
positive. -/
theorem C146_flat : unitTetraCutVolume 0 0 0 0 = 7 / 15 / 6 ∧ Smear.Spec.tetra 0 0 0 0 = 0 := by
  constructor
  · rw [flat_value, if_neg (lt_irrefl _), tvol, guardDiff_of_ne (by norm_num), guardDiff_of_ne (by norm_num), zero_mul,
      max_eq_left (by norm_num), max_eq_right (by norm_num)]
    norm_num
  · exact tetra_empty le_rfl (by norm_num) (by norm_num) (by norm_num)

/-! ## A cell -/

/-- The interpolation of the specification takes the values at the corners. -/
theorem interp_corner (v : Fin 8 → ℝ) (c : Fin 8) :
    Smear.Spec.interp v (if c.val % 2 = 1 then 1 else 0) (if c.val / 2 % 2 = 1 then 1 else 0) (if c.val / 4 % 2 = 1 then 1 else 0) =
      v c := by
  fin_cases c <;> norm_num [Smear.Spec.interp, Smear.Spec.path] <;> rfl

/-- A function which is linear on the cell is interpolated exactly. -/
theorem interp_affine (α β γ δ x y z : ℝ) :
    Smear.Spec.interp (fun c => α + β * (if c.val % 2 = 1 then 1 else 0) + γ * (if c.val / 2 % 2 = 1 then 1 else 0) +
      δ * (if c.val / 4 % 2 = 1 then 1 else 0)) x y z = α + β * x + γ * y + δ * z := by
  set v : Fin 8 → ℝ := fun c => α + β * (if c.val % 2 = 1 then 1 else 0) + γ * (if c.val / 2 % 2 = 1 then 1 else 0) +
    δ * (if c.val / 4 % 2 = 1 then 1 else 0) with hv
  have h0 : v 0 = α := by norm_num [hv]
  have h1 : v 1 = α + β := by norm_num [hv]
  have h2 : v 2 = α + γ := by norm_num [hv]
  have h3 : v 3 = α + β + γ := by norm_num [hv]
  have h4 : v 4 = α + δ := by norm_num [hv]
  have h5 : v 5 = α + β + δ := by norm_num [hv]
  have h6 : v 6 = α + γ + δ := by norm_num [hv]
  have h7 : v 7 = α + β + γ + δ := by norm_num [hv]
  clear_value v
  simp only [Smear.Spec.interp, Smear.Spec.path, h0, h1, h2, h3, h4, h5, h6, h7]
  split_ifs <;> ring

/-- The interpolation stays between bounds on the corner values. -/
theorem interp_bounds {v : Fin 8 → ℝ} {l u : ℝ} (hl : ∀ c, l ≤ v c) (hu : ∀ c, v c ≤ u) {x y z : ℝ} (hx : 0 ≤ x) (hx1 : x ≤ 1)
    (hy : 0 ≤ y) (hy1 : y ≤ 1) (hz : 0 ≤ z) (hz1 : z ≤ 1) :
    l ≤ Smear.Spec.interp v x y z ∧ Smear.Spec.interp v x y z ≤ u := by
  have key : ∀ i j : Fin 8, ∀ a b c : ℝ, 0 ≤ c → c ≤ b → b ≤ a → a ≤ 1 →
      l ≤ Smear.Spec.path v i j a b c ∧ Smear.Spec.path v i j a b c ≤ u := by
    intro i j a b c h0 h1 h2 h3
    have e : Smear.Spec.path v i j a b c = v 0 * (1 - a) + v i * (a - b) + v j * (b - c) + v 7 * c := by
      rw [Smear.Spec.path]; ring
    rw [e]
    have l1 := mul_le_mul_of_nonneg_right (hl 0) (show 0 ≤ 1 - a by linarith)
    have l2 := mul_le_mul_of_nonneg_right (hl i) (show 0 ≤ a - b by linarith)
    have l3 := mul_le_mul_of_nonneg_right (hl j) (show 0 ≤ b - c by linarith)
    have l4 := mul_le_mul_of_nonneg_right (hl 7) h0
    have u1 := mul_le_mul_of_nonneg_right (hu 0) (show 0 ≤ 1 - a by linarith)
    have u2 := mul_le_mul_of_nonneg_right (hu i) (show 0 ≤ a - b by linarith)
    have u3 := mul_le_mul_of_nonneg_right (hu j) (show 0 ≤ b - c by linarith)
    have u4 := mul_le_mul_of_nonneg_right (hu 7) h0
    constructor <;> nlinarith
  rw [Smear.Spec.interp]
  split_ifs <;> apply key <;> linarith

theorem cellBelow_lt_top (v : Fin 8 → ℝ) (e : ℝ) :
    volume {p : ℝ × ℝ × ℝ | (0 < p.1 ∧ p.1 ≤ 1) ∧ (0 < p.2.1 ∧ p.2.1 ≤ 1) ∧ (0 < p.2.2 ∧ p.2.2 ≤ 1) ∧
      Smear.Spec.interp v p.1 p.2.1 p.2.2 < e} < ⊤ := by
  refine bounded_lt_top ?_
  rintro ⟨x, y, z⟩ ⟨h1, h2, h3, -⟩
  exact ⟨⟨h1.1.le, h2.1.le, h3.1.le⟩, ⟨h1.2, h2.2, h3.2⟩⟩

theorem cellBelow_mono (v : Fin 8 → ℝ) : Monotone (Smear.Spec.cellBelow v) := by
  intro s t hst
  refine measureReal_mono ?_ (cellBelow_lt_top v t).ne
  rintro p ⟨h1, h2, h3, h4⟩
  exact ⟨h1, h2, h3, lt_of_lt_of_le h4 hst⟩

theorem cellBelow_one {v : Fin 8 → ℝ} {e : ℝ} (h : ∀ c, v c < e) : Smear.Spec.cellBelow v e = 1 := by
  rw [cell_volume, tetra_full, tetra_full, tetra_full, tetra_full, tetra_full, tetra_full]
  · norm_num
  all_goals linarith [h 0, h 1, h 2, h 3, h 4, h 5, h 6, h 7]

theorem cellBelow_zero {v : Fin 8 → ℝ} {e : ℝ} (h : ∀ c, e ≤ v c) : Smear.Spec.cellBelow v e = 0 := by
  rw [cell_volume, tetra_empty, tetra_empty, tetra_empty, tetra_empty, tetra_empty, tetra_empty]
  · norm_num
  all_goals linarith [h 0, h 1, h 2, h 3, h 4, h 5, h 6, h 7]

/-- None of the six tetrahedra of a cell has the same value everywhere on it as is asked for. -/
def Spec.FineCell (v : Fin 8 → ℝ) (e : ℝ) : Prop :=
  ∀ p ∈ ([(1, 3), (3, 2), (2, 6), (6, 4), (4, 5), (5, 1)] : List (Fin 8 × Fin 8)),
    Spec.Fine (e - v 0) (v 0 - v 7) (v 0 - v p.1) (v 0 - v p.2)

/-- C146.  `TetraSmearing.volume(value)` is the fraction of the cell on which the interpolation in six tetrahedra is below the
value, up to `5e-7`, for all values at the corners. -/
theorem C146_cell (v : Corners) (e : ℝ) (h : Spec.FineCell v e) :
    |cubeTetraCutVolume (fun c => e - v c) - Smear.Spec.cellBelow v e| ≤ 5 / 10 ^ 7 := by
  have key : ∀ p ∈ ([(1, 3), (3, 2), (2, 6), (6, 4), (4, 5), (5, 1)] : List (Fin 8 × Fin 8)),
      |tetraCutVolume (e - v 0) (e - v 7) (e - v p.1) (e - v p.2) -
        Smear.Spec.tetra (e - v 0) (v 0 - v 7) (v 0 - v p.1) (v 0 - v p.2)| ≤ 8 / 10 ^ 8 := by
    intro p hp
    have := C146_accuracy _ _ _ _ (h p hp)
    rw [tetraCutVolume, show e - v 7 - (e - v 0) = v 0 - v 7 by ring, show e - v p.1 - (e - v 0) = v 0 - v p.1 by ring,
      show e - v p.2 - (e - v 0) = v 0 - v p.2 by ring]
    exact this
  have k1 := abs_le.1 (key (1, 3) (by simp))
  have k2 := abs_le.1 (key (3, 2) (by simp))
  have k3 := abs_le.1 (key (2, 6) (by simp))
  have k4 := abs_le.1 (key (6, 4) (by simp))
  have k5 := abs_le.1 (key (4, 5) (by simp))
  have k6 := abs_le.1 (key (5, 1) (by simp))
  rw [tetra_swap] at k1
  rw [tetra_swap _ _ (v 0 - v (4, 5).1)] at k5
  rw [tetra_swap _ _ (v 0 - v (2, 6).1)] at k3
  rw [cell_volume, cubeTetraCutVolume, abs_le]
  simp only at k1 k2 k3 k4 k5 k6
  constructor <;> linarith [k1.1, k1.2, k2.1, k2.2, k3.1, k3.2, k4.1, k4.2, k5.1, k5.2, k6.1, k6.2,
    show (6 : ℝ) * (8 / 10 ^ 8) ≤ 5 / 10 ^ 7 by norm_num]

/-- C146.  Consequences for a cell: the result lies between zero and one and does not decrease, up to the error, and is one or
zero, up to the error, if the value is above or not above all corner values. -/
theorem C146_distribution (v : Corners) (e e' : ℝ) (h : Spec.FineCell v e) (h' : Spec.FineCell v e') :
    let V := fun value : ℝ => cubeTetraCutVolume fun c => value - v c
    0 ≤ V e + 5 / 10 ^ 7 ∧ V e ≤ 1 + 5 / 10 ^ 7 ∧ (e ≤ e' → V e ≤ V e' + 1 / 10 ^ 6) ∧
      ((∀ c, v c < e) → |V e - 1| ≤ 5 / 10 ^ 7) ∧ ((∀ c, e ≤ v c) → |V e| ≤ 5 / 10 ^ 7) := by
  intro V
  have b1 := abs_le.1 (C146_cell v e h)
  have b2 := abs_le.1 (C146_cell v e' h')
  have n0 : 0 ≤ Smear.Spec.cellBelow v e := measureReal_nonneg
  have n1 : Smear.Spec.cellBelow v e ≤ 1 := by
    obtain ⟨u, hu⟩ : ∃ u, ∀ c, v c < u := by
      refine ⟨∑ c, |v c| + 1, fun c => ?_⟩
      have := Finset.single_le_sum (f := fun c => |v c|) (fun i _ => abs_nonneg (v i)) (Finset.mem_univ c)
      have hle := le_abs_self (v c)
      linarith
    rw [← cellBelow_one (v := v) (e := max e u) fun c => lt_of_lt_of_le (hu c) (le_max_right _ _)]
    exact cellBelow_mono v (le_max_left _ _)
  refine ⟨?_, ?_, fun hle => ?_, fun hc => ?_, fun hc => ?_⟩
  · simp only [V]; linarith [b1.1]
  · simp only [V]; linarith [b1.2]
  · have := cellBelow_mono v hle
    simp only [V]
    linarith [b1.2, b2.1, show (5 : ℝ) / 10 ^ 7 + 5 / 10 ^ 7 = 1 / 10 ^ 6 by norm_num]
  · have := C146_cell v e h
    rwa [cellBelow_one hc] at this
  · have := C146_cell v e h
    rwa [cellBelow_zero hc, sub_zero] at this

/-- C146.  `TetraSmearing.dvolume(value)` is the derivative of `TetraSmearing.volume(value)` at every value which is not one of
the values at the corners, for all values at the corners. -/
theorem C146_cell_derivative (v : Corners) (e : ℝ) (h : ∀ c, v c ≠ e) :
    HasDerivAt (fun value => cubeTetraCutVolume fun c => value - v c) (cubeTetraCutDvolume fun c => e - v c) e := by
  have key : ∀ p q : Fin 8, HasDerivAt (fun value => tetraCutVolume (value - v 0) (value - v 7) (value - v p) (value - v q))
      (tetraCutDvolume (e - v 0) (e - v 7) (e - v p) (e - v q)) e := by
    intro p q
    have e1 : ∀ value : ℝ, tetraCutVolume (value - v 0) (value - v 7) (value - v p) (value - v q) =
        unitTetraCutVolume (value - v 0) (v 0 - v 7) (v 0 - v p) (v 0 - v q) := by
      intro value
      rw [tetraCutVolume]
      congr 1 <;> ring
    have e2 : tetraCutDvolume (e - v 0) (e - v 7) (e - v p) (e - v q) =
        unitTetraCutDvolume (e - v 0) (v 0 - v 7) (v 0 - v p) (v 0 - v q) := by
      rw [tetraCutDvolume]
      congr 1 <;> ring
    simp only [e1, e2]
    have n : ∀ c, e - v 0 + (v 0 - v c) ≠ 0 := fun c hc => h c (by linarith)
    have := (C146_derivative (e - v 0) (v 0 - v 7) (v 0 - v p) (v 0 - v q) (n 7) (n p) (n q)).comp e
      ((hasDerivAt_id e).sub_const (v 0))
    rw [mul_one] at this
    exact this
  exact ((((key 1 3).add (key 3 2)).add (key 2 6)).add (key 6 4)).add (key 4 5) |>.add (key 5 1)

/-- All corner values equal: the density vanishes away from them. -/
example : ∀ c : Fin 8, (fun _ : Fin 8 => (0 : ℝ)) c ≠ 1 := by simp

/-- A cell with many equal values: the function grows along the first direction only. -/
theorem fine_x (e : ℝ) : Spec.FineCell (fun c => if c.val % 2 = 1 then 1 else 0) e := by
  intro p _
  refine Or.inl ?_
  refine Real.le_sqrt_of_sq_le ?_
  have : ((if ((0 : Fin 8).val % 2 = 1) then (1 : ℝ) else 0) - (if ((7 : Fin 8).val % 2 = 1) then (1 : ℝ) else 0)) ^ 2 = 1 := by norm_num
  simp only [this]
  have h1 : (0 : ℝ) ≤ ((if ((0 : Fin 8).val % 2 = 1) then (1 : ℝ) else 0) - (if p.1.val % 2 = 1 then 1 else 0)) ^ 2 := sq_nonneg _
  have h2 : (0 : ℝ) ≤ ((if ((0 : Fin 8).val % 2 = 1) then (1 : ℝ) else 0) - (if p.2.val % 2 = 1 then 1 else 0)) ^ 2 := sq_nonneg _
  have h3 : ((1 : ℝ) / 10 ^ 50) ^ 2 ≤ 1 := by norm_num
  linarith

example : ∃ v : Corners, Spec.FineCell v (1 / 2) ∧ Spec.FineCell v 2 ∧ ∀ c, v c < 2 :=
  ⟨_, fine_x _, fine_x _, fun c => by split_ifs <;> norm_num⟩

/-! ## Whole grids -/

/-- Number of cells along an axis with `n` points: as many as points if the grid is periodic, else one less. -/
def Spec.cellCount (o : TetraGrid) (n : ℕ) : ℕ := if o.wrap then n else n - 1

/-- The cells of a grid. -/
def Spec.cells (o : TetraGrid) : List (ℕ × ℕ × ℕ) :=
  (List.range (Spec.cellCount o o.n0)).flatMap fun i => (List.range (Spec.cellCount o o.n1)).flatMap fun j =>
    (List.range (Spec.cellCount o o.n2)).map fun k => (i, j, k)

/-- Values of the grid at the corners of a cell, in the order of the specification of the interpolation. -/
def Spec.cornersAt (o : TetraGrid) (p : ℕ × ℕ × ℕ) : Fin 8 → ℝ := fun c =>
  o.v ((p.1 + c.val % 2) % o.n0) ((p.2.1 + c.val / 2 % 2) % o.n1) ((p.2.2 + c.val / 4 % 2) % o.n2)

theorem cornersAt_eq (o : TetraGrid) {p : ℕ × ℕ × ℕ} (hp : p ∈ Spec.cells o) :
    o.corners p.1 p.2.1 p.2.2 = Spec.cornersAt o p := by
  obtain ⟨i, j, k⟩ := p
  simp only [Spec.cells, List.mem_flatMap, List.mem_map, List.mem_range, Prod.mk.injEq] at hp
  obtain ⟨i', hi, j', hj, k', hk, rfl, rfl, rfl⟩ := hp
  have lt : ∀ {m n : ℕ}, m < Spec.cellCount o n → m < n := by
    intro m n h
    rw [Spec.cellCount] at h
    split_ifs at h <;> omega
  have key : ∀ {b m n : ℕ}, b % 2 = b → m < n → (if b = 1 then (m + 1) % n else m) = (m + b) % n := by
    intro b m n hb hm
    have : b = 0 ∨ b = 1 := by omega
    rcases this with rfl | rfl
    · rw [if_neg (by norm_num), add_zero, Nat.mod_eq_of_lt hm]
    · rw [if_pos rfl]
  funext c
  simp only [TetraGrid.corners, gridCorners, Spec.cornersAt]
  rw [key (Nat.mod_mod _ _) (lt hi), key (Nat.mod_mod _ _) (lt hj), key (Nat.mod_mod _ _) (lt hk)]

/-- C146.  On a whole grid every entry of `volume` and the first entry of `volume_dvolume` is the fraction of its cell below the
value, up to `5e-7`, and so is the mean over the grid; the second entry is `dvolume`, the derivative of `volume` away from the
corner values.  Without `wrap` a grid with `n` points has `n - 1` cells along an axis. -/
theorem C146_grid (o : TetraGrid) (e : ℝ) (h : ∀ p ∈ Spec.cells o, Spec.FineCell (Spec.cornersAt o p) e) :
    (∀ n, TetraGrid.cells o.wrap n = Spec.cellCount o n) ∧
    (∀ p ∈ Spec.cells o, |o.volume e p.1 p.2.1 p.2.2 - Smear.Spec.cellBelow (Spec.cornersAt o p) e| ≤ 5 / 10 ^ 7 ∧
      o.volumeDvolume e p.1 p.2.1 p.2.2 = (o.volume e p.1 p.2.1 p.2.2, o.dvolume e p.1 p.2.1 p.2.2) ∧
      ((∀ c, Spec.cornersAt o p c ≠ e) →
        HasDerivAt (fun value => o.volume value p.1 p.2.1 p.2.2) (o.dvolume e p.1 p.2.1 p.2.2) e)) ∧
    |((Spec.cells o).map fun p => o.volume e p.1 p.2.1 p.2.2).sum / (Spec.cells o).length -
      ((Spec.cells o).map fun p => Smear.Spec.cellBelow (Spec.cornersAt o p) e).sum / (Spec.cells o).length| ≤ 5 / 10 ^ 7 := by
  have h1 : ∀ p ∈ Spec.cells o, |o.volume e p.1 p.2.1 p.2.2 - Smear.Spec.cellBelow (Spec.cornersAt o p) e| ≤ 5 / 10 ^ 7 := by
    intro p hp
    rw [TetraGrid.volume, cornersAt_eq o hp]
    exact C146_cell _ _ (h p hp)
  refine ⟨fun n => rfl, fun p hp => ⟨h1 p hp, rfl, fun hc => ?_⟩, ?_⟩
  · simp only [TetraGrid.volume, TetraGrid.dvolume, cornersAt_eq o hp]
    exact C146_cell_derivative _ _ hc
  have h2 : ∀ l : List (ℕ × ℕ × ℕ), (∀ p ∈ l, |o.volume e p.1 p.2.1 p.2.2 -
      Smear.Spec.cellBelow (Spec.cornersAt o p) e| ≤ 5 / 10 ^ 7) →
      |(l.map fun p => o.volume e p.1 p.2.1 p.2.2).sum - (l.map fun p => Smear.Spec.cellBelow (Spec.cornersAt o p) e).sum| ≤
        l.length * (5 / 10 ^ 7) := by
    intro l
    induction l with
    | nil => intro _; simp
    | cons p l ih =>
      intro hl
      have a1 := abs_le.1 (hl p (by simp))
      have a2 := abs_le.1 (ih fun q hq => hl q (by simp [hq]))
      simp only [List.map_cons, List.sum_cons, List.length_cons, Nat.cast_add, Nat.cast_one]
      rw [abs_le]
      constructor <;> linarith [a1.1, a1.2, a2.1, a2.2]
  have h3 := h2 _ h1
  rcases Nat.eq_zero_or_pos (Spec.cells o).length with h0 | h0
  · rw [h0]; norm_num
  · have hp : (0 : ℝ) < (Spec.cells o).length := by exact_mod_cast h0
    rw [← sub_div, abs_div, abs_of_pos hp, div_le_iff₀ hp]
    linarith

/-- A non-trivial grid: two points along each axis, values growing along the first axis. -/
example : ∃ o : TetraGrid, Spec.cells o = [(0, 0, 0)] ∧ ∀ p ∈ Spec.cells o, Spec.FineCell (Spec.cornersAt o p) (1 / 2) := by
  refine ⟨⟨2, 2, 2, false, fun i _ _ => i⟩, rfl, fun p hp => ?_⟩
  have : p = (0, 0, 0) := List.mem_singleton.1 hp
  subst this
  have e : Spec.cornersAt ⟨2, 2, 2, false, fun i _ _ => (i : ℝ)⟩ (0, 0, 0) = fun c => if c.val % 2 = 1 then 1 else 0 := by
    funext c
    fin_cases c <;> norm_num [Spec.cornersAt]
  rw [e]
  exact fine_x _

end TB.PropsTetraAll

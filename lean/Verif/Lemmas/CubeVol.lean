import Verif.Lemmas.CellVol
import Verif.Props.SmearCube

/-!
# The volume cut off a cube as the measure of a set, and how it depends on the function
-/

namespace TB.Smear

open MeasureTheory Set

/-- The cube around the origin. -/
def cube : Set (ℝ × ℝ × ℝ) := {p | (-1 / 2 < p.1 ∧ p.1 ≤ 1 / 2) ∧ (-1 / 2 < p.2.1 ∧ p.2.1 ≤ 1 / 2) ∧ (-1 / 2 < p.2.2 ∧ p.2.2 ≤ 1 / 2)}

/-- The part of the cube on which the linear function is between two values. -/
def strip (a b c l u : ℝ) : Set (ℝ × ℝ × ℝ) :=
  {p | p ∈ cube ∧ l ≤ a * p.1 + b * p.2.1 + c * p.2.2 ∧ a * p.1 + b * p.2.1 + c * p.2.2 < u}

/-- The part of the cube on which the linear function is below a value. -/
def bset (a b c t : ℝ) : Set (ℝ × ℝ × ℝ) := {p | p ∈ cube ∧ a * p.1 + b * p.2.1 + c * p.2.2 < t}

theorem measurable_cube : MeasurableSet cube := by
  unfold cube
  simp only [ofPred_and]
  refine ((measurableSet_lt ?_ ?_).inter (measurableSet_le ?_ ?_)).inter (((measurableSet_lt ?_ ?_).inter
    (measurableSet_le ?_ ?_)).inter ((measurableSet_lt ?_ ?_).inter (measurableSet_le ?_ ?_))) <;> fun_prop

theorem measurable_bset (a b c t : ℝ) : MeasurableSet (bset a b c t) :=
  measurable_cube.inter (measurableSet_lt (f := fun p : ℝ × ℝ × ℝ => a * p.1 + b * p.2.1 + c * p.2.2) (by fun_prop) (by fun_prop))

theorem measurable_strip (a b c l u : ℝ) : MeasurableSet (strip a b c l u) :=
  measurable_cube.inter ((measurableSet_le (g := fun p : ℝ × ℝ × ℝ => a * p.1 + b * p.2.1 + c * p.2.2) (f := fun _ => l)
    (by fun_prop) (by fun_prop)).inter
    (measurableSet_lt (f := fun p : ℝ × ℝ × ℝ => a * p.1 + b * p.2.1 + c * p.2.2) (by fun_prop) (by fun_prop)))

theorem cube_lt_top {s : Set (ℝ × ℝ × ℝ)} (h : s ⊆ cube) : volume s < ⊤ := by
  have : s ⊆ Icc (-1) 1 := by
    intro p hp
    obtain ⟨h1, h2, h3⟩ := h hp
    obtain ⟨x, y, z⟩ := p
    simp only at h1 h2 h3
    refine ⟨⟨?_, ?_, ?_⟩, ⟨?_, ?_, ?_⟩⟩
    · change -1 ≤ x; linarith
    · change -1 ≤ y; linarith
    · change -1 ≤ z; linarith
    · change x ≤ 1; linarith
    · change y ≤ 1; linarith
    · change z ≤ 1; linarith
  exact (measure_mono this).trans_lt isCompact_Icc.measure_lt_top

theorem half_eq_indicator (f : ℝ → ℝ) :
    ∫ x in (-1 / 2 : ℝ)..(1 / 2), f x = ∫ x, (Ioc (-1 / 2) (1 / 2)).indicator f x := by
  rw [intervalIntegral.integral_of_le (by norm_num), integral_indicator measurableSet_Ioc]

theorem below_measure (a b c t : ℝ) : Spec.below a b c t = volume.real (bset a b c t) := by
  have hsub : bset a b c t ⊆ cube := fun p hp => hp.1
  rw [real_slices (measurable_bset _ _ _ _) (cube_lt_top hsub), Spec.below, half_eq_indicator]
  congr 1
  funext x
  have hm : MeasurableSet {q : ℝ × ℝ | (x, q) ∈ bset a b c t} := measurable_prodMk_left (measurable_bset _ _ _ _)
  have hb : {q : ℝ × ℝ | (x, q) ∈ bset a b c t} ⊆ Icc (-1) 1 := by
    rintro ⟨y, z⟩ ⟨⟨-, h2, h3⟩, -⟩
    simp only at h2 h3
    refine ⟨⟨?_, ?_⟩, ⟨?_, ?_⟩⟩
    · change -1 ≤ y; linarith
    · change -1 ≤ z; linarith
    · change y ≤ 1; linarith
    · change z ≤ 1; linarith
  by_cases hx : x ∈ Ioc (-1 / 2 : ℝ) (1 / 2)
  · rw [indicator_of_mem hx, half_eq_indicator, real_slices hm ((measure_mono hb).trans_lt isCompact_Icc.measure_lt_top)]
    congr 1
    funext y
    by_cases hy : y ∈ Ioc (-1 / 2 : ℝ) (1 / 2)
    · rw [indicator_of_mem hy, half_eq_indicator]
      have hz : MeasurableSet {z : ℝ | (y, z) ∈ {q : ℝ × ℝ | (x, q) ∈ bset a b c t}} := measurable_prodMk_left hm
      rw [← integral_indicator_one hz]
      congr 1
      funext z
      by_cases h : z ∈ Ioc (-1 / 2 : ℝ) (1 / 2)
      · rw [indicator_of_mem h]
        by_cases hp : a * x + b * y + c * z < t
        · rw [if_pos hp, indicator_of_mem (show z ∈ {z : ℝ | (y, z) ∈ {q : ℝ × ℝ | (x, q) ∈ bset a b c t}} from
            ⟨⟨hx, hy, h⟩, hp⟩)]
          rfl
        · rw [if_neg hp, indicator_of_notMem (fun h' => hp h'.2)]
      · rw [indicator_of_notMem h, indicator_of_notMem (fun h' => h h'.1.2.2)]
    · rw [indicator_of_notMem hy]
      rw [show {z : ℝ | (y, z) ∈ {q : ℝ × ℝ | (x, q) ∈ bset a b c t}} = ∅ from
        eq_empty_of_forall_notMem fun z hz => hy hz.1.2.1]
      simp
  · rw [indicator_of_notMem hx, show {q : ℝ × ℝ | (x, q) ∈ bset a b c t} = ∅ from
        eq_empty_of_forall_notMem fun z hz => hx hz.1.1]
    simp

theorem strip_le_z {a b c l u κ : ℝ} (hlu : l ≤ u) (hκ : 0 < κ) (h : κ ≤ |c|) : volume.real (strip a b c l u) ≤ (u - l) / κ := by
  have hc : c ≠ 0 := fun h' => by rw [h', abs_zero] at h; linarith
  have mS := measurable_strip a b c l u
  set S := strip a b c l u with hS
  have hslice : volume S ≤ ENNReal.ofReal ((u - l) / κ) := by
    rw [Measure.volume_eq_prod, Measure.prod_apply mS]
    have hone : volume (Ioc (-1 / 2 : ℝ) (1 / 2)) = 1 := by rw [Real.volume_Ioc]; norm_num
    calc ∫⁻ x, volume (Prod.mk x ⁻¹' S) ≤ ∫⁻ x, (Ioc (-1 / 2 : ℝ) (1 / 2)).indicator (fun _ => ENNReal.ofReal ((u - l) / κ)) x := by
          refine lintegral_mono fun x => ?_
          by_cases hx : x ∈ Ioc (-1 / 2 : ℝ) (1 / 2)
          · rw [indicator_of_mem hx, Measure.volume_eq_prod, Measure.prod_apply (measurable_prodMk_left mS)]
            calc ∫⁻ y, volume (Prod.mk y ⁻¹' (Prod.mk x ⁻¹' S)) ≤
                  ∫⁻ y, (Ioc (-1 / 2 : ℝ) (1 / 2)).indicator (fun _ => ENNReal.ofReal ((u - l) / κ)) y := by
                  refine lintegral_mono fun y => ?_
                  by_cases hy : y ∈ Ioc (-1 / 2 : ℝ) (1 / 2)
                  · rw [indicator_of_mem hy]
                    set m := ((l + u) / 2 - (a * x + b * y)) / c with hm
                    have hs : Prod.mk y ⁻¹' (Prod.mk x ⁻¹' S) ⊆ Icc (m - (u - l) / 2 / |c|) (m + (u - l) / 2 / |c|) := by
                      intro z hz'
                      have h4 := hz'.2
                      simp only at h4
                      have ha : |c * (z - m)| ≤ (u - l) / 2 := by
                        rw [show c * (z - m) = a * x + b * y + c * z - (l + u) / 2 by rw [hm]; field_simp; ring, abs_le]
                        constructor <;> linarith [h4.1, h4.2]
                      rw [abs_mul] at ha
                      have hb : |z - m| ≤ (u - l) / 2 / |c| := by
                        rw [le_div_iff₀ (abs_pos.2 hc)]; linarith
                      rw [abs_le] at hb
                      exact ⟨by linarith [hb.1], by linarith [hb.2]⟩
                    refine (measure_mono hs).trans ?_
                    rw [Real.volume_Icc]
                    refine ENNReal.ofReal_le_ofReal ?_
                    have : (u - l) / 2 / |c| ≤ (u - l) / 2 / κ := div_le_div_of_nonneg_left (by linarith) hκ h
                    rw [show (u - l) / κ = 2 * ((u - l) / 2 / κ) by ring]
                    linarith
                  · rw [show Prod.mk y ⁻¹' (Prod.mk x ⁻¹' S) = ∅ from
                      eq_empty_of_forall_notMem fun z hz' => hy hz'.1.2.1]
                    simp
              _ ≤ ENNReal.ofReal ((u - l) / κ) := by
                  rw [lintegral_indicator measurableSet_Ioc, setLIntegral_const, hone, mul_one]
          · rw [show Prod.mk x ⁻¹' S = ∅ from eq_empty_of_forall_notMem fun z hz' => hx hz'.1.1]
            simp
      _ ≤ ENNReal.ofReal ((u - l) / κ) := by
          rw [lintegral_indicator measurableSet_Ioc, setLIntegral_const, hone, mul_one]
  exact ENNReal.toReal_le_of_le_ofReal (div_nonneg (by linarith) hκ.le) hslice

theorem strip_rotate (a b c l u : ℝ) : volume.real (strip a b c l u) = volume.real (strip c a b l u) := by
  rw [← rotate_preserving.measureReal_preimage (measurable_strip a b c l u).nullMeasurableSet]
  congr 1
  ext ⟨x, y, z⟩
  simp only [mem_preimage, strip, cube, mem_ofPred_eq]
  rw [show a * y + b * z + c * x = c * x + a * y + b * z by ring]
  constructor
  · rintro ⟨⟨h1, h2, h3⟩, h4⟩; exact ⟨⟨h3, h1, h2⟩, h4⟩
  · rintro ⟨⟨h1, h2, h3⟩, h4⟩; exact ⟨⟨h2, h3, h1⟩, h4⟩

/-- The part of the cube on which a linear function is between two values is at most as large as their distance divided by any
of its slopes. -/
theorem strip_le {a b c l u κ : ℝ} (hlu : l ≤ u) (hκ : 0 < κ) (h : κ ≤ |a| ∨ κ ≤ |b| ∨ κ ≤ |c|) :
    volume.real (strip a b c l u) ≤ (u - l) / κ := by
  rcases h with h | h | h
  · rw [strip_rotate, strip_rotate]; exact strip_le_z hlu hκ h
  · rw [strip_rotate]; exact strip_le_z hlu hκ h
  · exact strip_le_z hlu hκ h

/-- A function which differs by at most `δ` from a linear one on the cube cuts off a volume which differs by at most `δ / κ`. -/
theorem below_close {F : ℝ × ℝ × ℝ → ℝ} {a b c t δ κ : ℝ} (hδ : 0 ≤ δ) (hκ : 0 < κ) (h : κ ≤ |a| ∨ κ ≤ |b| ∨ κ ≤ |c|)
    (key : ∀ p ∈ cube, |F p - (a * p.1 + b * p.2.1 + c * p.2.2)| ≤ δ) :
    |volume.real {p | p ∈ cube ∧ F p < t} - Spec.below a b c t| ≤ δ / κ := by
  rw [below_measure, abs_le]
  have f1 := (cube_lt_top (show bset a b c t ⊆ cube from fun p hp => hp.1))
  have f2 := (cube_lt_top (show {p | p ∈ cube ∧ F p < t} ⊆ cube from fun p hp => hp.1))
  have f3 : ∀ l u, volume (strip a b c l u) < ⊤ := fun l u => cube_lt_top (show strip a b c l u ⊆ cube from fun p hp => hp.1)
  have g1 : volume.real {p | p ∈ cube ∧ F p < t} ≤ volume.real (bset a b c t) + volume.real (strip a b c t (t + δ)) := by
    refine (measureReal_mono ?_ (measure_union_lt_top f1 (f3 _ _)).ne).trans (measureReal_union_le _ _)
    rintro p ⟨hp, h1⟩
    have := abs_le.1 (key p hp)
    rcases lt_or_ge (a * p.1 + b * p.2.1 + c * p.2.2) t with h2 | h2
    · exact Or.inl ⟨hp, h2⟩
    · exact Or.inr ⟨hp, h2, by linarith [this.1]⟩
  have g2 : volume.real (bset a b c t) ≤ volume.real {p | p ∈ cube ∧ F p < t} + volume.real (strip a b c (t - δ) t) := by
    refine (measureReal_mono ?_ (measure_union_lt_top f2 (f3 _ _)).ne).trans (measureReal_union_le _ _)
    rintro p ⟨hp, h1⟩
    have := abs_le.1 (key p hp)
    rcases lt_or_ge (F p) t with h2 | h2
    · exact Or.inl ⟨hp, h2⟩
    · exact Or.inr ⟨hp, by linarith [this.2], h1⟩
  have s1 := strip_le (a := a) (b := b) (c := c) (l := t) (u := t + δ) (by linarith) hκ h
  have s2 := strip_le (a := a) (b := b) (c := c) (l := t - δ) (u := t) (by linarith) hκ h
  rw [show t + δ - t = δ by ring] at s1
  rw [show t - (t - δ) = δ by ring] at s2
  constructor <;> linarith

/-- Linear functions which differ by at most `δ` on the cube cut off volumes which differ by at most `δ / κ`. -/
theorem below_near {a b c a' b' c' t δ κ : ℝ} (hδ : 0 ≤ δ) (hκ : 0 < κ) (h : κ ≤ |a| ∨ κ ≤ |b| ∨ κ ≤ |c|)
    (hd : |a' - a| + |b' - b| + |c' - c| ≤ 2 * δ) : |Spec.below a' b' c' t - Spec.below a b c t| ≤ δ / κ := by
  rw [below_measure a']
  refine below_close (F := fun p => a' * p.1 + b' * p.2.1 + c' * p.2.2) hδ hκ h ?_
  rintro ⟨x, y, z⟩ ⟨h1, h2, h3⟩
  simp only at h1 h2 h3 ⊢
  have e : ∀ {s r : ℝ}, -1 / 2 < r ∧ r ≤ 1 / 2 → |s * r| ≤ |s| / 2 := by
    intro s r hr
    rw [abs_mul]
    have : |r| ≤ 1 / 2 := abs_le.2 ⟨by linarith [hr.1], hr.2⟩
    nlinarith [abs_nonneg s]
  calc |a' * x + b' * y + c' * z - (a * x + b * y + c * z)| = |(a' - a) * x + (b' - b) * y + (c' - c) * z| := by
        congr 1; ring
    _ ≤ |(a' - a) * x| + |(b' - b) * y| + |(c' - c) * z| := (abs_add_le _ _).trans (by linarith [abs_add_le ((a' - a) * x) ((b' - b) * y)])
    _ ≤ δ := by linarith [e (s := a' - a) h1, e (s := b' - b) h2, e (s := c' - c) h3]

end TB.Smear

import Verif.Props.SmearKernels
import Mathlib.MeasureTheory.Integral.Prod
import Mathlib.MeasureTheory.Measure.Lebesgue.Basic
import Mathlib.MeasureTheory.Integral.Bochner.Set

/-!
# The volume cut off a tetrahedron as the measure of a set, and how it depends on the function
-/

namespace TB.Smear

open MeasureTheory Set

/-- The part of the unit tetrahedron on which the linear function is positive. -/
def tset (a0 ax ay az : ℝ) : Set (ℝ × ℝ × ℝ) :=
  {p | (0 < p.1 ∧ p.1 ≤ 1) ∧ (0 < p.2.1 ∧ p.2.1 ≤ 1 - p.1) ∧ (0 < p.2.2 ∧ p.2.2 ≤ 1 - p.1 - p.2.1) ∧
    0 < a0 + ax * p.1 + ay * p.2.1 + az * p.2.2}

theorem measurable_tset (a0 ax ay az : ℝ) : MeasurableSet (tset a0 ax ay az) := by
  unfold tset
  simp only [ofPred_and]
  refine ((measurableSet_lt ?_ ?_).inter (measurableSet_le ?_ ?_)).inter (((measurableSet_lt ?_ ?_).inter
    (measurableSet_le ?_ ?_)).inter (((measurableSet_lt ?_ ?_).inter (measurableSet_le ?_ ?_)).inter
      (measurableSet_lt ?_ ?_))) <;> fun_prop

theorem tset_subset (a0 ax ay az : ℝ) : tset a0 ax ay az ⊆ Icc 0 1 := by
  rintro ⟨x, y, z⟩ ⟨⟨h1, h2⟩, ⟨h3, h4⟩, ⟨h5, h6⟩, -⟩
  simp only at h1 h2 h3 h4 h5 h6
  refine ⟨⟨h1.le, h3.le, h5.le⟩, ⟨h2, ?_, ?_⟩⟩
  · change y ≤ 1
    linarith
  · change z ≤ 1
    linarith

theorem bounded_lt_top {s : Set (ℝ × ℝ × ℝ)} (h : s ⊆ Icc 0 1) : volume s < ⊤ :=
  (measure_mono h).trans_lt isCompact_Icc.measure_lt_top

/-- The measure of a set in a product is the integral of the measures of its slices. -/
theorem real_slices {α β : Type} [MeasureSpace α] [MeasureSpace β] [SFinite (volume : Measure α)]
    [SFinite (volume : Measure β)] {s : Set (α × β)} (hs : MeasurableSet s) (hf : volume s < ⊤) :
    volume.real s = ∫ x, volume.real {y | (x, y) ∈ s} := by
  have hi : Integrable (s.indicator (1 : α × β → ℝ)) (volume.prod volume) :=
    (integrable_indicator_iff hs).2 (integrableOn_const hf.ne)
  rw [← integral_indicator_one hs, Measure.volume_eq_prod, integral_prod _ hi]
  congr 1
  funext x
  have hm : MeasurableSet {y | (x, y) ∈ s} := measurable_prodMk_left hs
  rw [← integral_indicator_one hm]
  rfl

theorem interval_eq_indicator {l : ℝ} (hl : 0 ≤ l) (f : ℝ → ℝ) :
    ∫ x in (0 : ℝ)..l, f x = ∫ x, (Ioc 0 l).indicator f x := by
  rw [intervalIntegral.integral_of_le hl, integral_indicator measurableSet_Ioc]

/-- The iterated integral of the specification is the measure of the set. -/
theorem tetra_measure (a0 ax ay az : ℝ) : Spec.tetra a0 ax ay az = volume.real (tset a0 ax ay az) := by
  rw [real_slices (measurable_tset _ _ _ _) (bounded_lt_top (tset_subset _ _ _ _)), Spec.tetra, interval_eq_indicator zero_le_one]
  congr 1
  funext x
  have hm : MeasurableSet {q : ℝ × ℝ | (x, q) ∈ tset a0 ax ay az} := measurable_prodMk_left (measurable_tset _ _ _ _)
  have hb : {q : ℝ × ℝ | (x, q) ∈ tset a0 ax ay az} ⊆ Icc 0 1 := fun q hq =>
    ⟨(tset_subset _ _ _ _ hq).1.2, (tset_subset _ _ _ _ hq).2.2⟩
  by_cases hx : x ∈ Ioc (0 : ℝ) 1
  · rw [indicator_of_mem hx, interval_eq_indicator (by linarith [hx.2]),
      real_slices hm ((measure_mono hb).trans_lt isCompact_Icc.measure_lt_top)]
    congr 1
    funext y
    by_cases hy : y ∈ Ioc (0 : ℝ) (1 - x)
    · rw [indicator_of_mem hy, interval_eq_indicator (by linarith [hy.2])]
      have hz : MeasurableSet {z : ℝ | (y, z) ∈ {q : ℝ × ℝ | (x, q) ∈ tset a0 ax ay az}} := measurable_prodMk_left hm
      rw [← integral_indicator_one hz]
      congr 1
      funext z
      by_cases h : z ∈ Ioc (0 : ℝ) (1 - x - y)
      · rw [indicator_of_mem h]
        by_cases hp : 0 < a0 + ax * x + ay * y + az * z
        · rw [if_pos hp, indicator_of_mem (show z ∈ {z : ℝ | (y, z) ∈ {q : ℝ × ℝ | (x, q) ∈ tset a0 ax ay az}} from
            ⟨hx, hy, h, hp⟩)]
          rfl
        · rw [if_neg hp, indicator_of_notMem (fun h' => hp h'.2.2.2)]
      · rw [indicator_of_notMem h, indicator_of_notMem (fun h' => h h'.2.2.1)]
    · rw [indicator_of_notMem hy]
      rw [show {z : ℝ | (y, z) ∈ {q : ℝ × ℝ | (x, q) ∈ tset a0 ax ay az}} = ∅ from
        eq_empty_of_forall_notMem fun z hz => hy hz.2.1]
      simp
  · rw [indicator_of_notMem hx, show {q : ℝ × ℝ | (x, q) ∈ tset a0 ax ay az} = ∅ from
        eq_empty_of_forall_notMem fun z hz => hx hz.1]
    simp

/-- A function which is larger on the tetrahedron cuts off more. -/
theorem tetra_mono {a0 ax ay az b0 bx b_y bz : ℝ}
    (h : ∀ x y z : ℝ, 0 ≤ x → 0 ≤ y → 0 ≤ z → x + y + z ≤ 1 →
      a0 + ax * x + ay * y + az * z ≤ b0 + bx * x + b_y * y + bz * z) :
    Spec.tetra a0 ax ay az ≤ Spec.tetra b0 bx b_y bz := by
  rw [tetra_measure, tetra_measure]
  refine measureReal_mono ?_ (bounded_lt_top (tset_subset _ _ _ _)).ne
  rintro ⟨x, y, z⟩ ⟨h1, h2, h3, h4⟩
  refine ⟨h1, h2, h3, lt_of_lt_of_le h4 (h x y z h1.1.le h2.1.le h3.1.le ?_)⟩
  have := h3.2
  simp only at this
  linarith

/-- Moving the offset by `2 δ` changes the volume by at most `2 δ / |az|`. -/
theorem tetra_strip {a0 ax ay az δ κ : ℝ} (hδ : 0 ≤ δ) (hκ : 0 < κ) (hz : κ ≤ |az|) :
    Spec.tetra (a0 + δ) ax ay az - Spec.tetra (a0 - δ) ax ay az ≤ 2 * δ / κ := by
  have hz0 : az ≠ 0 := fun h => by rw [h, abs_zero] at hz; linarith
  set S : Set (ℝ × ℝ × ℝ) := {p | (0 < p.1 ∧ p.1 ≤ 1) ∧ (0 < p.2.1 ∧ p.2.1 ≤ 1) ∧ (0 < p.2.2 ∧ p.2.2 ≤ 1) ∧
    -δ < a0 + ax * p.1 + ay * p.2.1 + az * p.2.2 ∧ a0 + ax * p.1 + ay * p.2.1 + az * p.2.2 ≤ δ} with hS
  have mS : MeasurableSet S := by
    rw [hS]
    simp only [ofPred_and]
    refine ((measurableSet_lt ?_ ?_).inter (measurableSet_le ?_ ?_)).inter (((measurableSet_lt ?_ ?_).inter
      (measurableSet_le ?_ ?_)).inter (((measurableSet_lt ?_ ?_).inter (measurableSet_le ?_ ?_)).inter
        ((measurableSet_lt ?_ ?_).inter (measurableSet_le ?_ ?_)))) <;> fun_prop
  have bS : S ⊆ Icc 0 1 := by
    rintro ⟨x, y, z⟩ ⟨h1, h2, h3, -⟩
    exact ⟨⟨h1.1.le, h2.1.le, h3.1.le⟩, ⟨h1.2, h2.2, h3.2⟩⟩
  have hsub : tset (a0 + δ) ax ay az ⊆ tset (a0 - δ) ax ay az ∪ S := by
    rintro ⟨x, y, z⟩ ⟨h1, h2, h3, h4⟩
    simp only at h1 h2 h3 h4
    rcases lt_or_ge 0 (a0 - δ + ax * x + ay * y + az * z) with h | h
    · exact Or.inl ⟨h1, h2, h3, h⟩
    · refine Or.inr ⟨h1, ⟨h2.1, by simp only; linarith⟩, ⟨h3.1, by simp only; linarith⟩, ?_, ?_⟩ <;> simp only <;> linarith
  have hle : volume.real (tset (a0 + δ) ax ay az) ≤ volume.real (tset (a0 - δ) ax ay az) + volume.real S :=
    (measureReal_mono hsub (measure_union_lt_top (bounded_lt_top (tset_subset _ _ _ _)) (bounded_lt_top bS)).ne).trans
      (measureReal_union_le _ _)
  have hslice : volume S ≤ ENNReal.ofReal (2 * δ / κ) := by
    rw [Measure.volume_eq_prod, Measure.prod_apply mS]
    calc ∫⁻ x, volume (Prod.mk x ⁻¹' S) ≤ ∫⁻ x, (Ioc (0 : ℝ) 1).indicator (fun _ => ENNReal.ofReal (2 * δ / κ)) x := by
          refine lintegral_mono fun x => ?_
          by_cases hx : x ∈ Ioc (0 : ℝ) 1
          · rw [indicator_of_mem hx, Measure.volume_eq_prod, Measure.prod_apply (measurable_prodMk_left mS)]
            calc ∫⁻ y, volume (Prod.mk y ⁻¹' (Prod.mk x ⁻¹' S)) ≤
                  ∫⁻ y, (Ioc (0 : ℝ) 1).indicator (fun _ => ENNReal.ofReal (2 * δ / κ)) y := by
                  refine lintegral_mono fun y => ?_
                  by_cases hy : y ∈ Ioc (0 : ℝ) 1
                  · rw [indicator_of_mem hy]
                    set c := -(a0 + ax * x + ay * y) / az
                    have hs : Prod.mk y ⁻¹' (Prod.mk x ⁻¹' S) ⊆ Icc (c - δ / |az|) (c + δ / |az|) := by
                      intro z hz'
                      have h4 := hz'.2.2.2
                      simp only at h4
                      have ha : |az * (z - c)| ≤ δ := by
                        rw [show az * (z - c) = a0 + ax * x + ay * y + az * z by simp only [c]; field_simp; ring, abs_le]
                        exact ⟨h4.1.le, h4.2⟩
                      rw [abs_mul] at ha
                      have hb : |z - c| ≤ δ / |az| := by
                        rw [le_div_iff₀ (abs_pos.2 hz0)]; linarith
                      rw [abs_le] at hb
                      exact ⟨by linarith [hb.1], by linarith [hb.2]⟩
                    refine (measure_mono hs).trans ?_
                    rw [Real.volume_Icc]
                    refine ENNReal.ofReal_le_ofReal ?_
                    have : δ / |az| ≤ δ / κ := div_le_div_of_nonneg_left hδ hκ hz
                    rw [show 2 * δ / κ = 2 * (δ / κ) by ring]
                    linarith
                  · rw [show Prod.mk y ⁻¹' (Prod.mk x ⁻¹' S) = ∅ from
                      eq_empty_of_forall_notMem fun z hz' => hy hz'.2.1]
                    simp
              _ ≤ ENNReal.ofReal (2 * δ / κ) := by
                  rw [lintegral_indicator measurableSet_Ioc, setLIntegral_const, Real.volume_Ioc]; simp
          · rw [show Prod.mk x ⁻¹' S = ∅ from eq_empty_of_forall_notMem fun z hz' => hx hz'.1]
            simp
      _ ≤ ENNReal.ofReal (2 * δ / κ) := by
          rw [lintegral_indicator measurableSet_Ioc, setLIntegral_const, Real.volume_Ioc]; simp
  have h2 : volume.real S ≤ 2 * δ / κ := ENNReal.toReal_le_of_le_ofReal (by positivity) hslice
  rw [tetra_measure, tetra_measure]
  linarith

/-- The same with the large slope at any corner, if the values at the corners are different. -/
theorem dd_strip {a0 ax ay az δ κ : ℝ} (g : Spec.Generic ax ay az) (hδ : 0 ≤ δ) (hκ : 0 < κ)
    (h : κ ≤ |ax| ∨ κ ≤ |ay| ∨ κ ≤ |az|) :
    Spec.tetra (a0 + δ) ax ay az - Spec.tetra (a0 - δ) ax ay az ≤ 2 * δ / κ := by
  rcases h with h | h | h
  · have g' : Spec.Generic ay az ax := ⟨g.y, g.z, g.x, g.yz, g.xy.symm, g.xz.symm⟩
    rw [tetra_eq g, tetra_eq g, dd_swap12, dd_swap23, dd_swap12 3 (a0 - δ), dd_swap23 3 (a0 - δ), ← tetra_eq g', ← tetra_eq g']
    exact tetra_strip hδ hκ h
  · have g' : Spec.Generic ax az ay := ⟨g.x, g.z, g.y, g.xz, g.xy, g.yz.symm⟩
    rw [tetra_eq g, tetra_eq g, dd_swap23, dd_swap23 3 (a0 - δ), ← tetra_eq g', ← tetra_eq g']
    exact tetra_strip hδ hκ h
  · exact tetra_strip hδ hκ h

/-- Slopes which differ by at most `δ` cut off volumes which differ by at most `2 δ / κ`. -/
theorem tetra_near {a0 ax ay az gx gy gz δ κ : ℝ} (g : Spec.Generic gx gy gz) (hκ : 0 < κ)
    (hx : |gx - ax| ≤ δ) (hy : |gy - ay| ≤ δ) (hz : |gz - az| ≤ δ) (h : κ ≤ |gx| ∨ κ ≤ |gy| ∨ κ ≤ |gz|) :
    |Spec.tetra a0 gx gy gz - Spec.tetra a0 ax ay az| ≤ 2 * δ / κ := by
  have hδ : 0 ≤ δ := (abs_nonneg _).trans hx
  rw [abs_le] at hx hy hz
  have key : ∀ {p q r x y z : ℝ}, 0 ≤ x → 0 ≤ y → 0 ≤ z → x + y + z ≤ 1 → p ≤ δ → q ≤ δ → r ≤ δ →
      p * x + q * y + r * z ≤ δ := by
    intro p q r x y z h1 h2 h3 h4 hp hq hr
    nlinarith [mul_le_mul_of_nonneg_right hp h1, mul_le_mul_of_nonneg_right hq h2, mul_le_mul_of_nonneg_right hr h3,
      mul_le_mul_of_nonneg_left h4 hδ]
  have m1 : Spec.tetra a0 ax ay az ≤ Spec.tetra (a0 + δ) gx gy gz := tetra_mono fun x y z h1 h2 h3 h4 => by
    have := key (p := ax - gx) (q := ay - gy) (r := az - gz) h1 h2 h3 h4 (by linarith) (by linarith) (by linarith)
    linarith
  have m2 : Spec.tetra (a0 - δ) gx gy gz ≤ Spec.tetra a0 ax ay az := tetra_mono fun x y z h1 h2 h3 h4 => by
    have := key (p := gx - ax) (q := gy - ay) (r := gz - az) h1 h2 h3 h4 (by linarith) (by linarith) (by linarith)
    linarith
  have m3 : Spec.tetra a0 gx gy gz ≤ Spec.tetra (a0 + δ) gx gy gz := tetra_mono fun x y z _ _ _ _ => by linarith
  have m4 : Spec.tetra (a0 - δ) gx gy gz ≤ Spec.tetra a0 gx gy gz := tetra_mono fun x y z _ _ _ _ => by linarith
  have := dd_strip (a0 := a0) g hδ hκ h
  rw [abs_le]
  constructor <;> linarith

end TB.Smear

import Mathlib.Analysis.SpecialFunctions.Integrals.Basic
import Mathlib.Analysis.SpecialFunctions.Log.Deriv
import Mathlib.Analysis.SpecialFunctions.ExpDeriv
import Mathlib.MeasureTheory.Integral.IntegralEqImproper
import Mathlib.Tactic.Linarith
import Mathlib.Tactic.Ring
import Mathlib.Tactic.NormNum
import Mathlib.Tactic.FieldSimp
import Verif.Model.Dos

/-!
# C63, C64: thermal broadening of a piecewise linear curve
-/

namespace TB.Dos

open intervalIntegral MeasureTheory Filter Topology

/-- The negative derivative of the Fermi function `1 / (1 + exp(beta e))`. -/
noncomputable def Spec.weight (beta e : ℝ) : ℝ := beta * Real.exp (beta * e) / (1 + Real.exp (beta * e)) ^ 2

/-- `N` is the piecewise linear curve through the samples, whose energies increase. -/
def Spec.Interpolates (N : ℝ → ℝ) (pts : List (ℝ × ℝ)) : Prop :=
  pts.IsChain fun p q => p.1 < q.1 ∧ ∀ e, p.1 ≤ e → e ≤ q.1 → N e = p.2 + (q.2 - p.2) / (q.1 - p.1) * (e - p.1)

/-- `N` is constant before the first and after the last sample. -/
def Spec.FlatOutside (N : ℝ → ℝ) (pts : List (ℝ × ℝ)) : Prop :=
  (∀ p ∈ pts.head?, ∀ e ≤ p.1, N e = p.2) ∧ ∀ q ∈ pts.getLast?, ∀ e, q.1 ≤ e → N e = q.2

theorem exp_pos_ne (x : ℝ) : (1 + Real.exp x) ≠ 0 := by positivity

/-- The weight is the negative derivative of the Fermi function. -/
theorem fermi_hasDerivAt (beta e : ℝ) : HasDerivAt (fermi beta) (-Spec.weight beta e) e := by
  have h1 : HasDerivAt (fun e => beta * e) beta e := by simpa using (hasDerivAt_id e).const_mul beta
  have h2 := (h1.exp.const_add 1).inv (exp_pos_ne _)
  have h3 : fermi beta = fun e => (1 + Real.exp (beta * e))⁻¹ := by funext e; rw [fermi, one_div]
  rw [h3]
  refine h2.congr_deriv ?_
  rw [Spec.weight]
  ring

theorem weight_even (beta e : ℝ) : Spec.weight beta (-e) = Spec.weight beta e := by
  rw [Spec.weight, Spec.weight, mul_neg, Real.exp_neg]
  have := Real.exp_pos (beta * e)
  field_simp
  ring

theorem dfermi_eq (beta e : ℝ) : dfermi beta e = -Spec.weight beta e := by
  rw [dfermi, Spec.weight, Real.cosh_eq]
  set t := Real.exp (1 / 2 * beta * e) with ht
  have h1 : Real.exp (beta * e) = t ^ 2 := by rw [ht, ← Real.exp_nat_mul]; congr 1; push_cast; ring
  have h2 : Real.exp (-(1 / 2 * beta * e)) = t⁻¹ := by rw [Real.exp_neg]
  have h3 : 0 < t := Real.exp_pos _
  rw [h1, h2]
  field_simp
  ring

theorem fermiInt_hasDerivAt (beta e : ℝ) (hb : beta ≠ 0) : HasDerivAt (fermiInt beta) (fermi beta e) e := by
  have h1 : HasDerivAt (fun e => -(beta * e)) (-beta) e := by
    have := ((hasDerivAt_id e).const_mul beta).neg
    rw [mul_one] at this
    exact this
  have h2 := (((h1.exp.const_add 1).log (exp_pos_ne _)).neg).div_const beta
  have h3 : fermiInt beta = fun e => -Real.log (1 + Real.exp (-(beta * e))) / beta := rfl
  rw [h3]
  refine h2.congr_deriv ?_
  rw [fermi, Real.exp_neg]
  have := Real.exp_pos (beta * e)
  field_simp
  ring

theorem weight_continuous (beta : ℝ) : Continuous (Spec.weight beta) := by
  unfold Spec.weight
  refine Continuous.div (by fun_prop) (by fun_prop) fun e => pow_ne_zero 2 (exp_pos_ne _)

theorem fermi_compl (beta e : ℝ) : fermi beta (-e) = 1 - fermi beta e := by
  rw [fermi, fermi, mul_neg, Real.exp_neg]
  have := Real.exp_pos (beta * e)
  field_simp
  ring

/-- The antiderivative used for a segment. -/
theorem segment_integral (beta x : ℝ) (hb : beta ≠ 0) (p q : ℝ × ℝ) (N : ℝ → ℝ) (hpq : p.1 < q.1)
    (hN : ∀ e, p.1 ≤ e → e ≤ q.1 → N e = p.2 + (q.2 - p.2) / (q.1 - p.1) * (e - p.1)) :
    convSegment beta x p q = ∫ e in p.1..q.1, N e * Spec.weight beta (e - x) := by
  set m := (q.2 - p.2) / (q.1 - p.1) with hm
  have hcongr : ∫ e in p.1..q.1, N e * Spec.weight beta (e - x) =
      ∫ e in p.1..q.1, (p.2 + m * (e - p.1)) * Spec.weight beta (e - x) := by
    refine integral_congr fun e he => ?_
    rw [Set.uIcc_of_le hpq.le] at he
    simp only [hN e he.1 he.2]
  rw [hcongr, integral_eq_sub_of_hasDerivAt
    (f := fun e => (p.2 + m * (e - p.1)) * fermi beta (x - e) + m * fermiInt beta (x - e))]
  · have hq : p.2 + m * (q.1 - p.1) = q.2 := by
      rw [hm]
      have : q.1 - p.1 ≠ 0 := by linarith
      field_simp
      ring
    rw [convSegment, ← hm]
    simp only [hq, sub_self, mul_zero, add_zero]
    ring
  · intro e _
    have h1 : HasDerivAt (fun e => p.2 + m * (e - p.1)) m e := by
      simpa using (((hasDerivAt_id e).sub_const p.1).const_mul m).const_add p.2
    have h0 : HasDerivAt (fun e => x - e) (-1) e := by simpa using (hasDerivAt_id e).const_sub x
    have h2 : HasDerivAt (fun e => fermi beta (x - e)) (Spec.weight beta (e - x)) e := by
      have := (fermi_hasDerivAt beta (x - e)).comp e h0
      refine this.congr_deriv ?_
      rw [← weight_even, neg_sub]
      ring
    have h3 : HasDerivAt (fun e => fermiInt beta (x - e)) (-fermi beta (x - e)) e := by
      have := (fermiInt_hasDerivAt beta (x - e) hb).comp e h0
      refine this.congr_deriv ?_
      ring
    refine ((h1.mul h2).add (h3.const_mul m)).congr_deriv ?_
    ring
  · refine Continuous.intervalIntegrable ?_ _ _
    have := weight_continuous beta
    fun_prop

theorem interpolates_continuousOn (N : ℝ → ℝ) (p q : ℝ × ℝ) (hpq : p.1 < q.1)
    (hN : ∀ e, p.1 ≤ e → e ≤ q.1 → N e = p.2 + (q.2 - p.2) / (q.1 - p.1) * (e - p.1)) (beta x : ℝ) :
    IntervalIntegrable (fun e => N e * Spec.weight beta (e - x)) volume p.1 q.1 := by
  have : IntervalIntegrable (fun e => (p.2 + (q.2 - p.2) / (q.1 - p.1) * (e - p.1)) * Spec.weight beta (e - x)) volume p.1 q.1 := by
    refine Continuous.intervalIntegrable ?_ _ _
    have := weight_continuous beta
    fun_prop
  refine this.congr fun e he => ?_
  rw [Set.uIoc_of_le hpq.le] at he
  simp only [hN e he.1.le he.2]

theorem sum_integral (beta x : ℝ) (hb : beta ≠ 0) (N : ℝ → ℝ) (pts : List (ℝ × ℝ)) (hN : Spec.Interpolates N pts) (p q : ℝ × ℝ)
    (hp : pts.head? = some p) (hq : pts.getLast? = some q) :
    sumSegments (convSegment beta x) pts = ∫ e in p.1..q.1, N e * Spec.weight beta (e - x) ∧
      IntervalIntegrable (fun e => N e * Spec.weight beta (e - x)) volume p.1 q.1 ∧ p.1 ≤ q.1 := by
  induction pts generalizing p with
  | nil => cases hp
  | cons a l ih =>
    simp only [List.head?_cons, Option.some.injEq] at hp
    subst hp
    cases l with
    | nil =>
      simp only [List.getLast?_singleton, Option.some.injEq] at hq
      subst hq
      simp [sumSegments]
    | cons b l =>
      rw [List.getLast?_cons_cons] at hq
      rw [Spec.Interpolates, List.isChain_cons_cons] at hN
      obtain ⟨⟨h1, h2⟩, h3⟩ := hN
      obtain ⟨i1, i2, i3⟩ := ih h3 b rfl hq
      have i4 := interpolates_continuousOn N a b h1 h2 beta x
      refine ⟨?_, i4.trans i2, h1.le.trans i3⟩
      rw [sumSegments, i1, segment_integral beta x hb a b N h1 h2, integral_add_adjacent_intervals i4 i2]

/-- C63.  Without extrapolation the result is the integral of the piecewise linear curve times the negative derivative of the Fermi
function around `x`, over the range of the samples. -/
theorem C63_samples (beta x : ℝ) (hb : beta ≠ 0) (N : ℝ → ℝ) (pts : List (ℝ × ℝ)) (hN : Spec.Interpolates N pts) (p q : ℝ × ℝ)
    (hp : pts.head? = some p) (hq : pts.getLast? = some q) :
    convolveDf beta x pts .none = .ok (∫ e in p.1..q.1, N e * Spec.weight beta (e - x)) := by
  rw [convolveDf, (sum_integral beta x hb N pts hN p q hp hq).1]

theorem fermi_tendsto_top (beta : ℝ) (hb : 0 < beta) : Tendsto (fermi beta) atTop (𝓝 0) := by
  have h : Tendsto (fun e => 1 + Real.exp (beta * e)) atTop atTop :=
    tendsto_atTop_add_const_left _ _ (Real.tendsto_exp_atTop.comp (tendsto_id.const_mul_atTop hb))
  have := h.inv_tendsto_atTop
  refine this.congr fun e => ?_
  simp [fermi]

theorem fermi_tendsto_bot (beta : ℝ) (hb : 0 < beta) : Tendsto (fermi beta) atBot (𝓝 1) := by
  have h := (fermi_tendsto_top beta hb).comp tendsto_neg_atBot_atTop
  have h2 : Tendsto (fun e => 1 - fermi beta (-e)) atBot (𝓝 (1 - 0)) := h.const_sub 1
  rw [sub_zero] at h2
  refine h2.congr fun e => ?_
  rw [fermi_compl]; ring

theorem weight_nonneg (beta e : ℝ) (hb : 0 ≤ beta) : 0 ≤ Spec.weight beta e := by
  rw [Spec.weight]; positivity

theorem weight_shift_deriv (beta x e : ℝ) : HasDerivAt (fun e => -fermi beta (e - x)) (Spec.weight beta (e - x)) e := by
  have h0 : HasDerivAt (fun e => e - x) 1 e := by simpa using (hasDerivAt_id e).sub_const x
  have := ((fermi_hasDerivAt beta (e - x)).comp e h0).neg
  refine this.congr_deriv ?_
  ring

theorem tail_right (beta x a : ℝ) (hb : 0 < beta) :
    IntegrableOn (fun e => Spec.weight beta (e - x)) (Set.Ioi a) ∧
      ∫ e in Set.Ioi a, Spec.weight beta (e - x) = fermi beta (a - x) := by
  have hlim : Tendsto (fun e => -fermi beta (e - x)) atTop (𝓝 (-0)) :=
    ((fermi_tendsto_top beta hb).comp (tendsto_atTop_add_const_right _ (-x) tendsto_id)).neg
  have hint := integrableOn_Ioi_deriv_of_nonneg' (a := a) (fun e _ => weight_shift_deriv beta x e)
    (fun e _ => weight_nonneg beta _ hb.le) hlim
  refine ⟨hint, ?_⟩
  rw [integral_Ioi_of_hasDerivAt_of_tendsto' (fun e _ => weight_shift_deriv beta x e) hint hlim]
  ring

theorem tail_left (beta x a : ℝ) (hb : 0 < beta) :
    IntegrableOn (fun e => Spec.weight beta (e - x)) (Set.Iic a) ∧
      ∫ e in Set.Iic a, Spec.weight beta (e - x) = fermi beta (x - a) := by
  have hlim : Tendsto (fun e => -fermi beta (e - x)) atBot (𝓝 (-1)) :=
    ((fermi_tendsto_bot beta hb).comp (tendsto_atBot_add_const_right _ (-x) tendsto_id)).neg
  have hint : IntegrableOn (fun e => Spec.weight beta (e - x)) (Set.Iic a) := by
    rw [integrableOn_Iic_iff_integrableOn_Iio]
    have h := ((Measure.measurePreserving_neg (volume : Measure ℝ)).integrableOn_comp_preimage
      (MeasurableEquiv.neg ℝ).measurableEmbedding).2 (tail_right beta (-x) (-a) hb).1
    have h2 : Neg.neg ⁻¹' Set.Ioi (-a) = Set.Iio a := by ext e; simp
    rw [h2] at h
    refine h.congr_fun (fun e _ => ?_) measurableSet_Iio
    simp only [Function.comp_apply]
    rw [← weight_even]
    congr 1
    ring
  refine ⟨hint, ?_⟩
  rw [integral_Iic_of_hasDerivAt_of_tendsto' (fun e _ => weight_shift_deriv beta x e) hint hlim,
    ← neg_sub a x, fermi_compl]
  ring

/-- C63.  With flat extrapolation the result is the integral over all energies of the curve, continued by constants, times the
negative derivative of the Fermi function around `x`. -/
theorem C63_flat (beta x : ℝ) (hb : 0 < beta) (N : ℝ → ℝ) (pts : List (ℝ × ℝ)) (hne : pts ≠ []) (hN : Spec.Interpolates N pts)
    (hf : Spec.FlatOutside N pts) :
    convolveDf beta x pts .flat = .ok (∫ e, N e * Spec.weight beta (e - x)) ∧
      Integrable fun e => N e * Spec.weight beta (e - x) := by
  obtain ⟨p, hp⟩ : ∃ p, pts.head? = some p := by
    cases pts with
    | nil => exact absurd rfl hne
    | cons a l => exact ⟨a, rfl⟩
  obtain ⟨q, hq⟩ : ∃ q, pts.getLast? = some q := ⟨_, List.getLast?_eq_some_getLast hne⟩
  obtain ⟨s1, s2, s3⟩ := sum_integral beta x hb.ne' N pts hN p q hp hq
  obtain ⟨l1, l2⟩ := tail_left beta x p.1 hb
  obtain ⟨r1, r2⟩ := tail_right beta x q.1 hb
  have l3 : Set.EqOn (fun e => p.2 * Spec.weight beta (e - x)) (fun e => N e * Spec.weight beta (e - x)) (Set.Iic p.1) :=
    fun e he => by simp only [hf.1 p (by rw [hp]; rfl) e he]
  have r3 : Set.EqOn (fun e => q.2 * Spec.weight beta (e - x)) (fun e => N e * Spec.weight beta (e - x)) (Set.Ioi q.1) :=
    fun e he => by simp only [hf.2 q (by rw [hq]; rfl) e (le_of_lt he)]
  have l4 : IntegrableOn (fun e => N e * Spec.weight beta (e - x)) (Set.Iic p.1) :=
    IntegrableOn.congr_fun (l1.const_mul p.2) l3 measurableSet_Iic
  have r4 : IntegrableOn (fun e => N e * Spec.weight beta (e - x)) (Set.Ioi q.1) :=
    IntegrableOn.congr_fun (r1.const_mul q.2) r3 measurableSet_Ioi
  have m4 : IntegrableOn (fun e => N e * Spec.weight beta (e - x)) (Set.Ioc p.1 q.1) := (intervalIntegrable_iff_integrableOn_Ioc_of_le s3).1 s2
  have hlm : IntegrableOn (fun e => N e * Spec.weight beta (e - x)) (Set.Iic q.1) := by
    rw [← Set.Iic_union_Ioc_eq_Iic s3]
    exact l4.union m4
  have hall : Integrable (fun e => N e * Spec.weight beta (e - x)) := by
    rw [← integrableOn_univ, ← Set.Iic_union_Ioi (a := q.1)]
    exact hlm.union r4
  refine ⟨?_, hall⟩
  have e1 : ∫ e, N e * Spec.weight beta (e - x) = fermi beta (x - p.1) * p.2 +
      (∫ e in p.1..q.1, N e * Spec.weight beta (e - x)) + fermi beta (q.1 - x) * q.2 := by
    rw [← setIntegral_univ, ← Set.Iic_union_Ioi (a := q.1), setIntegral_union (Set.Iic_disjoint_Ioi le_rfl) measurableSet_Ioi hlm r4,
      ← Set.Iic_union_Ioc_eq_Iic s3, setIntegral_union (Set.Iic_disjoint_Ioc le_rfl) measurableSet_Ioc l4 m4,
      ← setIntegral_congr_fun measurableSet_Iic l3, ← setIntegral_congr_fun measurableSet_Ioi r3,
      MeasureTheory.integral_const_mul, MeasureTheory.integral_const_mul, l2, r2, intervalIntegral.integral_of_le s3]
    ring
  rw [convolveDf, hp, hq, s1, e1]
  simp only [Except.ok.injEq]
  ring

theorem weight_integral (beta : ℝ) (hb : 0 < beta) : Integrable (Spec.weight beta) ∧ ∫ u, Spec.weight beta u = 1 := by
  have l := tail_left beta 0 0 hb
  have r := tail_right beta 0 0 hb
  simp only [sub_zero] at l r
  constructor
  · rw [← integrableOn_univ, ← Set.Iic_union_Ioi (a := 0)]
    exact l.1.union r.1
  · rw [← setIntegral_univ, ← Set.Iic_union_Ioi (a := 0), setIntegral_union (Set.Iic_disjoint_Ioi le_rfl) measurableSet_Ioi l.1 r.1,
      l.2, r.2]
    norm_num [fermi]

/-- C63.  With flat extrapolation the result is an average of the curve: it stays between bounds of the curve, and if the curve
does not decrease the result does not decrease with `x`. -/
theorem C63_average (beta : ℝ) (hb : 0 < beta) (N : ℝ → ℝ) (pts : List (ℝ × ℝ)) (hne : pts ≠ []) (hN : Spec.Interpolates N pts)
    (hf : Spec.FlatOutside N pts) :
    ∃ g : ℝ → ℝ, (∀ x, convolveDf beta x pts .flat = .ok (g x)) ∧
      (∀ a b, (∀ e, a ≤ N e ∧ N e ≤ b) → ∀ x, a ≤ g x ∧ g x ≤ b) ∧ (Monotone N → Monotone g) := by
  obtain ⟨w1, w2⟩ := weight_integral beta hb
  have hg : ∀ x, ∫ e, N e * Spec.weight beta (e - x) = ∫ u, N (u + x) * Spec.weight beta u := by
    intro x
    rw [← integral_add_right_eq_self (fun e => N e * Spec.weight beta (e - x)) x]
    simp only [add_sub_cancel_right]
  have hi : ∀ x, Integrable fun u => N (u + x) * Spec.weight beta u := by
    intro x
    have := (C63_flat beta x hb N pts hne hN hf).2.comp_add_right x
    simpa only [add_sub_cancel_right] using this
  refine ⟨fun x => ∫ u, N (u + x) * Spec.weight beta u, fun x => by rw [(C63_flat beta x hb N pts hne hN hf).1, hg], ?_, ?_⟩
  · intro a b hab x
    have c : ∀ t : ℝ, ∫ u, t * Spec.weight beta u = t := fun t => by
      rw [MeasureTheory.integral_const_mul, w2, mul_one]
    constructor
    · have := integral_mono (w1.const_mul a) (hi x) fun u =>
        mul_le_mul_of_nonneg_right (hab (u + x)).1 (weight_nonneg beta u hb.le)
      rw [c] at this
      exact this
    · have := integral_mono (hi x) (w1.const_mul b) fun u =>
        mul_le_mul_of_nonneg_right (hab (u + x)).2 (weight_nonneg beta u hb.le)
      rw [c] at this
      exact this
  · intro hm x y hxy
    exact integral_mono (hi x) (hi y) fun u =>
      mul_le_mul_of_nonneg_right (hm (by linarith)) (weight_nonneg beta u hb.le)

/-- C63.  The extrapolation to a point `(e, n)` adds `n` times the weight above `e`; if `e` is above the last sample, this is
the integral of the curve that is zero before the first sample and between the last sample and `e`, and `n` above `e`. -/
theorem C63_point (beta x : ℝ) (hb : 0 < beta) (N : ℝ → ℝ) (pts : List (ℝ × ℝ)) (hN : Spec.Interpolates N pts) (p q : ℝ × ℝ)
    (hp : pts.head? = some p) (hq : pts.getLast? = some q) (e n : ℝ) :
    convolveDf beta x pts (.point e n) =
      .ok ((∫ t in p.1..q.1, N t * Spec.weight beta (t - x)) + ∫ t in Set.Ioi e, n * Spec.weight beta (t - x)) := by
  rw [convolveDf, (sum_integral beta x hb.ne' N pts hN p q hp hq).1, MeasureTheory.integral_const_mul, (tail_right beta x e hb).2,
    mul_comm n]

theorem dsegment_deriv (beta x : ℝ) (hb : beta ≠ 0) (p q : ℝ × ℝ) :
    HasDerivAt (fun x => convSegment beta x p q) (convDsegment beta x p q) x := by
  have hs : ∀ a : ℝ, HasDerivAt (fun x => fermi beta (x - a)) (dfermi beta (x - a)) x := by
    intro a
    have h0 : HasDerivAt (fun x => x - a) 1 x := by simpa using (hasDerivAt_id x).sub_const a
    have := (fermi_hasDerivAt beta (x - a)).comp x h0
    rw [mul_one, ← dfermi_eq] at this
    exact this
  have hF : ∀ a : ℝ, HasDerivAt (fun x => fermiInt beta (x - a)) (fermi beta (x - a)) x := by
    intro a
    have h0 : HasDerivAt (fun x => x - a) 1 x := by simpa using (hasDerivAt_id x).sub_const a
    have := (fermiInt_hasDerivAt beta (x - a) hb).comp x h0
    rw [mul_one] at this
    exact this
  exact (((hs q.1).const_mul q.2).sub ((hs p.1).const_mul p.2)).add
    (((hF q.1).sub (hF p.1)).const_mul ((q.2 - p.2) / (q.1 - p.1)))

theorem sum_deriv (beta x : ℝ) (hb : beta ≠ 0) (pts : List (ℝ × ℝ)) :
    HasDerivAt (fun x => sumSegments (convSegment beta x) pts) (sumSegments (convDsegment beta x) pts) x := by
  induction pts with
  | nil => simpa [sumSegments] using hasDerivAt_const x (0 : ℝ)
  | cons a l ih =>
    cases l with
    | nil => simpa [sumSegments] using hasDerivAt_const x (0 : ℝ)
    | cons b l => exact (dsegment_deriv beta x hb a b).add ih

/-- C64.  Without extrapolation `convolve_ddf` is the derivative of `convolve_df`. -/
theorem C64_samples (beta : ℝ) (hb : beta ≠ 0) (pts : List (ℝ × ℝ)) :
    ∃ g g' : ℝ → ℝ, (∀ x, convolveDf beta x pts .none = .ok (g x)) ∧ (∀ x, convolveDdf beta x pts .none = .ok (g' x)) ∧
      ∀ x, HasDerivAt g (g' x) x :=
  ⟨_, _, fun _ => rfl, fun _ => rfl, fun x => sum_deriv beta x hb pts⟩

theorem fermi_rev_deriv (beta x a : ℝ) : HasDerivAt (fun x => fermi beta (a - x)) (-dfermi beta (a - x)) x := by
  have h0 : HasDerivAt (fun x => a - x) (-1) x := by simpa using (hasDerivAt_id x).const_sub a
  have := (fermi_hasDerivAt beta (a - x)).comp x h0
  rw [← dfermi_eq, mul_neg_one] at this
  exact this

/-- C64.  With extrapolation (flat or to a point) `convolve_ddf` has the wrong sign in its right part: it differs from the derivative of
`convolve_df` by `2 df(e - x) n`, where `e`, `n` are the last sample or the extrapolation point. -/
theorem C64_right_part (beta : ℝ) (hb : beta ≠ 0) (pts : List (ℝ × ℝ)) :
    (∀ e n, ∃ g g' : ℝ → ℝ, (∀ x, convolveDf beta x pts (.point e n) = .ok (g x)) ∧
      (∀ x, convolveDdf beta x pts (.point e n) = .ok (g' x)) ∧ ∀ x, HasDerivAt g (g' x - 2 * dfermi beta (e - x) * n) x) ∧
    (∀ p q, pts.head? = some p → pts.getLast? = some q →
      ∃ g g' : ℝ → ℝ, (∀ x, convolveDf beta x pts .flat = .ok (g x)) ∧ (∀ x, convolveDdf beta x pts .flat = .ok (g' x)) ∧
        ∀ x, HasDerivAt g (g' x - 2 * dfermi beta (q.1 - x) * q.2) x) := by
  constructor
  · intro e n
    refine ⟨_, _, fun _ => rfl, fun _ => rfl, fun x => ?_⟩
    refine ((sum_deriv beta x hb pts).add ((fermi_rev_deriv beta x e).mul_const n)).congr_deriv ?_
    ring
  · intro p q hp hq
    refine ⟨_, _, fun x => by rw [convolveDf, hp, hq], fun x => by rw [convolveDdf, hp, hq], fun x => ?_⟩
    have hs : HasDerivAt (fun x => fermi beta (x - p.1)) (dfermi beta (x - p.1)) x := by
      have h0 : HasDerivAt (fun x => x - p.1) 1 x := by simpa using (hasDerivAt_id x).sub_const p.1
      have := (fermi_hasDerivAt beta (x - p.1)).comp x h0
      rw [mul_one, ← dfermi_eq] at this
      exact this
    refine (((sum_deriv beta x hb pts).add (hs.mul_const p.2)).add ((fermi_rev_deriv beta x q.1).mul_const q.2)).congr_deriv ?_
    ring

/-- C64.  Witness: for the constant curve 1, `convolve_df` is 1 for all `x`, but `convolve_ddf` is negative. -/
theorem C64_flat_wrong : (∀ x, convolveDf 1 x [(0, 1)] .flat = .ok 1) ∧ ∃ r < 0, convolveDdf 1 0 [(0, 1)] .flat = .ok r := by
  constructor
  · intro x
    have : fermi 1 (0 - x) = 1 - fermi 1 (x - 0) := by rw [← fermi_compl]; congr 1; ring
    simp only [convolveDf, List.head?_cons, List.getLast?_singleton, sumSegments, this, Except.ok.injEq]
    ring
  · refine ⟨-(1 / 2), by norm_num, ?_⟩
    simp only [convolveDdf, List.head?_cons, List.getLast?_singleton, sumSegments, Except.ok.injEq, dfermi]
    norm_num

/-- The ramp from 0 at energy 0 to 2 at energy 1. -/
noncomputable def exRamp (e : ℝ) : ℝ := if e ≤ 0 then 0 else if e ≤ 1 then 2 * e else 2

theorem exRamp_spec : Spec.Interpolates exRamp [(0, 0), (1, 2)] ∧ Spec.FlatOutside exRamp [(0, 0), (1, 2)] := by
  refine ⟨?_, ?_, ?_⟩
  · simp only [Spec.Interpolates, List.isChain_cons_cons, List.isChain_singleton, and_true]
    refine ⟨by norm_num, fun e h0 h1 => ?_⟩
    rw [exRamp]
    rcases h0.lt_or_eq with h | h
    · rw [if_neg (not_le.2 h), if_pos h1]; ring
    · rw [← h]; norm_num
  · simp only [List.head?_cons, Option.mem_def, Option.some.injEq, forall_eq']
    intro e he
    rw [exRamp, if_pos he]
  · simp only [List.getLast?_cons_cons, List.getLast?_singleton, Option.mem_def, Option.some.injEq, forall_eq']
    intro e he
    rw [exRamp, if_neg (by linarith)]
    rcases he.lt_or_eq with h | h
    · rw [if_neg (not_le.2 h)]
    · rw [← h]; norm_num

example (x : ℝ) : convolveDf 10 x [(0, 0), (1, 2)] .flat = .ok (∫ e, exRamp e * Spec.weight 10 (e - x)) :=
  (C63_flat 10 x (by norm_num) exRamp _ (by simp) exRamp_spec.1 exRamp_spec.2).1

end TB.Dos

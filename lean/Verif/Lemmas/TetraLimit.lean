import Verif.Lemmas.TetraVol
import Mathlib.Topology.Order.OrderClosed

/-!
# The formula of the tetrahedron method for arbitrary corner values, as a limit of the formula for different ones
-/

namespace TB.Smear

open Filter Topology

/-! ## The formula and its limits -/

/-- The two terms of smearing.py 365-366 (helper, equal to the model after unfolding). -/
noncomputable def tvol (b x y z : ℝ) : ℝ :=
  (max 0 (-b)) ^ 3 / (x * y * z) - (max 0 (-x - b)) ^ 3 / (x * guardDiff (y - x) * guardDiff (z - x))

theorem dd_formula {x y z : ℝ} (g : Spec.Generic x y z) {b : ℝ} (hy : 0 ≤ y + b) (hz : 0 ≤ z + b) :
    dd 3 b x y z = 1 - tvol b x y z := by
  have hx0 := g.x
  have hy0 := g.y
  have hz0 := g.z
  have d1 : x - y ≠ 0 := sub_ne_zero.2 g.xy
  have d2 : x - z ≠ 0 := sub_ne_zero.2 g.xz
  have d3 : y - z ≠ 0 := sub_ne_zero.2 g.yz
  have d1' : y - x ≠ 0 := sub_ne_zero.2 g.xy.symm
  have d2' : z - x ≠ 0 := sub_ne_zero.2 g.xz.symm
  rw [tvol, guardDiff_of_ne d1', guardDiff_of_ne d2', dd]
  have e0 := pp3_odd b
  have e1 := pp3_odd (b + x)
  rw [pp_of_nonneg (show 0 ≤ b + y by linarith), pp_of_nonneg (show 0 ≤ b + z by linarith)]
  have f0 : max 0 (-b) ^ 3 = pp 3 b - b ^ 3 := by rw [← e0, pp]; rw [pp]; ring
  have f1 : max 0 (-x - b) ^ 3 = pp 3 (b + x) - (b + x) ^ 3 := by
    rw [← e1, show -(b + x) = -x - b by ring, pp]; rw [pp]; ring
  rw [f0, f1]
  generalize pp 3 b = p0
  generalize pp 3 (b + x) = p1
  rw [show y - x = -(x - y) by ring, show z - y = -(y - z) by ring, show z - x = -(x - z) by ring]
  field_simp
  ring

theorem eventually_affine_ne (α β : ℝ) (h : α ≠ 0 ∨ β ≠ 0) : ∀ᶠ ε in 𝓝[>] (0 : ℝ), α + β * ε ≠ 0 := by
  by_cases ha : α = 0
  · have hb : β ≠ 0 := h.resolve_left (fun h => h ha)
    filter_upwards [self_mem_nhdsWithin] with ε hε
    rw [ha, zero_add]
    exact mul_ne_zero hb (ne_of_gt hε)
  · have hc : Continuous fun ε : ℝ => α + β * ε := by fun_prop
    have h0 := hc.continuousAt (x := 0)
    have h1 : ∀ᶠ ε in 𝓝 (0 : ℝ), α + β * ε ≠ 0 := h0.eventually_ne (by simpa using ha)
    exact h1.filter_mono nhdsWithin_le_nhds

/-- Close to any three values which are not zero there are different ones. -/
theorem eventually_generic {x y z : ℝ} (hx : x ≠ 0) (hy : y ≠ 0) (hz : z ≠ 0) :
    ∀ᶠ ε in 𝓝[>] (0 : ℝ), Spec.Generic x (y + ε) (z + 2 * ε) := by
  filter_upwards [eventually_affine_ne y 1 (Or.inl hy), eventually_affine_ne z 2 (Or.inl hz),
    eventually_affine_ne (x - y) (-1) (Or.inr (by norm_num)), eventually_affine_ne (x - z) (-2) (Or.inr (by norm_num)),
    eventually_affine_ne (y - z) (-1) (Or.inr (by norm_num))] with ε h1 h2 h3 h4 h5
  refine ⟨hx, ?_, h2, ?_, ?_, ?_⟩
  · rwa [one_mul] at h1
  · intro e; apply h3; linarith
  · intro e; apply h4; linarith
  · intro e; apply h5; linarith

/-- The formula of the code is the limit of the true volumes for different corner values. -/
theorem dd_limit {b x y z : ℝ} (hx : x ≠ 0) (hy : y ≠ 0) (hz : z ≠ 0) (h1 : 0 ≤ y + b) (h2 : 0 ≤ z + b) :
    Tendsto (fun ε => dd 3 b x (y + ε) (z + 2 * ε)) (𝓝[>] 0) (𝓝 (1 - tvol b x y z)) := by
  have ev : ∀ᶠ ε in 𝓝[>] (0 : ℝ), 1 - ((max 0 (-b)) ^ 3 / (x * (y + ε) * (z + 2 * ε)) -
      (max 0 (-x - b)) ^ 3 / (x * guardDiff (y + ε - x) * guardDiff (z + 2 * ε - x))) = dd 3 b x (y + ε) (z + 2 * ε) := by
    filter_upwards [eventually_generic hx hy hz, self_mem_nhdsWithin] with ε g hε
    have hε' : 0 < ε := hε
    rw [dd_formula g (by linarith) (by linarith), tvol]
  refine Tendsto.congr' ev ?_
  have c1 : Tendsto (fun ε : ℝ => (max 0 (-b)) ^ 3 / (x * (y + ε) * (z + 2 * ε))) (𝓝[>] 0)
      (𝓝 ((max 0 (-b)) ^ 3 / (x * y * z))) := by
    have : ContinuousAt (fun ε : ℝ => (max 0 (-b)) ^ 3 / (x * (y + ε) * (z + 2 * ε))) 0 := by
      refine ContinuousAt.div (by fun_prop) (by fun_prop) ?_
      simpa using ⟨⟨hx, hy⟩, hz⟩
    have h := this.tendsto.mono_left (nhdsWithin_le_nhds (s := Set.Ioi 0))
    simpa using h
  rw [tvol]
  refine tendsto_const_nhds.sub (c1.sub ?_)
  by_cases ht : y = x ∨ z = x
  · have hp : max 0 (-x - b) = 0 := max_eq_left (by rcases ht with e | e <;> rw [← e] <;> linarith)
    simp only [hp]
    norm_num
  · push Not at ht
    have n1 : y - x ≠ 0 := sub_ne_zero.2 ht.1
    have n2 : z - x ≠ 0 := sub_ne_zero.2 ht.2
    rw [guardDiff_of_ne n1, guardDiff_of_ne n2]
    have e : ∀ᶠ ε in 𝓝[>] (0 : ℝ), (max 0 (-x - b)) ^ 3 / (x * (y + ε - x) * (z + 2 * ε - x)) =
        (max 0 (-x - b)) ^ 3 / (x * guardDiff (y + ε - x) * guardDiff (z + 2 * ε - x)) := by
      filter_upwards [eventually_affine_ne (y - x) 1 (Or.inl n1), eventually_affine_ne (z - x) 2 (Or.inl n2)] with ε m1 m2
      rw [guardDiff_of_ne (show y + ε - x ≠ 0 from fun e => m1 (by linarith)),
        guardDiff_of_ne (show z + 2 * ε - x ≠ 0 from fun e => m2 (by linarith))]
    refine Tendsto.congr' e ?_
    have : ContinuousAt (fun ε : ℝ => (max 0 (-x - b)) ^ 3 / (x * (y + ε - x) * (z + 2 * ε - x))) 0 := by
      refine ContinuousAt.div (by fun_prop) (by fun_prop) ?_
      simpa using ⟨⟨hx, n1⟩, n2⟩
    have h := this.tendsto.mono_left (nhdsWithin_le_nhds (s := Set.Ioi 0))
    simpa using h

/-! ## Sorting and clamping -/

/-- Values in sorted order, moved a little, belong to the original values moved as little. -/
structure Track (a1 a2 a3 x y z : ℝ) : Prop where
  all : ∀ Q : ℝ → Prop, Q a1 → Q a2 → Q a3 → Q x ∧ Q y ∧ Q z
  move : ∀ p q r : ℝ, ∃ h1 h2 h3 : ℝ, (∀ k b, dd k b p q r = dd k b h1 h2 h3) ∧
    (Spec.Generic p q r → Spec.Generic h1 h2 h3) ∧
    ∀ δ, |p - x| ≤ δ → |q - y| ≤ δ → |r - z| ≤ δ → |h1 - a1| ≤ δ ∧ |h2 - a2| ≤ δ ∧ |h3 - a3| ≤ δ

theorem sort3_track (a b c : ℝ) : Track a b c (sort3 a b c).1 (sort3 a b c).2.1 (sort3 a b c).2.2 ∧
      (sort3 a b c).1 ≤ (sort3 a b c).2.1 ∧ (sort3 a b c).2.1 ≤ (sort3 a b c).2.2 := by
  refine sort3_spec a b c (Track a b c) ?_ ?_ ⟨fun Q h1 h2 h3 => ⟨h1, h2, h3⟩,
    fun p q r => ⟨p, q, r, fun _ _ => rfl, id, fun δ h1 h2 h3 => ⟨h1, h2, h3⟩⟩⟩
  · intro x y z ht
    refine ⟨fun Q h1 h2 h3 => ⟨(ht.all Q h1 h2 h3).2.1, (ht.all Q h1 h2 h3).1, (ht.all Q h1 h2 h3).2.2⟩, fun p q r => ?_⟩
    obtain ⟨h1, h2, h3, hd, hg, hm⟩ := ht.move q p r
    exact ⟨h1, h2, h3, fun k b => by rw [dd_swap12, hd], fun g => hg ⟨g.y, g.x, g.z, g.xy.symm, g.yz, g.xz⟩,
      fun δ m1 m2 m3 => hm δ m2 m1 m3⟩
  · intro x y z ht
    refine ⟨fun Q h1 h2 h3 => ⟨(ht.all Q h1 h2 h3).1, (ht.all Q h1 h2 h3).2.2, (ht.all Q h1 h2 h3).2.1⟩, fun p q r => ?_⟩
    obtain ⟨h1, h2, h3, hd, hg, hm⟩ := ht.move p r q
    exact ⟨h1, h2, h3, fun k b => by rw [dd_swap23, hd], fun g => hg ⟨g.x, g.z, g.y, g.xz, g.xy, g.yz.symm⟩,
      fun δ m1 m2 m3 => hm δ m1 m3 m2⟩

theorem Track.move_back {a1 a2 a3 x y z : ℝ} (t : Track a1 a2 a3 x y z) (p q r : ℝ) :
    ∃ h1 h2 h3 : ℝ, (∀ k b, dd k b p q r = dd k b h1 h2 h3) ∧ (Spec.Generic p q r → Spec.Generic h1 h2 h3) ∧
      ∀ δ, |p - z| ≤ δ → |q - y| ≤ δ → |r - x| ≤ δ → |h1 - a1| ≤ δ ∧ |h2 - a2| ≤ δ ∧ |h3 - a3| ≤ δ := by
  obtain ⟨h1, h2, h3, hd, hg, hm⟩ := t.move r q p
  refine ⟨h1, h2, h3, fun k b => ?_, fun g => hg ⟨g.z, g.y, g.x, g.yz.symm, g.xz.symm, g.xy.symm⟩,
    fun δ m1 m2 m3 => hm δ m3 m2 m1⟩
  rw [dd_swap12, dd_swap23, dd_swap12, hd]

/-- Clamping of smearing.py 362-364. -/
noncomputable def clampTo (c t u : ℝ) : ℝ := if |u| < c then t else u

theorem clampTo_near {c t u δ : ℝ} (ht : |t| ≤ 4 / 10 ^ 9) (hc : c ≤ 4 / 10 ^ 9) (hδ : 0 ≤ δ)
    (h : δ = 8 / 10 ^ 9 ∨ 4 / 10 ^ 9 ≤ |u|) : |clampTo c t u - u| ≤ δ := by
  rw [clampTo]
  split_ifs with hu
  · rcases h with h | h
    · calc |t - u| ≤ |t| + |u| := abs_sub _ _
        _ ≤ δ := by rw [h]; linarith
    · linarith
  · simpa using hδ

theorem clampTo_ne {c t u : ℝ} (hc : 0 < c) (ht : t ≠ 0) : clampTo c t u ≠ 0 := by
  rw [clampTo]
  split_ifs with h
  · exact ht
  · rintro rfl
    rw [abs_zero] at h
    exact h hc

theorem le_clampTo {c u : ℝ} : u ≤ clampTo c c u := by
  rw [clampTo]
  split_ifs with h
  · exact (le_abs_self u).trans h.le
  · exact le_rfl

/-- The formula of the code in terms of the sorted values (helper). -/
noncomputable def sorted (F : ℝ → ℝ → ℝ → ℝ → ℝ) (b x y z : ℝ) : ℝ :=
  F b (clampTo (4 / 10 ^ 9) (-4 / 10 ^ 9) x) (clampTo (1 / 10 ^ 9) (1 / 10 ^ 9) y) (clampTo (2 / 10 ^ 9) (2 / 10 ^ 9) z)

theorem unitTetra_eq (a0 ax ay az : ℝ) :
    let N := norm3 ax ay az (1 / 10 ^ 50)
    let s := sort3 (ax / N) (ay / N) (az / N)
    unitTetraCutVolume a0 ax ay az = (if s.2.1 + a0 / N < 0 then sorted tvol (-(a0 / N)) (-s.2.2) (-s.2.1) (-s.1)
      else 1 - sorted tvol (a0 / N) s.1 s.2.1 s.2.2) / 6 := by
  intro N s
  rw [unitTetraCutVolume, tetraPrep]
  simp only [decide_eq_true_eq]
  by_cases hd : s.2.1 + a0 / N < 0
  · rw [if_pos hd]
    simp only [s, N] at hd
    simp only [s, N, if_pos hd, sorted, tvol, clampTo]
  · rw [if_neg hd]
    simp only [s, N] at hd
    simp only [s, N, if_neg hd, sorted, tvol, clampTo]

/-- The two terms of smearing.py 382-383 (helper). -/
noncomputable def tdvol (b x y z : ℝ) : ℝ :=
  (max 0 (-b)) ^ 2 / (x * y * z) - (max 0 (-x - b)) ^ 2 / (x * guardDiff (y - x) * guardDiff (z - x))

theorem unitTetraD_eq (a0 ax ay az : ℝ) :
    let N := norm3 ax ay az (1 / 10 ^ 50)
    let s := sort3 (ax / N) (ay / N) (az / N)
    unitTetraCutDvolume a0 ax ay az = (if s.2.1 + a0 / N < 0 then sorted tdvol (-(a0 / N)) (-s.2.2) (-s.2.1) (-s.1)
      else sorted tdvol (a0 / N) s.1 s.2.1 s.2.2) / 2 / N := by
  intro N s
  rw [unitTetraCutDvolume, tetraPrep]
  simp only [decide_eq_true_eq]
  by_cases hd : s.2.1 + a0 / N < 0
  · rw [if_pos hd]
    simp only [s, N] at hd
    simp only [s, N, if_pos hd, sorted, tdvol, clampTo]
  · rw [if_neg hd]
    simp only [s, N] at hd
    simp only [s, N, if_neg hd, sorted, tdvol, clampTo]

theorem hasDerivAt_tvol (b x y z : ℝ) : HasDerivAt (fun b => tvol b x y z) (-3 * tdvol b x y z) b := by
  have h1 : ∀ c : ℝ, HasDerivAt (fun b : ℝ => (max 0 (c - b)) ^ 3) (-(3 * (max 0 (c - b)) ^ 2)) b := by
    intro c
    have h := (hasDerivAt_pp' 1 (c - b)).comp b ((hasDerivAt_id b).const_sub c)
    refine (h.congr_deriv ?_)
    rw [pp]
    norm_num
  have h2 := h1 0
  simp only [zero_sub] at h2
  have h := (h2.div_const (x * y * z)).sub ((h1 (-x)).div_const (x * guardDiff (y - x) * guardDiff (z - x)))
  refine h.congr_deriv ?_
  rw [tdvol]
  ring

/-- The volume of the code in terms of the sorted values. -/
theorem unitTetra_sorted (a0 ax ay az : ℝ) :
    let N := norm3 ax ay az (1 / 10 ^ 50)
    ∃ x y z : ℝ, Track (ax / N) (ay / N) (az / N) x y z ∧ x ≤ y ∧ y ≤ z ∧
      unitTetraCutVolume a0 ax ay az = (if y + a0 / N < 0 then sorted tvol (-(a0 / N)) (-z) (-y) (-x)
        else 1 - sorted tvol (a0 / N) x y z) / 6 := by
  intro N
  obtain ⟨t, o1, o2⟩ := sort3_track (ax / N) (ay / N) (az / N)
  exact ⟨_, _, _, t, o1, o2, unitTetra_eq a0 ax ay az⟩

theorem tetra_scale {N : ℝ} (hN : 0 < N) (a0 ax ay az : ℝ) :
    Spec.tetra (a0 / N) (ax / N) (ay / N) (az / N) = Spec.tetra a0 ax ay az := by
  rw [Spec.tetra, Spec.tetra]
  have e : ∀ x y z : ℝ, (0 < a0 / N + ax / N * x + ay / N * y + az / N * z) = (0 < a0 + ax * x + ay * y + az * z) := by
    intro x y z
    rw [show a0 / N + ax / N * x + ay / N * y + az / N * z = (a0 + ax * x + ay * y + az * z) / N by ring]
    exact propext (div_pos_iff_of_pos_right hN)
  simp only [e]

/-- One of the slopes of a normalised function is large. -/
theorem big_slope {ax ay az : ℝ} (h : 1 / 10 ^ 50 ≤ Real.sqrt (ax ^ 2 + ay ^ 2 + az ^ 2)) :
    let N := norm3 ax ay az (1 / 10 ^ 50)
    1 / 4 ≤ |ax / N| ∨ 1 / 4 ≤ |ay / N| ∨ 1 / 4 ≤ |az / N| := by
  intro N
  have hN : 0 < N := norm3_pos _ _ _ (by positivity)
  by_contra hc
  push Not at hc
  have e : ∀ {u : ℝ}, |u / N| < 1 / 4 → u ^ 2 < N ^ 2 / 16 := by
    intro u hu
    rw [abs_div, abs_of_pos hN, div_lt_iff₀ hN] at hu
    rw [← sq_abs u]
    nlinarith [abs_nonneg u]
  have h1 := e hc.1
  have h2 := e hc.2.1
  have h3 := e hc.2.2
  have hs : Real.sqrt (ax ^ 2 + ay ^ 2 + az ^ 2) ^ 2 = ax ^ 2 + ay ^ 2 + az ^ 2 := Real.sq_sqrt (by positivity)
  have hd : N = Real.sqrt (ax ^ 2 + ay ^ 2 + az ^ 2) + 1 / 10 ^ 50 := rfl
  generalize Real.sqrt (ax ^ 2 + ay ^ 2 + az ^ 2) = s at *
  have h4 : N ≤ 2 * s := by rw [hd]; linarith
  nlinarith

/-- The error made by clamping, for any bound `δ` on how far the clamped values move. -/
theorem tetra_error {a0 ax ay az δ : ℝ} (hn : 1 / 10 ^ 50 ≤ Real.sqrt (ax ^ 2 + ay ^ 2 + az ^ 2)) (h0 : 0 ≤ δ)
    (h8 : δ ≤ 8 / 10 ^ 9)
    (hδ : ∀ u, u = ax ∨ u = ay ∨ u = az → δ = 8 / 10 ^ 9 ∨ 4 / 10 ^ 9 ≤ |u / norm3 ax ay az (1 / 10 ^ 50)|) :
    |unitTetraCutVolume a0 ax ay az - Spec.tetra a0 ax ay az| ≤ 10 * δ := by
  obtain ⟨x, y, z, ht, hxy, hyz, hv⟩ := unitTetra_sorted a0 ax ay az
  have hbig := big_slope hn
  have hN : 0 < norm3 ax ay az (1 / 10 ^ 50) := norm3_pos _ _ _ (by positivity)
  rw [← tetra_scale hN]
  set N := norm3 ax ay az (1 / 10 ^ 50)
  set b := a0 / N
  obtain ⟨qx, qy, qz⟩ := ht.all (fun u => δ = 8 / 10 ^ 9 ∨ 4 / 10 ^ 9 ≤ |u|) (hδ _ (Or.inl rfl)) (hδ _ (Or.inr (Or.inl rfl)))
    (hδ _ (Or.inr (Or.inr rfl)))
  -- values of the specification close to the ones of the code
  have near : ∀ {ε p q r h1 h2 h3 : ℝ}, 0 < ε → ε < 1 / 100 → (∀ k b, dd k b p q r = dd k b h1 h2 h3) →
      Spec.Generic h1 h2 h3 → |h1 - ax / N| ≤ δ + 2 * ε → |h2 - ay / N| ≤ δ + 2 * ε → |h3 - az / N| ≤ δ + 2 * ε →
      |dd 3 b p q r / 6 - Spec.tetra b (ax / N) (ay / N) (az / N)| ≤ 10 * (δ + 2 * ε) := by
    intro ε p q r h1 h2 h3 e1 e2 hd g m1 m2 m3
    have hk : ∀ {h a : ℝ}, 1 / 4 ≤ |a| → |h - a| ≤ δ + 2 * ε → 1 / 5 ≤ |h| := by
      intro h a ha hm
      have : |a| ≤ |h| + |h - a| := by
        calc |a| = |h - (h - a)| := by congr 1; ring
          _ ≤ |h| + |h - a| := abs_sub _ _
      have : (8 : ℝ) / 10 ^ 9 ≤ 1 / 100 := by norm_num
      linarith
    have := tetra_near (a0 := b) (κ := 1 / 5) g (by norm_num) m1 m2 m3
      (hbig.imp (fun h => hk h m1) (Or.imp (fun h => hk h m2) fun h => hk h m3))
    rw [hd, ← tetra_eq g]
    calc _ ≤ _ := this
      _ = 10 * (δ + 2 * ε) := by ring
  have small : ∀ᶠ ε in 𝓝[>] (0 : ℝ), ε < 1 / 100 := by
    have : ∀ᶠ ε in 𝓝 (0 : ℝ), ε < 1 / 100 := eventually_lt_nhds (by norm_num)
    exact this.filter_mono nhdsWithin_le_nhds
  have hlim : Tendsto (fun ε : ℝ => 10 * (δ + 2 * ε)) (𝓝[>] 0) (𝓝 (10 * δ)) := by
    have hc : Continuous fun ε : ℝ => 10 * (δ + 2 * ε) := by fun_prop
    have := (hc.tendsto 0).mono_left (nhdsWithin_le_nhds (s := Set.Ioi 0))
    simpa using this
  have c4 : |(-4 : ℝ) / 10 ^ 9| ≤ 4 / 10 ^ 9 := by rw [abs_le]; constructor <;> norm_num
  have c1 : |(1 : ℝ) / 10 ^ 9| ≤ 4 / 10 ^ 9 := by rw [abs_le]; constructor <;> norm_num
  have c2 : |(2 : ℝ) / 10 ^ 9| ≤ 4 / 10 ^ 9 := by rw [abs_le]; constructor <;> norm_num
  have shift : ∀ {u v ε : ℝ} (m : ℝ), |u - v| ≤ δ → 0 ≤ m → m ≤ 2 → 0 < ε → |u + m * ε - v| ≤ δ + 2 * ε := by
    intro u v ε m h hm hm2 hε
    have hmε : 0 ≤ m * ε := mul_nonneg hm hε.le
    have hmε' : m * ε ≤ 2 * ε := mul_le_mul_of_nonneg_right hm2 hε.le
    rw [abs_le] at h ⊢
    constructor <;> linarith [h.1, h.2]
  rw [hv]
  simp only [sorted]
  split_ifs with hd
  · -- the dual problem
    have qn : ∀ {u : ℝ}, (δ = 8 / 10 ^ 9 ∨ 4 / 10 ^ 9 ≤ |u|) → δ = 8 / 10 ^ 9 ∨ 4 / 10 ^ 9 ≤ |-u| := by
      intro u h; rwa [abs_neg]
    have nX := clampTo_near (c := 4 / 10 ^ 9) c4 le_rfl h0 (qn qz)
    have nY := clampTo_near (c := 1 / 10 ^ 9) c1 (by norm_num) h0 (qn qy)
    have nZ := clampTo_near (c := 2 / 10 ^ 9) c2 (by norm_num) h0 (qn qx)
    have zX : clampTo (4 / 10 ^ 9) (-4 / 10 ^ 9) (-z) ≠ 0 := clampTo_ne (by norm_num) (by norm_num)
    have zY : clampTo (1 / 10 ^ 9) (1 / 10 ^ 9) (-y) ≠ 0 := clampTo_ne (by norm_num) (by norm_num)
    have zZ : clampTo (2 / 10 ^ 9) (2 / 10 ^ 9) (-x) ≠ 0 := clampTo_ne (by norm_num) (by norm_num)
    have lY : -y ≤ clampTo (1 / 10 ^ 9) (1 / 10 ^ 9) (-y) := le_clampTo
    have lZ : -x ≤ clampTo (2 / 10 ^ 9) (2 / 10 ^ 9) (-x) := le_clampTo
    generalize clampTo (4 / 10 ^ 9) (-4 / 10 ^ 9) (-z) = X at *
    generalize clampTo (1 / 10 ^ 9) (1 / 10 ^ 9) (-y) = Y at *
    generalize clampTo (2 / 10 ^ 9) (2 / 10 ^ 9) (-x) = Z at *
    have hl := dd_limit (b := -b) zX zY zZ (by linarith) (by linarith)
    have hl2 : Tendsto (fun ε => |(1 - dd 3 (-b) X (Y + ε) (Z + 2 * ε)) / 6 - Spec.tetra b (ax / N) (ay / N) (az / N)|)
        (𝓝[>] 0) (𝓝 |tvol (-b) X Y Z / 6 - Spec.tetra b (ax / N) (ay / N) (az / N)|) := by
      have := (((tendsto_const_nhds (x := (1 : ℝ))).sub hl).div_const 6).sub_const (Spec.tetra b (ax / N) (ay / N) (az / N))
      rw [sub_sub_cancel] at this
      exact this.abs
    refine le_of_tendsto_of_tendsto hl2 hlim ?_
    filter_upwards [eventually_generic zX zY zZ, small, self_mem_nhdsWithin] with ε g e2 e1
    have e1' : 0 < ε := e1
    rw [← dd_compl g, neg_neg]
    have g' : Spec.Generic (-X) (-(Y + ε)) (-(Z + 2 * ε)) := ⟨neg_ne_zero.2 g.x, neg_ne_zero.2 g.y, neg_ne_zero.2 g.z,
      fun e => g.xy (neg_injective e), fun e => g.xz (neg_injective e), fun e => g.yz (neg_injective e)⟩
    obtain ⟨h1, h2, h3, hdd, hg, hm⟩ := ht.move_back (-X) (-(Y + ε)) (-(Z + 2 * ε))
    have flip : ∀ {u v w : ℝ}, |u - -v| ≤ w → |-u - v| ≤ w := by
      intro u v w h
      rwa [show -u - v = -(u - -v) by ring, abs_neg]
    obtain ⟨m1, m2, m3⟩ := hm (δ + 2 * ε) (flip (by have := shift 0 nX le_rfl (by norm_num) e1'; simpa using this))
      (flip (by have := shift 1 nY (by norm_num) (by norm_num) e1'; simpa using this))
      (flip (shift 2 nZ (by norm_num) le_rfl e1'))
    exact near e1' e2 hdd (hg g') m1 m2 m3
  · have nX := clampTo_near (c := 4 / 10 ^ 9) c4 le_rfl h0 qx
    have nY := clampTo_near (c := 1 / 10 ^ 9) c1 (by norm_num) h0 qy
    have nZ := clampTo_near (c := 2 / 10 ^ 9) c2 (by norm_num) h0 qz
    have zX : clampTo (4 / 10 ^ 9) (-4 / 10 ^ 9) x ≠ 0 := clampTo_ne (by norm_num) (by norm_num)
    have zY : clampTo (1 / 10 ^ 9) (1 / 10 ^ 9) y ≠ 0 := clampTo_ne (by norm_num) (by norm_num)
    have zZ : clampTo (2 / 10 ^ 9) (2 / 10 ^ 9) z ≠ 0 := clampTo_ne (by norm_num) (by norm_num)
    have lY : y ≤ clampTo (1 / 10 ^ 9) (1 / 10 ^ 9) y := le_clampTo
    have lZ : z ≤ clampTo (2 / 10 ^ 9) (2 / 10 ^ 9) z := le_clampTo
    generalize clampTo (4 / 10 ^ 9) (-4 / 10 ^ 9) x = X at *
    generalize clampTo (1 / 10 ^ 9) (1 / 10 ^ 9) y = Y at *
    generalize clampTo (2 / 10 ^ 9) (2 / 10 ^ 9) z = Z at *
    have hl := dd_limit (b := b) zX zY zZ (by linarith) (by linarith)
    have hl2 : Tendsto (fun ε => |dd 3 b X (Y + ε) (Z + 2 * ε) / 6 - Spec.tetra b (ax / N) (ay / N) (az / N)|)
        (𝓝[>] 0) (𝓝 |(1 - tvol b X Y Z) / 6 - Spec.tetra b (ax / N) (ay / N) (az / N)|) :=
      ((hl.div_const 6).sub_const (Spec.tetra b (ax / N) (ay / N) (az / N))).abs
    refine le_of_tendsto_of_tendsto hl2 hlim ?_
    filter_upwards [eventually_generic zX zY zZ, small, self_mem_nhdsWithin] with ε g e2 e1
    have e1' : 0 < ε := e1
    obtain ⟨h1, h2, h3, hdd, hg, hm⟩ := ht.move X (Y + ε) (Z + 2 * ε)
    obtain ⟨m1, m2, m3⟩ := hm (δ + 2 * ε) (by have := shift 0 nX le_rfl (by norm_num) e1'; simpa using this)
      (by have := shift 1 nY (by norm_num) (by norm_num) e1'; simpa using this) (shift 2 nZ (by norm_num) le_rfl e1')
    exact near e1' e2 hdd (hg g) m1 m2 m3

end TB.Smear

import Mathlib.Analysis.SpecialFunctions.Trigonometric.Bounds
import Mathlib.Algebra.Order.BigOperators.Ring.Finset
import Verif.Lemmas.Weyl
import Verif.Props.TbModel
import Verif.Props.DosInit

/-!
# C123: how fast the bands of a tight-binding model can change

`Spec.variation s k k'` is `4π Σ_r |(k - k')·r| ‖H_r‖` over the neighbours after the first, with the Frobenius norm.
-/

namespace TB.PropsLipschitz
open Matrix TB

variable {d n : ℕ}

/-- `4π Σ_r |(k - k')·r| ‖H_r‖` over the neighbours after the first one. -/
noncomputable def variation (s : Series d n) (k k' : RVec d) : ℝ :=
  4 * Real.pi * (s.terms.tail.map fun t => |(k - k') ⬝ᵥ t.1| * Real.sqrt (∑ i, ∑ j, ‖t.2 i j‖ ^ 2)).sum

theorem form_frob (D : CMat n) (a : Fin n → ℂ) : ‖star a ⬝ᵥ (D *ᵥ a)‖ ≤ Real.sqrt (∑ i, ∑ j, ‖D i j‖ ^ 2) * ∑ i, ‖a i‖ ^ 2 := by
  have h1 : ‖star a ⬝ᵥ (D *ᵥ a)‖ ≤ ∑ p : Fin n × Fin n, ‖D p.1 p.2‖ * (‖a p.1‖ * ‖a p.2‖) := by
    rw [Fintype.sum_prod_type, dotProduct]
    refine (norm_sum_le _ _).trans (Finset.sum_le_sum fun i _ => ?_)
    rw [norm_mul, mulVec, dotProduct, Pi.star_apply, norm_star]
    refine (mul_le_mul_of_nonneg_left (norm_sum_le _ _) (norm_nonneg _)).trans ?_
    rw [Finset.mul_sum]
    exact Finset.sum_le_sum fun j _ => le_of_eq (by rw [norm_mul]; ring)
  have h2 := Finset.sum_mul_sq_le_sq_mul_sq (Finset.univ : Finset (Fin n × Fin n)) (fun p => ‖D p.1 p.2‖) (fun p => ‖a p.1‖ * ‖a p.2‖)
  have h3 : ∑ p : Fin n × Fin n, (‖a p.1‖ * ‖a p.2‖) ^ 2 = (∑ i, ‖a i‖ ^ 2) ^ 2 := by
    rw [Fintype.sum_prod_type, sq, Finset.sum_mul_sum]
    exact Finset.sum_congr rfl fun i _ => Finset.sum_congr rfl fun j _ => by ring
  have h4 : ∑ p : Fin n × Fin n, ‖D p.1 p.2‖ ^ 2 = ∑ i, ∑ j, ‖D i j‖ ^ 2 := Fintype.sum_prod_type _
  rw [h3, h4] at h2
  have h5 : 0 ≤ ∑ i, ‖a i‖ ^ 2 := Finset.sum_nonneg fun _ _ => sq_nonneg _
  refine h1.trans ((Real.le_sqrt_of_sq_le h2).trans (le_of_eq ?_))
  rw [Real.sqrt_mul (Finset.sum_nonneg fun _ _ => Finset.sum_nonneg fun _ _ => sq_nonneg _), Real.sqrt_sq h5]

theorem fi_diff (k k' r : RVec d) : ‖fi k r - fi k' r‖ ≤ 2 * Real.pi * |(k - k') ⬝ᵥ r| := by
  have h : fi k r - fi k' r = fi k' r * (Complex.exp (Complex.I * ((2 * Real.pi * ((k - k') ⬝ᵥ r) : ℝ) : ℂ)) - 1) := by
    rw [fi, fi, mul_sub, mul_one, ← Complex.exp_add]
    congr 2
    rw [sub_dotProduct]; push_cast; ring
  have h1 : ‖fi k' r‖ = 1 := by
    rw [fi, show 2 * Real.pi * Complex.I * ((k' ⬝ᵥ r : ℝ) : ℂ) = ((2 * Real.pi * (k' ⬝ᵥ r) : ℝ) : ℂ) * Complex.I by push_cast; ring]
    exact Complex.norm_exp_ofReal_mul_I _
  rw [h, norm_mul, h1, one_mul]
  refine Real.norm_exp_I_mul_ofReal_sub_one_le.trans (le_of_eq ?_)
  rw [Real.norm_eq_abs, abs_mul, abs_of_pos (by positivity)]

theorem form_term (z : ℂ) (D : CMat n) (a : Fin n → ℂ) :
    |(star a ⬝ᵥ ((z • D + (z • D)ᴴ) *ᵥ a)).re| ≤ 2 * ‖z‖ * (Real.sqrt (∑ i, ∑ j, ‖D i j‖ ^ 2) * ∑ i, ‖a i‖ ^ 2) := by
  have h1 : star a ⬝ᵥ ((z • D)ᴴ *ᵥ a) = star (star a ⬝ᵥ ((z • D) *ᵥ a)) := by
    rw [← star_dotProduct, star_mulVec, ← dotProduct_mulVec]
  have h2 : (star a ⬝ᵥ ((z • D + (z • D)ᴴ) *ᵥ a)).re = 2 * (star a ⬝ᵥ ((z • D) *ᵥ a)).re := by
    rw [add_mulVec, dotProduct_add, h1, Complex.add_re, Complex.star_def, Complex.conj_re]; ring
  rw [h2, abs_mul, abs_of_pos (by norm_num : (0 : ℝ) < 2), mul_assoc]
  refine mul_le_mul_of_nonneg_left ((Complex.abs_re_le_norm _).trans ?_) (by norm_num)
  rw [smul_mulVec, dotProduct_smul, norm_smul]
  exact mul_le_mul_of_nonneg_left (form_frob D a) (norm_nonneg _)

/-- The values of a series at two points differ, as quadratic forms, by at most the variation. -/
theorem series_form (s : Series d n) (hs : TB.Spec.Starts0 s) (k k' : RVec d) (F F' : CMat n) (hF : s.f k = .ok F) (hF' : s.f k' = .ok F') (a : Fin n → ℂ) :
    |(star a ⬝ᵥ ((F - F') *ᵥ a)).re| ≤ variation s k k' * ∑ i, ‖a i‖ ^ 2 := by
  obtain ⟨H0, rest, ht⟩ := hs
  rw [Series.f, ht, hsum_cons] at hF hF'
  have e := Except.ok.inj hF
  have e' := Except.ok.inj hF'
  have hd : F - F' = (rest.map fun t => (fi k t.1 - fi k' t.1) • t.2 + ((fi k t.1 - fi k' t.1) • t.2)ᴴ).sum := by
    rw [← e, ← e', fi_zero, fi_zero, add_sub_add_left_eq_sub]
    clear hF hF' e e' ht
    induction rest with
    | nil => simp
    | cons t l ih =>
      simp only [List.map_cons, List.sum_cons]
      rw [add_sub_add_comm, ih, sub_smul, conjTranspose_sub]
      congr 1
      abel
  rw [hd, variation, ht, List.tail_cons]
  clear hF hF' e e' hd ht
  induction rest with
  | nil => simp
  | cons t l ih =>
    simp only [List.map_cons, List.sum_cons]
    rw [add_mulVec, dotProduct_add, Complex.add_re]
    refine (abs_add_le _ _).trans ?_
    rw [mul_add, add_mul]
    refine add_le_add ((form_term _ _ a).trans ?_) ih
    have h0 : 0 ≤ Real.sqrt (∑ i, ∑ j, ‖t.2 i j‖ ^ 2) * ∑ i, ‖a i‖ ^ 2 := mul_nonneg (Real.sqrt_nonneg _) (Finset.sum_nonneg fun _ _ => sq_nonneg _)
    have h1 := mul_le_mul_of_nonneg_right (mul_le_mul_of_nonneg_left (fi_diff k k' t.1) (by norm_num : (0 : ℝ) ≤ 2)) h0
    refine h1.trans (le_of_eq ?_)
    ring

/-- **C123** The bands of a model with overlap: if `S(k)` is at least `σ > 0` (as a quadratic form), band `i` at `k` exceeds band `i` at `k'` by at
most the variation of `H` plus `|E_i(k')|` times the variation of `S`, divided by `σ`. -/
theorem C123_overlap (t : Tb d n) (hH : TB.Spec.Starts0 t.H) (hS : TB.Spec.Starts0 t.S) (k k' : RVec d) (H S H' S' V V' : CMat n) (e e' : Fin n → ℝ)
    (hk : TB.Spec.At t k H S) (hk' : TB.Spec.At t k' H' S') (g : TB.Spec.IsGeigh H S e V) (g' : TB.Spec.IsGeigh H' S' e' V')
    (σ : ℝ) (hσ : 0 < σ) (hpos : ∀ a : Fin n → ℂ, σ * ∑ i, ‖a i‖ ^ 2 ≤ (star a ⬝ᵥ (S *ᵥ a)).re) (i : Fin n) :
    e i ≤ e' i + (variation t.H k k' + |e' i| * variation t.S k k') / σ := by
  refine SE.minmax g (SE.det_of_norm g'.norm) i _ fun a ha => ?_
  rw [← SE.star_rot, ← SE.star_rot]
  set b := V' *ᵥ a with hb
  have hH1 := series_form t.H hH k k' H H' hk.1 hk'.1 b
  have hS1 := series_form t.S hS k k' S S' hk.2 hk'.2 b
  have hp := hpos b
  rw [sub_mulVec, dotProduct_sub, Complex.sub_re] at hH1 hS1
  have hle : (star b ⬝ᵥ (H' *ᵥ b)).re ≤ e' i * (star b ⬝ᵥ (S' *ᵥ b)).re := by
    rw [hb, SE.star_rot, SE.star_rot, g'.diag, g'.norm, SE.form_one, SE.star_dot_diag, Finset.mul_sum]
    refine Finset.sum_le_sum fun j _ => ?_
    by_cases hj : i < j
    · simp [ha j hj]
    · exact mul_le_mul_of_nonneg_right (g'.mono (not_lt.1 hj)) (sq_nonneg _)
  have h0 : 0 ≤ ∑ i, ‖b i‖ ^ 2 := Finset.sum_nonneg fun _ _ => sq_nonneg _
  have hvar : ∀ s : Series d n, 0 ≤ variation s k k' := fun s => by
    refine mul_nonneg (by positivity) (List.sum_nonneg ?_)
    intro x hx
    obtain ⟨t, -, rfl⟩ := List.mem_map.1 hx
    exact mul_nonneg (abs_nonneg _) (Real.sqrt_nonneg _)
  set vH := variation t.H k k'
  set vS := variation t.S k k'
  set N2 := ∑ i, ‖b i‖ ^ 2
  set sb := (star b ⬝ᵥ (S *ᵥ b)).re
  set sb' := (star b ⬝ᵥ (S' *ᵥ b)).re
  have h1 : e' i * sb' ≤ e' i * sb + |e' i| * (vS * N2) := by
    have h2 : e' i * (sb' - sb) ≤ |e' i| * |sb - sb'| := by
      rw [abs_sub_comm, ← abs_mul]; exact le_abs_self _
    have := h2.trans (mul_le_mul_of_nonneg_left hS1 (abs_nonneg (e' i)))
    linarith
  have h2 : (vH + |e' i| * vS) * N2 ≤ (vH + |e' i| * vS) / σ * sb := by
    rw [div_mul_eq_mul_div, le_div_iff₀ hσ, mul_assoc]
    refine mul_le_mul_of_nonneg_left (by linarith) (add_nonneg (hvar _) (mul_nonneg (abs_nonneg _) (hvar _)))
  have h3 := (abs_le.1 hH1).2
  rw [add_mul]
  linarith

/-- **C123** The bands of an orthogonal model (overlap one everywhere) are Lipschitz continuous, including degenerate bands. -/
theorem C123_orthogonal (s : Series d n) (hs : TB.Spec.Starts0 s) (k k' : RVec d) (H H' V V' : CMat n) (e e' : Fin n → ℝ)
    (hk : s.f k = .ok H) (hk' : s.f k' = .ok H') (g : TB.Spec.IsGeigh H 1 e V) (g' : TB.Spec.IsGeigh H' 1 e' V') (i : Fin n) :
    |e i - e' i| ≤ variation s k k' := by
  have h1 := SE.weyl_le g g' (fun a => (le_abs_self _).trans (series_form s hs k k' H H' hk hk' a)) i
  have hsymm : variation s k' k = variation s k k' := by
    unfold variation
    congr 3
    funext t
    rw [show (k' - k) ⬝ᵥ t.1 = -((k - k') ⬝ᵥ t.1) by rw [← neg_dotProduct, neg_sub], abs_neg]
  have h2 := SE.weyl_le g' g (fun a => (le_abs_self _).trans (series_form s hs k' k H' H hk' hk a)) i
  rw [hsymm] at h2
  rw [abs_le]
  constructor <;> linarith

/-- A chain with one orbital. -/
noncomputable def chain (u v : ℝ) : Series 1 1 := ⟨[(0, !![(u : ℂ)]), (![1], !![(v : ℂ)])]⟩

theorem chain_f (u v w : ℝ) (k : RVec 1) (c : ℝ) (hc : fi k ![1] = (c : ℂ)) (hw : w = u + 2 * c * v) : (chain u v).f k = .ok !![(w : ℂ)] := by
  rw [Series.f, chain, hsum_cons, fi_zero]
  simp only [List.map_cons, List.map_nil, List.sum_cons, List.sum_nil, hc, hw]
  congr 1
  ext i j
  fin_cases i; fin_cases j
  simp
  ring

theorem chain_zero : fi (0 : RVec 1) ![1] = ((1 : ℝ) : ℂ) := by simp [fi]

theorem chain_half : fi (![1 / 2] : RVec 1) ![1] = ((-1 : ℝ) : ℂ) := by
  rw [fi, show (2 : ℂ) * Real.pi * Complex.I * (((![1 / 2] : RVec 1) ⬝ᵥ ![1] : ℝ) : ℂ) = Real.pi * Complex.I by
    simp [dotProduct]; ring, Complex.exp_pi_mul_I]
  simp

theorem geigh_one (h e q w : ℝ) (hq : 0 < q) (hw : w = q * q) (he : h = e * w) :
    TB.Spec.IsGeigh !![(h : ℂ)] !![(w : ℂ)] (fun _ => e) !![((1 / q : ℝ) : ℂ)] := by
  have hq' : (q : ℂ) ≠ 0 := by exact_mod_cast hq.ne'
  subst hw he
  refine ⟨?_, ?_, fun _ _ _ => le_rfl⟩
  · ext i j
    fin_cases i; fin_cases j
    simp [rot, Matrix.mul_apply]
    field_simp
  · ext i j
    fin_cases i; fin_cases j
    simp [rot, Matrix.mul_apply]
    field_simp

example : ∃ (t : Tb 1 1) (k k' : RVec 1) (H S H' S' V V' : CMat 1) (e e' : Fin 1 → ℝ) (σ : ℝ), TB.Spec.Starts0 t.H ∧ TB.Spec.Starts0 t.S ∧ TB.Spec.At t k H S ∧
    TB.Spec.At t k' H' S' ∧ TB.Spec.IsGeigh H S e V ∧ TB.Spec.IsGeigh H' S' e' V' ∧ 0 < σ ∧
    (∀ a : Fin 1 → ℂ, σ * ∑ i, ‖a i‖ ^ 2 ≤ (star a ⬝ᵥ (S *ᵥ a)).re) ∧ e 0 ≠ e' 0 ∧ S ≠ S' := by
  refine ⟨⟨chain 0 (-9), chain 5 2⟩, 0, ![1 / 2], !![((-18 : ℝ) : ℂ)], !![((9 : ℝ) : ℂ)], !![((18 : ℝ) : ℂ)], !![((1 : ℝ) : ℂ)],
    !![((1 / 3 : ℝ) : ℂ)], !![((1 / 1 : ℝ) : ℂ)], fun _ => -2, fun _ => 18, 1, ⟨_, _, rfl⟩, ⟨_, _, rfl⟩,
    ⟨chain_f _ _ _ _ 1 chain_zero (by norm_num), chain_f _ _ _ _ 1 chain_zero (by norm_num)⟩,
    ⟨chain_f _ _ _ _ (-1) chain_half (by norm_num), chain_f _ _ _ _ (-1) chain_half (by norm_num)⟩,
    geigh_one _ _ 3 9 (by norm_num) (by norm_num) (by norm_num), geigh_one _ _ 1 1 (by norm_num) (by norm_num) (by norm_num), one_pos, ?_, by norm_num, ?_⟩
  · intro a
    have h : (star a ⬝ᵥ (!![((9 : ℝ) : ℂ)] *ᵥ a)).re = 9 * ‖a 0‖ ^ 2 := by
      rw [← Complex.normSq_eq_norm_sq, Complex.normSq_apply]
      simp [dotProduct, Matrix.mulVec]
      ring
    rw [h, Fin.sum_univ_one]
    nlinarith [sq_nonneg ‖a 0‖]
  · intro h
    have := congrFun (congrFun h 0) 0
    norm_num at this

example : ∃ (s : Series 1 1) (k k' : RVec 1) (H H' V V' : CMat 1) (e e' : Fin 1 → ℝ), TB.Spec.Starts0 s ∧ s.f k = .ok H ∧ s.f k' = .ok H' ∧
    TB.Spec.IsGeigh H 1 e V ∧ TB.Spec.IsGeigh H' 1 e' V' ∧ e 0 ≠ e' 0 := by
  have h1 : (1 : CMat 1) = !![((1 : ℝ) : ℂ)] := by ext i j; fin_cases i; fin_cases j; simp
  rw [h1]
  exact ⟨chain 0 (-1), 0, ![1 / 2], !![((-2 : ℝ) : ℂ)], !![((2 : ℝ) : ℂ)], _, _, fun _ => -2, fun _ => 2, ⟨_, _, rfl⟩,
    chain_f _ _ _ _ 1 chain_zero (by norm_num), chain_f _ _ _ _ (-1) chain_half (by norm_num),
    geigh_one _ _ 1 1 (by norm_num) (by norm_num) (by norm_num), geigh_one _ _ 1 1 (by norm_num) (by norm_num) (by norm_num), by norm_num⟩

/-! ## The ranges of `DensityOfStates` -/

open TB.DosInit TB.PropsDosInit

/-- The largest distance of a point of the range to the grid in steps: one for the grid that leaves out the end, else half. -/
noncomputable def reach (a : Args) : ℝ := if a.wrap = true ∧ a.midpoint = false then 1 else 1 / 2

theorem near (a : Args) (r : ℝ × ℝ) (hN : 2 ≤ pts a) (hr : r.1 < r.2) (c : ℝ) (h1 : r.1 ≤ c) (h2 : c ≤ r.2) :
    ∃ i : ℕ, (i : ℤ) < pts a ∧ |c - pos a r i| ≤ reach a * ((r.2 - r.1) / a.N) := by
  have hN1 : 1 ≤ a.N := by unfold pts at hN; split at hN <;> omega
  have hNr : (1 : ℝ) ≤ a.N := by exact_mod_cast hN1
  have hst : 0 < (r.2 - r.1) / a.N := div_pos (by linarith) (by linarith)
  obtain ⟨x, hx⟩ : ∃ x, c = r.1 + x * ((r.2 - r.1) / a.N) := ⟨(c - r.1) / ((r.2 - r.1) / a.N), by rw [div_mul_cancel₀ _ hst.ne']; ring⟩
  have hx0 : 0 ≤ x := by
    by_contra hn
    have := mul_neg_of_neg_of_pos (not_le.1 hn) hst
    linarith
  have hxN : x ≤ a.N := by
    by_contra hn
    have h3 := mul_lt_mul_of_pos_right (not_le.1 hn) hst
    rw [mul_div_cancel₀ _ (by linarith : (a.N : ℝ) ≠ 0)] at h3
    linarith
  suffices h : ∃ i : ℕ, (i : ℤ) < pts a ∧ |x - (i + if a.midpoint then 1 / 2 else 0)| ≤ reach a by
    obtain ⟨i, hi, hd⟩ := h
    refine ⟨i, hi, ?_⟩
    rw [hx, pos, show r.1 + x * ((r.2 - r.1) / a.N) - (r.1 + (i + if a.midpoint then 1 / 2 else 0) * ((r.2 - r.1) / a.N)) =
      (x - (i + if a.midpoint then 1 / 2 else 0)) * ((r.2 - r.1) / a.N) by ring, abs_mul, abs_of_pos hst]
    exact mul_le_mul_of_nonneg_right hd hst.le
  by_cases hwm : a.wrap = true ∨ a.midpoint = true
  · have hp : pts a = a.N := if_pos hwm
    have key : ∃ i : ℕ, (i : ℤ) < a.N ∧ (i : ℝ) ≤ x ∧ x ≤ i + 1 := by
      rcases lt_or_ge x a.N with hlt | hge
      · have hf0 : 0 ≤ ⌊x⌋ := Int.floor_nonneg.2 hx0
        have hc : ((⌊x⌋.toNat : ℕ) : ℤ) = ⌊x⌋ := Int.toNat_of_nonneg hf0
        have hcr : ((⌊x⌋.toNat : ℕ) : ℝ) = (⌊x⌋ : ℝ) := by exact_mod_cast hc
        refine ⟨⌊x⌋.toNat, by rw [hc]; exact Int.floor_lt.2 hlt, by rw [hcr]; exact Int.floor_le x, by rw [hcr]; exact (Int.lt_floor_add_one x).le⟩
      · have hc : (((a.N - 1).toNat : ℕ) : ℤ) = a.N - 1 := Int.toNat_of_nonneg (by omega)
        have hcr : (((a.N - 1).toNat : ℕ) : ℝ) = (a.N : ℝ) - 1 := by exact_mod_cast hc
        exact ⟨(a.N - 1).toNat, by omega, by rw [hcr]; linarith, by rw [hcr]; linarith⟩
    obtain ⟨i, hi, l1, l2⟩ := key
    refine ⟨i, by rw [hp]; exact hi, ?_⟩
    cases hm : a.midpoint with
    | true =>
      have hre : reach a = 1 / 2 := if_neg (by simp [hm])
      rw [hre, abs_le]
      simp only [if_true]
      constructor <;> linarith
    | false =>
      have hw : a.wrap = true := by simpa [hm] using hwm
      have hre : reach a = 1 := if_pos ⟨hw, hm⟩
      rw [hre, abs_le]
      simp only [Bool.false_eq_true, if_false]
      constructor <;> linarith
  · have hp : pts a = a.N + 1 := if_neg hwm
    have hm : a.midpoint = false := by
      by_contra hb; exact hwm (Or.inr (by simpa using hb))
    have hw : a.wrap = false := by
      by_contra hb; exact hwm (Or.inl (by simpa using hb))
    have hf0 : 0 ≤ ⌊x + 1 / 2⌋ := Int.floor_nonneg.2 (by linarith)
    have hc : ((⌊x + 1 / 2⌋.toNat : ℕ) : ℤ) = ⌊x + 1 / 2⌋ := Int.toNat_of_nonneg hf0
    have hcr : ((⌊x + 1 / 2⌋.toNat : ℕ) : ℝ) = (⌊x + 1 / 2⌋ : ℝ) := by exact_mod_cast hc
    refine ⟨⌊x + 1 / 2⌋.toNat, ?_, ?_⟩
    · rw [hp, hc]; exact Int.floor_lt.2 (by push_cast; linarith)
    · have hre : reach a = 1 / 2 := if_neg (by simp [hw])
      rw [hre, hm, hcr, abs_le]
      simp only [Bool.false_eq_true, if_false]
      have h3 := Int.floor_le (x + 1 / 2)
      have h4 := Int.lt_floor_add_one (x + 1 / 2)
      constructor <;> linarith

/-- `4π Σ_r (Σ_a reach step_a |(A⁻¹ r)_a|) ‖H_r‖`: how much a band can change between a point of the ranges and the grid. -/
noncomputable def slack (a : Args) (s : Series 3 n) : ℝ :=
  4 * Real.pi * (s.terms.tail.map fun t =>
    (∑ c : Fin 3, reach a * (((a.ranges.getD c (0, 0)).2 - (a.ranges.getD c (0, 0)).1) / a.N) * |(a.A⁻¹ *ᵥ t.1) c|) *
      Real.sqrt (∑ i, ∑ j, ‖t.2 i j‖ ^ 2)).sum

/-- **C123** `bands_range` of a `DensityOfStates` for the bands of an orthogonal model without `bands_grad_hess`: the two numbers are reached, and
every energy of the band at any point of the ranges, on the grid or not, is inside of them up to `slack`. -/
theorem C123_range {pinv : M3 → M3} {rnd : Fin 20 → V3} {md : Model n} {a : Args} {o : Dos n} (h : init pinv rnd md a = .ok o) (hm : md.gradHess = none)
    (hg : ∀ g, md.grad = some g → ∀ k b, (g k b).1 = md.bands k b) (hr : ∀ r ∈ a.ranges, r.1 < r.2)
    (s : Series 3 n) (hs : TB.Spec.Starts0 s) (hb : ∀ k, ∃ H V, s.f k = .ok H ∧ TB.Spec.IsGeigh H 1 (md.bands k) V) (i : Fin n) :
    ∃ lo hi, o.ranges[i.val]? = some (lo, hi) ∧ (∃ k ∈ o.ks, md.bands k i = lo) ∧ (∃ k ∈ o.ks, md.bands k i = hi) ∧
      ∀ c : V3, (∀ x : Fin 3, (a.ranges.getD x (0, 0)).1 ≤ c x ∧ c x ≤ (a.ranges.getD x (0, 0)).2) →
        lo - slack a s ≤ md.bands (Matrix.vecMul c a.A⁻¹) i ∧ md.bands (Matrix.vecMul c a.A⁻¹) i ≤ hi + slack a s := by
  obtain ⟨lo, hi, e, ⟨b1, m1, r1⟩, ⟨b2, m2, r2⟩, hall⟩ := C122_range_plain h hm i
  have hbands := (C122_bands h hg).1
  rw [hbands] at m1 m2 hall
  obtain ⟨k1, hk1, rfl⟩ := List.mem_map.1 m1
  obtain ⟨k2, hk2, rfl⟩ := List.mem_map.1 m2
  refine ⟨lo, hi, e, ⟨k1, hk1, r1⟩, ⟨k2, hk2, r2⟩, fun c hc => ?_⟩
  obtain ⟨rx, ry, rz, m, hrs, hpm, hm2, -, -, -, -⟩ := C122_grid h
  have hN : 2 ≤ pts a := by omega
  have near' : ∀ x : Fin 3, ∃ j : ℕ, (j : ℤ) < pts a ∧ |c x - pos a (a.ranges.getD x (0, 0)) j| ≤
      reach a * (((a.ranges.getD x (0, 0)).2 - (a.ranges.getD x (0, 0)).1) / a.N) := fun x =>
    near a _ hN (hr _ (by rw [hrs]; fin_cases x <;> simp)) _ (hc x).1 (hc x).2
  choose j hj hd using near'
  have hmem : Matrix.vecMul (fun x : Fin 3 => pos a (a.ranges.getD x (0, 0)) (j x)) a.A⁻¹ ∈ o.ks := by
    rw [mem_ks h rx ry rz hrs]
    refine ⟨j 0, j 1, j 2, hj 0, hj 1, hj 2, ?_⟩
    congr 1
    funext x
    rw [hrs]
    fin_cases x <;> rfl
  have hb' := hall _ (List.mem_map_of_mem (f := md.bands) hmem)
  obtain ⟨H, V, hf, g⟩ := hb (Matrix.vecMul c a.A⁻¹)
  obtain ⟨H', V', hf', g'⟩ := hb (Matrix.vecMul (fun x : Fin 3 => pos a (a.ranges.getD x (0, 0)) (j x)) a.A⁻¹)
  have hv := C123_orthogonal s hs _ _ H H' V V' _ _ hf hf' g g' i
  have hsl : variation s (Matrix.vecMul c a.A⁻¹) (Matrix.vecMul (fun x : Fin 3 => pos a (a.ranges.getD x (0, 0)) (j x)) a.A⁻¹) ≤ slack a s := by
    unfold variation slack
    refine mul_le_mul_of_nonneg_left (List.sum_le_sum fun t _ => mul_le_mul_of_nonneg_right ?_ (Real.sqrt_nonneg _)) (by positivity)
    rw [← Matrix.sub_vecMul, ← Matrix.dotProduct_mulVec, dotProduct]
    refine (Finset.abs_sum_le_sum_abs _ _).trans (Finset.sum_le_sum fun x _ => ?_)
    rw [abs_mul]
    exact mul_le_mul_of_nonneg_right (hd x) (abs_nonneg _)
  have := abs_le.1 (hv.trans hsl)
  constructor <;> linarith [this.1, this.2, hb'.1, hb'.2]

/-- One orbital on a cubic lattice with hopping along the first axis. -/
noncomputable def row : Series 3 1 := ⟨[(0, !![0]), (![1, 0, 0], !![-1])]⟩

/-- Its band, without derivatives. -/
noncomputable def rowModel : Model 1 := ⟨fun k _ => -2 * Real.cos (2 * Real.pi * k 0), none, none⟩

theorem row_f (k : V3) : row.f k = .ok !![((-2 * Real.cos (2 * Real.pi * k 0) : ℝ) : ℂ)] := by
  rw [Series.f, row, hsum_cons, fi_zero]
  congr 1
  have hd : k ⬝ᵥ ![1, 0, 0] = k 0 := by simp [dotProduct, Fin.sum_univ_three]
  have h1 : fi k ![1, 0, 0] = Complex.exp (((2 * Real.pi * k 0 : ℝ) : ℂ) * Complex.I) := by
    rw [fi, hd]; congr 1; push_cast; ring
  ext i j
  fin_cases i; fin_cases j
  simp only [List.map_cons, List.map_nil, List.sum_cons, List.sum_nil, h1]
  apply Complex.ext
  · simp [Complex.exp_ofReal_mul_I_re, -Complex.ofReal_mul]; ring
  · simp [Complex.exp_ofReal_mul_I_re, -Complex.ofReal_mul]

example (pinv : M3 → M3) (rnd : Fin 20 → V3) : ∃ o, init pinv rnd rowModel (twoArgs 1) = .ok o ∧ rowModel.gradHess = none ∧
    (∀ r ∈ (twoArgs 1).ranges, r.1 < r.2) ∧ TB.Spec.Starts0 row ∧ ∀ k, ∃ H V, row.f k = .ok H ∧ TB.Spec.IsGeigh H 1 (rowModel.bands k) V := by
  obtain ⟨o, ho⟩ := two_init pinv rnd rowModel 1 (by simp)
  have h1 : (1 : CMat 1) = !![((1 : ℝ) : ℂ)] := by ext i j; fin_cases i; fin_cases j; simp
  refine ⟨o, ho, rfl, ?_, ⟨_, _, rfl⟩, fun k => ⟨_, !![((1 / 1 : ℝ) : ℂ)], row_f k, ?_⟩⟩
  swap
  · rw [h1]; exact geigh_one _ _ 1 1 (by norm_num) (by norm_num) (mul_one _).symm
  intro r hr
  simp only [twoArgs, List.mem_cons, List.not_mem_nil, or_false, or_self] at hr
  subst hr
  norm_num

end TB.PropsLipschitz

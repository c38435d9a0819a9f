import Verif.Model.BulkCubic
import Verif.Props.BulkHall

/-!
# C121: Hall coefficient of cubic metals and the heat capacity of `KIntegral`
-/

namespace TB.Bulk
open Matrix

/-! ## Specification -/

/-- The inverse mass in SI units of a sample. -/
noncomputable def Spec.invMass (c : Const) (I : KInt) (A : Matrix (Fin 3) (Fin 3) ℝ) (s : Sample) : Matrix (Fin 3) (Fin 3) ℝ :=
  (c.q * (1e-10 / (2 * Real.pi * c.hbar)) ^ 2) • ((A * I.A⁻¹) * s.h * (A * I.A⁻¹)ᵀ)

/-- The integral of a function of velocity and inverse mass over all samples. -/
noncomputable def Spec.integral (c : Const) (I : KInt) (A : Matrix (Fin 3) (Fin 3) ℝ) (wj : List ℝ)
    (g : (Fin 3 → ℝ) → Matrix (Fin 3) (Fin 3) ℝ → ℝ) : ℝ :=
  ((Spec.terms I wj).map fun t => Spec.wt I A .none t * g (Spec.velocity c I A t.2.2) (Spec.invMass c I A t.2.2)).sum

/-! ## Lemmas -/

theorem physical_h (c : Const) (I : KInt) (A : Matrix (Fin 3) (Fin 3) ℝ) (s : Sample) :
    (physical c (A * I.A⁻¹) s).h = Spec.invMass c I A s := by
  unfold physical Spec.invMass gradTransform
  simp only
  rw [smul_smul, transpose_smul, Matrix.mul_smul, Matrix.smul_mul, Matrix.smul_mul, smul_smul]
  congr 1
  rw [div_eq_mul_inv, div_eq_mul_inv, div_eq_mul_inv, mul_inv]
  ring

/-- Linear functionals commute with the integral. -/
theorem functional_moment {M : Type} [AddCommGroup M] [Module ℝ M] (φ : M →ₗ[ℝ] ℝ) (c : Const) (I : KInt) (A : Matrix (Fin 3) (Fin 3) ℝ)
    (g : Sample → M) (mu : ℝ) (wj : List ℝ) (f : (Fin 3 → ℝ) → Matrix (Fin 3) (Fin 3) ℝ → ℝ)
    (hf : ∀ s, φ (g (physical c (A * I.A⁻¹) s)) = f (Spec.velocity c I A s) (Spec.invMass c I A s)) :
    φ (moment 0 mu (List.zipWith (fun _ l => surfSum (fun s => g (physical c (A * I.A⁻¹) s)) l) I.e I.smp) I.e wj) = Spec.integral c I A wj f := by
  rw [moment_eq 0 mu (fun _ l => surfSum (fun s => g (physical c (A * I.A⁻¹) s)) l), map_list_sum, List.map_map]
  unfold Spec.integral Spec.terms
  rw [List.map_flatMap, sum_flatMap]
  congr 1
  apply List.map_congr_left
  rintro ⟨e, l, w⟩ _
  simp only [Function.comp, surfSum, map_smul, map_list_sum, List.map_map, smul_eq_mul, pow_zero, mul_one]
  rw [← list_sum_mul_left]
  congr 1
  apply List.map_congr_left
  intro s _
  simp only [Function.comp, Spec.wt, Sample.w, map_smul, smul_eq_mul, hf, Tau.at]
  ring

theorem real_moment (c : Const) (I : KInt) (A : Matrix (Fin 3) (Fin 3) ℝ) (g : Sample → ℝ) (mu : ℝ) (wj : List ℝ)
    (f : (Fin 3 → ℝ) → Matrix (Fin 3) (Fin 3) ℝ → ℝ) (hf : ∀ s, g s = f s.v s.h) :
    moment 0 mu (List.zipWith (fun _ l => surfSum (fun s => g (physical c (A * I.A⁻¹) s)) l) I.e I.smp) I.e wj = Spec.integral c I A wj f :=
  functional_moment LinearMap.id c I A g mu wj f fun s => by rw [LinearMap.id_apply, hf, physical_v, physical_h]

theorem integral_lin (c : Const) (I : KInt) (A : Matrix (Fin 3) (Fin 3) ℝ) (wj : List ℝ) (t : ℝ) (f g h : (Fin 3 → ℝ) → Matrix (Fin 3) (Fin 3) ℝ → ℝ)
    (e : ∀ v m, h v m = f v m + t * g v m) : Spec.integral c I A wj h = Spec.integral c I A wj f + t * Spec.integral c I A wj g := by
  unfold Spec.integral
  rw [← list_sum_mul_left, ← List.sum_map_add]
  congr 1
  apply List.map_congr_left
  intro s _
  rw [e]
  ring

theorem integral_zero (c : Const) (I : KInt) (A : Matrix (Fin 3) (Fin 3) ℝ) (wj : List ℝ) : Spec.integral c I A wj (fun _ _ => 0) = 0 := by
  unfold Spec.integral
  apply List.sum_eq_zero
  intro x hx
  obtain ⟨t, -, rfl⟩ := List.mem_map.1 hx
  ring

theorem integral_finset (c : Const) (I : KInt) (A : Matrix (Fin 3) (Fin 3) ℝ) (wj : List ℝ) {ι : Type} [DecidableEq ι] (S : Finset ι) (t : ι → ℝ)
    (f : ι → (Fin 3 → ℝ) → Matrix (Fin 3) (Fin 3) ℝ → ℝ) :
    Spec.integral c I A wj (fun v m => ∑ i ∈ S, t i * f i v m) = ∑ i ∈ S, t i * Spec.integral c I A wj (f i) := by
  induction S using Finset.induction_on with
  | empty => simpa using integral_zero c I A wj
  | insert a S ha ih =>
    rw [Finset.sum_insert ha, ← ih, add_comm]
    refine integral_lin c I A wj (t a) _ (f a) _ fun v m => ?_
    rw [Finset.sum_insert ha, add_comm]

theorem det_scaled (A : Matrix (Fin 3) (Fin 3) ℝ) : ((1e-10 : ℝ) • A).det = 1e-30 * A.det := by
  rw [det_smul]
  simp only [Fintype.card_fin]
  norm_num

theorem cubic_eq (c : Const) (I : KInt) (A : Matrix (Fin 3) (Fin 3) ℝ) (spin : ℝ) (hI : I.A.det ≠ 0) (hA : A.det ≠ 0) :
    hallCubic c I A spin = .ok (List.zipWith (fun i i2 => (c.q / c.q * spin / 6 * i) / (c.q / c.q * spin / 3 * i2) ^ 2 * ((1e-10 : ℝ) • A).det)
      (List.zipWith (fun mu wj => moment 0 mu (List.zipWith (fun _ l => surfSum (fun s =>
        cubicTerm (physical c (A * I.A⁻¹) s).v (physical c (A * I.A⁻¹) s).h) l) I.e I.smp) I.e wj) I.mu I.iw)
      (List.zipWith (fun mu wj => moment 0 mu (List.zipWith (fun _ l => surfSum (fun s =>
        ∑ i, (physical c (A * I.A⁻¹) s).v i ^ 2) l) I.e I.smp) I.e wj) I.mu I.iw)) := by
  unfold hallCubic
  simp only [integrate_ok c I A hI hA, bind, Except.bind, item, integrateDf, zero_add, List.range_one, List.map_cons, List.map_nil,
    List.getElem?_cons_zero]

theorem old_eq (c : Const) (I : KInt) (A : Matrix (Fin 3) (Fin 3) ℝ) (spin : ℝ) (hI : I.A.det ≠ 0) (hA : A.det ≠ 0) :
    hallOld c I A spin = .ok (List.zipWith (fun i i2 => (-c.q / c.q * spin * i) / (c.q / c.q * spin * i2) ^ 2 * ((1e-10 : ℝ) • A).det)
      (List.zipWith (fun mu wj => moment 0 mu (List.zipWith (fun _ l => surfSum (fun s =>
        (physical c (A * I.A⁻¹) s).v 0 ^ 2 * (physical c (A * I.A⁻¹) s).h 1 1 -
          (physical c (A * I.A⁻¹) s).v 0 * (physical c (A * I.A⁻¹) s).v 1 * (physical c (A * I.A⁻¹) s).h 1 0) l) I.e I.smp) I.e wj) I.mu I.iw)
      (List.zipWith (fun mu wj => moment 0 mu (List.zipWith (fun _ l => surfSum (fun s =>
        (physical c (A * I.A⁻¹) s).v 0 ^ 2) l) I.e I.smp) I.e wj) I.mu I.iw)) := by
  unfold hallOld
  simp only [integrate_ok c I A hI hA, bind, Except.bind, item, integrateDf, zero_add, List.range_one, List.map_cons, List.map_nil,
    List.getElem?_cons_zero]

/-! ## Theorems -/

/-- **C121.** What `hall_coefficient_metal_cubic` returns: one number per temperature,
`3 V / (2 spin) ∫ (v·m v - v² tr m) / (∫ v²)²` with velocities `v` and inverse masses `m`. -/
theorem C121_cubic_formula (c : Const) (I : KInt) (A : Matrix (Fin 3) (Fin 3) ℝ) (spin : ℝ) (hq : c.q ≠ 0) (hs : spin ≠ 0) (hI : I.A.det ≠ 0)
    (hA : A.det ≠ 0) : ∃ r, hallCubic c I A spin = .ok r ∧ r.length = min I.mu.length I.iw.length ∧
      ∀ (j : ℕ) (mu : ℝ) (wj : List ℝ), I.mu[j]? = some mu → I.iw[j]? = some wj → Spec.integral c I A wj (fun v _ => v ⬝ᵥ v) ≠ 0 →
        r[j]? = some (3 * (1e-30 * A.det) / (2 * spin) * Spec.integral c I A wj (fun v m => v ⬝ᵥ (m *ᵥ v) - v ⬝ᵥ v * m.trace) /
          Spec.integral c I A wj (fun v _ => v ⬝ᵥ v) ^ 2) := by
  refine ⟨_, cubic_eq c I A spin hI hA, by simp, fun j mu wj h1 h2 h3 => ?_⟩
  rw [zipWith_get _ _ _ j _ _ (zipWith_get _ _ _ j mu wj h1 h2) (zipWith_get _ _ _ j mu wj h1 h2)]
  congr 1
  rw [real_moment c I A (fun s => cubicTerm s.v s.h) mu wj (fun v m => v ⬝ᵥ (m *ᵥ v) - v ⬝ᵥ v * m.trace),
    real_moment c I A (fun s => ∑ i, s.v i ^ 2) mu wj (fun v _ => v ⬝ᵥ v), det_scaled, div_self hq]
  · field_simp
    ring
  · intro s
    simp [dotProduct, pow_two]
  · intro s
    simp only [cubicTerm, dotProduct, mulVec, trace, diag, Fin.sum_univ_three]
    ring

/-- **C121 (disagreement of the signs)** Where the conductivity is isotropic, the average of the Hall tensor of `conductivity_hall_tensor` and
`hall_coefficients` over the six oriented frames is **minus** the result of `hall_coefficient_metal_cubic`. -/
theorem C121_sign (c : Const) (I : KInt) (A : Matrix (Fin 3) (Fin 3) ℝ) (spin : ℝ) (hq : c.q ≠ 0) (hs : spin ≠ 0) (hI : I.A.det ≠ 0)
    (hA : A.det ≠ 0) : ∃ r r2 r3, hallCubic c I A spin = .ok r ∧ hallTensor c I A spin none = .ok (r2, r3) ∧
      ∀ (j : ℕ) (σ : ℝ) m3 x, σ ≠ 0 → r2[j]? = some (σ • 1) → r3[j]? = some m3 → r[j]? = some x →
        ∃ R, hallCoefficients (σ • 1 : Matrix (Fin 3) (Fin 3) ℝ) m3 = .ok R ∧ (∑ i, ∑ j, ∑ k, Spec.eps i j k * R i j k) / 6 = -x := by
  refine ⟨_, _, _, cubic_eq c I A spin hI hA, hall_eq c I A spin none hI hA, fun j σ m3 x hσ h2 h3 hx => ?_⟩
  have hd : (σ • 1 : Matrix (Fin 3) (Fin 3) ℝ).det ≠ 0 := by rw [det_smul]; simpa using hσ
  refine ⟨fun i j k => ∑ a, ∑ b, (σ • 1 : Matrix (Fin 3) (Fin 3) ℝ)⁻¹ a j * m3 a b k * (σ • 1 : Matrix (Fin 3) (Fin 3) ℝ)⁻¹ i b, ?_, ?_⟩
  · unfold hallCoefficients
    rw [inv_ok hd]
    rfl
  have hj : ∃ mu wj, I.mu[j]? = some mu ∧ I.iw[j]? = some wj := by
    rw [List.getElem?_zipWith] at h2
    split at h2
    · rename_i mu wj e1 e2
      exact ⟨mu, wj, e1, e2⟩
    · exact absurd h2 (by simp)
  obtain ⟨mu, wj, e1, e2⟩ := hj
  rw [zipWith_get _ _ _ j mu wj e1 e2] at h2 h3
  rw [zipWith_get _ _ _ j _ _ (zipWith_get _ _ _ j mu wj e1 e2) (zipWith_get _ _ _ j mu wj e1 e2),
    real_moment c I A (fun s => cubicTerm s.v s.h) mu wj (fun v m => cubicTerm v m) (fun _ => rfl),
    real_moment c I A (fun s => ∑ i, s.v i ^ 2) mu wj (fun v _ => ∑ i, v i ^ 2) (fun _ => rfl)] at hx
  have hσ' : ∀ i, (1 / ((1e-10 : ℝ) • A).det * c.q ^ 2 / c.q * spin) * Spec.integral c I A wj (fun v _ => v i * v i) = σ := by
    intro i
    have := congrFun (congrFun (Option.some.inj h2) i) i
    rw [Matrix.smul_apply, Matrix.smul_apply, Matrix.one_apply_eq, smul_eq_mul, smul_eq_mul, mul_one] at this
    rw [← this]
    congr 1
    symm
    have := functional_moment ((LinearMap.proj i : (Fin 3 → ℝ) →ₗ[ℝ] ℝ).comp (LinearMap.proj i : (Fin 3 → Fin 3 → ℝ) →ₗ[ℝ] Fin 3 → ℝ)) c I A
      (fun s => ((none : Option ℝ).getD 1 • outer s.v : Matrix (Fin 3) (Fin 3) ℝ)) mu wj (fun v _ => v i * v i) (by
        intro s
        rw [← physical_v]
        show (1 : ℝ) * ((physical c (A * I.A⁻¹) s).v i * (physical c (A * I.A⁻¹) s).v i) = _
        rw [one_mul])
    exact this
  have hm3 : ∀ a b y, m3 a b y = (1 / ((1e-10 : ℝ) • A).det * c.q ^ 3 / c.q * spin) * Spec.integral c I A wj (fun v m => hallTerm v m a b y) := by
    intro a b y
    have := congrFun (congrFun (congrFun (Option.some.inj h3) a) b) y
    rw [Pi.smul_apply, Pi.smul_apply, Pi.smul_apply, smul_eq_mul] at this
    rw [← this]
    congr 1
    have := functional_moment ((LinearMap.proj y : (Fin 3 → ℝ) →ₗ[ℝ] ℝ).comp ((LinearMap.proj b : (Fin 3 → Fin 3 → ℝ) →ₗ[ℝ] Fin 3 → ℝ).comp
      (LinearMap.proj a : (Fin 3 → Fin 3 → Fin 3 → ℝ) →ₗ[ℝ] Fin 3 → Fin 3 → ℝ))) c I A
      (fun s => ((none : Option ℝ).getD 1 ^ 2 • hallTerm s.v s.h : Fin 3 → Fin 3 → Fin 3 → ℝ)) mu wj (fun v m => hallTerm v m a b y) (by
        intro s
        simp [← physical_v, ← physical_h])
    exact this
  have hinv : (σ • 1 : Matrix (Fin 3) (Fin 3) ℝ)⁻¹ = σ⁻¹ • 1 := by
    rw [inv_smul_mat (by simp) σ hσ, inv_one]
  have hV : ((1e-10 : ℝ) • A).det ≠ 0 := by rw [det_scaled]; exact mul_ne_zero (by norm_num) hA
  have hR : ∀ i j k, ∑ a, ∑ b, (σ • 1 : Matrix (Fin 3) (Fin 3) ℝ)⁻¹ a j * m3 a b k * (σ • 1 : Matrix (Fin 3) (Fin 3) ℝ)⁻¹ i b = m3 j i k / σ ^ 2 := by
    intro i j k
    rw [hinv]
    rw [Finset.sum_eq_single j (fun a _ ha => Finset.sum_eq_zero fun b _ => by simp [Matrix.one_apply_ne ha]) (by simp),
      Finset.sum_eq_single i (fun b _ hb => by simp [Matrix.one_apply_ne hb.symm]) (by simp)]
    simp
    field_simp
  simp only [hR]
  have hC : ∑ i, ∑ j, ∑ k, (Spec.eps i j k : ℝ) * (m3 j i k / σ ^ 2) =
      -(1 / ((1e-10 : ℝ) • A).det * c.q ^ 3 / c.q * spin) / σ ^ 2 * Spec.integral c I A wj (fun v m => cubicTerm v m) := by
    have hsum := integral_finset c I A wj (Finset.univ : Finset (Fin 3 × Fin 3 × Fin 3)) (fun p => (Spec.eps p.1 p.2.1 p.2.2 : ℝ))
      (fun p v m => hallTerm v m p.2.1 p.1 p.2.2)
    have hint : Spec.integral c I A wj (fun v m => cubicTerm v m) = -Spec.integral c I A wj (fun v m => ∑ p : Fin 3 × Fin 3 × Fin 3,
        (Spec.eps p.1 p.2.1 p.2.2 : ℝ) * hallTerm v m p.2.1 p.1 p.2.2) := by
      have := integral_lin c I A wj (-1) (fun _ _ => 0) (fun v m => ∑ p : Fin 3 × Fin 3 × Fin 3,
        (Spec.eps p.1 p.2.1 p.2.2 : ℝ) * hallTerm v m p.2.1 p.1 p.2.2) (fun v m => cubicTerm v m) (by
          intro v m
          simp only [Fintype.sum_prod_type, Fin.sum_univ_three, hallTerm, antisym_eq, cubicTerm]
          simp [Spec.eps]
          ring)
      rw [this, integral_zero]
      ring
    rw [hint, hsum]
    simp only [Fintype.sum_prod_type, Fin.sum_univ_three, hm3]
    ring
  rw [hC]
  have h3v : Spec.integral c I A wj (fun v _ => ∑ i, v i ^ 2) = ∑ i, Spec.integral c I A wj (fun v _ => v i * v i) := by
    have := integral_finset c I A wj (Finset.univ : Finset (Fin 3)) (fun _ => 1) (fun i v _ => v i * v i)
    simp only [one_mul] at this
    rw [← this]
    congr 1
    funext v m
    exact Finset.sum_congr rfl fun i _ => pow_two _
  have hx' := Option.some.inj hx
  rw [← hx', h3v, Fin.sum_univ_three]
  have k0 := hσ' 0
  have k1 := hσ' 1
  have k2 := hσ' 2
  have hf : (1 / ((1e-10 : ℝ) • A).det * c.q ^ 2 / c.q * spin) ≠ 0 := by
    refine mul_ne_zero (div_ne_zero (mul_ne_zero (one_div_ne_zero hV) (pow_ne_zero _ hq)) hq) hs
  have e1' : Spec.integral c I A wj (fun v _ => v 1 * v 1) = Spec.integral c I A wj (fun v _ => v 0 * v 0) := mul_left_cancel₀ hf (k1.trans k0.symm)
  have e2' : Spec.integral c I A wj (fun v _ => v 2 * v 2) = Spec.integral c I A wj (fun v _ => v 0 * v 0) := mul_left_cancel₀ hf (k2.trans k0.symm)
  rw [e1', e2', ← k0]
  have hI0 : Spec.integral c I A wj (fun v _ => v 0 * v 0) ≠ 0 := by
    intro h0
    rw [h0, mul_zero] at k0
    exact hσ k0.symm
  rw [div_self hq]
  generalize Spec.integral c I A wj (fun v _ => v 0 * v 0) = X at *
  generalize Spec.integral c I A wj (fun v m => cubicTerm v m) = Y
  generalize ((1e-10 : ℝ) • A).det = V at *
  field_simp
  ring

/-- **C121.** If all carriers have the inverse mass `μ` times the unit matrix, `hall_coefficient_metal_cubic` times the mean conductivity (per scattering
time) is `-q μ`: negative for electrons. -/
theorem C121_isotropic_mass (c : Const) (I : KInt) (A : Matrix (Fin 3) (Fin 3) ℝ) (spin μ : ℝ) (hq : c.q ≠ 0) (hs : spin ≠ 0) (hI : I.A.det ≠ 0)
    (hA : A.det ≠ 0) (hm : ∀ l ∈ I.smp, ∀ s ∈ l, Spec.invMass c I A s = μ • 1) : ∃ r d, hallCubic c I A spin = .ok r ∧ drude c I A spin = .ok d ∧
      ∀ (j : ℕ) x D, r[j]? = some x → d[j]? = some D → D.trace ≠ 0 → x * (D.trace / 3) = -(c.q * μ) := by
  obtain ⟨r, h1, -, h3⟩ := C121_cubic_formula c I A spin hq hs hI hA
  obtain ⟨L, row, hL, hrow, hd⟩ := C40_drude c I A spin 0 hq hI hA
  obtain ⟨L', hL', hlen, hform⟩ := C40_formula c I A spin .none 0 hq hI hA (by simp)
  rw [hL, Except.ok.injEq] at hL'
  subst hL'
  refine ⟨r, row, h1, hd, fun j x D hx hD ht => ?_⟩
  obtain ⟨hl, hf⟩ := hform 0 row hrow
  have hj : j < row.length := (List.getElem?_eq_some_iff.1 hD).1
  rw [hl] at hj
  have e1 : I.mu[j]? = some I.mu[j] := List.getElem?_eq_getElem _
  have e2 : I.iw[j]? = some I.iw[j] := List.getElem?_eq_getElem _
  obtain ⟨m, hm1, hm2⟩ := hf j _ _ e1 e2
  rw [hD, Option.some.injEq] at hm1
  subst hm1
  have htr : D.trace = spin * c.q / (1e-30 * A.det) * Spec.integral c I A I.iw[j] (fun v _ => v ⬝ᵥ v) := by
    have hent : ∀ i, D i i = spin * c.q / (1e-30 * A.det) * Spec.integral c I A I.iw[j] (fun v _ => v i * v i) := by
      intro i
      have := hm2 (Pi.single i 1) (Pi.single i 1)
      rw [single_one_dotProduct, mulVec_single_one, col_apply] at this
      rw [this]
      congr 1
      unfold Spec.integral
      congr 1
      apply List.map_congr_left
      intro t _
      rw [single_one_dotProduct, pow_zero, mul_one]
    unfold trace
    simp only [diag_apply, hent, ← Finset.mul_sum]
    congr 1
    have := integral_finset c I A I.iw[j] (Finset.univ : Finset (Fin 3)) (fun _ => 1) (fun i v _ => v i * v i)
    simp only [one_mul] at this
    rw [← this]
    rfl
  have hV : (1e-30 * A.det : ℝ) ≠ 0 := mul_ne_zero (by norm_num) hA
  have hX : Spec.integral c I A I.iw[j] (fun v _ => v ⬝ᵥ v) ≠ 0 := by
    intro h0
    rw [htr, h0, mul_zero] at ht
    exact ht rfl
  have hx' := h3 j _ _ e1 e2 hX
  rw [hx, Option.some.injEq] at hx'
  have hY : Spec.integral c I A I.iw[j] (fun v m => v ⬝ᵥ (m *ᵥ v) - v ⬝ᵥ v * m.trace) = -(2 * μ) * Spec.integral c I A I.iw[j] (fun v _ => v ⬝ᵥ v) := by
    unfold Spec.integral
    rw [← list_sum_mul_left]
    congr 1
    apply List.map_congr_left
    intro t hts
    unfold Spec.terms at hts
    rw [List.mem_flatMap] at hts
    obtain ⟨u, hu, hu2⟩ := hts
    obtain ⟨s, hs', rfl⟩ := List.mem_map.1 hu2
    have hl' : u.2.1 ∈ I.smp := (List.of_mem_zip (List.of_mem_zip hu).2).1
    simp only
    rw [hm _ hl' s hs', smul_mulVec, one_mulVec, dotProduct_smul, trace_smul, trace_one]
    simp
    ring
  rw [hx', hY, htr]
  field_simp

/-- **C121.** The deprecated `hall_coefficient` gives the same numbers as `hall_coefficient_metal_cubic` wherever the integrals have cubic symmetry (the
six integrals of `v_a² m_bb - v_a v_b m_ba`, and the three of `v_a²`, are equal). -/
theorem C121_old (c : Const) (I : KInt) (A : Matrix (Fin 3) (Fin 3) ℝ) (spin : ℝ) (hq : c.q ≠ 0) (hs : spin ≠ 0) (hI : I.A.det ≠ 0) (hA : A.det ≠ 0) :
    ∃ r r', hallCubic c I A spin = .ok r ∧ hallOld c I A spin = .ok r' ∧ r.length = r'.length ∧
      ∀ (j : ℕ) (mu : ℝ) (wj : List ℝ), I.mu[j]? = some mu → I.iw[j]? = some wj →
        (∀ a b : Fin 3, a ≠ b → Spec.integral c I A wj (fun v m => v a ^ 2 * m b b - v a * v b * m b a) =
          Spec.integral c I A wj (fun v m => v 0 ^ 2 * m 1 1 - v 0 * v 1 * m 1 0)) →
        (∀ a : Fin 3, Spec.integral c I A wj (fun v _ => v a ^ 2) = Spec.integral c I A wj (fun v _ => v 0 ^ 2)) →
        Spec.integral c I A wj (fun v _ => v 0 ^ 2) ≠ 0 → r[j]? = r'[j]? := by
  refine ⟨_, _, cubic_eq c I A spin hI hA, old_eq c I A spin hI hA, by simp, fun j mu wj e1 e2 h1 h2 h3 => ?_⟩
  rw [zipWith_get _ _ _ j _ _ (zipWith_get _ _ _ j mu wj e1 e2) (zipWith_get _ _ _ j mu wj e1 e2),
    zipWith_get _ _ _ j _ _ (zipWith_get _ _ _ j mu wj e1 e2) (zipWith_get _ _ _ j mu wj e1 e2)]
  congr 1
  rw [real_moment c I A (fun s => cubicTerm s.v s.h) mu wj (fun v m => cubicTerm v m) (fun _ => rfl),
    real_moment c I A (fun s => ∑ i, s.v i ^ 2) mu wj (fun v _ => ∑ i, v i ^ 2) (fun _ => rfl),
    real_moment c I A (fun s => s.v 0 ^ 2 * s.h 1 1 - s.v 0 * s.v 1 * s.h 1 0) mu wj (fun v m => v 0 ^ 2 * m 1 1 - v 0 * v 1 * m 1 0) (fun _ => rfl),
    real_moment c I A (fun s => s.v 0 ^ 2) mu wj (fun v _ => v 0 ^ 2) (fun _ => rfl)]
  have k1 : Spec.integral c I A wj (fun v m => cubicTerm v m) = -6 * Spec.integral c I A wj (fun v m => v 0 ^ 2 * m 1 1 - v 0 * v 1 * m 1 0) := by
    have := integral_finset c I A wj (Finset.univ : Finset (Fin 3 × Fin 3)) (fun p => if p.1 = p.2 then 0 else -1)
      (fun p v m => v p.1 ^ 2 * m p.2 p.2 - v p.1 * v p.2 * m p.2 p.1)
    have e : (fun v m => cubicTerm v m) = fun (v : Fin 3 → ℝ) (m : Matrix (Fin 3) (Fin 3) ℝ) => ∑ p : Fin 3 × Fin 3,
        (if p.1 = p.2 then 0 else -1 : ℝ) * (v p.1 ^ 2 * m p.2 p.2 - v p.1 * v p.2 * m p.2 p.1) := by
      funext v m
      simp only [Fintype.sum_prod_type, Fin.sum_univ_three, cubicTerm]
      simp
      ring
    rw [e, this]
    simp only [Fintype.sum_prod_type, Fin.sum_univ_three]
    rw [h1 0 2 (by decide), h1 1 0 (by decide), h1 1 2 (by decide), h1 2 0 (by decide), h1 2 1 (by decide)]
    simp
    ring
  have k2 : Spec.integral c I A wj (fun v _ => ∑ i, v i ^ 2) = 3 * Spec.integral c I A wj (fun v _ => v 0 ^ 2) := by
    have := integral_finset c I A wj (Finset.univ : Finset (Fin 3)) (fun _ => 1) (fun i v _ => v i ^ 2)
    simp only [one_mul] at this
    rw [this, Fin.sum_univ_three, h2 1, h2 2]
    ring
  rw [k1, k2, neg_div, div_self hq]
  generalize Spec.integral c I A wj (fun v _ => v 0 ^ 2) = X at *
  field_simp

/-- **C121.** Rotating the lattice does not change `hall_coefficient_metal_cubic`; a mirror changes its sign (the volume is a determinant). -/
theorem C121_rotation (c : Const) (I : KInt) (A R : Matrix (Fin 3) (Fin 3) ℝ) (spin : ℝ) (hI : I.A.det ≠ 0) (hA : A.det ≠ 0) (hR : Rᵀ * R = 1) :
    ∃ r, hallCubic c I A spin = .ok r ∧ hallCubic c I (R * A) spin = .ok (r.map (R.det * ·)) := by
  have hdet : R.det ≠ 0 := by
    intro h0
    have := congrArg det hR
    rw [det_mul, h0, mul_zero, det_one] at this
    exact zero_ne_one this
  have hRA : (R * A).det ≠ 0 := by rw [det_mul]; exact mul_ne_zero hdet hA
  have hdot : ∀ x y : Fin 3 → ℝ, (R *ᵥ x) ⬝ᵥ (R *ᵥ y) = x ⬝ᵥ y := by
    intro x y
    rw [dotProduct_mulVec, vecMul_mulVec, hR, vecMul_one]
  have hv : ∀ s, (physical c (R * A * I.A⁻¹) s).v = R *ᵥ (physical c (A * I.A⁻¹) s).v := by
    intro s
    rw [physical_v, physical_v]
    unfold Spec.velocity
    rw [mulVec_smul, mulVec_mulVec, Matrix.mul_assoc]
  have hh : ∀ s, (physical c (R * A * I.A⁻¹) s).h = R * (physical c (A * I.A⁻¹) s).h * Rᵀ := by
    intro s
    rw [physical_h, physical_h]
    unfold Spec.invMass
    rw [Matrix.mul_smul, Matrix.smul_mul]
    congr 1
    rw [Matrix.mul_assoc R A, transpose_mul R]
    simp only [Matrix.mul_assoc]
  have ht : ∀ v (h : Matrix (Fin 3) (Fin 3) ℝ), cubicTerm v h = v ⬝ᵥ (h *ᵥ v) - v ⬝ᵥ v * h.trace := by
    intro v h
    simp only [cubicTerm, dotProduct, mulVec, trace, diag, Fin.sum_univ_three]
    ring
  have h1 : ∀ s, cubicTerm (physical c (R * A * I.A⁻¹) s).v (physical c (R * A * I.A⁻¹) s).h =
      cubicTerm (physical c (A * I.A⁻¹) s).v (physical c (A * I.A⁻¹) s).h := by
    intro s
    rw [ht, ht, hv, hh, hdot]
    congr 1
    · rw [← mulVec_mulVec, mulVec_mulVec _ Rᵀ, hR, one_mulVec, ← mulVec_mulVec, hdot]
    · rw [trace_mul_comm, ← Matrix.mul_assoc, hR, Matrix.one_mul]
  have h2 : ∀ s, ∑ i, (physical c (R * A * I.A⁻¹) s).v i ^ 2 = ∑ i, (physical c (A * I.A⁻¹) s).v i ^ 2 := by
    intro s
    have e : ∀ v : Fin 3 → ℝ, ∑ i, v i ^ 2 = v ⬝ᵥ v := fun v => by simp [dotProduct, pow_two]
    rw [e, e, hv, hdot]
  refine ⟨_, cubic_eq c I A spin hI hA, ?_⟩
  rw [cubic_eq c I (R * A) spin hI hRA]
  simp only [h1, h2]
  congr 1
  rw [List.map_zipWith]
  congr 1
  funext i i2
  rw [det_scaled, det_scaled, det_mul]
  ring

/-- **C121.** Singular lattices raise. -/
theorem C121_errors (c : Const) (I : KInt) (A : Matrix (Fin 3) (Fin 3) ℝ) (spin : ℝ) (h : I.A.det = 0 ∨ A.det = 0) :
    hallCubic c I A spin = .error .valueError ∧ hallOld c I A spin = .error .valueError := by
  have key : ∀ {M : Type} [AddCommGroup M] [Module ℝ M] (g : ℝ → Sample → M), integrateDfA c I A g 0 = .error .valueError := by
    intro M _ _ g
    by_cases hI : I.A.det = 0
    · simp only [integrateDfA, inv_err hI, bind, Except.bind]
    · have hA : A.det = 0 := h.resolve_left hI
      have h2 : (A * I.A⁻¹)ᵀ.det = 0 := by rw [det_transpose, det_mul, hA, zero_mul]
      simp only [integrateDfA, inv_ok hI, inv_err h2, bind, Except.bind]
  unfold hallCubic hallOld
  simp only [key, bind, Except.bind, and_self]

/-- **C121.** `heat_capacity` is `spin q kB beta ∫ e (e - mu)` over the samples; moving the origin of the energies by `s` adds
`s · spin q kB beta ∫ (e - mu)`, so that the result has no physical meaning unless the last integral vanishes. -/
theorem C121_heat (c : Const) (kB : ℝ) (I : KInt) (beta : List ℝ) (spin s : ℝ) :
    ∃ r r', heatCapacity c kB I beta spin = .ok r ∧
      heatCapacity c kB { I with e := I.e.map (· + s), mu := I.mu.map (· + s) } beta spin = .ok r' ∧
      ∀ (j : ℕ) (mu b : ℝ) (wj : List ℝ), I.mu[j]? = some mu → I.iw[j]? = some wj → beta[j]? = some b →
        r[j]? = some (spin * c.q * kB * b * ((Spec.terms I wj).map fun t => Spec.wt I 1 .none t * (t.1 * (t.1 - mu))).sum) ∧
        r'[j]? = some (spin * c.q * kB * b * (((Spec.terms I wj).map fun t => Spec.wt I 1 .none t * (t.1 * (t.1 - mu))).sum +
          s * ((Spec.terms I wj).map fun t => Spec.wt I 1 .none t * (t.1 - mu)).sum)) := by
  have key : ∀ (J : KInt) (j : ℕ) (mu b : ℝ) (wj : List ℝ), J.mu[j]? = some mu → J.iw[j]? = some wj → beta[j]? = some b →
      ∃ r, heatCapacity c kB J beta spin = .ok r ∧
        r[j]? = some (spin * c.q * kB * b * ((Spec.terms J wj).map fun t => Spec.wt J 1 .none t * (t.1 * (t.1 - mu))).sum) := by
    intro J j mu b wj h1 h2 h3
    refine ⟨_, rfl, ?_⟩
    rw [zipWith_get _ _ _ j _ b (zipWith_get _ _ _ j mu wj h1 h2) h3, moment_eq 1 mu (fun e l => surfSum (fun _ => e) l)]
    congr 1
    have : ((J.e.zip (J.smp.zip wj)).map fun t => (t.2.2 * (t.1 - mu) ^ 1) • surfSum (fun _ => t.1) t.2.1).sum =
        ((Spec.terms J wj).map fun t => Spec.wt J 1 .none t * (t.1 * (t.1 - mu))).sum := by
      unfold Spec.terms
      rw [List.map_flatMap, sum_flatMap]
      congr 1
      apply List.map_congr_left
      rintro ⟨e, l, w⟩ _
      simp only [surfSum, List.map_map, smul_eq_mul]
      rw [← list_sum_mul_left]
      congr 1
      apply List.map_congr_left
      intro s _
      simp only [Function.comp, Spec.wt, Sample.w, Tau.at]
      ring
    rw [this]
    rw [one_div, div_inv_eq_mul]
    ring
  refine ⟨_, _, rfl, rfl, fun j mu b wj h1 h2 h3 => ?_⟩
  obtain ⟨r, hr, hr2⟩ := key I j mu b wj h1 h2 h3
  obtain ⟨r', hr', hr2'⟩ := key { I with e := I.e.map (· + s), mu := I.mu.map (· + s) } j (mu + s) b wj (by simp [h1]) h2 h3
  have e1 := Except.ok.inj (show Except.ok _ = Except.ok r from hr)
  have e2 := Except.ok.inj (show Except.ok _ = Except.ok r' from hr')
  rw [e1, e2]
  refine ⟨hr2, hr2'.trans ?_⟩
  congr 2
  have ht : Spec.terms { I with e := I.e.map (· + s), mu := I.mu.map (· + s) } wj = (Spec.terms I wj).map fun t => (t.1 + s, t.2) := by
    unfold Spec.terms
    simp only
    rw [List.zip_map_left, List.flatMap_map, List.map_flatMap]
    congr 1
    funext t
    simp [Function.comp]
  rw [ht, List.map_map, ← list_sum_mul_left, ← List.sum_map_add]
  congr 1
  apply List.map_congr_left
  intro t _
  simp only [Function.comp, Spec.wt, Tau.at]
  ring

/-! ## Examples -/

/-- Three samples along the axes with unit mass: a cubic table. -/
noncomputable def exCubic : KInt where
  e := [1]
  smp := [[⟨0, ![1, 0, 0], 1, 1⟩, ⟨0, ![0, 1, 0], 1, 1⟩, ⟨0, ![0, 0, 1], 1, 1⟩]]
  mu := [1 / 2]
  iw := [[1]]
  A := 1

-- the hypotheses of the theorems: constants, lattice, isotropic masses
example : (⟨1, 1⟩ : Const).q ≠ 0 ∧ exCubic.A.det ≠ 0 ∧ (1 : Matrix (Fin 3) (Fin 3) ℝ).det ≠ 0 ∧
    ∀ l ∈ exCubic.smp, ∀ s ∈ l, Spec.invMass ⟨1, 1⟩ exCubic 1 s = ((1e-10 / (2 * Real.pi)) ^ 2) • 1 := by
  refine ⟨by simp, by simp [exCubic], by simp, fun l hl s hs => ?_⟩
  simp only [exCubic, List.mem_singleton] at hl
  subst hl
  have : s.h = 1 := by
    simp only [List.mem_cons, List.not_mem_nil, or_false] at hs
    rcases hs with rfl | rfl | rfl <;> rfl
  simp [Spec.invMass, this, exCubic]

-- equal integrals and a sum of squares different from zero
example (a : Fin 3) : Spec.integral ⟨1, 1⟩ exCubic 1 [1] (fun v _ => v a ^ 2) = Spec.integral ⟨1, 1⟩ exCubic 1 [1] (fun v _ => v 0 ^ 2) ∧
    Spec.integral ⟨1, 1⟩ exCubic 1 [1] (fun v _ => v 0 ^ 2) ≠ 0 := by
  have hv : ∀ i : Fin 3, ![(1 : ℝ), 0, 0] i = if i = 0 then 1 else 0 := by intro i; fin_cases i <;> simp
  constructor
  · fin_cases a <;> simp [Spec.integral, Spec.terms, exCubic, Spec.wt, Spec.velocity, Tau.at, dotProduct, Fin.sum_univ_three]
  · simp [Spec.integral, Spec.terms, exCubic, Spec.wt, Spec.velocity, Tau.at, dotProduct, Fin.sum_univ_three]
    norm_num

-- the six integrals of the Hall term are equal
example (a b : Fin 3) (h : a ≠ b) : Spec.integral ⟨1, 1⟩ exCubic 1 [1] (fun v m => v a ^ 2 * m b b - v a * v b * m b a) =
    Spec.integral ⟨1, 1⟩ exCubic 1 [1] (fun v m => v 0 ^ 2 * m 1 1 - v 0 * v 1 * m 1 0) := by
  fin_cases a <;> fin_cases b <;> first
    | exact absurd rfl h
    | simp [Spec.integral, Spec.terms, exCubic, Spec.wt, Spec.velocity, Spec.invMass, Tau.at, dotProduct, Fin.sum_univ_three]

-- the conductivity is a multiple of the unit matrix
example : ∃ σ : ℝ, σ ≠ 0 ∧ ∃ r3, hallTensor ⟨1, 1⟩ exCubic 1 2 none = .ok ([σ • 1], r3) := by
  refine ⟨2 * (1e-10 / (2 * Real.pi)) ^ 2 / (1e-10 : ℝ) ^ 3 / (1e-8 + 1), ?_, ?_⟩
  · have := Real.pi_ne_zero
    positivity
  · rw [hall_eq _ _ _ _ _ (by simp [exCubic]) (by simp)]
    refine ⟨_, congrArg Except.ok (Prod.ext ?_ rfl)⟩
    simp only [exCubic, List.zipWith_cons_cons, List.zipWith_nil_left]
    congr 1
    ext i j
    fin_cases i <;> fin_cases j <;>
      simp [moment, surfSum, Sample.w, outer, physical, gradTransform, dotProduct, Fin.sum_univ_three, smul_mulVec] <;> ring

end TB.Bulk

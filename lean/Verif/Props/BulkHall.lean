import Verif.Props.Bulk

/-!
# C71: Hall coefficients
-/

namespace TB.Bulk
open Matrix

section algebra
variable {K : Type} [Field K]

theorem inv_smul_mat {σ : Matrix (Fin 3) (Fin 3) K} (h : σ.det ≠ 0) (t : K) (ht : t ≠ 0) : (t • σ)⁻¹ = t⁻¹ • σ⁻¹ := by
  apply inv_eq_left_inv
  rw [smul_mul_smul_comm, inv_mul_cancel₀ ht, nonsing_inv_mul _ (isUnit_iff_ne_zero.2 h), one_smul]

/-- C71.  The Hall coefficients do not change if the conductivity is multiplied by `t` and the rank 3 tensor by `t²`. -/
theorem C71_scale (σ2 : Matrix (Fin 3) (Fin 3) K) (σ3 : Fin 3 → Fin 3 → Fin 3 → K) (t : K) (ht : t ≠ 0) :
    hallCoefficients (t • σ2) (t ^ 2 • σ3) = hallCoefficients σ2 σ3 := by
  unfold hallCoefficients
  by_cases h : σ2.det = 0
  · have : (t • σ2).det = 0 := by rw [det_smul, h, mul_zero]
    rw [inv_err h, inv_err this]
    rfl
  · have h' : (t • σ2).det ≠ 0 := by rw [det_smul]; exact mul_ne_zero (pow_ne_zero _ ht) h
    rw [inv_ok h, inv_ok h', inv_smul_mat h t ht]
    simp only [bind, Except.bind]
    congr 1
    funext i j k
    apply Finset.sum_congr rfl; intro a _
    apply Finset.sum_congr rfl; intro b _
    simp only [Matrix.smul_apply, Pi.smul_apply, smul_eq_mul]
    field_simp

/-- The Levi-Civita symbol. -/
def Spec.eps (i j k : Fin 3) : K :=
  if (i, j, k) = (0, 1, 2) ∨ (i, j, k) = (1, 2, 0) ∨ (i, j, k) = (2, 0, 1) then 1
  else if (i, j, k) = (0, 2, 1) ∨ (i, j, k) = (2, 1, 0) ∨ (i, j, k) = (1, 0, 2) then -1 else 0

theorem antisym_eq (i j k : Fin 3) : (antisym i j k : K) = Spec.eps i j k := by
  fin_cases i <;> fin_cases j <;> fin_cases k <;> simp [antisym, Spec.eps]

/-- The rank 3 tensor that belongs to a conductivity when all carriers have the same isotropic mass. -/
def Spec.iso (κ : K) (σ : Matrix (Fin 3) (Fin 3) K) : Fin 3 → Fin 3 → Fin 3 → K := fun a b y => κ * ∑ s, Spec.eps y b s * σ a s

/-- C71.  For carriers of one isotropic mass the Hall tensor is `κ Σ_b (σ⁻¹)_ib ε_kbj`; in an isotropic conductor (`σ` times the
unit matrix) it is `κ/σ` times the Levi-Civita symbol. -/
theorem C71_isotropic_mass (σ : Matrix (Fin 3) (Fin 3) K) (h : σ.det ≠ 0) (hs : σᵀ = σ) (κ : K) :
    ∃ R, hallCoefficients σ (Spec.iso κ σ) = .ok R ∧ (∀ i j k, R i j k = κ * ∑ b, σ⁻¹ i b * Spec.eps k b j) ∧
      ∀ s : K, σ = s • 1 → ∀ i j k, R i j k = κ / s * Spec.eps i j k := by
  have hR : hallCoefficients σ (Spec.iso κ σ) = .ok fun i j k => ∑ a, ∑ b, σ⁻¹ a j * Spec.iso κ σ a b k * σ⁻¹ i b := by
    unfold hallCoefficients
    rw [inv_ok h]
    rfl
  have hform : ∀ i j k, ∑ a, ∑ b, σ⁻¹ a j * Spec.iso κ σ a b k * σ⁻¹ i b = κ * ∑ b, σ⁻¹ i b * Spec.eps k b j := by
    intro i j k
    rw [Finset.sum_comm, Finset.mul_sum]
    apply Finset.sum_congr rfl
    intro b _
    have h1 : ∀ s, ∑ a, σ⁻¹ a j * σ a s = if j = s then 1 else 0 := by
      intro s
      have : (σ⁻¹ᵀ * σ) j s = (1 : Matrix (Fin 3) (Fin 3) K) j s := by
        rw [transpose_nonsing_inv, hs, nonsing_inv_mul _ (isUnit_iff_ne_zero.2 h)]
      rw [mul_apply, one_apply] at this
      exact this
    calc ∑ a, σ⁻¹ a j * Spec.iso κ σ a b k * σ⁻¹ i b
        = ∑ a, ∑ s, κ * σ⁻¹ i b * Spec.eps k b s * (σ⁻¹ a j * σ a s) := by
          apply Finset.sum_congr rfl; intro a _
          unfold Spec.iso
          rw [Finset.mul_sum, Finset.mul_sum, Finset.sum_mul]
          apply Finset.sum_congr rfl; intro s _
          ring
      _ = ∑ s, κ * σ⁻¹ i b * Spec.eps k b s * ∑ a, σ⁻¹ a j * σ a s := by
          rw [Finset.sum_comm]
          apply Finset.sum_congr rfl; intro s _
          rw [Finset.mul_sum]
      _ = κ * (σ⁻¹ i b * Spec.eps k b j) := by
          simp only [h1, mul_ite, mul_one, mul_zero, Finset.sum_ite_eq, Finset.mem_univ, if_true]
          ring
  refine ⟨_, hR, hform, ?_⟩
  intro s hσ i j k
  rw [hform]
  have hs0 : s ≠ 0 := by
    rintro rfl
    rw [hσ, zero_smul] at h
    exact h det_zero
  have hinv : σ⁻¹ = s⁻¹ • 1 := by
    rw [hσ]
    have := inv_smul_mat (K := K) (σ := 1) (by simp) s hs0
    rw [this, inv_one]
  rw [hinv]
  have : ∀ b, (s⁻¹ • (1 : Matrix (Fin 3) (Fin 3) K)) i b * Spec.eps k b j = if i = b then s⁻¹ * Spec.eps k b j else 0 := by
    intro b
    rw [Matrix.smul_apply, one_apply, smul_eq_mul]
    by_cases hib : i = b
    · rw [if_pos hib, if_pos hib, mul_one]
    · rw [if_neg hib, if_neg hib, mul_zero, zero_mul]
  simp only [this, Finset.sum_ite_eq, Finset.mem_univ, if_true]
  have cyc : (Spec.eps k i j : K) = Spec.eps i j k := by
    fin_cases i <;> fin_cases j <;> fin_cases k <;> simp [Spec.eps]
  rw [cyc, div_eq_mul_inv]
  ring

end algebra

theorem hallTerm_iso (v : Fin 3 → ℝ) (h : Matrix (Fin 3) (Fin 3) ℝ) (μ : ℝ) (hh : h = μ • 1) : hallTerm v h = Spec.iso μ (outer v) := by
  subst hh
  funext a b y
  unfold hallTerm Spec.iso
  rw [Finset.mul_sum, Finset.sum_comm]
  apply Finset.sum_congr rfl
  intro s _
  have : ∀ d, antisym y d s * v a * v s * (μ • (1 : Matrix (Fin 3) (Fin 3) ℝ)) b d = if b = d then μ * (Spec.eps y d s * (v a * v s)) else 0 := by
    intro d
    rw [Matrix.smul_apply, one_apply, smul_eq_mul, antisym_eq]
    by_cases hb : b = d
    · rw [if_pos hb, if_pos hb]; ring
    · rw [if_neg hb, if_neg hb]; ring
  simp only [this, Finset.sum_ite_eq, Finset.mem_univ, if_true, outer, of_apply]
  ring

theorem iso_add (κ : ℝ) (M N : Matrix (Fin 3) (Fin 3) ℝ) : Spec.iso κ (M + N) = Spec.iso κ M + Spec.iso κ N := by
  funext a b y
  simp only [Spec.iso, Pi.add_apply, Matrix.add_apply, mul_add, Finset.sum_add_distrib]

theorem iso_smul (κ t : ℝ) (M : Matrix (Fin 3) (Fin 3) ℝ) : Spec.iso κ (t • M) = t • Spec.iso κ M := by
  funext a b y
  simp only [Spec.iso, Pi.smul_apply, Matrix.smul_apply, smul_eq_mul, Finset.mul_sum]
  apply Finset.sum_congr rfl; intro s _; ring

theorem iso_zero (κ : ℝ) : Spec.iso κ (0 : Matrix (Fin 3) (Fin 3) ℝ) = 0 := by
  funext a b y
  simp [Spec.iso]

theorem iso_sum (κ : ℝ) (l : List (Matrix (Fin 3) (Fin 3) ℝ)) : Spec.iso κ l.sum = (l.map (Spec.iso κ)).sum := by
  induction l with
  | nil => simp [iso_zero]
  | cons a l ih => simp [iso_add, ih]

theorem iso_moment (κ : ℝ) (a : ℕ) (mu : ℝ) (rs : List (Matrix (Fin 3) (Fin 3) ℝ)) (es ws : List ℝ) :
    Spec.iso κ (moment a mu rs es ws) = moment a mu (rs.map (Spec.iso κ)) es ws := by
  induction rs generalizing es ws with
  | nil => simp [moment, iso_zero]
  | cons r rs ih =>
    cases es with
    | nil => simp [moment, iso_zero]
    | cons e es =>
      cases ws with
      | nil => simp [moment, iso_zero]
      | cons w ws => simp [moment, iso_add, iso_smul, ih]

theorem hall_eq (c : Const) (I : KInt) (A : Matrix (Fin 3) (Fin 3) ℝ) (spin : ℝ) (tau : Option ℝ) (hI : I.A.det ≠ 0) (hA : A.det ≠ 0) :
    hallTensor c I A spin tau = .ok
      (List.zipWith (fun mu wj => (1 / ((1e-10 : ℝ) • A).det * c.q ^ 2 / c.q * spin) • moment 0 mu (List.zipWith (fun _ l => surfSum (fun s =>
          tau.getD 1 • outer (physical c (A * I.A⁻¹) s).v) l) I.e I.smp) I.e wj) I.mu I.iw,
       List.zipWith (fun mu wj => (1 / ((1e-10 : ℝ) • A).det * c.q ^ 3 / c.q * spin) • moment 0 mu (List.zipWith (fun _ l => surfSum (fun s =>
          tau.getD 1 ^ 2 • hallTerm (physical c (A * I.A⁻¹) s).v (physical c (A * I.A⁻¹) s).h) l) I.e I.smp) I.e wj) I.mu I.iw) := by
  unfold hallTensor
  simp only [integrate_ok c I A hI hA, bind, Except.bind, item, integrateDf, zero_add, List.range_one, List.map_cons, List.map_nil,
    List.getElem?_cons_zero, List.map_zipWith]

theorem zipWith_mem_congr {α β γ : Type} (f g : α → β → γ) (l : List α) (m : List β) (h : ∀ x, ∀ y ∈ m, f x y = g x y) :
    List.zipWith f l m = List.zipWith g l m := by
  induction l generalizing m with
  | nil => rfl
  | cons a l ih =>
    cases m with
    | nil => rfl
    | cons b m =>
      simp only [List.zipWith_cons_cons]
      rw [h a b List.mem_cons_self, ih m fun x y hy => h x y (List.mem_cons_of_mem _ hy)]

/-- C71.  If all samples have the same isotropic inverse mass `μ` (in SI units), the rank 3 tensor belongs to the conductivity as in
`C71_isotropic_mass` with `κ = q τ μ`, at every temperature. -/
theorem C71_isotropic (c : Const) (I : KInt) (A : Matrix (Fin 3) (Fin 3) ℝ) (spin μ : ℝ) (tau : Option ℝ) (hI : I.A.det ≠ 0) (hA : A.det ≠ 0)
    (hm : ∀ l ∈ I.smp, ∀ s ∈ l, (physical c (A * I.A⁻¹) s).h = μ • 1) :
    ∃ r2, hallTensor c I A spin tau = .ok (r2, r2.map (Spec.iso (c.q * tau.getD 1 * μ))) := by
  refine ⟨List.zipWith (fun mu wj => (1 / ((1e-10 : ℝ) • A).det * c.q ^ 2 / c.q * spin) • moment 0 mu (List.zipWith (fun _ l => surfSum (fun s =>
          tau.getD 1 • outer (physical c (A * I.A⁻¹) s).v) l) I.e I.smp) I.e wj) I.mu I.iw, ?_⟩
  rw [hall_eq c I A spin tau hI hA]
  congr 2
  rw [List.map_zipWith]
  congr 1
  funext mu wj
  rw [iso_smul, iso_moment, List.map_zipWith]
  have e : (List.zipWith (fun (_ : ℝ) l => surfSum (fun s =>
          tau.getD 1 ^ 2 • hallTerm (physical c (A * I.A⁻¹) s).v (physical c (A * I.A⁻¹) s).h) l) I.e I.smp) =
      List.zipWith (fun (_ : ℝ) l => (tau.getD 1 * μ) • Spec.iso 1 (surfSum (fun s => tau.getD 1 • outer (physical c (A * I.A⁻¹) s).v) l)) I.e I.smp := by
    apply zipWith_mem_congr
    intro _ l hl
    unfold surfSum
    rw [iso_sum, List.map_map, List.smul_sum, List.map_map]
    congr 1
    apply List.map_congr_left
    intro s hs
    simp only [Function.comp]
    rw [hallTerm_iso _ _ μ (hm l hl s hs), iso_smul, iso_smul]
    funext a b y
    simp only [Pi.smul_apply, smul_eq_mul, Spec.iso]
    ring
  rw [e]
  have m2 : ∀ (κ t : ℝ) (rs : List (Matrix (Fin 3) (Fin 3) ℝ)) (es ws : List ℝ),
      moment 0 mu (rs.map fun r => t • Spec.iso κ r) es ws = t • moment 0 mu (rs.map (Spec.iso κ)) es ws := by
    intro κ t rs
    induction rs with
    | nil => intro es ws; simp [moment]
    | cons r rs ih =>
      intro es ws
      cases es with
      | nil => simp [moment]
      | cons e es =>
        cases ws with
        | nil => simp [moment]
        | cons w ws =>
          simp only [List.map_cons, moment, ih, smul_add]
          rw [smul_comm]
  rw [← List.map_zipWith (f := fun r => (tau.getD 1 * μ) • Spec.iso 1 r)
    (g := fun (_ : ℝ) l => surfSum (fun s => tau.getD 1 • outer (physical c (A * I.A⁻¹) s).v) l), m2]
  rw [← List.map_zipWith (f := fun r => Spec.iso (c.q * tau.getD 1 * μ) r)
    (g := fun (_ : ℝ) l => surfSum (fun s => tau.getD 1 • outer (physical c (A * I.A⁻¹) s).v) l)]
  have m3 : ∀ (κ : ℝ) (r : Matrix (Fin 3) (Fin 3) ℝ), Spec.iso κ r = κ • Spec.iso 1 r := by
    intro κ r; funext a b y; simp only [Spec.iso, Pi.smul_apply, smul_eq_mul, one_mul]
  have m4 : (fun r : Matrix (Fin 3) (Fin 3) ℝ => Spec.iso (c.q * tau.getD 1 * μ) r) = fun r => (c.q * tau.getD 1 * μ) • Spec.iso 1 r :=
    funext fun r => m3 _ r
  rw [m4, m2, smul_smul, smul_smul]
  congr 1
  by_cases hq : c.q = 0
  · rw [hq]; ring
  · field_simp

/-- C71.  A constant scattering time multiplies the conductivity by `t` and the rank 3 tensor by `t²`; the Hall coefficients (see
`C71_scale`) do not depend on it. -/
theorem C71_tau (c : Const) (I : KInt) (A : Matrix (Fin 3) (Fin 3) ℝ) (spin t : ℝ) (ht : t ≠ 0) (hI : I.A.det ≠ 0) (hA : A.det ≠ 0) :
    ∃ r2 r3, hallTensor c I A spin none = .ok (r2, r3) ∧
      hallTensor c I A spin (some t) = .ok (r2.map (t • ·), r3.map (t ^ 2 • ·)) ∧
      ∀ m2 ∈ r2, ∀ m3 ∈ r3, hallCoefficients (t • m2) (t ^ 2 • m3) = hallCoefficients m2 m3 := by
  have key : ∀ {M : Type} [AddCommGroup M] [Module ℝ M] (u : ℝ) (g : Sample → M) (mu : ℝ) (es : List ℝ) (ls : List (List Sample)) (ws : List ℝ),
      moment 0 mu (List.zipWith (fun (_ : ℝ) l => surfSum (fun s => u • g s) l) es ls) es ws =
        u • moment 0 mu (List.zipWith (fun (_ : ℝ) l => surfSum (fun s => (1 : ℝ) • g s) l) es ls) es ws := by
    intro M _ _ u g mu es ls ws
    rw [moment_eq 0 mu (fun _ l => surfSum (fun s => u • g s) l), moment_eq 0 mu (fun _ l => surfSum (fun s => (1 : ℝ) • g s) l), List.smul_sum, List.map_map]
    congr 1
    apply List.map_congr_left
    intro p _
    simp only [Function.comp, surfSum]
    rw [smul_comm u, List.smul_sum (r := u), List.map_map]
    congr 2
    apply List.map_congr_left
    intro s _
    simp only [Function.comp, one_smul]
    rw [smul_comm]
  refine ⟨_, _, hall_eq c I A spin none hI hA, ?_, fun m2 _ m3 _ => C71_scale m2 m3 t ht⟩
  rw [hall_eq c I A spin (some t) hI hA]
  simp only [Option.getD_none, Option.getD_some, List.map_zipWith, one_pow]
  congr 2
  · congr 1
    funext mu wj
    rw [key t, smul_comm]
  · congr 1
    funext mu wj
    rw [key (t ^ 2), smul_comm]

theorem mapM_error {α β : Type} (g : α → Except Err β) (l : List α) (e : Err) (hall : ∀ a ∈ l, ∀ e', g a = .error e' → e' = e)
    (h : ∃ a ∈ l, g a = .error e) : l.mapM g = .error e := by
  induction l with
  | nil => obtain ⟨a, ha, _⟩ := h; simp at ha
  | cons a l ih =>
    rw [List.mapM_cons]
    cases hg : g a with
    | error e' =>
      rw [hall a List.mem_cons_self e' hg]
      rfl
    | ok b =>
      have : l.mapM g = .error e := by
        apply ih (fun x hx => hall x (List.mem_cons_of_mem _ hx))
        obtain ⟨x, hx, hxe⟩ := h
        rw [List.mem_cons] at hx
        rcases hx with rfl | hx
        · rw [hg] at hxe; cases hxe
        · exact ⟨x, hx, hxe⟩
      rw [this]
      rfl

theorem bcast3_err (l : List ℝ) (h1 : l.length ≠ 1) (h3 : l.length ≠ 3) : bcast3 l = .error .valueError := by
  match l, h1, h3 with
  | [], _, _ => rfl
  | [_], h, _ => simp at h
  | [_, _], _, _ => rfl
  | [_, _, _], _, h => simp at h
  | _ :: _ :: _ :: _ :: _, _, _ => rfl

theorem bcast3_val (l : List ℝ) (e : Err) (h : bcast3 l = .error e) : e = .valueError := by
  unfold bcast3 at h
  split at h
  · cases h
  · cases h
  · exact (Except.error.inj h).symm

/-- C71.  `conductivity_hall_tensor` with a scattering time that is a function of the sample points raises `ValueError` as soon as
some surface has a number of samples other than 1 or 3: the array of times is not aligned with the samples. -/
theorem C71_callable (c : Const) (I : KInt) (A : Matrix (Fin 3) (Fin 3) ℝ) (spin : ℝ) (f : (Fin 3 → ℝ) → ℝ) (hI : I.A.det ≠ 0) (hA : A.det ≠ 0)
    (hlen : I.e.length = I.smp.length) (h : ∃ l ∈ I.smp, l.length ≠ 1 ∧ l.length ≠ 3) :
    hallTensorFn c I A spin f = .error .valueError := by
  have h2 : (A * I.A⁻¹)ᵀ.det ≠ 0 := by
    rw [det_transpose, det_mul, det_nonsing_inv]
    exact mul_ne_zero hA (by simpa using hI)
  have hz : List.zipWith (fun (_ : ℝ) l => l) I.e I.smp = I.smp := by
    apply List.ext_getElem
    · simp [hlen]
    · intro i h1 h2; simp
  obtain ⟨l, hl, hl1, hl3⟩ := h
  simp only [hallTensorFn, inv_ok hI, inv_ok h2, bind, Except.bind]
  have : integrateE I (fun l => (bcast3 (l.map fun s => f (physical c (A * I.A⁻¹) s).k)).bind fun t =>
      (.ok (surfSum (fun s a b y => hallTerm (physical c (A * I.A⁻¹) s).v (physical c (A * I.A⁻¹) s).h a b y * t y ^ 2) l) : Except Err (Fin 3 → Fin 3 → Fin 3 → ℝ))) = .error .valueError := by
    unfold integrateE
    rw [hz, mapM_error _ I.smp .valueError]
    · rfl
    · intro a _ e' he
      cases hb : bcast3 (a.map fun s => f (physical c (A * I.A⁻¹) s).k) with
      | error e2 =>
        rw [hb] at he
        simp only [Except.bind, Except.error.injEq] at he
        rw [← he]
        exact bcast3_val _ _ hb
      | ok t => rw [hb] at he; cases he
    · exact ⟨l, hl, by rw [bcast3_err _ (by simpa using hl1) (by simpa using hl3)]; rfl⟩
  simp only [Except.bind] at this
  rw [this]

/-- C71.  With one surface of exactly three samples nothing is raised and component `y` of the conductivity is multiplied with the
scattering time of sample number `y` instead of the one of the summed sample. -/
theorem C71_three (c : Const) (A : Matrix (Fin 3) (Fin 3) ℝ) (spin e mu w : ℝ) (s : Fin 3 → Sample) (f : (Fin 3 → ℝ) → ℝ) (hA : A.det ≠ 0) :
    ∃ r3 m, hallTensorFn c ⟨[e], [[s 0, s 1, s 2]], [mu], [[w]], 1⟩ A spin f = .ok ([m], r3) ∧
      ∀ x y, m x y = 1 / ((1e-10 : ℝ) • A).det * c.q ^ 2 / c.q * spin * w *
        ∑ n, (s n).w * ((physical c A (s n)).v x * (physical c A (s n)).v y) * f (physical c A (s y)).k := by
  have h1 : (1 : Matrix (Fin 3) (Fin 3) ℝ).det ≠ 0 := by simp
  have h2 : (A * (1 : Matrix (Fin 3) (Fin 3) ℝ)⁻¹)ᵀ.det ≠ 0 := by
    rw [inv_one, Matrix.mul_one, det_transpose]; exact hA
  obtain ⟨r, hr⟩ : ∃ r, hallTensorFn c ⟨[e], [[s 0, s 1, s 2]], [mu], [[w]], 1⟩ A spin f = r := ⟨_, rfl⟩
  have hr' := hr
  simp only [hallTensorFn, inv_ok h1, inv_ok h2, bind, Except.bind, integrateE, List.zipWith_cons_cons, List.zipWith_nil_left, List.map_cons, List.map_nil,
      List.mapM_cons, List.mapM_nil, bcast3, pure, Except.pure] at hr'
  refine ⟨_, _, hr.trans hr'.symm, ?_⟩
  · intro x y
    simp only [moment, pow_zero, mul_one, add_zero, surfSum, List.map_cons, List.map_nil, List.sum_cons, List.sum_nil, inv_one, Matrix.mul_one,
      Matrix.smul_apply, Matrix.add_apply, smul_eq_mul, outer, of_apply, Fin.sum_univ_three]
    fin_cases y <;> simp <;> ring

example : (physical ⟨1, 1⟩ (1 : Matrix (Fin 3) (Fin 3) ℝ) ⟨0, ![1, 0, 0], 1, 1⟩).h = (1e-10 / (2 * Real.pi)) ^ 2 • (1 : Matrix (Fin 3) (Fin 3) ℝ) := by
  simp only [physical, gradTransform, one_smul, transpose_smul, transpose_one, Matrix.mul_one, smul_mul_smul_comm]
  congr 1
  ring

example : ∃ l ∈ exInt.smp, l.length ≠ 1 ∧ l.length ≠ 3 := ⟨_, List.mem_singleton.2 rfl, by simp⟩

/-- **C71.** The velocity and the hessian the Hall integrand receives fit together in physical units: on a band with constant
hessian (`v₂ - v₁ = h (k₂ - k₁)` in crystal coordinates) the velocity changes by `hbar` times the hessian times the change of the
wave vector (in 1/m, the lattice is given in Å). -/
theorem C71_units (c : Const) (A' : Matrix (Fin 3) (Fin 3) ℝ) (hA : A'.det ≠ 0) (hb : c.hbar ≠ 0) (s₁ s₂ : Sample)
    (hh : s₁.v + s₁.h *ᵥ (s₂.k - s₁.k) = s₂.v) :
    (physical c A' s₂).v - (physical c A' s₁).v =
      c.hbar • ((physical c A' s₁).h *ᵥ ((1e10 : ℝ) • ((physical c A' s₂).k - (physical c A' s₁).k))) := by
  have hT : A'ᵀ * A'ᵀ⁻¹ = 1 := mul_nonsing_inv _ (isUnit_iff_ne_zero.2 (by rwa [det_transpose]))
  have hv : s₂.v - s₁.v = s₁.h *ᵥ (s₂.k - s₁.k) := by rw [← hh]; abel
  have hpi : (2 * Real.pi) ≠ 0 := mul_ne_zero two_ne_zero Real.pi_ne_zero
  simp only [physical]
  rw [← mulVec_sub, ← mulVec_sub, hv]
  simp only [mulVec_mulVec, ← smul_mulVec, mulVec_smul, smul_smul]
  have key : (c.q • gradTransform c A') * s₁.h * (gradTransform c A')ᵀ * ((1e10 * (2 * Real.pi)) • A'ᵀ⁻¹) =
      (1 / c.hbar) • ((c.q • gradTransform c A') * s₁.h) := by
    rw [Matrix.mul_assoc _ (gradTransform c A')ᵀ]
    have : (gradTransform c A')ᵀ * ((1e10 * (2 * Real.pi)) • A'ᵀ⁻¹) = (1 / c.hbar) • (1 : Matrix (Fin 3) (Fin 3) ℝ) := by
      rw [gradTransform, transpose_smul, smul_mul_smul_comm, hT]
      congr 1
      field_simp
      norm_num
    rw [this, Matrix.mul_smul, Matrix.mul_one]
  rw [key, smul_smul, mul_one_div_cancel hb, one_smul]

/-- A quadratic band in a skew lattice. -/
example : ∃ (c : Const) (A' : Matrix (Fin 3) (Fin 3) ℝ) (s₁ s₂ : Sample), A'.det ≠ 0 ∧ c.hbar ≠ 0 ∧ s₁.k ≠ s₂.k ∧
    s₁.v + s₁.h *ᵥ (s₂.k - s₁.k) = s₂.v := by
  refine ⟨⟨1, 1⟩, !![1, 1, 0; 0, 1, 0; 0, 0, 2], ⟨0, 0, !![2, 1, 0; 1, 3, 0; 0, 0, 1], 1⟩, ⟨![1, 0, 0], ![2, 1, 0], 0, 1⟩, ?_,
    one_ne_zero, ?_, ?_⟩
  · rw [det_fin_three]; simp
  · intro h; simpa using congrFun h 0
  · ext i; fin_cases i <;> simp [mulVec, dotProduct, Fin.sum_univ_three]

end TB.Bulk

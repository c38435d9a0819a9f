import Verif.Props.OptimizeCg
import Verif.Props.TbModel

/-!
# Lemmas for the whole of `optimize_cg`
-/

set_option linter.unusedSectionVars false

namespace TB.Opt
open Matrix TB
open scoped ComplexOrder

variable {K P n B d : ℕ}

/-! ## eigenvalues and basis changes -/

theorem geigh_le {H S V W : CMat n} {e f : Fin n → ℝ} (h : TB.Spec.IsGeigh H S e V) (g : TB.Spec.IsGeigh H S f W) (i : Fin n) : e i ≤ f i := by
  refine SE.minmax h (SE.det_of_norm g.norm) i (f i) fun a ha => ?_
  rw [g.diag, g.norm, SE.star_dot_diag, ← diagonal_one]
  have h1 := SE.star_dot_diag (fun _ => (1 : ℝ)) a
  rw [show (diagonal fun _ => ((1 : ℝ) : ℂ) : CMat n) = diagonal fun _ => 1 by simp] at h1
  rw [h1, Finset.mul_sum]
  refine Finset.sum_le_sum fun j _ => ?_
  by_cases hj : i < j
  · simp [ha j hj]
  · rw [one_mul]
    exact mul_le_mul_of_nonneg_right (g.mono (not_lt.1 hj)) (sq_nonneg _)

/-- The sorted eigenvalues are determined by the matrices. -/
theorem geigh_unique {H S V W : CMat n} {e f : Fin n → ℝ} (h : TB.Spec.IsGeigh H S e V) (g : TB.Spec.IsGeigh H S f W) : e = f :=
  funext fun i => le_antisymm (geigh_le h g i) (geigh_le g h i)

theorem geigh_congr {H S V M : CMat n} {e : Fin n → ℝ} (h : TB.Spec.IsGeigh H S e V) (hM : IsUnit M.det) :
    TB.Spec.IsGeigh (Mᴴ * H * M) (Mᴴ * S * M) e (M⁻¹ * V) := by
  have h1 : ∀ X : CMat n, rot (M⁻¹ * V) (Mᴴ * X * M) = rot V X := by
    intro X
    have h2 : M * (M⁻¹ * V) = V := by rw [← Matrix.mul_assoc, mul_nonsing_inv _ hM, Matrix.one_mul]
    calc rot (M⁻¹ * V) (Mᴴ * X * M) = (M * (M⁻¹ * V))ᴴ * X * (M * (M⁻¹ * V)) := by
          simp only [rot, conjTranspose_mul, Matrix.mul_assoc]
      _ = rot V X := by rw [h2]; rfl
  exact ⟨by rw [h1, h.norm], by rw [h1, h.diag], h.mono⟩

/-! ## `normalize` -/

theorem conj_conj (s : Series d n) (L V : CMat n) : (s.conj L).conj V = s.conj (L * V) := by
  simp only [Series.conj, List.map_map]
  congr 1
  refine List.map_congr_left fun x _ => ?_
  simp [conjTranspose_mul, Matrix.mul_assoc]

theorem normalize_shape (eigh : CMat n → (Fin n → ℝ) × CMat n) (heigh : TB.Spec.IsEigh eigh) (sorting : CMat n → Equiv.Perm (Fin n))
    (H0 S0 : CMat n) (hrest srest : List (RVec d × CMat n)) (hH0 : H0.IsHermitian) (hS0 : S0.IsHermitian)
    (hpos : (TB.Spec.value S0 srest 0).PosDef) :
    ∃ M : CMat n, (⟨⟨(0, H0) :: hrest⟩, ⟨(0, S0) :: srest⟩⟩ : Tb d n).normalize eigh sorting =
        .ok ⟨(⟨(0, H0) :: hrest⟩ : Series d n).conj M, (⟨(0, S0) :: srest⟩ : Series d n).conj M⟩ ∧ IsUnit M.det ∧
      ((⟨(0, S0) :: srest⟩ : Series d n).conj M).f 0 = .ok 1 ∧
      ∃ D : CMat n, ((⟨(0, H0) :: hrest⟩ : Series d n).conj M).f 0 = .ok D ∧ IsDiag D := by
  obtain ⟨t', M', h1, -, -, h2, h3⟩ := C29_normalize eigh heigh sorting (⟨⟨(0, H0) :: hrest⟩, ⟨(0, S0) :: srest⟩⟩ : Tb d n) H0 S0 hrest srest
    rfl rfl hH0 hS0 (by intro M hM; rw [f_eq] at hM; cases hM; exact hpos)
  have h4 : ∃ M : CMat n, (⟨⟨(0, H0) :: hrest⟩, ⟨(0, S0) :: srest⟩⟩ : Tb d n).normalize eigh sorting =
        .ok ⟨(⟨(0, H0) :: hrest⟩ : Series d n).conj M, (⟨(0, S0) :: srest⟩ : Series d n).conj M⟩ := by
    unfold Tb.normalize
    rw [herm0_eq _ H0 hrest rfl hH0]; simp only [bind, Except.bind]
    rw [herm0_eq _ S0 srest rfl hS0]; simp only
    rw [f_eq]; simp only
    rw [conj_f, f_eq]
    simp only [Except.map, pure, Except.pure]
    exact ⟨_, congrArg Except.ok (congrArg₂ Tb.mk (conj_conj _ _ _) (conj_conj _ _ _))⟩
  obtain ⟨M, h5⟩ := h4
  rw [h5] at h1
  cases h1
  refine ⟨M, h5, ?_, h2, h3⟩
  rw [conj_f, f_eq] at h2
  simp only [Except.map, Except.ok.injEq] at h2
  have h6 := congrArg det h2
  rw [det_mul, det_one] at h6
  exact IsUnit.of_mul_eq_one_right _ h6

/-! ## the coefficients -/

/-- The array expression of the loop is the Hamiltonian of the model with the array as coefficients. -/
theorem fmat_coef (ks : Fin K → RVec d) (H0 : CMat n) (rest : List (RVec d × CMat n)) (x : Par (rest.length + 1) n) (hx : (x 0).IsHermitian)
    (k : Fin K) : fmat (coef ks ((0, H0) :: rest)) x k = valueAt (setArr ((0, H0) :: rest) x) (ks k) := by
  have h1 : (setArr ((0, H0) :: rest) x).terms = (0, x 0) :: List.ofFn fun p : Fin rest.length => (rest[p].1, x p.succ) := by
    simp only [setArr, List.length_cons, List.ofFn_succ]
    rfl
  rw [valueAt, Series.f, h1]
  rw [hsum_cons, List.map_ofFn, List.sum_ofFn, fi_zero, one_smul]
  simp only [fmat]
  change (∑ p : Fin (rest.length + 1), coef ks ((0, H0) :: rest) k p • x p) + (∑ p : Fin (rest.length + 1), coef ks ((0, H0) :: rest) k p • x p)ᴴ = _
  rw [Fin.sum_univ_succ]
  have h2 : coef ks ((0, H0) :: rest) k (0 : Fin (rest.length + 1)) = 1 / 2 := by
    simp only [coef]
    change (if ((0 : Fin (rest.length + 1)) : ℕ) = 0 then TB.fi (ks k) (0 : RVec d) / 2 else _) = _
    rw [if_pos (Fin.val_zero _), fi_zero]
  have h3 : ∀ p : Fin rest.length, coef ks ((0, H0) :: rest) k p.succ = TB.fi (ks k) rest[p].1 := by
    intro p
    simp only [coef]
    rw [if_neg (by simp)]
    rfl
  simp only [h3]
  erw [h2]
  rw [conjTranspose_add, conjTranspose_smul, hx.eq, conjTranspose_sum]
  simp only [Function.comp]
  rw [Finset.sum_add_distrib]
  have h4 : (1 / 2 : ℂ) • x 0 + star (1 / 2 : ℂ) • x 0 = x 0 := by
    rw [← add_smul]
    norm_num
  conv_rhs => rw [← h4]
  abel

theorem setArr_cons (r : RVec d) (H0 : CMat n) (rest : List (RVec d × CMat n)) (x : Par (rest.length + 1) n) :
    setArr ((r, H0) :: rest) x = ⟨(r, x 0) :: List.ofFn fun p : Fin rest.length => (rest[p].1, x p.succ)⟩ := by
  simp only [setArr, List.length_cons, List.ofFn_succ]
  rfl

theorem setArr_arr (terms : List (RVec d × CMat n)) : setArr terms (arr terms) = ⟨terms⟩ := by
  simp only [setArr, arr]
  congr 1
  exact List.ofFn_getElem

theorem run_inv {geigh : CMat n → CMat n → (Fin n → ℝ) × CMat n} (c : Fit K P n B) (post : Par P n → Par P n) (Q : Par P n → Prop)
    (hQ : ∀ x, Q x → Q (c.next geigh post x)) : ∀ m last x, Q x → Q (c.run geigh post m last x) := by
  intro m
  induction m with
  | zero => intro _ x hx; exact hx
  | succ m ih =>
    intro last x hx
    rw [Fit.run]
    split
    · exact hx
    · exact ih _ _ (hQ x hx)

theorem herm0_herm (x : Par (P + 1) n) : (herm0 x 0).IsHermitian := by
  simp only [herm0, Fin.val_zero, if_true]
  rw [IsHermitian, conjTranspose_smul, conjTranspose_add, conjTranspose_conjTranspose, add_comm]
  simp

/-! ## the preconditioner -/

/-- Contract of `np.linalg.pinv` on hermitian matrices (two of the equations of Moore and Penrose). -/
def Spec.PinvOk (pinv : ∀ P, Matrix (Fin P) (Fin P) ℂ → Matrix (Fin P) (Fin P) ℂ) : Prop :=
  ∀ P (A : Matrix (Fin P) (Fin P) ℂ), A.IsHermitian → A * pinv P A * A = A ∧ pinv P A * A * pinv P A = pinv P A

/-- Contract of `np.linalg.cholesky`: `LinAlgError` exactly if the matrix is not positive definite. -/
def Spec.CholOk (chol : ∀ P, Matrix (Fin P) (Fin P) ℂ → Except Err (Matrix (Fin P) (Fin P) ℂ)) : Prop :=
  ∀ P (A : Matrix (Fin P) (Fin P) ℂ), (A.PosDef → ∃ L, chol P A = .ok L ∧ L * Lᴴ = A) ∧ (¬ A.PosDef → chol P A = .error .valueError)

theorem exists_pinv : ∃ pinv, Spec.PinvOk pinv := by
  classical
  obtain ⟨eigh, he⟩ : ∃ eigh : ∀ P, CMat P → (Fin P → ℝ) × CMat P, ∀ P, TB.Spec.IsEigh (eigh P) :=
    ⟨fun P => Classical.choose (exists_eigh (n := P)), fun P => Classical.choose_spec (exists_eigh (n := P))⟩
  refine ⟨fun P A => (eigh P A).2 * diagonal (fun i => (((eigh P A).1 i : ℂ))⁻¹) * (eigh P A).2ᴴ, ?_⟩
  intro P A hA
  obtain ⟨hu, hd⟩ := he P A hA
  set U := (eigh P A).2
  set la := (eigh P A).1
  have key : ∀ a b c : Fin P → ℂ, (U * diagonal a * Uᴴ) * (U * diagonal b * Uᴴ) * (U * diagonal c * Uᴴ) =
      U * diagonal (fun i => a i * b i * c i) * Uᴴ := by
    intro a b c
    calc (U * diagonal a * Uᴴ) * (U * diagonal b * Uᴴ) * (U * diagonal c * Uᴴ)
        = U * diagonal a * (Uᴴ * U) * diagonal b * (Uᴴ * U) * diagonal c * Uᴴ := by simp only [Matrix.mul_assoc]
      _ = U * (diagonal a * diagonal b * diagonal c) * Uᴴ := by rw [hu]; simp only [Matrix.mul_one, Matrix.mul_assoc]
      _ = _ := by rw [diagonal_mul_diagonal, diagonal_mul_diagonal]
  have h1 : ∀ z : ℂ, z * z⁻¹ * z = z ∧ z⁻¹ * z * z⁻¹ = z⁻¹ := by
    intro z
    by_cases hz : z = 0
    · simp [hz]
    · exact ⟨by field_simp, by field_simp⟩
  have h2 : ∀ X Y : CMat P, X = Y → ∀ Z, Z * X * Z = Z * Y * Z ∧ X * Z * X = Y * Z * Y := by rintro X Y rfl Z; exact ⟨rfl, rfl⟩
  constructor
  · refine (h2 A _ hd _).2.trans ((key _ _ _).trans ?_)
    exact (congrArg (fun f => U * diagonal f * Uᴴ) (funext fun i => (h1 (la i : ℂ)).1)).trans hd.symm
  · refine (h2 A _ hd _).1.trans ((key _ _ _).trans ?_)
    exact congrArg (fun f => U * diagonal f * Uᴴ) (funext fun i => (h1 (la i : ℂ)).2)

theorem exists_chol : ∃ chol, Spec.CholOk chol := by
  classical
  have h : ∀ P (A : Matrix (Fin P) (Fin P) ℂ), A.PosDef → ∃ L, L * Lᴴ = A := by
    intro P A hA
    obtain ⟨eigh, he⟩ := exists_eigh (n := P)
    obtain ⟨hu, hd⟩ := he A hA.1
    set U := (eigh A).2
    set la := (eigh A).1
    have h1 : Uᴴ * A * U = diagonal fun i => (la i : ℂ) := by
      rw [hd]
      calc Uᴴ * (U * diagonal (fun i => (la i : ℂ)) * Uᴴ) * U
          = (Uᴴ * U) * diagonal (fun i => (la i : ℂ)) * (Uᴴ * U) := by simp only [Matrix.mul_assoc]
        _ = _ := by rw [hu, Matrix.one_mul, Matrix.mul_one]
    have hpos : ∀ i, 0 ≤ la i := by
      intro i
      have h2 := (hA.posSemidef.conjTranspose_mul_mul_same U).diag_nonneg (i := i)
      rw [h1, diagonal_apply_eq] at h2
      exact_mod_cast h2
    refine ⟨U * diagonal fun i => ((Real.sqrt (la i) : ℝ) : ℂ), ?_⟩
    rw [conjTranspose_mul, diagonal_conjTranspose]
    calc U * diagonal (fun i => ((Real.sqrt (la i) : ℝ) : ℂ)) * (diagonal (star fun i => ((Real.sqrt (la i) : ℝ) : ℂ)) * Uᴴ)
        = U * (diagonal (fun i => ((Real.sqrt (la i) : ℝ) : ℂ)) * diagonal (star fun i => ((Real.sqrt (la i) : ℝ) : ℂ))) * Uᴴ := by
          simp only [Matrix.mul_assoc]
      _ = U * diagonal (fun i => (la i : ℂ)) * Uᴴ := by
          rw [diagonal_mul_diagonal]
          congr 3
          funext i
          rw [Pi.star_apply, Complex.star_def, Complex.conj_ofReal, ← Complex.ofReal_mul, Real.mul_self_sqrt (hpos i)]
      _ = A := hd.symm
  refine ⟨fun P A => if hA : A.PosDef then .ok (Classical.choose (h P A hA)) else .error .valueError, fun P A => ⟨fun hA => ?_, fun hA => ?_⟩⟩
  · exact ⟨_, dif_pos hA, Classical.choose_spec (h P A hA)⟩
  · exact dif_neg hA

/-- The contracts of all routines. -/
structure Spec.LibOk (lib : Lib n) : Prop where
  eigh : TB.Spec.IsEigh lib.eigh
  geigh : Spec.GeighOk lib.geigh
  pinv : Spec.PinvOk lib.pinv
  chol : Spec.CholOk lib.chol

theorem exists_lib (n : ℕ) : ∃ lib : Lib n, Spec.LibOk lib := by
  obtain ⟨eigh, h1⟩ := exists_eigh (n := n)
  obtain ⟨geigh, h2⟩ := exists_geighOk n
  obtain ⟨pinv, h3⟩ := exists_pinv
  obtain ⟨chol, h4⟩ := exists_chol
  exact ⟨⟨eigh, fun _ => 1, geigh, pinv, chol⟩, h1, h2, h3, h4⟩

theorem gram_posDef (F : Fin K → Fin P → ℂ) (h : ∀ y, Matrix.of F *ᵥ y = 0 → y = 0) : ((Matrix.of F)ᴴ * Matrix.of F).PosDef := by
  refine Matrix.PosDef.conjTranspose_mul_self _ ?_
  intro x y hxy
  have := h (x - y) (by rw [mulVec_sub]; exact sub_eq_zero.2 hxy)
  exact sub_eq_zero.1 this

theorem mkE_ok {lib : Lib n} (hl : Spec.LibOk lib) (hK : K ≠ 0) (F : Fin K → Fin P → ℂ) (h : ∀ y, Matrix.of F *ᵥ y = 0 → y = 0) :
    ∃ E, mkE (lib.pinv P) (lib.chol P) true F = .ok E ∧ IsUnit E.det ∧ E * Eᴴ = (K : ℂ) • ((Matrix.of F)ᴴ * Matrix.of F)⁻¹ := by
  have hp := gram_posDef F h
  set G := (Matrix.of F)ᴴ * Matrix.of F with hG
  have hu : IsUnit G.det := by
    rw [isUnit_iff_ne_zero]; exact hp.det_pos.ne'
  have h1 : lib.pinv P G = G⁻¹ := by
    have h2 := (hl.pinv P G hp.1).1
    calc lib.pinv P G = G⁻¹ * (G * lib.pinv P G * G) * G⁻¹ := by
          rw [Matrix.mul_assoc, Matrix.mul_assoc, mul_nonsing_inv _ hu, Matrix.mul_one, ← Matrix.mul_assoc, nonsing_inv_mul _ hu, Matrix.one_mul]
      _ = G⁻¹ := by rw [h2, nonsing_inv_mul _ hu, Matrix.one_mul]
  obtain ⟨L, h3, h4⟩ := (hl.chol P G⁻¹).1 hp.inv
  refine ⟨((Real.sqrt K : ℝ) : ℂ) • L, ?_, ?_, ?_⟩
  · rw [mkE, if_pos rfl, ← hG, h1, h3]; rfl
  · have h5 := congrArg det h4
    rw [det_mul] at h5
    have h6 : IsUnit L.det := by
      have : IsUnit (L.det * Lᴴ.det) := by rw [h5]; exact (isUnit_nonsing_inv_det_iff).2 hu
      exact isUnit_of_mul_isUnit_left this
    rw [det_smul]
    refine IsUnit.mul (IsUnit.pow _ (isUnit_iff_ne_zero.2 ?_)) h6
    have : Real.sqrt K ≠ 0 := (Real.sqrt_pos.2 (by exact_mod_cast Nat.pos_of_ne_zero hK)).ne'
    exact_mod_cast this
  · rw [conjTranspose_smul, smul_mul_smul_comm, h4, Complex.star_def, Complex.conj_ofReal, ← Complex.ofReal_mul,
      Real.mul_self_sqrt (Nat.cast_nonneg K)]
    simp

theorem mkE_err {lib : Lib n} (hl : Spec.LibOk lib) (F : Fin K → Fin P → ℂ) (h : ∃ y, Matrix.of F *ᵥ y = 0 ∧ y ≠ 0) :
    mkE (lib.pinv P) (lib.chol P) true F = .error .valueError := by
  obtain ⟨y, hy, hy0⟩ := h
  set G := (Matrix.of F)ᴴ * Matrix.of F with hG
  have hGh : G.IsHermitian := isHermitian_conjTranspose_mul_self _
  have hGy : G *ᵥ y = 0 := by rw [hG, ← mulVec_mulVec, hy, mulVec_zero]
  rw [mkE, if_pos rfl, ← hG, (hl.chol P _).2]
  · rfl
  · intro hp
    have hu : IsUnit (lib.pinv P G).det := by rw [isUnit_iff_ne_zero]; exact hp.det_pos.ne'
    have h1 := (hl.pinv P G hGh).2
    have h2 : lib.pinv P G * G = 1 := by
      calc lib.pinv P G * G = lib.pinv P G * G * lib.pinv P G * (lib.pinv P G)⁻¹ := by
            rw [Matrix.mul_assoc, mul_nonsing_inv _ hu, Matrix.mul_one]
        _ = 1 := by rw [h1, mul_nonsing_inv _ hu]
    refine hy0 ?_
    calc y = (lib.pinv P G * G) *ᵥ y := by rw [h2, one_mulVec]
      _ = 0 := by rw [← mulVec_mulVec, hGy, mulVec_zero]

/-- The plane waves of the neighbours are linearly independent on the k samples. -/
def Spec.Indep (ks : Fin K → RVec d) (nbrs : List (RVec d)) : Prop :=
  ∀ x : ℕ → ℂ, (∀ k, ∑ p ∈ Finset.range nbrs.length, Complex.exp (2 * Real.pi * Complex.I * ((ks k ⬝ᵥ nbrs.getD p 0 : ℝ) : ℂ)) * x p = 0) →
    ∀ p < nbrs.length, x p = 0

theorem indep_coef (ks : Fin K → RVec d) (terms : List (RVec d × CMat n)) :
    Spec.Indep ks (terms.map Prod.fst) ↔ ∀ y, Matrix.of (coef ks terms) *ᵥ y = 0 → y = 0 := by
  have h1 : ∀ (k : Fin K) (x : ℕ → ℂ), (∑ p ∈ Finset.range (terms.map Prod.fst).length,
      Complex.exp (2 * Real.pi * Complex.I * ((ks k ⬝ᵥ (terms.map Prod.fst).getD p 0 : ℝ) : ℂ)) * x p) =
      ∑ p : Fin terms.length, coef ks terms k p * (if (p : ℕ) = 0 then 2 * x p else x p) := by
    intro k x
    rw [List.length_map, Finset.sum_range]
    refine Finset.sum_congr rfl fun p _ => ?_
    have h2 : (terms.map Prod.fst).getD p 0 = terms[p].1 := by
      simp [List.getD]
    rw [h2, coef, TB.fi]
    split <;> ring
  constructor
  · intro h y hy
    funext p
    have h3 := h (fun q => if hq : q < terms.length then (if q = 0 then y ⟨q, hq⟩ / 2 else y ⟨q, hq⟩) else 0) (by
      intro k
      rw [h1]
      have := congrFun hy k
      rw [mulVec, dotProduct] at this
      rw [Pi.zero_apply] at this
      rw [← this]
      refine Finset.sum_congr rfl fun q _ => ?_
      simp only [q.2, dif_pos, of_apply]
      split
      · ring
      · rfl) p (by simp)
    simp only [p.2, dif_pos] at h3
    split at h3
    · have := (div_eq_zero_iff.1 h3).resolve_right (by norm_num)
      exact this
    · exact h3
  · intro h x hx p hp
    rw [List.length_map] at hp
    have h3 := congrFun (h (fun q => if (q : ℕ) = 0 then 2 * x q else x q) (by
      funext k
      rw [Pi.zero_apply, ← hx k, h1]
      rfl)) ⟨p, hp⟩
    simp only [Pi.zero_apply] at h3
    split at h3
    · simpa using h3
    · exact h3

theorem not_indep (ks : Fin K → RVec d) (nbrs : List (RVec d)) (h : K < nbrs.length) : ¬ Spec.Indep ks nbrs := by
  intro hi
  let f : (Fin nbrs.length → ℂ) →ₗ[ℂ] (Fin K → ℂ) :=
    Matrix.mulVecLin (Matrix.of fun k (p : Fin nbrs.length) => Complex.exp (2 * Real.pi * Complex.I * ((ks k ⬝ᵥ nbrs.getD p 0 : ℝ) : ℂ)))
  have h1 : LinearMap.ker f ≠ ⊥ := LinearMap.ker_ne_bot_of_finrank_lt (by simpa using h)
  obtain ⟨y, hy, hy0⟩ := (Submodule.ne_bot_iff _).1 h1
  refine hy0 (funext fun p => ?_)
  have h2 := hi (fun q => if hq : q < nbrs.length then y ⟨q, hq⟩ else 0) (by
    intro k
    have h3 := congrFun (LinearMap.mem_ker.1 hy) k
    rw [Finset.sum_range]
    simp only [Fin.is_lt, dif_pos]
    exact h3) p p.2
  simpa using h2

/-! ## the call -/

theorem valueAt_conj (s : Series d n) (M : CMat n) (k : RVec d) : valueAt (s.conj M) k = Mᴴ * valueAt s k * M := by
  rw [valueAt, valueAt, conj_f]
  cases h : s.f k with
  | ok X => rfl
  | error e => simp [Except.map]

theorem valueAt_eq {s : Series d n} {k : RVec d} {X : CMat n} (h : s.f k = .ok X) : valueAt s k = X := by rw [valueAt, h]

theorem conj_herm {X : CMat n} (h : X.IsHermitian) (M : CMat n) : (Mᴴ * X * M).IsHermitian := isHermitian_conjTranspose_mul_mul M h

theorem conj_posDef {X M : CMat n} (h : X.PosDef) (hM : IsUnit M.det) : (Mᴴ * X * M).PosDef :=
  h.conjTranspose_mul_mul_same (mulVec_injective_of_isUnit ((isUnit_iff_isUnit_det _).2 hM))

theorem value_herm {H0 : CMat n} (h : H0.IsHermitian) (rest : List (RVec d × CMat n)) (k : RVec d) : (TB.Spec.value H0 rest k).IsHermitian :=
  h.add (herm_sum (fi k) rest)

/-- The arguments of a call that do not depend on the model. -/
structure Args (K B d : ℕ) where
  ks : Fin K → RVec d
  ref : Fin K → Fin B → ℝ
  bw : Fin B → ℝ
  off : ℤ
  iterations : ℕ
  keepZeros : Bool
  precond : Bool
  conv : ℝ
  thr : ℝ
  maxCg : ℤ

/-- `t.optimize_cg(...)` with these arguments. -/
noncomputable def Args.call (a : Args K B d) (lib : Lib n) (t : Tb d n) : Except Err (Tb d n) :=
  optimizeCg lib t a.ks a.ref a.bw a.off a.iterations a.keepZeros a.precond a.conv a.thr a.maxCg

theorem opt_form {lib : Lib n} (hl : Spec.LibOk lib) (a : Args K B d) (H0 S0 : CMat n) (hrest srest : List (RVec d × CMat n))
    (hH0 : H0.IsHermitian) (hS0 : S0.IsHermitian) (hpos : (TB.Spec.value S0 srest 0).PosDef) (hK : K ≠ 0)
    (hoff : 0 ≤ a.off ∧ a.off ≤ (n : ℤ) - B) (hpre : a.precond = true → Spec.Indep a.ks (0 :: hrest.map Prod.fst)) :
    ∃ (M M2 : CMat n) (E : _) (x : Par ((hrest.map fun y => (y.1, Mᴴ * y.2 * M)).length + 1) n),
      IsUnit M.det ∧ IsUnit M2.det ∧ IsUnit E.det ∧ (x 0).IsHermitian ∧
      x = Fit.run lib.geigh (⟨coef a.ks ((0, Mᴴ * H0 * M) :: hrest.map fun y => (y.1, Mᴴ * y.2 * M)), E,
          fun k => Mᴴ * TB.Spec.value S0 srest (a.ks k) * M, a.ref, a.bw, fun b => ⟨a.off.toNat + b, by omega⟩, a.conv, a.thr, a.maxCg⟩ : Fit K _ n B)
        (fun x => if a.keepZeros then mask (H0 :: hrest.map Prod.snd) x else x) a.iterations none
        (arr ((0, Mᴴ * H0 * M) :: hrest.map fun y => (y.1, Mᴴ * y.2 * M))) ∧
      a.call lib ⟨⟨(0, H0) :: hrest⟩, ⟨(0, S0) :: srest⟩⟩ =
        .ok ⟨(setArr ((0, Mᴴ * H0 * M) :: hrest.map fun y => (y.1, Mᴴ * y.2 * M)) x).conj M2, (⟨(0, S0) :: srest⟩ : Series d n).conj (M * M2)⟩ ∧
      ((⟨(0, S0) :: srest⟩ : Series d n).conj M).f 0 = .ok 1 ∧
      (∃ D, ((⟨(0, H0) :: hrest⟩ : Series d n).conj M).f 0 = .ok D ∧ IsDiag D) ∧
      ((⟨(0, S0) :: srest⟩ : Series d n).conj (M * M2)).f 0 = .ok 1 ∧
      ∃ D, ((setArr ((0, Mᴴ * H0 * M) :: hrest.map fun y => (y.1, Mᴴ * y.2 * M)) x).conj M2).f 0 = .ok D ∧ IsDiag D := by
  obtain ⟨M, hM, hMu, hM1, hM2⟩ := normalize_shape lib.eigh hl.eigh lib.sorting H0 S0 hrest srest hH0 hS0 hpos
  set rest1 := hrest.map fun y => (y.1, Mᴴ * y.2 * M) with hrest1
  have hmk : ∀ (terms : List (RVec d × CMat n)), terms.map Prod.fst = 0 :: hrest.map Prod.fst →
      ∃ E, mkE (lib.pinv _) (lib.chol _) a.precond (coef a.ks terms) = .ok E ∧ IsUnit E.det := by
    intro terms ht
    cases hp : a.precond with
    | false => exact ⟨1, by rw [mkE]; rfl, by simp⟩
    | true =>
      have h1 := hpre hp
      rw [← ht] at h1
      obtain ⟨E, h2, h3, -⟩ := mkE_ok hl hK (coef a.ks terms) ((indep_coef a.ks terms).1 h1)
      exact ⟨E, h2, h3⟩
  obtain ⟨E0, hE0, -⟩ := hmk ((0, H0) :: hrest) rfl
  obtain ⟨E, hE, hEu⟩ := hmk ((0, Mᴴ * H0 * M) :: rest1) (by simp [hrest1, Function.comp_def])
  have hval : ∀ k, valueAt ((⟨(0, S0) :: srest⟩ : Series d n).conj M) k = Mᴴ * TB.Spec.value S0 srest k * M := by
    intro k
    rw [valueAt_conj, valueAt_eq (f_eq _ _ _)]
  set c : Fit K (rest1.length + 1) n B := ⟨coef a.ks ((0, Mᴴ * H0 * M) :: rest1), E,
    fun k => Mᴴ * TB.Spec.value S0 srest (a.ks k) * M, a.ref, a.bw, fun b => ⟨a.off.toNat + b, by omega⟩, a.conv, a.thr, a.maxCg⟩ with hc
  set post := fun x : Par (rest1.length + 1) n => if a.keepZeros then mask (H0 :: hrest.map Prod.snd) x else x with hpost
  set x := Fit.run lib.geigh c post a.iterations none (arr ((0, Mᴴ * H0 * M) :: rest1)) with hx
  have hx0 : (x 0).IsHermitian := by
    refine run_inv c post (fun y : Par (rest1.length + 1) n => (y 0).IsHermitian) ?_ a.iterations none _ ?_
    · intro y _
      exact herm0_herm _
    · exact conj_herm hH0 M
  obtain ⟨srest', hsrest⟩ : ∃ srest', ((⟨(0, S0) :: srest⟩ : Series d n).conj M) = ⟨(0, Mᴴ * S0 * M) :: srest'⟩ := ⟨_, rfl⟩
  have hset : setArr ((0, Mᴴ * H0 * M) :: rest1) x = ⟨(0, x 0) :: List.ofFn fun p : Fin rest1.length => (rest1[p].1, x p.succ)⟩ := by
    simp only [setArr, List.length_cons, List.ofFn_succ]
    rfl
  obtain ⟨M2, hN, hNu, hN1, hN2⟩ := normalize_shape lib.eigh hl.eigh lib.sorting (x 0) (Mᴴ * S0 * M)
    (List.ofFn fun p : Fin rest1.length => (rest1[p].1, x p.succ)) srest' hx0 (conj_herm hS0 M) (by
      rw [hsrest, f_eq] at hM1
      rw [Except.ok.inj hM1]
      exact PosDef.one)
  rw [← hset, ← hsrest] at hN
  rw [← hset] at hN2
  rw [← hsrest, conj_conj] at hN1
  rw [conj_conj] at hN
  refine ⟨M, M2, E, x, hMu, hNu, hEu, hx0, rfl, ?_, hM1, hM2, hN1, hN2⟩
  rw [Args.call, optimizeCg, if_neg (by simp [hK]), dif_pos hoff]
  simp only
  rw [hE0]
  simp only [bind, Except.bind]
  rw [hM]
  simp only
  erw [hE]
  simp only [hval]
  exact hN

end TB.Opt

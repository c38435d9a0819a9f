import Mathlib.Analysis.SpecialFunctions.Complex.Circle
import Verif.Props.HamiltonianSymmetrizer

/-!
# C94: the symmetry of the operator `H(k)`
-/

namespace TB.HS

open Spec Matrix TB.UR

set_option linter.unusedSectionVars false

variable {K : Type} [Field K] [LinearOrder K] [IsStrictOrderedRing K] {d m : ℕ}
variable {F : Type} [Field F] [StarRing F] [DecidableEq F]

theorem dot_inv_transpose {s : Mat K d} (hs : IsUnit s.det) (k x : Fin d → K) :
    ((sᵀ)⁻¹.mulVec k) ⬝ᵥ (s.mulVec x) = k ⬝ᵥ x := by
  rw [Matrix.dotProduct_mulVec, ← Matrix.mulVec_transpose, Matrix.mulVec_mulVec, Matrix.mul_nonsing_inv, Matrix.one_mulVec]
  rwa [Matrix.det_transpose]

/-- The transformation of the series for one operation, from the transformation of its coefficients. -/
theorem series_transform (e : K → F) (he : ∀ x y, e (x + y) = e x * e y) {o : Fin m → Orb K F d} (ns : List (Fin d → K))
    (R : List (BMat o)) (s : Mat K d) (hs : IsUnit s.det) (a b : Fin m) (A : Mat F (o a).N) (B : Mat F (o b).N)
    (hA : IsUnit A.det) (hB : IsUnit B.det)
    (hc : ∀ x, coeff ns R (moved o s a b x) a b = A * coeff ns R x a b * B) (k : Fin d → K) :
    series e ns R ((sᵀ)⁻¹.mulVec k) a b =
      e (k ⬝ᵥ (((o b).pos - (o a).pos) - s⁻¹.mulVec ((o b).pos - (o a).pos))) • (A * series e ns R k a b * B) := by
  have hzero : ∀ x, coeff ns R (moved o s a b x) a b = 0 ↔ coeff ns R x a b = 0 := by
    intro x
    rw [hc]
    constructor
    · intro h0
      have := congrArg (fun M => A⁻¹ * M * B⁻¹) h0
      simp only [Matrix.mul_zero, Matrix.zero_mul] at this
      rw [← this, ← Matrix.mul_assoc, ← Matrix.mul_assoc, Matrix.nonsing_inv_mul _ hA, Matrix.one_mul, Matrix.mul_assoc,
        Matrix.mul_nonsing_inv _ hB, Matrix.mul_one]
    · intro h0
      rw [h0]; simp
  have hsupp : ∀ x, coeff ns R x a b ≠ 0 → x ∈ positions ns := by
    intro x hx
    rw [mem_positions]
    by_contra hf
    exact hx (by rw [coeff_not_found hf]; rfl)
  have hback : ∀ x, moved o s a b (moved o s⁻¹ a b x) = x := by
    intro x; rw [moved_moved, Matrix.mul_nonsing_inv _ hs, moved_one]
  have hforth : ∀ x, moved o s⁻¹ a b (moved o s a b x) = x := by
    intro x; rw [moved_moved, Matrix.nonsing_inv_mul _ hs, moved_one]
  have hterm : ∀ x, e (k ⬝ᵥ (((o b).pos - (o a).pos) - s⁻¹.mulVec ((o b).pos - (o a).pos))) •
      (A * (e (k ⬝ᵥ x) • coeff ns R x a b) * B) =
      e (((sᵀ)⁻¹.mulVec k) ⬝ᵥ moved o s a b x) • coeff ns R (moved o s a b x) a b := by
    intro x
    rw [Matrix.mul_smul, Matrix.smul_mul, hc, smul_smul, ← he, ← dotProduct_add]
    congr 2
    have h5 : moved o s a b x = s.mulVec (x + (((o b).pos - (o a).pos) - s⁻¹.mulVec ((o b).pos - (o a).pos))) := by
      unfold moved
      rw [Matrix.mulVec_add, Matrix.mulVec_add, Matrix.mulVec_sub s _ (s⁻¹.mulVec _), Matrix.mulVec_mulVec, Matrix.mul_nonsing_inv _ hs,
        Matrix.one_mulVec]
      abel
    rw [h5, dot_inv_transpose hs, add_comm x]
  unfold series
  rw [Matrix.mul_sum, Matrix.sum_mul, Finset.smul_sum]
  symm
  refine Finset.sum_bij_ne_zero (fun x _ _ => moved o s a b x) ?_ ?_ ?_ (fun x _ _ => hterm x)
  · intro x _ hx
    refine hsupp _ ?_
    rw [ne_eq, hzero]
    intro h0
    exact hx (by rw [h0]; simp)
  · intro x _ _ y _ _ hxy
    have := congrArg (moved o s⁻¹ a b) hxy
    rwa [hforth, hforth] at this
  · intro y hy hy0
    have hy1 : coeff ns R y a b ≠ 0 := fun h0 => hy0 (by rw [h0, smul_zero])
    have hx1 : coeff ns R (moved o s⁻¹ a b y) a b ≠ 0 := by
      rw [ne_eq, ← hzero, hback]; exact hy1
    refine ⟨moved o s⁻¹ a b y, hsupp _ hx1, ?_, hback y⟩
    rw [hterm, hback]
    exact hy0

theorem isUnit_det_of_unitary {N : ℕ} {A : Mat F N} (h : A * A.conjTranspose = 1) : IsUnit A.det := by
  have := congrArg Matrix.det h
  rw [Matrix.det_mul, Matrix.det_one] at this
  exact IsUnit.of_mul_eq_one _ this

/-- **C94** The operator built from the result of `symmetrize` has, for every operation `S` and every wave vector, the symmetry
`H_ab((Sᵀ)⁻¹ k) = U_a H_ab(k) U_bᴴ exp(2πi k (1 - S⁻¹)(r_b - r_a))`. -/
theorem C94_rotation [CharZero F] (e : K → F) (he : ∀ x y, e (x + y) = e x * e y) (h : HSym K F d) (hv : Valid h)
    (ns : List (Fin d → K)) (hns : HalfList ns) (H R : List (BMat h.orbs.get)) (hr : h.symmetrize H ns = .ok R)
    (q : ℕ) (hq : q < h.sym.S.length) (a b : Fin h.orbs.length) (k : Fin d → K) :
    series e ns R ((h.sym.S[q]ᵀ)⁻¹.mulVec k) a b =
      e (k ⬝ᵥ (((h.orbs.get b).pos - (h.orbs.get a).pos) - h.sym.S[q]⁻¹.mulVec ((h.orbs.get b).pos - (h.orbs.get a).pos))) •
        ((h.orbs.get a).rep.U.getD q 0 * series e ns R k a b * ((h.orbs.get b).rep.U.getD q 0).conjTranspose) := by
  have hne : h.orbs ≠ [] := fun e => by have := a.2; simp [e] at this
  have hS := groupS_of_valid hv hne
  have hg := grp_of_valid hv hS.2 hS.1
  have hm := List.getElem_mem hq
  refine series_transform e he ns R _ (hg.det _ hm) a b _ _ ?_ ?_ (C92_covariant h hv ns hns H R hr q hq a b) k
  · rw [hg.u_eq a q hq]
    exact isUnit_det_of_unitary (hg.u_unitary a _ hm)
  · rw [hg.u_eq b q hq]
    refine isUnit_det_of_unitary ?_
    rw [Matrix.conjTranspose_conjTranspose]
    exact mul_eq_one_comm.1 (hg.u_unitary b _ hm)

/-- **C94** … and for the inversion `H_ab(-k) = ± H_ab(k) exp(2πi k 2 (r_b - r_a))` with the product of the parities. -/
theorem C94_inversion [CharZero F] (e : K → F) (he : ∀ x y, e (x + y) = e x * e y) (h : HSym K F d) (hv : Valid h)
    (hi : h.sym.inversion = true) (ns : List (Fin d → K)) (hns : HalfList ns) (hcl : InvClosed h ns)
    (H R : List (BMat h.orbs.get)) (hr : h.symmetrize H ns = .ok R) (a b : Fin h.orbs.length) (k : Fin d → K) :
    series e ns R (-k) a b = (paritySign (h.orbs.get a) * paritySign (h.orbs.get b) *
      e (k ⬝ᵥ ((2 : K) • ((h.orbs.get b).pos - (h.orbs.get a).pos)))) • series e ns R k a b := by
  have hd : IsUnit (-1 : Mat K d).det := by
    rw [Matrix.det_neg, Matrix.det_one, mul_one]
    exact (isUnit_one.neg).pow _
  have hinv : (-1 : Mat K d)⁻¹ = -1 := Matrix.inv_eq_left_inv (by simp)
  have hne0 : paritySign (h.orbs.get a) * paritySign (h.orbs.get b) ≠ (0 : F) := by
    unfold paritySign; split_ifs <;> simp
  have := series_transform e he ns R (-1) hd a b ((paritySign (h.orbs.get a) * paritySign (h.orbs.get b) : F) • 1) 1 ?_ ?_ ?_ k
  · rw [Matrix.transpose_neg, Matrix.transpose_one, hinv, Matrix.neg_mulVec, Matrix.one_mulVec, Matrix.mul_one, Matrix.smul_mul,
      Matrix.one_mul, smul_smul] at this
    rw [this, mul_comm (paritySign _ * _)]
    congr 3
    rw [Matrix.neg_mulVec, Matrix.one_mulVec, sub_neg_eq_add, two_smul]
  · rw [Matrix.det_smul, Matrix.det_one, mul_one]
    exact (isUnit_iff_ne_zero.2 hne0).pow _
  · simp
  · intro x
    rw [Matrix.mul_one, Matrix.smul_mul, Matrix.one_mul]
    exact C92_inversion h hv hi ns hns hcl H R hr a b x

/-- **C94** The operator is Hermitian for every wave vector, for phases with `e(-x) = conj e(x)`. -/
theorem C94_hermitian [CharZero F] (e : K → F) (hst : ∀ x, e (-x) = star (e x)) (h : HSym K F d) (hv : Valid h)
    (ns : List (Fin d → K)) (hns : HalfList ns) (H R : List (BMat h.orbs.get)) (hr : h.symmetrize H ns = .ok R)
    (a b : Fin h.orbs.length) (k : Fin d → K) : series e ns R k a b = (series e ns R k b a).conjTranspose := by
  have hH := C92_hermitian h hv ns hns H R hr
  unfold series
  rw [Matrix.conjTranspose_sum]
  refine Finset.sum_nbij' (fun x => -x) (fun x => -x) ?_ ?_ ?_ ?_ ?_
  · intro x hx; rw [mem_positions] at hx ⊢; exact found_neg.2 hx
  · intro x hx; rw [mem_positions] at hx ⊢; exact found_neg.2 hx
  · intro x _; exact neg_neg x
  · intro x _; exact neg_neg x
  · intro x _
    rw [Matrix.conjTranspose_smul, ← hst, dotProduct_neg, neg_neg, hH b a x, Matrix.conjTranspose_conjTranspose]

/-! ### Example and the documented law -/

/-- `exp(2πi x)` for rational `x`. -/
noncomputable def expQ (x : ℚ) : ℂ := Complex.exp (2 * Real.pi * Complex.I * x)

theorem expQ_add (x y : ℚ) : expQ (x + y) = expQ x * expQ y := by
  unfold expQ
  rw [← Complex.exp_add]
  congr 1
  push_cast
  ring

theorem expQ_neg (x : ℚ) : expQ (-x) = star (expQ x) := by
  unfold expQ
  rw [Complex.star_def, ← Complex.exp_conj]
  congr 1
  simp [map_ofNat (starRingEnd ℂ) 2]

/-- The conditions on `e` are met by `exp(2πi x)`. -/
example : (∀ x y, expQ (x + y) = expQ x * expQ y) ∧ ∀ x, expQ (-x) = star (expQ x) := ⟨expQ_add, expQ_neg⟩

open Classical in
/-- No operations except the identity, two orbitals with one state each at a distance of `1/8`. -/
noncomputable def exPhase : HSym ℚ ℂ 3 :=
  ⟨⟨[1], false⟩, [⟨1, ⟨⟨[1], false⟩, [1], 1⟩, ![0, 0, 0], "A"⟩, ⟨1, ⟨⟨[1], false⟩, [1], 1⟩, ![1 / 8, 0, 0], "B"⟩]⟩

theorem exPhase_valid : Valid exPhase := by
  have hr : IsRep (⟨⟨[1], false⟩, [1], 1⟩ : Rep ℚ ℂ 3 1) ∧ IsUnitary (⟨⟨[1], false⟩, [1], 1⟩ : Rep ℚ ℂ 3 1) := by
    refine ⟨⟨rfl, by simp, by simp, by simp, by simp, le_rfl⟩, ?_⟩
    intro u hu
    simp only [List.mem_singleton] at hu
    subst hu
    simp
  refine ⟨⟨[1], false, by decide +kernel⟩, ?_⟩
  intro o ho
  simp only [exPhase, List.mem_cons, List.not_mem_nil, or_false] at ho
  rcases ho with rfl | rfl <;> exact ⟨hr.1, hr.2, rfl, Or.inr rfl⟩

/-- One matrix with all entries equal to one. -/
noncomputable def exOnes : List (BMat exPhase.orbs.get) := [fun _ _ => Matrix.of fun _ _ => 1]

theorem exPhase_half : HalfList [(0 : Fin 3 → ℚ)] := ⟨by simp, by simp⟩

theorem exPhase_coeff (x : Fin 3 → ℚ) (a b : Fin exPhase.orbs.length) :
    coeff [(0 : Fin 3 → ℚ)] exOnes x a b = if x = 0 then Matrix.of fun _ _ => 1 else 0 := by
  unfold coeff
  by_cases h : x = 0
  · simp [h, exOnes]
  · simp [h]

theorem exPhase_symmetrize : exPhase.symmetrize exOnes [0] = .ok exOnes := by
  obtain ⟨R, hR, -⟩ := (C92_returns exPhase exOnes [0]).1 ⟨rfl, by simp⟩
  rw [hR, C92_fixed exPhase exPhase_valid [0] exPhase_half exOnes R hR ?_ ?_ ?_]
  · intro a b x
    rw [exPhase_coeff, exPhase_coeff]
    by_cases h : x = 0
    · simp only [h, neg_zero, if_true]
      ext i j
      simp
    · simp [h]
  · intro k hk a b x
    have hk : k = 0 := by simp [exPhase] at hk; exact hk
    subst hk
    have h1 : exPhase.sym.S[0] = 1 := rfl
    have h2 : ∀ a, (exPhase.orbs.get a).rep.U.getD 0 0 = 1 := by
      intro a
      have : a.1 < 2 := a.2
      match a with
      | ⟨0, _⟩ => rfl
      | ⟨1, _⟩ => rfl
    rw [h1, moved_one, h2, h2]
    simp
  · intro h
    cases h

/-- An example with phases: the symmetrised operator is not zero. -/
example : exPhase.symmetrize exOnes [0] = .ok exOnes ∧
    ∀ a b k, series expQ [0] exOnes k a b = expQ 0 • Matrix.of fun _ _ => 1 := by
  refine ⟨exPhase_symmetrize, fun a b k => ?_⟩
  have : positions [(0 : Fin 3 → ℚ)] = {0} := by simp [positions]
  simp only [series, this, Finset.sum_singleton, exPhase_coeff, if_true, dotProduct_zero]

theorem expQ_quarter : expQ (-(1 / 4)) = -Complex.I := by
  unfold expQ
  have : (2 * Real.pi * Complex.I * ((-(1 / 4) : ℚ) : ℂ)) = -(Real.pi / 2 * Complex.I) := by push_cast; ring
  rw [this, Complex.exp_neg, Complex.exp_pi_div_two_mul_I, Complex.inv_I]

/-- **C94** (disagreement) The law in the documentation of the class and of `apply`,
`H((Sᵀ)⁻¹ k) = U H(k) Uᴴ exp(2πi k (1+S)(r_1 - r_2))`, does not hold for the results of `symmetrize`; already not for the identity. -/
theorem C94_defect_law : ∃ (h : HSym ℚ ℂ 3) (ns : List (Fin 3 → ℚ)) (H : List (BMat h.orbs.get)) (a b : Fin h.orbs.length)
    (k : Fin 3 → ℚ) (hS : 0 < h.sym.S.length), Valid h ∧ HalfList ns ∧ h.symmetrize H ns = .ok H ∧
    series expQ ns H ((h.sym.S[0]ᵀ)⁻¹.mulVec k) a b ≠
      expQ (k ⬝ᵥ (((1 : Mat ℚ 3) + h.sym.S[0]).mulVec ((h.orbs.get a).pos - (h.orbs.get b).pos))) •
        ((h.orbs.get a).rep.U.getD 0 0 * series expQ ns H k a b * ((h.orbs.get b).rep.U.getD 0 0).conjTranspose) := by
  refine ⟨exPhase, [0], exOnes, ⟨0, by decide⟩, ⟨1, by decide⟩, ![1, 0, 0], by decide, exPhase_valid, exPhase_half,
    exPhase_symmetrize, ?_⟩
  have hS : exPhase.sym.S[0] = 1 := rfl
  have hU0 : (exPhase.orbs.get ⟨0, by decide⟩).rep.U.getD 0 0 = 1 := rfl
  have hU1 : (exPhase.orbs.get ⟨1, by decide⟩).rep.U.getD 0 0 = 1 := rfl
  have hpos : positions [(0 : Fin 3 → ℚ)] = {0} := by simp [positions]
  have hphase : (![1, 0, 0] : Fin 3 → ℚ) ⬝ᵥ ((1 + (1 : Mat ℚ 3)).mulVec
      ((exPhase.orbs.get ⟨0, by decide⟩).pos - (exPhase.orbs.get ⟨1, by decide⟩).pos)) = -(1 / 4) := by
    change (![1, 0, 0] : Fin 3 → ℚ) ⬝ᵥ ((1 + (1 : Mat ℚ 3)).mulVec (![0, 0, 0] - ![1 / 8, 0, 0])) = -(1 / 4)
    decide +kernel
  rw [hS, hphase, expQ_quarter, hU0, hU1]
  simp only [series, hpos, Finset.sum_singleton, exPhase_coeff, if_true, dotProduct_zero]
  intro h
  have h2 := congrFun (congrFun h ⟨0, by decide⟩) ⟨0, by decide⟩
  have h3 : expQ 0 = 1 := by simp [expQ]
  rw [h3] at h2
  simp only [one_smul, Matrix.smul_apply, Matrix.one_mul, Matrix.conjTranspose_one, Matrix.mul_one, Matrix.of_apply] at h2
  have h4 := congrArg Complex.re h2
  simp at h4

end TB.HS

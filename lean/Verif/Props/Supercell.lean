import Mathlib.LinearAlgebra.Matrix.ToLinearEquiv
import Mathlib.Analysis.Fourier.FiniteAbelian.PontryaginDuality
import Verif.Lemmas.SupercellSum

/-!
# C55: `AsymTightBindingModel.supercell`

`A` are the basis vectors of the lattice, `B = A Λ` those of the supercell, `Λ` an integer matrix.
-/

set_option linter.unusedSectionVars false

namespace TB.SC
open Matrix

variable {d n : ℕ}

/-- An integer vector as real vector. -/
def toR (z : Fin d → ℤ) : RVec d := fun i => (z i : ℝ)

/-- An integer matrix as real matrix. -/
def toRM (Λ : Matrix (Fin d) (Fin d) ℤ) : Matrix (Fin d) (Fin d) ℝ := Λ.map (Int.cast : ℤ → ℝ)

theorem toRM_mulVec (Λ : Matrix (Fin d) (Fin d) ℤ) (z : Fin d → ℤ) : toRM Λ *ᵥ toR z = toR (Λ *ᵥ z) := by
  funext i
  simp [toRM, toR, Matrix.mulVec, dotProduct]

theorem toR_add (x y : Fin d → ℤ) : toR (x + y) = toR x + toR y := by funext i; simp [toR]
theorem toR_sub (x y : Fin d → ℤ) : toR (x - y) = toR x - toR y := by funext i; simp [toR]
theorem toR_neg (x : Fin d → ℤ) : toR (-x) = -toR x := by funext i; simp [toR]
theorem toR_injective : Function.Injective (toR : (Fin d → ℤ) → RVec d) := by
  intro x y h; funext i; have := congrFun h i; simpa [toR] using this

theorem det_toRM (Λ : Matrix (Fin d) (Fin d) ℤ) : (toRM Λ).det = (Λ.det : ℝ) := by
  have := (Int.castRingHom ℝ).map_det Λ
  simpa [toRM, RingHom.mapMatrix_apply] using this.symm

theorem mulVec_inj_of_det {M : Matrix (Fin d) (Fin d) ℝ} (h : M.det ≠ 0) : Function.Injective (M *ᵥ · : RVec d → RVec d) :=
  Matrix.mulVec_injective_iff_isUnit.2 ((Matrix.isUnit_iff_isUnit_det M).2 (isUnit_iff_ne_zero.2 h))

theorem frac_pos {A : Matrix (Fin d) (Fin d) ℝ} {Λ : Matrix (Fin d) (Fin d) ℤ} (hΛ : Λ.det ≠ 0) (x : Fin d → ℤ) :
    ((A * toRM Λ) *ᵥ fun i => ((cellFrac Λ x i : ℚ) : ℝ)) = A *ᵥ toR x := by
  rw [← Matrix.mulVec_mulVec]
  congr 1
  funext i
  have := mul_cellFrac hΛ x i
  simp only [Matrix.mulVec, dotProduct, toRM, Matrix.map_apply, toR]
  have h2 := congrArg (fun q : ℚ => (q : ℝ)) this
  push_cast at h2
  exact h2

/-- The representatives, by position in the list. -/
def rep (Λ : Matrix (Fin d) (Fin d) ℤ) (B : Matrix (Fin d) (Fin d) ℝ) (i : Fin (internalPositions Λ B).length) : Fin d → ℤ :=
  (cellPoints Λ)[i.1]'(by have := i.2; simpa [internalPositions] using this)

theorem pos_eq {A : Matrix (Fin d) (Fin d) ℝ} {Λ : Matrix (Fin d) (Fin d) ℤ} (hΛ : Λ.det ≠ 0)
    (i : Fin (internalPositions Λ (A * toRM Λ)).length) :
    (internalPositions Λ (A * toRM Λ))[i] = A *ᵥ toR (rep Λ (A * toRM Λ) i) := by
  rw [← frac_pos hΛ, rep, Fin.getElem_fin]
  simp only [internalPositions, List.getElem_map]

/-- The terms that `supercell` builds. -/
noncomputable def superTerms (t : Tb d n) (A : Matrix (Fin d) (Fin d) ℝ) (Λ : Matrix (Fin d) (Fin d) ℤ) :
    List (RVec d × CMat ((internalPositions Λ (A * toRM Λ)).length * n)) :=
  t.H.terms.map fun x => (toRM Λ *ᵥ x.1, blockMatrix fun i j => t.H.lookup
    (toRM Λ *ᵥ x.1 + A *ᵥ toR (rep Λ (A * toRM Λ) j) - A *ᵥ toR (rep Λ (A * toRM Λ) i)))

theorem inv_mul_toRM {A : Matrix (Fin d) (Fin d) ℝ} (hA : A.det ≠ 0) (Λ : Matrix (Fin d) (Fin d) ℤ) :
    A⁻¹ * (A * toRM Λ) = toRM Λ := by
  rw [← Matrix.mul_assoc, Matrix.nonsing_inv_mul A (isUnit_iff_ne_zero.2 hA), Matrix.one_mul]

theorem mkTb_eq (H : Series d n) : mkTb H = .ok ⟨H, ⟨[(0, 1)]⟩⟩ := by
  have : Series.unitMatrix [(0 : RVec d)] n = .ok ⟨[(0, 1)]⟩ := mkSeries_ok.2 ⟨⟨[], rfl⟩, by simp, by simp⟩
  rw [mkTb, this]
  rfl

open Classical in
/-- What `supercell` does when the matrices are proper. -/
theorem supercell_cases (t : Tb d n) {A : Matrix (Fin d) (Fin d) ℝ} {Λ : Matrix (Fin d) (Fin d) ℤ} (hA : A.det ≠ 0)
    (hne : t.H.terms ≠ []) (hd : d ≠ 0) (hdet : Λ.det ≠ 0) :
    t.supercell A (A * toRM Λ) =
      if ((internalPositions Λ (A * toRM Λ)).length : ℤ) ≠ Λ.det then .error .assertionError
      else if ∃ H0 rest, t.H.terms = (0, H0) :: rest then
        .ok ⟨(internalPositions Λ (A * toRM Λ)).length * n, ⟨⟨superTerms t A Λ⟩, ⟨[(0, 1)]⟩⟩⟩
      else .error .assertionError := by
  classical
  have hint : ∀ i j, ∃ z : ℤ, (A⁻¹ * (A * toRM Λ)) i j = z := by
    intro i j; rw [inv_mul_toRM hA]; exact ⟨Λ i j, rfl⟩
  have hround : (Matrix.of fun i j => round ((A⁻¹ * (A * toRM Λ)) i j)) = Λ := by
    rw [inv_mul_toRM hA]
    ext i j
    simp [toRM]
  unfold Tb.supercell
  rw [if_neg hne, if_neg hA, if_neg (not_not.2 hint), hround]
  unfold Tb.supercellOf
  simp only
  rw [if_neg (by push Not; exact ⟨hd, hdet⟩)]
  by_cases hl : ((internalPositions Λ (A * toRM Λ)).length : ℤ) ≠ Λ.det
  · rw [if_pos hl, if_pos hl]
  rw [if_neg hl, if_neg hl]
  have hinj : Function.Injective (toRM Λ *ᵥ · : RVec d → RVec d) := mulVec_inj_of_det (by rw [det_toRM]; exact_mod_cast hdet)
  have hterms : ((t.H.terms.map fun x => (Λ.map (Int.cast : ℤ → ℝ)) *ᵥ x.1).zip
      ((t.H.terms.map fun x => (Λ.map (Int.cast : ℤ → ℝ)) *ᵥ x.1).map fun r =>
        blockMatrix fun i j : Fin (internalPositions Λ (A * toRM Λ)).length =>
          t.H.lookup (r + (internalPositions Λ (A * toRM Λ))[j] - (internalPositions Λ (A * toRM Λ))[i]))) =
      superTerms t A Λ := by
    rw [List.map_map, List.zip_map']
    simp only [pos_eq hdet]
    rfl
  by_cases h0 : ∃ H0 rest, t.H.terms = (0, H0) :: rest
  · rw [if_pos h0]
    obtain ⟨H0, rest, hst⟩ := h0
    rw [mkSeries_ok.2 ⟨⟨(rest.map fun x => (Λ.map (Int.cast : ℤ → ℝ)) *ᵥ x.1), by rw [hst]; simp⟩, by simp, rfl⟩]
    simp only [mkTb_eq]
    rw [hterms]
  · rw [if_neg h0]
    cases hst : t.H.terms with
    | nil => exact absurd hst hne
    | cons t0 rest =>
      have hv : vnorm ((Λ.map (Int.cast : ℤ → ℝ)) *ᵥ t0.1) ≠ 0 := by
        intro hv
        have := vnorm_eq_zero.1 hv
        have h00 : t0.1 = 0 := hinj (by simpa [toRM] using this)
        exact h0 ⟨t0.2, rest, by rw [hst, ← h00]⟩
      simp only [List.map_cons, mkSeries]
      rw [if_pos hv]

/-- C55.  `supercell` succeeds exactly if the first neighbour is zero, the dimension is not zero, the lattice matrix is
regular, `A_new = A_original Λ` with an integer matrix `Λ` of positive determinant, and every row of `Λ` has a positive
entry.  (The last condition and the sign of the determinant are limitations of the implementation.) -/
theorem C55_success_iff (t : Tb d n) (A B : Matrix (Fin d) (Fin d) ℝ) :
    (∃ r, t.supercell A B = .ok r) ↔
      (∃ H0 rest, t.H.terms = (0, H0) :: rest) ∧ d ≠ 0 ∧ A.det ≠ 0 ∧
      ∃ Λ : Matrix (Fin d) (Fin d) ℤ, B = A * Λ.map (Int.cast : ℤ → ℝ) ∧ 0 < Λ.det ∧ ∀ i, ∃ j, 0 < Λ i j := by
  have hlen : ∀ Λ : Matrix (Fin d) (Fin d) ℤ, Λ.det ≠ 0 →
      (((internalPositions Λ (A * toRM Λ)).length : ℤ) = Λ.det ↔ 0 < Λ.det ∧ RowsPositive Λ) := by
    intro Λ hΛ
    rw [← length_cellPoints_iff hΛ]
    simp only [internalPositions, List.length_map]
    omega
  constructor
  · rintro ⟨r, hr⟩
    have hne : t.H.terms ≠ [] := by
      intro h; unfold Tb.supercell at hr; rw [if_pos h] at hr; cases hr
    have hA : A.det ≠ 0 := by
      intro h; unfold Tb.supercell at hr; rw [if_neg hne, if_pos h] at hr; cases hr
    have hint : ∀ i j, ∃ z : ℤ, (A⁻¹ * B) i j = z := by
      by_contra h; unfold Tb.supercell at hr; rw [if_neg hne, if_neg hA, if_pos h] at hr; cases hr
    choose L hL using hint
    have hB : B = A * toRM (Matrix.of L) := by
      rw [show toRM (Matrix.of L) = A⁻¹ * B by ext i j; rw [hL]; rfl, ← Matrix.mul_assoc,
        Matrix.mul_nonsing_inv A (isUnit_iff_ne_zero.2 hA), Matrix.one_mul]
    generalize Matrix.of L = Λ at hB
    have hr2 := hr
    subst hB
    have hdd : ¬ (d = 0 ∨ Λ.det = 0) := by
      intro h
      have hint : ∀ i j, ∃ z : ℤ, (A⁻¹ * (A * toRM Λ)) i j = z := by
        intro i j; rw [inv_mul_toRM hA]; exact ⟨Λ i j, rfl⟩
      have hround : (Matrix.of fun i j => round ((A⁻¹ * (A * toRM Λ)) i j)) = Λ := by
        rw [inv_mul_toRM hA]
        ext i j
        simp [toRM]
      unfold Tb.supercell at hr
      rw [if_neg hne, if_neg hA, if_neg (not_not.2 hint), hround] at hr
      unfold Tb.supercellOf at hr
      simp only at hr
      rw [if_pos h] at hr
      cases hr
    push Not at hdd
    rw [supercell_cases t hA hne hdd.1 hdd.2] at hr
    by_cases hl : ((internalPositions Λ (A * toRM Λ)).length : ℤ) = Λ.det
    · rw [if_neg (not_not.2 hl)] at hr
      by_cases h0 : ∃ H0 rest, t.H.terms = (0, H0) :: rest
      · exact ⟨h0, hdd.1, hA, Λ, rfl, (hlen Λ hdd.2).1 hl⟩
      · rw [if_neg h0] at hr; cases hr
    · rw [if_pos hl] at hr; cases hr
  · rintro ⟨h0, hd, hA, Λ, rfl, hpos, hrow⟩
    have hne : t.H.terms ≠ [] := by obtain ⟨_, _, h⟩ := h0; rw [h]; simp
    have := supercell_cases t hA hne hd hpos.ne' (Λ := Λ)
    rw [if_neg (not_not.2 ((hlen Λ hpos.ne').2 ⟨hpos, hrow⟩)), if_pos h0] at this
    exact ⟨_, this⟩

/-- The result of a successful call. -/
theorem supercell_ok {t : Tb d n} {A : Matrix (Fin d) (Fin d) ℝ} {Λ : Matrix (Fin d) (Fin d) ℤ} {r : (N : ℕ) × Tb d N}
    (hr : t.supercell A (A * toRM Λ) = .ok r) :
    A.det ≠ 0 ∧ 0 < Λ.det ∧ RowsPositive Λ ∧ Spec.Starts0 t.H ∧
      ((internalPositions Λ (A * toRM Λ)).length : ℤ) = Λ.det ∧
      r = ⟨(internalPositions Λ (A * toRM Λ)).length * n, ⟨⟨superTerms t A Λ⟩, ⟨[(0, 1)]⟩⟩⟩ := by
  obtain ⟨h0, hd, hA, Λ', hB, hpos, hrow⟩ := (C55_success_iff t A _).1 ⟨r, hr⟩
  have hLL : Λ = Λ' := by
    have h1 := inv_mul_toRM hA Λ
    have h2 := inv_mul_toRM hA Λ'
    rw [hB] at h1
    have h3 : toRM Λ = toRM Λ' := h1.symm.trans h2
    ext i j
    have := congrFun (congrFun h3 i) j
    simpa [toRM] using this
  subst hLL
  have hne : t.H.terms ≠ [] := by obtain ⟨_, _, h⟩ := h0; rw [h]; simp
  have hlen : ((internalPositions Λ (A * toRM Λ)).length : ℤ) = Λ.det := by
    have := (length_cellPoints_iff hpos.ne').2 hrow
    simp only [internalPositions, List.length_map]
    omega
  rw [supercell_cases t hA hne hd hpos.ne', if_neg (not_not.2 hlen), if_pos h0] at hr
  exact ⟨hA, hpos, hrow, h0, hlen, (Except.ok.inj hr).symm⟩

end TB.SC

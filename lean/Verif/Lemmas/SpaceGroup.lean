import Mathlib.LinearAlgebra.Matrix.SchurComplement
import Mathlib.Tactic.LinearCombination
import Mathlib.Tactic.FieldSimp
import Verif.Model.SpaceGroup
import Verif.Spec.Affine
import Verif.Lemmas.Symmetry

/-!
# Lemmas on affine matrices
-/

set_option linter.unusedSectionVars false

namespace TB
open Spec Matrix

section field
variable {K : Type} [Field K] {d : ℕ}

@[simp] theorem aff_cc (R : Matrix (Fin d) (Fin d) K) (t) (i j : Fin d) : aff R t i.castSucc j.castSucc = R i j := by simp [aff]
@[simp] theorem aff_cl (R : Matrix (Fin d) (Fin d) K) (t) (i : Fin d) : aff R t i.castSucc (Fin.last d) = t i := by simp [aff]
@[simp] theorem aff_lc (R : Matrix (Fin d) (Fin d) K) (t) (j : Fin d) : aff R t (Fin.last d) j.castSucc = 0 := by simp [aff]
@[simp] theorem aff_ll (R : Matrix (Fin d) (Fin d) K) (t) : aff R t (Fin.last d) (Fin.last d) = 1 := by simp [aff]
@[simp] theorem coaff_cc (R : Matrix (Fin d) (Fin d) K) (t) (i j : Fin d) : coaff R t i.castSucc j.castSucc = R i j := by simp [coaff]
@[simp] theorem coaff_cl (R : Matrix (Fin d) (Fin d) K) (t) (i : Fin d) : coaff R t i.castSucc (Fin.last d) = 0 := by simp [coaff]
@[simp] theorem coaff_lc (R : Matrix (Fin d) (Fin d) K) (t) (j : Fin d) : coaff R t (Fin.last d) j.castSucc = t j := by simp [coaff]
@[simp] theorem coaff_ll (R : Matrix (Fin d) (Fin d) K) (t) : coaff R t (Fin.last d) (Fin.last d) = 1 := by simp [coaff]
@[simp] theorem linear_aff (R : Matrix (Fin d) (Fin d) K) (t) : linear (aff R t) = R := by ext i j; simp [linear]
@[simp] theorem shift_aff (R : Matrix (Fin d) (Fin d) K) (t) : shift (aff R t) = t := by ext i; simp [shift]
@[simp] theorem linear_coaff (R : Matrix (Fin d) (Fin d) K) (t) : linear (coaff R t) = R := by ext i j; simp [linear]

theorem affExt {M N : Matrix (Fin (d + 1)) (Fin (d + 1)) K} (h1 : ∀ i j : Fin d, M i.castSucc j.castSucc = N i.castSucc j.castSucc)
    (h2 : ∀ i : Fin d, M i.castSucc (Fin.last d) = N i.castSucc (Fin.last d)) (h3 : ∀ i : Fin d, M (Fin.last d) i.castSucc = N (Fin.last d) i.castSucc)
    (h4 : M (Fin.last d) (Fin.last d) = N (Fin.last d) (Fin.last d)) : M = N := by
  ext i j
  refine Fin.lastCases ?_ (fun i => ?_) i <;> refine Fin.lastCases ?_ (fun j => ?_) j
  · exact h4
  · exact h3 j
  · exact h2 i
  · exact h1 i j

theorem aff_mul (R R' : Matrix (Fin d) (Fin d) K) (t t') : aff R t * aff R' t' = aff (R * R') (R.mulVec t' + t) := by
  apply affExt <;> intros <;> simp [Matrix.mul_apply, Fin.sum_univ_castSucc, Matrix.mulVec, dotProduct]

theorem aff_one : aff (1 : Matrix (Fin d) (Fin d) K) 0 = 1 := by
  apply affExt
  · intro i j; simp [Matrix.one_apply, Fin.castSucc_inj]
  · intro i; rw [aff_cl, Matrix.one_apply_ne (Fin.castSucc_lt_last i).ne]; rfl
  · intro i; rw [aff_lc, Matrix.one_apply_ne (Fin.castSucc_lt_last i).ne']
  · simp

theorem aff_inj {R R' : Matrix (Fin d) (Fin d) K} {t t'} : aff R t = aff R' t' ↔ R = R' ∧ t = t' := by
  constructor
  · intro h
    exact ⟨by rw [← linear_aff R t, h, linear_aff], by rw [← shift_aff R t, h, shift_aff]⟩
  · rintro ⟨rfl, rfl⟩; rfl

theorem det_aff (R : Matrix (Fin d) (Fin d) K) (t) : (aff R t).det = R.det := by
  rw [← Matrix.det_submatrix_equiv_self (finSumFinEquiv (m := d) (n := 1)) (aff R t)]
  have : (aff R t).submatrix (finSumFinEquiv (m := d) (n := 1)) (finSumFinEquiv (m := d) (n := 1)) =
      Matrix.fromBlocks R (Matrix.of fun i _ => t i) 0 (1 : Matrix (Fin 1) (Fin 1) K) := by
    ext i j
    rcases i with i | i <;> rcases j with j | j
    · exact aff_cc R t i j
    · obtain rfl : j = 0 := Subsingleton.elim _ _
      exact aff_cl R t i
    · obtain rfl : i = 0 := Subsingleton.elim _ _
      exact aff_lc R t j
    · obtain rfl : i = 0 := Subsingleton.elim _ _
      obtain rfl : j = 0 := Subsingleton.elim _ _
      exact aff_ll R t
  rw [this, Matrix.det_fromBlocks_zero₂₁]; simp

theorem det_coaff (R : Matrix (Fin d) (Fin d) K) (t) : (coaff R t).det = R.det := by
  rw [coaff, Matrix.det_transpose, det_aff, Matrix.det_transpose]

theorem coaff_transpose (R : Matrix (Fin d) (Fin d) K) (t) : (coaff R t).transpose = aff R.transpose t := by
  rw [coaff, Matrix.transpose_transpose]

theorem aff_transpose (R : Matrix (Fin d) (Fin d) K) (t) : (aff R t).transpose = coaff R.transpose t := by
  rw [coaff, Matrix.transpose_transpose]

theorem coaff_mul (R R' : Matrix (Fin d) (Fin d) K) (t t') : coaff R t * coaff R' t' = coaff (R * R') (R'.transpose.mulVec t + t') := by
  rw [coaff, coaff, ← Matrix.transpose_mul, aff_mul, ← Matrix.transpose_mul, coaff]

theorem aff_inv {R : Matrix (Fin d) (Fin d) K} (h : R.det ≠ 0) (t) : (aff R t)⁻¹ = aff R⁻¹ (-(R⁻¹.mulVec t)) := by
  apply Matrix.inv_eq_right_inv
  have hu : IsUnit R.det := isUnit_iff_ne_zero.2 h
  rw [aff_mul, Matrix.mul_nonsing_inv _ hu, Matrix.mulVec_neg, Matrix.mulVec_mulVec, Matrix.mul_nonsing_inv _ hu, Matrix.one_mulVec,
    neg_add_cancel, aff_one]

theorem act_aff (R : Matrix (Fin d) (Fin d) K) (t x) : act (aff R t) x = R.mulVec x + t := by simp [act]

theorem mulVec_snoc (R : Matrix (Fin d) (Fin d) K) (t x) : (aff R t).mulVec (Fin.snoc x 1) = (Fin.snoc (R.mulVec x + t) 1 : Fin (d + 1) → K) := by
  funext i
  refine Fin.lastCases ?_ (fun i => ?_) i
  · simp [Matrix.mulVec, dotProduct, Fin.sum_univ_castSucc]
  · simp [Matrix.mulVec, dotProduct, Fin.sum_univ_castSucc]

theorem trans_pow (l : Fin d → K) (k : ℕ) : (aff 1 l) ^ k = aff 1 ((k : K) • l) := by
  induction k with
  | zero => simp [aff_one]
  | succ k ih =>
    rw [pow_succ, ih, aff_mul]
    rw [aff_inj]
    refine ⟨by simp, ?_⟩
    rw [Matrix.one_mulVec, Nat.cast_succ, add_smul, one_smul, add_comm]

end field

section ordered
variable {K : Type} [Field K] [LinearOrder K] [IsStrictOrderedRing K] {d : ℕ}

theorem cut_eq_linear (s : Mat K (d + 1)) : cut s = linear s := rfl

theorem untranslated_iff {s : Mat K (d + 1)} :
    untranslated s = true ↔ ∀ i : Fin d, s i.castSucc (Fin.last d) = 0 ∧ s (Fin.last d) i.castSucc = 0 := by
  unfold untranslated
  rw [decide_eq_true_eq]
  constructor
  · intro h i
    exact h (Fin.last d, i.castSucc) (by simp) (by simp)
  · rintro h ⟨i, j⟩ hi hj
    have hi' : i = Fin.last d := Fin.ext (by simpa using hi)
    obtain ⟨j', rfl⟩ : ∃ j' : Fin d, j = j'.castSucc := ⟨⟨j, by simpa using hj⟩, rfl⟩
    subst hi'
    exact h j'

/-- No list starting with the identity whose last diagonal entries are one equals its negative. -/
theorem not_neg_closed {S : List (Mat K (d + 1))} (h1 : S.head? = some 1) (hc : ∀ s ∈ S, s (Fin.last d) (Fin.last d) = 1) :
    ¬ ∀ s ∈ S, s ∈ S.map (fun s => -s) := by
  intro h
  have hm : (1 : Mat K (d + 1)) ∈ S := List.mem_of_mem_head? h1
  have h' := hc _ (mem_map_neg.1 (h 1 hm))
  rw [Matrix.neg_apply, Matrix.one_apply_eq] at h'
  linarith

theorem mkSym_corner {S : List (Mat K (d + 1))} (h1 : S.head? = some 1) (hdet : ∀ s ∈ S, |s.det| = 1)
    (hc : ∀ s ∈ S, s (Fin.last d) (Fin.last d) = 1) : mkSym S false = .ok ⟨S, false⟩ := by
  obtain ⟨σ, h⟩ := (mkSym_ok_iff (inv := false)).2 ⟨h1, hdet⟩
  obtain ⟨-, -, h' | h' | h' | h'⟩ := mkSym_cases h
  · exact absurd h'.1 (not_neg_closed h1 hc)
  · exact absurd h'.1 (not_neg_closed h1 hc)
  · exact absurd h'.2.1 (by simp)
  · rw [h, h'.2.2]

end ordered

end TB

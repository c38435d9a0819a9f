import Mathlib.Analysis.SpecialFunctions.ExpDeriv
import Mathlib.Analysis.SpecialFunctions.Trigonometric.Deriv
import Mathlib.LinearAlgebra.Matrix.Hermitian
import Mathlib.Data.List.GetD
import Mathlib.Tactic.LinearCombination
import Mathlib.Tactic.Module
import Verif.Model.BandStructure

/-! # Lemmas about `BandStructureModel` -/

namespace TB.BS
open Matrix TB

variable {d n m : ℕ}

theorem foldl_add_sum {α β : Type} [AddCommMonoid β] (g : α → β) (l : List α) (x : β) :
    l.foldl (fun res s => res + g s) x = x + (l.map g).sum := by
  induction l generalizing x with
  | nil => simp
  | cons a l ih => simp [ih, add_assoc]

theorem foldl_sub_sum {α β : Type} [AddCommGroup β] (g : α → β) (l : List α) (x : β) :
    l.foldl (fun res s => res - g s) x = x - (l.map g).sum := by
  induction l generalizing x with
  | nil => simp
  | cons a l ih => simp [ih, sub_sub]

/-- The neighbour list `r0, r_0, …, r_{m-1}`. -/
def TBData.mk' (S : List (Matrix (Fin d) (Fin d) ℝ)) (inversion cosReduced exp : Bool) (r0 : RVec d)
    (r : Fin m → RVec d) : TBData d := ⟨S, inversion, r0 :: List.ofFn r, cosReduced, exp⟩

variable (S : List (Matrix (Fin d) (Fin d) ℝ)) (inversion cosReduced exp : Bool) (r0 : RVec d) (r : Fin m → RVec d)

theorem rOrig_low (j : Fin m) : (TBData.mk' S inversion cosReduced exp r0 r).rOrig (j + 1) = r j := by
  have h1 : (j.1 + 1) % (m + 1) = j + 1 := Nat.mod_eq_of_lt (by omega)
  have h2 : (j.1 + 1) / (m + 1) = 0 := Nat.div_eq_of_lt (by omega)
  simp [TBData.mk', TBData.rOrig, h1, h2]

theorem div_low (j : Fin m) : (j.1 + 1) / (TBData.mk' S inversion cosReduced exp r0 r).neighbors.length = 0 := by
  simp only [TBData.mk', List.length_cons, List.length_ofFn]
  exact Nat.div_eq_of_lt (by omega)

theorem rOrig_high (j : Fin m) : (TBData.mk' S inversion cosReduced exp r0 r).rOrig (m + j + 1) = r j := by
  have h1 : (m + j.1 + 1) % (m + 1) = j := by
    rw [show m + j.1 + 1 = j + (m + 1) by omega, Nat.add_mod_right, Nat.mod_eq_of_lt (by omega)]
  have h2 : (m + j.1 + 1) / (m + 1) = 1 := by
    rw [show m + j.1 + 1 = j + (m + 1) by omega, Nat.add_div_right _ (by omega), Nat.div_eq_of_lt (by omega)]
  simp [TBData.mk', TBData.rOrig, h1, h2]

theorem div_high (j : Fin m) : (m + j.1 + 1) / (TBData.mk' S inversion cosReduced exp r0 r).neighbors.length = 1 := by
  simp only [TBData.mk', List.length_cons, List.length_ofFn]
  rw [show m + j.1 + 1 = j + (m + 1) by omega, Nat.add_div_right _ (by omega), Nat.div_eq_of_lt (by omega)]

theorem fi_low (k : RVec d) (j : Fin m) :
    (TBData.mk' S inversion cosReduced exp r0 r).fi k (j + 1) =
      (S.map fun s => (TBData.mk' S inversion cosReduced exp r0 r).func 0
        (2 * Real.pi * (k ⬝ᵥ s.mulVec (r j)))).sum := by
  rw [TBData.fi, if_neg (by omega), foldl_add_sum, zero_add, div_low, rOrig_low]
  rfl

theorem fi_high (k : RVec d) (j : Fin m) :
    (TBData.mk' S inversion cosReduced exp r0 r).fi k (m + j + 1) =
      (S.map fun s => (TBData.mk' S inversion cosReduced exp r0 r).func 1
        (2 * Real.pi * (k ⬝ᵥ s.mulVec (r j)))).sum := by
  rw [TBData.fi, if_neg (by omega), foldl_add_sum, zero_add, div_high, rOrig_high]
  rfl

theorem getD_ofFn (H : Fin m → CMat n) (j : Fin m) : (List.ofFn H).getD j 0 = H j := by simp

/-- The sum of `hsum` for the matrices `H_0, …, H_{m-1}`. -/
theorem sum_ofFn (c : ℕ → ℂ) (H : Fin m → CMat n) :
    ∑ i ∈ Finset.range (List.ofFn H).length, c (i + 1) • (List.ofFn H).getD i 0 = ∑ j : Fin m, c (j + 1) • H j := by
  rw [List.length_ofFn, Finset.sum_range]
  exact Finset.sum_congr rfl fun j _ => by rw [getD_ofFn]

/-- The sum of `hsum` for the matrices `A_0, …, A_{m-1}, B_0, …, B_{m-1}`. -/
theorem sum_ofFn_append (c : ℕ → ℂ) (A B : Fin m → CMat n) :
    ∑ i ∈ Finset.range (List.ofFn A ++ List.ofFn B).length, c (i + 1) • (List.ofFn A ++ List.ofFn B).getD i 0 =
      (∑ j : Fin m, c (j + 1) • A j) + ∑ j : Fin m, c (m + j + 1) • B j := by
  rw [List.length_append, List.length_ofFn, List.length_ofFn, Finset.sum_range_add, Finset.sum_range, Finset.sum_range]
  congr 1
  · exact Finset.sum_congr rfl fun j _ => by
      rw [List.getD_append _ _ _ _ (by simp), getD_ofFn]
  · exact Finset.sum_congr rfl fun j _ => by
      rw [List.getD_append_right _ _ _ _ (by simp), List.length_ofFn, Nat.add_sub_cancel_left, getD_ofFn]

theorem sum_smul_herm (e : List ℂ) (G : CMat n) :
    (e.map fun x => x • G + (x • G)ᴴ).sum = e.sum • G + (e.sum • G)ᴴ := by
  induction e with
  | nil => simp
  | cons a e ih => simp only [List.map_cons, List.sum_cons, ih, add_smul, conjTranspose_add]; abel

theorem sum_re (e : List ℝ) : (e.map fun x : ℝ => (x : ℂ)).sum = ((e.sum : ℝ) : ℂ) := by
  induction e with
  | nil => simp
  | cons a e ih => rw [List.map_cons, List.sum_cons, ih, List.sum_cons, Complex.ofReal_add]

theorem sum_sub_one {α : Type} (e : α → ℂ) (l : List α) : (l.map fun s => e s - 1).sum = (l.map e).sum - l.length := by
  induction l with
  | nil => simp
  | cons a l ih => simp only [List.map_cons, List.sum_cons, ih, List.length_cons, Nat.cast_add, Nat.cast_one]; ring

theorem hsum_map_hom {n' : ℕ} (b : BSM d n) (b' : BSM d n') (c : ℕ → ℂ) (φ : CMat n →+ CMat n')
    (hφ : ∀ (z : ℂ) M, φ (z • M) = z • φ M) (hφ' : ∀ M, φ Mᴴ = (φ M)ᴴ) (h0 : b'.P0 = φ b.P0)
    (hP : b'.Ps = b.Ps.map φ) : b'.hsum c = φ (b.hsum c) := by
  have hsum : ∑ i ∈ Finset.range b'.Ps.length, c (i + 1) • b'.Ps.getD i 0 =
      φ (∑ i ∈ Finset.range b.Ps.length, c (i + 1) • b.Ps.getD i 0) := by
    rw [map_sum, hP, List.length_map]
    refine Finset.sum_congr rfl fun i _ => ?_
    rw [hφ]
    congr 1
    have := List.getD_map (l := b.Ps) (d := 0) (n := i) (f := φ)
    rwa [map_zero] at this
  simp only [BSM.hsum, hsum, h0, map_add, hφ, hφ']

end TB.BS

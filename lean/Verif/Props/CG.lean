import Mathlib.Tactic.NormNum
import Mathlib.LinearAlgebra.Matrix.PosDef
import Verif.Lemmas.CG

/-!
# C49: `conjugate_gradient_solve`

`Spec.IsSPD A` (in `Verif/Lemmas/CG.lean`): `A` is linear, symmetric and positive definite.
-/

set_option linter.unusedSectionVars false

namespace TB
open Matrix CGProof

variable {K : Type} [Field K] [LinearOrder K] [IsStrictOrderedRing K] {n : ℕ}

/-- C49.  Whatever the function `A`, the loop is left after at most `max_i + 2` passes (each applies `A` once). -/
theorem C49_terminates (A : (Fin n → K) → Fin n → K) (b : Fin n → K) (x0 : Option (Fin n → K)) (err : K)
    (maxI : ℕ) : ∃ res, cgSolve A b x0 err (some maxI) (maxI + 2) = some res := by
  obtain ⟨x, hx⟩ := cgLoop_terminates A err maxI (maxI + 2) (cgInit A b x0) (by omega) (by omega)
  exact ⟨_, by rw [cgSolve, Option.getD_some, hx]; rfl⟩

/-- C49.  If an initial array is passed in, it holds the returned result afterwards. -/
theorem C49_x0_overwritten (A : (Fin n → K) → Fin n → K) (b x0 : Fin n → K) (err : K) (maxI : Option ℕ) (fuel : ℕ)
    (x : Fin n → K) (after : Option (Fin n → K)) (h : cgSolve A b (some x0) err maxI fuel = some (x, after)) :
    after = some x := by
  rw [cgSolve, Option.map_eq_some_iff] at h
  obtain ⟨y, -, hy⟩ := h
  obtain ⟨rfl, rfl⟩ := Prod.mk.inj hy
  rfl

/-- C49.  In exact arithmetic with `err = 0` and at least `n - 2` allowed iterations, the returned vector solves
`A x = b`, for every symmetric positive definite `A`, right hand side and starting vector. -/
theorem C49_exact (A : (Fin n → K) → Fin n → K) (hA : Spec.IsSPD A) (b : Fin n → K) (x0 : Option (Fin n → K))
    (maxI : ℕ) (hmax : n ≤ maxI + 2) (fuel : ℕ) (x : Fin n → K) (after : Option (Fin n → K))
    (h : cgSolve A b x0 0 (some maxI) fuel = some (x, after)) : A x = b := by
  rw [cgSolve, Option.map_eq_some_iff] at h
  obtain ⟨y, hy, hyx⟩ := h
  obtain ⟨rfl, rfl⟩ := Prod.mk.inj hyx
  have hs := start hA b x0
  obtain ⟨k, -, hbef, hend⟩ := cgLoop_result A 0 _ fuel _ y hy
  obtain ⟨m, hmn, hm0, hmnz⟩ := exists_zero hA hs
  have hsol : ∀ j, (seq A (cgInit A b x0) j).r = 0 → A (seq A (cgInit A b x0) j).x = b := by
    intro j hj
    have := seq_res hA hs j
    rw [hj] at this
    exact (sub_eq_zero.1 this.symm)
  have hkm : k ≤ m := by
    by_contra hc
    refine (hbef m (by omega)).1 ?_
    rw [dir_zero hA hs hm0, zero_dotProduct]
  rcases hend with ⟨h1, rfl⟩ | ⟨h1, rfl, h3 | h3⟩
  · apply hsol
    by_contra hne
    exact dAd_ne hA hs (k := k) (fun i hi => by
      rcases hi.lt_or_eq with h | rfl
      · exact hmnz i (by omega)
      · exact hne) h1
  · exfalso
    rw [seq_sq hA hs] at h3
    have h0 : (seq A (cgInit A b x0) k).r ⬝ᵥ (seq A (cgInit A b x0) k).r = 0 :=
      le_antisymm (by simpa using h3) (Finset.sum_nonneg fun i _ => mul_self_nonneg _)
    exact h1 (by rw [dir_zero hA hs (dotProduct_self_eq_zero.1 h0), zero_dotProduct])
  · have e : (cgInit A b x0).i = 0 := by cases x0 <;> rfl
    rw [seq_i hA hs, e] at h3
    have hkm' : k ≠ m := by
      rintro rfl
      exact h1 (by rw [dir_zero hA hs hm0, zero_dotProduct])
    simp only [Option.getD_some] at h3
    have : k + 1 = m := by omega
    rw [this]
    exact hsol m hm0

/-- C49.  In particular with the default iteration bound. -/
theorem C49_exact_default (A : (Fin n → K) → Fin n → K) (hA : Spec.IsSPD A) (b : Fin n → K)
    (x0 : Option (Fin n → K)) (fuel : ℕ) (x : Fin n → K) (after : Option (Fin n → K))
    (h : cgSolve A b x0 0 none fuel = some (x, after)) : A x = b :=
  C49_exact A hA b x0 (5 * n / 2 + 1) (by omega) fuel x after h

/-- C49.  For every error threshold and iteration bound the result is at least as good as the start in the functional
`x·Ax - 2 b·x`, whose minimum is the solution; equality only if the start already was the solution. -/
theorem C49_energy_decreases (A : (Fin n → K) → Fin n → K) (hA : Spec.IsSPD A) (b x0 : Fin n → K) (err : K)
    (maxI : Option ℕ) (fuel : ℕ) (x : Fin n → K) (after : Option (Fin n → K))
    (h : cgSolve A b (some x0) err maxI fuel = some (x, after)) :
    (A x0 = b → x = x0) ∧
    (A x0 ≠ b → ∑ j, x j * A x j - 2 * ∑ j, b j * x j < ∑ j, x0 j * A x0 j - 2 * ∑ j, b j * x0 j) := by
  rw [cgSolve, Option.map_eq_some_iff] at h
  obtain ⟨y, hy, hyx⟩ := h
  obtain ⟨rfl, rfl⟩ := Prod.mk.inj hyx
  have hs := start hA b (some x0)
  set s := cgInit A b (some x0) with hsdef
  obtain ⟨k, -, hbef, hend⟩ := cgLoop_result A err _ fuel _ y hy
  have hx0 : (seq A s 0).x = x0 := rfl
  have hr0 : (seq A s 0).r = A x0 - b := rfl
  have hnz : ∀ i, (seq A s i).d ⬝ᵥ A (seq A s i).d ≠ 0 → (seq A s i).r ≠ 0 := fun i hi h0 =>
    hi (by rw [dir_zero hA hs h0, zero_dotProduct])
  constructor
  · intro hb
    have h0 : (seq A s 0).d ⬝ᵥ A (seq A s 0).d = 0 := by
      rw [dir_zero hA hs (k := 0) (by rw [hr0, hb, sub_self]), zero_dotProduct]
    have hk : k = 0 := by
      by_contra hk
      exact (hbef 0 (by omega)).1 h0
    subst hk
    rcases hend with ⟨-, rfl⟩ | ⟨h1, -, -⟩
    · exact hx0
    · exact absurd h0 h1
  · intro hb
    have hstep : ∀ m, (∀ i < m, (seq A s i).r ≠ 0) → 0 < m →
        (seq A s m).x ⬝ᵥ A (seq A s m).x - 2 * (b ⬝ᵥ (seq A s m).x) < x0 ⬝ᵥ A x0 - 2 * (b ⬝ᵥ x0) := by
      intro m
      induction m with
      | zero => intro _ h; omega
      | succ m ih =>
        intro hm _
        have hm' : ∀ i ≤ m, (seq A s i).r ≠ 0 := fun i hi => hm i (by omega)
        have e := energy_step hA hs m hm'
        have hpos : 0 < ((seq A s m).r ⬝ᵥ (seq A s m).r) ^ 2 / ((seq A s m).d ⬝ᵥ A (seq A s m).d) := by
          apply div_pos
          · exact pow_pos (lt_of_le_of_ne (Finset.sum_nonneg fun i _ => mul_self_nonneg _)
              (fun h0 => hm' m le_rfl (dotProduct_self_eq_zero.1 h0.symm))) 2
          · refine hA.pos _ fun h0 => dAd_ne hA hs hm' (by rw [h0, zero_dotProduct])
        rcases Nat.eq_zero_or_pos m with rfl | hmp
        · rw [e, hx0]; linarith
        · have := ih (fun i hi => hm i (by omega)) hmp
          rw [e]; linarith
    rcases hend with ⟨h1, rfl⟩ | ⟨h1, rfl, -⟩
    · have hk : 0 < k := by
        by_contra hk
        have : k = 0 := by omega
        subst this
        exact dAd_ne hA hs (k := 0) (fun i hi => by
          have : i = 0 := by omega
          subst this; rw [hr0]; exact sub_ne_zero.2 hb) h1
      exact hstep k (fun i hi => hnz i (hbef i hi).1) hk
    · exact hstep (k + 1) (fun i hi => by
        rcases (Nat.lt_succ_iff.1 hi).lt_or_eq with h | rfl
        · exact hnz i (hbef i h).1
        · exact hnz _ h1) (by omega)

/-- The map used in the examples: `diag(1, 100)`. -/
def cgEx (x : Fin 2 → ℚ) : Fin 2 → ℚ := ![x 0, 100 * x 1]

theorem cgEx_spd : Spec.IsSPD cgEx where
  add x y := by ext i; fin_cases i <;> simp [cgEx, mul_add]
  smul c x := by ext i; fin_cases i <;> simp [cgEx]; ring
  symm x y := by simp [cgEx, Fin.sum_univ_two]; ring
  pos x hx := by
    have h : x 0 ≠ 0 ∨ x 1 ≠ 0 := by
      by_contra hc
      push Not at hc
      exact hx (by ext i; fin_cases i <;> simp [hc.1, hc.2])
    simp only [cgEx, Fin.sum_univ_two, cons_val_zero, cons_val_one]
    rcases h with h | h
    · nlinarith [sq_nonneg (x 1), mul_self_pos.2 h]
    · nlinarith [sq_nonneg (x 0), mul_self_pos.2 h]

/-- C49, where the documentation ("err: the residual error threshold for stopping the iteration") is not met: the loop
stops because the residual before the last update was below the threshold, but the last update can enlarge the
residual.  Here the returned vector has `|A x - b|² > 20 err²` although 100 iterations were allowed. -/
theorem C49_threshold_defect : ∃ (x : Fin 2 → ℚ),
    cgSolve cgEx ![-10, -1] none (21/2) (some 100) 102 = some (x, none) ∧
    20 * (21/2) ^ 2 < ∑ j, (cgEx x j - ![-10, -1] j) ^ 2 := by
  refine ⟨![-101/20, -101/200], ?_, by decide +kernel⟩
  decide +kernel

-- the hypotheses of the theorems are met by a two dimensional problem started at `(1, 1)`
example : ∃ x, cgSolve cgEx ![5, 7] (some ![1, 1]) 0 (some 0) 2 = some (x, some x) ∧ cgEx x = ![5, 7] := by
  obtain ⟨⟨x, a⟩, h⟩ := C49_terminates cgEx ![5, 7] (some ![1, 1]) 0 0
  exact ⟨x, by rw [← C49_x0_overwritten _ _ _ _ _ _ _ _ h]; exact h, C49_exact cgEx cgEx_spd _ _ 0 (by decide) _ _ _ h⟩

example : cgSolve cgEx ![5, 7] (some ![1, 1]) 0 (some 0) 2 = some (![5, 7/100], some ![5, 7/100]) := by decide +kernel

end TB

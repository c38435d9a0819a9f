import Mathlib.Tactic.Positivity
import Mathlib.Tactic.FieldSimp
import Mathlib.Algebra.Order.BigOperators.Group.List
import Verif.Model.CheckSym
import Verif.Model.NamedGroups
import Verif.Lemmas.Symmetry

/-!
# Property C128: `Symmetry.check_symmetry` and `Symmetry.check_neighbors`
-/

namespace TB.PropsCheckSym
open TB TB.CheckSym Matrix

variable {d m : ℕ}

/-! ## Specification -/

/-- The function has the same value at the point and at its images under all listed operations. -/
def Spec.InvariantAt (S : List (Mat ℝ d)) (foo : (Fin d → ℝ) → Fin m → ℂ) (r : Fin d → ℝ) : Prop :=
  ∀ s ∈ S, ∀ t ∈ S, foo (s *ᵥ r) = foo (t *ᵥ r)

/-! ## Lemmas -/

theorem norm2_nonneg (x : Fin m → ℝ) : 0 ≤ norm2 x := Real.sqrt_nonneg _

theorem std_sq (l : List (Fin m → ℂ)) (j : Fin m) : std l j ^ 2 =
    (l.map fun v => ‖v j - (l.map fun v => v j).sum / l.length‖ ^ 2).sum / l.length := by
  rw [std, Real.sq_sqrt]
  refine div_nonneg (List.sum_nonneg ?_) (Nat.cast_nonneg _)
  intro x hx
  obtain ⟨v, -, rfl⟩ := List.mem_map.1 hx
  positivity

theorem norm2_sq (x : Fin m → ℝ) : norm2 x ^ 2 = ∑ j, x j ^ 2 := by
  rw [norm2, Real.sq_sqrt (Finset.sum_nonneg fun _ _ => sq_nonneg _)]

theorem std_const {l : List (Fin m → ℂ)} {v : Fin m → ℂ} (h : ∀ x ∈ l, x = v) (j : Fin m) : std l j = 0 := by
  have e : l = List.replicate l.length v := List.eq_replicate_iff.2 ⟨rfl, h⟩
  by_cases hl : l.length = 0
  · have : l = [] := List.length_eq_zero_iff.1 hl
    subst this
    simp [std]
  · rw [std, e]
    have hc : ((l.length : ℂ)) ≠ 0 := by exact_mod_cast hl
    simp [hc]

/-- The component of a value differs from the mean by at most the norm of the deviations times the root of the number of values. -/
theorem dev_le {l : List (Fin m → ℂ)} {v : Fin m → ℂ} (hv : v ∈ l) :
    (∑ j, ‖v j - (l.map fun v => v j).sum / l.length‖ ^ 2) ≤ l.length * norm2 (std l) ^ 2 := by
  rw [norm2_sq, Finset.mul_sum]
  refine Finset.sum_le_sum fun j _ => ?_
  have hl : (0 : ℝ) < l.length := by exact_mod_cast List.length_pos_of_mem hv
  rw [std_sq, mul_div_cancel₀ _ hl.ne']
  refine List.single_le_sum ?_ _ (List.mem_map.2 ⟨v, hv, rfl⟩)
  intro x hx
  obtain ⟨w, -, rfl⟩ := List.mem_map.1 hx
  positivity

theorem norm2_std_zero {l : List (Fin m → ℂ)} : norm2 (std l) = 0 ↔ ∀ v ∈ l, ∀ w ∈ l, v = w := by
  constructor
  · intro h
    have key : ∀ v ∈ l, ∀ j, v j = (l.map fun v => v j).sum / l.length := by
      intro v hv j
      have h1 := dev_le hv
      rw [h, zero_pow two_ne_zero, mul_zero] at h1
      have h2 := (Finset.sum_eq_zero_iff_of_nonneg (fun _ _ => sq_nonneg _)).1
        (le_antisymm h1 (Finset.sum_nonneg fun _ _ => sq_nonneg _)) j (Finset.mem_univ j)
      have h3 : v j - (l.map fun v => v j).sum / l.length = 0 := by simpa using h2
      exact sub_eq_zero.1 h3
    intro v hv w hw
    funext j
    rw [key v hv j, key w hw j]
  · intro h
    rcases l with _ | ⟨v, l⟩
    · simp [norm2, std]
    · have : std (v :: l) = 0 := funext fun j => std_const (v := v) (fun x hx => h x hx v (by simp)) j
      rw [this]
      simp [norm2]

theorem check_iff (σ : Sym ℝ d) (foo : (Fin d → ℝ) → Fin m → ℂ) (tol : ℝ) (rs : Fin 50 → Fin d → ℝ) :
    checkSymmetry σ foo tol rs = true ↔ ∀ i, norm2 (std (σ.S.map fun s => foo (s *ᵥ rs i))) ≤ tol := by
  rw [checkSymmetry, List.all_eq_true]
  simp only [List.mem_ofFn, Bool.not_eq_true', decide_eq_false_iff_not, not_lt]
  exact ⟨fun h i => h _ ⟨i, rfl⟩, fun h r ⟨i, hi⟩ => hi ▸ h i⟩

theorem invariantAt_iff (S : List (Mat ℝ d)) (foo : (Fin d → ℝ) → Fin m → ℂ) (r : Fin d → ℝ) :
    Spec.InvariantAt S foo r ↔ norm2 (std (S.map fun s => foo (s *ᵥ r))) = 0 := by
  rw [norm2_std_zero]
  constructor
  · intro h v hv w hw
    obtain ⟨s, hs, rfl⟩ := List.mem_map.1 hv
    obtain ⟨t, ht, rfl⟩ := List.mem_map.1 hw
    exact h s hs t ht
  · intro h s hs t ht
    exact h _ (List.mem_map.2 ⟨s, hs, rfl⟩) _ (List.mem_map.2 ⟨t, ht, rfl⟩)

/-! ## Theorems -/

/-- **C128** `check_symmetry` for any 50 points.  With tolerance 0 it returns `True` exactly if the function is invariant under `self.S` at all
of them; a negative answer with a tolerance that is not negative names a broken symmetry at one of them; a function that is invariant
everywhere passes; with a negative tolerance nothing passes. -/
theorem C128_check_symmetry (σ : Sym ℝ d) (foo : (Fin d → ℝ) → Fin m → ℂ) (tol : ℝ) (rs : Fin 50 → Fin d → ℝ) :
    (tol = 0 → (checkSymmetry σ foo tol rs = true ↔ ∀ i, Spec.InvariantAt σ.S foo (rs i))) ∧
    (0 ≤ tol → checkSymmetry σ foo tol rs = false → ∃ i, ¬ Spec.InvariantAt σ.S foo (rs i)) ∧
    (0 ≤ tol → (∀ r, Spec.InvariantAt σ.S foo r) → checkSymmetry σ foo tol rs = true) ∧
    (tol < 0 → checkSymmetry σ foo tol rs = false) := by
  have hsound : 0 ≤ tol → (∀ i, Spec.InvariantAt σ.S foo (rs i)) → checkSymmetry σ foo tol rs = true := by
    intro ht h
    rw [check_iff]
    intro i
    rw [(invariantAt_iff _ _ _).1 (h i)]
    exact ht
  refine ⟨?_, ?_, fun ht h => hsound ht fun i => h _, ?_⟩
  · rintro rfl
    refine ⟨fun h i => ?_, hsound le_rfl⟩
    exact (invariantAt_iff _ _ _).2 (le_antisymm ((check_iff _ _ _ _).1 h i) (norm2_nonneg _))
  · intro ht h
    by_contra hc
    rw [hsound ht (not_exists_not.1 hc)] at h
    cases h
  · intro ht
    rw [← Bool.not_eq_true, check_iff]
    intro h
    exact absurd (lt_of_le_of_lt (h 0) ht) (not_lt.2 (norm2_nonneg _))

/-- Non-trivial: the sum of the coordinates is not invariant under the exchange of sign, and that is found at any point with a sum that is
not zero. -/
example : checkSymmetry (⟨[1, -1], false⟩ : Sym ℝ 2) (fun r (_ : Fin 1) => ((r 0 + r 1 : ℝ) : ℂ)) 0 (fun _ => ![1 / 2, 1 / 3]) = false := by
  rw [← Bool.not_eq_true, (C128_check_symmetry _ _ 0 _).1 rfl]
  intro h
  have := congrFun (h 0 1 (by simp) (-1) (by simp)) 0
  have h2 := Complex.ofReal_injective this
  simp [Matrix.neg_mulVec] at h2
  norm_num at h2

/-- **C128** What a positive answer says: at each of the 50 points the values at two images differ by at most `2 * tol * sqrt(len(self.S))` (in the
norm of the vector of values). -/
theorem C128_check_bound (σ : Sym ℝ d) (foo : (Fin d → ℝ) → Fin m → ℂ) (tol : ℝ) (rs : Fin 50 → Fin d → ℝ)
    (h : checkSymmetry σ foo tol rs = true) (i : Fin 50) (s t : Mat ℝ d) (hs : s ∈ σ.S) (ht : t ∈ σ.S) :
    √(∑ j, ‖foo (s *ᵥ rs i) j - foo (t *ᵥ rs i) j‖ ^ 2) ≤ 2 * tol * √(σ.S.length) := by
  have hb := (check_iff _ _ _ _).1 h i
  have h0 := norm2_nonneg (std (σ.S.map fun s => foo (s *ᵥ rs i)))
  have ht0 : 0 ≤ tol := h0.trans hb
  have hsq : norm2 (std (σ.S.map fun s => foo (s *ᵥ rs i))) ^ 2 ≤ tol ^ 2 := pow_le_pow_left₀ h0 hb 2
  set l := σ.S.map fun s => foo (s *ᵥ rs i) with hl
  have hlen : l.length = σ.S.length := by rw [hl, List.length_map]
  have d1 := dev_le (l := l) (v := foo (s *ᵥ rs i)) (List.mem_map.2 ⟨s, hs, rfl⟩)
  have d2 := dev_le (l := l) (v := foo (t *ᵥ rs i)) (List.mem_map.2 ⟨t, ht, rfl⟩)
  have hn : (0 : ℝ) ≤ l.length := Nat.cast_nonneg _
  have key : (∑ j, ‖foo (s *ᵥ rs i) j - foo (t *ᵥ rs i) j‖ ^ 2) ≤ 4 * (l.length * tol ^ 2) := by
    calc (∑ j, ‖foo (s *ᵥ rs i) j - foo (t *ᵥ rs i) j‖ ^ 2)
        ≤ ∑ j, (2 * ‖foo (s *ᵥ rs i) j - (l.map fun v => v j).sum / l.length‖ ^ 2 +
            2 * ‖foo (t *ᵥ rs i) j - (l.map fun v => v j).sum / l.length‖ ^ 2) := by
          refine Finset.sum_le_sum fun j _ => ?_
          have h1 := norm_sub_le_norm_sub_add_norm_sub (foo (s *ᵥ rs i) j) ((l.map fun v => v j).sum / l.length) (foo (t *ᵥ rs i) j)
          rw [norm_sub_rev ((l.map fun v => v j).sum / l.length) (foo (t *ᵥ rs i) j)] at h1
          nlinarith [norm_nonneg (foo (s *ᵥ rs i) j - foo (t *ᵥ rs i) j), sq_nonneg
            (‖foo (s *ᵥ rs i) j - (l.map fun v => v j).sum / l.length‖ - ‖foo (t *ᵥ rs i) j - (l.map fun v => v j).sum / l.length‖)]
      _ ≤ 2 * (l.length * tol ^ 2) + 2 * (l.length * tol ^ 2) := by
          rw [Finset.sum_add_distrib, ← Finset.mul_sum, ← Finset.mul_sum]
          have := mul_le_mul_of_nonneg_left hsq hn
          linarith
      _ = 4 * (l.length * tol ^ 2) := by ring
  calc √(∑ j, ‖foo (s *ᵥ rs i) j - foo (t *ᵥ rs i) j‖ ^ 2) ≤ √(4 * (l.length * tol ^ 2)) := Real.sqrt_le_sqrt key
    _ = 2 * tol * √(σ.S.length) := by
      rw [← hlen, show 4 * ((l.length : ℝ) * tol ^ 2) = (2 * tol) ^ 2 * l.length by ring, Real.sqrt_mul (by positivity),
        Real.sqrt_sq (by positivity)]

/-- Non-trivial: the square of a coordinate passes for the exchange of sign. -/
example : checkSymmetry (⟨[1, -1], false⟩ : Sym ℝ 1) (fun r (_ : Fin 1) => ((r 0 ^ 2 : ℝ) : ℂ)) (1 / 100) (fun i => ![i / 50]) = true := by
  refine (C128_check_symmetry _ _ _ _).2.2.1 (by norm_num) ?_
  intro r s hs t ht
  simp only [List.mem_cons, List.not_mem_nil, or_false] at hs ht
  rcases hs with rfl | rfl <;> rcases ht with rfl | rfl <;> simp [Matrix.neg_mulVec]

/-- **C128** Disagreement with the description ("True if the symmetry wasn't broken"): inversion is not checked.  For the group with inversion alone
there is a function that passes at all points with every tolerance and is not invariant at any point off a plane. -/
theorem C128_defect_inversion :
    ∃ σ : Sym ℝ 3, Sym.inv ℝ 3 = .ok σ ∧ ∃ foo : (Fin 3 → ℝ) → Fin 1 → ℂ,
      (∀ tol rs, 0 ≤ tol → checkSymmetry σ foo tol rs = true) ∧ ∀ r, r 0 ≠ 0 → ¬ Spec.InvariantAt σ.ops foo r := by
  refine ⟨⟨[1], true⟩, ?_, fun r _ => ((r 0 : ℝ) : ℂ), ?_, ?_⟩
  · have hne : (1 : Mat ℝ 3) ≠ -1 := by
      intro h
      have := congrFun (congrFun h 0) 0
      simp at this
      norm_num at this
    simp [Sym.inv, mkSym, pcZero, hne]
  · intro tol rs ht
    refine (C128_check_symmetry _ _ _ _).2.2.1 ht ?_
    intro r s hs t ht
    simp only [List.mem_singleton] at hs ht
    rw [hs, ht]
  · intro r hr h
    have h1 := congrFun (h 1 (by simp [Sym.ops]) (-1) (by simp [Sym.ops])) 0
    have h2 := Complex.ofReal_injective h1
    simp [Matrix.neg_mulVec] at h2
    exact hr (by linarith)

/-- **C128** Disagreement with the description ("ValueError: Raised if the given positions don't fit the symmetry"): in three dimensions
`check_neighbors` raises `ValueError` for every symmetry and every list with at least one position, fitting or not; in other dimensions it
raises `AssertionError`. -/
theorem C128_check_neighbors (σ : Sym ℝ d) (hσ : ∃ S inv, mkSym S inv = .ok σ) (neighbors : List (Fin d → ℝ)) :
    (d ≠ 3 → checkNeighbors σ neighbors = .error .assertionError) ∧
    (d = 3 → neighbors ≠ [] → checkNeighbors σ neighbors = .error .valueError) ∧
    (d = 3 → neighbors = [] → checkNeighbors σ neighbors = .ok ()) := by
  refine ⟨fun h => by rw [checkNeighbors, if_pos h], ?_, ?_⟩
  · rintro rfl hn
    have h1 : (1 : Mat ℝ 3) ∈ σ.S := Sym.Constructed.one_mem hσ
    rw [checkNeighbors, if_neg (not_not.2 rfl)]
    obtain ⟨n, ns, rfl⟩ := List.exists_cons_of_ne_nil hn
    obtain ⟨s, S, hS⟩ := List.exists_cons_of_ne_nil (List.ne_nil_of_mem h1)
    rw [opsLoop, hS]
    simp [matmulVecShape, bind, Except.bind]
  · rintro rfl rfl
    rw [checkNeighbors, if_neg (not_not.2 rfl)]
    rfl

/-- Non-trivial: the nearest places of the simple cubic lattice, which fit the symmetry without operations, are rejected. -/
example : checkNeighbors (⟨[1], false⟩ : Sym ℝ 3) [![0, 0, 0], ![1, 0, 0], ![0, 1, 0], ![0, 0, 1]] = .error .valueError := by
  refine (C128_check_neighbors _ ⟨[1], false, ?_⟩ _).2.1 rfl (by simp)
  have hne : (1 : Mat ℝ 3) ≠ -1 := by
    intro h
    have := congrFun (congrFun h 0) 0
    simp at this
    norm_num at this
  simp [mkSym, pcZero, hne]

end TB.PropsCheckSym

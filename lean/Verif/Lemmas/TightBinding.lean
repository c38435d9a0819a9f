import Mathlib.Tactic.Module
import Mathlib.Data.List.GetD
import Mathlib.Tactic.LinearCombination
import Verif.Model.TightBinding
import Verif.Lemmas.Fourier

/-! # Lemmas about `TightBindingModel` -/

namespace TB
open Matrix

variable {d n : ℕ}

theorem foldlM_smul (g : ℕ → Except Err ℂ) (c : ℕ → ℂ) (L : List (CMat n)) (M : CMat n) (s : ℕ) (h : ∀ i, i < L.length → g (s + i) = .ok (c (s + i))) :
    (L.zipIdx s).foldlM (msumStep g) M =
      .ok (M + ((L.zipIdx s).map fun p => c p.2 • p.1).sum) := by
  induction L generalizing M s with
  | nil => simp [List.zipIdx, pure, Except.pure]
  | cons P L ih =>
    have h0 := h 0 (by simp)
    simp only [Nat.add_zero] at h0
    have hs : msumStep g M (P, s) = .ok (M + c s • P) := by rw [msumStep]; simp only [h0]
    rw [List.zipIdx_cons, List.foldlM_cons, hs, List.map_cons, List.sum_cons, ← add_assoc]
    exact ih (M + c s • P) (s + 1) fun i hi => by
      have := h (i + 1) (by simpa using hi)
      rwa [show s + (i + 1) = s + 1 + i by ring] at this

/-- The first error of the loop. -/
theorem foldlM_error (g : ℕ → Except Err ℂ) (e : Err) (L : List (CMat n)) (M : CMat n) (s : ℕ) (hg : ∀ i e', g i = .error e' → e' = e)
    (h : ∃ i, i < L.length ∧ g (s + i) = .error e) :
    (L.zipIdx s).foldlM (msumStep g) M = .error e := by
  induction L generalizing M s with
  | nil => obtain ⟨i, hi, -⟩ := h; simp at hi
  | cons P L ih =>
    obtain ⟨i, hi, hi2⟩ := h
    rw [List.zipIdx_cons, List.foldlM_cons]
    cases hs : g s with
    | error e' =>
      have h1 : msumStep g M (P, s) = .error e' := by rw [msumStep]; simp only [hs]
      rw [h1, hg _ _ hs]
      rfl
    | ok c =>
      have h1 : msumStep g M (P, s) = .ok (M + c • P) := by rw [msumStep]; simp only [hs]
      rw [h1]
      exact ih (M + c • P) (s + 1) (by
        cases i with
        | zero => rw [Nat.add_zero, hs] at hi2; cases hi2
        | succ i => exact ⟨i, by simpa using hi, by rw [← hi2]; congr 1; ring⟩)

theorem sum_zip_idx (f : RVec d → ℂ) (c : ℕ → ℂ) (rest : List (RVec d)) (A : List (CMat n)) (hA : A.length = rest.length) (s : ℕ)
    (h : ∀ i (hi : i < rest.length), c (s + i) = f rest[i]) :
    ((A.zipIdx s).map fun p => c p.2 • p.1).sum = ((rest.zip A).map fun p => f p.1 • p.2).sum := by
  induction rest generalizing A s with
  | nil => cases A with
    | nil => rfl
    | cons a A => simp at hA
  | cons r rest ih =>
    cases A with
    | nil => simp at hA
    | cons a A =>
      rw [List.zipIdx_cons, List.map_cons, List.sum_cons, List.zip_cons_cons, List.map_cons, List.sum_cons]
      have h0 := h 0 (by simp)
      simp only [Nat.add_zero, List.getElem_cons_zero] at h0
      rw [h0, ih A (by simpa using hA) (s + 1) fun i hi => ?_]
      have := h (i + 1) (by simpa using hi)
      rw [List.getElem_cons_succ] at this
      rw [← this]; congr 1; ring

/-- What `f`, `df`, `ddf` sum for parameters which fit the neighbours. -/
theorem msum_pick (t : TBM d n) (r0 : RVec d) (rest : List (RVec d)) (P0 : CMat n) (A B : List (CMat n)) (hn : t.nbrs = r0 :: rest)
    (hP : t.params = P0 :: (A ++ B)) (hA : A.length = rest.length) (hB : B.length = rest.length) (one : ℂ) (fc fs : RVec d → ℂ) :
    t.msum (t.pick one fc fs) = .ok (one • P0 + (((rest.zip A).map fun p => fc p.1 • p.2).sum + ((rest.zip B).map fun p => fs p.1 • p.2).sum)) := by
  set N := rest.length with hN
  have hlen : t.nbrs.length = N + 1 := by rw [hn]; rfl
  let C : ℕ → ℂ := fun i => if i = 0 then one else if i < N + 1 then fc (rest.getD (i - 1) 0) else fs (rest.getD (i - 1 - N) 0)
  have hC : ∀ i, C i = if i = 0 then one else if i < N + 1 then fc (rest.getD (i - 1) 0) else fs (rest.getD (i - 1 - N) 0) := fun i => rfl
  have hpick : ∀ i, i < 2 * N + 1 → t.pick one fc fs i = .ok (C i) := by
    intro i hi
    rw [hC]
    rw [TBM.pick, hlen]
    by_cases h0 : i = 0
    · simp [h0]
    · rw [if_neg h0, if_neg h0]
      simp only
      by_cases h1 : i < N + 1
      · rw [Nat.mod_eq_of_lt h1, Nat.div_eq_of_lt h1, hn]
        obtain ⟨j, rfl⟩ : ∃ j, i = j + 1 := ⟨i - 1, by omega⟩
        have hj : j < rest.length := by omega
        simp only [Nat.add_zero, List.getElem?_cons_succ, List.getElem?_eq_getElem hj, if_pos h1, Nat.add_sub_cancel, List.getD_eq_getElem _ _ hj]
      · obtain ⟨j, rfl⟩ : ∃ j, i = j + (N + 1) := ⟨i - (N + 1), by omega⟩
        have hj : j < rest.length := by omega
        rw [Nat.add_mod_right, Nat.add_div_right _ (by omega), Nat.mod_eq_of_lt (by omega), Nat.div_eq_of_lt (by omega), hn]
        have e : j + (N + 1) - 1 - N = j := by omega
        simp only [Nat.zero_add, List.getElem?_cons_succ, List.getElem?_eq_getElem hj, if_neg h1, e]
        rw [List.getD_eq_getElem _ _ hj]
  rw [TBM.msum, if_neg (by rw [hP]; simp), hP]
  have := foldlM_smul (t.pick one fc fs) C
    (P0 :: (A ++ B)) 0 0 (fun i hi => by
      rw [Nat.zero_add]
      refine hpick i ?_
      simp only [List.length_cons, List.length_append] at hi
      omega)
  rw [this, zero_add]
  congr 1
  rw [List.zipIdx_cons, List.map_cons, List.sum_cons, List.zipIdx_append, List.map_append, List.sum_append]
  congr 2
  · refine sum_zip_idx fc C rest A hA _ fun i hi => ?_
    have : rest.getD i 0 = rest[i] := List.getD_eq_getElem _ _ hi
    rw [hC, if_neg (by omega), if_pos (by omega), show 0 + 1 + i - 1 = i by omega, this]
  · refine sum_zip_idx fs C rest B hB _ fun i hi => ?_
    have : rest.getD i 0 = rest[i] := List.getD_eq_getElem _ _ hi
    rw [hC, if_neg (by omega), if_neg (by omega), show 0 + 1 + A.length + i - 1 - N = i by omega, this]

/-- A sum of cosines and sines with hermitian matrices as a sum of terms and their adjoints. -/
theorem trig_sum (c : RVec d → ℂ) (fc fs : RVec d → ℝ) (h : ∀ r, c r = (fc r : ℂ) + (fs r : ℂ) * Complex.I) (rest : List (RVec d)) (A B : List (CMat n))
    (hA : A.length = rest.length) (hB : B.length = rest.length) (hAh : ∀ X ∈ A, X.IsHermitian) (hBh : ∀ X ∈ B, X.IsHermitian) :
    ((rest.zip A).map fun p => (fc p.1 : ℂ) • p.2).sum + ((rest.zip B).map fun p => (fs p.1 : ℂ) • p.2).sum =
      ((rest.zip (List.zipWith (fun a b => (1 / 2 : ℂ) • (a - Complex.I • b)) A B)).map fun p => c p.1 • p.2 + (c p.1 • p.2)ᴴ).sum := by
  induction rest generalizing A B with
  | nil => simp
  | cons r rest ih =>
    cases A with
    | nil => simp at hA
    | cons a A =>
      cases B with
      | nil => simp at hB
      | cons b B =>
        have key := ih A B (by simpa using hA) (by simpa using hB) (fun X hX => hAh X (by simp [hX])) (fun X hX => hBh X (by simp [hX]))
        have ha := (hAh a (by simp)).eq
        have hb := (hBh b (by simp)).eq
        simp only [List.zip_cons_cons, List.map_cons, List.sum_cons, List.zipWith_cons_cons]
        rw [← key]
        have e : c r • ((1 / 2 : ℂ) • (a - Complex.I • b)) + (c r • ((1 / 2 : ℂ) • (a - Complex.I • b)))ᴴ = (fc r : ℂ) • a + (fs r : ℂ) • b := by
          rw [h r]
          simp only [conjTranspose_smul, conjTranspose_sub, ha, hb, Complex.star_def, map_add, map_mul, Complex.conj_ofReal, Complex.conj_I, map_div₀, map_one,
            Complex.conj_ofNat]
          ext i j
          simp only [Matrix.add_apply, Matrix.smul_apply, Matrix.sub_apply, smul_eq_mul]
          linear_combination (-(fs r : ℂ) * b i j) * Complex.I_mul_I
        rw [e]
        abel

end TB

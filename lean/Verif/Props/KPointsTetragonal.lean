import Verif.Props.KPoints

/-!
# C104: the points of the body centred tetragonal lattice
-/

set_option linter.unusedSimpArgs false
set_option linter.unusedTactic false
set_option linter.unreachableTactic false
set_option linter.unnecessarySeqFocus false
set_option linter.unusedVariables false

namespace TB.KPts
open Matrix Zone Lat

/-! ## Specification -/

/-- Body centred tetragonal, `c < 1`. -/
def Spec.tetraFlat : List (String × List (Fin 3 → ℤ)) :=
  [("G", []), ("X", [![0, 0, 1]]), ("M", [![-1, 1, 1]]), ("N", [![0, 1, 0]]), ("Z1", [![0, 1, 0], ![-1, 1, 1]]), ("Z", [![0, 1, 0], ![1, 0, -1]]), ("P", [![0, 0, 1], ![0, 1, 0], ![1, 0, 0]])]

/-- Body centred tetragonal, `c > 1`. -/
def Spec.tetraTall : List (String × List (Fin 3 → ℤ)) :=
  [("G", []), ("X", [![0, 0, 1]]), ("M", [![1, 1, -1]]), ("M2", [![-1, -1, 1]]), ("Z", [![1, 1, -1]]), ("N", [![0, 1, 0]]), ("N0", [![-1, 0, 1]]), ("N1", [![1, 0, 0]]), ("Sig", [![0, 1, 0], ![-1, 0, 1]]), ("S0", [![0, 1, 0], ![-1, 0, 1]]), ("S", [![1, 1, -1], ![0, 1, 0]]), ("Sig1", [![1, 1, -1], ![0, 1, 0]]), ("S2", [![-1, -1, 1], ![-1, 0, 1]]), ("R", [![0, 1, 0], ![-1, 0, 1], ![0, 0, 1]]), ("Y", [![0, 1, 0], ![-1, 0, 1], ![0, 0, 1]]), ("P", [![0, 1, 0], ![1, 0, 0], ![0, 0, 1]]), ("Y1", [![0, 1, 0], ![1, 0, 0], ![1, 1, -1]]), ("GG", [![0, 1, 0], ![1, 0, 0], ![1, 1, -1]]), ("G0", [![-1, 0, 1], ![0, -1, 1], ![-1, -1, 1]])]

/-! ## The zones -/

theorem sell_flat {c w : ℝ} (hw : c * w = 1) (h1 : 1 ≤ w ^ 2) :
    Sell (cols ![-1 / 2 * 1, 1 / 2 * 1, 1 / 2 * c] ![1 / 2 * 1, -1 / 2 * 1, 1 / 2 * c] ![1 / 2 * 1, 1 / 2 * 1, -1 / 2 * c])
      ![0, 1, w] ![1, 0, w] ![1, 1, 0] ![1, 1, 0] ![1, -1, 0] ![-1, 0, w] := by
  constructor
  · ext i j
    fin_cases i <;> fin_cases j <;> simp [Matrix.mul_apply, Fin.sum_univ_three, cols] <;> linarith
  · intro n0 n1 n2
    refine ⟨n0 + n1 + n2, n1, n0 + n1, ?_⟩
    funext i; fin_cases i <;> simp <;> ring
  all_goals
    simp only [vec3_dotProduct, Pi.add_apply, cons_val]
    nlinarith

theorem sell_tall {c w : ℝ} (hw : c * w = 1) (h1 : w ^ 2 ≤ 1) :
    Sell (cols ![-1 / 2 * 1, 1 / 2 * 1, 1 / 2 * c] ![1 / 2 * 1, -1 / 2 * 1, 1 / 2 * c] ![1 / 2 * 1, 1 / 2 * 1, -1 / 2 * c])
      ![0, 1, w] ![1, 0, w] ![1, 1, 0] ![1, 0, w] ![-1, 0, w] ![0, 1, -w] := by
  constructor
  · ext i j
    fin_cases i <;> fin_cases j <;> simp [Matrix.mul_apply, Fin.sum_univ_three, cols] <;> linarith
  · intro n0 n1 n2
    refine ⟨n0 + n1 + n2, n0, n0 + n2, ?_⟩
    funext i; fin_cases i <;> simp <;> ring
  all_goals
    simp only [vec3_dotProduct, Pi.add_apply, cons_val]
    nlinarith

theorem flat_G {w : ℝ} (h1 : 1 ≤ w ^ 2) : Seven ![1, 1, 0] ![1, -1, 0] ![-1, 0, w] 0 ∧
    (∀ n ∈ ([] : List (Fin 3 → ℤ)), 2 * ((0 : V3) ⬝ᵥ comb (cols ![0, 1, w] ![1, 0, w] ![1, 1, 0]) n) = comb (cols ![0, 1, w] ![1, 0, w] ![1, 1, 0]) n ⬝ᵥ comb (cols ![0, 1, w] ![1, 0, w] ![1, 1, 0]) n) ∧
    (0 : V3) = (List.zipWith (fun (x : ℝ) n => x • comb (cols ![0, 1, w] ![1, 0, w] ![1, 1, 0]) n) [] []).sum := by
  refine ⟨?_, ?_, ?_⟩
  · simp only [Seven, vec3_dotProduct, Pi.add_apply, cons_val, Pi.smul_apply, smul_eq_mul, Pi.zero_apply]
    refine ⟨?_, ?_, ?_, ?_, ?_, ?_, ?_⟩ <;> rw [abs_le] <;> constructor <;> nlinarith [sq_nonneg w]
  · simp
  · funext i
    fin_cases i <;> simp [comb_cols] <;> ring

theorem flat_X {w : ℝ} (h1 : 1 ≤ w ^ 2) : Seven ![1, 1, 0] ![1, -1, 0] ![-1, 0, w] ![1 / 2, 1 / 2, 0] ∧
    (∀ n ∈ ([![0, 0, 1]] : List (Fin 3 → ℤ)), 2 * (![1 / 2, 1 / 2, 0] ⬝ᵥ comb (cols ![0, 1, w] ![1, 0, w] ![1, 1, 0]) n) = comb (cols ![0, 1, w] ![1, 0, w] ![1, 1, 0]) n ⬝ᵥ comb (cols ![0, 1, w] ![1, 0, w] ![1, 1, 0]) n) ∧
    ![1 / 2, 1 / 2, 0] = (List.zipWith (fun (x : ℝ) n => x • comb (cols ![0, 1, w] ![1, 0, w] ![1, 1, 0]) n) [1 / 2] [![0, 0, 1]]).sum := by
  refine ⟨?_, ?_, ?_⟩
  · simp only [Seven, vec3_dotProduct, Pi.add_apply, cons_val, Pi.smul_apply, smul_eq_mul, Pi.zero_apply]
    refine ⟨?_, ?_, ?_, ?_, ?_, ?_, ?_⟩ <;> rw [abs_le] <;> constructor <;> nlinarith [sq_nonneg w]
  · intro n hn
    simp only [List.mem_cons, List.not_mem_nil, or_false] at hn
    rcases hn with rfl <;>
      simp only [comb_cols, vec3_dotProduct, Pi.add_apply, cons_val, Pi.smul_apply, smul_eq_mul] <;> push_cast <;> nlinarith [sq_nonneg w]
  · funext i
    fin_cases i <;> simp [comb_cols] <;> ring

theorem flat_M {w : ℝ} (h1 : 1 ≤ w ^ 2) : Seven ![1, 1, 0] ![1, -1, 0] ![-1, 0, w] ![1, 0, 0] ∧
    (∀ n ∈ ([![-1, 1, 1]] : List (Fin 3 → ℤ)), 2 * (![1, 0, 0] ⬝ᵥ comb (cols ![0, 1, w] ![1, 0, w] ![1, 1, 0]) n) = comb (cols ![0, 1, w] ![1, 0, w] ![1, 1, 0]) n ⬝ᵥ comb (cols ![0, 1, w] ![1, 0, w] ![1, 1, 0]) n) ∧
    ![1, 0, 0] = (List.zipWith (fun (x : ℝ) n => x • comb (cols ![0, 1, w] ![1, 0, w] ![1, 1, 0]) n) [1 / 2] [![-1, 1, 1]]).sum := by
  refine ⟨?_, ?_, ?_⟩
  · simp only [Seven, vec3_dotProduct, Pi.add_apply, cons_val, Pi.smul_apply, smul_eq_mul, Pi.zero_apply]
    refine ⟨?_, ?_, ?_, ?_, ?_, ?_, ?_⟩ <;> rw [abs_le] <;> constructor <;> nlinarith [sq_nonneg w]
  · intro n hn
    simp only [List.mem_cons, List.not_mem_nil, or_false] at hn
    rcases hn with rfl <;>
      simp only [comb_cols, vec3_dotProduct, Pi.add_apply, cons_val, Pi.smul_apply, smul_eq_mul] <;> push_cast <;> nlinarith [sq_nonneg w]
  · funext i
    fin_cases i <;> simp [comb_cols] <;> ring

theorem flat_N {w : ℝ} (h1 : 1 ≤ w ^ 2) : Seven ![1, 1, 0] ![1, -1, 0] ![-1, 0, w] ![1 / 2, 0, w / 2] ∧
    (∀ n ∈ ([![0, 1, 0]] : List (Fin 3 → ℤ)), 2 * (![1 / 2, 0, w / 2] ⬝ᵥ comb (cols ![0, 1, w] ![1, 0, w] ![1, 1, 0]) n) = comb (cols ![0, 1, w] ![1, 0, w] ![1, 1, 0]) n ⬝ᵥ comb (cols ![0, 1, w] ![1, 0, w] ![1, 1, 0]) n) ∧
    ![1 / 2, 0, w / 2] = (List.zipWith (fun (x : ℝ) n => x • comb (cols ![0, 1, w] ![1, 0, w] ![1, 1, 0]) n) [1 / 2] [![0, 1, 0]]).sum := by
  refine ⟨?_, ?_, ?_⟩
  · simp only [Seven, vec3_dotProduct, Pi.add_apply, cons_val, Pi.smul_apply, smul_eq_mul, Pi.zero_apply]
    refine ⟨?_, ?_, ?_, ?_, ?_, ?_, ?_⟩ <;> rw [abs_le] <;> constructor <;> nlinarith [sq_nonneg w]
  · intro n hn
    simp only [List.mem_cons, List.not_mem_nil, or_false] at hn
    rcases hn with rfl <;>
      simp only [comb_cols, vec3_dotProduct, Pi.add_apply, cons_val, Pi.smul_apply, smul_eq_mul] <;> push_cast <;> nlinarith [sq_nonneg w]
  · funext i
    fin_cases i <;> simp [comb_cols] <;> ring

theorem flat_Z1 {c w : ℝ} (hw : c * w = 1) (h1 : 1 ≤ w ^ 2) : Seven ![1, 1, 0] ![1, -1, 0] ![-1, 0, w] ![1, 0, (w - c) / 2] ∧
    (∀ n ∈ ([![0, 1, 0], ![-1, 1, 1]] : List (Fin 3 → ℤ)), 2 * (![1, 0, (w - c) / 2] ⬝ᵥ comb (cols ![0, 1, w] ![1, 0, w] ![1, 1, 0]) n) = comb (cols ![0, 1, w] ![1, 0, w] ![1, 1, 0]) n ⬝ᵥ comb (cols ![0, 1, w] ![1, 0, w] ![1, 1, 0]) n) ∧
    ![1, 0, (w - c) / 2] = (List.zipWith (fun (x : ℝ) n => x • comb (cols ![0, 1, w] ![1, 0, w] ![1, 1, 0]) n) [(1 - c ^ 2) / 2, (1 + c ^ 2) / 4] [![0, 1, 0], ![-1, 1, 1]]).sum := by
  have hc2 : c ^ 2 * w = c := by linear_combination c * hw
  refine ⟨?_, ?_, ?_⟩
  · simp only [Seven, vec3_dotProduct, Pi.add_apply, cons_val, Pi.smul_apply, smul_eq_mul, Pi.zero_apply]
    refine ⟨?_, ?_, ?_, ?_, ?_, ?_, ?_⟩ <;> rw [abs_le] <;> constructor <;> nlinarith [hw, sq_nonneg w]
  · intro n hn
    simp only [List.mem_cons, List.not_mem_nil, or_false] at hn
    rcases hn with rfl | rfl <;>
      simp only [comb_cols, vec3_dotProduct, Pi.add_apply, cons_val, Pi.smul_apply, smul_eq_mul] <;> push_cast <;> nlinarith [hw, sq_nonneg w]
  · funext i
    fin_cases i <;> simp [comb_cols] <;> linarith

theorem flat_Z {c w : ℝ} (hw : c * w = 1) (h1 : 1 ≤ w ^ 2) : Seven ![1, 1, 0] ![1, -1, 0] ![-1, 0, w] ![0, 0, (w + c) / 2] ∧
    (∀ n ∈ ([![0, 1, 0], ![1, 0, -1]] : List (Fin 3 → ℤ)), 2 * (![0, 0, (w + c) / 2] ⬝ᵥ comb (cols ![0, 1, w] ![1, 0, w] ![1, 1, 0]) n) = comb (cols ![0, 1, w] ![1, 0, w] ![1, 1, 0]) n ⬝ᵥ comb (cols ![0, 1, w] ![1, 0, w] ![1, 1, 0]) n) ∧
    ![0, 0, (w + c) / 2] = (List.zipWith (fun (x : ℝ) n => x • comb (cols ![0, 1, w] ![1, 0, w] ![1, 1, 0]) n) [(1 + c ^ 2) / 4, (1 + c ^ 2) / 4] [![0, 1, 0], ![1, 0, -1]]).sum := by
  have hc2 : c ^ 2 * w = c := by linear_combination c * hw
  refine ⟨?_, ?_, ?_⟩
  · simp only [Seven, vec3_dotProduct, Pi.add_apply, cons_val, Pi.smul_apply, smul_eq_mul, Pi.zero_apply]
    refine ⟨?_, ?_, ?_, ?_, ?_, ?_, ?_⟩ <;> rw [abs_le] <;> constructor <;> nlinarith [hw, sq_nonneg w]
  · intro n hn
    simp only [List.mem_cons, List.not_mem_nil, or_false] at hn
    rcases hn with rfl | rfl <;>
      simp only [comb_cols, vec3_dotProduct, Pi.add_apply, cons_val, Pi.smul_apply, smul_eq_mul] <;> push_cast <;> nlinarith [hw, sq_nonneg w]
  · funext i
    fin_cases i <;> simp [comb_cols] <;> linarith

theorem flat_P {w : ℝ} (h1 : 1 ≤ w ^ 2) : Seven ![1, 1, 0] ![1, -1, 0] ![-1, 0, w] ![1 / 2, 1 / 2, w / 2] ∧
    (∀ n ∈ ([![0, 0, 1], ![0, 1, 0], ![1, 0, 0]] : List (Fin 3 → ℤ)), 2 * (![1 / 2, 1 / 2, w / 2] ⬝ᵥ comb (cols ![0, 1, w] ![1, 0, w] ![1, 1, 0]) n) = comb (cols ![0, 1, w] ![1, 0, w] ![1, 1, 0]) n ⬝ᵥ comb (cols ![0, 1, w] ![1, 0, w] ![1, 1, 0]) n) ∧
    ![1 / 2, 1 / 2, w / 2] = (List.zipWith (fun (x : ℝ) n => x • comb (cols ![0, 1, w] ![1, 0, w] ![1, 1, 0]) n) [1 / 4, 1 / 4, 1 / 4] [![0, 0, 1], ![0, 1, 0], ![1, 0, 0]]).sum := by
  refine ⟨?_, ?_, ?_⟩
  · simp only [Seven, vec3_dotProduct, Pi.add_apply, cons_val, Pi.smul_apply, smul_eq_mul, Pi.zero_apply]
    refine ⟨?_, ?_, ?_, ?_, ?_, ?_, ?_⟩ <;> rw [abs_le] <;> constructor <;> nlinarith [sq_nonneg w]
  · intro n hn
    simp only [List.mem_cons, List.not_mem_nil, or_false] at hn
    rcases hn with rfl | rfl | rfl <;>
      simp only [comb_cols, vec3_dotProduct, Pi.add_apply, cons_val, Pi.smul_apply, smul_eq_mul] <;> push_cast <;> nlinarith [sq_nonneg w]
  · funext i
    fin_cases i <;> simp [comb_cols] <;> ring

theorem tall_G {w : ℝ} (h1 : w ^ 2 ≤ 1) : Seven ![1, 0, w] ![-1, 0, w] ![0, 1, -w] 0 ∧
    (∀ n ∈ ([] : List (Fin 3 → ℤ)), 2 * ((0 : V3) ⬝ᵥ comb (cols ![0, 1, w] ![1, 0, w] ![1, 1, 0]) n) = comb (cols ![0, 1, w] ![1, 0, w] ![1, 1, 0]) n ⬝ᵥ comb (cols ![0, 1, w] ![1, 0, w] ![1, 1, 0]) n) ∧
    (0 : V3) = (List.zipWith (fun (x : ℝ) n => x • comb (cols ![0, 1, w] ![1, 0, w] ![1, 1, 0]) n) [] []).sum := by
  refine ⟨?_, ?_, ?_⟩
  · simp only [Seven, vec3_dotProduct, Pi.add_apply, cons_val, Pi.smul_apply, smul_eq_mul, Pi.zero_apply]
    refine ⟨?_, ?_, ?_, ?_, ?_, ?_, ?_⟩ <;> rw [abs_le] <;> constructor <;> nlinarith [mul_nonneg (sub_nonneg.2 h1) (sq_nonneg w), sq_nonneg w]
  · simp
  · funext i
    fin_cases i <;> simp [comb_cols] <;> ring

theorem tall_X {w : ℝ} (h1 : w ^ 2 ≤ 1) : Seven ![1, 0, w] ![-1, 0, w] ![0, 1, -w] ![1 / 2, 1 / 2, 0] ∧
    (∀ n ∈ ([![0, 0, 1]] : List (Fin 3 → ℤ)), 2 * (![1 / 2, 1 / 2, 0] ⬝ᵥ comb (cols ![0, 1, w] ![1, 0, w] ![1, 1, 0]) n) = comb (cols ![0, 1, w] ![1, 0, w] ![1, 1, 0]) n ⬝ᵥ comb (cols ![0, 1, w] ![1, 0, w] ![1, 1, 0]) n) ∧
    ![1 / 2, 1 / 2, 0] = (List.zipWith (fun (x : ℝ) n => x • comb (cols ![0, 1, w] ![1, 0, w] ![1, 1, 0]) n) [1 / 2] [![0, 0, 1]]).sum := by
  refine ⟨?_, ?_, ?_⟩
  · simp only [Seven, vec3_dotProduct, Pi.add_apply, cons_val, Pi.smul_apply, smul_eq_mul, Pi.zero_apply]
    refine ⟨?_, ?_, ?_, ?_, ?_, ?_, ?_⟩ <;> rw [abs_le] <;> constructor <;> nlinarith [mul_nonneg (sub_nonneg.2 h1) (sq_nonneg w), sq_nonneg w]
  · intro n hn
    simp only [List.mem_cons, List.not_mem_nil, or_false] at hn
    rcases hn with rfl <;>
      simp only [comb_cols, vec3_dotProduct, Pi.add_apply, cons_val, Pi.smul_apply, smul_eq_mul] <;> push_cast <;> nlinarith [sq_nonneg w]
  · funext i
    fin_cases i <;> simp [comb_cols] <;> ring

theorem tall_M {w : ℝ} (h1 : w ^ 2 ≤ 1) : Seven ![1, 0, w] ![-1, 0, w] ![0, 1, -w] ![0, 0, w] ∧
    (∀ n ∈ ([![1, 1, -1]] : List (Fin 3 → ℤ)), 2 * (![0, 0, w] ⬝ᵥ comb (cols ![0, 1, w] ![1, 0, w] ![1, 1, 0]) n) = comb (cols ![0, 1, w] ![1, 0, w] ![1, 1, 0]) n ⬝ᵥ comb (cols ![0, 1, w] ![1, 0, w] ![1, 1, 0]) n) ∧
    ![0, 0, w] = (List.zipWith (fun (x : ℝ) n => x • comb (cols ![0, 1, w] ![1, 0, w] ![1, 1, 0]) n) [1 / 2] [![1, 1, -1]]).sum := by
  refine ⟨?_, ?_, ?_⟩
  · simp only [Seven, vec3_dotProduct, Pi.add_apply, cons_val, Pi.smul_apply, smul_eq_mul, Pi.zero_apply]
    refine ⟨?_, ?_, ?_, ?_, ?_, ?_, ?_⟩ <;> rw [abs_le] <;> constructor <;> nlinarith [mul_nonneg (sub_nonneg.2 h1) (sq_nonneg w), sq_nonneg w]
  · intro n hn
    simp only [List.mem_cons, List.not_mem_nil, or_false] at hn
    rcases hn with rfl <;>
      simp only [comb_cols, vec3_dotProduct, Pi.add_apply, cons_val, Pi.smul_apply, smul_eq_mul] <;> push_cast <;> nlinarith [sq_nonneg w]
  · funext i
    fin_cases i <;> simp [comb_cols] <;> ring

theorem tall_M2 {w : ℝ} (h1 : w ^ 2 ≤ 1) : Seven ![1, 0, w] ![-1, 0, w] ![0, 1, -w] ![0, 0, -w] ∧
    (∀ n ∈ ([![-1, -1, 1]] : List (Fin 3 → ℤ)), 2 * (![0, 0, -w] ⬝ᵥ comb (cols ![0, 1, w] ![1, 0, w] ![1, 1, 0]) n) = comb (cols ![0, 1, w] ![1, 0, w] ![1, 1, 0]) n ⬝ᵥ comb (cols ![0, 1, w] ![1, 0, w] ![1, 1, 0]) n) ∧
    ![0, 0, -w] = (List.zipWith (fun (x : ℝ) n => x • comb (cols ![0, 1, w] ![1, 0, w] ![1, 1, 0]) n) [1 / 2] [![-1, -1, 1]]).sum := by
  refine ⟨?_, ?_, ?_⟩
  · simp only [Seven, vec3_dotProduct, Pi.add_apply, cons_val, Pi.smul_apply, smul_eq_mul, Pi.zero_apply]
    refine ⟨?_, ?_, ?_, ?_, ?_, ?_, ?_⟩ <;> rw [abs_le] <;> constructor <;> nlinarith [mul_nonneg (sub_nonneg.2 h1) (sq_nonneg w), sq_nonneg w]
  · intro n hn
    simp only [List.mem_cons, List.not_mem_nil, or_false] at hn
    rcases hn with rfl <;>
      simp only [comb_cols, vec3_dotProduct, Pi.add_apply, cons_val, Pi.smul_apply, smul_eq_mul] <;> push_cast <;> nlinarith [sq_nonneg w]
  · funext i
    fin_cases i <;> simp [comb_cols] <;> ring

theorem tall_N {w : ℝ} (h1 : w ^ 2 ≤ 1) : Seven ![1, 0, w] ![-1, 0, w] ![0, 1, -w] ![1 / 2, 0, w / 2] ∧
    (∀ n ∈ ([![0, 1, 0]] : List (Fin 3 → ℤ)), 2 * (![1 / 2, 0, w / 2] ⬝ᵥ comb (cols ![0, 1, w] ![1, 0, w] ![1, 1, 0]) n) = comb (cols ![0, 1, w] ![1, 0, w] ![1, 1, 0]) n ⬝ᵥ comb (cols ![0, 1, w] ![1, 0, w] ![1, 1, 0]) n) ∧
    ![1 / 2, 0, w / 2] = (List.zipWith (fun (x : ℝ) n => x • comb (cols ![0, 1, w] ![1, 0, w] ![1, 1, 0]) n) [1 / 2] [![0, 1, 0]]).sum := by
  refine ⟨?_, ?_, ?_⟩
  · simp only [Seven, vec3_dotProduct, Pi.add_apply, cons_val, Pi.smul_apply, smul_eq_mul, Pi.zero_apply]
    refine ⟨?_, ?_, ?_, ?_, ?_, ?_, ?_⟩ <;> rw [abs_le] <;> constructor <;> nlinarith [mul_nonneg (sub_nonneg.2 h1) (sq_nonneg w), sq_nonneg w]
  · intro n hn
    simp only [List.mem_cons, List.not_mem_nil, or_false] at hn
    rcases hn with rfl <;>
      simp only [comb_cols, vec3_dotProduct, Pi.add_apply, cons_val, Pi.smul_apply, smul_eq_mul] <;> push_cast <;> nlinarith [sq_nonneg w]
  · funext i
    fin_cases i <;> simp [comb_cols] <;> ring

theorem tall_N0 {w : ℝ} (h1 : w ^ 2 ≤ 1) : Seven ![1, 0, w] ![-1, 0, w] ![0, 1, -w] ![1 / 2, 0, -w / 2] ∧
    (∀ n ∈ ([![-1, 0, 1]] : List (Fin 3 → ℤ)), 2 * (![1 / 2, 0, -w / 2] ⬝ᵥ comb (cols ![0, 1, w] ![1, 0, w] ![1, 1, 0]) n) = comb (cols ![0, 1, w] ![1, 0, w] ![1, 1, 0]) n ⬝ᵥ comb (cols ![0, 1, w] ![1, 0, w] ![1, 1, 0]) n) ∧
    ![1 / 2, 0, -w / 2] = (List.zipWith (fun (x : ℝ) n => x • comb (cols ![0, 1, w] ![1, 0, w] ![1, 1, 0]) n) [1 / 2] [![-1, 0, 1]]).sum := by
  refine ⟨?_, ?_, ?_⟩
  · simp only [Seven, vec3_dotProduct, Pi.add_apply, cons_val, Pi.smul_apply, smul_eq_mul, Pi.zero_apply]
    refine ⟨?_, ?_, ?_, ?_, ?_, ?_, ?_⟩ <;> rw [abs_le] <;> constructor <;> nlinarith [mul_nonneg (sub_nonneg.2 h1) (sq_nonneg w), sq_nonneg w]
  · intro n hn
    simp only [List.mem_cons, List.not_mem_nil, or_false] at hn
    rcases hn with rfl <;>
      simp only [comb_cols, vec3_dotProduct, Pi.add_apply, cons_val, Pi.smul_apply, smul_eq_mul] <;> push_cast <;> nlinarith [sq_nonneg w]
  · funext i
    fin_cases i <;> simp [comb_cols] <;> ring

theorem tall_N1 {w : ℝ} (h1 : w ^ 2 ≤ 1) : Seven ![1, 0, w] ![-1, 0, w] ![0, 1, -w] ![0, 1 / 2, w / 2] ∧
    (∀ n ∈ ([![1, 0, 0]] : List (Fin 3 → ℤ)), 2 * (![0, 1 / 2, w / 2] ⬝ᵥ comb (cols ![0, 1, w] ![1, 0, w] ![1, 1, 0]) n) = comb (cols ![0, 1, w] ![1, 0, w] ![1, 1, 0]) n ⬝ᵥ comb (cols ![0, 1, w] ![1, 0, w] ![1, 1, 0]) n) ∧
    ![0, 1 / 2, w / 2] = (List.zipWith (fun (x : ℝ) n => x • comb (cols ![0, 1, w] ![1, 0, w] ![1, 1, 0]) n) [1 / 2] [![1, 0, 0]]).sum := by
  refine ⟨?_, ?_, ?_⟩
  · simp only [Seven, vec3_dotProduct, Pi.add_apply, cons_val, Pi.smul_apply, smul_eq_mul, Pi.zero_apply]
    refine ⟨?_, ?_, ?_, ?_, ?_, ?_, ?_⟩ <;> rw [abs_le] <;> constructor <;> nlinarith [mul_nonneg (sub_nonneg.2 h1) (sq_nonneg w), sq_nonneg w]
  · intro n hn
    simp only [List.mem_cons, List.not_mem_nil, or_false] at hn
    rcases hn with rfl <;>
      simp only [comb_cols, vec3_dotProduct, Pi.add_apply, cons_val, Pi.smul_apply, smul_eq_mul] <;> push_cast <;> nlinarith [sq_nonneg w]
  · funext i
    fin_cases i <;> simp [comb_cols] <;> ring

theorem tall_Sig {w : ℝ} (h1 : w ^ 2 ≤ 1) : Seven ![1, 0, w] ![-1, 0, w] ![0, 1, -w] ![(1 + w ^ 2) / 2, 0, 0] ∧
    (∀ n ∈ ([![0, 1, 0], ![-1, 0, 1]] : List (Fin 3 → ℤ)), 2 * (![(1 + w ^ 2) / 2, 0, 0] ⬝ᵥ comb (cols ![0, 1, w] ![1, 0, w] ![1, 1, 0]) n) = comb (cols ![0, 1, w] ![1, 0, w] ![1, 1, 0]) n ⬝ᵥ comb (cols ![0, 1, w] ![1, 0, w] ![1, 1, 0]) n) ∧
    ![(1 + w ^ 2) / 2, 0, 0] = (List.zipWith (fun (x : ℝ) n => x • comb (cols ![0, 1, w] ![1, 0, w] ![1, 1, 0]) n) [(1 + w ^ 2) / 4, (1 + w ^ 2) / 4] [![0, 1, 0], ![-1, 0, 1]]).sum := by
  refine ⟨?_, ?_, ?_⟩
  · simp only [Seven, vec3_dotProduct, Pi.add_apply, cons_val, Pi.smul_apply, smul_eq_mul, Pi.zero_apply]
    refine ⟨?_, ?_, ?_, ?_, ?_, ?_, ?_⟩ <;> rw [abs_le] <;> constructor <;> nlinarith [mul_nonneg (sub_nonneg.2 h1) (sq_nonneg w), sq_nonneg w]
  · intro n hn
    simp only [List.mem_cons, List.not_mem_nil, or_false] at hn
    rcases hn with rfl | rfl <;>
      simp only [comb_cols, vec3_dotProduct, Pi.add_apply, cons_val, Pi.smul_apply, smul_eq_mul] <;> push_cast <;> nlinarith [sq_nonneg w]
  · funext i
    fin_cases i <;> simp [comb_cols] <;> ring

theorem tall_S {w : ℝ} (h1 : w ^ 2 ≤ 1) : Seven ![1, 0, w] ![-1, 0, w] ![0, 1, -w] ![(1 - w ^ 2) / 2, 0, w] ∧
    (∀ n ∈ ([![1, 1, -1], ![0, 1, 0]] : List (Fin 3 → ℤ)), 2 * (![(1 - w ^ 2) / 2, 0, w] ⬝ᵥ comb (cols ![0, 1, w] ![1, 0, w] ![1, 1, 0]) n) = comb (cols ![0, 1, w] ![1, 0, w] ![1, 1, 0]) n ⬝ᵥ comb (cols ![0, 1, w] ![1, 0, w] ![1, 1, 0]) n) ∧
    ![(1 - w ^ 2) / 2, 0, w] = (List.zipWith (fun (x : ℝ) n => x • comb (cols ![0, 1, w] ![1, 0, w] ![1, 1, 0]) n) [(1 + w ^ 2) / 4, (1 - w ^ 2) / 2] [![1, 1, -1], ![0, 1, 0]]).sum := by
  refine ⟨?_, ?_, ?_⟩
  · simp only [Seven, vec3_dotProduct, Pi.add_apply, cons_val, Pi.smul_apply, smul_eq_mul, Pi.zero_apply]
    refine ⟨?_, ?_, ?_, ?_, ?_, ?_, ?_⟩ <;> rw [abs_le] <;> constructor <;> nlinarith [mul_nonneg (sub_nonneg.2 h1) (sq_nonneg w), sq_nonneg w]
  · intro n hn
    simp only [List.mem_cons, List.not_mem_nil, or_false] at hn
    rcases hn with rfl | rfl <;>
      simp only [comb_cols, vec3_dotProduct, Pi.add_apply, cons_val, Pi.smul_apply, smul_eq_mul] <;> push_cast <;> nlinarith [sq_nonneg w]
  · funext i
    fin_cases i <;> simp [comb_cols] <;> ring

theorem tall_S2 {w : ℝ} (h1 : w ^ 2 ≤ 1) : Seven ![1, 0, w] ![-1, 0, w] ![0, 1, -w] ![(1 - w ^ 2) / 2, 0, -w] ∧
    (∀ n ∈ ([![-1, -1, 1], ![-1, 0, 1]] : List (Fin 3 → ℤ)), 2 * (![(1 - w ^ 2) / 2, 0, -w] ⬝ᵥ comb (cols ![0, 1, w] ![1, 0, w] ![1, 1, 0]) n) = comb (cols ![0, 1, w] ![1, 0, w] ![1, 1, 0]) n ⬝ᵥ comb (cols ![0, 1, w] ![1, 0, w] ![1, 1, 0]) n) ∧
    ![(1 - w ^ 2) / 2, 0, -w] = (List.zipWith (fun (x : ℝ) n => x • comb (cols ![0, 1, w] ![1, 0, w] ![1, 1, 0]) n) [(1 + w ^ 2) / 4, (1 - w ^ 2) / 2] [![-1, -1, 1], ![-1, 0, 1]]).sum := by
  refine ⟨?_, ?_, ?_⟩
  · simp only [Seven, vec3_dotProduct, Pi.add_apply, cons_val, Pi.smul_apply, smul_eq_mul, Pi.zero_apply]
    refine ⟨?_, ?_, ?_, ?_, ?_, ?_, ?_⟩ <;> rw [abs_le] <;> constructor <;> nlinarith [mul_nonneg (sub_nonneg.2 h1) (sq_nonneg w), sq_nonneg w]
  · intro n hn
    simp only [List.mem_cons, List.not_mem_nil, or_false] at hn
    rcases hn with rfl | rfl <;>
      simp only [comb_cols, vec3_dotProduct, Pi.add_apply, cons_val, Pi.smul_apply, smul_eq_mul] <;> push_cast <;> nlinarith [sq_nonneg w]
  · funext i
    fin_cases i <;> simp [comb_cols] <;> ring

theorem tall_R {w : ℝ} (h1 : w ^ 2 ≤ 1) : Seven ![1, 0, w] ![-1, 0, w] ![0, 1, -w] ![(1 + w ^ 2) / 2, (1 - w ^ 2) / 2, 0] ∧
    (∀ n ∈ ([![0, 1, 0], ![-1, 0, 1], ![0, 0, 1]] : List (Fin 3 → ℤ)), 2 * (![(1 + w ^ 2) / 2, (1 - w ^ 2) / 2, 0] ⬝ᵥ comb (cols ![0, 1, w] ![1, 0, w] ![1, 1, 0]) n) = comb (cols ![0, 1, w] ![1, 0, w] ![1, 1, 0]) n ⬝ᵥ comb (cols ![0, 1, w] ![1, 0, w] ![1, 1, 0]) n) ∧
    ![(1 + w ^ 2) / 2, (1 - w ^ 2) / 2, 0] = (List.zipWith (fun (x : ℝ) n => x • comb (cols ![0, 1, w] ![1, 0, w] ![1, 1, 0]) n) [w ^ 2 / 2, w ^ 2 / 2, (1 - w ^ 2) / 2] [![0, 1, 0], ![-1, 0, 1], ![0, 0, 1]]).sum := by
  refine ⟨?_, ?_, ?_⟩
  · simp only [Seven, vec3_dotProduct, Pi.add_apply, cons_val, Pi.smul_apply, smul_eq_mul, Pi.zero_apply]
    refine ⟨?_, ?_, ?_, ?_, ?_, ?_, ?_⟩ <;> rw [abs_le] <;> constructor <;> nlinarith [mul_nonneg (sub_nonneg.2 h1) (sq_nonneg w), sq_nonneg w]
  · intro n hn
    simp only [List.mem_cons, List.not_mem_nil, or_false] at hn
    rcases hn with rfl | rfl | rfl <;>
      simp only [comb_cols, vec3_dotProduct, Pi.add_apply, cons_val, Pi.smul_apply, smul_eq_mul] <;> push_cast <;> nlinarith [sq_nonneg w]
  · funext i
    fin_cases i <;> simp [comb_cols] <;> ring

theorem tall_P {w : ℝ} (h1 : w ^ 2 ≤ 1) : Seven ![1, 0, w] ![-1, 0, w] ![0, 1, -w] ![1 / 2, 1 / 2, w / 2] ∧
    (∀ n ∈ ([![0, 1, 0], ![1, 0, 0], ![0, 0, 1]] : List (Fin 3 → ℤ)), 2 * (![1 / 2, 1 / 2, w / 2] ⬝ᵥ comb (cols ![0, 1, w] ![1, 0, w] ![1, 1, 0]) n) = comb (cols ![0, 1, w] ![1, 0, w] ![1, 1, 0]) n ⬝ᵥ comb (cols ![0, 1, w] ![1, 0, w] ![1, 1, 0]) n) ∧
    ![1 / 2, 1 / 2, w / 2] = (List.zipWith (fun (x : ℝ) n => x • comb (cols ![0, 1, w] ![1, 0, w] ![1, 1, 0]) n) [1 / 4, 1 / 4, 1 / 4] [![0, 1, 0], ![1, 0, 0], ![0, 0, 1]]).sum := by
  refine ⟨?_, ?_, ?_⟩
  · simp only [Seven, vec3_dotProduct, Pi.add_apply, cons_val, Pi.smul_apply, smul_eq_mul, Pi.zero_apply]
    refine ⟨?_, ?_, ?_, ?_, ?_, ?_, ?_⟩ <;> rw [abs_le] <;> constructor <;> nlinarith [mul_nonneg (sub_nonneg.2 h1) (sq_nonneg w), sq_nonneg w]
  · intro n hn
    simp only [List.mem_cons, List.not_mem_nil, or_false] at hn
    rcases hn with rfl | rfl | rfl <;>
      simp only [comb_cols, vec3_dotProduct, Pi.add_apply, cons_val, Pi.smul_apply, smul_eq_mul] <;> push_cast <;> nlinarith [sq_nonneg w]
  · funext i
    fin_cases i <;> simp [comb_cols] <;> ring

theorem tall_Y1 {w : ℝ} (h1 : w ^ 2 ≤ 1) : Seven ![1, 0, w] ![-1, 0, w] ![0, 1, -w] ![(1 - w ^ 2) / 2, (1 - w ^ 2) / 2, w] ∧
    (∀ n ∈ ([![0, 1, 0], ![1, 0, 0], ![1, 1, -1]] : List (Fin 3 → ℤ)), 2 * (![(1 - w ^ 2) / 2, (1 - w ^ 2) / 2, w] ⬝ᵥ comb (cols ![0, 1, w] ![1, 0, w] ![1, 1, 0]) n) = comb (cols ![0, 1, w] ![1, 0, w] ![1, 1, 0]) n ⬝ᵥ comb (cols ![0, 1, w] ![1, 0, w] ![1, 1, 0]) n) ∧
    ![(1 - w ^ 2) / 2, (1 - w ^ 2) / 2, w] = (List.zipWith (fun (x : ℝ) n => x • comb (cols ![0, 1, w] ![1, 0, w] ![1, 1, 0]) n) [(1 - w ^ 2) / 2, (1 - w ^ 2) / 2, w ^ 2 / 2] [![0, 1, 0], ![1, 0, 0], ![1, 1, -1]]).sum := by
  refine ⟨?_, ?_, ?_⟩
  · simp only [Seven, vec3_dotProduct, Pi.add_apply, cons_val, Pi.smul_apply, smul_eq_mul, Pi.zero_apply]
    refine ⟨?_, ?_, ?_, ?_, ?_, ?_, ?_⟩ <;> rw [abs_le] <;> constructor <;> nlinarith [mul_nonneg (sub_nonneg.2 h1) (sq_nonneg w), sq_nonneg w]
  · intro n hn
    simp only [List.mem_cons, List.not_mem_nil, or_false] at hn
    rcases hn with rfl | rfl | rfl <;>
      simp only [comb_cols, vec3_dotProduct, Pi.add_apply, cons_val, Pi.smul_apply, smul_eq_mul] <;> push_cast <;> nlinarith [sq_nonneg w]
  · funext i
    fin_cases i <;> simp [comb_cols] <;> ring

theorem tall_G0 {w : ℝ} (h1 : w ^ 2 ≤ 1) : Seven ![1, 0, w] ![-1, 0, w] ![0, 1, -w] ![(1 - w ^ 2) / 2, (1 - w ^ 2) / 2, -w] ∧
    (∀ n ∈ ([![-1, 0, 1], ![0, -1, 1], ![-1, -1, 1]] : List (Fin 3 → ℤ)), 2 * (![(1 - w ^ 2) / 2, (1 - w ^ 2) / 2, -w] ⬝ᵥ comb (cols ![0, 1, w] ![1, 0, w] ![1, 1, 0]) n) = comb (cols ![0, 1, w] ![1, 0, w] ![1, 1, 0]) n ⬝ᵥ comb (cols ![0, 1, w] ![1, 0, w] ![1, 1, 0]) n) ∧
    ![(1 - w ^ 2) / 2, (1 - w ^ 2) / 2, -w] = (List.zipWith (fun (x : ℝ) n => x • comb (cols ![0, 1, w] ![1, 0, w] ![1, 1, 0]) n) [(1 - w ^ 2) / 2, (1 - w ^ 2) / 2, w ^ 2 / 2] [![-1, 0, 1], ![0, -1, 1], ![-1, -1, 1]]).sum := by
  refine ⟨?_, ?_, ?_⟩
  · simp only [Seven, vec3_dotProduct, Pi.add_apply, cons_val, Pi.smul_apply, smul_eq_mul, Pi.zero_apply]
    refine ⟨?_, ?_, ?_, ?_, ?_, ?_, ?_⟩ <;> rw [abs_le] <;> constructor <;> nlinarith [mul_nonneg (sub_nonneg.2 h1) (sq_nonneg w), sq_nonneg w]
  · intro n hn
    simp only [List.mem_cons, List.not_mem_nil, or_false] at hn
    rcases hn with rfl | rfl | rfl <;>
      simp only [comb_cols, vec3_dotProduct, Pi.add_apply, cons_val, Pi.smul_apply, smul_eq_mul] <;> push_cast <;> nlinarith [sq_nonneg w]
  · funext i
    fin_cases i <;> simp [comb_cols] <;> ring


theorem tetraFlat_eq {lstsq} (hl : MinNorm lstsq) {c : ℝ} (hc : 0 < c) (hc1 : c < 1) : tetraFlat lstsq c =
    [("G", 0, "Γ"), ("X", ![1 / 2, 1 / 2, 0], "X"), ("M", ![1, 0, 0], "M"), ("N", ![1 / 2, 0, (1 / c) / 2], "N"), ("Z1", ![1, 0, ((1 / c) - c) / 2], "$Z_1$"), ("Z", ![0, 0, ((1 / c) + c) / 2], "Z"), ("P", ![1 / 2, 1 / 2, (1 / c) / 2], "P")] := by
  have hw : c * (1 / c) = 1 := by field_simp
  have h1 : 1 ≤ (1 / c) ^ 2 := by
    have : 1 ≤ 1 / c := by rw [le_div_iff₀ hc]; linarith
    nlinarith
  have eZ1 : hsp lstsq [![0.5, 0, 0.5 / c], ![1, 0, 0]] = ![1, 0, ((1 / c) - c) / 2] :=
    hsp_eq hl (flat_Z1 hw h1).2.1 _ (flat_Z1 hw h1).2.2 (by
      simp only [List.map_cons, List.map_nil, comb_cols, List.cons.injEq, and_true]
      refine ⟨?_, ?_⟩ <;> funext i <;> fin_cases i <;> simp <;> ring)
  simp only [tetraFlat, eZ1, cons_val]
  simp only [List.cons.injEq, Prod.mk.injEq]
  and_intros <;> first | rfl | trivial | (funext i; fin_cases i <;> simp <;> ring)

theorem tetraTall_eq {lstsq} (hl : MinNorm lstsq) {c : ℝ} (hc1 : 1 < c) : tetraTall lstsq c =
    [("G", 0, "Γ"), ("X", ![1 / 2, 1 / 2, 0], "X"), ("M", ![0, 0, (1 / c)], "M"), ("M2", ![0, 0, -(1 / c)], "$M_2$"), ("Z", ![0, 0, (1 / c)], "Z"), ("N", ![1 / 2, 0, (1 / c) / 2], "N"), ("N0", ![1 / 2, 0, -(1 / c) / 2], "$N_0$"), ("N1", ![0, 1 / 2, (1 / c) / 2], "$N_1$"), ("Sig", ![(1 + (1 / c) ^ 2) / 2, 0, 0], "Σ"), ("S0", ![(1 + (1 / c) ^ 2) / 2, 0, 0], "$S_0$"), ("S", ![(1 - (1 / c) ^ 2) / 2, 0, (1 / c)], "S"), ("Sig1", ![(1 - (1 / c) ^ 2) / 2, 0, (1 / c)], "$\\Sigma_1$"), ("S2", ![(1 - (1 / c) ^ 2) / 2, 0, -(1 / c)], "$S_2$"), ("R", ![(1 + (1 / c) ^ 2) / 2, (1 - (1 / c) ^ 2) / 2, 0], "R"), ("Y", ![(1 + (1 / c) ^ 2) / 2, (1 - (1 / c) ^ 2) / 2, 0], "Y"), ("P", ![1 / 2, 1 / 2, (1 / c) / 2], "P"), ("Y1", ![(1 - (1 / c) ^ 2) / 2, (1 - (1 / c) ^ 2) / 2, (1 / c)], "$Y_1$"), ("GG", ![(1 - (1 / c) ^ 2) / 2, (1 - (1 / c) ^ 2) / 2, (1 / c)], "G"), ("G0", ![(1 - (1 / c) ^ 2) / 2, (1 - (1 / c) ^ 2) / 2, -(1 / c)], "$G_0$")] := by
  have hc : 0 < c := by linarith
  have hw : c * (1 / c) = 1 := by field_simp
  have h1 : (1 / c) ^ 2 ≤ 1 := by
    have : 1 / c ≤ 1 := by rw [div_le_iff₀ hc]; linarith
    have : 0 ≤ 1 / c := by positivity
    nlinarith
  have eSig : hsp lstsq [![0.5, 0, 0.5 / c], ![0.5, 0, -0.5 / c]] = ![(1 + (1 / c) ^ 2) / 2, 0, 0] :=
    hsp_eq hl (tall_Sig h1).2.1 _ (tall_Sig h1).2.2 (by
      simp only [List.map_cons, List.map_nil, comb_cols, List.cons.injEq, and_true]
      refine ⟨?_, ?_⟩ <;> funext i <;> fin_cases i <;> simp <;> ring)
  have eS : hsp lstsq [![0, 0, 1 / c], ![0.5, 0, 0.5 / c]] = ![(1 - (1 / c) ^ 2) / 2, 0, (1 / c)] :=
    hsp_eq hl (tall_S h1).2.1 _ (tall_S h1).2.2 (by
      simp only [List.map_cons, List.map_nil, comb_cols, List.cons.injEq, and_true]
      refine ⟨?_, ?_⟩ <;> funext i <;> fin_cases i <;> simp <;> ring)
  have eR : hsp lstsq [![0.5, 0, 0.5 / c], ![0.5, 0, -0.5 / c], ![0.5, 0.5, 0]] = ![(1 + (1 / c) ^ 2) / 2, (1 - (1 / c) ^ 2) / 2, 0] :=
    hsp_eq hl (tall_R h1).2.1 _ (tall_R h1).2.2 (by
      simp only [List.map_cons, List.map_nil, comb_cols, List.cons.injEq, and_true]
      refine ⟨?_, ?_, ?_⟩ <;> funext i <;> fin_cases i <;> simp <;> ring)
  have eP : hsp lstsq [![0.5, 0, 0.5 / c], ![0, 0.5, 0.5 / c], ![0.5, 0.5, 0]] = ![1 / 2, 1 / 2, (1 / c) / 2] :=
    hsp_eq hl (tall_P h1).2.1 _ (tall_P h1).2.2 (by
      simp only [List.map_cons, List.map_nil, comb_cols, List.cons.injEq, and_true]
      refine ⟨?_, ?_, ?_⟩ <;> funext i <;> fin_cases i <;> simp <;> ring)
  have eY1 : hsp lstsq [![0.5, 0, 0.5 / c], ![0, 0.5, 0.5 / c], ![0, 0, 1 / c]] = ![(1 - (1 / c) ^ 2) / 2, (1 - (1 / c) ^ 2) / 2, (1 / c)] :=
    hsp_eq hl (tall_Y1 h1).2.1 _ (tall_Y1 h1).2.2 (by
      simp only [List.map_cons, List.map_nil, comb_cols, List.cons.injEq, and_true]
      refine ⟨?_, ?_, ?_⟩ <;> funext i <;> fin_cases i <;> simp <;> ring)
  simp only [tetraTall, eSig, eS, eR, eP, eY1, cons_val]
  simp only [List.cons.injEq, Prod.mk.injEq]
  and_intros <;> first | rfl | trivial | (funext i; fin_cases i <;> simp <;> ring)

/-- **C104.** For the body centred tetragonal lattice with `a = 1` and `c ≠ 1` the points of `tetragonal_bc_points(c)` are the special points of the zone,
whatever was called before. -/
theorem C104_tetragonal {lstsq} (hl : MinNorm lstsq) (g : List (Entry 3)) {c : ℝ} (hc : 0 < c) (hc1 : c ≠ 1) :
    ∃ A, Lat.tetraBody 1 c = .ok A ∧
      Spec.Named (tetragonalBcPoints lstsq g c).2 1 A (if c < 1 then Spec.tetraFlat else Spec.tetraTall) ∧
      (tetragonalBcPoints lstsq g c).2.map (·.1) = (if c < 1 then Spec.tetraFlat else Spec.tetraTall).map (·.1) := by
  refine ⟨_, if_neg (not_not.2 ⟨one_pos, hc⟩), ?_⟩
  have hw : c * (1 / c) = 1 := by field_simp
  rw [tetragonalBcPoints, if_neg hc1]
  by_cases hlt : c < 1
  · have h1 : 1 ≤ (1 / c) ^ 2 := by
      have : 1 ≤ 1 / c := by rw [le_div_iff₀ hc]; linarith
      nlinarith
    have S := sell_flat hw h1
    rw [if_pos hlt, if_pos hlt]
    refine ⟨?_, rfl⟩
    simp only [tetraFlat_eq hl hc hlt]
    intro e he
    simp only [Spec.tetraFlat, List.mem_cons, List.not_mem_nil, or_false] at he
    rcases he with rfl | rfl | rfl | rfl | rfl | rfl | rfl <;> simp only [one_smul]
    · exact ⟨_, rfl, S.special (flat_G h1).1 (flat_G h1).2.1 _ (flat_G h1).2.2⟩
    · exact ⟨_, rfl, S.special (flat_X h1).1 (flat_X h1).2.1 _ (flat_X h1).2.2⟩
    · exact ⟨_, rfl, S.special (flat_M h1).1 (flat_M h1).2.1 _ (flat_M h1).2.2⟩
    · exact ⟨_, rfl, S.special (flat_N h1).1 (flat_N h1).2.1 _ (flat_N h1).2.2⟩
    · exact ⟨_, rfl, S.special (flat_Z1 hw h1).1 (flat_Z1 hw h1).2.1 _ (flat_Z1 hw h1).2.2⟩
    · exact ⟨_, rfl, S.special (flat_Z hw h1).1 (flat_Z hw h1).2.1 _ (flat_Z hw h1).2.2⟩
    · exact ⟨_, rfl, S.special (flat_P h1).1 (flat_P h1).2.1 _ (flat_P h1).2.2⟩
  · have hgt : 1 < c := lt_of_le_of_ne (not_lt.1 hlt) (Ne.symm hc1)
    have h1 : (1 / c) ^ 2 ≤ 1 := by
      have : 1 / c ≤ 1 := by rw [div_le_iff₀ hc]; linarith
      have : 0 ≤ 1 / c := by positivity
      nlinarith
    have S := sell_tall hw h1
    rw [if_neg hlt, if_neg hlt]
    refine ⟨?_, rfl⟩
    simp only [tetraTall_eq hl hgt]
    intro e he
    simp only [Spec.tetraTall, List.mem_cons, List.not_mem_nil, or_false] at he
    rcases he with rfl | rfl | rfl | rfl | rfl | rfl | rfl | rfl | rfl | rfl | rfl | rfl | rfl | rfl | rfl | rfl | rfl | rfl | rfl <;> simp only [one_smul]
    · exact ⟨_, rfl, S.special (tall_G h1).1 (tall_G h1).2.1 _ (tall_G h1).2.2⟩
    · exact ⟨_, rfl, S.special (tall_X h1).1 (tall_X h1).2.1 _ (tall_X h1).2.2⟩
    · exact ⟨_, rfl, S.special (tall_M h1).1 (tall_M h1).2.1 _ (tall_M h1).2.2⟩
    · exact ⟨_, rfl, S.special (tall_M2 h1).1 (tall_M2 h1).2.1 _ (tall_M2 h1).2.2⟩
    · exact ⟨_, rfl, S.special (tall_M h1).1 (tall_M h1).2.1 _ (tall_M h1).2.2⟩
    · exact ⟨_, rfl, S.special (tall_N h1).1 (tall_N h1).2.1 _ (tall_N h1).2.2⟩
    · exact ⟨_, rfl, S.special (tall_N0 h1).1 (tall_N0 h1).2.1 _ (tall_N0 h1).2.2⟩
    · exact ⟨_, rfl, S.special (tall_N1 h1).1 (tall_N1 h1).2.1 _ (tall_N1 h1).2.2⟩
    · exact ⟨_, rfl, S.special (tall_Sig h1).1 (tall_Sig h1).2.1 _ (tall_Sig h1).2.2⟩
    · exact ⟨_, rfl, S.special (tall_Sig h1).1 (tall_Sig h1).2.1 _ (tall_Sig h1).2.2⟩
    · exact ⟨_, rfl, S.special (tall_S h1).1 (tall_S h1).2.1 _ (tall_S h1).2.2⟩
    · exact ⟨_, rfl, S.special (tall_S h1).1 (tall_S h1).2.1 _ (tall_S h1).2.2⟩
    · exact ⟨_, rfl, S.special (tall_S2 h1).1 (tall_S2 h1).2.1 _ (tall_S2 h1).2.2⟩
    · exact ⟨_, rfl, S.special (tall_R h1).1 (tall_R h1).2.1 _ (tall_R h1).2.2⟩
    · exact ⟨_, rfl, S.special (tall_R h1).1 (tall_R h1).2.1 _ (tall_R h1).2.2⟩
    · exact ⟨_, rfl, S.special (tall_P h1).1 (tall_P h1).2.1 _ (tall_P h1).2.2⟩
    · exact ⟨_, rfl, S.special (tall_Y1 h1).1 (tall_Y1 h1).2.1 _ (tall_Y1 h1).2.2⟩
    · exact ⟨_, rfl, S.special (tall_Y1 h1).1 (tall_Y1 h1).2.1 _ (tall_Y1 h1).2.2⟩
    · exact ⟨_, rfl, S.special (tall_G0 h1).1 (tall_G0 h1).2.1 _ (tall_G0 h1).2.2⟩

theorem bcc_inside {x y z : ℝ} (h : ∀ m0 m1 m2 : ℤ, (m0 - m1, m1 - m2, m0 + m2) ≠ ((0 : ℤ), (0 : ℤ), (0 : ℤ)) →
      2 * (x * ((m0 - m1 : ℤ) : ℝ) + y * ((m1 - m2 : ℤ) : ℝ) + z * ((m0 + m2 : ℤ) : ℝ)) <
        ((m0 - m1 : ℤ) : ℝ) ^ 2 + ((m1 - m2 : ℤ) : ℝ) ^ 2 + ((m0 + m2 : ℤ) : ℝ) ^ 2) :
    ∀ G ∈ Recip (Lat.bcc 1), G ≠ 0 → (![x, y, z] : V3) ⬝ᵥ ![x, y, z] < (![x, y, z] - G) ⬝ᵥ (![x, y, z] - G) := by
  rintro G ⟨n, hn⟩ hG
  rw [miller_iff sell_bcc.dual, comb_cols] at hn
  have e : G = ![((n 0 - n 1 : ℤ) : ℝ), ((n 1 - n 2 : ℤ) : ℝ), ((n 0 + n 2 : ℤ) : ℝ)] := by
    rw [hn]
    funext i; fin_cases i <;> simp <;> ring
  have hne : (n 0 - n 1, n 1 - n 2, n 0 + n 2) ≠ ((0 : ℤ), (0 : ℤ), (0 : ℤ)) := by
    intro h0
    simp only [Prod.mk.injEq] at h0
    apply hG
    rw [e, h0.1, h0.2.1, h0.2.2]
    funext i; fin_cases i <;> simp
  have := h _ _ _ hne
  rw [e]
  simp only [vec3_dotProduct, Pi.sub_apply, cons_val]
  nlinarith

/-- **A disagreement.**  `global points` in the branch `c == 1` holds for the whole function: a call with `c ≠ 1` replaces `kpaths.points`, and a later
call with `c = 1` returns the points of the former `c`.  Its point `N` is not on the boundary of the cubic zone: it lies outside for `c < 1` and is
nearer to the origin than to every other reciprocal lattice point for `c > 1`. -/
theorem C104_tetragonal_state_defect {lstsq} (hl : MinNorm lstsq) (g : List (Entry 3)) {c : ℝ} (hc : 0 < c) (hc1 : c ≠ 1) :
    let g' := (tetragonalBcPoints lstsq g c).1
    (tetragonalBcPoints lstsq g' 1).2 = (tetragonalBcPoints lstsq g c).2 ∧
    ∃ p, (tetragonalBcPoints lstsq g' 1).2.lookup "N" = some p ∧
      (c < 1 → p.1 ∉ firstZone (Lat.bcc 1)) ∧ (1 < c → ∀ G ∈ Recip (Lat.bcc 1), G ≠ 0 → p.1 ⬝ᵥ p.1 < (p.1 - G) ⬝ᵥ (p.1 - G)) := by
  have hst : ∀ c : ℝ, c ≠ 1 → (tetragonalBcPoints lstsq g c).1 = (tetragonalBcPoints lstsq g c).2 := by
    intro c hc1
    rw [tetragonalBcPoints, if_neg hc1]
    split_ifs <;> rfl
  have h1 : ∀ g', (tetragonalBcPoints lstsq g' 1).2 = g' := fun g' => by rw [tetragonalBcPoints, if_pos rfl]
  refine ⟨by rw [h1, hst c hc1], ?_⟩
  rw [h1]
  by_cases hlt : c < 1
  · have e : (tetragonalBcPoints lstsq g c).1 = tetraFlat lstsq c := by rw [tetragonalBcPoints, if_neg hc1, if_pos hlt]
    rw [e, tetraFlat_eq hl hc hlt]
    refine ⟨_, rfl, fun _ hz => ?_, fun h => absurd h (not_lt.2 hlt.le)⟩
    have hw : 1 < 1 / c := by rw [lt_div_iff₀ hc]; linarith
    have := (zone_iff sell_bcc.dual _).1 hz ![1, 0, 0]
    rw [comb_cols] at this
    simp only [vec3_dotProduct, Pi.add_apply, cons_val, Pi.smul_apply, smul_eq_mul] at this
    push_cast at this
    linarith
  · have hgt : 1 < c := lt_of_le_of_ne (not_lt.1 hlt) (Ne.symm hc1)
    have e : (tetragonalBcPoints lstsq g c).1 = tetraTall lstsq c := by rw [tetragonalBcPoints, if_neg hc1, if_neg hlt]
    rw [e, tetraTall_eq hl hgt]
    refine ⟨_, rfl, fun h => absurd h hlt, fun _ => bcc_inside fun m0 m1 m2 hne => ?_⟩
    have hw : 1 / c < 1 := by rw [div_lt_iff₀ hc]; linarith
    have hw0 : 0 < 1 / c := by positivity
    have hx := int_le_sq (m0 - m1)
    have hy := sq_nonneg ((m1 - m2 : ℤ) : ℝ)
    by_cases hz : m0 + m2 = 0
    · have : (m0 - m1) < (m0 - m1) ^ 2 + (m1 - m2) ^ 2 := by
        by_contra hcon
        have hx' := Int.le_self_sq (m0 - m1)
        have h2 : m1 - m2 = 0 := by
          have : (m1 - m2) ^ 2 ≤ 0 := by linarith
          exact pow_eq_zero_iff (two_ne_zero) |>.1 (le_antisymm this (sq_nonneg _))
        have h3 : (m0 - m1) = 0 ∨ m0 - m1 = 1 := by
          have : (m0 - m1) * (m0 - m1 - 1) = 0 := by rw [h2] at hcon; nlinarith
          rcases mul_eq_zero.1 this with h | h
          · exact Or.inl h
          · right; omega
        rcases h3 with h3 | h3
        · exact hne (by rw [h2, h3, hz])
        · omega
      have hr : ((m0 - m1 : ℤ) : ℝ) < ((m0 - m1 : ℤ) : ℝ) ^ 2 + ((m1 - m2 : ℤ) : ℝ) ^ 2 := by exact_mod_cast this
      rw [hz]
      push_cast at *
      linarith
    · have hlz : (1 / c) * ((m0 + m2 : ℤ) : ℝ) < ((m0 + m2 : ℤ) : ℝ) ^ 2 := by
        rcases lt_or_gt_of_ne hz with h | h
        · have h' : ((m0 + m2 : ℤ) : ℝ) < 0 := by exact_mod_cast h
          nlinarith [mul_pos hw0 (neg_pos.2 h'), sq_nonneg ((m0 + m2 : ℤ) : ℝ)]
        · have h' : (1 : ℝ) ≤ ((m0 + m2 : ℤ) : ℝ) := by exact_mod_cast h
          nlinarith
      push_cast at *
      nlinarith

/-- **A disagreement.**  In a fresh session `tetragonal_bc_points(1)` returns the dictionary of all cubic lattices.  Its `X` is the point of the simple
cubic lattice, which is inside the zone of the body centred one, while the functions for `c ≠ 1` give the centre of a face under this name. -/
theorem C104_tetragonal_cubic_defect (lstsq : List V3 → List ℝ → V3) :
    ∃ p, (tetragonalBcPoints lstsq cubicPoints 1).2.lookup "X" = some p ∧
      ∀ G ∈ Recip (Lat.bcc 1), G ≠ 0 → p.1 ⬝ᵥ p.1 < (p.1 - G) ⬝ᵥ (p.1 - G) := by
  rw [tetragonalBcPoints, if_pos rfl]
  have e : ((0.5 : ℝ) • ![0, 1, 0] : V3) = ![0, 1 / 2, 0] := by
    funext i; fin_cases i <;> simp <;> norm_num
  refine ⟨((0.5 : ℝ) • ![0, 1, 0], "X"), rfl, ?_⟩
  rw [e]
  refine bcc_inside fun m0 m1 m2 hne => ?_
  have : (m1 - m2) < (m0 - m1) ^ 2 + (m1 - m2) ^ 2 + (m0 + m2) ^ 2 := by
    by_contra hcon
    have hy := Int.le_self_sq (m1 - m2)
    have h0 : m0 - m1 = 0 := by
      have : (m0 - m1) ^ 2 ≤ 0 := by linarith [sq_nonneg (m0 + m2)]
      exact pow_eq_zero_iff (two_ne_zero) |>.1 (le_antisymm this (sq_nonneg _))
    have h2 : m0 + m2 = 0 := by
      have : (m0 + m2) ^ 2 ≤ 0 := by linarith [sq_nonneg (m0 - m1)]
      exact pow_eq_zero_iff (two_ne_zero) |>.1 (le_antisymm this (sq_nonneg _))
    have h3 : (m1 - m2) = 0 ∨ m1 - m2 = 1 := by
      have : (m1 - m2) * (m1 - m2 - 1) = 0 := by rw [h0, h2] at hcon; nlinarith
      rcases mul_eq_zero.1 this with h | h
      · exact Or.inl h
      · right; omega
    rcases h3 with h3 | h3
    · exact hne (by rw [h0, h2, h3])
    · omega
  have hr : ((m1 - m2 : ℤ) : ℝ) < ((m0 - m1 : ℤ) : ℝ) ^ 2 + ((m1 - m2 : ℤ) : ℝ) ^ 2 + ((m0 + m2 : ℤ) : ℝ) ^ 2 := by exact_mod_cast this
  linarith

/-! ## Examples -/

/-- The flat lattice with `c = 1/2` and the tall one with `c = 2`. -/
example : ∃ lstsq, MinNorm lstsq ∧ (∃ p, (tetragonalBcPoints lstsq cubicPoints (1 / 2)).2.lookup "Z" = some p ∧ p.1 = ![0, 0, 5 / 4]) ∧
    ∃ p, (tetragonalBcPoints lstsq cubicPoints 2).2.lookup "Sig" = some p ∧ p.1 = ![5 / 8, 0, 0] := by
  obtain ⟨f, hf⟩ := minNorm_satisfiable
  refine ⟨f, hf, ?_, ?_⟩
  · have e : (tetragonalBcPoints f cubicPoints (1 / 2)).2 = tetraFlat f (1 / 2) := by
      rw [tetragonalBcPoints, if_neg (by norm_num), if_pos (by norm_num)]
    rw [e, tetraFlat_eq hf (by norm_num) (by norm_num)]
    exact ⟨_, rfl, by norm_num⟩
  · have e : (tetragonalBcPoints f cubicPoints 2).2 = tetraTall f 2 := by
      rw [tetragonalBcPoints, if_neg (by norm_num), if_neg (by norm_num)]
    rw [e, tetraTall_eq hf (by norm_num)]
    exact ⟨_, rfl, by norm_num⟩

example : ∃ lstsq, MinNorm lstsq ∧ ∃ A, Lat.tetraBody 1 2 = .ok A ∧ Spec.Named (tetragonalBcPoints lstsq cubicPoints 2).2 1 A Spec.tetraTall := by
  obtain ⟨f, hf⟩ := minNorm_satisfiable
  obtain ⟨A, h, h', -⟩ := C104_tetragonal hf cubicPoints (c := 2) (by norm_num) (by norm_num)
  rw [if_neg (by norm_num)] at h'
  exact ⟨f, hf, A, h, h'⟩

/-- A call with `c = 1/2` spoils the one with `c = 1`. -/
example : ∃ lstsq, MinNorm lstsq ∧
    ∃ p, (tetragonalBcPoints lstsq (tetragonalBcPoints lstsq cubicPoints (1 / 2)).1 1).2.lookup "N" = some p ∧ p.1 ∉ firstZone (Lat.bcc 1) := by
  obtain ⟨f, hf⟩ := minNorm_satisfiable
  obtain ⟨-, p, hp, h, -⟩ := C104_tetragonal_state_defect hf cubicPoints (c := 1 / 2) (by norm_num) (by norm_num)
  exact ⟨f, hf, p, hp, h (by norm_num)⟩

end TB.KPts

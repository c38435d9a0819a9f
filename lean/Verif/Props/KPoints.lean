import Verif.Lemmas.ZoneThree
import Mathlib.Analysis.SpecialFunctions.Trigonometric.Basic
import Mathlib.Tactic.FieldSimp
import Mathlib.Tactic.Positivity

/-!
# C104: the named k-points are the special points of the Brillouin zone
-/

set_option linter.unusedSimpArgs false
set_option linter.unusedTactic false
set_option linter.unreachableTactic false
set_option linter.unnecessarySeqFocus false

namespace TB.KPts
open Matrix Zone Lat

/-! ## Specification -/

/-- Under each key of the table the dictionary has the special point given by the listed planes, in units of `x`. -/
def Spec.Named {d : ℕ} (D : List (Entry d)) (x : ℝ) (A : Matrix (Fin d) (Fin d) ℝ) (T : List (String × List (Fin d → ℤ))) : Prop :=
  ∀ e ∈ T, ∃ p, D.lookup e.1 = some p ∧ Special A (x • p.1) e.2

/-- Simple cubic: the planes through each point. -/
def Spec.sc : List (String × List (Fin 3 → ℤ)) :=
  [("G", []), ("O", []), ("X", [![0, 1, 0]]), ("M", [![1, 0, 0], ![0, 1, 0]]), ("R", [![1, 0, 0], ![0, 1, 0], ![0, 0, 1]])]

/-- Face centred cubic. -/
def Spec.fcc : List (String × List (Fin 3 → ℤ)) :=
  [("G", []), ("X2", [![0, 1, 1]]), ("K", [![0, 1, 0], ![-1, 0, 0]]), ("L", [![0, 1, 0]]), ("W", [![0, 1, 1], ![0, 1, 0], ![-1, 0, 0]]),
   ("U", [![0, 1, 1], ![0, 1, 0]])]

/-- Body centred cubic. -/
def Spec.bcc : List (String × List (Fin 3 → ℤ)) :=
  [("G", []), ("H", [![1, -1, -1]]), ("H1", [![1, 1, -1]]), ("N", [![1, 0, -1]]), ("P", [![1, 0, -1], ![1, 0, 0], ![1, 1, 0]])]

/-! ## Cubic lattices -/

theorem sell_sc : Sell (sc 1) ![1, 0, 0] ![0, 1, 0] ![0, 0, 1] ![1, 0, 0] ![0, 1, 0] ![0, 0, 1] where
  dual := by ext i j; fin_cases i <;> fin_cases j <;> simp [Matrix.mul_apply, Fin.sum_univ_three, cols, sc]
  int n0 n1 n2 := ⟨n0, n1, n2, rfl⟩
  h01 := by simp
  h02 := by simp
  h12 := by simp
  h03 := by simp
  h13 := by simp
  h23 := by simp

theorem sell_fcc : Sell (fcc 1) ![-1, -1, 1] ![1, 1, 1] ![-1, 1, -1] ![1, 1, -1] ![1, -1, 1] ![-1, 1, 1] where
  dual := by ext i j; fin_cases i <;> fin_cases j <;> simp [Matrix.mul_apply, Fin.sum_univ_three, cols, fcc] <;> norm_num
  int n0 n1 n2 := ⟨-n0 + n1, n1 - n2, n1, by
    funext i; fin_cases i <;> simp <;> ring⟩
  h01 := by simp
  h02 := by simp
  h12 := by simp
  h03 := by simp
  h13 := by simp
  h23 := by simp

theorem sell_bcc : Sell (bcc 1) ![1, 0, 1] ![-1, 1, 0] ![0, -1, 1] ![1, 1, 0] ![1, -1, 0] ![-1, 0, 1] where
  dual := by ext i j; fin_cases i <;> fin_cases j <;> simp [Matrix.mul_apply, Fin.sum_univ_three, cols, bcc] <;> norm_num
  int n0 n1 n2 := ⟨n0, n0 - n1 + n2, n0 + n2, by
    funext i; fin_cases i <;> simp <;> ring⟩
  h01 := by simp
  h02 := by simp
  h12 := by simp
  h03 := by simp
  h13 := by simp
  h23 := by simp

theorem named_scale {d : ℕ} {D : List (Entry d)} {A : Matrix (Fin d) (Fin d) ℝ} {T} (h : Spec.Named D 1 A T) {a : ℝ} (ha : a ≠ 0) :
    Spec.Named D a⁻¹ (a • A) T := by
  intro e he
  obtain ⟨p, hp, hs⟩ := h e he
  rw [one_smul] at hs
  exact ⟨p, hp, special_smul hs ha⟩

theorem sc_G : Special (sc 1) (![0, 0, 0]) [] := by
  refine sell_sc.special ?_ ?_ [] ?_
  · simp only [Seven, vec3_dotProduct, Pi.add_apply, cons_val, Pi.smul_apply, smul_eq_mul, Pi.zero_apply]
    norm_num [abs_le]
  · simp
  · funext i
    fin_cases i <;> simp [comb_cols] <;> norm_num

theorem sc_X : Special (sc 1) ((0.5 : ℝ) • ![0, 1, 0]) [![0, 1, 0]] := by
  refine sell_sc.special ?_ ?_ [1 / 2] ?_
  · simp only [Seven, vec3_dotProduct, Pi.add_apply, cons_val, Pi.smul_apply, smul_eq_mul, Pi.zero_apply]
    norm_num [abs_le]
  · intro n hn
    simp only [List.mem_cons, List.not_mem_nil, or_false] at hn
    rcases hn with rfl <;>
      simp only [comb_cols, vec3_dotProduct, Pi.add_apply, cons_val, Pi.smul_apply, smul_eq_mul] <;> norm_num
  · funext i
    fin_cases i <;> simp [comb_cols] <;> norm_num

theorem sc_M : Special (sc 1) ((0.5 : ℝ) • ![1, 1, 0]) [![1, 0, 0], ![0, 1, 0]] := by
  refine sell_sc.special ?_ ?_ [1 / 2, 1 / 2] ?_
  · simp only [Seven, vec3_dotProduct, Pi.add_apply, cons_val, Pi.smul_apply, smul_eq_mul, Pi.zero_apply]
    norm_num [abs_le]
  · intro n hn
    simp only [List.mem_cons, List.not_mem_nil, or_false] at hn
    rcases hn with rfl | rfl <;>
      simp only [comb_cols, vec3_dotProduct, Pi.add_apply, cons_val, Pi.smul_apply, smul_eq_mul] <;> norm_num
  · funext i
    fin_cases i <;> simp [comb_cols] <;> norm_num

theorem sc_R : Special (sc 1) ((0.5 : ℝ) • ![1, 1, 1]) [![1, 0, 0], ![0, 1, 0], ![0, 0, 1]] := by
  refine sell_sc.special ?_ ?_ [1 / 2, 1 / 2, 1 / 2] ?_
  · simp only [Seven, vec3_dotProduct, Pi.add_apply, cons_val, Pi.smul_apply, smul_eq_mul, Pi.zero_apply]
    norm_num [abs_le]
  · intro n hn
    simp only [List.mem_cons, List.not_mem_nil, or_false] at hn
    rcases hn with rfl | rfl | rfl <;>
      simp only [comb_cols, vec3_dotProduct, Pi.add_apply, cons_val, Pi.smul_apply, smul_eq_mul] <;> norm_num
  · funext i
    fin_cases i <;> simp [comb_cols] <;> norm_num

theorem fcc_G : Special (fcc 1) (![0, 0, 0]) [] := by
  refine sell_fcc.special ?_ ?_ [] ?_
  · simp only [Seven, vec3_dotProduct, Pi.add_apply, cons_val, Pi.smul_apply, smul_eq_mul, Pi.zero_apply]
    norm_num [abs_le]
  · simp
  · funext i
    fin_cases i <;> simp [comb_cols] <;> norm_num

theorem fcc_X2 : Special (fcc 1) (![0, 1, 0]) [![0, 1, 1]] := by
  refine sell_fcc.special ?_ ?_ [1 / 2] ?_
  · simp only [Seven, vec3_dotProduct, Pi.add_apply, cons_val, Pi.smul_apply, smul_eq_mul, Pi.zero_apply]
    norm_num [abs_le]
  · intro n hn
    simp only [List.mem_cons, List.not_mem_nil, or_false] at hn
    rcases hn with rfl <;>
      simp only [comb_cols, vec3_dotProduct, Pi.add_apply, cons_val, Pi.smul_apply, smul_eq_mul] <;> norm_num
  · funext i
    fin_cases i <;> simp [comb_cols] <;> norm_num

theorem fcc_K : Special (fcc 1) (![3 / 4, 3 / 4, 0]) [![0, 1, 0], ![-1, 0, 0]] := by
  refine sell_fcc.special ?_ ?_ [3 / 8, 3 / 8] ?_
  · simp only [Seven, vec3_dotProduct, Pi.add_apply, cons_val, Pi.smul_apply, smul_eq_mul, Pi.zero_apply]
    norm_num [abs_le]
  · intro n hn
    simp only [List.mem_cons, List.not_mem_nil, or_false] at hn
    rcases hn with rfl | rfl <;>
      simp only [comb_cols, vec3_dotProduct, Pi.add_apply, cons_val, Pi.smul_apply, smul_eq_mul] <;> norm_num
  · funext i
    fin_cases i <;> simp [comb_cols] <;> norm_num

theorem fcc_L : Special (fcc 1) (![1 / 2, 1 / 2, 1 / 2]) [![0, 1, 0]] := by
  refine sell_fcc.special ?_ ?_ [1 / 2] ?_
  · simp only [Seven, vec3_dotProduct, Pi.add_apply, cons_val, Pi.smul_apply, smul_eq_mul, Pi.zero_apply]
    norm_num [abs_le]
  · intro n hn
    simp only [List.mem_cons, List.not_mem_nil, or_false] at hn
    rcases hn with rfl <;>
      simp only [comb_cols, vec3_dotProduct, Pi.add_apply, cons_val, Pi.smul_apply, smul_eq_mul] <;> norm_num
  · funext i
    fin_cases i <;> simp [comb_cols] <;> norm_num

theorem fcc_W : Special (fcc 1) (![1 / 2, 1, 0]) [![0, 1, 1], ![0, 1, 0], ![-1, 0, 0]] := by
  refine sell_fcc.special ?_ ?_ [1 / 4, 1 / 4, 1 / 4] ?_
  · simp only [Seven, vec3_dotProduct, Pi.add_apply, cons_val, Pi.smul_apply, smul_eq_mul, Pi.zero_apply]
    norm_num [abs_le]
  · intro n hn
    simp only [List.mem_cons, List.not_mem_nil, or_false] at hn
    rcases hn with rfl | rfl | rfl <;>
      simp only [comb_cols, vec3_dotProduct, Pi.add_apply, cons_val, Pi.smul_apply, smul_eq_mul] <;> norm_num
  · funext i
    fin_cases i <;> simp [comb_cols] <;> norm_num

theorem fcc_U : Special (fcc 1) (![1 / 4, 1, 1 / 4]) [![0, 1, 1], ![0, 1, 0]] := by
  refine sell_fcc.special ?_ ?_ [3 / 8, 1 / 4] ?_
  · simp only [Seven, vec3_dotProduct, Pi.add_apply, cons_val, Pi.smul_apply, smul_eq_mul, Pi.zero_apply]
    norm_num [abs_le]
  · intro n hn
    simp only [List.mem_cons, List.not_mem_nil, or_false] at hn
    rcases hn with rfl | rfl <;>
      simp only [comb_cols, vec3_dotProduct, Pi.add_apply, cons_val, Pi.smul_apply, smul_eq_mul] <;> norm_num
  · funext i
    fin_cases i <;> simp [comb_cols] <;> norm_num

theorem bcc_G : Special (bcc 1) (![0, 0, 0]) [] := by
  refine sell_bcc.special ?_ ?_ [] ?_
  · simp only [Seven, vec3_dotProduct, Pi.add_apply, cons_val, Pi.smul_apply, smul_eq_mul, Pi.zero_apply]
    norm_num [abs_le]
  · simp
  · funext i
    fin_cases i <;> simp [comb_cols] <;> norm_num

theorem bcc_H : Special (bcc 1) (![1, 0, 0]) [![1, -1, -1]] := by
  refine sell_bcc.special ?_ ?_ [1 / 2] ?_
  · simp only [Seven, vec3_dotProduct, Pi.add_apply, cons_val, Pi.smul_apply, smul_eq_mul, Pi.zero_apply]
    norm_num [abs_le]
  · intro n hn
    simp only [List.mem_cons, List.not_mem_nil, or_false] at hn
    rcases hn with rfl <;>
      simp only [comb_cols, vec3_dotProduct, Pi.add_apply, cons_val, Pi.smul_apply, smul_eq_mul] <;> norm_num
  · funext i
    fin_cases i <;> simp [comb_cols] <;> norm_num

theorem bcc_H1 : Special (bcc 1) (![0, 1, 0]) [![1, 1, -1]] := by
  refine sell_bcc.special ?_ ?_ [1 / 2] ?_
  · simp only [Seven, vec3_dotProduct, Pi.add_apply, cons_val, Pi.smul_apply, smul_eq_mul, Pi.zero_apply]
    norm_num [abs_le]
  · intro n hn
    simp only [List.mem_cons, List.not_mem_nil, or_false] at hn
    rcases hn with rfl <;>
      simp only [comb_cols, vec3_dotProduct, Pi.add_apply, cons_val, Pi.smul_apply, smul_eq_mul] <;> norm_num
  · funext i
    fin_cases i <;> simp [comb_cols] <;> norm_num

theorem bcc_N : Special (bcc 1) (![1 / 2, 1 / 2, 0]) [![1, 0, -1]] := by
  refine sell_bcc.special ?_ ?_ [1 / 2] ?_
  · simp only [Seven, vec3_dotProduct, Pi.add_apply, cons_val, Pi.smul_apply, smul_eq_mul, Pi.zero_apply]
    norm_num [abs_le]
  · intro n hn
    simp only [List.mem_cons, List.not_mem_nil, or_false] at hn
    rcases hn with rfl <;>
      simp only [comb_cols, vec3_dotProduct, Pi.add_apply, cons_val, Pi.smul_apply, smul_eq_mul] <;> norm_num
  · funext i
    fin_cases i <;> simp [comb_cols] <;> norm_num

theorem bcc_P : Special (bcc 1) (![1 / 2, 1 / 2, 1 / 2]) [![1, 0, -1], ![1, 0, 0], ![1, 1, 0]] := by
  refine sell_bcc.special ?_ ?_ [1 / 4, 1 / 4, 1 / 4] ?_
  · simp only [Seven, vec3_dotProduct, Pi.add_apply, cons_val, Pi.smul_apply, smul_eq_mul, Pi.zero_apply]
    norm_num [abs_le]
  · intro n hn
    simp only [List.mem_cons, List.not_mem_nil, or_false] at hn
    rcases hn with rfl | rfl | rfl <;>
      simp only [comb_cols, vec3_dotProduct, Pi.add_apply, cons_val, Pi.smul_apply, smul_eq_mul] <;> norm_num
  · funext i
    fin_cases i <;> simp [comb_cols] <;> norm_num

/-- **C104.** For the simple, face centred and body centred cubic lattices with the lattice constant `a`, the points of `kpaths.points`, in units of
`1/a`, are the centres of faces, feet on edges and vertices of the first Brillouin zone which their names stand for. -/
theorem C104_cubic {a : ℝ} (ha : a ≠ 0) :
    Spec.Named cubicPoints a⁻¹ (Lat.sc a) Spec.sc ∧ Spec.Named cubicPoints a⁻¹ (Lat.fcc a) Spec.fcc ∧ Spec.Named cubicPoints a⁻¹ (Lat.bcc a) Spec.bcc := by
  have e1 : Lat.sc a = a • Lat.sc 1 := by simp [Lat.sc]
  have e2 : Lat.fcc a = a • Lat.fcc 1 := by rw [Lat.fcc, Lat.fcc, smul_smul]; congr 1; ring
  have e3 : Lat.bcc a = a • Lat.bcc 1 := by rw [Lat.bcc, Lat.bcc, smul_smul]; congr 1; ring
  rw [e1, e2, e3]
  refine ⟨named_scale ?_ ha, named_scale ?_ ha, named_scale ?_ ha⟩
  · intro e he
    simp only [Spec.sc, List.mem_cons, List.not_mem_nil, or_false] at he
    rcases he with rfl | rfl | rfl | rfl | rfl <;> simp only [one_smul]
    · exact ⟨_, rfl, sc_G⟩
    · exact ⟨_, rfl, sc_G⟩
    · exact ⟨_, rfl, sc_X⟩
    · exact ⟨_, rfl, sc_M⟩
    · exact ⟨_, rfl, sc_R⟩
  · intro e he
    simp only [Spec.fcc, List.mem_cons, List.not_mem_nil, or_false] at he
    rcases he with rfl | rfl | rfl | rfl | rfl | rfl <;> simp only [one_smul]
    · exact ⟨_, rfl, fcc_G⟩
    · exact ⟨_, rfl, fcc_X2⟩
    · exact ⟨_, rfl, fcc_K⟩
    · exact ⟨_, rfl, fcc_L⟩
    · exact ⟨_, rfl, fcc_W⟩
    · exact ⟨_, rfl, fcc_U⟩
  · intro e he
    simp only [Spec.bcc, List.mem_cons, List.not_mem_nil, or_false] at he
    rcases he with rfl | rfl | rfl | rfl | rfl <;> simp only [one_smul]
    · exact ⟨_, rfl, bcc_G⟩
    · exact ⟨_, rfl, bcc_H⟩
    · exact ⟨_, rfl, bcc_H1⟩
    · exact ⟨_, rfl, bcc_N⟩
    · exact ⟨_, rfl, bcc_P⟩

/-! ## Two and one dimensions -/

/-- Square lattice. -/
def Spec.square : List (String × List (Fin 2 → ℤ)) :=
  [("G2d", []), ("X2d", [![0, 1]]), ("X12d", [![1, 0]]), ("M2d", [![1, 0], ![0, 1]])]

/-- Chain. -/
def Spec.chain : List (String × List (Fin 1 → ℤ)) := [("G1d", []), ("X1d", [![1]])]

theorem comb_one {d : ℕ} (n : Fin d → ℤ) : comb (1 : Matrix (Fin d) (Fin d) ℝ) n = fun i => (n i : ℝ) := by rw [comb, one_mulVec]

theorem int_le_sq (z : ℤ) : (z : ℝ) ≤ z * z := by
  have : z ≤ z * z := by nlinarith [sq_nonneg (2 * z - 1), Int.le_self_sq z]
  exact_mod_cast this

/-- **C104.** The two-dimensional and the one-dimensional points are those of the square lattice and of the chain. -/
theorem C104_square_line {a : ℝ} (ha : a ≠ 0) :
    Spec.Named squarePoints a⁻¹ (a • (1 : Matrix (Fin 2) (Fin 2) ℝ)) Spec.square ∧
    Spec.Named linePoints a⁻¹ (a • (1 : Matrix (Fin 1) (Fin 1) ℝ)) Spec.chain := by
  have d2 : (1 : Matrix (Fin 2) (Fin 2) ℝ)ᵀ * 1 = 1 := by simp
  have d1 : (1 : Matrix (Fin 1) (Fin 1) ℝ)ᵀ * 1 = 1 := by simp
  refine ⟨named_scale ?_ ha, named_scale ?_ ha⟩
  · intro e he
    simp only [Spec.square, List.mem_cons, List.not_mem_nil, or_false] at he
    rcases he with rfl | rfl | rfl | rfl <;> simp only [one_smul]
    · refine ⟨_, rfl, special_of d2 (fun n => ?_) (by simp) [] (by simp)⟩
      have h0 := mul_self_nonneg (n 0 : ℝ)
      have h1 := mul_self_nonneg (n 1 : ℝ)
      simp only [comb_one, dotProduct, Fin.sum_univ_two, Pi.smul_apply, smul_eq_mul, cons_val]
      linarith
    · refine ⟨_, rfl, special_of d2 (fun n => ?_) (by norm_num [comb_one, dotProduct]) [1 / 2] ?_⟩
      · have h0 := mul_self_nonneg (n 0 : ℝ)
        have h1 := int_le_sq (n 1)
        simp only [comb_one, dotProduct, Fin.sum_univ_two, Pi.smul_apply, smul_eq_mul, cons_val]
        linarith
      · funext i; fin_cases i <;> simp [comb_one] <;> norm_num
    · refine ⟨_, rfl, special_of d2 (fun n => ?_) (by norm_num [comb_one, dotProduct]) [1 / 2] ?_⟩
      · have h0 := int_le_sq (n 0)
        have h1 := mul_self_nonneg (n 1 : ℝ)
        simp only [comb_one, dotProduct, Fin.sum_univ_two, Pi.smul_apply, smul_eq_mul, cons_val]
        linarith
      · funext i; fin_cases i <;> simp [comb_one] <;> norm_num
    · refine ⟨_, rfl, special_of d2 (fun n => ?_) (by norm_num [comb_one, dotProduct]) [1 / 2, 1 / 2] ?_⟩
      · have h0 := int_le_sq (n 0)
        have h1 := int_le_sq (n 1)
        simp only [comb_one, dotProduct, Fin.sum_univ_two, Pi.smul_apply, smul_eq_mul, cons_val]
        linarith
      · funext i; fin_cases i <;> simp [comb_one] <;> norm_num
  · intro e he
    simp only [Spec.chain, List.mem_cons, List.not_mem_nil, or_false] at he
    rcases he with rfl | rfl <;> simp only [one_smul]
    · refine ⟨_, rfl, special_of d1 (fun n => ?_) (by simp) [] (by simp)⟩
      have h0 := mul_self_nonneg (n 0 : ℝ)
      simp only [comb_one, dotProduct, Fin.sum_univ_one, Pi.smul_apply, smul_eq_mul, cons_val]
      norm_num
      linarith
    · refine ⟨_, rfl, special_of d1 (fun n => ?_) (by norm_num [comb_one, dotProduct]) [1 / 2] ?_⟩
      · have h0 := int_le_sq (n 0)
        simp only [comb_one, dotProduct, Fin.sum_univ_one, Pi.smul_apply, smul_eq_mul, cons_val]
        norm_num
        linarith
      · funext i; fin_cases i; simp [comb_one]; norm_num

/-! ## The hexagonal lattice -/

/-- Hexagonal. -/
def Spec.hexa : List (String × List (Fin 3 → ℤ)) :=
  [("G", []), ("A", [![0, 0, 1]]), ("K", [![1, 0, 0], ![1, -1, 0]]), ("H", [![1, 0, 0], ![1, -1, 0], ![0, 0, 1]]), ("M", [![1, 0, 0]]),
   ("L", [![1, 0, 0], ![0, 0, 1]])]

theorem sell_hex {a c : ℝ} (ha : a ≠ 0) (hc : c ≠ 0) :
    Sell (a • cols ![1, 0, 0] ![-1 / 2, Real.sqrt 3 / 2, 0] ![0, 0, c / a]) ![1 / a, Real.sqrt 3 / 3 * (1 / a), 0]
      ![0, 2 * Real.sqrt 3 / 3 * (1 / a), 0] ![0, 0, 1 / c] ![1 / a, Real.sqrt 3 / 3 * (1 / a), 0]
      ![0, -(2 * Real.sqrt 3 / 3 * (1 / a)), 0] ![0, 0, 1 / c] := by
  have t : Real.sqrt 3 * Real.sqrt 3 = 3 := Real.mul_self_sqrt (by norm_num)
  generalize Real.sqrt 3 = t3 at *
  have p2 := mul_self_nonneg (1 / a)
  have q2 := mul_self_nonneg (1 / c)
  have t2 : t3 ^ 2 = 3 := by rw [sq, t]
  constructor
  · ext i j
    fin_cases i <;> fin_cases j <;> simp [Matrix.mul_apply, Fin.sum_univ_three, cols] <;> field_simp <;> nlinarith
  · intro n0 n1 n2
    refine ⟨n0, -n1, n2, ?_⟩
    funext i; fin_cases i <;> simp
  all_goals
    simp only [vec3_dotProduct, Pi.add_apply, cons_val]
    generalize 1 / a = p at *
    generalize 1 / c = q at *
    nlinarith [congrArg (· * (p * p)) t]

theorem hex_points {A : Mat3} {p q t3 : ℝ} (ht : t3 * t3 = 3)
    (S : Sell A ![p, t3 / 3 * p, 0] ![0, 2 * t3 / 3 * p, 0] ![0, 0, q] ![p, t3 / 3 * p, 0] ![0, -(2 * t3 / 3 * p), 0] ![0, 0, q]) :
    Special A 0 [] ∧
    Special A ![0, 0, q / 2] [![0, 0, 1]] ∧
    Special A ![2 / 3 * p, 0, 0] [![1, 0, 0], ![1, -1, 0]] ∧
    Special A ![2 / 3 * p, 0, q / 2] [![1, 0, 0], ![1, -1, 0], ![0, 0, 1]] ∧
    Special A ![p / 2, t3 / 6 * p, 0] [![1, 0, 0]] ∧
    Special A ![p / 2, t3 / 6 * p, q / 2] [![1, 0, 0], ![0, 0, 1]] := by
  have hp := congrArg (· * (p * p)) ht
  have p2 := mul_self_nonneg p
  have q2 := mul_self_nonneg q
  refine ⟨?_, ?_, ?_, ?_, ?_, ?_⟩
  · refine S.special ?_ ?_ [] ?_
    · simp only [Seven, vec3_dotProduct, Pi.add_apply, cons_val, Pi.smul_apply, smul_eq_mul, Pi.zero_apply]
      refine ⟨?_, ?_, ?_, ?_, ?_, ?_, ?_⟩ <;> rw [abs_le] <;> constructor <;> linarith [hp, p2, q2]
    · simp
    · funext i
      fin_cases i <;> simp [comb_cols] <;> ring_nf
  · refine S.special ?_ ?_ [1 / 2] ?_
    · simp only [Seven, vec3_dotProduct, Pi.add_apply, cons_val, Pi.smul_apply, smul_eq_mul, Pi.zero_apply]
      refine ⟨?_, ?_, ?_, ?_, ?_, ?_, ?_⟩ <;> rw [abs_le] <;> constructor <;> linarith [hp, p2, q2]
    · intro n hn
      simp only [List.mem_cons, List.not_mem_nil, or_false] at hn
      rcases hn with rfl <;>
        simp only [comb_cols, vec3_dotProduct, Pi.add_apply, cons_val, Pi.smul_apply, smul_eq_mul] <;> push_cast <;> linarith [hp, p2, q2]
    · funext i
      fin_cases i <;> simp [comb_cols] <;> ring_nf
  · refine S.special ?_ ?_ [1 / 3, 1 / 3] ?_
    · simp only [Seven, vec3_dotProduct, Pi.add_apply, cons_val, Pi.smul_apply, smul_eq_mul, Pi.zero_apply]
      refine ⟨?_, ?_, ?_, ?_, ?_, ?_, ?_⟩ <;> rw [abs_le] <;> constructor <;> linarith [hp, p2, q2]
    · intro n hn
      simp only [List.mem_cons, List.not_mem_nil, or_false] at hn
      rcases hn with rfl | rfl <;>
        simp only [comb_cols, vec3_dotProduct, Pi.add_apply, cons_val, Pi.smul_apply, smul_eq_mul] <;> push_cast <;> linarith [hp, p2, q2]
    · funext i
      fin_cases i <;> simp [comb_cols] <;> ring_nf
  · refine S.special ?_ ?_ [1 / 3, 1 / 3, 1 / 2] ?_
    · simp only [Seven, vec3_dotProduct, Pi.add_apply, cons_val, Pi.smul_apply, smul_eq_mul, Pi.zero_apply]
      refine ⟨?_, ?_, ?_, ?_, ?_, ?_, ?_⟩ <;> rw [abs_le] <;> constructor <;> linarith [hp, p2, q2]
    · intro n hn
      simp only [List.mem_cons, List.not_mem_nil, or_false] at hn
      rcases hn with rfl | rfl | rfl <;>
        simp only [comb_cols, vec3_dotProduct, Pi.add_apply, cons_val, Pi.smul_apply, smul_eq_mul] <;> push_cast <;> linarith [hp, p2, q2]
    · funext i
      fin_cases i <;> simp [comb_cols] <;> ring_nf
  · refine S.special ?_ ?_ [1 / 2] ?_
    · simp only [Seven, vec3_dotProduct, Pi.add_apply, cons_val, Pi.smul_apply, smul_eq_mul, Pi.zero_apply]
      refine ⟨?_, ?_, ?_, ?_, ?_, ?_, ?_⟩ <;> rw [abs_le] <;> constructor <;> linarith [hp, p2, q2]
    · intro n hn
      simp only [List.mem_cons, List.not_mem_nil, or_false] at hn
      rcases hn with rfl <;>
        simp only [comb_cols, vec3_dotProduct, Pi.add_apply, cons_val, Pi.smul_apply, smul_eq_mul] <;> push_cast <;> linarith [hp, p2, q2]
    · funext i
      fin_cases i <;> simp [comb_cols] <;> ring_nf
  · refine S.special ?_ ?_ [1 / 2, 1 / 2] ?_
    · simp only [Seven, vec3_dotProduct, Pi.add_apply, cons_val, Pi.smul_apply, smul_eq_mul, Pi.zero_apply]
      refine ⟨?_, ?_, ?_, ?_, ?_, ?_, ?_⟩ <;> rw [abs_le] <;> constructor <;> linarith [hp, p2, q2]
    · intro n hn
      simp only [List.mem_cons, List.not_mem_nil, or_false] at hn
      rcases hn with rfl | rfl <;>
        simp only [comb_cols, vec3_dotProduct, Pi.add_apply, cons_val, Pi.smul_apply, smul_eq_mul] <;> push_cast <;> linarith [hp, p2, q2]
    · funext i
      fin_cases i <;> simp [comb_cols] <;> ring_nf

/-- **C104.** For the hexagonal lattice `hexagonal(a, c)` the points of `hexagonal_points(1/a, 1/c)` are the special points of the zone. -/
theorem C104_hexagonal {a c : ℝ} (ha : a ≠ 0) (hc : c ≠ 0) :
    ∃ A, Lat.hexagonal a c = .ok A ∧ Spec.Named (hexagonalPoints (1 / a) (1 / c)) 1 A Spec.hexa ∧
      (hexagonalPoints (1 / a) (1 / c)).map (·.1) = Spec.hexa.map (·.1) := by
  refine ⟨_, if_neg ha, ?_, rfl⟩
  have ht : Real.sqrt 3 * Real.sqrt 3 = 3 := Real.mul_self_sqrt (by norm_num)
  have ht0 : 0 < Real.sqrt 3 := Real.sqrt_pos.2 (by norm_num)
  have hd' : 0.5 / Real.sqrt 3 = Real.sqrt 3 / 6 := by field_simp; nlinarith
  obtain ⟨h1, h2, h3, h4, h5, h6⟩ := hex_points ht (sell_hex ha hc)
  have e1 : (1 / a) / 1.5 = 2 / 3 * (1 / a) := by ring
  have e2 : 0.5 * (1 / a) = (1 / a) / 2 := by ring
  rw [← e1] at h3 h4
  rw [← e2, ← hd'] at h5 h6
  intro e he
  simp only [Spec.hexa, List.mem_cons, List.not_mem_nil, or_false] at he
  rcases he with rfl | rfl | rfl | rfl | rfl | rfl <;> simp only [one_smul]
  · exact ⟨_, rfl, h1⟩
  · exact ⟨_, rfl, h2⟩
  · exact ⟨_, rfl, h3⟩
  · exact ⟨_, rfl, h4⟩
  · exact ⟨_, rfl, h5⟩
  · exact ⟨_, rfl, h6⟩

/-- **C104 is false for the documented argument.**  The docstring of `hexagonal_points` says that `r` is the distance between the reciprocal lattice
points in the hexagon.  With that distance the points `M` and `L` lie outside the zone. -/
theorem C104_hexagonal_defect {a c r : ℝ} (ha : 0 < a) (hc : c ≠ 0) {A : Mat3} (hA : Lat.hexagonal a c = .ok A) (hr : 0 < r)
    (hd : ∃ G ∈ Recip A, G 2 = 0 ∧ G ≠ 0 ∧ G ⬝ᵥ G = r ^ 2) :
    ∃ p q, (hexagonalPoints r (1 / c)).lookup "M" = some p ∧ (hexagonalPoints r (1 / c)).lookup "L" = some q ∧
      p.1 ∉ firstZone A ∧ q.1 ∉ firstZone A := by
  have hA' := hA.symm.trans (if_neg ha.ne' : Lat.hexagonal a c = _)
  obtain rfl := Except.ok.inj hA'
  have S := sell_hex ha.ne' hc
  have ht : Real.sqrt 3 * Real.sqrt 3 = 3 := Real.mul_self_sqrt (by norm_num)
  have ht0 : 0 < Real.sqrt 3 := Real.sqrt_pos.2 (by norm_num)
  have hd' : 0.5 / Real.sqrt 3 = Real.sqrt 3 / 6 := by field_simp; nlinarith
  obtain ⟨G, ⟨n, hn⟩, hG2, hG0, hGG⟩ := hd
  have hp : 0 < 1 / a := by positivity
  rw [miller_iff S.dual, comb_cols] at hn
  have hn2 : (n 2 : ℝ) * (1 / c) = 0 := by
    rw [hn] at hG2
    simpa using hG2
  have hr2 : r ^ 2 = 4 / 3 * (1 / a) ^ 2 * ((n 0 : ℝ) ^ 2 + n 0 * n 1 + (n 1 : ℝ) ^ 2) := by
    rw [← hGG, hn]
    simp only [vec3_dotProduct, Pi.add_apply, cons_val, Pi.smul_apply, smul_eq_mul, hn2]
    linear_combination ((1 / a) ^ 2 * ((n 0 : ℝ) ^ 2 / 9 + 4 * n 0 * n 1 / 9 + 4 * (n 1 : ℝ) ^ 2 / 9)) * ht
  have hN : 1 ≤ n 0 ^ 2 + n 0 * n 1 + n 1 ^ 2 := by
    by_contra hlt
    have h1 : n 0 = 0 := by nlinarith [sq_nonneg (n 0), sq_nonneg (n 0 + 2 * n 1), sq_nonneg (2 * n 0 + n 1)]
    have h2 : n 1 = 0 := by nlinarith [sq_nonneg (n 0 + 2 * n 1), sq_nonneg (n 1), sq_nonneg (2 * n 0 + n 1)]
    apply hG0
    rw [hn, h1, h2]
    funext i
    fin_cases i <;> simp
    simpa using hn2
  have hN' : (1 : ℝ) ≤ (n 0 : ℝ) ^ 2 + n 0 * n 1 + (n 1 : ℝ) ^ 2 := by exact_mod_cast hN
  have hrp : 1 / a < r := by
    have : (1 / a) ^ 2 < r ^ 2 := by
      rw [hr2]
      nlinarith [sq_nonneg (1 / a), mul_pos hp hp]
    exact lt_of_pow_lt_pow_left₀ 2 hr.le this
  have key : ∀ z : ℝ, ¬ (![0.5 * r, 0.5 / Real.sqrt 3 * r, z] : V3) ∈ firstZone (a • cols ![1, 0, 0] ![-1 / 2, Real.sqrt 3 / 2, 0] ![0, 0, c / a]) := by
    intro z hz
    have := (zone_iff S.dual _).1 hz ![1, 0, 0]
    rw [hd', comb_cols] at this
    simp only [vec3_dotProduct, Pi.add_apply, cons_val, Pi.smul_apply, smul_eq_mul] at this
    push_cast at this
    generalize 1 / a = p at *
    nlinarith [congrArg (· * (p * p)) ht, congrArg (· * (r * p)) ht, mul_pos hp (sub_pos.2 hrp)]
  exact ⟨_, _, rfl, rfl, key _, key _⟩

/-! ## Examples -/

/-- The corner `W` of the zone of a face centred cubic lattice with the lattice constant 4. -/
example : Special (Lat.fcc 4) ((4 : ℝ)⁻¹ • ![1 / 2, 1, 0]) [![0, 1, 1], ![0, 1, 0], ![-1, 0, 0]] := by
  obtain ⟨p, hp, hs⟩ := (C104_cubic (a := 4) (by norm_num)).2.1 ("W", [![0, 1, 1], ![0, 1, 0], ![-1, 0, 0]]) (by simp [Spec.fcc])
  obtain rfl : (![1 / 2, 1, 0], "W") = p := Option.some.inj hp
  exact hs

example : Spec.Named squarePoints (3 : ℝ)⁻¹ ((3 : ℝ) • (1 : Matrix (Fin 2) (Fin 2) ℝ)) Spec.square := (C104_square_line (by norm_num)).1

example : ∃ A, Lat.hexagonal 2 3 = .ok A ∧ Spec.Named (hexagonalPoints (1 / 2) (1 / 3)) 1 A Spec.hexa := by
  obtain ⟨A, h, h', -⟩ := C104_hexagonal (a := 2) (c := 3) (by norm_num) (by norm_num)
  exact ⟨A, h, h'⟩

/-- The distance of the reciprocal lattice points of `hexagonal(1, 1)` is `2/√3`. -/
example : ∃ A, Lat.hexagonal 1 1 = .ok A ∧ ∃ p q, (hexagonalPoints (2 * Real.sqrt 3 / 3) (1 / 1)).lookup "M" = some p ∧
    (hexagonalPoints (2 * Real.sqrt 3 / 3) (1 / 1)).lookup "L" = some q ∧ p.1 ∉ firstZone A ∧ q.1 ∉ firstZone A := by
  have ht : 0 < Real.sqrt 3 := Real.sqrt_pos.2 (by norm_num)
  have hA : Lat.hexagonal 1 1 = .ok _ := if_neg one_ne_zero
  have S := sell_hex (a := 1) (c := 1) one_ne_zero one_ne_zero
  refine ⟨_, hA, C104_hexagonal_defect one_pos one_ne_zero hA (by positivity) ⟨![0, 2 * Real.sqrt 3 / 3 * (1 / 1), 0], ⟨![0, 1, 0], ?_⟩, rfl, ?_, ?_⟩⟩
  · rw [miller_iff S.dual, comb_cols]
    funext i; fin_cases i <;> simp
  · intro h
    have := congrFun h 1
    simp at this
  · simp only [vec3_dotProduct, cons_val]; ring

end TB.KPts

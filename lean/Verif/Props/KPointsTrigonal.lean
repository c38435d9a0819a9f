import Verif.Lemmas.ZoneRhomb
import Verif.Props.KPoints

/-!
# C104: the points of the rhombohedral lattice
-/

set_option linter.unusedSimpArgs false
set_option linter.unusedTactic false
set_option linter.unreachableTactic false
set_option linter.unnecessarySeqFocus false
set_option linter.unusedVariables false

namespace TB.KPts
open Matrix Zone Lat

/-! ## Specification -/

/-- Rhombohedral, acute angle. -/
def Spec.acute : List (String × List (Fin 3 → ℤ)) :=
  [("G", []), ("Z", [![1, 1, 1]]), ("L", [![0, 1, 0]]), ("L1", [![0, 0, -1]]), ("F", [![1, 1, 0]]), ("X", [![0, 1, 0], ![0, 0, -1]]), ("P", [![1, 1, 1], ![0, 1, 0]]), ("P1", [![1, 1, 1], ![1, 1, 0]]), ("P2", [![1, 1, 0], ![0, 0, -1]]), ("Q", [![1, 1, 0], ![0, 1, 0]]), ("B", [![1, 1, 1], ![1, 1, 0], ![0, 1, 0]]), ("B1", [![0, 0, -1], ![1, 1, 0], ![0, 1, 0]])]

/-- Rhombohedral, angle of at least 90°. -/
def Spec.obtuse : List (String × List (Fin 3 → ℤ)) :=
  [("G", []), ("X", [![0, 1, -1]]), ("F", [![1, 0, -1]]), ("F1", [![1, -1, 0]]), ("L", [![1, 0, 0]]), ("Z", [![0, 1, -1], ![1, 0, -1], ![1, 0, 0]]), ("Q", [![1, 0, 0], ![0, 1, 0], ![0, 0, 1]]), ("Q1", [![1, 0, -1], ![1, -1, 0], ![1, 0, 0]])]

/-- The midpoints of two edges, given by the planes of the two vertices. -/
def Spec.middle : List (String × List (Fin 3 → ℤ) × List (Fin 3 → ℤ)) :=
  [("P1", [![1, 0, -1], ![1, -1, 0], ![1, 0, 0]], [![1, 0, -1], ![1, -1, 0], ![0, -1, 0]]), ("P", [![0, 1, -1], ![1, 0, -1], ![1, 0, 0]], [![0, 1, -1], ![1, 0, -1], ![0, 0, -1]])]

/-- The dictionary has the midpoints of the edges between the given vertices of the zone. -/
def Spec.Middle (D : List (Entry 3)) (A : Mat3) (T : List (String × List (Fin 3 → ℤ) × List (Fin 3 → ℤ))) : Prop :=
  ∀ e ∈ T, ∃ p v w, D.lookup e.1 = some p ∧ Special A v e.2.1 ∧ Special A w e.2.2 ∧ p.1 = (1 / 2 : ℝ) • (v + w)

/-- The lattice with the first two axes exchanged. -/
def Spec.mirrored (A : Mat3) : Mat3 := A.submatrix ![1, 0, 2] id

/-! ## The points in the reciprocal basis -/

theorem ac_G {b0 b1 b2 : V3} {P Q : ℝ} (R : Rh b0 b1 b2 P Q) (hP : 0 < P) (hQ : 0 ≤ Q) (hPQ : 2 * Q ≤ P) : Seven b0 b1 b2 ((0 : ℝ) • b0 + (0 : ℝ) • b1 + (0 : ℝ) • b2) ∧
    (∀ n ∈ ([] : List (Fin 3 → ℤ)), 2 * (((0 : ℝ) • b0 + (0 : ℝ) • b1 + (0 : ℝ) • b2) ⬝ᵥ comb (cols b0 b1 b2) n) = comb (cols b0 b1 b2) n ⬝ᵥ comb (cols b0 b1 b2) n) ∧
    (0 : ℝ) • b0 + (0 : ℝ) • b1 + (0 : ℝ) • b2 = (List.zipWith (fun (x : ℝ) n => x • comb (cols b0 b1 b2) n) [] []).sum := by
  have p : Pos P Q (0) (0) (0) (0) (0) (0) := by
    constructor <;> field_simp <;> ring
  refine ⟨?_, ?_, comb_sum _ _ ?_ ?_ ?_⟩
  · refine R.seven_acute p ?_ ?_ ?_ ?_ ?_ ?_ ?_ <;> rw [abs_le] <;> constructor <;> linarith
  · simp
  all_goals
    simp <;> field_simp <;> ring

theorem ac_Z {b0 b1 b2 : V3} {P Q : ℝ} (R : Rh b0 b1 b2 P Q) (hP : 0 < P) (hQ : 0 ≤ Q) (hPQ : 2 * Q ≤ P) : Seven b0 b1 b2 ((1 / 2 : ℝ) • b0 + (1 / 2 : ℝ) • b1 + (1 / 2 : ℝ) • b2) ∧
    (∀ n ∈ ([![1, 1, 1]] : List (Fin 3 → ℤ)), 2 * (((1 / 2 : ℝ) • b0 + (1 / 2 : ℝ) • b1 + (1 / 2 : ℝ) • b2) ⬝ᵥ comb (cols b0 b1 b2) n) = comb (cols b0 b1 b2) n ⬝ᵥ comb (cols b0 b1 b2) n) ∧
    (1 / 2 : ℝ) • b0 + (1 / 2 : ℝ) • b1 + (1 / 2 : ℝ) • b2 = (List.zipWith (fun (x : ℝ) n => x • comb (cols b0 b1 b2) n) [1 / 2] [![1, 1, 1]]).sum := by
  have p : Pos P Q (1 / 2) (1 / 2) (1 / 2) (3 * Q) (3 * Q) (3 * Q) := by
    constructor <;> field_simp <;> ring
  refine ⟨?_, ?_, comb_sum _ _ ?_ ?_ ?_⟩
  · refine R.seven_acute p ?_ ?_ ?_ ?_ ?_ ?_ ?_ <;> rw [abs_le] <;> constructor <;> linarith
  · intro n hn
    refine R.planes p ?_
    simp only [List.mem_cons, List.not_mem_nil, or_false] at hn
    rcases hn with rfl <;> simp only [cons_val] <;> push_cast <;> ring
  all_goals
    simp <;> field_simp <;> ring

theorem ac_L {b0 b1 b2 : V3} {P Q : ℝ} (R : Rh b0 b1 b2 P Q) (hP : 0 < P) (hQ : 0 ≤ Q) (hPQ : 2 * Q ≤ P) : Seven b0 b1 b2 ((0 : ℝ) • b0 + (1 / 2 : ℝ) • b1 + (0 : ℝ) • b2) ∧
    (∀ n ∈ ([![0, 1, 0]] : List (Fin 3 → ℤ)), 2 * (((0 : ℝ) • b0 + (1 / 2 : ℝ) • b1 + (0 : ℝ) • b2) ⬝ᵥ comb (cols b0 b1 b2) n) = comb (cols b0 b1 b2) n ⬝ᵥ comb (cols b0 b1 b2) n) ∧
    (0 : ℝ) • b0 + (1 / 2 : ℝ) • b1 + (0 : ℝ) • b2 = (List.zipWith (fun (x : ℝ) n => x • comb (cols b0 b1 b2) n) [1 / 2] [![0, 1, 0]]).sum := by
  have p : Pos P Q (0) (1 / 2) (0) (Q - P / 2) (P + Q) (Q - P / 2) := by
    constructor <;> field_simp <;> ring
  refine ⟨?_, ?_, comb_sum _ _ ?_ ?_ ?_⟩
  · refine R.seven_acute p ?_ ?_ ?_ ?_ ?_ ?_ ?_ <;> rw [abs_le] <;> constructor <;> linarith
  · intro n hn
    refine R.planes p ?_
    simp only [List.mem_cons, List.not_mem_nil, or_false] at hn
    rcases hn with rfl <;> simp only [cons_val] <;> push_cast <;> ring
  all_goals
    simp <;> field_simp <;> ring

theorem ac_L1 {b0 b1 b2 : V3} {P Q : ℝ} (R : Rh b0 b1 b2 P Q) (hP : 0 < P) (hQ : 0 ≤ Q) (hPQ : 2 * Q ≤ P) : Seven b0 b1 b2 ((0 : ℝ) • b0 + (0 : ℝ) • b1 + (-1 / 2 : ℝ) • b2) ∧
    (∀ n ∈ ([![0, 0, -1]] : List (Fin 3 → ℤ)), 2 * (((0 : ℝ) • b0 + (0 : ℝ) • b1 + (-1 / 2 : ℝ) • b2) ⬝ᵥ comb (cols b0 b1 b2) n) = comb (cols b0 b1 b2) n ⬝ᵥ comb (cols b0 b1 b2) n) ∧
    (0 : ℝ) • b0 + (0 : ℝ) • b1 + (-1 / 2 : ℝ) • b2 = (List.zipWith (fun (x : ℝ) n => x • comb (cols b0 b1 b2) n) [1 / 2] [![0, 0, -1]]).sum := by
  have p : Pos P Q (0) (0) (-1 / 2) (-(Q - P / 2)) (-(Q - P / 2)) (-(P + Q)) := by
    constructor <;> field_simp <;> ring
  refine ⟨?_, ?_, comb_sum _ _ ?_ ?_ ?_⟩
  · refine R.seven_acute p ?_ ?_ ?_ ?_ ?_ ?_ ?_ <;> rw [abs_le] <;> constructor <;> linarith
  · intro n hn
    refine R.planes p ?_
    simp only [List.mem_cons, List.not_mem_nil, or_false] at hn
    rcases hn with rfl <;> simp only [cons_val] <;> push_cast <;> ring
  all_goals
    simp <;> field_simp <;> ring

theorem ac_F {b0 b1 b2 : V3} {P Q : ℝ} (R : Rh b0 b1 b2 P Q) (hP : 0 < P) (hQ : 0 ≤ Q) (hPQ : 2 * Q ≤ P) : Seven b0 b1 b2 ((1 / 2 : ℝ) • b0 + (1 / 2 : ℝ) • b1 + (0 : ℝ) • b2) ∧
    (∀ n ∈ ([![1, 1, 0]] : List (Fin 3 → ℤ)), 2 * (((1 / 2 : ℝ) • b0 + (1 / 2 : ℝ) • b1 + (0 : ℝ) • b2) ⬝ᵥ comb (cols b0 b1 b2) n) = comb (cols b0 b1 b2) n ⬝ᵥ comb (cols b0 b1 b2) n) ∧
    (1 / 2 : ℝ) • b0 + (1 / 2 : ℝ) • b1 + (0 : ℝ) • b2 = (List.zipWith (fun (x : ℝ) n => x • comb (cols b0 b1 b2) n) [1 / 2] [![1, 1, 0]]).sum := by
  have p : Pos P Q (1 / 2) (1 / 2) (0) (P / 2 + 2 * Q) (P / 2 + 2 * Q) (2 * Q - P) := by
    constructor <;> field_simp <;> ring
  refine ⟨?_, ?_, comb_sum _ _ ?_ ?_ ?_⟩
  · refine R.seven_acute p ?_ ?_ ?_ ?_ ?_ ?_ ?_ <;> rw [abs_le] <;> constructor <;> linarith
  · intro n hn
    refine R.planes p ?_
    simp only [List.mem_cons, List.not_mem_nil, or_false] at hn
    rcases hn with rfl <;> simp only [cons_val] <;> push_cast <;> ring
  all_goals
    simp <;> field_simp <;> ring

theorem ac_X {b0 b1 b2 : V3} {P Q : ℝ} (R : Rh b0 b1 b2 P Q) (hP : 0 < P) (hQ : 0 ≤ Q) (hPQ : 2 * Q ≤ P) : Seven b0 b1 b2 ((0 : ℝ) • b0 + ((P + Q) / (3 * P) : ℝ) • b1 + (-((P + Q) / (3 * P)) : ℝ) • b2) ∧
    (∀ n ∈ ([![0, 1, 0], ![0, 0, -1]] : List (Fin 3 → ℤ)), 2 * (((0 : ℝ) • b0 + ((P + Q) / (3 * P) : ℝ) • b1 + (-((P + Q) / (3 * P)) : ℝ) • b2) ⬝ᵥ comb (cols b0 b1 b2) n) = comb (cols b0 b1 b2) n ⬝ᵥ comb (cols b0 b1 b2) n) ∧
    (0 : ℝ) • b0 + ((P + Q) / (3 * P) : ℝ) • b1 + (-((P + Q) / (3 * P)) : ℝ) • b2 = (List.zipWith (fun (x : ℝ) n => x • comb (cols b0 b1 b2) n) [(P + Q) / (3 * P), (P + Q) / (3 * P)] [![0, 1, 0], ![0, 0, -1]]).sum := by
  have p : Pos P Q (0) ((P + Q) / (3 * P)) (-((P + Q) / (3 * P))) (0) (P + Q) (-(P + Q)) := by
    constructor <;> field_simp <;> ring
  refine ⟨?_, ?_, comb_sum _ _ ?_ ?_ ?_⟩
  · refine R.seven_acute p ?_ ?_ ?_ ?_ ?_ ?_ ?_ <;> rw [abs_le] <;> constructor <;> linarith
  · intro n hn
    refine R.planes p ?_
    simp only [List.mem_cons, List.not_mem_nil, or_false] at hn
    rcases hn with rfl | rfl <;> simp only [cons_val] <;> push_cast <;> ring
  all_goals
    simp <;> field_simp <;> ring

theorem ac_P {b0 b1 b2 : V3} {P Q : ℝ} (R : Rh b0 b1 b2 P Q) (hP : 0 < P) (hQ : 0 ≤ Q) (hPQ : 2 * Q ≤ P) : Seven b0 b1 b2 (((P + Q) / (3 * P) : ℝ) • b0 + ((P + Q) / (3 * P) + (P - 2 * Q) / (2 * P) : ℝ) • b1 + ((P + Q) / (3 * P) : ℝ) • b2) ∧
    (∀ n ∈ ([![1, 1, 1], ![0, 1, 0]] : List (Fin 3 → ℤ)), 2 * ((((P + Q) / (3 * P) : ℝ) • b0 + ((P + Q) / (3 * P) + (P - 2 * Q) / (2 * P) : ℝ) • b1 + ((P + Q) / (3 * P) : ℝ) • b2) ⬝ᵥ comb (cols b0 b1 b2) n) = comb (cols b0 b1 b2) n ⬝ᵥ comb (cols b0 b1 b2) n) ∧
    ((P + Q) / (3 * P) : ℝ) • b0 + ((P + Q) / (3 * P) + (P - 2 * Q) / (2 * P) : ℝ) • b1 + ((P + Q) / (3 * P) : ℝ) • b2 = (List.zipWith (fun (x : ℝ) n => x • comb (cols b0 b1 b2) n) [(P + Q) / (3 * P), (P - 2 * Q) / (2 * P)] [![1, 1, 1], ![0, 1, 0]]).sum := by
  have p : Pos P Q ((P + Q) / (3 * P)) ((P + Q) / (3 * P) + (P - 2 * Q) / (2 * P)) ((P + Q) / (3 * P)) ((8 * Q - P) / 2) (P + Q) ((8 * Q - P) / 2) := by
    constructor <;> field_simp <;> ring
  refine ⟨?_, ?_, comb_sum _ _ ?_ ?_ ?_⟩
  · refine R.seven_acute p ?_ ?_ ?_ ?_ ?_ ?_ ?_ <;> rw [abs_le] <;> constructor <;> linarith
  · intro n hn
    refine R.planes p ?_
    simp only [List.mem_cons, List.not_mem_nil, or_false] at hn
    rcases hn with rfl | rfl <;> simp only [cons_val] <;> push_cast <;> ring
  all_goals
    simp <;> field_simp <;> ring

theorem ac_P1 {b0 b1 b2 : V3} {P Q : ℝ} (R : Rh b0 b1 b2 P Q) (hP : 0 < P) (hQ : 0 ≤ Q) (hPQ : 2 * Q ≤ P) : Seven b0 b1 b2 (((P + 4 * Q) / (6 * P) + (P - 2 * Q) / (2 * P) : ℝ) • b0 + ((P + 4 * Q) / (6 * P) + (P - 2 * Q) / (2 * P) : ℝ) • b1 + ((P + 4 * Q) / (6 * P) : ℝ) • b2) ∧
    (∀ n ∈ ([![1, 1, 1], ![1, 1, 0]] : List (Fin 3 → ℤ)), 2 * ((((P + 4 * Q) / (6 * P) + (P - 2 * Q) / (2 * P) : ℝ) • b0 + ((P + 4 * Q) / (6 * P) + (P - 2 * Q) / (2 * P) : ℝ) • b1 + ((P + 4 * Q) / (6 * P) : ℝ) • b2) ⬝ᵥ comb (cols b0 b1 b2) n) = comb (cols b0 b1 b2) n ⬝ᵥ comb (cols b0 b1 b2) n) ∧
    ((P + 4 * Q) / (6 * P) + (P - 2 * Q) / (2 * P) : ℝ) • b0 + ((P + 4 * Q) / (6 * P) + (P - 2 * Q) / (2 * P) : ℝ) • b1 + ((P + 4 * Q) / (6 * P) : ℝ) • b2 = (List.zipWith (fun (x : ℝ) n => x • comb (cols b0 b1 b2) n) [(P + 4 * Q) / (6 * P), (P - 2 * Q) / (2 * P)] [![1, 1, 1], ![1, 1, 0]]).sum := by
  have p : Pos P Q ((P + 4 * Q) / (6 * P) + (P - 2 * Q) / (2 * P)) ((P + 4 * Q) / (6 * P) + (P - 2 * Q) / (2 * P)) ((P + 4 * Q) / (6 * P)) ((P + 4 * Q) / 2) ((P + 4 * Q) / 2) (5 * Q - P) := by
    constructor <;> field_simp <;> ring
  refine ⟨?_, ?_, comb_sum _ _ ?_ ?_ ?_⟩
  · refine R.seven_acute p ?_ ?_ ?_ ?_ ?_ ?_ ?_ <;> rw [abs_le] <;> constructor <;> linarith
  · intro n hn
    refine R.planes p ?_
    simp only [List.mem_cons, List.not_mem_nil, or_false] at hn
    rcases hn with rfl | rfl <;> simp only [cons_val] <;> push_cast <;> ring
  all_goals
    simp <;> field_simp <;> ring

theorem ac_P2 {b0 b1 b2 : V3} {P Q : ℝ} (R : Rh b0 b1 b2 P Q) (hP : 0 < P) (hQ : 0 ≤ Q) (hPQ : 2 * Q ≤ P) : Seven b0 b1 b2 (((P + Q) / (3 * P) : ℝ) • b0 + ((P + Q) / (3 * P) : ℝ) • b1 + (-((P + 4 * Q) / (6 * P)) : ℝ) • b2) ∧
    (∀ n ∈ ([![1, 1, 0], ![0, 0, -1]] : List (Fin 3 → ℤ)), 2 * ((((P + Q) / (3 * P) : ℝ) • b0 + ((P + Q) / (3 * P) : ℝ) • b1 + (-((P + 4 * Q) / (6 * P)) : ℝ) • b2) ⬝ᵥ comb (cols b0 b1 b2) n) = comb (cols b0 b1 b2) n ⬝ᵥ comb (cols b0 b1 b2) n) ∧
    ((P + Q) / (3 * P) : ℝ) • b0 + ((P + Q) / (3 * P) : ℝ) • b1 + (-((P + 4 * Q) / (6 * P)) : ℝ) • b2 = (List.zipWith (fun (x : ℝ) n => x • comb (cols b0 b1 b2) n) [(P + Q) / (3 * P), (P + 4 * Q) / (6 * P)] [![1, 1, 0], ![0, 0, -1]]).sum := by
  have p : Pos P Q ((P + Q) / (3 * P)) ((P + Q) / (3 * P)) (-((P + 4 * Q) / (6 * P))) ((P + 4 * Q) / 2) ((P + 4 * Q) / 2) (-(P + Q)) := by
    constructor <;> field_simp <;> ring
  refine ⟨?_, ?_, comb_sum _ _ ?_ ?_ ?_⟩
  · refine R.seven_acute p ?_ ?_ ?_ ?_ ?_ ?_ ?_ <;> rw [abs_le] <;> constructor <;> linarith
  · intro n hn
    refine R.planes p ?_
    simp only [List.mem_cons, List.not_mem_nil, or_false] at hn
    rcases hn with rfl | rfl <;> simp only [cons_val] <;> push_cast <;> ring
  all_goals
    simp <;> field_simp <;> ring

theorem ac_Q {b0 b1 b2 : V3} {P Q : ℝ} (R : Rh b0 b1 b2 P Q) (hP : 0 < P) (hQ : 0 ≤ Q) (hPQ : 2 * Q ≤ P) : Seven b0 b1 b2 (((P + Q) / (3 * P) : ℝ) • b0 + ((P + Q) / (3 * P) + (P - 2 * Q) / (3 * P) : ℝ) • b1 + (0 : ℝ) • b2) ∧
    (∀ n ∈ ([![1, 1, 0], ![0, 1, 0]] : List (Fin 3 → ℤ)), 2 * ((((P + Q) / (3 * P) : ℝ) • b0 + ((P + Q) / (3 * P) + (P - 2 * Q) / (3 * P) : ℝ) • b1 + (0 : ℝ) • b2) ⬝ᵥ comb (cols b0 b1 b2) n) = comb (cols b0 b1 b2) n ⬝ᵥ comb (cols b0 b1 b2) n) ∧
    ((P + Q) / (3 * P) : ℝ) • b0 + ((P + Q) / (3 * P) + (P - 2 * Q) / (3 * P) : ℝ) • b1 + (0 : ℝ) • b2 = (List.zipWith (fun (x : ℝ) n => x • comb (cols b0 b1 b2) n) [(P + Q) / (3 * P), (P - 2 * Q) / (3 * P)] [![1, 1, 0], ![0, 1, 0]]).sum := by
  have p : Pos P Q ((P + Q) / (3 * P)) ((P + Q) / (3 * P) + (P - 2 * Q) / (3 * P)) (0) (3 * Q) (P + Q) (2 * Q - P) := by
    constructor <;> field_simp <;> ring
  refine ⟨?_, ?_, comb_sum _ _ ?_ ?_ ?_⟩
  · refine R.seven_acute p ?_ ?_ ?_ ?_ ?_ ?_ ?_ <;> rw [abs_le] <;> constructor <;> linarith
  · intro n hn
    refine R.planes p ?_
    simp only [List.mem_cons, List.not_mem_nil, or_false] at hn
    rcases hn with rfl | rfl <;> simp only [cons_val] <;> push_cast <;> ring
  all_goals
    simp <;> field_simp <;> ring

theorem ac_B {b0 b1 b2 : V3} {P Q : ℝ} (R : Rh b0 b1 b2 P Q) (hP : 0 < P) (hQ : 0 ≤ Q) (hPQ : 2 * Q ≤ P) : Seven b0 b1 b2 ((1 / 2 : ℝ) • b0 + ((5 * P - 4 * Q) / (6 * P) : ℝ) • b1 + ((P + 4 * Q) / (6 * P) : ℝ) • b2) ∧
    (∀ n ∈ ([![1, 1, 1], ![1, 1, 0], ![0, 1, 0]] : List (Fin 3 → ℤ)), 2 * (((1 / 2 : ℝ) • b0 + ((5 * P - 4 * Q) / (6 * P) : ℝ) • b1 + ((P + 4 * Q) / (6 * P) : ℝ) • b2) ⬝ᵥ comb (cols b0 b1 b2) n) = comb (cols b0 b1 b2) n ⬝ᵥ comb (cols b0 b1 b2) n) ∧
    (1 / 2 : ℝ) • b0 + ((5 * P - 4 * Q) / (6 * P) : ℝ) • b1 + ((P + 4 * Q) / (6 * P) : ℝ) • b2 = (List.zipWith (fun (x : ℝ) n => x • comb (cols b0 b1 b2) n) [(P + 4 * Q) / (6 * P), 1 / 2 - (P + 4 * Q) / (6 * P), (5 * P - 4 * Q) / (6 * P) - 1 / 2] [![1, 1, 1], ![1, 1, 0], ![0, 1, 0]]).sum := by
  have p : Pos P Q (1 / 2) ((5 * P - 4 * Q) / (6 * P)) ((P + 4 * Q) / (6 * P)) (3 * Q) (P + Q) (5 * Q - P) := by
    constructor <;> field_simp <;> ring
  refine ⟨?_, ?_, comb_sum _ _ ?_ ?_ ?_⟩
  · refine R.seven_acute p ?_ ?_ ?_ ?_ ?_ ?_ ?_ <;> rw [abs_le] <;> constructor <;> linarith
  · intro n hn
    refine R.planes p ?_
    simp only [List.mem_cons, List.not_mem_nil, or_false] at hn
    rcases hn with rfl | rfl | rfl <;> simp only [cons_val] <;> push_cast <;> ring
  all_goals
    simp <;> field_simp <;> ring

theorem ac_B1 {b0 b1 b2 : V3} {P Q : ℝ} (R : Rh b0 b1 b2 P Q) (hP : 0 < P) (hQ : 0 ≤ Q) (hPQ : 2 * Q ≤ P) : Seven b0 b1 b2 (((P + 4 * Q) / (6 * P) : ℝ) • b0 + (1 / 2 : ℝ) • b1 + (-((P + 4 * Q) / (6 * P)) : ℝ) • b2) ∧
    (∀ n ∈ ([![0, 0, -1], ![1, 1, 0], ![0, 1, 0]] : List (Fin 3 → ℤ)), 2 * ((((P + 4 * Q) / (6 * P) : ℝ) • b0 + (1 / 2 : ℝ) • b1 + (-((P + 4 * Q) / (6 * P)) : ℝ) • b2) ⬝ᵥ comb (cols b0 b1 b2) n) = comb (cols b0 b1 b2) n ⬝ᵥ comb (cols b0 b1 b2) n) ∧
    ((P + 4 * Q) / (6 * P) : ℝ) • b0 + (1 / 2 : ℝ) • b1 + (-((P + 4 * Q) / (6 * P)) : ℝ) • b2 = (List.zipWith (fun (x : ℝ) n => x • comb (cols b0 b1 b2) n) [(P + 4 * Q) / (6 * P), (P + 4 * Q) / (6 * P), 1 / 2 - (P + 4 * Q) / (6 * P)] [![0, 0, -1], ![1, 1, 0], ![0, 1, 0]]).sum := by
  have p : Pos P Q ((P + 4 * Q) / (6 * P)) (1 / 2) (-((P + 4 * Q) / (6 * P))) (3 * Q) (P + Q) (-(P + Q)) := by
    constructor <;> field_simp <;> ring
  refine ⟨?_, ?_, comb_sum _ _ ?_ ?_ ?_⟩
  · refine R.seven_acute p ?_ ?_ ?_ ?_ ?_ ?_ ?_ <;> rw [abs_le] <;> constructor <;> linarith
  · intro n hn
    refine R.planes p ?_
    simp only [List.mem_cons, List.not_mem_nil, or_false] at hn
    rcases hn with rfl | rfl | rfl <;> simp only [cons_val] <;> push_cast <;> ring
  all_goals
    simp <;> field_simp <;> ring

theorem ob_G {b0 b1 b2 : V3} {P Q : ℝ} (R : Rh b0 b1 b2 P Q) (hP : 0 < P) (hQ : 0 < Q) (hPQ : P ≤ 2 * Q) : Seven b0 (-b1) (b2 - b0) ((0 : ℝ) • b0 + (0 : ℝ) • b1 + (0 : ℝ) • b2) ∧
    (∀ n ∈ ([] : List (Fin 3 → ℤ)), 2 * (((0 : ℝ) • b0 + (0 : ℝ) • b1 + (0 : ℝ) • b2) ⬝ᵥ comb (cols b0 b1 b2) n) = comb (cols b0 b1 b2) n ⬝ᵥ comb (cols b0 b1 b2) n) ∧
    (0 : ℝ) • b0 + (0 : ℝ) • b1 + (0 : ℝ) • b2 = (List.zipWith (fun (x : ℝ) n => x • comb (cols b0 b1 b2) n) [] []).sum := by
  have p : Pos P Q (0) (0) (0) (0) (0) (0) := by
    constructor <;> field_simp <;> ring
  refine ⟨?_, ?_, comb_sum _ _ ?_ ?_ ?_⟩
  · refine R.seven_obtuse p ?_ ?_ ?_ ?_ ?_ ?_ <;> rw [abs_le] <;> constructor <;> linarith
  · simp
  all_goals
    simp <;> field_simp <;> ring

theorem ob_X {b0 b1 b2 : V3} {P Q : ℝ} (R : Rh b0 b1 b2 P Q) (hP : 0 < P) (hQ : 0 < Q) (hPQ : P ≤ 2 * Q) : Seven b0 (-b1) (b2 - b0) ((0 : ℝ) • b0 + (1 / 2 : ℝ) • b1 + (-1 / 2 : ℝ) • b2) ∧
    (∀ n ∈ ([![0, 1, -1]] : List (Fin 3 → ℤ)), 2 * (((0 : ℝ) • b0 + (1 / 2 : ℝ) • b1 + (-1 / 2 : ℝ) • b2) ⬝ᵥ comb (cols b0 b1 b2) n) = comb (cols b0 b1 b2) n ⬝ᵥ comb (cols b0 b1 b2) n) ∧
    (0 : ℝ) • b0 + (1 / 2 : ℝ) • b1 + (-1 / 2 : ℝ) • b2 = (List.zipWith (fun (x : ℝ) n => x • comb (cols b0 b1 b2) n) [1 / 2] [![0, 1, -1]]).sum := by
  have p : Pos P Q (0) (1 / 2) (-1 / 2) (0) (3 / 2 * P) (-(3 / 2 * P)) := by
    constructor <;> field_simp <;> ring
  refine ⟨?_, ?_, comb_sum _ _ ?_ ?_ ?_⟩
  · refine R.seven_obtuse p ?_ ?_ ?_ ?_ ?_ ?_ <;> rw [abs_le] <;> constructor <;> linarith
  · intro n hn
    refine R.planes p ?_
    simp only [List.mem_cons, List.not_mem_nil, or_false] at hn
    rcases hn with rfl <;> simp only [cons_val] <;> push_cast <;> ring
  all_goals
    simp <;> field_simp <;> ring

theorem ob_F {b0 b1 b2 : V3} {P Q : ℝ} (R : Rh b0 b1 b2 P Q) (hP : 0 < P) (hQ : 0 < Q) (hPQ : P ≤ 2 * Q) : Seven b0 (-b1) (b2 - b0) ((1 / 2 : ℝ) • b0 + (0 : ℝ) • b1 + (-1 / 2 : ℝ) • b2) ∧
    (∀ n ∈ ([![1, 0, -1]] : List (Fin 3 → ℤ)), 2 * (((1 / 2 : ℝ) • b0 + (0 : ℝ) • b1 + (-1 / 2 : ℝ) • b2) ⬝ᵥ comb (cols b0 b1 b2) n) = comb (cols b0 b1 b2) n ⬝ᵥ comb (cols b0 b1 b2) n) ∧
    (1 / 2 : ℝ) • b0 + (0 : ℝ) • b1 + (-1 / 2 : ℝ) • b2 = (List.zipWith (fun (x : ℝ) n => x • comb (cols b0 b1 b2) n) [1 / 2] [![1, 0, -1]]).sum := by
  have p : Pos P Q (1 / 2) (0) (-1 / 2) (3 / 2 * P) (0) (-(3 / 2 * P)) := by
    constructor <;> field_simp <;> ring
  refine ⟨?_, ?_, comb_sum _ _ ?_ ?_ ?_⟩
  · refine R.seven_obtuse p ?_ ?_ ?_ ?_ ?_ ?_ <;> rw [abs_le] <;> constructor <;> linarith
  · intro n hn
    refine R.planes p ?_
    simp only [List.mem_cons, List.not_mem_nil, or_false] at hn
    rcases hn with rfl <;> simp only [cons_val] <;> push_cast <;> ring
  all_goals
    simp <;> field_simp <;> ring

theorem ob_F1 {b0 b1 b2 : V3} {P Q : ℝ} (R : Rh b0 b1 b2 P Q) (hP : 0 < P) (hQ : 0 < Q) (hPQ : P ≤ 2 * Q) : Seven b0 (-b1) (b2 - b0) ((1 / 2 : ℝ) • b0 + (-1 / 2 : ℝ) • b1 + (0 : ℝ) • b2) ∧
    (∀ n ∈ ([![1, -1, 0]] : List (Fin 3 → ℤ)), 2 * (((1 / 2 : ℝ) • b0 + (-1 / 2 : ℝ) • b1 + (0 : ℝ) • b2) ⬝ᵥ comb (cols b0 b1 b2) n) = comb (cols b0 b1 b2) n ⬝ᵥ comb (cols b0 b1 b2) n) ∧
    (1 / 2 : ℝ) • b0 + (-1 / 2 : ℝ) • b1 + (0 : ℝ) • b2 = (List.zipWith (fun (x : ℝ) n => x • comb (cols b0 b1 b2) n) [1 / 2] [![1, -1, 0]]).sum := by
  have p : Pos P Q (1 / 2) (-1 / 2) (0) (3 / 2 * P) (-(3 / 2 * P)) (0) := by
    constructor <;> field_simp <;> ring
  refine ⟨?_, ?_, comb_sum _ _ ?_ ?_ ?_⟩
  · refine R.seven_obtuse p ?_ ?_ ?_ ?_ ?_ ?_ <;> rw [abs_le] <;> constructor <;> linarith
  · intro n hn
    refine R.planes p ?_
    simp only [List.mem_cons, List.not_mem_nil, or_false] at hn
    rcases hn with rfl <;> simp only [cons_val] <;> push_cast <;> ring
  all_goals
    simp <;> field_simp <;> ring

theorem ob_L {b0 b1 b2 : V3} {P Q : ℝ} (R : Rh b0 b1 b2 P Q) (hP : 0 < P) (hQ : 0 < Q) (hPQ : P ≤ 2 * Q) : Seven b0 (-b1) (b2 - b0) ((1 / 2 : ℝ) • b0 + (0 : ℝ) • b1 + (0 : ℝ) • b2) ∧
    (∀ n ∈ ([![1, 0, 0]] : List (Fin 3 → ℤ)), 2 * (((1 / 2 : ℝ) • b0 + (0 : ℝ) • b1 + (0 : ℝ) • b2) ⬝ᵥ comb (cols b0 b1 b2) n) = comb (cols b0 b1 b2) n ⬝ᵥ comb (cols b0 b1 b2) n) ∧
    (1 / 2 : ℝ) • b0 + (0 : ℝ) • b1 + (0 : ℝ) • b2 = (List.zipWith (fun (x : ℝ) n => x • comb (cols b0 b1 b2) n) [1 / 2] [![1, 0, 0]]).sum := by
  have p : Pos P Q (1 / 2) (0) (0) (P + Q) (Q - P / 2) (Q - P / 2) := by
    constructor <;> field_simp <;> ring
  refine ⟨?_, ?_, comb_sum _ _ ?_ ?_ ?_⟩
  · refine R.seven_obtuse p ?_ ?_ ?_ ?_ ?_ ?_ <;> rw [abs_le] <;> constructor <;> linarith
  · intro n hn
    refine R.planes p ?_
    simp only [List.mem_cons, List.not_mem_nil, or_false] at hn
    rcases hn with rfl <;> simp only [cons_val] <;> push_cast <;> ring
  all_goals
    simp <;> field_simp <;> ring

theorem ob_Z {b0 b1 b2 : V3} {P Q : ℝ} (R : Rh b0 b1 b2 P Q) (hP : 0 < P) (hQ : 0 < Q) (hPQ : P ≤ 2 * Q) : Seven b0 (-b1) (b2 - b0) ((1 / 2 : ℝ) • b0 + (1 / 2 : ℝ) • b1 + (-1 / 2 : ℝ) • b2) ∧
    (∀ n ∈ ([![0, 1, -1], ![1, 0, -1], ![1, 0, 0]] : List (Fin 3 → ℤ)), 2 * (((1 / 2 : ℝ) • b0 + (1 / 2 : ℝ) • b1 + (-1 / 2 : ℝ) • b2) ⬝ᵥ comb (cols b0 b1 b2) n) = comb (cols b0 b1 b2) n ⬝ᵥ comb (cols b0 b1 b2) n) ∧
    (1 / 2 : ℝ) • b0 + (1 / 2 : ℝ) • b1 + (-1 / 2 : ℝ) • b2 = (List.zipWith (fun (x : ℝ) n => x • comb (cols b0 b1 b2) n) [1 / 2, 0, 1 / 2] [![0, 1, -1], ![1, 0, -1], ![1, 0, 0]]).sum := by
  have p : Pos P Q (1 / 2) (1 / 2) (-1 / 2) (P + Q) (P + Q) (Q - 2 * P) := by
    constructor <;> field_simp <;> ring
  refine ⟨?_, ?_, comb_sum _ _ ?_ ?_ ?_⟩
  · refine R.seven_obtuse p ?_ ?_ ?_ ?_ ?_ ?_ <;> rw [abs_le] <;> constructor <;> linarith
  · intro n hn
    refine R.planes p ?_
    simp only [List.mem_cons, List.not_mem_nil, or_false] at hn
    rcases hn with rfl | rfl | rfl <;> simp only [cons_val] <;> push_cast <;> ring
  all_goals
    simp <;> field_simp <;> ring

theorem ob_Q {b0 b1 b2 : V3} {P Q : ℝ} (R : Rh b0 b1 b2 P Q) (hP : 0 < P) (hQ : 0 < Q) (hPQ : P ≤ 2 * Q) : Seven b0 (-b1) (b2 - b0) (((P + Q) / (6 * Q) : ℝ) • b0 + ((P + Q) / (6 * Q) : ℝ) • b1 + ((P + Q) / (6 * Q) : ℝ) • b2) ∧
    (∀ n ∈ ([![1, 0, 0], ![0, 1, 0], ![0, 0, 1]] : List (Fin 3 → ℤ)), 2 * ((((P + Q) / (6 * Q) : ℝ) • b0 + ((P + Q) / (6 * Q) : ℝ) • b1 + ((P + Q) / (6 * Q) : ℝ) • b2) ⬝ᵥ comb (cols b0 b1 b2) n) = comb (cols b0 b1 b2) n ⬝ᵥ comb (cols b0 b1 b2) n) ∧
    ((P + Q) / (6 * Q) : ℝ) • b0 + ((P + Q) / (6 * Q) : ℝ) • b1 + ((P + Q) / (6 * Q) : ℝ) • b2 = (List.zipWith (fun (x : ℝ) n => x • comb (cols b0 b1 b2) n) [(P + Q) / (6 * Q), (P + Q) / (6 * Q), (P + Q) / (6 * Q)] [![1, 0, 0], ![0, 1, 0], ![0, 0, 1]]).sum := by
  have p : Pos P Q ((P + Q) / (6 * Q)) ((P + Q) / (6 * Q)) ((P + Q) / (6 * Q)) (P + Q) (P + Q) (P + Q) := by
    constructor <;> field_simp <;> ring
  refine ⟨?_, ?_, comb_sum _ _ ?_ ?_ ?_⟩
  · refine R.seven_obtuse p ?_ ?_ ?_ ?_ ?_ ?_ <;> rw [abs_le] <;> constructor <;> linarith
  · intro n hn
    refine R.planes p ?_
    simp only [List.mem_cons, List.not_mem_nil, or_false] at hn
    rcases hn with rfl | rfl | rfl <;> simp only [cons_val] <;> push_cast <;> ring
  all_goals
    simp <;> field_simp <;> ring

theorem ob_Q1 {b0 b1 b2 : V3} {P Q : ℝ} (R : Rh b0 b1 b2 P Q) (hP : 0 < P) (hQ : 0 < Q) (hPQ : P ≤ 2 * Q) : Seven b0 (-b1) (b2 - b0) (((5 * Q - P) / (6 * Q) : ℝ) • b0 + (-((P + Q) / (6 * Q)) : ℝ) • b1 + (-((P + Q) / (6 * Q)) : ℝ) • b2) ∧
    (∀ n ∈ ([![1, 0, -1], ![1, -1, 0], ![1, 0, 0]] : List (Fin 3 → ℤ)), 2 * ((((5 * Q - P) / (6 * Q) : ℝ) • b0 + (-((P + Q) / (6 * Q)) : ℝ) • b1 + (-((P + Q) / (6 * Q)) : ℝ) • b2) ⬝ᵥ comb (cols b0 b1 b2) n) = comb (cols b0 b1 b2) n ⬝ᵥ comb (cols b0 b1 b2) n) ∧
    ((5 * Q - P) / (6 * Q) : ℝ) • b0 + (-((P + Q) / (6 * Q)) : ℝ) • b1 + (-((P + Q) / (6 * Q)) : ℝ) • b2 = (List.zipWith (fun (x : ℝ) n => x • comb (cols b0 b1 b2) n) [(P + Q) / (6 * Q), (P + Q) / (6 * Q), (Q - P) / (2 * Q)] [![1, 0, -1], ![1, -1, 0], ![1, 0, 0]]).sum := by
  have p : Pos P Q ((5 * Q - P) / (6 * Q)) (-((P + Q) / (6 * Q))) (-((P + Q) / (6 * Q))) (P + Q) (Q - 2 * P) (Q - 2 * P) := by
    constructor <;> field_simp <;> ring
  refine ⟨?_, ?_, comb_sum _ _ ?_ ?_ ?_⟩
  · refine R.seven_obtuse p ?_ ?_ ?_ ?_ ?_ ?_ <;> rw [abs_le] <;> constructor <;> linarith
  · intro n hn
    refine R.planes p ?_
    simp only [List.mem_cons, List.not_mem_nil, or_false] at hn
    rcases hn with rfl | rfl | rfl <;> simp only [cons_val] <;> push_cast <;> ring
  all_goals
    simp <;> field_simp <;> ring

theorem ob_V1 {b0 b1 b2 : V3} {P Q : ℝ} (R : Rh b0 b1 b2 P Q) (hP : 0 < P) (hQ : 0 < Q) (hPQ : P ≤ 2 * Q) : Seven b0 (-b1) (b2 - b0) ((1 / 2 : ℝ) • b0 + (-1 / 2 : ℝ) • b1 + (-1 / 2 : ℝ) • b2) ∧
    (∀ n ∈ ([![1, 0, -1], ![1, -1, 0], ![0, -1, 0]] : List (Fin 3 → ℤ)), 2 * (((1 / 2 : ℝ) • b0 + (-1 / 2 : ℝ) • b1 + (-1 / 2 : ℝ) • b2) ⬝ᵥ comb (cols b0 b1 b2) n) = comb (cols b0 b1 b2) n ⬝ᵥ comb (cols b0 b1 b2) n) ∧
    (1 / 2 : ℝ) • b0 + (-1 / 2 : ℝ) • b1 + (-1 / 2 : ℝ) • b2 = (List.zipWith (fun (x : ℝ) n => x • comb (cols b0 b1 b2) n) [1 / 2, 0, 1 / 2] [![1, 0, -1], ![1, -1, 0], ![0, -1, 0]]).sum := by
  have p : Pos P Q (1 / 2) (-1 / 2) (-1 / 2) (2 * P - Q) (-(P + Q)) (-(P + Q)) := by
    constructor <;> field_simp <;> ring
  refine ⟨?_, ?_, comb_sum _ _ ?_ ?_ ?_⟩
  · refine R.seven_obtuse p ?_ ?_ ?_ ?_ ?_ ?_ <;> rw [abs_le] <;> constructor <;> linarith
  · intro n hn
    refine R.planes p ?_
    simp only [List.mem_cons, List.not_mem_nil, or_false] at hn
    rcases hn with rfl | rfl | rfl <;> simp only [cons_val] <;> push_cast <;> ring
  all_goals
    simp <;> field_simp <;> ring

theorem ob_V {b0 b1 b2 : V3} {P Q : ℝ} (R : Rh b0 b1 b2 P Q) (hP : 0 < P) (hQ : 0 < Q) (hPQ : P ≤ 2 * Q) : Seven b0 (-b1) (b2 - b0) (((P + Q) / (6 * Q) : ℝ) • b0 + ((P + Q) / (6 * Q) : ℝ) • b1 + ((P - 5 * Q) / (6 * Q) : ℝ) • b2) ∧
    (∀ n ∈ ([![0, 1, -1], ![1, 0, -1], ![0, 0, -1]] : List (Fin 3 → ℤ)), 2 * ((((P + Q) / (6 * Q) : ℝ) • b0 + ((P + Q) / (6 * Q) : ℝ) • b1 + ((P - 5 * Q) / (6 * Q) : ℝ) • b2) ⬝ᵥ comb (cols b0 b1 b2) n) = comb (cols b0 b1 b2) n ⬝ᵥ comb (cols b0 b1 b2) n) ∧
    ((P + Q) / (6 * Q) : ℝ) • b0 + ((P + Q) / (6 * Q) : ℝ) • b1 + ((P - 5 * Q) / (6 * Q) : ℝ) • b2 = (List.zipWith (fun (x : ℝ) n => x • comb (cols b0 b1 b2) n) [(P + Q) / (6 * Q), (P + Q) / (6 * Q), (Q - P) / (2 * Q)] [![0, 1, -1], ![1, 0, -1], ![0, 0, -1]]).sum := by
  have p : Pos P Q ((P + Q) / (6 * Q)) ((P + Q) / (6 * Q)) ((P - 5 * Q) / (6 * Q)) (2 * P - Q) (2 * P - Q) (-(P + Q)) := by
    constructor <;> field_simp <;> ring
  refine ⟨?_, ?_, comb_sum _ _ ?_ ?_ ?_⟩
  · refine R.seven_obtuse p ?_ ?_ ?_ ?_ ?_ ?_ <;> rw [abs_le] <;> constructor <;> linarith
  · intro n hn
    refine R.planes p ?_
    simp only [List.mem_cons, List.not_mem_nil, or_false] at hn
    rcases hn with rfl | rfl | rfl <;> simp only [cons_val] <;> push_cast <;> ring
  all_goals
    simp <;> field_simp <;> ring

/-! ## The points of the code -/

/-- The reciprocal basis in the frame of the code. -/
noncomputable def rb0 (s h : ℝ) : V3 := ![0, 2 / 3 / s, h / 3]
/-- The reciprocal basis in the frame of the code. -/
noncomputable def rb1 (s h : ℝ) : V3 := ![1 / Real.sqrt 3 / s, -1 / 3 / s, h / 3]
/-- The reciprocal basis in the frame of the code. -/
noncomputable def rb2 (s h : ℝ) : V3 := ![-1 / Real.sqrt 3 / s, -1 / 3 / s, h / 3]

theorem rh_code (s h : ℝ) : Rh (rb0 s h) (rb1 s h) (rb2 s h) (4 / 9 / s ^ 2) (h ^ 2 / 9) := by
  have t : (Real.sqrt 3)⁻¹ ^ 2 = 1 / 3 := by rw [inv_pow, Real.sq_sqrt (by norm_num)]; norm_num
  constructor <;> simp only [rb0, rb1, rb2, vec3_dotProduct, cons_val] <;> ring_nf <;> (try rw [t]) <;> ring

theorem dual_code {s c : ℝ} (hs : s ≠ 0) (hc : c ≠ 0) :
    (cols ![0, s, c] ![Real.sqrt 3 / 2 * s, -1 / 2 * s, c] ![-Real.sqrt 3 / 2 * s, -1 / 2 * s, c])ᵀ *
      cols (rb0 s (1 / c)) (rb1 s (1 / c)) (rb2 s (1 / c)) = 1 := by
  have t : Real.sqrt 3 ≠ 0 := (Real.sqrt_pos.2 (by norm_num)).ne'
  ext i j
  fin_cases i <;> fin_cases j <;> simp [Matrix.mul_apply, Fin.sum_univ_three, cols, rb0, rb1, rb2] <;> field_simp <;> norm_num

theorem lookup_swap (D : List (Entry 3)) (k : String) :
    (swapXY D).lookup k = (D.lookup k).map fun p => (![p.1 1, p.1 0, p.1 2], p.2) := by
  induction D with
  | nil => rfl
  | cons e D ih =>
    rw [swapXY, List.map_cons, List.lookup_cons, List.lookup_cons]
    split
    · rfl
    · exact ih

theorem swap_fun (v : V3) : (![v 1, v 0, v 2] : V3) = v ∘ ![1, 0, 2] := by
  funext i; fin_cases i <;> rfl

theorem swap_inv : Function.Involutive (![1, 0, 2] : Fin 3 → Fin 3) := by
  intro i; fin_cases i <;> rfl

theorem named_swap {D : List (Entry 3)} {A : Mat3} {T} (h : Spec.Named D 1 (Spec.mirrored A) T) : Spec.Named (swapXY D) 1 A T := by
  intro e he
  obtain ⟨p, hp, hs⟩ := h e he
  rw [one_smul] at hs
  refine ⟨(![p.1 1, p.1 0, p.1 2], p.2), by rw [lookup_swap, hp]; rfl, ?_⟩
  have := special_perm hs _ swap_inv
  rw [one_smul, swap_fun]
  have e2 : (Spec.mirrored A).submatrix ![1, 0, 2] id = A := by
    ext i j; fin_cases i <;> rfl
  rwa [e2] at this

theorem middle_swap {D : List (Entry 3)} {A : Mat3} {T} (h : Spec.Middle D (Spec.mirrored A) T) : Spec.Middle (swapXY D) A T := by
  have e2 : (Spec.mirrored A).submatrix ![1, 0, 2] id = A := by
    ext i j; fin_cases i <;> rfl
  intro e he
  obtain ⟨p, v, w, hp, hv, hw, hm⟩ := h e he
  refine ⟨(![p.1 1, p.1 0, p.1 2], p.2), _, _, by rw [lookup_swap, hp]; rfl, e2 ▸ special_perm hv _ swap_inv, e2 ▸ special_perm hw _ swap_inv, ?_⟩
  simp only [swap_fun, hm]
  rfl

theorem acute_code {lstsq} (hl : MinNorm lstsq) {A : Mat3} {s c : ℝ} (hs : 0 < s) (hc : 0 < c)
    (hd : Aᵀ * cols (rb0 s (1 / c)) (rb1 s (1 / c)) (rb2 s (1 / c)) = 1) (hsc : s ^ 2 ≤ 2 * c ^ 2) :
    Spec.Named (trigAcute lstsq s c (1 / c)) 1 A Spec.acute := by
  have R := rh_code s (1 / c)
  have t : Real.sqrt 3 ≠ 0 := (Real.sqrt_pos.2 (by norm_num)).ne'
  have t2 : Real.sqrt 3 ^ 2 = 3 := Real.sq_sqrt (by norm_num)
  have hP : 0 < 4 / 9 / s ^ 2 := by positivity
  have hQ : 0 ≤ (1 / c) ^ 2 / 9 := by positivity
  have hPQ : 2 * ((1 / c) ^ 2 / 9) ≤ 4 / 9 / s ^ 2 := by
    rw [div_pow, one_pow, le_div_iff₀ (by positivity)]
    field_simp
    linarith
  have S := R.sell_acute hd hQ hPQ
  have cZ : (![0, 0, 1 / c / 2] : V3) = (1 / 2 : ℝ) • comb (cols (rb0 s (1 / c)) (rb1 s (1 / c)) (rb2 s (1 / c))) ![1, 1, 1] := by
    rw [comb_cols]; funext i; fin_cases i <;> simp [rb0, rb1, rb2] <;> ring
  have cL : (![1 / Real.sqrt 3 / s / 2, -1 / 3 / s / 2, 1 / c / 6] : V3) =
      (1 / 2 : ℝ) • comb (cols (rb0 s (1 / c)) (rb1 s (1 / c)) (rb2 s (1 / c))) ![0, 1, 0] := by
    rw [comb_cols]; funext i; fin_cases i <;> simp [rb0, rb1, rb2] <;> ring
  have cL1 : (![1 / Real.sqrt 3 / s / 2, 1 / 3 / s / 2, -(1 / c) / 6] : V3) =
      (1 / 2 : ℝ) • comb (cols (rb0 s (1 / c)) (rb1 s (1 / c)) (rb2 s (1 / c))) ![0, 0, -1] := by
    rw [comb_cols]; funext i; fin_cases i <;> simp [rb0, rb1, rb2] <;> ring
  have cF : (![1 / Real.sqrt 3 / s / 2, 1 / 3 / s / 2, 1 / c / 3] : V3) =
      (1 / 2 : ℝ) • comb (cols (rb0 s (1 / c)) (rb1 s (1 / c)) (rb2 s (1 / c))) ![1, 1, 0] := by
    rw [comb_cols]; funext i; fin_cases i <;> simp [rb0, rb1, rb2] <;> ring
  have aG := ac_G R hP hQ hPQ
  have aZ := ac_Z R hP hQ hPQ
  have aL := ac_L R hP hQ hPQ
  have aL1 := ac_L1 R hP hQ hPQ
  have aF := ac_F R hP hQ hPQ
  have aX := ac_X R hP hQ hPQ
  have aP := ac_P R hP hQ hPQ
  have aP1 := ac_P1 R hP hQ hPQ
  have aP2 := ac_P2 R hP hQ hPQ
  have aQ := ac_Q R hP hQ hPQ
  have aB := ac_B R hP hQ hPQ
  have aB1 := ac_B1 R hP hQ hPQ
  intro e he
  simp only [Spec.acute, List.mem_cons, List.not_mem_nil, or_false] at he
  rcases he with rfl | rfl | rfl | rfl | rfl | rfl | rfl | rfl | rfl | rfl | rfl | rfl <;> simp only [one_smul]
  · refine ⟨_, rfl, ?_⟩
    have := S.special aG.1 aG.2.1 _ aG.2.2
    simpa using this
  · refine ⟨_, rfl, ?_⟩
    have := S.special aZ.1 aZ.2.1 _ aZ.2.2
    rw [aZ.2.2] at this
    simp only [List.zipWith_cons_cons, List.zipWith_nil_left, List.sum_cons, List.sum_nil, add_zero, ← cZ] at this
    exact this
  · refine ⟨_, rfl, ?_⟩
    have := S.special aL.1 aL.2.1 _ aL.2.2
    rw [aL.2.2] at this
    simp only [List.zipWith_cons_cons, List.zipWith_nil_left, List.sum_cons, List.sum_nil, add_zero, ← cL] at this
    exact this
  · refine ⟨_, rfl, ?_⟩
    have := S.special aL1.1 aL1.2.1 _ aL1.2.2
    rw [aL1.2.2] at this
    simp only [List.zipWith_cons_cons, List.zipWith_nil_left, List.sum_cons, List.sum_nil, add_zero, ← cL1] at this
    exact this
  · refine ⟨_, rfl, ?_⟩
    have := S.special aF.1 aF.2.1 _ aF.2.2
    rw [aF.2.2] at this
    simp only [List.zipWith_cons_cons, List.zipWith_nil_left, List.sum_cons, List.sum_nil, add_zero, ← cF] at this
    exact this
  · refine ⟨_, rfl, ?_⟩
    have := S.special aX.1 aX.2.1 _ aX.2.2
    refine Eq.subst (motive := fun k => Special A k _) ?_ this
    funext i
    fin_cases i <;> simp [rb0, rb1, rb2] <;> field_simp <;> rw [t2] <;> ring
  · exact ⟨_, rfl, S.hsp hl _ aP.1 aP.2.1 _ aP.2.2 (by simp only [List.map_cons, List.map_nil, ← cZ, ← cL])⟩
  · exact ⟨_, rfl, S.hsp hl _ aP1.1 aP1.2.1 _ aP1.2.2 (by simp only [List.map_cons, List.map_nil, ← cZ, ← cF])⟩
  · exact ⟨_, rfl, S.hsp hl _ aP2.1 aP2.2.1 _ aP2.2.2 (by simp only [List.map_cons, List.map_nil, ← cF, ← cL1])⟩
  · exact ⟨_, rfl, S.hsp hl _ aQ.1 aQ.2.1 _ aQ.2.2 (by simp only [List.map_cons, List.map_nil, ← cF, ← cL])⟩
  · exact ⟨_, rfl, S.hsp hl _ aB.1 aB.2.1 _ aB.2.2 (by simp only [List.map_cons, List.map_nil, ← cZ, ← cF, ← cL])⟩
  · exact ⟨_, rfl, S.hsp hl _ aB1.1 aB1.2.1 _ aB1.2.2 (by simp only [List.map_cons, List.map_nil, ← cL1, ← cF, ← cL])⟩

theorem obtuse_code {A : Mat3} {s h : ℝ} (hs : 0 < s) (hh : 0 < h)
    (hd : Aᵀ * cols (rb0 s h) (rb1 s h) (rb2 s h) = 1) (hsh : 2 ≤ s ^ 2 * h ^ 2) :
    Spec.Named (trigObtuse s h) 1 A Spec.obtuse ∧ Spec.Middle (trigObtuse s h) A Spec.middle := by
  have R := rh_code s h
  have t : Real.sqrt 3 ≠ 0 := (Real.sqrt_pos.2 (by norm_num)).ne'
  have t2 : Real.sqrt 3 ^ 2 = 3 := Real.sq_sqrt (by norm_num)
  have hP : 0 < 4 / 9 / s ^ 2 := by positivity
  have hQ : 0 < h ^ 2 / 9 := by positivity
  have hPQ : 4 / 9 / s ^ 2 ≤ 2 * (h ^ 2 / 9) := by
    rw [div_le_iff₀ (by positivity)]
    linarith
  have S := R.sell_obtuse hd hP.le hPQ
  have cQ : (![0, 0, ((1 / s / 3) ^ 2 + (h / 6) ^ 2) / (h / 6)] : V3) = ((4 / 9 / s ^ 2 + h ^ 2 / 9) / (6 * (h ^ 2 / 9)) : ℝ) • rb0 s h +
      ((4 / 9 / s ^ 2 + h ^ 2 / 9) / (6 * (h ^ 2 / 9)) : ℝ) • rb1 s h + ((4 / 9 / s ^ 2 + h ^ 2 / 9) / (6 * (h ^ 2 / 9)) : ℝ) • rb2 s h := by
    funext i
    fin_cases i <;> simp [rb0, rb1, rb2] <;> field_simp <;> ring
  have cQ1 : (![0, 2 / 3 / s, h / 3 - ((1 / s / 3) ^ 2 + (h / 6) ^ 2) / (h / 6)] : V3) =
      ((5 * (h ^ 2 / 9) - 4 / 9 / s ^ 2) / (6 * (h ^ 2 / 9)) : ℝ) • rb0 s h +
      (-((4 / 9 / s ^ 2 + h ^ 2 / 9) / (6 * (h ^ 2 / 9))) : ℝ) • rb1 s h + (-((4 / 9 / s ^ 2 + h ^ 2 / 9) / (6 * (h ^ 2 / 9))) : ℝ) • rb2 s h := by
    funext i
    fin_cases i <;> simp [rb0, rb1, rb2] <;> field_simp <;> ring
  have aG := ob_G R hP hQ hPQ
  have aX := ob_X R hP hQ hPQ
  have aF := ob_F R hP hQ hPQ
  have aF1 := ob_F1 R hP hQ hPQ
  have aL := ob_L R hP hQ hPQ
  have aZ := ob_Z R hP hQ hPQ
  have aQ := ob_Q R hP hQ hPQ
  have aQ1 := ob_Q1 R hP hQ hPQ
  have aV1 := ob_V1 R hP hQ hPQ
  have aV := ob_V R hP hQ hPQ
  constructor
  · intro e he
    simp only [Spec.obtuse, List.mem_cons, List.not_mem_nil, or_false] at he
    rcases he with rfl | rfl | rfl | rfl | rfl | rfl | rfl | rfl <;> simp only [one_smul]
    · refine ⟨_, rfl, ?_⟩
      have := S.special aG.1 aG.2.1 _ aG.2.2
      simpa using this
    · refine ⟨_, rfl, Eq.subst (motive := fun k => Special A k _) ?_ (S.special aX.1 aX.2.1 _ aX.2.2)⟩
      funext i
      fin_cases i <;> simp [rb0, rb1, rb2] <;> ring
    · refine ⟨_, rfl, Eq.subst (motive := fun k => Special A k _) ?_ (S.special aF.1 aF.2.1 _ aF.2.2)⟩
      funext i
      fin_cases i <;> simp [rb0, rb1, rb2] <;> ring
    · refine ⟨_, rfl, Eq.subst (motive := fun k => Special A k _) ?_ (S.special aF1.1 aF1.2.1 _ aF1.2.2)⟩
      funext i
      fin_cases i <;> simp [rb0, rb1, rb2] <;> ring
    · refine ⟨_, rfl, Eq.subst (motive := fun k => Special A k _) ?_ (S.special aL.1 aL.2.1 _ aL.2.2)⟩
      funext i
      fin_cases i <;> simp [rb0, rb1, rb2] <;> ring
    · refine ⟨_, rfl, Eq.subst (motive := fun k => Special A k _) ?_ (S.special aZ.1 aZ.2.1 _ aZ.2.2)⟩
      funext i
      fin_cases i <;> simp [rb0, rb1, rb2] <;> ring
    · exact ⟨_, rfl, Eq.subst (motive := fun k => Special A k _) cQ.symm (S.special aQ.1 aQ.2.1 _ aQ.2.2)⟩
    · exact ⟨_, rfl, Eq.subst (motive := fun k => Special A k _) cQ1.symm (S.special aQ1.1 aQ1.2.1 _ aQ1.2.2)⟩
  · intro e he
    simp only [Spec.middle, List.mem_cons, List.not_mem_nil, or_false] at he
    rcases he with rfl | rfl
    · refine ⟨_, _, _, rfl, S.special aQ1.1 aQ1.2.1 _ aQ1.2.2, S.special aV1.1 aV1.2.1 _ aV1.2.2, ?_⟩
      rw [← cQ1]
      funext i
      fin_cases i <;> simp [rb0, rb1, rb2] <;> ring
    · refine ⟨_, _, _, rfl, S.special aZ.1 aZ.2.1 _ aZ.2.2, S.special aV.1 aV.2.1 _ aV.2.2, ?_⟩
      funext i
      fin_cases i <;> simp [rb0, rb1, rb2] <;> field_simp <;> ring

/-- **C104.** For the lattice `rhombohedral(1, alpha)` with an angle below 120° the points of `trigonal_points(alpha)` are the special points of the zone,
in the frame with exchanged axes for `mirror_x=True`.  There are two tables, for `alpha < 90°` and for `alpha ≥ 90°`. -/
theorem C104_trigonal {lstsq} (hl : MinNorm lstsq) {α : ℝ} (h0 : 0 < α) (h1 : α < 2 * Real.pi / 3) (m : Bool) :
    ∃ A D, Lat.rhombohedral 1 α = .ok A ∧ trigonalPoints lstsq α m = .ok D ∧
      (α < Real.pi / 2 → Spec.Named D 1 (if m then Spec.mirrored A else A) Spec.acute ∧ D.map (·.1) = Spec.acute.map (·.1)) ∧
      (Real.pi / 2 ≤ α → Spec.Named D 1 (if m then Spec.mirrored A else A) Spec.obtuse ∧
        Spec.Middle D (if m then Spec.mirrored A else A) Spec.middle ∧ D.map (·.1) = Spec.obtuse.map (·.1) ++ Spec.middle.map (·.1)) := by
  have pp := Real.pi_pos
  have hsin : 0 < Real.sin (α / 2) := Real.sin_pos_of_pos_of_lt_pi (by linarith) (by linarith)
  have hcos : -1 / 2 < Real.cos α := by
    have h2 : Real.cos (2 * Real.pi / 3) = -1 / 2 := by
      have : 2 * Real.pi / 3 = Real.pi - Real.pi / 3 := by ring
      rw [this, Real.cos_pi_sub, Real.cos_pi_div_three]; norm_num
    rw [← h2]
    exact Real.cos_lt_cos_of_nonneg_of_le_pi h0.le (by linarith) h1
  have hsc : Real.cos α = 1 - 2 * Real.sin (α / 2) ^ 2 := by
    have := Real.cos_two_mul (α / 2)
    rw [show 2 * (α / 2) = α by ring] at this
    rw [this, Real.cos_sq']; ring
  set c := Real.sqrt ((1 + 2 * Real.cos α) / 3) with hcdef
  set s := Real.sqrt (4 / 3) * Real.sin (α / 2) with hsdef
  have hc : 0 < c := Real.sqrt_pos.2 (by linarith)
  have hs : 0 < s := mul_pos (Real.sqrt_pos.2 (by norm_num)) hsin
  have hc2 : c ^ 2 = (1 + 2 * Real.cos α) / 3 := Real.sq_sqrt (by linarith)
  have hs2 : s ^ 2 = 4 / 3 * Real.sin (α / 2) ^ 2 := by rw [hsdef, mul_pow, Real.sq_sqrt (by norm_num)]
  have er : Real.sqrt (2 / 3 - 2 / 3 * Real.cos α) = s := by
    rw [Real.sqrt_eq_iff_mul_self_eq (by linarith [Real.cos_le_one α]) hs.le, ← sq, hs2, hsc]; ring
  have eh : Real.sqrt (1 - (2 / 3 - 2 / 3 * Real.cos α)) = c := by
    rw [hcdef]; congr 1; ring
  have hA : Lat.rhombohedral 1 α = .ok (cols ![s, 0, c] ![-1 / 2 * s, Real.sqrt 3 / 2 * s, c] ![-1 / 2 * s, -Real.sqrt 3 / 2 * s, c]) := by
    rw [Lat.rhombohedral, if_neg (not_not.2 one_pos), if_neg (not_not.2 ⟨h0, h1⟩)]
    simp only [er, eh, mul_one]
  have hm : Spec.mirrored (cols ![s, 0, c] ![-1 / 2 * s, Real.sqrt 3 / 2 * s, c] ![-1 / 2 * s, -Real.sqrt 3 / 2 * s, c]) =
      cols ![0, s, c] ![Real.sqrt 3 / 2 * s, -1 / 2 * s, c] ![-Real.sqrt 3 / 2 * s, -1 / 2 * s, c] := by
    ext i j; fin_cases i <;> fin_cases j <;> rfl
  have hd := dual_code hs.ne' hc.ne'
  rw [← hm] at hd
  have hq : (90 : ℝ) / 180 * Real.pi = Real.pi / 2 := by ring
  have hq' : (120 : ℝ) / 180 * Real.pi = 2 * Real.pi / 3 := by ring
  by_cases hlt : α < Real.pi / 2
  · have hcp : 0 ≤ Real.cos α := Real.cos_nonneg_of_neg_pi_div_two_le_of_le (by linarith) hlt.le
    have h2 : s ^ 2 ≤ 2 * c ^ 2 := by rw [hs2, hc2]; nlinarith
    refine ⟨_, if m then trigAcute lstsq s c (1 / c) else swapXY (trigAcute lstsq s c (1 / c)), hA, ?_, fun _ => ?_,
      fun h => absurd h (not_le.2 hlt)⟩
    · rw [trigonalPoints]
      simp only [hq, if_pos hlt]
      rfl
    · have := acute_code hl hs hc hd h2
      cases m
      · exact ⟨named_swap this, rfl⟩
      · exact ⟨this, rfl⟩
  · have hcp : Real.cos α ≤ 0 := Real.cos_nonpos_of_pi_div_two_le_of_le (not_lt.1 hlt) (by linarith)
    have h2 : 2 ≤ s ^ 2 * (1 / c) ^ 2 := by
      have : 2 * c ^ 2 ≤ s ^ 2 := by rw [hs2, hc2]; nlinarith
      rw [div_pow, one_pow, mul_one_div, le_div_iff₀ (by positivity)]
      exact this
    refine ⟨_, if m then trigObtuse s (1 / c) else swapXY (trigObtuse s (1 / c)), hA, ?_, fun h => absurd h hlt, fun _ => ?_⟩
    · rw [trigonalPoints]
      simp only [hq, hq', if_neg hlt, if_pos h1]
      rfl
    · have := obtuse_code hs (by positivity) hd h2
      cases m
      · exact ⟨named_swap this.1, middle_swap this.2, rfl⟩
      · exact ⟨this.1, this.2, rfl⟩

/-- **C104.** For an angle of 120° or more `trigonal_points` raises an AssertionError. -/
theorem C104_trigonal_error (lstsq : List V3 → List ℝ → V3) {α : ℝ} (h : 2 * Real.pi / 3 ≤ α) (m : Bool) :
    trigonalPoints lstsq α m = .error .assertionError := by
  have pp := Real.pi_pos
  unfold trigonalPoints
  rw [if_neg (by linarith), if_neg (by linarith)]

/-- Examples: the angles of 60° and of 100°. -/
example : ∃ lstsq, MinNorm lstsq ∧ ∀ m, (∃ D, trigonalPoints lstsq (Real.pi / 3) m = .ok D ∧ D.map (·.1) = Spec.acute.map (·.1)) ∧
    ∃ D, trigonalPoints lstsq (5 / 9 * Real.pi) m = .ok D ∧ D.map (·.1) = Spec.obtuse.map (·.1) ++ ["P1", "P"] := by
  have pp := Real.pi_pos
  obtain ⟨f, hf⟩ := minNorm_satisfiable
  refine ⟨f, hf, fun m => ⟨?_, ?_⟩⟩
  · obtain ⟨A, D, -, hD, h, -⟩ := C104_trigonal hf (α := Real.pi / 3) (by linarith) (by linarith) m
    exact ⟨D, hD, (h (by linarith)).2⟩
  · obtain ⟨A, D, -, hD, -, h⟩ := C104_trigonal hf (α := 5 / 9 * Real.pi) (by linarith) (by linarith) m
    exact ⟨D, hD, (h (by linarith)).2.2⟩

example (lstsq : List V3 → List ℝ → V3) : trigonalPoints lstsq Real.pi true = .error .assertionError :=
  C104_trigonal_error lstsq (by linarith [Real.pi_pos]) true

end TB.KPts

import Verif.Lemmas.ZoneThree
import Mathlib.Tactic.FieldSimp

/-!
# Lemmas on the zones of rhombohedral lattices

The reciprocal basis has the scalar products `b_i·b_i = P + Q` and `b_i·b_j = Q - P/2`: `P` and `Q` belong to the parts across and along the axis.
-/

namespace TB.Zone
open Matrix Lat

/-- A rhombohedral basis. -/
structure Rh (b0 b1 b2 : Fin 3 → ℝ) (P Q : ℝ) : Prop where
  g00 : b0 ⬝ᵥ b0 = P + Q
  g11 : b1 ⬝ᵥ b1 = P + Q
  g22 : b2 ⬝ᵥ b2 = P + Q
  g01 : b0 ⬝ᵥ b1 = Q - P / 2
  g02 : b0 ⬝ᵥ b2 = Q - P / 2
  g12 : b1 ⬝ᵥ b2 = Q - P / 2

variable {A : Matrix (Fin 3) (Fin 3) ℝ} {b0 b1 b2 : Fin 3 → ℝ} {P Q : ℝ}

theorem Rh.sell_acute (R : Rh b0 b1 b2 P Q) (h : Aᵀ * cols b0 b1 b2 = 1) (hQ : 0 ≤ Q) (hPQ : 2 * Q ≤ P) : Sell A b0 b1 b2 b0 b1 b2 := by
  obtain ⟨g00, g11, g22, g01, g02, g12⟩ := R
  refine ⟨h, fun n0 n1 n2 => ⟨n0, n1, n2, rfl⟩, ?_, ?_, ?_, ?_, ?_, ?_⟩ <;>
    simp only [dotProduct_add, g00, g11, g22, g01, g02, g12, dotProduct_comm b1 b0, dotProduct_comm b2 b0, dotProduct_comm b2 b1] <;> linarith

theorem Rh.sell_obtuse (R : Rh b0 b1 b2 P Q) (h : Aᵀ * cols b0 b1 b2 = 1) (hP : 0 ≤ P) (hPQ : P ≤ 2 * Q) : Sell A b0 b1 b2 b0 (-b1) (b2 - b0) := by
  obtain ⟨g00, g11, g22, g01, g02, g12⟩ := R
  refine ⟨h, fun n0 n1 n2 => ⟨n0 + n2, -n1, n2, ?_⟩, ?_, ?_, ?_, ?_, ?_, ?_⟩
  · funext i; simp; ring
  all_goals
    simp only [dotProduct_add, dotProduct_sub, sub_dotProduct, dotProduct_neg, neg_dotProduct, g00, g11, g22, g01, g02, g12,
      dotProduct_comm b1 b0, dotProduct_comm b2 b0, dotProduct_comm b2 b1]
    linarith

/-- The scalar products with the basis, twice: `K`, for the coordinates `f`. -/
structure Pos (P Q f0 f1 f2 K0 K1 K2 : ℝ) : Prop where
  k0 : 2 * (3 / 2 * P * f0 + (Q - P / 2) * (f0 + f1 + f2)) = K0
  k1 : 2 * (3 / 2 * P * f1 + (Q - P / 2) * (f0 + f1 + f2)) = K1
  k2 : 2 * (3 / 2 * P * f2 + (Q - P / 2) * (f0 + f1 + f2)) = K2

theorem Rh.dots (R : Rh b0 b1 b2 P Q) {f0 f1 f2 K0 K1 K2 : ℝ} (p : Pos P Q f0 f1 f2 K0 K1 K2) :
    2 * ((f0 • b0 + f1 • b1 + f2 • b2) ⬝ᵥ b0) = K0 ∧ 2 * ((f0 • b0 + f1 • b1 + f2 • b2) ⬝ᵥ b1) = K1 ∧
    2 * ((f0 • b0 + f1 • b1 + f2 • b2) ⬝ᵥ b2) = K2 := by
  obtain ⟨g00, g11, g22, g01, g02, g12⟩ := R
  obtain ⟨k0, k1, k2⟩ := p
  simp only [add_dotProduct, smul_dotProduct, smul_eq_mul, g00, g11, g22, g01, g02, g12, dotProduct_comm b1 b0, dotProduct_comm b2 b0,
    dotProduct_comm b2 b1]
  refine ⟨?_, ?_, ?_⟩ <;> linarith

theorem Rh.planes (R : Rh b0 b1 b2 P Q) {f0 f1 f2 K0 K1 K2 : ℝ} (p : Pos P Q f0 f1 f2 K0 K1 K2) {n : Fin 3 → ℤ}
    (h : K0 * n 0 + K1 * n 1 + K2 * n 2 =
      (P + Q) * ((n 0 : ℝ) ^ 2 + (n 1 : ℝ) ^ 2 + (n 2 : ℝ) ^ 2) + 2 * (Q - P / 2) * ((n 0 : ℝ) * n 1 + n 0 * n 2 + n 1 * n 2)) :
    2 * ((f0 • b0 + f1 • b1 + f2 • b2) ⬝ᵥ comb (cols b0 b1 b2) n) = comb (cols b0 b1 b2) n ⬝ᵥ comb (cols b0 b1 b2) n := by
  obtain ⟨d0, d1, d2⟩ := R.dots p
  obtain ⟨g00, g11, g22, g01, g02, g12⟩ := R
  generalize f0 • b0 + f1 • b1 + f2 • b2 = k at *
  simp only [comb_cols, dotProduct_add, dotProduct_smul, add_dotProduct, smul_dotProduct, smul_eq_mul, g00, g11, g22, g01, g02, g12,
    dotProduct_comm b1 b0, dotProduct_comm b2 b0, dotProduct_comm b2 b1]
  rw [← d0, ← d1, ← d2] at h
  linarith

theorem Rh.seven_acute (R : Rh b0 b1 b2 P Q) {f0 f1 f2 K0 K1 K2 : ℝ} (p : Pos P Q f0 f1 f2 K0 K1 K2)
    (h0 : |K0| ≤ P + Q) (h1 : |K1| ≤ P + Q) (h2 : |K2| ≤ P + Q) (h01 : |K0 + K1| ≤ P + 4 * Q) (h02 : |K0 + K2| ≤ P + 4 * Q)
    (h12 : |K1 + K2| ≤ P + 4 * Q) (h3 : |K0 + K1 + K2| ≤ 9 * Q) : Seven b0 b1 b2 (f0 • b0 + f1 • b1 + f2 • b2) := by
  obtain ⟨d0, d1, d2⟩ := R.dots p
  obtain ⟨g00, g11, g22, g01, g02, g12⟩ := R
  generalize f0 • b0 + f1 • b1 + f2 • b2 = k at *
  simp only [Seven, dotProduct_add, add_dotProduct, mul_add, d0, d1, d2, g00, g11, g22, g01, g02, g12,
    dotProduct_comm b1 b0, dotProduct_comm b2 b0, dotProduct_comm b2 b1]
  exact ⟨h0, h1, h2, h01.trans (by linarith), h02.trans (by linarith), h12.trans (by linarith), h3.trans (by linarith)⟩

theorem Rh.seven_obtuse (R : Rh b0 b1 b2 P Q) {f0 f1 f2 K0 K1 K2 : ℝ} (p : Pos P Q f0 f1 f2 K0 K1 K2)
    (h0 : |K0| ≤ P + Q) (h1 : |K1| ≤ P + Q) (h2 : |K2| ≤ P + Q) (h01 : |K0 - K1| ≤ 3 * P) (h02 : |K2 - K0| ≤ 3 * P)
    (h12 : |K2 - K1| ≤ 3 * P) : Seven b0 (-b1) (b2 - b0) (f0 • b0 + f1 • b1 + f2 • b2) := by
  obtain ⟨d0, d1, d2⟩ := R.dots p
  obtain ⟨g00, g11, g22, g01, g02, g12⟩ := R
  generalize f0 • b0 + f1 • b1 + f2 • b2 = k at *
  simp only [Seven, dotProduct_add, add_dotProduct, dotProduct_sub, sub_dotProduct, dotProduct_neg, neg_dotProduct, mul_add, mul_sub, mul_neg, d0, d1, d2,
    g00, g11, g22, g01, g02, g12, dotProduct_comm b1 b0, dotProduct_comm b2 b0, dotProduct_comm b2 b1]
  rw [abs_le] at *
  refine ⟨⟨?_, ?_⟩, ?_, ?_, ?_, ?_, ?_, ?_⟩
  · linarith
  · linarith
  all_goals (try rw [abs_le] at *); constructor <;> linarith

theorem comb_sum (l : List ℝ) (ns : List (Fin 3 → ℤ)) {f0 f1 f2 : ℝ}
    (h0 : f0 = (List.zipWith (fun (x : ℝ) (n : Fin 3 → ℤ) => x * (n 0 : ℝ)) l ns).sum)
    (h1 : f1 = (List.zipWith (fun (x : ℝ) (n : Fin 3 → ℤ) => x * (n 1 : ℝ)) l ns).sum)
    (h2 : f2 = (List.zipWith (fun (x : ℝ) (n : Fin 3 → ℤ) => x * (n 2 : ℝ)) l ns).sum) :
    f0 • b0 + f1 • b1 + f2 • b2 = (List.zipWith (fun (x : ℝ) n => x • comb (cols b0 b1 b2) n) l ns).sum := by
  subst h0 h1 h2
  induction l generalizing ns with
  | nil => simp
  | cons x l ih =>
    cases ns with
    | nil => simp
    | cons n ns =>
      have := ih ns
      simp only [List.zipWith_cons_cons, List.sum_cons]
      rw [← this, comb_cols]
      funext i
      simp only [Pi.add_apply, Pi.smul_apply, smul_eq_mul]
      ring

end TB.Zone

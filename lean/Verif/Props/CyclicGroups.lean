import Mathlib.Analysis.SpecialFunctions.Trigonometric.Basic
import Mathlib.Data.Set.Card
import Mathlib.Tactic.FinCases
import Mathlib.Tactic.Linarith
import Mathlib.Tactic.Ring
import Mathlib.Tactic.FieldSimp
import Verif.Model.NamedGroups
import Verif.Props.Symmetry

/-!
# Property C78: the groups for every number of rotations and every dimension
-/

namespace TB.Cyclic
open TB Matrix TB.Spec

/-! ## Specification -/

/-- Rotation of the plane by the angle `x`. -/
noncomputable def Spec.R2 (x : ℝ) : Matrix (Fin 2) (Fin 2) ℝ := !![Real.cos x, Real.sin x; -Real.sin x, Real.cos x]

/-- Rotation of space around the z-axis by the angle `x`. -/
noncomputable def Spec.R3 (x : ℝ) : Matrix (Fin 3) (Fin 3) ℝ :=
  !![Real.cos x, Real.sin x, 0; -Real.sin x, Real.cos x, 0; 0, 0, 1]

/-- Reflection of space at the plane perpendicular to the x-axis. -/
def Spec.Mx : Matrix (Fin 3) (Fin 3) ℝ := !![-1, 0, 0; 0, 1, 0; 0, 0, 1]

/-- The `k`-th multiple of the `n`-th part of the full circle. -/
noncomputable def Spec.part (n : ℕ) (k : ℤ) : ℝ := 2 * Real.pi * k / n

open Spec

/-! ## Lemmas -/

theorem R2_mul (x y : ℝ) : R2 x * R2 y = R2 (x + y) := by
  ext i j
  fin_cases i <;> fin_cases j <;> simp [R2, Matrix.mul_apply, Fin.sum_univ_two, Real.cos_add, Real.sin_add] <;> ring

theorem R3_mul (x y : ℝ) : R3 x * R3 y = R3 (x + y) := by
  ext i j
  fin_cases i <;> fin_cases j <;> simp [R3, Matrix.mul_apply, Fin.sum_univ_three, Real.cos_add, Real.sin_add] <;> ring

theorem R2_zero : R2 0 = 1 := by
  ext i j; fin_cases i <;> fin_cases j <;> simp [R2]

theorem R3_zero : R3 0 = 1 := by
  ext i j; fin_cases i <;> fin_cases j <;> simp [R3]

theorem R2_det (x : ℝ) : (R2 x).det = 1 := by
  rw [R2, Matrix.det_fin_two_of]; nlinarith [Real.sin_sq_add_cos_sq x]

theorem R3_det (x : ℝ) : (R3 x).det = 1 := by
  rw [R3, Matrix.det_fin_three]
  simp
  nlinarith [Real.sin_sq_add_cos_sq x]

theorem Mx_R3 (x : ℝ) : Mx * R3 x = R3 (-x) * Mx := by
  ext i j
  fin_cases i <;> fin_cases j <;> simp [R3, Mx, Matrix.mul_apply, Fin.sum_univ_three]

theorem Mx_Mx : Mx * Mx = 1 := by
  ext i j
  fin_cases i <;> fin_cases j <;> simp [Mx, Matrix.mul_apply, Fin.sum_univ_three]

theorem Mx_det : Mx.det = -1 := by
  rw [Mx, Matrix.det_fin_three]; simp

theorem part_add (n : ℕ) (k l : ℤ) : part n k + part n l = part n (k + l) := by
  unfold part; push_cast; ring

theorem part_neg (n : ℕ) (k : ℤ) : -part n k = part n (-k) := by
  unfold part; push_cast; ring

theorem part_mul (n : ℕ) (hn : 0 < n) (q : ℤ) : part n (n * q) = q * (2 * Real.pi) := by
  have : (n : ℝ) ≠ 0 := by positivity
  unfold part; push_cast; field_simp

theorem cos_sin_part (n : ℕ) (hn : 0 < n) (k : ℤ) :
    Real.cos (part n k) = Real.cos (part n ((k % n).toNat : ℤ)) ∧ Real.sin (part n k) = Real.sin (part n ((k % n).toNat : ℤ)) := by
  have h0 : (0 : ℤ) ≤ k % n := Int.emod_nonneg _ (by omega)
  rw [Int.toNat_of_nonneg h0]
  have : part n k = part n (k % n) + (k / n : ℤ) * (2 * Real.pi) := by
    rw [← part_mul n hn, part_add, Int.emod_add_mul_ediv]
  rw [this, Real.cos_add_int_mul_two_pi, Real.sin_add_int_mul_two_pi]
  exact ⟨rfl, rfl⟩

theorem cos_part_one (n : ℕ) (hn : 0 < n) (k : ℤ) (h0 : 0 ≤ k) (h1 : k < n) (h : Real.cos (part n k) = 1) : k = 0 := by
  obtain ⟨m, hm⟩ := (Real.cos_eq_one_iff _).1 h
  have hn' : (n : ℝ) ≠ 0 := by positivity
  have hp := Real.pi_ne_zero
  have : (m : ℝ) * n = k := by
    unfold part at hm
    field_simp at hm
    linarith
  have : m * n = k := by exact_mod_cast this
  rcases lt_trichotomy m 0 with h | h | h
  · nlinarith
  · subst h; simpa using this.symm
  · nlinarith

theorem part_inj (n : ℕ) (hn : 0 < n) (i j : ℕ) (hi : i < n) (hj : j < n)
    (hc : Real.cos (part n i) = Real.cos (part n j)) (hs : Real.sin (part n i) = Real.sin (part n j)) : i = j := by
  wlog hij : j ≤ i generalizing i j
  · exact (this j i hj hi hc.symm hs.symm (by omega)).symm
  have h : Real.cos (part n ((i : ℤ) - j)) = 1 := by
    have : part n ((i : ℤ) - j) = part n i - part n j := by unfold part; push_cast; ring
    rw [this, Real.cos_sub, hc, hs]
    nlinarith [Real.sin_sq_add_cos_sq (part n j)]
  have := cos_part_one n hn _ (by omega) (by omega) h
  omega

theorem rot2_eq (n i : ℕ) : rot2 n i = R2 (part n i) := by
  have : (i : ℝ) * 2 * Real.pi / n = part n i := by unfold part; push_cast; ring
  simp only [rot2, R2, this]

theorem rot3_eq (n i : ℕ) : rot3 n i = R3 (part n i) := by
  have : (i : ℝ) * 2 * Real.pi / n = part n i := by unfold part; push_cast; ring
  simp only [rot3, R3, this]

theorem mem_rot2 (n : ℕ) (hn : 0 < n) (M : Mat ℝ 2) :
    M ∈ (List.range n).map (rot2 n) ↔ ∃ k : ℤ, M = R2 (part n k) := by
  rw [List.mem_map]
  constructor
  · rintro ⟨i, -, rfl⟩; exact ⟨i, rot2_eq n i⟩
  · rintro ⟨k, rfl⟩
    refine ⟨(k % n).toNat, ?_, ?_⟩
    · have h0 : (0 : ℤ) ≤ k % n := Int.emod_nonneg _ (by omega)
      have h1 : k % n < n := Int.emod_lt_of_pos _ (by omega)
      rw [List.mem_range]; omega
    · rw [rot2_eq]
      obtain ⟨h1, h2⟩ := cos_sin_part n hn k
      simp only [R2, h1, h2]

theorem mem_rot3 (n : ℕ) (hn : 0 < n) (M : Mat ℝ 3) :
    M ∈ (List.range n).map (rot3 n) ↔ ∃ k : ℤ, M = R3 (part n k) := by
  rw [List.mem_map]
  constructor
  · rintro ⟨i, -, rfl⟩; exact ⟨i, rot3_eq n i⟩
  · rintro ⟨k, rfl⟩
    refine ⟨(k % n).toNat, ?_, ?_⟩
    · have h0 : (0 : ℤ) ≤ k % n := Int.emod_nonneg _ (by omega)
      have h1 : k % n < n := Int.emod_lt_of_pos _ (by omega)
      rw [List.mem_range]; omega
    · rw [rot3_eq]
      obtain ⟨h1, h2⟩ := cos_sin_part n hn k
      simp only [R3, h1, h2]

theorem nodup_rot2 (n : ℕ) (hn : 0 < n) : ((List.range n).map (rot2 n)).Nodup := by
  refine (List.nodup_map_iff_inj_on List.nodup_range).2 ?_
  intro i hi j hj h
  rw [rot2_eq, rot2_eq] at h
  exact part_inj n hn i j (List.mem_range.1 hi) (List.mem_range.1 hj) (by simpa [R2] using congrFun (congrFun h 0) 0)
    (by simpa [R2] using congrFun (congrFun h 0) 1)

theorem nodup_rot3 (n : ℕ) (hn : 0 < n) : ((List.range n).map (rot3 n)).Nodup := by
  refine (List.nodup_map_iff_inj_on List.nodup_range).2 ?_
  intro i hi j hj h
  rw [rot3_eq, rot3_eq] at h
  exact part_inj n hn i j (List.mem_range.1 hi) (List.mem_range.1 hj) (by simpa [R3] using congrFun (congrFun h 0) 0)
    (by simpa [R3] using congrFun (congrFun h 0) 1)

theorem head_rot2 (n : ℕ) (hn : 0 < n) : ((List.range n).map (rot2 n)).head? = some 1 := by
  obtain ⟨m, rfl⟩ : ∃ m, n = m + 1 := ⟨n - 1, by omega⟩
  rw [List.range_succ_eq_map, List.map_cons, List.head?_cons, rot2_eq]
  simp [part, R2_zero]

theorem head_rot3 (n : ℕ) (hn : 0 < n) : ((List.range n).map (rot3 n)).head? = some 1 := by
  obtain ⟨m, rfl⟩ : ∃ m, n = m + 1 := ⟨n - 1, by omega⟩
  rw [List.range_succ_eq_map, List.map_cons, List.head?_cons, rot3_eq]
  simp [part, R3_zero]

theorem group_of_iff {d : ℕ} {l : List (Mat ℝ d)} {R : ℝ → Mat ℝ d} {n : ℕ} (h : ∀ M, M ∈ l ↔ ∃ k : ℤ, M = R (part n k))
    (hm : ∀ x y, R x * R y = R (x + y)) (h0 : R 0 = 1) : IsMatGroup l := by
  have p0 : part n 0 = 0 := by simp [part]
  refine ⟨(h 1).2 ⟨0, by rw [p0, h0]⟩, ?_, ?_⟩
  · intro a ha b hb
    obtain ⟨i, rfl⟩ := (h a).1 ha
    obtain ⟨j, rfl⟩ := (h b).1 hb
    exact (h _).2 ⟨i + j, by rw [hm, part_add]⟩
  · intro a ha
    obtain ⟨i, rfl⟩ := (h a).1 ha
    refine ⟨R (part n (-i)), (h _).2 ⟨-i, rfl⟩, ?_, ?_⟩
    · rw [hm, part_add, add_neg_cancel, p0, h0]
    · rw [hm, part_add, neg_add_cancel, p0, h0]

theorem o2_ok (n : ℕ) (hn : 0 < n) : Sym.o2 n = .ok ⟨(List.range n).map (rot2 n), false⟩ := by
  obtain ⟨σ, hσ⟩ := (mkSym_ok_iff (S := (List.range n).map (rot2 n)) (inv := false)).2 ⟨head_rot2 n hn, by
    intro s hs
    obtain ⟨k, rfl⟩ := (mem_rot2 n hn s).1 hs
    rw [R2_det, abs_one]⟩
  rw [Sym.o2, hσ]
  rcases (mkSym_cases hσ).2.2 with ⟨-, hd, rfl⟩ | ⟨-, -, rfl⟩ | ⟨-, hi, -, rfl⟩ | ⟨-, -, rfl⟩
  · omega
  · rfl
  · cases hi
  · rfl

theorem R3_22 (x : ℝ) : R3 x 2 2 = 1 := by simp [R3]

theorem cyclic_ok (n : ℕ) (hn : 0 < n) (inv : Bool) : Sym.cyclic n inv = .ok ⟨(List.range n).map (rot3 n), inv⟩ := by
  obtain ⟨σ, hσ⟩ := (mkSym_ok_iff (S := (List.range n).map (rot3 n)) (inv := inv)).2 ⟨head_rot3 n hn, by
    intro s hs
    obtain ⟨k, rfl⟩ := (mem_rot3 n hn s).1 hs
    rw [R3_det, abs_one]⟩
  rw [Sym.cyclic, hσ]
  have hno : ¬ ∀ s ∈ (List.range n).map (rot3 n), s ∈ ((List.range n).map (rot3 n)).map fun s => -s := by
    intro h
    have h1 := h (R3 (part n 0)) ((mem_rot3 n hn _).2 ⟨0, rfl⟩)
    rw [mem_map_neg] at h1
    obtain ⟨k, hk⟩ := (mem_rot3 n hn _).1 h1
    have := congrFun (congrFun hk 2) 2
    rw [Matrix.neg_apply, R3_22, R3_22] at this
    norm_num at this
  rcases (mkSym_cases hσ).2.2 with ⟨h, -, -⟩ | ⟨h, -, -⟩ | ⟨-, -, hd, rfl⟩ | ⟨-, -, rfl⟩
  · exact absurd h hno
  · exact absurd h hno
  · omega
  · rfl

/-- **C78** `o2(n)` for `n > 0` lists the rotations by the multiples of the `n`-th part of the full circle, each once; they
are a group. -/
theorem C78_o2 (n : ℕ) (hn : 0 < n) : ∃ σ, Sym.o2 n = .ok σ ∧ σ.len = n ∧ σ.ops.Nodup ∧ IsMatGroup σ.ops ∧
    ∀ M, M ∈ σ.ops ↔ ∃ k : ℤ, M = R2 (part n k) := by
  refine ⟨_, o2_ok n hn, by simp [Sym.len], nodup_rot2 n hn, ?_, mem_rot2 n hn⟩
  exact group_of_iff (mem_rot2 n hn) R2_mul R2_zero

/-- **C78** `cyclic(n, inversion)` for `n > 0` lists the rotations around the z-axis by the multiples of the `n`-th part of the
full circle, with inversion also their negatives, each once; they are a group. -/
theorem C78_cyclic (n : ℕ) (hn : 0 < n) (inversion : Bool) : ∃ σ, Sym.cyclic n inversion = .ok σ ∧
    σ.len = (if inversion then 2 * n else n) ∧ σ.ops.Nodup ∧ IsMatGroup σ.ops ∧
    ∀ M, M ∈ σ.ops ↔ ∃ k : ℤ, M = R3 (part n k) ∨ inversion = true ∧ M = -R3 (part n k) := by
  have hmem : ∀ M, M ∈ Sym.ops ⟨(List.range n).map (rot3 n), inversion⟩ ↔
      ∃ k : ℤ, M = R3 (part n k) ∨ inversion = true ∧ M = -R3 (part n k) := by
    intro M
    rw [mem_ops]
    simp only [mem_rot3 n hn]
    constructor
    · rintro (⟨k, h⟩ | ⟨hi, k, h⟩)
      · exact ⟨k, Or.inl h⟩
      · exact ⟨k, Or.inr ⟨hi, by rw [← h, neg_neg]⟩⟩
    · rintro ⟨k, h | ⟨hi, h⟩⟩
      · exact Or.inl ⟨k, h⟩
      · exact Or.inr ⟨hi, k, by rw [h, neg_neg]⟩
  have p0 : part n 0 = 0 := by simp [part]
  refine ⟨_, cyclic_ok n hn inversion, ?_, ?_, ⟨?_, ?_, ?_⟩, hmem⟩
  · cases inversion <;> simp [Sym.len, mul_comm]
  · unfold Sym.ops
    split_ifs
    · refine List.nodup_append.2 ⟨nodup_rot3 n hn, (nodup_rot3 n hn).map neg_injective, ?_⟩
      rintro a ha b hb rfl
      have hb' := mem_map_neg.1 hb
      obtain ⟨k, rfl⟩ := (mem_rot3 n hn _).1 ha
      obtain ⟨l, hl⟩ := (mem_rot3 n hn _).1 hb'
      have := congrFun (congrFun hl 2) 2
      rw [Matrix.neg_apply, R3_22, R3_22] at this
      norm_num at this
    · exact nodup_rot3 n hn
  · exact (hmem 1).2 ⟨0, Or.inl (by rw [p0, R3_zero])⟩
  · intro a ha b hb
    obtain ⟨i, ha⟩ := (hmem a).1 ha
    obtain ⟨j, hb⟩ := (hmem b).1 hb
    refine (hmem _).2 ⟨i + j, ?_⟩
    rw [← part_add, ← R3_mul]
    rcases ha with rfl | ⟨hi, rfl⟩ <;> rcases hb with rfl | ⟨hi', rfl⟩
    · exact Or.inl rfl
    · exact Or.inr ⟨hi', by rw [Matrix.mul_neg]⟩
    · exact Or.inr ⟨hi, by rw [Matrix.neg_mul]⟩
    · exact Or.inl (by rw [Matrix.neg_mul, Matrix.mul_neg, neg_neg])
  · intro a ha
    obtain ⟨i, ha⟩ := (hmem a).1 ha
    rcases ha with rfl | ⟨hi, rfl⟩
    · exact ⟨R3 (part n (-i)), (hmem _).2 ⟨-i, Or.inl rfl⟩, by rw [R3_mul, part_add, add_neg_cancel, p0, R3_zero],
        by rw [R3_mul, part_add, neg_add_cancel, p0, R3_zero]⟩
    · exact ⟨-R3 (part n (-i)), (hmem _).2 ⟨-i, Or.inr ⟨hi, rfl⟩⟩,
        by rw [Matrix.neg_mul, Matrix.mul_neg, neg_neg, R3_mul, part_add, add_neg_cancel, p0, R3_zero],
        by rw [Matrix.neg_mul, Matrix.mul_neg, neg_neg, R3_mul, part_add, neg_add_cancel, p0, R3_zero]⟩

/-- Non-trivial: five rotations. -/
example : ∃ σ, Sym.cyclic 5 true = .ok σ ∧ σ.len = 10 := by
  obtain ⟨σ, h1, h2, -⟩ := C78_cyclic 5 (by norm_num) true
  exact ⟨σ, h1, by simpa using h2⟩

/-- **C78** Without any rotation the constructor fails with `IndexError`. -/
theorem C78_zero (inversion : Bool) : Sym.o2 0 = .error .indexError ∧ Sym.cyclic 0 inversion = .error .indexError ∧
    Sym.dihedral 0 inversion = .error .indexError := ⟨rfl, rfl, rfl⟩

theorem flip_mulVec {K : Type} [Field K] {d m : ℕ} (v : Fin d → K) (i : Fin d) :
    (flipMat K d m *ᵥ v) i = if i.val < m then -v i else v i := by
  rw [flipMat, Matrix.mulVec_diagonal]; split_ifs <;> simp

theorem flip_det {K : Type} [Field K] [LinearOrder K] [IsStrictOrderedRing K] {d m : ℕ} : |(flipMat K d m).det| = 1 := by
  rw [flipMat, Matrix.det_diagonal, Finset.abs_prod]
  refine Finset.prod_eq_one fun i _ => ?_
  split_ifs <;> simp

/-- **C78** `mirror_x` and `mirror_xy` (`m = 1, 2`) return in every dimension that has these coordinates, and list the identity
and the matrix that changes the sign of the first `m` coordinates, with inversion also their negatives; otherwise they raise
`IndexError`. -/
theorem C78_mirror {K : Type} [Field K] [LinearOrder K] [IsStrictOrderedRing K] (d m : ℕ) (inversion : Bool)
    (x : Except Err (Sym K d)) (hx : m = 1 ∧ x = Sym.mirrorX K d inversion ∨ m = 2 ∧ x = Sym.mirrorXY K d inversion) :
    (d < m → x = .error .indexError) ∧
    (m ≤ d → ∃ σ, x = .ok σ ∧ IsMatGroup σ.ops ∧ ∃ F : Mat K d, (∀ v i, (F *ᵥ v) i = if i.val < m then -v i else v i) ∧
      ∀ M, M ∈ σ.ops ↔ M = 1 ∨ M = F ∨ inversion = true ∧ (M = -1 ∨ M = -F)) := by
  have hx' : x = if d < m then .error .indexError else mkSym [1, flipMat K d m] inversion := by
    rcases hx with ⟨rfl, rfl⟩ | ⟨rfl, rfl⟩ <;> rfl
  refine ⟨fun h => by rw [hx', if_pos h], fun h => ?_⟩
  obtain ⟨σ, hσ⟩ := (mkSym_ok_iff (S := [1, flipMat K d m]) (inv := inversion)).2 ⟨rfl, by
    intro s hs
    rcases List.mem_cons.1 hs with rfl | hs
    · simp
    · rw [List.mem_singleton.1 hs]; exact flip_det⟩
  have hmem : ∀ M, M ∈ σ.ops ↔ M = 1 ∨ M = flipMat K d m ∨ inversion = true ∧ (M = -1 ∨ M = -flipMat K d m) := by
    intro M
    rw [mkSym_mem_ops hσ]
    simp only [List.mem_cons, List.not_mem_nil, or_false, or_assoc, neg_eq_iff_eq_neg]
  have hF : flipMat K d m * flipMat K d m = 1 := by
    rw [flipMat, Matrix.diagonal_mul_diagonal, ← Matrix.diagonal_one]
    congr 1; funext i; split_ifs <;> simp
  refine ⟨σ, by rw [hx', if_neg (by omega), hσ], ⟨(hmem 1).2 (Or.inl rfl), ?_, ?_⟩, flipMat K d m, flip_mulVec, hmem⟩
  · intro a ha b hb
    rw [hmem] at ha hb ⊢
    rcases ha with rfl | rfl | ⟨hi, rfl | rfl⟩ <;> rcases hb with rfl | rfl | ⟨hi', rfl | rfl⟩ <;>
      simp [*]
  · intro a ha
    refine ⟨a, ha, ?_⟩
    rw [hmem] at ha
    rcases ha with rfl | rfl | ⟨hi, rfl | rfl⟩ <;> simp [hF]

/-- **C78** `none` lists the identity, `inv` the identity and the inversion, in every dimension. -/
theorem C78_none_inv {K : Type} [Field K] [LinearOrder K] [IsStrictOrderedRing K] (d : ℕ) :
    (∃ σ, Sym.none K d = .ok σ ∧ ∀ M, M ∈ σ.ops ↔ M = 1) ∧ ∃ σ, Sym.inv K d = .ok σ ∧ ∀ M, M ∈ σ.ops ↔ M = 1 ∨ M = -1 := by
  refine ⟨?_, ?_⟩
  · obtain ⟨σ, hσ⟩ := (mkSym_ok_iff (S := [(1 : Mat K d)]) (inv := false)).2 ⟨rfl, by simp⟩
    exact ⟨σ, hσ, fun M => by rw [mkSym_mem_ops hσ]; simp⟩
  · obtain ⟨σ, hσ⟩ := (mkSym_ok_iff (S := [(1 : Mat K d)]) (inv := true)).2 ⟨rfl, by simp⟩
    exact ⟨σ, hσ, fun M => by rw [mkSym_mem_ops hσ]; simp [neg_eq_iff_eq_neg]⟩

/-- **C78** `o1(inversion)` lists the number 1, and with inversion also -1: exactly the isometries of the line that fix 0. -/
theorem C78_o1 (inversion : Bool) :
    ∃ σ, Sym.o1 inversion = .ok σ ∧ σ.inversion = inversion ∧ ∀ M, M ∈ σ.ops ↔ M 0 0 = 1 ∨ inversion = true ∧ M 0 0 = -1 := by
  have hS : [(!![1] : Mat ℚ 1)] = [1] := by decide +kernel
  have hone : ∀ (M : Mat ℚ 1) (x : ℚ), M = x • 1 ↔ M 0 0 = x := by
    intro M x
    constructor
    · rintro rfl; simp
    · intro h; ext i j; fin_cases i; fin_cases j; simpa using h
  have h1 := fun M => hone M 1
  simp only [one_smul] at h1
  unfold Sym.o1
  rw [hS]
  cases inversion with
  | false =>
    obtain ⟨σ, hσ⟩ := (mkSym_ok_iff (S := [(1 : Mat ℚ 1)]) (inv := false)).2 ⟨rfl, by simp⟩
    refine ⟨σ, hσ, ?_, fun M => by rw [mkSym_mem_ops hσ]; simp [h1]⟩
    have : okAnd (mkSym [(1 : Mat ℚ 1)] false) (fun σ => σ.inversion == false) = true := by decide +kernel
    obtain ⟨τ, hτ, h⟩ := okAnd_iff.1 this
    rw [hσ] at hτ
    obtain rfl := Except.ok.inj hτ
    simpa using h
  | true =>
    obtain ⟨σ, hσ⟩ := (mkSym_ok_iff (S := [(1 : Mat ℚ 1)]) (inv := true)).2 ⟨rfl, by simp⟩
    refine ⟨σ, hσ, ?_, fun M => by rw [mkSym_mem_ops hσ]; simp [neg_eq_iff_eq_neg, h1]⟩
    have : okAnd (mkSym [(1 : Mat ℚ 1)] true) (fun σ => σ.inversion == true) = true := by decide +kernel
    obtain ⟨τ, hτ, h⟩ := okAnd_iff.1 this
    rw [hσ] at hτ
    obtain rfl := Except.ok.inj hτ
    simpa using h

example : ∃ σ, Sym.o1 true = .ok σ ∧ !![-1] ∈ σ.ops := by
  obtain ⟨σ, h, -, hm⟩ := C78_o1 true
  exact ⟨σ, h, (hm _).2 (Or.inr ⟨rfl, rfl⟩)⟩

/-! ### `dihedral` -/

theorem flip_eq : flipMat ℝ 3 1 = Mx := by
  ext i j
  fin_cases i <;> fin_cases j <;> simp [flipMat, Mx]

theorem mirrorX_ok : Sym.mirrorX ℝ 3 false = .ok ⟨[1, Mx], false⟩ := by
  rw [Sym.mirrorX, if_neg (by norm_num), flip_eq]
  obtain ⟨σ, hσ⟩ := (mkSym_ok_iff (S := [1, Mx]) (inv := false)).2 ⟨rfl, by
    intro s hs
    rcases List.mem_cons.1 hs with rfl | hs
    · simp
    · rw [List.mem_singleton.1 hs, Mx_det]; simp⟩
  rw [hσ]
  have hno : ¬ ∀ s ∈ [1, Mx], s ∈ [1, Mx].map fun s => -s := by
    intro h
    have h1 := mem_map_neg.1 (h 1 (by simp))
    simp only [List.mem_cons, List.not_mem_nil, or_false] at h1
    rcases h1 with h1 | h1 <;>
    · have := congrFun (congrFun h1 2) 2
      simp [Mx] at this
      norm_num at this
  rcases (mkSym_cases hσ).2.2 with ⟨h, -, -⟩ | ⟨h, -, -⟩ | ⟨-, -, hd, rfl⟩ | ⟨-, -, rfl⟩
  · exact absurd h hno
  · exact absurd h hno
  · omega
  · rfl

theorem dihedral_eq (n : ℕ) (hn : 0 < n) (inv : Bool) :
    Sym.dihedral n inv = fromGenerator ((List.range n).map (rot3 n) ++ [1, Mx]) inv := by
  rw [Sym.dihedral, cyclic_ok n hn, mirrorX_ok]
  show Sym.mul _ _ = _
  rw [Sym.mul]
  simp

/-- The elements of the dihedral group, each once. -/
noncomputable def dih (n : ℕ) : List (Mat ℝ 3) := (List.range n).map (rot3 n) ++ ((List.range n).map (rot3 n)).map fun s => s * Mx

theorem mem_dih (n : ℕ) (hn : 0 < n) (M : Mat ℝ 3) :
    M ∈ dih n ↔ ∃ k : ℤ, M = R3 (part n k) ∨ M = R3 (part n k) * Mx := by
  rw [dih, List.mem_append, List.mem_map (f := fun s => s * Mx)]
  simp only [mem_rot3 n hn]
  constructor
  · rintro (⟨k, h⟩ | ⟨_, ⟨k, rfl⟩, h⟩)
    · exact ⟨k, Or.inl h⟩
    · exact ⟨k, Or.inr h.symm⟩
  · rintro ⟨k, h | h⟩
    · exact Or.inl ⟨k, h⟩
    · exact Or.inr ⟨_, ⟨k, rfl⟩, h.symm⟩

theorem nodup_dih (n : ℕ) (hn : 0 < n) : (dih n).Nodup := by
  refine List.nodup_append.2 ⟨nodup_rot3 n hn, (nodup_rot3 n hn).map ?_, ?_⟩
  · intro a b h
    have := congrArg (· * Mx) h
    simpa [Matrix.mul_assoc, Mx_Mx] using this
  · rintro a ha b hb rfl
    obtain ⟨k, rfl⟩ := (mem_rot3 n hn _).1 ha
    obtain ⟨c, hc, h⟩ := List.mem_map.1 hb
    obtain ⟨l, rfl⟩ := (mem_rot3 n hn _).1 hc
    have := congrArg Matrix.det h
    rw [Matrix.det_mul, R3_det, R3_det, Mx_det] at this
    norm_num at this

theorem dih_mul (n : ℕ) (hn : 0 < n) (a b : Mat ℝ 3) (ha : a ∈ dih n) (hb : b ∈ dih n) : a * b ∈ dih n := by
  rw [mem_dih n hn] at *
  obtain ⟨k, ha⟩ := ha
  obtain ⟨l, hb⟩ := hb
  rcases ha with rfl | rfl <;> rcases hb with rfl | rfl
  · exact ⟨k + l, Or.inl (by rw [R3_mul, part_add])⟩
  · exact ⟨k + l, Or.inr (by rw [← Matrix.mul_assoc, R3_mul, part_add])⟩
  · exact ⟨k - l, Or.inr (by rw [Matrix.mul_assoc, Mx_R3, ← Matrix.mul_assoc, R3_mul, part_neg, part_add]; rfl)⟩
  · refine ⟨k - l, Or.inl ?_⟩
    rw [Matrix.mul_assoc, ← Matrix.mul_assoc Mx, Mx_R3, Matrix.mul_assoc, Mx_Mx, Matrix.mul_one, R3_mul, part_neg, part_add]
    rfl

theorem dih_products (n : ℕ) (hn : 0 < n) :
    {m : Mat ℝ 3 | ∃ l : List (Mat ℝ 3), (∀ g ∈ l, g ∈ (List.range n).map (rot3 n) ++ [1, Mx]) ∧ l.prod = m} =
      {m | m ∈ dih n} := by
  have hone : (1 : Mat ℝ 3) ∈ dih n := (mem_dih n hn 1).2 ⟨0, Or.inl (by simp [part, R3_zero])⟩
  have hMx : Mx ∈ dih n := (mem_dih n hn _).2 ⟨0, Or.inr (by simp [part, R3_zero])⟩
  ext m
  constructor
  · rintro ⟨l, hl, rfl⟩
    induction l with
    | nil => exact hone
    | cons a l ih =>
      rw [List.prod_cons]
      refine dih_mul n hn _ _ ?_ (ih fun g hg => hl g (List.mem_cons_of_mem _ hg))
      have := hl a (List.mem_cons_self ..)
      simp only [List.mem_append, List.mem_cons, List.not_mem_nil, or_false] at this
      rcases this with h | rfl | rfl
      · exact List.mem_append_left _ h
      · exact hone
      · exact hMx
  · intro hm
    obtain ⟨k, h⟩ := (mem_dih n hn m).1 hm
    have hk := List.mem_append_left [1, Mx] ((mem_rot3 n hn _).2 ⟨k, rfl⟩)
    rcases h with rfl | rfl
    · exact ⟨[R3 (part n k)], by simpa using hk, by simp⟩
    · refine ⟨[R3 (part n k), Mx], ?_, by simp⟩
      intro g hg
      simp only [List.mem_cons, List.not_mem_nil, or_false] at hg
      rcases hg with rfl | rfl
      · exact hk
      · simp

/-- **C78** `dihedral(n, inversion)` for `n > 0` returns exactly when `n < 100` (more than 199 operations are refused with
`ValueError`). -/
theorem C78_dihedral_returns (n : ℕ) (hn : 0 < n) (inversion : Bool) :
    (∃ σ, Sym.dihedral n inversion = .ok σ) ↔ n < 100 := by
  rw [dihedral_eq n hn, C03_from_generator_returns_iff, dih_products n hn]
  have hc : {m | m ∈ dih n}.ncard = 2 * n := by
    have : {m | m ∈ dih n} = ((dih n).toFinset : Set (Mat ℝ 3)) := by ext; simp
    rw [this, Set.ncard_coe_finset, List.toFinset_card_of_nodup (nodup_dih n hn)]
    simp [dih]; ring
  rw [hc]
  constructor
  · rintro ⟨-, -, -, h⟩; omega
  · intro h
    refine ⟨by simp, ?_, List.finite_toSet _, by omega⟩
    intro g hg
    simp only [List.mem_append, List.mem_cons, List.not_mem_nil, or_false] at hg
    rcases hg with hg | rfl | rfl
    · obtain ⟨k, rfl⟩ := (mem_rot3 n hn _).1 hg
      rw [R3_det, abs_one]
    · simp
    · rw [Mx_det]; simp

/-- **C78** ... with `ValueError`. -/
theorem C78_dihedral_error (n : ℕ) (hn : 100 ≤ n) (inversion : Bool) : Sym.dihedral n inversion = .error .valueError := by
  have hno := (C78_dihedral_returns n (by omega) inversion).not.2 (by omega)
  rw [dihedral_eq n (by omega)] at hno ⊢
  cases h : fromGenerator ((List.range n).map (rot3 n) ++ [1, Mx]) inversion with
  | ok σ => exact absurd ⟨σ, h⟩ hno
  | error e =>
    have := C03_from_generator_error _ _ _ h
    rw [if_neg (by simp)] at this
    rw [this]

/-- **C78** `dihedral(n, inversion)` lists the rotations around the z-axis by multiples of the `n`-th part of the full circle and
their products with the reflection of the x-axis, with inversion also the negatives, each once; they are a group. -/
theorem C78_dihedral (n : ℕ) (hn : 0 < n) (inversion : Bool) (σ : Sym ℝ 3) (h : Sym.dihedral n inversion = .ok σ) :
    σ.len = (if inversion then 4 * n else 2 * n) ∧ σ.ops.Nodup ∧ IsMatGroup σ.ops ∧
    ∀ M, M ∈ σ.ops ↔ ∃ k : ℤ, (M = R3 (part n k) ∨ M = R3 (part n k) * Mx) ∨
      inversion = true ∧ (M = -R3 (part n k) ∨ M = -(R3 (part n k) * Mx)) := by
  rw [dihedral_eq n hn] at h
  obtain ⟨hg, hmem, hneg⟩ := C01_from_generator_group _ _ _ h
  obtain ⟨hnd, hlen⟩ := C05_len_counts_operations _ _ _ h (Or.inl rfl)
  have hdih : ∀ M, M ∈ dih n → M ∈ σ.ops := by
    intro M hM
    have : M ∈ {m | m ∈ dih n} := hM
    rw [← dih_products n hn] at this
    obtain ⟨l, hl, rfl⟩ := this
    clear hM
    induction l with
    | nil => exact hg.one_mem
    | cons a l ih =>
      rw [List.prod_cons]
      exact hg.mul_mem _ (hmem _ (hl a (List.mem_cons_self ..))) _ (ih fun g hg => hl g (List.mem_cons_of_mem _ hg))
  have hops : ∀ M, M ∈ σ.ops ↔ M ∈ dih n ∨ inversion = true ∧ -M ∈ dih n := by
    intro M
    constructor
    · intro hM
      obtain ⟨l, hl, he⟩ := C02_from_generator_minimal _ _ _ h M hM
      have : l.prod ∈ {m | m ∈ dih n} := by rw [← dih_products n hn]; exact ⟨l, hl, rfl⟩
      rcases he with rfl | ⟨hi, rfl⟩
      · exact Or.inl this
      · exact Or.inr ⟨hi, by rw [neg_neg]; exact this⟩
    · rintro (h | ⟨hi, h⟩)
      · exact hdih M h
      · simpa using hneg hi _ (hdih _ h)
  refine ⟨?_, hnd, hg, ?_⟩
  · rw [hlen]
    have hset : σ.ops.toFinset = if inversion then (dih n ++ (dih n).map fun s => -s).toFinset else (dih n).toFinset := by
      ext M
      rw [List.mem_toFinset, hops]
      cases inversion <;> simp [neg_eq_iff_eq_neg]
    have hl : (dih n).length = 2 * n := by simp [dih]; ring
    rw [distinctCount, hset]
    cases inversion
    · simp [List.toFinset_card_of_nodup (nodup_dih n hn), hl]
    · have hnd' : (dih n ++ (dih n).map fun s => -s).Nodup := by
        refine List.nodup_append.2 ⟨nodup_dih n hn, (nodup_dih n hn).map neg_injective, ?_⟩
        rintro a ha b hb rfl
        have hb' := mem_map_neg.1 hb
        have h22 : ∀ M ∈ dih n, M 2 2 = 1 := by
          intro M hM
          obtain ⟨k, rfl | rfl⟩ := (mem_dih n hn M).1 hM
          · exact R3_22 _
          · simp [Matrix.mul_apply, Fin.sum_univ_three, R3, Mx]
        have h1 := h22 _ ha
        have h2 := h22 _ hb'
        rw [Matrix.neg_apply, h1] at h2
        norm_num at h2
      rw [if_pos rfl, List.toFinset_card_of_nodup hnd', List.length_append, List.length_map, hl]
      simp; ring
  · intro M
    rw [hops, mem_dih n hn, mem_dih n hn]
    simp only [neg_eq_iff_eq_neg]
    constructor
    · rintro (⟨k, h⟩ | ⟨hi, k, h⟩)
      · exact ⟨k, Or.inl h⟩
      · exact ⟨k, Or.inr ⟨hi, h⟩⟩
    · rintro ⟨k, h | ⟨hi, h⟩⟩
      · exact Or.inl ⟨k, h⟩
      · exact Or.inr ⟨hi, k, h⟩

/-- Non-trivial: the group of the hexagonal prism has 24 operations. -/
example : ∃ σ, Sym.dihedral 6 true = .ok σ ∧ σ.len = 24 := by
  obtain ⟨σ, h⟩ := (C78_dihedral_returns 6 (by norm_num) true).2 (by norm_num)
  exact ⟨σ, h, by simpa using (C78_dihedral 6 (by norm_num) true σ h).1⟩

end TB.Cyclic

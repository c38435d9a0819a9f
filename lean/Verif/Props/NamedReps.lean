import Verif.Model.NamedReps
import Verif.Props.NamedGroups
import Verif.Props.UnitaryRep
import Verif.Spec.Representation

/-!
# Property C90: the named representations of the cubic group
-/

set_option linter.unusedSectionVars false

namespace TB.UR
open Spec Matrix

set_option maxRecDepth 100000

/-! ## Specification -/

/-- A rotation of the cube: a signed permutation matrix of determinant 1. -/
def IsCubeRotation (s : Mat ℚ 3) : Prop := Named.Spec.SignedPerm s ∧ s.det = 1

/-- The sign of the permutation of the axes: `-1` for the quarter turns and the half turns about face diagonals. -/
def axisSign (s : Mat ℚ 3) : ℚ := (Named.Spec.unsigned s).det

/-- The action of a rotation on the two functions `(2z²-x²-y²)/√6` and `(x²-y²)/√2` of the squares of the coordinates. With the
matrix `Q` of squared entries and `g₁ = (-1,-1,2)`, `g₂ = (1,-1,0)` the entries are `g_a · Q g_b / (|g_a| |g_b|)`,
where `|g₁| |g₂| = √12 = 6/√3`. -/
def egMatrix {F : Type} [Field F] (w : F) (Q : Mat F 3) : Mat F 2 :=
  !![(![-1, -1, 2] ⬝ᵥ Q.mulVec ![-1, -1, 2]) / 6, w * (![-1, -1, 2] ⬝ᵥ Q.mulVec ![1, -1, 0]) / 6;
     w * (![1, -1, 0] ⬝ᵥ Q.mulVec ![-1, -1, 2]) / 6, (![1, -1, 0] ⬝ᵥ Q.mulVec ![1, -1, 0]) / 2]

/-- The matrix of squared entries. -/
def squares (F : Type) [Field F] (s : Mat ℚ 3) : Mat F 3 := Matrix.of fun i j => ((s i j ^ 2 : ℚ) : F)

/-! ## Signed permutations -/

section signed
variable {n : ℕ} {a b : Mat ℚ n}

theorem sp_mul_apply (ha : Named.Spec.SignedPerm a) (i : Fin n) : ∃ k, a i k ≠ 0 ∧ (∀ k', k' ≠ k → a i k' = 0) ∧
    ∀ (b : Mat ℚ n) (j : Fin n), (a * b) i j = a i k * b k j := by
  obtain ⟨k, hk, hk'⟩ := ha.row i
  have h0 : ∀ k', k' ≠ k → a i k' = 0 := fun k' h => by
    by_contra hne
    exact h (hk' k' hne)
  refine ⟨k, hk, h0, fun b j => ?_⟩
  rw [Matrix.mul_apply]
  exact Finset.sum_eq_single k (fun k' _ h => by rw [h0 k' h, zero_mul]) (by simp)

theorem sp_mul (ha : Named.Spec.SignedPerm a) (hb : Named.Spec.SignedPerm b) : Named.Spec.SignedPerm (a * b) := by
  refine ⟨fun i j => ?_, fun i => ?_, fun j => ?_⟩
  · obtain ⟨k, -, -, h⟩ := sp_mul_apply ha i
    rw [h]
    rcases ha.entries i k with h1 | h1 | h1 <;> rcases hb.entries k j with h2 | h2 | h2 <;> rw [h1, h2] <;> norm_num
  · obtain ⟨k, hk, -, h⟩ := sp_mul_apply ha i
    obtain ⟨j, hj, hj'⟩ := hb.row k
    refine ⟨j, by rw [h]; exact mul_ne_zero hk hj, fun j' hne => ?_⟩
    rw [h] at hne
    exact hj' j' (right_ne_zero_of_mul hne)
  · obtain ⟨k, hk, hk'⟩ := hb.col j
    obtain ⟨i, hi, hi'⟩ := ha.col k
    have key : ∀ i', (a * b) i' j ≠ 0 ↔ a i' k ≠ 0 := by
      intro i'
      rw [Matrix.mul_apply, Finset.sum_eq_single k (fun k' _ h => ?_) (by simp)]
      · exact ⟨left_ne_zero_of_mul, fun h => mul_ne_zero h hk⟩
      · rw [show b k' j = 0 by by_contra hne; exact h (hk' k' hne), mul_zero]
    exact ⟨i, (key i).2 hi, fun i' h => hi' i' ((key i').1 h)⟩

theorem unsigned_mul (ha : Named.Spec.SignedPerm a) :
    Named.Spec.unsigned (a * b) = Named.Spec.unsigned a * Named.Spec.unsigned b := by
  ext i j
  obtain ⟨k, hk, h0, h⟩ := sp_mul_apply ha i
  rw [Matrix.mul_apply, Finset.sum_eq_single k (fun k' _ hne => by simp [Named.Spec.unsigned, h0 k' hne]) (by simp)]
  simp only [Named.Spec.unsigned, Matrix.of_apply]
  rw [h, abs_mul]

end signed

theorem squares_mul {F : Type} [Field F] [CharZero F] {a b : Mat ℚ 3} (ha : Named.Spec.SignedPerm a) :
    squares F (a * b) = squares F a * squares F b := by
  ext i j
  obtain ⟨k, hk, h0, h⟩ := sp_mul_apply ha i
  rw [Matrix.mul_apply, Finset.sum_eq_single k (fun k' _ hne => by simp [squares, h0 k' hne]) (by simp)]
  simp only [squares, Matrix.of_apply]
  rw [h, mul_pow]
  push_cast
  rfl

theorem squares_row {F : Type} [Field F] [CharZero F] {a : Mat ℚ 3} (ha : Named.Spec.SignedPerm a) (i : Fin 3) :
    squares F a i 0 + squares F a i 1 + squares F a i 2 = 1 := by
  obtain ⟨k, hk, h0, h⟩ := sp_mul_apply ha i
  have h1 : ∑ j, squares F a i j = 1 := by
    rw [Finset.sum_eq_single k (fun k' _ hne => by simp [squares, h0 k' hne]) (by simp)]
    simp only [squares, Matrix.of_apply]
    rcases ha.entries i k with h1 | h1 | h1
    · exact absurd h1 hk
    · simp [h1]
    · simp [h1]
  rwa [Fin.sum_univ_three] at h1

theorem egMatrix_mul {F : Type} [Field F] [CharZero F] {w : F} (hw : w * w = 3) {P Q : Mat F 3}
    (hP : ∀ i, P i 0 + P i 1 + P i 2 = 1) :
    egMatrix w (P * Q) = egMatrix w P * egMatrix w Q := by
  have p0 := hP 0
  have p1 := hP 1
  have p2 := hP 2
  rw [← eq_sub_iff_add_eq'] at p0 p1 p2
  ext i j
  fin_cases i <;> fin_cases j <;>
    simp only [egMatrix, Fin.zero_eta, Fin.mk_one, Fin.isValue, Matrix.mul_apply, Fin.sum_univ_two, Fin.sum_univ_three,
      Matrix.mulVec, dotProduct, Matrix.of_apply, Matrix.cons_val_zero, Matrix.cons_val_one, Matrix.cons_val] <;>
    rw [p0, p1, p2]
  · linear_combination -((-(P 0 0 - P 0 1) - (P 1 0 - P 1 1) + 2 * (P 2 0 - P 2 1)) *
      ((-Q 0 0 - Q 0 1 + 2 * Q 0 2) - (-Q 1 0 - Q 1 1 + 2 * Q 1 2)) / 36) * hw
  · ring
  · ring
  · linear_combination -(((-P 0 0 - P 0 1 + 2 * (1 - (P 0 0 + P 0 1))) - (-P 1 0 - P 1 1 + 2 * (1 - (P 1 0 + P 1 1)))) *
      (-(Q 0 0 - Q 0 1) - (Q 1 0 - Q 1 1) + 2 * (Q 2 0 - Q 2 1)) / 36) * hw

theorem egMatrix_eq {F : Type} [Field F] (w : F) (Q : Mat F 3) : egMatrix w Q =
    !![(Q 0 0 + Q 0 1 - 2 * Q 0 2 + (Q 1 0 + Q 1 1 - 2 * Q 1 2) - 2 * (Q 2 0 + Q 2 1 - 2 * Q 2 2)) / 6,
      w * (-(Q 0 0 - Q 0 1) - (Q 1 0 - Q 1 1) + 2 * (Q 2 0 - Q 2 1)) / 6;
      w * (-Q 0 0 - Q 0 1 + 2 * Q 0 2 - (-Q 1 0 - Q 1 1 + 2 * Q 1 2)) / 6, (Q 0 0 - Q 0 1 - (Q 1 0 - Q 1 1)) / 2] := by
  unfold egMatrix
  congr 1
  simp only [Matrix.mulVec, dotProduct, Fin.sum_univ_three, Matrix.cons_val_zero, Matrix.cons_val_one, Matrix.cons_val]
  congr 1
  · congr 1
    · ring
    · congr 1
      ring
  · congr 1
    congr 1
    · ring
    · congr 1
      ring

theorem egMatrix_one {F : Type} [Field F] [CharZero F] (w : F) : egMatrix w (1 : Mat F 3) = 1 := by
  rw [egMatrix_eq]
  ext i j
  fin_cases i <;> fin_cases j <;> simp [Matrix.one_apply] <;> norm_num

theorem egMatrix_conjTranspose {F : Type} [Field F] [StarRing F] {w : F} (hw : star w = w) (Q : Mat F 3) :
    (egMatrix w Q).conjTranspose = egMatrix w (Q.conjTranspose) := by
  rw [egMatrix_eq, egMatrix_eq]
  have h6 : star (6 : F) = 6 := by exact_mod_cast star_natCast (R := F) 6
  have h2 : star (2 : F) = 2 := by exact_mod_cast star_natCast (R := F) 2
  ext i j
  fin_cases i <;> fin_cases j <;>
    simp only [Fin.zero_eta, Fin.mk_one, Fin.isValue, Matrix.conjTranspose_apply, Matrix.of_apply, Matrix.cons_val_zero,
      Matrix.cons_val_one, Matrix.cons_val_fin_one, star_div₀, star_add, star_sub, star_neg, star_mul', h6, h2, hw] <;> ring

/-! ## The rotations -/

theorem rot_one : IsCubeRotation 1 := ⟨Named.isSP_iff.1 (by decide +kernel), Matrix.det_one⟩

theorem rot_mul {a b : Mat ℚ 3} (ha : IsCubeRotation a) (hb : IsCubeRotation b) : IsCubeRotation (a * b) :=
  ⟨sp_mul ha.1 hb.1, by rw [Matrix.det_mul, ha.2, hb.2, one_mul]⟩

theorem eval_cubicS : okAnd (Sym.cubic true) (fun σ => decide (σ.inversion = true) && decide (σ.S.length = 24) && decide σ.S.Nodup &&
    (σ.S.all fun s => decide (s.det = 1) && decide (quarterSign s = axisSign s) && decide (s * s.conjTranspose = 1)) && decide (σ.S.head? = some 1)) = true := by
  decide +kernel

theorem neg_det3 (M : Mat ℚ 3) : (-M).det = -M.det := by
  rw [Matrix.det_neg, Fintype.card_fin]; ring

/-- The operations stored by `cubic(True)`: all rotations of the cube. -/
theorem cubic_S : ∃ σ, Sym.cubic true = .ok σ ∧ σ.inversion = true ∧ σ.S.length = 24 ∧ σ.S.Nodup ∧ σ.S.head? = some 1 ∧
    (∀ s, s ∈ σ.S ↔ IsCubeRotation s) ∧ (∀ s ∈ σ.S, quarterSign s = axisSign s) ∧ ∀ s ∈ σ.S, s * s.conjTranspose = 1 := by
  obtain ⟨σ, h1, h2⟩ := okAnd_iff.1 eval_cubicS
  obtain ⟨σ', h3, -, -, h4⟩ := Named.C77_cubic true
  rw [h1] at h3
  obtain rfl := Except.ok.inj h3
  simp only [Bool.and_eq_true, decide_eq_true_eq, List.all_eq_true] at h2
  obtain ⟨⟨⟨⟨hi, hl⟩, hn⟩, hall⟩, hh⟩ := h2
  refine ⟨σ, h1, hi, hl, hn, hh, fun s => ⟨fun hs => ⟨((h4 s).1 (mem_ops.2 (Or.inl hs))).1, (hall s hs).1.1⟩, ?_⟩,
    fun s hs => (hall s hs).1.2, fun s hs => (hall s hs).2⟩
  rintro ⟨hsp, hdet⟩
  rcases mem_ops.1 ((h4 s).2 ⟨hsp, Or.inl rfl⟩) with h | ⟨-, h⟩
  · exact h
  · have := (hall _ h).1.1
    rw [neg_det3, hdet] at this
    norm_num at this

theorem mem_zip_map_self {α β : Type} (l : List α) (f : α → β) (p : α × β) : p ∈ l.zip (l.map f) ↔ p.1 ∈ l ∧ p.2 = f p.1 := by
  rw [List.zip_map_right]
  rw [List.mem_map]
  constructor
  · rintro ⟨q, hq, rfl⟩
    have h1 : q.1 = q.2 := by
      have : ∀ l : List α, ∀ q ∈ l.zip l, q.1 = q.2 := by
        intro l; induction l with
        | nil => simp
        | cons a l ih =>
          intro q hq
          rcases List.mem_cons.1 hq with rfl | hq
          · rfl
          · exact ih q hq
      exact this l q hq
    exact ⟨(List.of_mem_zip hq).1, by simp [h1]⟩
  · rintro ⟨h1, h2⟩
    refine ⟨(p.1, p.1), ?_, Prod.ext rfl h2.symm⟩
    clear h2
    induction l with
    | nil => simp at h1
    | cons a l ih =>
      rcases List.mem_cons.1 h1 with h | h
      · rw [h]; exact List.mem_cons_self
      · exact List.mem_cons_of_mem _ (ih h)

/-- A function on the rotations that is multiplicative gives a representation. -/
theorem isRep_of {F : Type} [Field F] [StarRing F] [DecidableEq F] {N : ℕ} {ρ : Rep ℚ F 3 N} (f : Mat ℚ 3 → Mat F N)
    (hl : ρ.sym.S.length = ρ.U.length) (hn : ρ.sym.S.Nodup)
    (hz : ∀ p, p ∈ ρ.sym.S.zip ρ.U ↔ IsCubeRotation p.1 ∧ p.2 = f p.1) (h1 : f 1 = 1)
    (hm : ∀ a b, IsCubeRotation a → IsCubeRotation b → f (a * b) = f a * f b)
    (hs : ρ.invSplit = 0 ∨ ρ.invSplit = N) : IsRep ρ := by
  refine ⟨hl, hn, (hz _).2 ⟨rot_one, h1.symm⟩, fun p hp q hq => ?_, fun _ u _ a b h => ?_, by omega⟩
  · rw [hz] at hp hq ⊢
    exact ⟨rot_mul hp.1 hq.1, by simp only; rw [hp.2, hq.2, hm _ _ hp.1 hq.1]⟩
  · exfalso
    rcases hs with hs | hs <;> rw [hs] at h
    · simp at h
    · exact h ⟨fun _ => b.2, fun _ => a.2⟩

theorem isUnitary_of {F : Type} [Field F] [StarRing F] [DecidableEq F] {N : ℕ} {ρ : Rep ℚ F 3 N} (f : Mat ℚ 3 → Mat F N)
    (hl : ρ.sym.S.length = ρ.U.length) (hz : ∀ p, p ∈ ρ.sym.S.zip ρ.U ↔ IsCubeRotation p.1 ∧ p.2 = f p.1)
    (hf : ∀ s, IsCubeRotation s → f s * (f s).conjTranspose = 1) : IsUnitary ρ := by
  intro u hu
  have : u ∈ (ρ.sym.S.zip ρ.U).map Prod.snd := by rw [List.map_snd_zip (by rw [hl])]; exact hu
  obtain ⟨p, hp, rfl⟩ := List.mem_map.1 this
  obtain ⟨h1, h2⟩ := (hz p).1 hp
  rw [h2]
  exact hf _ h1

theorem axisSign_mul {a b : Mat ℚ 3} (ha : IsCubeRotation a) : axisSign (a * b) = axisSign a * axisSign b := by
  unfold axisSign
  rw [unsigned_mul ha.1, Matrix.det_mul]

theorem axisSign_one : axisSign 1 = 1 := by decide +kernel

/-- The three dimensional representations: what is to be shown for a sign that is a power of the sign of the permutation. -/
theorem dim3 (x : Except Err (Rep ℚ ℚ 3 3)) (χ : Mat ℚ 3 → ℚ) (k : ℕ) (hk : k = 0 ∨ k = 3)
    (hx : x = (do let σ ← Sym.cubic true; .ok ⟨σ, σ.S.map fun s => χ s • s, k⟩))
    (ψ : Mat ℚ 3 → ℚ) (hψ : ∀ s, IsCubeRotation s → quarterSign s = axisSign s → χ s = ψ s) (h1 : ψ 1 = 1)
    (hm : ∀ a b, IsCubeRotation a → IsCubeRotation b → ψ (a * b) = ψ a * ψ b)
    (hsq : ∀ s, quarterSign s = axisSign s → ψ s * ψ s = 1) :
    ∃ ρ, x = .ok ρ ∧ Sym.cubic true = .ok ρ.sym ∧ IsRep ρ ∧ IsUnitary ρ ∧
      (∀ s u, (s, u) ∈ ρ.sym.S.zip ρ.U ↔ IsCubeRotation s ∧ u = ψ s • s) ∧ ρ.invSplit = k := by
  obtain ⟨σ, e, hi, hl, hn, hh, hS, hq, hu⟩ := cubic_S
  have hz : ∀ p, p ∈ σ.S.zip (σ.S.map fun s => χ s • s) ↔ IsCubeRotation p.1 ∧ p.2 = ψ p.1 • p.1 := by
    intro p
    rw [mem_zip_map_self, hS]
    constructor
    · rintro ⟨a, b⟩; exact ⟨a, by rw [b, hψ _ a (hq _ ((hS _).2 a))]⟩
    · rintro ⟨a, b⟩; exact ⟨a, by rw [b, hψ _ a (hq _ ((hS _).2 a))]⟩
  have hsq : ∀ s, IsCubeRotation s → ψ s * ψ s = 1 := fun s hs => hsq s (hq s ((hS s).2 hs))
  refine ⟨⟨σ, σ.S.map fun s => χ s • s, k⟩, by rw [hx, e]; rfl, e, ?_, ?_, fun s u => hz (s, u), rfl⟩
  · refine isRep_of (fun s => ψ s • s) (by simp) hn hz (by simp [h1]) (fun a b ha hb => ?_) hk
    simp only [hm a b ha hb, Matrix.smul_mul, Matrix.mul_smul, smul_smul]
    rw [mul_comm]
  · refine isUnitary_of (fun s => ψ s • s) (by simp) hz fun s hs => ?_
    simp only [Matrix.conjTranspose_smul, Matrix.smul_mul, Matrix.mul_smul, smul_smul, hu s ((hS s).2 hs)]
    simp [hsq s hs]

theorem quarterSign_sq (s : Mat ℚ 3) : quarterSign s * quarterSign s = 1 := by
  unfold quarterSign
  split <;> norm_num

/-- **C90** `o3`: each rotation of the cube is represented by its own matrix, the inversion by `-1`. -/
theorem C90_o3 : ∃ ρ, o3 = .ok ρ ∧ Sym.cubic true = .ok ρ.sym ∧ IsRep ρ ∧ IsUnitary ρ ∧
    (∀ s u, (s, u) ∈ ρ.sym.S.zip ρ.U ↔ IsCubeRotation s ∧ u = s) ∧ ρ.invSplit = 0 := by
  have := dim3 o3 (fun _ => 1) 0 (Or.inl rfl) (by simp [o3]) (fun _ => 1) (fun _ _ _ => rfl) rfl (by simp) (by simp)
  simpa only [one_smul] using this

/-- **C90** `so3`: each rotation of the cube is represented by its own matrix, the inversion by `1`. -/
theorem C90_so3 : ∃ ρ, so3 = .ok ρ ∧ Sym.cubic true = .ok ρ.sym ∧ IsRep ρ ∧ IsUnitary ρ ∧
    (∀ s u, (s, u) ∈ ρ.sym.S.zip ρ.U ↔ IsCubeRotation s ∧ u = s) ∧ ρ.invSplit = 3 := by
  have := dim3 so3 (fun _ => 1) 3 (Or.inr rfl) (by simp [so3]) (fun _ => 1) (fun _ _ _ => rfl) rfl (by simp) (by simp)
  simpa only [one_smul] using this

/-- **C90** `o3ri`: each rotation is represented by its own matrix times the sign of the permutation of the axes, the inversion
by `-1`. -/
theorem C90_o3ri : ∃ ρ, o3ri = .ok ρ ∧ Sym.cubic true = .ok ρ.sym ∧ IsRep ρ ∧ IsUnitary ρ ∧
    (∀ s u, (s, u) ∈ ρ.sym.S.zip ρ.U ↔ IsCubeRotation s ∧ u = axisSign s • s) ∧ ρ.invSplit = 0 :=
  dim3 o3ri quarterSign 0 (Or.inl rfl) rfl axisSign (fun _ _ h => h) axisSign_one (fun _ _ ha _ => axisSign_mul ha)
    (fun s h => by rw [← h, quarterSign_sq])

/-- **C90** `o3r`: as `o3ri` with inversion `1`. -/
theorem C90_o3r : ∃ ρ, o3r = .ok ρ ∧ Sym.cubic true = .ok ρ.sym ∧ IsRep ρ ∧ IsUnitary ρ ∧
    (∀ s u, (s, u) ∈ ρ.sym.S.zip ρ.U ↔ IsCubeRotation s ∧ u = axisSign s • s) ∧ ρ.invSplit = 3 :=
  dim3 o3r quarterSign 3 (Or.inr rfl) rfl axisSign (fun _ _ h => h) axisSign_one (fun _ _ ha _ => axisSign_mul ha)
    (fun s h => by rw [← h, quarterSign_sq])

example : IsCubeRotation !![0, 1, 0; -1, 0, 0; 0, 0, 1] ∧ axisSign !![0, 1, 0; -1, 0, 0; 0, 0, 1] = -1 ∧
    axisSign !![-1, 0, 0; 0, -1, 0; 0, 0, 1] = 1 :=
  ⟨⟨Named.isSP_iff.1 (by decide +kernel), by decide +kernel⟩, by decide +kernel, by decide +kernel⟩

/-! ## Representations given by generators -/

/-- The quarter turns about the axes. -/
def turns : List (Mat ℚ 3) :=
  [!![1, 0, 0; 0, 0, 1; 0, -1, 0], !![0, 0, -1; 0, 1, 0; 1, 0, 0], !![0, 1, 0; -1, 0, 0; 0, 0, 1]]

/-- All products of `n` quarter turns. -/
def words : ℕ → List (Mat ℚ 3)
  | 0 => [1]
  | n + 1 => turns.flatMap fun t => (words n).map fun x => t * x

theorem eval_words : okAnd (Sym.cubic true) (fun σ => σ.S.all fun s => (List.range 5).any fun n => decide (s ∈ words n)) = true := by
  decide +kernel

theorem turns_rot : ∀ t ∈ turns, IsCubeRotation t := by
  intro t ht
  have h1 : turns.all (fun t => Named.isSP t && decide (t.det = 1)) = true := by decide +kernel
  have := List.all_eq_true.1 h1 t ht
  rw [Bool.and_eq_true, decide_eq_true_eq] at this
  exact ⟨Named.isSP_iff.1 this.1, this.2⟩

theorem rot_words {s : Mat ℚ 3} (hs : IsCubeRotation s) : ∃ n, s ∈ words n := by
  obtain ⟨σ, e, -, -, -, -, hS, -⟩ := cubic_S
  obtain ⟨σ', h3, h4⟩ := okAnd_iff.1 eval_words
  rw [e] at h3
  obtain rfl := Except.ok.inj h3
  have := List.all_eq_true.1 h4 s ((hS s).2 hs)
  obtain ⟨n, -, hn⟩ := List.any_eq_true.1 this
  exact ⟨n, of_decide_eq_true hn⟩

/-- The representation generated by the identity and the three quarter turns, from a function that is multiplicative on the
rotations. -/
theorem gen_rep {F : Type} [Field F] [StarRing F] [DecidableEq F] {N : ℕ} (G : List (Mat ℚ 3 × Mat F N)) (f : Mat ℚ 3 → Mat F N)
    (h1 : G.head? = some (1, 1)) (hnd : (G.map Prod.fst).Nodup) (hG : ∀ g ∈ G, IsCubeRotation g.1 ∧ g.2 = f g.1)
    (ht : ∀ t ∈ turns, t ∈ G.map Prod.fst) (hf1 : f 1 = 1)
    (hm : ∀ a b, IsCubeRotation a → IsCubeRotation b → f (a * b) = f a * f b)
    (hu : ∀ s, IsCubeRotation s → f s * (f s).conjTranspose = 1) (inversion negate : Bool) :
    ∃ ρ, fromGenerator G inversion negate = .ok ρ ∧ IsRep ρ ∧ IsUnitary ρ ∧ ρ.sym.inversion = inversion ∧
      (∀ s u, (s, u) ∈ ρ.sym.S.zip ρ.U ↔ IsCubeRotation s ∧ u = f s) ∧ ρ.invSplit = if negate then 0 else N := by
  have hsub : ∀ p ∈ Products G, IsCubeRotation p.1 ∧ p.2 = f p.1 := by
    rintro ⟨s, u⟩ ⟨l, hl, hs, hu'⟩
    simp only at hs hu' ⊢
    subst hs hu'
    clear * - hG hl hf1 hm
    induction l with
    | nil => exact ⟨rot_one, by simpa using hf1.symm⟩
    | cons g l ih =>
      have hg := hG g (hl g List.mem_cons_self)
      have ih := ih fun x hx => hl x (List.mem_cons_of_mem _ hx)
      simp only [List.map_cons, List.prod_cons]
      exact ⟨rot_mul hg.1 ih.1, by rw [hg.2, ih.2, hm _ _ hg.1 ih.1]⟩
  have hsup : ∀ s, IsCubeRotation s → (s, f s) ∈ Products G := by
    intro s hs
    obtain ⟨n, hn⟩ := rot_words hs
    have key : ∀ n s, s ∈ words n → ∃ l : List (Mat ℚ 3 × Mat F N), (∀ g ∈ l, g ∈ G) ∧ (l.map Prod.fst).prod = s := by
      intro n
      induction n with
      | zero =>
        intro s hs
        rw [words, List.mem_singleton] at hs
        exact ⟨[], by simp, by simp [hs]⟩
      | succ n ih =>
        intro s hs
        obtain ⟨t, ht', hx⟩ := List.mem_flatMap.1 hs
        obtain ⟨x, hx', rfl⟩ := List.mem_map.1 hx
        obtain ⟨l, hl, rfl⟩ := ih x hx'
        obtain ⟨g, hg, rfl⟩ := List.mem_map.1 (ht t ht')
        exact ⟨g :: l, by
          intro y hy
          rcases List.mem_cons.1 hy with rfl | hy
          · exact hg
          · exact hl y hy, by simp⟩
    obtain ⟨l, hl, rfl⟩ := key n s hn
    refine ⟨l, hl, rfl, ?_⟩
    exact (hsub (_, _) ⟨l, hl, rfl, rfl⟩).2
  obtain ⟨σ, e, hi, hlen, hn, hh, hS, hq, -⟩ := cubic_S
  have hPeq : Products G = {p | p ∈ σ.S.map fun s => (s, f s)} := by
    ext p
    simp only [Set.mem_ofPred_eq, List.mem_map]
    constructor
    · intro hp
      obtain ⟨a, b⟩ := hsub p hp
      exact ⟨p.1, (hS _).2 a, Prod.ext rfl b.symm⟩
    · rintro ⟨s, hs, rfl⟩
      exact hsup s ((hS s).1 hs)
  have hfin : (Products G).Finite := by rw [hPeq]; exact List.finite_toSet _
  obtain ⟨ρ, hρ⟩ := (C79_from_generator_returns_iff G inversion negate h1 hnd).2 ⟨fun g hg => by rw [(hG g hg).1.2]; simp, hfin, by
      rw [hPeq]
      calc _ ≤ (σ.S.map fun s => (s, f s)).length := by
            have := Set.ncard_coe_finset (List.toFinset (σ.S.map fun s => (s, f s)))
            rw [List.coe_toFinset] at this
            rw [this]
            exact List.toFinset_card_le _
        _ < 1000 := by rw [List.length_map, hlen]; norm_num, fun p hp q hq h => by rw [(hsub p hp).2, (hsub q hq).2, h]⟩
  obtain ⟨a1, a2, a3, a4, a5, a6, a7, a8⟩ := C79_from_generator G inversion negate ρ h1 hnd (fun _ p hp h => by
    have := (hsub p hp).1.2
    rw [h, neg_det3, Matrix.det_one] at this
    norm_num at this) (by norm_num) hρ
  have hz : ∀ p, p ∈ ρ.sym.S.zip ρ.U ↔ IsCubeRotation p.1 ∧ p.2 = f p.1 := by
    intro p
    rw [a4]
    exact ⟨hsub p, fun h => by
      have := hsup p.1 h.1
      rwa [← h.2] at this⟩
  refine ⟨ρ, hρ, ?_, isUnitary_of f a1 hz hu, a7, fun s u => hz (s, u), a8⟩
  refine isRep_of f a1 a2 hz hf1 hm ?_
  rw [a8]
  cases negate <;> simp

theorem rot_orth {s : Mat ℚ 3} (hs : IsCubeRotation s) : s * s.transpose = 1 ∧ quarterSign s = axisSign s := by
  obtain ⟨σ, e, -, -, -, -, hS, hq, hu⟩ := cubic_S
  refine ⟨?_, hq s ((hS s).2 hs)⟩
  have := hu s ((hS s).2 hs)
  rwa [Matrix.conjTranspose_eq_transpose_of_trivial] at this

/-- **C90** `one_dim(invert, negate_inversion, inversion)`: every rotation of the cube is represented by `1`, or with `invert` by
the sign of the permutation of the axes. -/
theorem C90_one_dim (invert negate inversion : Bool) : ∃ ρ, oneDim invert negate inversion = .ok ρ ∧ IsRep ρ ∧ IsUnitary ρ ∧
    ρ.sym.inversion = inversion ∧
    (∀ s u, (s, u) ∈ ρ.sym.S.zip ρ.U ↔ IsCubeRotation s ∧ u = !![if invert then axisSign s else 1]) ∧
    ρ.invSplit = if negate then 0 else 1 := by
  have hmul : ∀ x y : ℚ, (!![x * y] : Mat ℚ 1) = !![x] * !![y] := by
    intro x y; ext i j; fin_cases i; fin_cases j; simp
  have hone : (!![(1 : ℚ)] : Mat ℚ 1) = 1 := by decide +kernel
  refine gen_rep (oneDimGen invert) (fun s => !![if invert then axisSign s else 1]) ?_ ?_ ?_ ?_ ?_ ?_ ?_ inversion negate
  · cases invert <;> decide +kernel
  · cases invert <;> decide +kernel
  · have h1 : ∀ invert, (oneDimGen invert).all (fun g => Named.isSP g.1 && decide (g.1.det = 1) &&
        decide (g.2 = !![if invert then axisSign g.1 else 1])) = true := by decide +kernel
    intro g hg
    have := List.all_eq_true.1 (h1 invert) g hg
    simp only [Bool.and_eq_true, decide_eq_true_eq] at this
    exact ⟨⟨Named.isSP_iff.1 this.1.1, this.1.2⟩, this.2⟩
  · cases invert <;> decide +kernel
  · cases invert <;> decide +kernel
  · intro a b ha hb
    cases invert
    · simp only [Bool.false_eq_true, if_false]; rw [← hmul, one_mul]
    · simp only [if_true]; rw [← hmul, axisSign_mul ha]
  · intro s hs
    have ht : ∀ x : ℚ, (!![x] : Mat ℚ 1).conjTranspose = !![x] := by
      intro x; ext i j; fin_cases i; fin_cases j; simp
    rw [ht, ← hmul]
    cases invert
    · simp [hone]
    · simp only [if_true]
      rw [← (rot_orth hs).2, quarterSign_sq, hone]

/-- **C90** `d3(negate_inversion, inversion, sqrt3)` with an exact root: every rotation of the cube acts as on the two functions
`(2z²-x²-y²)/√6` and `(x²-y²)/√2`. -/
theorem C90_d3 {F : Type} [Field F] [StarRing F] [DecidableEq F] [CharZero F] (w : F) (hw : w * w = 3) (hr : star w = w)
    (negate inversion : Bool) : ∃ ρ, d3 negate inversion w = .ok ρ ∧ IsRep ρ ∧ IsUnitary ρ ∧ ρ.sym.inversion = inversion ∧
    (∀ s u, (s, u) ∈ ρ.sym.S.zip ρ.U ↔ IsCubeRotation s ∧ u = egMatrix w (squares F s)) ∧
    ρ.invSplit = if negate then 0 else 2 := by
  have hs1 : squares F 1 = 1 := by
    ext i j
    simp only [squares, Matrix.of_apply, Matrix.one_apply]
    split <;> simp
  refine gen_rep (d3Gen w) (fun s => egMatrix w (squares F s)) ?_ ?_ ?_ ?_ ?_ ?_ ?_ inversion negate
  · have e1 : (!![1, 0, 0; 0, 1, 0; 0, 0, 1] : Mat ℚ 3) = 1 := by decide +kernel
    have e2 : (!![1, 0; 0, 1] : Mat F 2) = 1 := by
      ext i j; fin_cases i <;> fin_cases j <;> simp
    simp only [d3Gen, List.head?_cons, e1, e2]
  · simp only [d3Gen, List.map_cons, List.map_nil]
    decide +kernel
  · intro g hg
    have hrot : IsCubeRotation g.1 := by
      have h2 : g.1 ∈ (d3Gen w).map Prod.fst := List.mem_map.2 ⟨g, hg, rfl⟩
      simp only [d3Gen, List.map_cons, List.map_nil] at h2
      have h3 : ([!![1, 0, 0; 0, 1, 0; 0, 0, 1], !![0, 1, 0; -1, 0, 0; 0, 0, 1], !![0, 0, -1; 0, 1, 0; 1, 0, 0],
        !![1, 0, 0; 0, 0, 1; 0, -1, 0]] : List (Mat ℚ 3)).all (fun t => Named.isSP t && decide (t.det = 1)) = true := by decide +kernel
      have := List.all_eq_true.1 h3 _ h2
      simp only [Bool.and_eq_true, decide_eq_true_eq] at this
      exact ⟨Named.isSP_iff.1 this.1, this.2⟩
    refine ⟨hrot, ?_⟩
    simp only [d3Gen, List.mem_cons, List.not_mem_nil, or_false] at hg
    rw [egMatrix_eq]
    rcases hg with rfl | rfl | rfl | rfl <;> ext i j <;> fin_cases i <;> fin_cases j <;> simp [squares] <;> ring
  · simp only [d3Gen, List.map_cons, List.map_nil]
    decide +kernel
  · simp only [hs1, egMatrix_one]
  · intro a b ha hb
    rw [squares_mul ha.1, egMatrix_mul hw (squares_row ha.1)]
  · intro s hs
    rw [egMatrix_conjTranspose hr, ← egMatrix_mul hw (squares_row hs.1)]
    have : (squares F s).conjTranspose = squares F s.transpose := by
      ext i j
      simp only [squares, Matrix.conjTranspose_apply, Matrix.of_apply, Matrix.transpose_apply]
      exact star_ratCast _
    rw [this, ← squares_mul hs.1, (rot_orth hs).1, hs1, egMatrix_one]

example : ∃ w : ℝ, w * w = 3 ∧ star w = w := ⟨√3, Real.mul_self_sqrt (by norm_num), by simp⟩

/-- A matrix that commutes with all rotations of the cube is a multiple of the identity. -/
theorem scalar_of_commute (M : Mat ℚ 3) (h : ∀ s, IsCubeRotation s → s * M = M * s) : ∃ c : ℚ, M = c • 1 := by
  have rot : ∀ s : Mat ℚ 3, (Named.isSP s && decide (s.det = 1)) = true → IsCubeRotation s := fun s hs => by
    rw [Bool.and_eq_true, decide_eq_true_eq] at hs
    exact ⟨Named.isSP_iff.1 hs.1, hs.2⟩
  have hz := h !![-1, 0, 0; 0, -1, 0; 0, 0, 1] (rot _ (by decide +kernel))
  have hx := h !![1, 0, 0; 0, -1, 0; 0, 0, -1] (rot _ (by decide +kernel))
  have hc := h !![0, 1, 0; 0, 0, 1; 1, 0, 0] (rot _ (by decide +kernel))
  have e := fun i j => congrFun (congrFun hz i) j
  have e' := fun i j => congrFun (congrFun hx i) j
  have e'' := fun i j => congrFun (congrFun hc i) j
  have z02 := e 0 2
  have z12 := e 1 2
  have z20 := e 2 0
  have z21 := e 2 1
  have z01 := e' 0 1
  have z10 := e' 1 0
  have c01 := e'' 0 1
  have c12 := e'' 1 2
  simp [Matrix.mul_apply, Fin.sum_univ_three] at z02 z12 z20 z21 z01 z10 c01 c12
  refine ⟨M 0 0, ?_⟩
  ext i j
  fin_cases i <;> fin_cases j <;> simp <;> linarith

/-- **C90** The three dimensional named representations are irreducible: only multiples of the identity commute with all
matrices. -/
theorem C90_irreducible3 : ∀ x ∈ [o3, so3, o3ri, o3r], ∃ ρ, x = .ok ρ ∧
    ∀ M, (∀ u ∈ ρ.U, u * M = M * u) → ∃ c : ℚ, M = c • 1 := by
  have key : ∀ x : Except Err (Rep ℚ ℚ 3 3), ∀ ψ : Mat ℚ 3 → ℚ, (∀ s, IsCubeRotation s → ψ s * ψ s = 1) →
      (∃ ρ, x = .ok ρ ∧ ∀ s u, (s, u) ∈ ρ.sym.S.zip ρ.U ↔ IsCubeRotation s ∧ u = ψ s • s) →
      ∃ ρ, x = .ok ρ ∧ ∀ M, (∀ u ∈ ρ.U, u * M = M * u) → ∃ c : ℚ, M = c • 1 := by
    rintro x ψ hψ ⟨ρ, hx, hz⟩
    refine ⟨ρ, hx, fun M hM => scalar_of_commute M fun s hs => ?_⟩
    have := hM (ψ s • s) (List.of_mem_zip ((hz s _).2 ⟨hs, rfl⟩)).2
    rw [Matrix.smul_mul, Matrix.mul_smul] at this
    have h2 := congrArg (ψ s • ·) this
    simpa [smul_smul, hψ s hs] using h2
  have hsq : ∀ s, IsCubeRotation s → axisSign s * axisSign s = 1 := fun s hs => by
    rw [← (rot_orth hs).2, quarterSign_sq]
  intro x hx
  simp only [List.mem_cons, List.not_mem_nil, or_false] at hx
  rcases hx with rfl | rfl | rfl | rfl
  · obtain ⟨ρ, h1, -, -, -, h2, -⟩ := C90_o3
    exact key _ (fun _ => 1) (by simp) ⟨ρ, h1, by simpa only [one_smul] using h2⟩
  · obtain ⟨ρ, h1, -, -, -, h2, -⟩ := C90_so3
    exact key _ (fun _ => 1) (by simp) ⟨ρ, h1, by simpa only [one_smul] using h2⟩
  · obtain ⟨ρ, h1, -, -, -, h2, -⟩ := C90_o3ri
    exact key _ axisSign hsq ⟨ρ, h1, h2⟩
  · obtain ⟨ρ, h1, -, -, -, h2, -⟩ := C90_o3r
    exact key _ axisSign hsq ⟨ρ, h1, h2⟩

/-- **C90** The two dimensional representation is irreducible. -/
theorem C90_irreducible2 {F : Type} [Field F] [StarRing F] [DecidableEq F] [CharZero F] (w : F) (hw : w * w = 3) (hr : star w = w)
    (negate inversion : Bool) : ∃ ρ, d3 negate inversion w = .ok ρ ∧
    ∀ M, (∀ u ∈ ρ.U, u * M = M * u) → ∃ c : F, M = c • 1 := by
  obtain ⟨ρ, h1, -, -, -, hz, -⟩ := C90_d3 w hw hr negate inversion
  refine ⟨ρ, h1, fun M hM => ?_⟩
  have hmem : ∀ s, IsCubeRotation s → egMatrix w (squares F s) ∈ ρ.U := fun s hs => (List.of_mem_zip ((hz s _).2 ⟨hs, rfl⟩)).2
  have a := hM _ (hmem _ (turns_rot !![0, 1, 0; -1, 0, 0; 0, 0, 1] (by simp [turns])))
  have b := hM _ (hmem _ (turns_rot !![0, 0, -1; 0, 1, 0; 1, 0, 0] (by simp [turns])))
  rw [egMatrix_eq] at a b
  have a01 := congrFun (congrFun a 0) 1
  have a10 := congrFun (congrFun a 1) 0
  have b01 := congrFun (congrFun b 0) 1
  simp [Matrix.mul_apply, Fin.sum_univ_two, squares] at a01 a10 b01
  have hw0 : w ≠ 0 := by rintro rfl; norm_num at hw
  have h2 : (2 : F) ≠ 0 := two_ne_zero
  have e01 : M 0 1 = 0 := by
    have : 2 * M 0 1 = 0 := by linear_combination a01
    exact (mul_eq_zero.1 this).resolve_left h2
  have e10 : M 1 0 = 0 := by
    have : 2 * M 1 0 = 0 := by linear_combination -a10
    exact (mul_eq_zero.1 this).resolve_left h2
  have e11 : M 1 1 = M 0 0 := by
    rw [e01] at b01
    have : w * (M 1 1 - M 0 0) = 0 := by linear_combination 2 * b01
    exact sub_eq_zero.1 ((mul_eq_zero.1 this).resolve_left hw0)
  refine ⟨M 0 0, ?_⟩
  ext i j
  fin_cases i <;> fin_cases j <;> simp [e01, e10, e11]

end TB.UR

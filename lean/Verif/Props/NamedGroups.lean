import Mathlib.Analysis.SpecialFunctions.Trigonometric.Basic
import Mathlib.Data.Fintype.Pi
import Mathlib.Tactic.FinCases
import Mathlib.Tactic.Linarith
import Verif.Model.NamedGroups
import Verif.Props.Symmetry

/-!
# Properties C77, C78: the named groups
-/

namespace TB.Named
open TB Matrix

/-! ## Specification -/

/-- A signed permutation matrix: entries `0`, `1`, `-1`, exactly one nonzero entry in each row and each column. -/
structure Spec.SignedPerm {n : ℕ} (M : Matrix (Fin n) (Fin n) ℚ) : Prop where
  entries : ∀ i j, M i j = 0 ∨ M i j = 1 ∨ M i j = -1
  row : ∀ i, ∃ j, M i j ≠ 0 ∧ ∀ j', M i j' ≠ 0 → j' = j
  col : ∀ j, ∃ i, M i j ≠ 0 ∧ ∀ i', M i' j ≠ 0 → i' = i

/-- The matrix without signs. -/
def Spec.unsigned {n : ℕ} (M : Matrix (Fin n) (Fin n) ℚ) : Matrix (Fin n) (Fin n) ℚ := Matrix.of fun i j => |M i j|

/-! ## Enumeration -/

/-- The matrix with entry `± 1` at `(i, f i)`. -/
def build {n : ℕ} (f : Fin n → Fin n) (s : Fin n → Bool) : Mat ℚ n :=
  Matrix.of fun i j => if j = f i then (if s i then -1 else 1) else 0

theorem SignedPerm.exists_build {n : ℕ} {M : Mat ℚ n} (h : Spec.SignedPerm M) :
    ∃ f : Fin n → Fin n, ∃ s : Fin n → Bool, (∀ i j, f i = f j → i = j) ∧ M = build f s := by
  choose f hf hf' using h.row
  refine ⟨f, fun i => decide (M i (f i) = -1), ?_, ?_⟩
  · intro i j hij
    obtain ⟨k, -, hk⟩ := h.col (f i)
    rw [hk i (hf i), hk j (by rw [hij]; exact hf j)]
  · ext i j
    simp only [build, Matrix.of_apply, decide_eq_true_eq]
    by_cases hj : j = f i
    · subst hj
      rw [if_pos rfl]
      rcases h.entries i (f i) with h' | h' | h'
      · exact absurd h' (hf i)
      · rw [h', if_neg (by norm_num)]
      · rw [h', if_pos rfl]
    · rw [if_neg hj]
      by_contra hne
      exact hj (hf' i j hne)

/-- Decidable form of `SignedPerm`. -/
def isSP {n : ℕ} (M : Mat ℚ n) : Bool :=
  let r := List.finRange n
  (r.all fun i => r.all fun j => decide (M i j = 0 ∨ M i j = 1 ∨ M i j = -1)) &&
  (r.all fun i => r.any fun j => decide (M i j ≠ 0) && r.all fun j' => decide (M i j' = 0) || decide (j' = j)) &&
  r.all fun j => r.any fun i => decide (M i j ≠ 0) && r.all fun i' => decide (M i' j = 0) || decide (i' = i)

theorem isSP_iff {n : ℕ} {M : Mat ℚ n} : isSP M = true ↔ Spec.SignedPerm M := by
  simp only [isSP, Bool.and_eq_true, List.all_eq_true, List.any_eq_true, List.mem_finRange, true_and, forall_const,
    decide_eq_true_eq, Bool.or_eq_true, or_iff_not_imp_left (a := M _ _ = 0) (b := _ = (_ : Fin n))]
  exact ⟨fun h => ⟨h.1.1, h.1.2, h.2⟩, fun h => ⟨⟨h.entries, h.row⟩, h.col⟩⟩

/-- All functions from `Fin n` to the members of a list. -/
def tuples {α : Type} (xs : List α) : (n : ℕ) → List (Fin n → α)
  | 0 => [Fin.elim0]
  | n + 1 => xs.flatMap fun a => (tuples xs n).map fun t => Fin.cons a t

theorem mem_tuples {α : Type} {xs : List α} (hx : ∀ a, a ∈ xs) : ∀ {n : ℕ} (t : Fin n → α), t ∈ tuples xs n
  | 0, t => by simp [tuples]; exact Subsingleton.elim _ _
  | n + 1, t => by
    simp only [tuples, List.mem_flatMap, List.mem_map]
    exact ⟨t 0, hx _, Fin.tail t, mem_tuples hx _, Fin.cons_self_tail t⟩

/-- All that has to be evaluated: the number of operations, that they are signed permutations with `P`, and that all those are
listed. -/
def full {n : ℕ} (x : Except Err (Sym ℚ n)) (len : ℕ) (P : Mat ℚ n → Bool) : Bool :=
  okAnd x fun σ => decide (σ.len = len) && decide σ.ops.Nodup && (σ.ops.all fun M => isSP M && P M) &&
    ((tuples (List.finRange n) n).all fun f => !decide (∀ i j, f i = f j → i = j) ||
      (tuples [true, false] n).all fun s => !P (build f s) || decide (build f s ∈ σ.ops))

theorem full_iff {n : ℕ} {x : Except Err (Sym ℚ n)} {len : ℕ} {P : Mat ℚ n → Bool} (h : full x len P = true) :
    ∃ σ, x = .ok σ ∧ σ.len = len ∧ σ.ops.Nodup ∧ ∀ M, M ∈ σ.ops ↔ Spec.SignedPerm M ∧ P M = true := by
  obtain _ | σ := x
  · simp [full, okAnd] at h
  have h' : (decide (σ.len = len) && decide σ.ops.Nodup && (σ.ops.all fun M => isSP M && P M) &&
    ((tuples (List.finRange n) n).all fun f => !decide (∀ i j, f i = f j → i = j) ||
      (tuples [true, false] n).all fun s => !P (build f s) || decide (build f s ∈ σ.ops))) = true := h
  rw [Bool.and_eq_true, Bool.and_eq_true, Bool.and_eq_true, decide_eq_true_eq, decide_eq_true_eq, List.all_eq_true,
    List.all_eq_true] at h'
  obtain ⟨⟨⟨h1, h2⟩, h3⟩, h4⟩ := h'
  have h3 := fun M hM => Bool.and_eq_true_iff.1 (h3 M hM)
  refine ⟨σ, rfl, h1, h2, fun M => ⟨fun hM => ⟨isSP_iff.1 (h3 M hM).1, (h3 M hM).2⟩, ?_⟩⟩
  rintro ⟨hM, hP⟩
  obtain ⟨f, s, hf, rfl⟩ := SignedPerm.exists_build hM
  have h5 := h4 f (mem_tuples (fun a => List.mem_finRange a) f)
  rw [decide_eq_true hf, Bool.not_true, Bool.false_or, List.all_eq_true] at h5
  have h6 := h5 s (mem_tuples (fun b => by cases b <;> simp) s)
  rw [hP, Bool.not_true, Bool.false_or, decide_eq_true_eq] at h6
  exact h6

set_option maxRecDepth 100000

theorem eval_cubic : full (Sym.cubic false) 24 (fun M => decide (M.det = 1)) = true := by decide +kernel
theorem eval_cubic_inv : full (Sym.cubic true) 48 (fun _ => true) = true := by decide +kernel
theorem eval_perm3 : full (Sym.perm3 false) 6 (fun M => decide (Spec.unsigned M = M)) = true := by decide +kernel
theorem eval_perm3_inv : full (Sym.perm3 true) 12 (fun M => decide (Spec.unsigned M = M ∨ Spec.unsigned M = -M)) = true := by
  decide +kernel
theorem eval_evenPerm3 :
    full (Sym.evenPerm3 false) 6 (fun M => decide (M.det = 1 ∧ (M *ᵥ ![1, 1, -1] = ![1, 1, -1] ∨ M *ᵥ ![1, 1, -1] = -![1, 1, -1]))) =
      true := by decide +kernel
theorem eval_evenPerm3_inv :
    full (Sym.evenPerm3 true) 12 (fun M => decide (M *ᵥ ![1, 1, -1] = ![1, 1, -1] ∨ M *ᵥ ![1, 1, -1] = -![1, 1, -1])) = true := by
  decide +kernel
theorem eval_mirror3 : full (Sym.mirror3 false) 4 (fun M => decide (Spec.unsigned M = 1 ∧ M.det = 1)) = true := by
  decide +kernel
theorem eval_mirror3_inv : full (Sym.mirror3 true) 8 (fun M => decide (Spec.unsigned M = 1)) = true := by decide +kernel
theorem eval_square : full Sym.square 8 (fun _ => true) = true := by decide +kernel
theorem eval_tetrahedral :
    full (Sym.tetrahedral false) 12 (fun M => decide (M.det = 1 ∧ (Spec.unsigned M).det = 1)) = true := by decide +kernel
theorem eval_tetrahedral_full : full (Sym.tetrahedral true) 24 (fun M => decide (M.det = 1)) = true := by decide +kernel

/-- **C77** `cubic` lists each signed permutation matrix once (48), without inversion those of determinant 1 (24). -/
theorem C77_cubic (inversion : Bool) : ∃ σ, Sym.cubic inversion = .ok σ ∧ σ.len = (if inversion then 48 else 24) ∧
    σ.ops.Nodup ∧ ∀ M, M ∈ σ.ops ↔ Spec.SignedPerm M ∧ (inversion = true ∨ M.det = 1) := by
  cases inversion
  · obtain ⟨σ, h1, h2, h3, h4⟩ := full_iff eval_cubic
    exact ⟨σ, h1, h2, h3, fun M => by rw [h4]; simp⟩
  · obtain ⟨σ, h1, h2, h3, h4⟩ := full_iff eval_cubic_inv
    exact ⟨σ, h1, h2, h3, fun M => by rw [h4]; simp⟩

/-- **C77** `perm3` lists each permutation matrix once (6), with inversion also their negatives (12). -/
theorem C77_perm3 (inversion : Bool) : ∃ σ, Sym.perm3 inversion = .ok σ ∧ σ.len = (if inversion then 12 else 6) ∧
    σ.ops.Nodup ∧ ∀ M, M ∈ σ.ops ↔ Spec.SignedPerm M ∧
      (Spec.unsigned M = M ∨ inversion = true ∧ Spec.unsigned M = -M) := by
  cases inversion
  · obtain ⟨σ, h1, h2, h3, h4⟩ := full_iff eval_perm3
    exact ⟨σ, h1, h2, h3, fun M => by rw [h4]; simp⟩
  · obtain ⟨σ, h1, h2, h3, h4⟩ := full_iff eval_perm3_inv
    exact ⟨σ, h1, h2, h3, fun M => by rw [h4]; simp⟩

/-- **C77** `even_perm3` lists the signed permutation matrices of determinant 1 that map the diagonal `(1, 1, -1)` to itself or its
negative (6), with inversion also those of determinant -1 (12). -/
theorem C77_even_perm3 (inversion : Bool) : ∃ σ, Sym.evenPerm3 inversion = .ok σ ∧
    σ.len = (if inversion then 12 else 6) ∧ σ.ops.Nodup ∧ ∀ M, M ∈ σ.ops ↔ Spec.SignedPerm M ∧
      (inversion = true ∨ M.det = 1) ∧ (M *ᵥ ![1, 1, -1] = ![1, 1, -1] ∨ M *ᵥ ![1, 1, -1] = -![1, 1, -1]) := by
  cases inversion
  · obtain ⟨σ, h1, h2, h3, h4⟩ := full_iff eval_evenPerm3
    exact ⟨σ, h1, h2, h3, fun M => by rw [h4]; simp only [decide_eq_true_eq, Bool.false_eq_true, false_or]⟩
  · obtain ⟨σ, h1, h2, h3, h4⟩ := full_iff eval_evenPerm3_inv
    exact ⟨σ, h1, h2, h3, fun M => by rw [h4]; simp only [decide_eq_true_eq, true_or, true_and]⟩

/-- **C77** `mirror3` lists the diagonal matrices with entries `±1` of determinant 1 (4), with inversion all of them (8). -/
theorem C77_mirror3 (inversion : Bool) : ∃ σ, Sym.mirror3 inversion = .ok σ ∧ σ.len = (if inversion then 8 else 4) ∧
    σ.ops.Nodup ∧ ∀ M, M ∈ σ.ops ↔ Spec.SignedPerm M ∧ Spec.unsigned M = 1 ∧ (inversion = true ∨ M.det = 1) := by
  cases inversion
  · obtain ⟨σ, h1, h2, h3, h4⟩ := full_iff eval_mirror3
    exact ⟨σ, h1, h2, h3, fun M => by rw [h4]; simp⟩
  · obtain ⟨σ, h1, h2, h3, h4⟩ := full_iff eval_mirror3_inv
    exact ⟨σ, h1, h2, h3, fun M => by rw [h4]; simp⟩

/-- **C77** `square` lists each signed permutation matrix of the plane once (8). -/
theorem C77_square : ∃ σ, Sym.square = .ok σ ∧ σ.len = 8 ∧ σ.ops.Nodup ∧ ∀ M, M ∈ σ.ops ↔ Spec.SignedPerm M := by
  obtain ⟨σ, h1, h2, h3, h4⟩ := full_iff eval_square
  exact ⟨σ, h1, h2, h3, fun M => by rw [h4]; simp⟩

/-- **C77** `tetrahedral` lists the signed permutation matrices of determinant 1, without `full` those with an even
permutation. -/
theorem C77_tetrahedral (full' : Bool) : ∃ σ, Sym.tetrahedral full' = .ok σ ∧ σ.len = (if full' then 24 else 12) ∧
    σ.ops.Nodup ∧ ∀ M, M ∈ σ.ops ↔ Spec.SignedPerm M ∧ M.det = 1 ∧ (full' = true ∨ (Spec.unsigned M).det = 1) := by
  cases full'
  · obtain ⟨σ, h1, h2, h3, h4⟩ := full_iff eval_tetrahedral
    exact ⟨σ, h1, h2, h3, fun M => by rw [h4]; simp⟩
  · obtain ⟨σ, h1, h2, h3, h4⟩ := full_iff eval_tetrahedral_full
    exact ⟨σ, h1, h2, h3, fun M => by rw [h4]; simp⟩

end TB.Named

import Mathlib.LinearAlgebra.FiniteDimensional.Lemmas
import Mathlib.LinearAlgebra.Dimension.Constructions
import Mathlib.LinearAlgebra.Matrix.DotProduct
import Mathlib.Tactic.FieldSimp
import Mathlib.Tactic.LinearCombination
import Verif.Model.Linalg

/-! # Lemmas about the conjugate gradient loop -/

set_option linter.unusedSectionVars false

namespace TB
open Matrix

/-- The map `A` handed to the solver is linear, symmetric and positive definite. -/
structure Spec.IsSPD {K : Type} [Field K] [LinearOrder K] {n : ℕ} (A : (Fin n → K) → Fin n → K) : Prop where
  add : ∀ x y, A (x + y) = A x + A y
  smul : ∀ (c : K) x, A (c • x) = c • A x
  symm : ∀ x y, ∑ j, x j * A y j = ∑ j, A x j * y j
  pos : ∀ x, x ≠ 0 → 0 < ∑ j, x j * A x j

variable {K : Type} [Field K] [LinearOrder K] [IsStrictOrderedRing K] {n : ℕ}

/-- The state update of the loop without the stopping tests. -/
def cgNext (A : (Fin n → K) → Fin n → K) (s : CG K n) : CG K n :=
  let alpha := s.rSqr / ∑ j, s.d j * A s.d j
  let r := s.r - alpha • A s.d
  ⟨s.x - alpha • s.d, r, ((∑ j, r j * r j) / s.rSqr) • s.d + r, ∑ j, r j * r j, s.i + 1⟩

theorem cgStep_eq (A : (Fin n → K) → Fin n → K) (err : K) (maxI : ℕ) (s : CG K n) :
    cgStep A err maxI s = if (∑ j, s.d j * A s.d j) = 0 then .inl s.x
      else if s.rSqr ≤ err ^ 2 then .inl (cgNext A s).x
      else if s.i > maxI then .inl (cgNext A s).x else .inr (cgNext A s) := rfl

namespace CGProof
variable {A : (Fin n → K) → Fin n → K} (hA : Spec.IsSPD A)
include hA

theorem neg (x : Fin n → K) : A (-x) = -A x := by
  have := hA.smul (-1) x; simpa using this

theorem sub (x y : Fin n → K) : A (x - y) = A x - A y := by
  rw [sub_eq_add_neg, hA.add, neg hA, sub_eq_add_neg]

theorem dsymm (x y : Fin n → K) : x ⬝ᵥ A y = A x ⬝ᵥ y := hA.symm x y

/-- The sequence of states without the stopping tests. -/
def seq (A : (Fin n → K) → Fin n → K) (s : CG K n) : ℕ → CG K n
  | 0 => s
  | k + 1 => cgNext A (seq A s k)

omit hA in
theorem seq_succ' (s : CG K n) (k : ℕ) : seq A (cgNext A s) k = seq A s (k + 1) := by
  induction k with
  | zero => rfl
  | succ k ih => simp only [seq, ih]

/-- What holds at the start. -/
structure Start (A : (Fin n → K) → Fin n → K) (b : Fin n → K) (s : CG K n) : Prop where
  res : s.r = A s.x - b
  dir : s.d = s.r
  sq : s.rSqr = s.r ⬝ᵥ s.r

omit [IsStrictOrderedRing K] in
theorem start (b : Fin n → K) (x0 : Option (Fin n → K)) : Start A b (cgInit A b x0) := by
  cases x0 with
  | none =>
    refine ⟨?_, rfl, rfl⟩
    have : A 0 = 0 := by simpa using hA.smul 0 0
    simp [cgInit, this]
  | some x => exact ⟨rfl, rfl, rfl⟩

variable {b : Fin n → K} {s : CG K n} (hs : Start A b s)
include hs

theorem seq_sq (k : ℕ) : (seq A s k).rSqr = (seq A s k).r ⬝ᵥ (seq A s k).r := by
  cases k with
  | zero => exact hs.sq
  | succ k => rfl

/-- The maintained residual is `A x - b`. -/
theorem seq_res (k : ℕ) : (seq A s k).r = A (seq A s k).x - b := by
  induction k with
  | zero => exact hs.res
  | succ k ih =>
    simp only [seq, cgNext]
    rw [sub hA, hA.smul, ih]
    abel

theorem self_eq_zero {x : Fin n → K} : x ⬝ᵥ x = 0 ↔ x = 0 := dotProduct_self_eq_zero

/-- Orthogonality relations up to step `k`, provided the residuals before did not vanish. -/
theorem ortho (k : ℕ) (hnz : ∀ i < k, (seq A s i).r ≠ 0) :
    (∀ i < k, (seq A s i).r ⬝ᵥ (seq A s k).r = 0) ∧ (∀ i < k, (seq A s k).d ⬝ᵥ A (seq A s i).d = 0) ∧
    (seq A s k).d ⬝ᵥ (seq A s k).r = (seq A s k).r ⬝ᵥ (seq A s k).r := by
  induction k using Nat.strong_induction_on with
  | _ k ih =>
  cases k with
  | zero => refine ⟨by simp, by simp, ?_⟩; show s.d ⬝ᵥ s.r = _; rw [hs.dir]; rfl
  | succ k =>
    have ihk := ih k (by omega) fun i hi => hnz i (by omega)
    set r := fun i => (seq A s i).r with hr
    set d := fun i => (seq A s i).d with hd
    have hrk : r k ≠ 0 := hnz k (by omega)
    have hrr : r k ⬝ᵥ r k ≠ 0 := fun h => hrk ((self_eq_zero hA hs).1 h)
    have hdk : ∀ j ≤ k, d j ⬝ᵥ A (d j) ≠ 0 := by
      intro j hj
      refine (hA.pos (d j) fun h0 => ?_).ne'
      have := (ih j (by omega) fun i hi => hnz i (by omega)).2.2
      change d j ⬝ᵥ r j = r j ⬝ᵥ r j at this
      rw [h0, zero_dotProduct] at this
      exact hnz j (by omega) ((self_eq_zero hA hs).1 this.symm)
    have hr1 : ∀ i, r (i + 1) = r i - (r i ⬝ᵥ r i / (d i ⬝ᵥ A (d i))) • A (d i) := by
      intro i
      have := seq_sq hA hs i
      simp only [hr, hd, seq, cgNext, ← this]; rfl
    have hd1 : ∀ i, d (i + 1) = (r (i+1) ⬝ᵥ r (i+1) / (r i ⬝ᵥ r i)) • d i + r (i + 1) := by
      intro i
      have := seq_sq hA hs i
      simp only [hr, hd, seq, cgNext, ← this]; rfl
    -- the residual in terms of the directions
    have hAd : ∀ i ≤ k, d k ⬝ᵥ A (r i) = if i = k then d k ⬝ᵥ A (d k) else 0 := by
      intro i hi
      cases i with
      | zero =>
        have h0 : r 0 = d 0 := hs.dir.symm
        rw [h0]
        by_cases hk : 0 = k
        · subst hk; simp
        · rw [if_neg hk]; exact ihk.2.1 0 (by omega)
      | succ i =>
        have e : r (i + 1) = d (i + 1) - (r (i+1) ⬝ᵥ r (i+1) / (r i ⬝ᵥ r i)) • d i := by rw [hd1]; abel
        rw [e, sub hA, hA.smul, dotProduct_sub, dotProduct_smul]
        have h1 : d k ⬝ᵥ A (d i) = 0 := ihk.2.1 i (by omega)
        rw [h1, smul_zero, sub_zero]
        by_cases hk : i + 1 = k
        · subst hk; simp
        · rw [if_neg hk]; exact ihk.2.1 (i + 1) (by omega)
    have hnew : ∀ i < k + 1, r i ⬝ᵥ r (k + 1) = 0 := by
      intro i hi
      rw [hr1 k, dotProduct_sub, dotProduct_smul, dsymm hA (r i) (d k), dotProduct_comm (A (r i)), hAd i (by omega)]
      by_cases hk : i = k
      · subst hk
        rw [if_pos rfl, smul_eq_mul, div_mul_cancel₀ _ (hdk i le_rfl), sub_self]
      · rw [if_neg hk, smul_zero, sub_zero]; exact ihk.1 i (by omega)
    have hAdr : ∀ i ≤ k, (r i ⬝ᵥ r i / (d i ⬝ᵥ A (d i))) • A (d i) = r i - r (i + 1) := by
      intro i _; rw [hr1 i]; abel
    have hstep : ∀ i ≤ k, r (k + 1) ⬝ᵥ A (d i) =
        (d i ⬝ᵥ A (d i)) / (r i ⬝ᵥ r i) * (r (k + 1) ⬝ᵥ (r i - r (i + 1))) := by
      intro i hi
      have hri : r i ⬝ᵥ r i ≠ 0 := fun h => hnz i (by omega) ((self_eq_zero hA hs).1 h)
      have hdi := hdk i hi
      rw [← hAdr i hi, dotProduct_smul, smul_eq_mul]
      field_simp
    refine ⟨hnew, ?_, ?_⟩
    · intro i hi
      change d (k + 1) ⬝ᵥ A (d i) = 0
      rw [hd1 k, add_dotProduct, smul_dotProduct, hstep i (by omega), dotProduct_sub, dotProduct_comm (r (k + 1)) (r i),
        hnew i (by omega)]
      by_cases hk : i = k
      · subst hk
        rw [smul_eq_mul]
        have hdi := hdk i le_rfl
        field_simp
        ring
      · rw [show d k ⬝ᵥ A (d i) = 0 from ihk.2.1 i (by omega), dotProduct_comm (r (k + 1)) (r (i + 1)), hnew (i+1) (by omega)]
        simp
    · change d (k + 1) ⬝ᵥ r (k + 1) = r (k + 1) ⬝ᵥ r (k + 1)
      have h0 : d k ⬝ᵥ r (k + 1) = 0 := by
        rw [hr1 k, dotProduct_sub, dotProduct_smul, smul_eq_mul, div_mul_cancel₀ _ (hdk k le_rfl)]
        have := ihk.2.2
        change d k ⬝ᵥ r k = r k ⬝ᵥ r k at this
        rw [this, sub_self]
      conv_lhs => rw [hd1 k]
      rw [add_dotProduct, smul_dotProduct, h0, smul_zero, zero_add]

/-- One of the first `n + 1` residuals vanishes. -/
theorem exists_zero : ∃ k ≤ n, (seq A s k).r = 0 ∧ ∀ i < k, (seq A s i).r ≠ 0 := by
  by_contra hcon
  have hnz : ∀ k ≤ n, (seq A s k).r ≠ 0 := by
    intro k
    induction k using Nat.strong_induction_on with
    | _ k ih => exact fun hk h0 => hcon ⟨k, hk, h0, fun i hi => ih i hi (by omega)⟩
  have hli : LinearIndependent K fun i : Fin (n + 1) => (seq A s i).r := by
    rw [Fintype.linearIndependent_iff]
    intro g hg i
    have h1 := congrArg (fun v => (seq A s i).r ⬝ᵥ v) hg
    simp only [dotProduct_sum, dotProduct_smul, dotProduct_zero] at h1
    rw [Finset.sum_eq_single i] at h1
    · have h2 : (seq A s i).r ⬝ᵥ (seq A s i).r ≠ 0 := fun h => hnz i (by omega) ((self_eq_zero hA hs).1 h)
      exact (mul_eq_zero.1 h1).resolve_right h2
    · intro j _ hj
      have hij : (seq A s i).r ⬝ᵥ (seq A s j).r = 0 := by
        rcases lt_or_gt_of_ne (fun h => hj (Fin.ext h) : (j : ℕ) ≠ i) with h | h
        · rw [dotProduct_comm]; exact (ortho hA hs i fun l hl => hnz l (by omega)).1 j h
        · exact (ortho hA hs j fun l hl => hnz l (by omega)).1 i h
      rw [hij, smul_zero]
    · simp
  have := hli.fintype_card_le_finrank
  simp at this

/-- In the step where the residual first vanishes the direction vanishes. -/
theorem dir_zero {k : ℕ} (h0 : (seq A s k).r = 0) : (seq A s k).d = 0 := by
  cases k with
  | zero => show s.d = 0; rw [hs.dir]; exact h0
  | succ k =>
    have h1 : (seq A s (k+1)).rSqr = 0 := by rw [seq_sq hA hs, h0, zero_dotProduct]
    have e : (seq A s (k+1)).d = ((seq A s (k+1)).rSqr / (seq A s k).rSqr) • (seq A s k).d + (seq A s (k+1)).r := rfl
    rw [e, h1, h0]; simp

theorem dAd_ne {k : ℕ} (hnz : ∀ i ≤ k, (seq A s i).r ≠ 0) : (seq A s k).d ⬝ᵥ A (seq A s k).d ≠ 0 := by
  refine (hA.pos _ fun h0 => ?_).ne'
  have := (ortho hA hs k fun i hi => hnz i hi.le).2.2
  rw [h0, zero_dotProduct] at this
  exact hnz k le_rfl ((self_eq_zero hA hs).1 this.symm)

/-- The functional `x·Ax - 2 b·x` decreases by `(r·r)²/(d·Ad)` in one step. -/
theorem energy_step (k : ℕ) (hnz : ∀ i ≤ k, (seq A s i).r ≠ 0) :
    (seq A s (k+1)).x ⬝ᵥ A (seq A s (k+1)).x - 2 * (b ⬝ᵥ (seq A s (k+1)).x) =
      (seq A s k).x ⬝ᵥ A (seq A s k).x - 2 * (b ⬝ᵥ (seq A s k).x) -
        ((seq A s k).r ⬝ᵥ (seq A s k).r) ^ 2 / ((seq A s k).d ⬝ᵥ A (seq A s k).d) := by
  have hd := dAd_ne hA hs hnz
  have hr := (ortho hA hs k fun i hi => hnz i hi.le).2.2
  have e : (seq A s (k+1)).x = (seq A s k).x -
      ((seq A s k).r ⬝ᵥ (seq A s k).r / ((seq A s k).d ⬝ᵥ A (seq A s k).d)) • (seq A s k).d := by
    rw [← seq_sq hA hs]; rfl
  have hb : (seq A s k).d ⬝ᵥ b = (seq A s k).d ⬝ᵥ A (seq A s k).x - (seq A s k).r ⬝ᵥ (seq A s k).r := by
    rw [← hr, seq_res hA hs k, dotProduct_sub]; ring
  have hc : (seq A s k).x ⬝ᵥ A (seq A s k).d = (seq A s k).d ⬝ᵥ A (seq A s k).x := by
    rw [dsymm hA, dotProduct_comm]
  rw [e, sub hA, hA.smul]
  simp only [sub_dotProduct, dotProduct_sub, smul_dotProduct, dotProduct_smul, smul_eq_mul]
  rw [dotProduct_comm b (seq A s k).d, hb, hc]
  field_simp
  ring

theorem seq_i (k : ℕ) : (seq A s k).i = s.i + k := by
  induction k with
  | zero => rfl
  | succ k ih => show (seq A s k).i + 1 = _; rw [ih]; omega

end CGProof

/-- The loop stops after at most `maxI + 2 - i` passes. -/
theorem cgLoop_terminates (A : (Fin n → K) → Fin n → K) (err : K) (maxI fuel : ℕ) (s : CG K n)
    (h : maxI + 2 ≤ s.i + fuel) (hf : 0 < fuel) : ∃ x, cgLoop A err maxI fuel s = some x := by
  induction fuel generalizing s with
  | zero => omega
  | succ fuel ih =>
    rw [cgLoop, cgStep_eq]
    by_cases h1 : (∑ j, s.d j * A s.d j) = 0
    · rw [if_pos h1]; exact ⟨_, rfl⟩
    rw [if_neg h1]
    by_cases h2 : s.rSqr ≤ err ^ 2
    · rw [if_pos h2]; exact ⟨_, rfl⟩
    rw [if_neg h2]
    by_cases h3 : s.i > maxI
    · rw [if_pos h3]; exact ⟨_, rfl⟩
    rw [if_neg h3]
    have e : (cgNext A s).i = s.i + 1 := rfl
    exact ih _ (by rw [e]; omega) (by omega)

/-- What is returned: one of the iterates, with the reason for stopping. -/
theorem cgLoop_result (A : (Fin n → K) → Fin n → K) (err : K) (maxI fuel : ℕ) (s : CG K n) (x : Fin n → K)
    (h : cgLoop A err maxI fuel s = some x) :
    ∃ k < fuel, (∀ i < k, (CGProof.seq A s i).d ⬝ᵥ A (CGProof.seq A s i).d ≠ 0 ∧ err ^ 2 < (CGProof.seq A s i).rSqr) ∧
      (((CGProof.seq A s k).d ⬝ᵥ A (CGProof.seq A s k).d = 0 ∧ x = (CGProof.seq A s k).x) ∨
       ((CGProof.seq A s k).d ⬝ᵥ A (CGProof.seq A s k).d ≠ 0 ∧ x = (CGProof.seq A s (k + 1)).x ∧
        ((CGProof.seq A s k).rSqr ≤ err ^ 2 ∨ maxI < (CGProof.seq A s k).i))) := by
  induction fuel generalizing s with
  | zero => simp [cgLoop] at h
  | succ fuel ih =>
    rw [cgLoop, cgStep_eq] at h
    by_cases h1 : (∑ j, s.d j * A s.d j) = 0
    · rw [if_pos h1] at h
      exact ⟨0, by omega, by simp, .inl ⟨h1, (Option.some.inj h).symm⟩⟩
    rw [if_neg h1] at h
    by_cases h2 : s.rSqr ≤ err ^ 2
    · rw [if_pos h2] at h
      exact ⟨0, by omega, by simp, .inr ⟨h1, (Option.some.inj h).symm, .inl h2⟩⟩
    rw [if_neg h2] at h
    by_cases h3 : s.i > maxI
    · rw [if_pos h3] at h
      exact ⟨0, by omega, by simp, .inr ⟨h1, (Option.some.inj h).symm, .inr h3⟩⟩
    rw [if_neg h3] at h
    obtain ⟨k, hk, ha, hb⟩ := ih _ h
    refine ⟨k + 1, by omega, ?_, ?_⟩
    · intro i hi
      cases i with
      | zero => exact ⟨h1, not_le.1 h2⟩
      | succ i => rw [← CGProof.seq_succ']; exact ha i (by omega)
    · rw [← CGProof.seq_succ', ← CGProof.seq_succ']; exact hb

end TB

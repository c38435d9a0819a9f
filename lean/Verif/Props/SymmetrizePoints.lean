import Verif.Props.Symmetrizer

/-!
# Properties: `symmetrize2` (C87), `realize_symmetric_matrices` (C88), `check_symmetry` (C89)
-/

namespace TB.UR
open Spec Matrix

set_option linter.unusedSectionVars false

variable {K : Type} [Field K] [LinearOrder K] [IsStrictOrderedRing K] {d : ℕ}
variable {F : Type} [Field F] [StarRing F] [DecidableEq F] {N : ℕ}

/-! ## `symmetrize2` -/

/-- The matrix `M` at the position `r` is invariant under the operations that leave `r` fixed: `U M U^+ = M` if `S r = r`, and
with inversion `I U M U^+ I = M` if `-S r = r`. -/
def StabInvariant (ρ : Rep K F d N) (r : Fin d → K) (M : Mat F N) : Prop :=
  ∀ p ∈ ρ.sym.S.zip ρ.U,
    (p.1.mulVec r = r → p.2 * M * p.2.conjTranspose = M) ∧
    (ρ.sym.inversion = true → -p.1.mulVec r = r → ∀ a b,
      (if (a.val < ρ.invSplit ↔ b.val < ρ.invSplit) then 1 else -1) * (p.2 * M * p.2.conjTranspose) a b = M a b)

/-- The sum over the operations with a property. -/
def psum (Z : List (Mat K d × Mat F N)) (P : Mat K d → Bool) (M : Mat F N) : Mat F N :=
  ((Z.filter fun p => P p.1).map fun p => p.2 * M * p.2.conjTranspose).sum

theorem PairGroup.perm_mul_left {Z : List (Mat K d × Mat F N)} (h : PairGroup Z) {q} (hq : q ∈ Z) :
    (Z.map fun p => q * p).Perm Z := by
  have hinj : Function.Injective fun p : Mat K d × Mat F N => q * p := by
    intro a b hab
    have h1 : q.1 * a.1 = q.1 * b.1 := congrArg Prod.fst hab
    have h2 : q.2 * a.2 = q.2 * b.2 := congrArg Prod.snd hab
    refine Prod.ext ?_ ?_
    · have := congrArg (q.1⁻¹ * ·) h1
      simpa [← mul_assoc, Matrix.nonsing_inv_mul _ (h.det q hq)] using this
    · have := congrArg (q.2.conjTranspose * ·) h2
      simpa [← mul_assoc, h.unitary' hq] using this
  have hnd : (Z.map fun p => q * p).Nodup := h.nodup.map hinj
  refine (hnd.subperm ?_).perm_of_length_le (by simp)
  intro x hx
  obtain ⟨p, hp, rfl⟩ := List.mem_map.1 hx
  exact h.mul q hq p hp

theorem psum_mul {Z : List (Mat K d × Mat F N)} (h : PairGroup Z) {q} (hq : q ∈ Z) (P Q : Mat K d → Bool)
    (hPQ : ∀ p ∈ Z, P p.1 = Q (q.1 * p.1)) (M : Mat F N) :
    q.2 * psum Z P M * q.2.conjTranspose = psum Z Q M := by
  unfold psum
  rw [← list_sum_mul]
  have hp := ((h.perm_mul_left hq).filter fun p => Q p.1).map fun p => p.2 * M * p.2.conjTranspose
  rw [← hp.sum_eq]
  rw [List.filter_map, List.map_map]
  have : Z.filter ((fun p => Q p.1) ∘ fun p => q * p) = Z.filter fun p => P p.1 := by
    refine List.filter_congr fun p hp => ?_
    simp [hPQ p hp]
  rw [this]
  congr 1
  refine List.map_congr_left fun p _ => ?_
  simp only [Function.comp_apply, Prod.snd_mul, Matrix.conjTranspose_mul, Matrix.mul_assoc]

/-- The operations with `S r = r`. -/
def plusFix (r : Fin d → K) (s : Mat K d) : Bool := decide (s.mulVec r = r)
/-- The operations with `-S r = r`. -/
def minusFix (r : Fin d → K) (s : Mat K d) : Bool := decide (-s.mulVec r = r)

theorem foldl_add_eq {α : Type} (l : List α) (f : α → Mat F N) (a : Mat F N) :
    l.foldl (fun acc p => acc + f p) a = a + (l.map f).sum := by
  induction l generalizing a with
  | nil => simp
  | cons x l ih => simp [ih, add_assoc]

theorem symmetrize2_eq (ρ : Rep K F d N) (r : Fin d → K) (H : Mat F N) :
    ρ.symmetrize2 r H =
      (((if ρ.sym.inversion then ((ρ.sym.S.zip ρ.U).filter fun p => minusFix r p.1).length else 0) +
        ((ρ.sym.S.zip ρ.U).filter fun p => plusFix r p.1).length : ℕ) : F)⁻¹ •
      ((if ρ.sym.inversion then flipBlocks ρ.invSplit (psum (ρ.sym.S.zip ρ.U) (minusFix r) H) else 0) +
        psum (ρ.sym.S.zip ρ.U) (plusFix r) H) := by
  have e1 : ∀ p : Mat K d × Mat F N, decide (((1 : K) • p.1).mulVec r = r) = plusFix r p.1 := by
    intro p; simp [plusFix]
  have e2 : ∀ p : Mat K d × Mat F N, decide (((-1 : K) • p.1).mulVec r = r) = minusFix r p.1 := by
    intro p; simp [minusFix, Matrix.neg_mulVec]
  unfold Rep.symmetrize2
  simp only [e1, e2, foldl_add_eq]
  by_cases hi : ρ.sym.inversion = true
  · simp [hi, psum]
  · simp only [hi]
    congr 2
    simp [flipBlocks_eq]

theorem mulVec_cancel {q : Mat K d} (hq : IsUnit q.det) {x y : Fin d → K} : q.mulVec x = q.mulVec y ↔ x = y := by
  refine ⟨fun h => ?_, fun h => by rw [h]⟩
  have := congrArg (q⁻¹).mulVec h
  simpa [Matrix.mulVec_mulVec, Matrix.nonsing_inv_mul _ hq] using this

/-- **C87** The result of `symmetrize2` is invariant under all operations that leave the position fixed. -/
theorem C87_invariant [CharZero F] (ρ : Rep K F d N) (hρ : IsRep ρ) (hu : IsUnitary ρ) (hc : ρ.sym.Constructed) (r : Fin d → K) (H : Mat F N) :
    StabInvariant ρ r (ρ.symmetrize2 r H) := by
  have hg := pairGroup_of ρ hρ hu hc
  rw [symmetrize2_eq]
  intro q hq
  have hd := hg.det q hq
  constructor
  · intro h
    rw [Matrix.mul_smul, Matrix.smul_mul, Matrix.mul_add, Matrix.add_mul]
    have h1 := psum_mul hg hq (plusFix r) (plusFix r) (fun p _ => by
      simp only [plusFix, ← Matrix.mulVec_mulVec, decide_eq_decide]
      conv_rhs => rw [show (q.1.mulVec (p.1.mulVec r) = r) = (q.1.mulVec (p.1.mulVec r) = q.1.mulVec r) by rw [h]]
      exact (mulVec_cancel hd).symm) H
    rw [h1]
    congr 2
    split
    · rename_i hi
      rw [← (conj_flip ρ hρ hi hq _).2.1]
      congr 1
      refine psum_mul hg hq (minusFix r) (minusFix r) (fun p _ => ?_) H
      simp only [minusFix, ← Matrix.mulVec_mulVec, decide_eq_decide, ← Matrix.mulVec_neg]
      conv_rhs => rw [show (q.1.mulVec (p.1.mulVec (-r)) = r) = (q.1.mulVec (p.1.mulVec (-r)) = q.1.mulVec r) by rw [h]]
      exact (mulVec_cancel hd).symm
    · simp
  · intro hi h a b
    have key : flipBlocks ρ.invSplit (q.2 * (flipBlocks ρ.invSplit (psum (ρ.sym.S.zip ρ.U) (minusFix r) H) +
        psum (ρ.sym.S.zip ρ.U) (plusFix r) H) * q.2.conjTranspose) =
        flipBlocks ρ.invSplit (psum (ρ.sym.S.zip ρ.U) (minusFix r) H) + psum (ρ.sym.S.zip ρ.U) (plusFix r) H := by
      rw [Matrix.mul_add, Matrix.add_mul, ← (conj_flip ρ hρ hi hq _).2.1]
      have hr : q.1.mulVec (-r) = r := by rw [Matrix.mulVec_neg]; exact h
      rw [psum_mul hg hq (minusFix r) (plusFix r) (fun p _ => by
          simp only [minusFix, plusFix, ← Matrix.mulVec_mulVec, decide_eq_decide]
          conv_rhs => rw [show (q.1.mulVec (p.1.mulVec r) = r) = (q.1.mulVec (p.1.mulVec r) = q.1.mulVec (-r)) by rw [hr]]
          rw [mulVec_cancel hd, neg_eq_iff_eq_neg]),
        psum_mul hg hq (plusFix r) (minusFix r) (fun p _ => by
          simp only [minusFix, plusFix, ← Matrix.mulVec_mulVec, decide_eq_decide, ← Matrix.mulVec_neg]
          conv_rhs => rw [show (q.1.mulVec (p.1.mulVec (-r)) = r) = (q.1.mulVec (p.1.mulVec (-r)) = q.1.mulVec (-r)) by rw [hr]]
          rw [mulVec_cancel hd, Matrix.mulVec_neg, neg_inj]), flip_add]
      rw [add_comm]
      congr 1
      rw [flipBlocks_eq, flipBlocks_eq]
      calc _ = (invOp N ρ.invSplit * invOp N ρ.invSplit) * psum (ρ.sym.S.zip ρ.U) (plusFix r) H *
            (invOp N ρ.invSplit * invOp N ρ.invSplit) := by simp only [Matrix.mul_assoc]
        _ = _ := by rw [invOp_mul_self]; simp
    simp only [hi, if_true]
    rw [Matrix.mul_smul, Matrix.smul_mul, Matrix.smul_apply, Matrix.smul_apply, smul_eq_mul, smul_eq_mul]
    conv_rhs => rw [← key]
    simp only [flipBlocks]
    by_cases ha : a.val < ρ.invSplit <;> by_cases hb : b.val < ρ.invSplit <;> simp [ha, hb]

example : exRep.symmetrize2 ![1, 0, 0] !![1, 2; 3, 4] = !![1, 2; 3, 4] ∧ exRep.symmetrize2 ![0, 0, 1] !![1, 2; 3, 4] = !![1, 0; 0, 4] ∧
    IsRep exRep ∧ IsUnitary exRep ∧ exRep.sym.Constructed :=
  ⟨by decide +kernel, by decide +kernel, exRep_isRep, exRep_unitary, exRep_constructed⟩

/-- A sum of equal terms. -/
theorem sum_const_filter {α : Type} (l : List α) (f : α → Mat F N) (M : Mat F N) (h : ∀ x ∈ l, f x = M) :
    (l.map f).sum = (l.length : F) • M := by
  induction l with
  | nil => simp
  | cons x l ih =>
    rw [List.map_cons, List.sum_cons, ih fun y hy => h y (List.mem_cons_of_mem _ hy), h x List.mem_cons_self, List.length_cons]
    push_cast
    rw [add_smul, one_smul, add_comm]

/-- **C87** A matrix that is invariant already is returned unchanged. -/
theorem C87_fixed [CharZero F] (ρ : Rep K F d N) (hρ : IsRep ρ) (r : Fin d → K) (H : Mat F N) (h : StabInvariant ρ r H) :
    ρ.symmetrize2 r H = H := by
  rw [symmetrize2_eq]
  have h1 : psum (ρ.sym.S.zip ρ.U) (plusFix r) H = (((ρ.sym.S.zip ρ.U).filter fun p => plusFix r p.1).length : F) • H := by
    refine sum_const_filter _ _ _ fun p hp => ?_
    rw [List.mem_filter] at hp
    exact (h p hp.1).1 (by simpa [plusFix] using hp.2)
  have hne : ((ρ.sym.S.zip ρ.U).filter fun p => plusFix r p.1).length ≠ 0 := by
    have : ((1 : Mat K d), (1 : Mat F N)) ∈ (ρ.sym.S.zip ρ.U).filter fun p => plusFix r p.1 := by
      rw [List.mem_filter]; exact ⟨hρ.one, by simp [plusFix]⟩
    exact (List.length_pos_of_mem this).ne'
  rw [h1]
  by_cases hi : ρ.sym.inversion = true
  · have h2 : flipBlocks ρ.invSplit (psum (ρ.sym.S.zip ρ.U) (minusFix r) H) =
        (((ρ.sym.S.zip ρ.U).filter fun p => minusFix r p.1).length : F) • H := by
      unfold psum
      rw [flip_list_sum]
      refine sum_const_filter _ _ _ fun p hp => ?_
      rw [List.mem_filter] at hp
      have := (h p hp.1).2 hi (by simpa [minusFix] using hp.2)
      ext a b
      rw [← this a b]
      simp only [flipBlocks]
      by_cases ha : a.val < ρ.invSplit <;> by_cases hb : b.val < ρ.invSplit <;> simp [ha, hb]
    simp only [hi, if_true]
    rw [h2, ← add_smul, smul_smul]
    push_cast
    rw [inv_mul_cancel₀, one_smul]
    rw [← Nat.cast_add]
    exact Nat.cast_ne_zero.2 (by omega)
  · simp only [hi]
    simp only [Bool.false_eq_true, if_false, zero_add]
    rw [smul_smul, inv_mul_cancel₀, one_smul]
    exact_mod_cast hne

example : StabInvariant exRep ![0, 0, 1] !![1, 0; 0, 4] ∧ IsRep exRep := by
  have h := C87_invariant exRep exRep_isRep exRep_unitary exRep_constructed ![0, 0, 1] !![1, 2; 3, 4]
  rw [show exRep.symmetrize2 ![0, 0, 1] !![1, 2; 3, 4] = !![1, 0; 0, 4] by decide +kernel] at h
  exact ⟨h, exRep_isRep⟩

theorem psum_adjoint {Z : List (Mat K d × Mat F N)} (h : PairGroup Z) (P : Mat K d → Bool)
    (hP : ∀ p ∈ Z, P p.1 = P p.1⁻¹) (A B : Mat F N) :
    (A.conjTranspose * psum Z P B).trace = ((psum Z P A).conjTranspose * B).trace := by
  have e1 : (A.conjTranspose * psum Z P B).trace =
      ((Z.filter fun p => P p.1).map fun p => (A.conjTranspose * (p.2 * B * p.2.conjTranspose)).trace).sum := by
    unfold psum
    have := list_sum_mul (Z.filter fun p => P p.1) (fun p => p.2 * B * p.2.conjTranspose) A.conjTranspose 1
    simp only [Matrix.mul_one] at this
    rw [← this, trace_list_sum]
  have e2 : ((psum Z P A).conjTranspose * B).trace =
      ((Z.filter fun p => P p.1).map fun p => ((p.2 * A * p.2.conjTranspose).conjTranspose * B).trace).sum := by
    unfold psum
    have h3 : ((Z.filter fun p => P p.1).map fun p => p.2 * A * p.2.conjTranspose).sum.conjTranspose =
        ((Z.filter fun p => P p.1).map fun p => (p.2 * A * p.2.conjTranspose).conjTranspose).sum := by
      induction (Z.filter fun p => P p.1) with
      | nil => simp
      | cons x l ih => simp only [List.map_cons, List.sum_cons, Matrix.conjTranspose_add, ih]
    have := list_sum_mul (Z.filter fun p => P p.1) (fun p => (p.2 * A * p.2.conjTranspose).conjTranspose) 1 B
    simp only [Matrix.one_mul] at this
    rw [h3, ← this, trace_list_sum]
  rw [e1, e2]
  have hp := (h.perm_inv.filter fun p => P p.1).map fun p => ((p.2 * A * p.2.conjTranspose).conjTranspose * B).trace
  rw [← hp.sum_eq, List.filter_map, List.map_map]
  have : Z.filter ((fun p => P p.1) ∘ fun p : Mat K d × Mat F N => (p.1⁻¹, p.2.conjTranspose)) = Z.filter fun p => P p.1 :=
    List.filter_congr fun p hp => by simp [← hP p hp]
  rw [this]
  congr 1
  refine List.map_congr_left fun p _ => ?_
  simp only [Function.comp_apply, Matrix.conjTranspose_mul, Matrix.conjTranspose_conjTranspose, Matrix.mul_assoc]
  rw [Matrix.trace_mul_comm p.2.conjTranspose]
  simp only [Matrix.mul_assoc]

/-- **C87** `symmetrize2` is self-adjoint for the scalar product `tr(A^+ B)`; with `C87_invariant` and `C87_fixed` it is the
orthogonal projection onto the invariant matrices. -/
theorem C87_orthogonal [CharZero F] (ρ : Rep K F d N) (hρ : IsRep ρ) (hu : IsUnitary ρ) (hc : ρ.sym.Constructed) (r : Fin d → K)
    (A B : Mat F N) :
    (A.conjTranspose * ρ.symmetrize2 r B).trace = ((ρ.symmetrize2 r A).conjTranspose * B).trace := by
  have hg := pairGroup_of ρ hρ hu hc
  have hp : ∀ p ∈ ρ.sym.S.zip ρ.U, plusFix r p.1 = plusFix r p.1⁻¹ := fun p hp => by
    simp only [plusFix, decide_eq_decide]
    rw [← mulVec_cancel (hg.det p hp) (x := p.1⁻¹.mulVec r), Matrix.mulVec_mulVec, Matrix.mul_nonsing_inv _ (hg.det p hp),
      Matrix.one_mulVec, eq_comm]
  have hm : ∀ p ∈ ρ.sym.S.zip ρ.U, minusFix r p.1 = minusFix r p.1⁻¹ := fun p hp => by
    simp only [minusFix, decide_eq_decide]
    rw [neg_eq_iff_eq_neg, neg_eq_iff_eq_neg,
      ← mulVec_cancel (hg.det p hp) (x := p.1⁻¹.mulVec r), Matrix.mulVec_mulVec, Matrix.mul_nonsing_inv _ (hg.det p hp),
      Matrix.one_mulVec, Matrix.mulVec_neg, eq_neg_iff_add_eq_zero, eq_neg_iff_add_eq_zero, add_comm]
  rw [symmetrize2_eq, symmetrize2_eq, Matrix.mul_smul, Matrix.conjTranspose_smul, Matrix.smul_mul, Matrix.trace_smul,
    Matrix.trace_smul, Matrix.mul_add, Matrix.conjTranspose_add, Matrix.add_mul, Matrix.trace_add, Matrix.trace_add,
    psum_adjoint hg _ hp]
  congr 1
  · split <;> simp
  · congr 1
    split
    · rename_i hi
      have e1 : (A.conjTranspose * flipBlocks ρ.invSplit (psum (ρ.sym.S.zip ρ.U) (minusFix r) B)).trace =
          ((flipBlocks ρ.invSplit A).conjTranspose * psum (ρ.sym.S.zip ρ.U) (minusFix r) B).trace := by
        rw [flipBlocks_eq, flipBlocks_eq]
        simp only [Matrix.conjTranspose_mul, invOp_conjTranspose]
        rw [← Matrix.mul_assoc, Matrix.trace_mul_comm]
        simp only [Matrix.mul_assoc]
      rw [e1, psum_adjoint hg _ hm]
      congr 3
      unfold psum
      rw [flip_list_sum]
      congr 1
      refine List.map_congr_left fun p hp => ?_
      exact ((conj_flip ρ hρ hi (List.mem_filter.1 hp).1 _).2.1).symm
    · simp

example : IsRep exRep ∧ IsUnitary exRep ∧ exRep.sym.Constructed ∧
    exRep.symmetrize2 ![0, 0, 1] !![1, 2; 3, 4] ≠ !![1, 2; 3, 4] :=
  ⟨exRep_isRep, exRep_unitary, exRep_constructed, by decide +kernel⟩

/-! ## `realize_symmetric_matrices` -/

/-- The image of `k` under an operation with a sign. -/
theorem realizeStep_fold (inverse : Bool) (data : Mat F N) (k : Fin d → K) (sign : K) (Z : List (Mat K d × Mat F N))
    (st : List (Fin d → K) × List ((Fin d → K) × Mat F N)) (h0 : st.1 = k :: st.2.map Prod.fst) (hn : st.1.Nodup) :
    let st' := Z.foldl (realizeStep inverse data k sign) st
    st'.1 = k :: st'.2.map Prod.fst ∧ st'.1.Nodup ∧ (∀ x, x ∈ st'.1 ↔ x ∈ st.1 ∨ ∃ p ∈ Z, x = sign • p.1.mulVec k) ∧
    (∀ y ∈ st'.2, y ∈ st.2 ∨ ∃ p ∈ Z, y = (sign • p.1.mulVec k,
      if inverse then p.2 * data * p.2.conjTranspose else p.2.conjTranspose * data * p.2)) := by
  induction Z generalizing st with
  | nil => exact ⟨h0, hn, by simp, by simp⟩
  | cons p Z ih =>
    intro st'
    have hst : st' = Z.foldl (realizeStep inverse data k sign) (realizeStep inverse data k sign st p) := rfl
    by_cases h : sign • p.1.mulVec k ∈ st.1
    · have he : realizeStep inverse data k sign st p = st := by simp [realizeStep, h]
      rw [he] at hst
      obtain ⟨a, b, c, e⟩ := ih st h0 hn
      rw [← hst] at a b c e
      refine ⟨a, b, fun x => ?_, fun y hy => ?_⟩
      · rw [c]
        constructor
        · rintro (hx | ⟨q, hq, rfl⟩)
          · exact Or.inl hx
          · exact Or.inr ⟨q, List.mem_cons_of_mem _ hq, rfl⟩
        · rintro (hx | ⟨q, hq, rfl⟩)
          · exact Or.inl hx
          · rcases List.mem_cons.1 hq with rfl | hq
            · exact Or.inl h
            · exact Or.inr ⟨q, hq, rfl⟩
      · rcases e y hy with hy | ⟨q, hq, rfl⟩
        · exact Or.inl hy
        · exact Or.inr ⟨q, List.mem_cons_of_mem _ hq, rfl⟩
    · have he : realizeStep inverse data k sign st p = (st.1 ++ [sign • p.1.mulVec k], st.2 ++ [(sign • p.1.mulVec k,
        if inverse then p.2 * data * p.2.conjTranspose else p.2.conjTranspose * data * p.2)]) := by
        simp only [realizeStep, h, if_false]
      rw [he] at hst
      obtain ⟨a, b, c, e⟩ := ih (st.1 ++ [sign • p.1.mulVec k], st.2 ++ [(sign • p.1.mulVec k,
        if inverse then p.2 * data * p.2.conjTranspose else p.2.conjTranspose * data * p.2)])
        (by simp [h0]) (by
          rw [List.nodup_append]
          refine ⟨hn, by simp, ?_⟩
          intro x hx y hy
          rw [List.mem_singleton] at hy
          rintro rfl
          exact h (hy ▸ hx))
      rw [← hst] at a b c e
      refine ⟨a, b, fun x => ?_, fun y hy => ?_⟩
      · rw [c, List.mem_append, List.mem_singleton]
        constructor
        · rintro ((hx | rfl) | ⟨q, hq, rfl⟩)
          · exact Or.inl hx
          · exact Or.inr ⟨p, List.mem_cons_self, rfl⟩
          · exact Or.inr ⟨q, List.mem_cons_of_mem _ hq, rfl⟩
        · rintro (hx | ⟨q, hq, rfl⟩)
          · exact Or.inl (Or.inl hx)
          · rcases List.mem_cons.1 hq with rfl | hq
            · exact Or.inl (Or.inr rfl)
            · exact Or.inr ⟨q, hq, rfl⟩
      · rcases e y hy with hy | ⟨q, hq, rfl⟩
        · rcases List.mem_append.1 hy with hy | hy
          · exact Or.inl hy
          · rw [List.mem_singleton] at hy
            exact Or.inr ⟨p, List.mem_cons_self, hy⟩
        · exact Or.inr ⟨q, List.mem_cons_of_mem _ hq, rfl⟩

theorem realizeOne_spec (ρ : Rep K F d N) (hl : ρ.sym.S.length = ρ.U.length) (inverse : Bool) (k : Fin d → K) (hk : k ≠ 0)
    (data : Mat F N) :
    (k :: (ρ.realizeOne inverse k data).map Prod.fst).Nodup ∧
    (∀ x, x ∈ k :: (ρ.realizeOne inverse k data).map Prod.fst ↔ x = k ∨ ∃ s ∈ ρ.sym.S, x = s.mulVec k ∨
      (ρ.sym.inversion = true ∧ x = -s.mulVec k)) ∧
    ∀ y ∈ ρ.realizeOne inverse k data, ∃ p ∈ ρ.sym.S.zip ρ.U,
      (y.1 = p.1.mulVec k ∨ (ρ.sym.inversion = true ∧ y.1 = -p.1.mulVec k)) ∧
      y.2 = if inverse then p.2 * data * p.2.conjTranspose else p.2.conjTranspose * data * p.2 := by
  have hz : ∀ (x : Fin d → K) (sign : K), (∃ p ∈ ρ.sym.S.zip ρ.U, x = sign • p.1.mulVec k) ↔
      ∃ s ∈ ρ.sym.S, x = sign • s.mulVec k := by
    intro x sign
    constructor
    · rintro ⟨p, hp, rfl⟩; exact ⟨p.1, (List.of_mem_zip hp).1, rfl⟩
    · rintro ⟨s, hs, rfl⟩
      have : s ∈ (ρ.sym.S.zip ρ.U).map Prod.fst := by rw [List.map_fst_zip (by rw [hl])]; exact hs
      obtain ⟨p, hp, rfl⟩ := List.mem_map.1 this
      exact ⟨p, hp, rfl⟩
  obtain ⟨a, b, c, e⟩ := realizeStep_fold inverse data k 1 (ρ.sym.S.zip ρ.U) ([k], []) (by simp) (by simp)
  unfold Rep.realizeOne
  rw [if_neg hk]
  by_cases hi : ρ.sym.inversion = true
  · simp only [hi, if_true, List.foldl_cons, List.foldl_nil]
    obtain ⟨a', b', c', e'⟩ := realizeStep_fold inverse data k (-1) (ρ.sym.S.zip ρ.U) _ a b
    rw [a'] at b' c'
    refine ⟨b', fun x => ?_, fun y hy => ?_⟩
    · rw [c', c, hz, hz]
      simp only [one_smul, neg_smul, List.mem_singleton, true_and]
      constructor
      · rintro ((h | ⟨s, hs, h⟩) | ⟨s, hs, h⟩)
        · exact Or.inl h
        · exact Or.inr ⟨s, hs, Or.inl h⟩
        · exact Or.inr ⟨s, hs, Or.inr h⟩
      · rintro (h | ⟨s, hs, h | h⟩)
        · exact Or.inl (Or.inl h)
        · exact Or.inl (Or.inr ⟨s, hs, h⟩)
        · exact Or.inr ⟨s, hs, h⟩
    · rcases e' y hy with hy | ⟨p, hp, rfl⟩
      · rcases e y hy with hy | ⟨p, hp, rfl⟩
        · simp at hy
        · exact ⟨p, hp, by simp, rfl⟩
      · exact ⟨p, hp, by simp, rfl⟩
  · simp only [hi, Bool.false_eq_true, if_false, List.foldl_cons, List.foldl_nil]
    rw [a] at b c
    refine ⟨b, fun x => ?_, fun y hy => ?_⟩
    · rw [c, hz]
      simp
    · rcases e y hy with hy | ⟨p, hp, rfl⟩
      · simp at hy
      · exact ⟨p, hp, by simp, rfl⟩

/-- **C88** The points: the given points come first; then for every given point other than the origin the images under all
operations (and with inversion their negatives), each once and without the point itself. -/
theorem C88_points (ρ : Rep K F d N) (hl : ρ.sym.S.length = ρ.U.length) (inverse : Bool) (ks : List ((Fin d → K) × Mat F N)) :
    ∃ parts : List (List ((Fin d → K) × Mat F N)), ρ.realizeMatrices inverse ks = ks ++ parts.flatten ∧
      parts.length = ks.length ∧
      ∀ (i : ℕ) (hi : i < ks.length) (hp : i < parts.length),
        (ks[i].1 = 0 → parts[i] = []) ∧
        (ks[i].1 ≠ 0 → (parts[i].map Prod.fst).Nodup ∧
          ∀ x, x ∈ parts[i].map Prod.fst ↔ x ≠ ks[i].1 ∧ ∃ s ∈ ρ.sym.S, x = s.mulVec ks[i].1 ∨
            (ρ.sym.inversion = true ∧ x = -s.mulVec ks[i].1)) := by
  refine ⟨ks.map fun kd => ρ.realizeOne inverse kd.1 kd.2, by simp [Rep.realizeMatrices, List.flatMap], by simp, ?_⟩
  intro i hi hp
  rw [List.getElem_map]
  refine ⟨fun h => by simp [Rep.realizeOne, h], fun h => ?_⟩
  obtain ⟨a, b, -⟩ := realizeOne_spec ρ hl inverse _ h ks[i].2
  rw [List.nodup_cons] at a
  refine ⟨a.2, fun x => ?_⟩
  have := b x
  rw [List.mem_cons] at this
  constructor
  · intro hx
    have hne : x ≠ ks[i].1 := by rintro rfl; exact a.1 hx
    rcases this.1 (Or.inr hx) with h | h
    · exact absurd h hne
    · exact ⟨hne, h⟩
  · rintro ⟨hne, hx⟩
    exact (this.2 (Or.inr hx)).resolve_left hne

example : exRep.realizeMatrices true [(![1, 2, 0], !![1, 2; 3, 4]), (![0, 0, 1], 1)] =
    [(![1, 2, 0], !![1, 2; 3, 4]), (![0, 0, 1], 1), (![-1, -2, 0], !![1, -2; -3, 4]), (![0, 0, -1], 1)] ∧
    exRep.sym.S.length = exRep.U.length := by decide +kernel

/-- **C88** The matrices, `inverse=True`: for a matrix function with `h(S k) = U h(k) U^+` (and with inversion `h(-k) = h(k)`) the
returned matrices are the values of `h` at the returned points. -/
theorem C88_inverse (ρ : Rep K F d N) (hl : ρ.sym.S.length = ρ.U.length) (h : (Fin d → K) → Mat F N)
    (hcov : ∀ p ∈ ρ.sym.S.zip ρ.U, ∀ k, h (p.1.mulVec k) = p.2 * h k * p.2.conjTranspose)
    (heven : ρ.sym.inversion = true → ∀ k, h (-k) = h k) (ks : List (Fin d → K)) :
    ∀ y ∈ ρ.realizeMatrices true (ks.map fun k => (k, h k)), y.2 = h y.1 := by
  intro y hy
  rcases List.mem_append.1 hy with hy | hy
  · obtain ⟨k, -, rfl⟩ := List.mem_map.1 hy; rfl
  · obtain ⟨x, hx, hy⟩ := List.mem_flatMap.1 hy
    obtain ⟨k, -, rfl⟩ := List.mem_map.1 hx
    by_cases hk : k = 0
    · simp [Rep.realizeOne, hk] at hy
    · obtain ⟨-, -, hm⟩ := realizeOne_spec ρ hl true k hk (h k)
      obtain ⟨p, hp, h1, h2⟩ := hm y hy
      rw [h2, if_pos rfl, ← hcov p hp]
      rcases h1 with h1 | ⟨hi, h1⟩
      · rw [h1]
      · rw [h1, heven hi]

/-- **C88** The matrices, default: the returned matrices are the values of `h` at the returned points if
`h(S k) = U^+ h(k) U`. -/
theorem C88_default (ρ : Rep K F d N) (hl : ρ.sym.S.length = ρ.U.length) (h : (Fin d → K) → Mat F N)
    (hcov : ∀ p ∈ ρ.sym.S.zip ρ.U, ∀ k, h (p.1.mulVec k) = p.2.conjTranspose * h k * p.2)
    (heven : ρ.sym.inversion = true → ∀ k, h (-k) = h k) (ks : List (Fin d → K)) :
    ∀ y ∈ ρ.realizeMatrices false (ks.map fun k => (k, h k)), y.2 = h y.1 := by
  intro y hy
  rcases List.mem_append.1 hy with hy | hy
  · obtain ⟨k, -, rfl⟩ := List.mem_map.1 hy; rfl
  · obtain ⟨x, hx, hy⟩ := List.mem_flatMap.1 hy
    obtain ⟨k, -, rfl⟩ := List.mem_map.1 hx
    by_cases hk : k = 0
    · simp [Rep.realizeOne, hk] at hy
    · obtain ⟨-, -, hm⟩ := realizeOne_spec ρ hl false k hk (h k)
      obtain ⟨p, hp, h1, h2⟩ := hm y hy
      rw [h2, if_neg Bool.false_ne_true, ← hcov p hp]
      rcases h1 with h1 | ⟨hi, h1⟩
      · rw [h1]
      · rw [h1, heven hi]

/-- The cyclic permutation of the three axes. -/
def cyc3 : Mat ℚ 3 := !![0, 0, 1; 1, 0, 0; 0, 1, 0]

/-- The threefold rotation about the diagonal acting on the states `x, y, z`. -/
def exCyc : Rep ℚ ℚ 3 3 := ⟨⟨[1, cyc3, cyc3 * cyc3], false⟩, [1, cyc3, cyc3 * cyc3], 3⟩

theorem exCyc_cov : ∀ p ∈ exCyc.sym.S.zip exCyc.U, ∀ k : Fin 3 → ℚ,
    Matrix.diagonal (p.1.mulVec k) = p.2 * Matrix.diagonal k * p.2.conjTranspose := by
  intro p hp k
  simp only [exCyc, List.zip_cons_cons, List.zip_nil_right, List.mem_cons, List.not_mem_nil, or_false] at hp
  rcases hp with rfl | rfl | rfl <;> ext i j <;> fin_cases i <;> fin_cases j <;>
    simp [cyc3, Matrix.mul_apply, Fin.sum_univ_three, Matrix.mulVec, dotProduct, Matrix.diagonal,
      Matrix.vecHead, Matrix.vecTail]

example : (∀ y ∈ exCyc.realizeMatrices true ([![1, 2, 3]].map fun k => (k, Matrix.diagonal k)), y.2 = Matrix.diagonal y.1) ∧
    (exCyc.realizeMatrices true ([![1, 2, 3]].map fun k => (k, Matrix.diagonal k))).length = 3 :=
  ⟨C88_inverse exCyc (by decide +kernel) Matrix.diagonal exCyc_cov (fun h => by cases h) _, by decide +kernel⟩

example : exCyc.realizeMatrices false [(![1, 2, 3], Matrix.diagonal ![1, 2, 3])] =
    [(![1, 2, 3], Matrix.diagonal ![1, 2, 3]), (![3, 1, 2], Matrix.diagonal ![2, 3, 1]), (![2, 3, 1], Matrix.diagonal ![3, 1, 2])] := by
  decide +kernel

example : (∀ p ∈ exRepN.sym.S.zip exRepN.U, ∀ k : Fin 3 → ℚ, (!![(p.1.mulVec k) 2, (p.1.mulVec k) 0; (p.1.mulVec k) 0, 1] : Mat ℚ 2) =
      p.2.conjTranspose * !![k 2, k 0; k 0, 1] * p.2) ∧ exRepN.sym.S.length = exRepN.U.length ∧ exRepN.sym.inversion = false ∧
    exRepN.realizeMatrices false [(![1, 2, 3], !![3, 1; 1, 1])] = [(![1, 2, 3], !![3, 1; 1, 1]), (![-1, -2, 3], !![3, -1; -1, 1])] := by
  refine ⟨?_, by decide +kernel⟩
  intro p hp k
  simp only [exRepN, List.zip_cons_cons, List.zip_nil_right, List.mem_cons, List.not_mem_nil, or_false] at hp
  rcases hp with rfl | rfl <;> ext i j <;> fin_cases i <;> fin_cases j <;>
    simp [rz2, Matrix.mul_apply, Fin.sum_univ_two, Fin.sum_univ_three, Matrix.mulVec, dotProduct, Matrix.vecHead, Matrix.vecTail]

/-- **C88** Disagreement: the comment says that `U_S` is used by default and `U_S^+` with `inverse=True`; it is the other way
round. For `h(k) = diag(k)`, which satisfies `h(S k) = U h(k) U^+` for the threefold rotation, the default returns a
wrong matrix at each new point. -/
theorem C88_defect_default :
    (∀ p ∈ exCyc.sym.S.zip exCyc.U, ∀ k : Fin 3 → ℚ,
      Matrix.diagonal (p.1.mulVec k) = p.2 * Matrix.diagonal k * p.2.conjTranspose) ∧
    ∃ y ∈ exCyc.realizeMatrices false [(![1, 2, 3], Matrix.diagonal ![1, 2, 3])], y.2 ≠ Matrix.diagonal y.1 :=
  ⟨exCyc_cov, (![3, 1, 2], Matrix.diagonal ![2, 3, 1]), by decide +kernel, by decide +kernel⟩

/-- An even and an odd state and only the inversion. -/
def exInv : Rep ℚ ℚ 3 2 := ⟨⟨[1], true⟩, [1], 1⟩

theorem exInv_isRep : IsRep exInv :=
  ⟨by decide +kernel, by decide +kernel, by decide +kernel, by decide +kernel, by
    intro _ u hu a b h
    simp only [exInv, List.mem_cons, List.not_mem_nil, or_false] at hu h
    subst hu
    fin_cases a <;> fin_cases b <;> simp at h ⊢, by decide +kernel⟩

/-- **C88** Disagreement: with inversion the sign of the odd states is not used.  The matrix
`h(k) = [[0, k_x], [k_x, 0]]` between an even and an odd state satisfies `h(-k) = I h(k) I`, but at `-k` the matrix
`h(k)` is returned. -/
theorem C88_defect_inversion :
    IsRep exInv ∧ (∀ k : Fin 3 → ℚ, (!![0, (-k) 0; (-k) 0, 0] : Mat ℚ 2) =
      !![1, 0; 0, -1] * !![0, k 0; k 0, 0] * !![1, 0; 0, -1]) ∧
    ∀ inverse, exInv.realizeMatrices inverse [(![1, 0, 0], !![0, 1; 1, 0])] =
      [(![1, 0, 0], !![0, 1; 1, 0]), (![-1, 0, 0], !![0, 1; 1, 0])] := by
  refine ⟨exInv_isRep, fun k => ?_, by decide +kernel⟩
  ext i j
  fin_cases i <;> fin_cases j <;> simp [Matrix.mul_apply, Fin.sum_univ_two]

/-! ## `check_symmetry` -/

/-- **C89** `check_symmetry(h)` raises `ValueError` outside of three dimensions.  In three dimensions it returns whether
`h(S k₀) = U h(k₀) U^+` holds for all operations at the single point `k₀ = (0, 1/2, 0)`. -/
theorem C89_check_symmetry (ρ : Rep K F d N) (hρ : IsRep ρ) (hu : IsUnitary ρ) (h : (Fin d → K) → Mat F N) :
    (d ≠ 3 → ρ.checkSymmetry h = .error .valueError) ∧
    (d = 3 → ∃ b, ρ.checkSymmetry h = .ok b ∧ ∀ k₀ : Fin d → K, (∀ i, k₀ i = if i.val = 1 then 1 / 2 else 0) →
      (b = true ↔ ∀ p ∈ ρ.sym.S.zip ρ.U, h (p.1.mulVec k₀) = p.2 * h k₀ * p.2.conjTranspose)) := by
  unfold Rep.checkSymmetry
  refine ⟨fun hd => by rw [if_pos hd], fun hd => ?_⟩
  rw [if_neg (by simpa using hd)]
  refine ⟨_, rfl, fun k₀ hk => ?_⟩
  have hk' : (fun i : Fin d => if i.val = 1 then (1 : K) / 2 else 0) = k₀ := by funext i; rw [hk]
  rw [hk']
  have hone := hρ.one
  have huni : ∀ p ∈ ρ.sym.S.zip ρ.U, ∀ X Y : Mat F N, p.2.conjTranspose * X * p.2 = Y ↔ X = p.2 * Y * p.2.conjTranspose := by
    intro p hp X Y
    have h1 := hu _ (List.of_mem_zip hp).2
    have h2 := mul_eq_one_comm.1 h1
    constructor
    · rintro rfl
      calc X = (p.2 * p.2.conjTranspose) * X * (p.2 * p.2.conjTranspose) := by rw [h1]; simp
        _ = _ := by simp only [Matrix.mul_assoc]
    · rintro rfl
      calc _ = (p.2.conjTranspose * p.2) * Y * (p.2.conjTranspose * p.2) := by simp only [Matrix.mul_assoc]
        _ = Y := by rw [h2]; simp
  generalize hZ : ρ.sym.S.zip ρ.U = Z at hone huni
  obtain ⟨p0, Z', rfl⟩ : ∃ p0 Z', Z = p0 :: Z' := by
    cases Z with
    | nil => simp at hone
    | cons a l => exact ⟨a, l, rfl⟩
  simp only [List.map_cons, List.head?_cons, Option.some.injEq, List.all_eq_true, decide_eq_true_eq]
  constructor
  · intro hall p hp
    rw [← huni p hp]
    have e : ∀ q ∈ p0 :: Z', q.2.conjTranspose * h (q.1.mulVec k₀) * q.2 = p0.2.conjTranspose * h (p0.1.mulVec k₀) * p0.2 := by
      intro q hq
      refine hall _ ?_
      rcases List.mem_cons.1 hq with rfl | hq
      · exact List.mem_cons_self
      · exact List.mem_cons_of_mem _ (List.mem_map.2 ⟨q, hq, rfl⟩)
    rw [e p hp, ← e _ hone]
    simp
  · intro hall v hv
    have e : ∀ q ∈ p0 :: Z', q.2.conjTranspose * h (q.1.mulVec k₀) * q.2 = h k₀ := fun q hq => (huni q hq _ _).2 (hall q hq)
    rw [e p0 List.mem_cons_self]
    rcases List.mem_cons.1 hv with rfl | hv
    · exact e p0 List.mem_cons_self
    · obtain ⟨q, hq, rfl⟩ := List.mem_map.1 hv
      exact e q (List.mem_cons_of_mem _ hq)

theorem exRepN_unitary : IsUnitary exRepN := exRep_unitary

example : (∃ b, exRepN.checkSymmetry (fun k => !![k 2, k 0; k 0, 1]) = .ok b ∧ b = true) ∧
    (∃ b, exRepN.checkSymmetry (fun k => !![k 2, k 1 * k 1; k 0, 1]) = .ok b ∧ decide (b = false) = true) ∧
    IsRep exRepN ∧ IsUnitary exRepN :=
  ⟨okAnd_iff.1 (by decide +kernel), okAnd_iff.1 (by decide +kernel), exRepN_isRep, exRepN_unitary⟩

/-- **C89** Disagreement: `check_symmetry` returns `True` for an operator without the symmetry, since only one point is
tested. -/
theorem C89_defect : IsRep exRepN ∧ IsUnitary exRepN ∧ exRepN.sym.Constructed ∧
    (∃ b, exRepN.checkSymmetry (fun k => !![k 0, 0; 0, 0]) = .ok b ∧ b = true) ∧
    ∃ p ∈ exRepN.sym.S.zip exRepN.U, ∃ k : Fin 3 → ℚ,
      (!![(p.1.mulVec k) 0, 0; 0, 0] : Mat ℚ 2) ≠ p.2 * !![k 0, 0; 0, 0] * p.2.conjTranspose :=
  ⟨exRepN_isRep, exRepN_unitary, ⟨[1, rz2], false, by decide +kernel⟩, okAnd_iff.1 (by decide +kernel),
    (rz2, !![1, 0; 0, -1]), by decide +kernel, ![1, 0, 0], by decide +kernel⟩

end TB.UR

import Verif.Lemmas.RepSum
import Verif.Props.UnitaryRepOps

/-!
# Property C85: `UnitaryRepresentation.symmetrize` is the orthogonal projection on the covariant operators
-/

set_option linter.unusedSectionVars false

namespace TB.UR
open Spec Matrix

variable {K : Type} [Field K] [LinearOrder K] [IsStrictOrderedRing K] {d : ℕ}
variable {F : Type} [Field F] [StarRing F] [DecidableEq F] {N : ℕ}

/-- An operator given by matrices at listed positions has the symmetry: `H(S r) = U_S H(r) U_S^+` for all listed positions,
and with inversion also `H(-S r) = I U_S H(r) U_S^+ I`, where `I` is the inversion in the space of states (`1` on the first
`inv_split` states and `-1` on the others). -/
def Covariant (ρ : Rep K F d N) (ns : List (Fin d → K)) (H : List (Mat F N)) : Prop :=
  ∀ p ∈ ρ.sym.S.zip ρ.U, ∀ (i j : ℕ) (hi : i < ns.length) (hj : j < ns.length),
    (ns[j] = p.1.mulVec ns[i] → H.getD j 0 = p.2 * H.getD i 0 * p.2.conjTranspose) ∧
    (ρ.sym.inversion = true → ns[j] = -p.1.mulVec ns[i] → ∀ a b,
      H.getD j 0 a b = (if (a.val < ρ.invSplit ↔ b.val < ρ.invSplit) then 1 else -1) *
        (p.2 * H.getD i 0 * p.2.conjTranspose) a b)

/-- The list of neighbours is mapped into itself by every operation, up to the sign. -/
def ClosedUpToSign (ρ : Rep K F d N) (ns : List (Fin d → K)) : Prop :=
  ∀ r ∈ ns, ∀ s ∈ ρ.sym.S, s.mulVec r ∈ ns ∨ -s.mulVec r ∈ ns

/-- The neighbour list holds no position twice, and of a position and its negative only one (as the class requires: "only half
of the neighbor terms are present"). -/
structure HalfList (ns : List (Fin d → K)) : Prop where
  nodup : ns.Nodup
  half : ∀ r ∈ ns, -r ∈ ns → r = 0

theorem pairGroup_of (ρ : Rep K F d N) (hρ : IsRep ρ) (hu : IsUnitary ρ) (hc : ρ.sym.Constructed) :
    PairGroup (ρ.sym.S.zip ρ.U) := by
  refine ⟨?_, hρ.one, hρ.mul, ?_, ?_⟩
  · have : ((ρ.sym.S.zip ρ.U).map Prod.fst).Nodup := by
      rw [List.map_fst_zip (by rw [hρ.len])]; exact hρ.nodup
    exact this.of_map
  · exact fun p hp => isUnit_det_of_abs (hc.det _ (List.of_mem_zip hp).1)
  · exact fun p hp => hu _ (List.of_mem_zip hp).2

theorem closed_pairs (ρ : Rep K F d N) (ns : List (Fin d → K)) (h : ClosedUpToSign ρ ns) :
    ∀ r ∈ ns, ∀ p ∈ ρ.sym.S.zip ρ.U, p.1.mulVec r ∈ ns ∨ -(p.1.mulVec r) ∈ ns :=
  fun r hr p hp => h r hr p.1 (List.of_mem_zip hp).1

theorem symmetrize_eq (ρ : Rep K F d N) (ns : List (Fin d → K)) (H : List (Mat F N)) (hl : ρ.sym.S.length = ρ.U.length)
    (hU : 2 ≤ ρ.U.length) (hH : H.length = ns.length) (hcl : ClosedUpToSign ρ ns) :
    ρ.symmetrize ns H = .ok (ns.map fun r => (ρ.U.length : F)⁻¹ •
      gsum (ρ.sym.S.zip ρ.U) (val ρ.invSplit ρ.sym.inversion ns H) r) := by
  unfold Rep.symmetrize
  rw [if_neg (by omega), if_neg (by simp [hH]), if_neg (by simp [hl]),
    mapM_ok (g := gsum (ρ.sym.S.zip ρ.U) (val ρ.invSplit ρ.sym.inversion ns H))
      (fun r hr => groupSum_ok (closed_pairs ρ ns hcl r hr))]
  simp [Function.comp_def]

/-- **C85** `symmetrize` on a list of matrices of the right length: with at most one matrix in the representation the input is
returned; otherwise it returns exactly when the neighbours are mapped to neighbours or negatives of neighbours, else it raises
`ValueError`. -/
theorem C85_returns (ρ : Rep K F d N) (ns : List (Fin d → K)) (H : List (Mat F N)) (hl : ρ.sym.S.length = ρ.U.length)
    (hH : H.length = ns.length) :
    (ρ.U.length ≤ 1 → ρ.symmetrize ns H = .ok H) ∧
    (2 ≤ ρ.U.length → ClosedUpToSign ρ ns → ∃ R, ρ.symmetrize ns H = .ok R ∧ R.length = ns.length) ∧
    (2 ≤ ρ.U.length → ¬ ClosedUpToSign ρ ns → ρ.symmetrize ns H = .error .valueError) := by
  refine ⟨fun h => by unfold Rep.symmetrize; rw [if_pos h], fun h hcl => ⟨_, symmetrize_eq ρ ns H hl h hH hcl, by simp⟩, ?_⟩
  intro h hcl
  have hex : ∃ r ∈ ns, ¬ ∀ p ∈ ρ.sym.S.zip ρ.U, p.1.mulVec r ∈ ns ∨ -(p.1.mulVec r) ∈ ns := by
    unfold ClosedUpToSign at hcl
    push Not at hcl
    obtain ⟨r, hr, s, hs, hn⟩ := hcl
    refine ⟨r, hr, fun hp => ?_⟩
    obtain ⟨i, hi, rfl⟩ := List.mem_iff_getElem.1 hs
    have := hp (ρ.sym.S[i], ρ.U[i]'(hl ▸ hi)) (mem_zip_iff.2 ⟨i, hi, hl ▸ hi, rfl⟩)
    simp only at this
    tauto
  unfold Rep.symmetrize
  rw [if_neg (by omega), if_neg (by simp [hH]), if_neg (by simp [hl])]
  rw [mapM_error (e := .valueError)]
  · intro r hr e he
    by_cases hr' : ∀ p ∈ ρ.sym.S.zip ρ.U, p.1.mulVec r ∈ ns ∨ -(p.1.mulVec r) ∈ ns
    · rw [groupSum_ok hr'] at he; cases he
    · rw [groupSum_error hr'] at he; exact (Except.error.inj he).symm
  · obtain ⟨r, hr, hn⟩ := hex
    exact ⟨r, hr, fun y => by rw [groupSum_error hn]; simp⟩

/-- A half turn about the third axis with the states `z`, `x`; the neighbours `0` and `x`. -/
def exRep : Rep ℚ ℚ 3 2 := ⟨⟨[1, rz2], true⟩, [1, !![1, 0; 0, -1]], 1⟩

theorem exRep_isRep : IsRep exRep :=
  ⟨by decide +kernel, by decide +kernel, by decide +kernel, by decide +kernel, by
    intro _ u hu a b h
    simp only [exRep, List.mem_cons, List.not_mem_nil, or_false] at hu h
    rcases hu with rfl | rfl <;> fin_cases a <;> fin_cases b <;> simp at h ⊢, by decide +kernel⟩

theorem exRep_unitary : IsUnitary exRep := by
  intro u hu
  simp only [exRep, List.mem_cons, List.not_mem_nil, or_false] at hu
  rcases hu with rfl | rfl <;> decide +kernel

theorem exRep_constructed : exRep.sym.Constructed := ⟨[1, rz2], true, by decide +kernel⟩

theorem exRep_symmetrize : ∃ R, exRep.symmetrize [![0, 0, 0], ![1, 0, 0]] [!![1, 2; 3, 4], !![5, 6; 7, 8]] = .ok R ∧
    decide (R = [!![1, 0; 0, 4], !![5, 6; 7, 8]]) = true := okAnd_iff.1 (by decide +kernel)

example : ∃ R, exRep.symmetrize [![0, 0, 0], ![1, 0, 0]] [!![1, 2; 3, 4], !![5, 6; 7, 8]] = .ok R ∧
    decide (R = [!![1, 0; 0, 4], !![5, 6; 7, 8]]) = true := exRep_symmetrize

example : exRep.symmetrize [![0, 0, 0], ![1, 0, 1]] [!![1, 2; 3, 4], !![5, 6; 7, 8]] = .error .valueError := by decide +kernel

theorem getD_map_lt {α β : Type} (l : List α) (f : α → β) (b : β) (i : ℕ) (h : i < l.length) :
    (l.map f).getD i b = f l[i] := by simp [List.getD, h]

theorem gsum_flip (ρ : Rep K F d N) (hρ : IsRep ρ) (hi : ρ.sym.inversion = true) (ns : List (Fin d → K))
    (hns : HalfList ns) (hcl : ClosedUpToSign ρ ns) (H : List (Mat F N)) {r : Fin d → K} (hr : r ∈ ns ∨ -r ∈ ns) :
    gsum (ρ.sym.S.zip ρ.U) (val ρ.invSplit true ns H) (-r) =
      flipBlocks ρ.invSplit (gsum (ρ.sym.S.zip ρ.U) (val ρ.invSplit true ns H) r) := by
  have hcl' : ∀ p ∈ ρ.sym.S.zip ρ.U, p.1.mulVec r ∈ ns ∨ -(p.1.mulVec r) ∈ ns := by
    intro p hp
    rcases hr with hr | hr
    · exact closed_pairs ρ ns hcl r hr p hp
    · have := closed_pairs ρ ns hcl (-r) hr p hp
      rw [Matrix.mulVec_neg, neg_neg] at this
      tauto
  unfold gsum
  rw [flipBlocks_eq, ← list_sum_mul]
  congr 1
  refine List.map_congr_left fun p hp => ?_
  rw [Matrix.mulVec_neg, val_neg_inv hns.half (hcl' p hp), flipBlocks_eq]
  have hcomm : invOp N ρ.invSplit * p.2 = p.2 * invOp N ρ.invSplit :=
    commute_of_parity (hρ.parity hi _ (List.of_mem_zip hp).2)
  have hcomm' : p.2.conjTranspose * invOp N ρ.invSplit = invOp N ρ.invSplit * p.2.conjTranspose := by
    have := congrArg Matrix.conjTranspose hcomm
    simpa [Matrix.conjTranspose_mul, invOp_conjTranspose] using this
  simp only [mul_assoc, hcomm]
  simp only [← mul_assoc, hcomm']

/-- **C85** The result of `symmetrize` has the symmetry (for symmetries with inversion). -/
theorem C85_covariant (ρ : Rep K F d N) (hρ : IsRep ρ) (hu : IsUnitary ρ) (hc : ρ.sym.Constructed) (hinv : ρ.sym.inversion = true)
    (ns : List (Fin d → K)) (hns : HalfList ns) (H R : List (Mat F N)) (hH : H.length = ns.length) (hU : 2 ≤ ρ.U.length)
    (h : ρ.symmetrize ns H = .ok R) : Covariant ρ ns R := by
  have hcl : ClosedUpToSign ρ ns := by
    by_contra hcl
    rw [(C85_returns ρ ns H hρ.len hH).2.2 hU hcl] at h
    cases h
  rw [symmetrize_eq ρ ns H hρ.len hU hH hcl] at h
  obtain rfl := Except.ok.inj h
  have hg := pairGroup_of ρ hρ hu hc
  intro p hp i j hi hj
  rw [getD_map_lt _ _ _ _ hi, getD_map_lt _ _ _ _ hj]
  have hcov := hg.sum_covariant (val ρ.invSplit ρ.sym.inversion ns H) hp ns[i]
  rw [Matrix.mul_smul, Matrix.smul_mul]
  refine ⟨fun he => ?_, fun _ he a b => ?_⟩
  · rw [he]
    exact congrArg _ hcov
  · rw [he]
    have hmem := closed_pairs ρ ns hcl ns[i] (List.getElem_mem hi) p hp
    have hfl := gsum_flip ρ hρ hinv ns hns hcl H hmem
    have hcov' : gsum (ρ.sym.S.zip ρ.U) (val ρ.invSplit ρ.sym.inversion ns H) (p.1.mulVec ns[i]) =
      p.2 * gsum (ρ.sym.S.zip ρ.U) (val ρ.invSplit ρ.sym.inversion ns H) ns[i] * p.2.conjTranspose := hcov
    rw [hinv] at hcov' ⊢
    rw [hfl, hcov', Matrix.smul_apply, Matrix.smul_apply]
    generalize p.2 * gsum (ρ.sym.S.zip ρ.U) (val ρ.invSplit true ns H) ns[i] * p.2.conjTranspose = X
    simp only [flipBlocks, smul_eq_mul]
    by_cases h1 : a.val < ρ.invSplit <;> by_cases h2 : b.val < ρ.invSplit <;> simp [h1, h2]

/-- The mirrored neighbour of the example couples states of different parity with opposite signs. -/
example : Covariant exRep [![0, 0, 0], ![1, 0, 0]] [!![1, 0; 0, 4], !![5, 6; 7, 8]] :=
  C85_covariant exRep exRep_isRep exRep_unitary exRep_constructed rfl _ ⟨by decide +kernel, by decide +kernel⟩
    [!![1, 2; 3, 4], !![5, 6; 7, 8]] _ rfl (by decide +kernel) (by
      obtain ⟨R, h, hR⟩ := exRep_symmetrize
      rw [h, of_decide_eq_true hR])

theorem val_of_covariant [CharZero F] (ρ : Rep K F d N) (hρ : IsRep ρ) (hinv : ρ.sym.inversion = true)
    (ns : List (Fin d → K)) (H : List (Mat F N)) (hcov : Covariant ρ ns H) {p} (hp : p ∈ ρ.sym.S.zip ρ.U)
    {i : ℕ} (hi : i < ns.length) (hm : p.1.mulVec ns[i] ∈ ns ∨ -(p.1.mulVec ns[i]) ∈ ns) :
    val ρ.invSplit true ns H (p.1.mulVec ns[i]) = p.2 * H.getD i 0 * p.2.conjTranspose := by
  by_cases h1 : p.1.mulVec ns[i] ∈ ns
  · have hj := List.idxOf_lt_length_of_mem h1
    have he : ns[ns.idxOf (p.1.mulVec ns[i])] = p.1.mulVec ns[i] := List.getElem_idxOf hj
    have h2 := (hcov p hp i _ hi hj).1 he
    rw [val_mem h1]
    split_ifs with h0
    · -- the centre: the matrix has no entries between different parities
      have h3 : ∀ a b, H.getD (ns.idxOf (p.1.mulVec ns[i])) 0 a b =
          (if (a.val < ρ.invSplit ↔ b.val < ρ.invSplit) then 1 else -1) * H.getD (ns.idxOf (p.1.mulVec ns[i])) 0 a b := by
        intro a b
        have := (hcov (1, 1) hρ.one _ _ hj hj).2 hinv (by rw [he, h0.2]; simp) a b
        simpa using this
      rw [← h2]
      ext a b
      simp only [zeroBlocks]
      have h4 := h3 a b
      by_cases ha : a.val < ρ.invSplit <;> by_cases hb : b.val < ρ.invSplit <;> simp only [ha, hb] at h4 ⊢ <;> simp at h4 ⊢
      · exact (self_eq_neg.1 h4).symm
      · exact (self_eq_neg.1 h4).symm
    · exact h2
  · have h1' := hm.resolve_left h1
    have hj := List.idxOf_lt_length_of_mem h1'
    have he : ns[ns.idxOf (-(p.1.mulVec ns[i]))] = -(p.1.mulVec ns[i]) := List.getElem_idxOf hj
    have h2 := (hcov p hp i _ hi hj).2 hinv he
    rw [val_mirror h1 h1', if_pos rfl]
    ext a b
    simp only [flipBlocks]
    rw [h2 a b]
    by_cases ha : a.val < ρ.invSplit <;> by_cases hb : b.val < ρ.invSplit <;> simp [ha, hb]

/-- **C85** An operator that already has the symmetry is not changed by `symmetrize`; together with `C85_covariant`, applying
`symmetrize` twice is the same as applying it once. -/
theorem C85_fixed [CharZero F] (ρ : Rep K F d N) (hρ : IsRep ρ) (hu : IsUnitary ρ) (hc : ρ.sym.Constructed)
    (hinv : ρ.sym.inversion = true)
    (ns : List (Fin d → K)) (hcl : ClosedUpToSign ρ ns) (H : List (Mat F N)) (hH : H.length = ns.length)
    (hcov : Covariant ρ ns H) : ρ.symmetrize ns H = .ok H := by
  by_cases hU : ρ.U.length ≤ 1
  · exact (C85_returns ρ ns H hρ.len hH).1 hU
  have hg := pairGroup_of ρ hρ hu hc
  rw [symmetrize_eq ρ ns H hρ.len (by omega) hH hcl]
  congr 1
  apply List.ext_getElem (by simp [hH])
  intro i h1 h2
  have hi : i < ns.length := by simpa using h1
  rw [List.getElem_map]
  have hs : ∀ p ∈ ρ.sym.S.zip ρ.U, p.2.conjTranspose * val ρ.invSplit ρ.sym.inversion ns H (p.1.mulVec ns[i]) * p.2 =
      H.getD i 0 := by
    intro p hp
    rw [hinv, val_of_covariant ρ hρ hinv ns H hcov hp hi (closed_pairs ρ ns hcl _ (List.getElem_mem hi) p hp)]
    have hu' := hg.unitary' hp
    calc p.2.conjTranspose * (p.2 * H.getD i 0 * p.2.conjTranspose) * p.2
        = (p.2.conjTranspose * p.2) * H.getD i 0 * (p.2.conjTranspose * p.2) := by simp only [mul_assoc]
      _ = _ := by rw [hu']; simp
  unfold gsum
  rw [List.map_congr_left hs, List.map_const', List.sum_replicate]
  have hlen : (ρ.sym.S.zip ρ.U).length = ρ.U.length := by simp [hρ.len]
  rw [hlen, ← Nat.cast_smul_eq_nsmul F, smul_smul, inv_mul_cancel₀ (by
    simp only [ne_eq, Nat.cast_eq_zero]; omega), one_smul]
  simp [List.getD, h2]

example : ∃ R, exRep.symmetrize [![0, 0, 0], ![1, 0, 0]] [!![1, 0; 0, 4], !![5, 6; 7, 8]] = .ok R ∧
    decide (R = [!![1, 0; 0, 4], !![5, 6; 7, 8]]) = true := okAnd_iff.1 (by decide +kernel)

/-! ### Orthogonality -/

/-- The value read at a position as a sum over all neighbours. -/
theorem val_sum [CharZero F] {k : ℕ} {ns : List (Fin d → K)} (hns : HalfList ns) (H : List (Mat F N)) {x : Fin d → K}
    (hx : x ∈ ns ∨ -x ∈ ns) :
    val k true ns H x = (if x = 0 then (2 : F)⁻¹ else 1) • ∑ j : Fin ns.length,
      ((if ns[j.1] = x then H.getD j 0 else 0) + (if ns[j.1] = -x then invOp N k * H.getD j 0 * invOp N k else 0)) := by
  have hsum : ∀ (y : Fin d → K) (g : Mat F N → Mat F N), (∑ j : Fin ns.length, if ns[j.1] = y then g (H.getD j 0) else 0) =
      if y ∈ ns then g (H.getD (ns.idxOf y) 0) else 0 := by
    intro y g
    by_cases hy : y ∈ ns
    · have hj := List.idxOf_lt_length_of_mem hy
      rw [if_pos hy, Finset.sum_eq_single ⟨ns.idxOf y, hj⟩]
      · rw [if_pos (List.getElem_idxOf hj)]
      · intro j _ hne
        rw [if_neg]
        intro he
        refine hne (Fin.ext ?_)
        have h5 := hns.nodup.idxOf_getElem j.1 j.2
        rw [he] at h5
        exact h5.symm
      · simp
    · rw [if_neg hy]
      refine Finset.sum_eq_zero fun j _ => ?_
      rw [if_neg]
      intro he
      exact hy (he ▸ List.getElem_mem j.2)
  have hsx := hsum x id
  have hsn := hsum (-x) fun p => invOp N k * p * invOp N k
  simp only [id] at hsx
  rw [Finset.sum_add_distrib, hsx, hsn]
  by_cases h0 : x = 0
  · subst h0
    have h0' : (0 : Fin d → K) ∈ ns := by simpa using hx
    rw [val_mem h0']
    simp only [neg_zero, h0', if_true, and_self]
    rw [zeroBlocks_eq]
  · rw [if_neg h0, one_smul]
    by_cases h1 : x ∈ ns
    · have hn : -x ∉ ns := fun h => h0 (hns.half x h1 h)
      rw [val_mem h1, if_pos h1, if_neg hn]
      simp [h0]
    · have h1' := hx.resolve_left h1
      rw [val_mirror h1 h1', if_neg h1, if_pos h1', if_pos rfl, flipBlocks_eq, zero_add]

theorem trace_list_sum {α : Type} (l : List α) (f : α → Mat F N) : ((l.map f).sum).trace = (l.map fun x => (f x).trace).sum := by
  induction l with
  | nil => simp
  | cons a l ih => simp [ih, Matrix.trace_add]

theorem list_sum_finset {α ι : Type} [Fintype ι] (l : List α) (f : α → ι → F) :
    (l.map fun x => ∑ i, f x i).sum = ∑ i, (l.map fun x => f x i).sum := by
  induction l with
  | nil => simp
  | cons a l ih => simp [ih, Finset.sum_add_distrib]

/-- **C85** `symmetrize` is self-adjoint for the scalar product `Σ_r tr(A(r)^+ B(r))`; with `C85_covariant` and `C85_fixed`
it is the orthogonal projection onto the operators that have the symmetry. -/
theorem C85_orthogonal [CharZero F] (ρ : Rep K F d N) (hρ : IsRep ρ) (hu : IsUnitary ρ) (hc : ρ.sym.Constructed)
    (hinv : ρ.sym.inversion = true) (ns : List (Fin d → K)) (hns : HalfList ns) (A B RA RB : List (Mat F N))
    (hA : A.length = ns.length) (hB : B.length = ns.length)
    (h1 : ρ.symmetrize ns A = .ok RA) (h2 : ρ.symmetrize ns B = .ok RB) :
    ∑ i : Fin ns.length, ((A.getD i 0).conjTranspose * RB.getD i 0).trace =
      ∑ i : Fin ns.length, ((RA.getD i 0).conjTranspose * B.getD i 0).trace := by
  by_cases hU : ρ.U.length ≤ 1
  · rw [(C85_returns ρ ns A hρ.len hA).1 hU] at h1
    rw [(C85_returns ρ ns B hρ.len hB).1 hU] at h2
    obtain rfl := Except.ok.inj h1
    obtain rfl := Except.ok.inj h2
    rfl
  have hU : 2 ≤ ρ.U.length := by omega
  have hcl : ClosedUpToSign ρ ns := by
    by_contra hcl
    rw [(C85_returns ρ ns A hρ.len hA).2.2 hU hcl] at h1
    cases h1
  rw [symmetrize_eq ρ ns A hρ.len hU hA hcl] at h1
  rw [symmetrize_eq ρ ns B hρ.len hU hB hcl] at h2
  obtain rfl := Except.ok.inj h1
  obtain rfl := Except.ok.inj h2
  have hg := pairGroup_of ρ hρ hu hc
  set Z := ρ.sym.S.zip ρ.U with hZ
  set k := ρ.invSplit with hk
  have hJ : ∀ p ∈ Z, invOp N k * p.2 = p.2 * invOp N k := fun p hp =>
    commute_of_parity (hρ.parity hinv _ (List.of_mem_zip hp).2)
  have hJ' : ∀ p ∈ Z, p.2.conjTranspose * invOp N k = invOp N k * p.2.conjTranspose := by
    intro p hp
    have := congrArg Matrix.conjTranspose (hJ p hp)
    simpa [Matrix.conjTranspose_mul, invOp_conjTranspose] using this
  -- the terms of the two sides
  let t : Fin ns.length → Fin ns.length → (Mat K d × Mat F N) → F := fun i j p =>
    (if p.1.mulVec ns[i.1] = 0 then (2 : F)⁻¹ else 1) *
      ((if ns[j.1] = p.1.mulVec ns[i.1] then ((A.getD i 0).conjTranspose * (p.2.conjTranspose * B.getD j 0 * p.2)).trace else 0) +
       (if ns[j.1] = -(p.1.mulVec ns[i.1]) then ((A.getD i 0).conjTranspose *
          (p.2.conjTranspose * (invOp N k * B.getD j 0 * invOp N k) * p.2)).trace else 0))
  let t' : Fin ns.length → Fin ns.length → (Mat K d × Mat F N) → F := fun j i p =>
    (if p.1.mulVec ns[j.1] = 0 then (2 : F)⁻¹ else 1) *
      ((if ns[i.1] = p.1.mulVec ns[j.1] then ((p.2.conjTranspose * A.getD i 0 * p.2).conjTranspose * B.getD j 0).trace else 0) +
       (if ns[i.1] = -(p.1.mulVec ns[j.1]) then
          ((p.2.conjTranspose * (invOp N k * A.getD i 0 * invOp N k) * p.2).conjTranspose * B.getD j 0).trace else 0))
  have hL : ∀ i : Fin ns.length, ((A.getD i 0).conjTranspose * gsum Z (val k true ns B) ns[i.1]).trace =
      ∑ j, (Z.map fun p => t i j p).sum := by
    intro i
    have e1 : (A.getD i 0).conjTranspose * gsum Z (val k true ns B) ns[i.1] =
        (Z.map fun p => (A.getD i 0).conjTranspose * (p.2.conjTranspose * val k true ns B (p.1.mulVec ns[i.1]) * p.2)).sum := by
      have := list_sum_mul Z (fun p => p.2.conjTranspose * val k true ns B (p.1.mulVec ns[i.1]) * p.2) (A.getD i 0).conjTranspose 1
      simp only [mul_one] at this
      rw [this]
      rfl
    rw [e1, trace_list_sum, ← list_sum_finset]
    congr 1
    refine List.map_congr_left fun p hp => ?_
    rw [val_sum hns B (closed_pairs ρ ns hcl _ (List.getElem_mem i.2) p hp)]
    rw [Matrix.mul_smul, Matrix.smul_mul, Matrix.mul_smul, Matrix.trace_smul, Matrix.mul_sum, Matrix.sum_mul, Matrix.mul_sum,
      Matrix.trace_sum, smul_eq_mul, Finset.mul_sum]
    refine Finset.sum_congr rfl fun j _ => ?_
    simp only [t]
    congr 1
    rw [Matrix.mul_add, Matrix.add_mul, Matrix.mul_add, Matrix.trace_add]
    congr 1 <;> split_ifs <;> simp
  have hR : ∀ j : Fin ns.length, ((gsum Z (val k true ns A) ns[j.1]).conjTranspose * B.getD j 0).trace =
      ∑ i, (Z.map fun p => t' j i p).sum := by
    intro j
    have e1 : (gsum Z (val k true ns A) ns[j.1]).conjTranspose * B.getD j 0 =
        (Z.map fun p => (p.2.conjTranspose * val k true ns A (p.1.mulVec ns[j.1]) * p.2).conjTranspose * B.getD j 0).sum := by
      have h' : ∀ l : List (Mat K d × Mat F N), ((l.map fun p => p.2.conjTranspose * val k true ns A (p.1.mulVec ns[j.1]) * p.2).sum).conjTranspose =
          (l.map fun p => (p.2.conjTranspose * val k true ns A (p.1.mulVec ns[j.1]) * p.2).conjTranspose).sum := by
        intro l; induction l with
        | nil => simp
        | cons a l ih => simp only [List.map_cons, List.sum_cons, Matrix.conjTranspose_add, ih]
      have := list_sum_mul Z (fun p => (p.2.conjTranspose * val k true ns A (p.1.mulVec ns[j.1]) * p.2).conjTranspose) 1 (B.getD j 0)
      simp only [one_mul] at this
      rw [this, ← h' Z]
      rfl
    rw [e1, trace_list_sum, ← list_sum_finset]
    congr 1
    refine List.map_congr_left fun p hp => ?_
    rw [val_sum hns A (closed_pairs ρ ns hcl _ (List.getElem_mem j.2) p hp)]
    rw [Matrix.mul_smul, Matrix.smul_mul, Matrix.conjTranspose_smul, Matrix.smul_mul, Matrix.trace_smul, Matrix.mul_sum,
      Matrix.sum_mul, Matrix.conjTranspose_sum, Matrix.sum_mul, Matrix.trace_sum, smul_eq_mul, Finset.mul_sum]
    refine Finset.sum_congr rfl fun i _ => ?_
    simp only [t']
    congr 1
    · split_ifs <;> simp
    · rw [Matrix.mul_add, Matrix.add_mul, Matrix.conjTranspose_add, Matrix.add_mul, Matrix.trace_add]
      congr 1 <;> split_ifs <;> simp
  have htt : ∀ i j, ∀ p ∈ Z, t' j i (p.1⁻¹, p.2.conjTranspose) = t i j p := by
    intro i j p hp
    have hd := hg.det p hp
    have q1 : p.1⁻¹.mulVec (p.1.mulVec ns[i.1]) = ns[i.1] := by
      rw [Matrix.mulVec_mulVec, Matrix.nonsing_inv_mul _ hd, Matrix.one_mulVec]
    have q2 : p.1.mulVec (p.1⁻¹.mulVec ns[j.1]) = ns[j.1] := by
      rw [Matrix.mulVec_mulVec, Matrix.mul_nonsing_inv _ hd, Matrix.one_mulVec]
    have c1 : (ns[i.1] = p.1⁻¹.mulVec ns[j.1]) ↔ ns[j.1] = p.1.mulVec ns[i.1] := by
      constructor
      · intro h; rw [h, q2]
      · intro h; rw [h, q1]
    have c2 : (ns[i.1] = -(p.1⁻¹.mulVec ns[j.1])) ↔ ns[j.1] = -(p.1.mulVec ns[i.1]) := by
      constructor
      · intro h; rw [h, Matrix.mulVec_neg, q2, neg_neg]
      · intro h; rw [h, Matrix.mulVec_neg, q1, neg_neg]
    have c3 : p.1⁻¹.mulVec ns[j.1] = 0 ↔ ns[j.1] = 0 := by
      constructor
      · intro h; rw [← q2, h, Matrix.mulVec_zero]
      · intro h; rw [h, Matrix.mulVec_zero]
    have hcyc : ∀ X Y : Mat F N, ((p.2 * X * p.2.conjTranspose).conjTranspose * Y).trace =
        (X.conjTranspose * (p.2.conjTranspose * Y * p.2)).trace := by
      intro X Y
      rw [Matrix.conjTranspose_mul, Matrix.conjTranspose_mul, Matrix.conjTranspose_conjTranspose]
      rw [Matrix.mul_assoc p.2, Matrix.trace_mul_comm p.2]
      simp only [Matrix.mul_assoc]
    have m1 : ((p.2 * A.getD i 0 * p.2.conjTranspose).conjTranspose * B.getD j 0).trace =
        ((A.getD i 0).conjTranspose * (p.2.conjTranspose * B.getD j 0 * p.2)).trace := hcyc _ _
    have m2 : ((p.2 * (invOp N k * A.getD i 0 * invOp N k) * p.2.conjTranspose).conjTranspose * B.getD j 0).trace =
        ((A.getD i 0).conjTranspose * (p.2.conjTranspose * (invOp N k * B.getD j 0 * invOp N k) * p.2)).trace := by
      rw [hcyc]
      have e3 : p.2.conjTranspose * (invOp N k * B.getD j 0 * invOp N k) * p.2 =
          invOp N k * (p.2.conjTranspose * B.getD j 0 * p.2) * invOp N k := by
        have := hJ p hp
        have := hJ' p hp
        calc p.2.conjTranspose * (invOp N k * B.getD j 0 * invOp N k) * p.2
            = (p.2.conjTranspose * invOp N k) * B.getD j 0 * (invOp N k * p.2) := by simp only [Matrix.mul_assoc]
          _ = _ := by rw [hJ p hp, hJ' p hp]; simp only [Matrix.mul_assoc]
      rw [e3, Matrix.conjTranspose_mul, Matrix.conjTranspose_mul, invOp_conjTranspose]
      rw [Matrix.mul_assoc, Matrix.trace_mul_comm]
      simp only [Matrix.mul_assoc]
    simp only [t, t', c1, c2, c3, Matrix.conjTranspose_conjTranspose, m1, m2]
    by_cases e1 : ns[j.1] = p.1.mulVec ns[i.1]
    · rw [← e1]
    · by_cases e2 : ns[j.1] = -(p.1.mulVec ns[i.1])
      · have : (ns[j.1] = 0) ↔ p.1.mulVec ns[i.1] = 0 := by rw [e2, neg_eq_zero]
        simp only [this]
      · simp [e1, e2]
  have hmain : ∑ i : Fin ns.length, ∑ j, (Z.map fun p => t i j p).sum = ∑ j : Fin ns.length, ∑ i, (Z.map fun p => t' j i p).sum := by
    rw [Finset.sum_comm]
    refine Finset.sum_congr rfl fun j _ => Finset.sum_congr rfl fun i _ => ?_
    have := (hg.perm_inv.map fun p => t' j i p).sum_eq
    rw [← this, List.map_map]
    congr 1
    exact List.map_congr_left fun p hp => (htt i j p hp).symm
  have eA : ∀ i : Fin ns.length, ((A.getD i 0).conjTranspose * (ns.map fun r => (ρ.U.length : F)⁻¹ •
      gsum Z (val k ρ.sym.inversion ns B) r).getD i 0).trace = (ρ.U.length : F)⁻¹ * ∑ j, (Z.map fun p => t i j p).sum := by
    intro i
    rw [getD_map_lt _ _ _ _ i.2, hinv, Matrix.mul_smul, Matrix.trace_smul, smul_eq_mul, hL i]
  have eB : ∀ j : Fin ns.length, (((ns.map fun r => (ρ.U.length : F)⁻¹ •
      gsum Z (val k ρ.sym.inversion ns A) r).getD j 0).conjTranspose * B.getD j 0).trace =
      (ρ.U.length : F)⁻¹ * ∑ i, (Z.map fun p => t' j i p).sum := by
    intro j
    rw [getD_map_lt _ _ _ _ j.2, hinv, Matrix.conjTranspose_smul, Matrix.smul_mul, Matrix.trace_smul, smul_eq_mul, hR j]
    congr 1
    simp
  rw [Finset.sum_congr rfl fun i _ => eA i, Finset.sum_congr rfl fun i _ => eB i, ← Finset.mul_sum, ← Finset.mul_sum, hmain]

example : ∃ R, exRep.symmetrize [![0, 0, 0], ![1, 0, 0]] [!![1, 2; 3, 4], !![5, 6; 7, 8]] = .ok R ∧
    IsRep exRep ∧ IsUnitary exRep ∧ exRep.sym.Constructed ∧ exRep.sym.inversion = true ∧
    HalfList [![(0 : ℚ), 0, 0], ![1, 0, 0]] := by
  obtain ⟨R, h, -⟩ := exRep_symmetrize
  exact ⟨R, h, exRep_isRep, exRep_unitary, exRep_constructed, rfl, ⟨by decide +kernel, by decide +kernel⟩⟩

/-- **C85** Without inversion the sign of the position is ignored: the result takes the *same* value `U R(r) U^+` at a neighbour
that is the image `S r` and at a neighbour that is the negative `-S r` of an image.  That is right for coefficients of `cos(k·r)`
only; the hopping matrices of a hermitian operator satisfy `H(-r) = H(r)^+` instead. -/
theorem C85_no_inversion (ρ : Rep K F d N) (hρ : IsRep ρ) (hu : IsUnitary ρ) (hc : ρ.sym.Constructed) (hinv : ρ.sym.inversion = false)
    (ns : List (Fin d → K)) (hns : HalfList ns) (H R : List (Mat F N)) (hH : H.length = ns.length) (hU : 2 ≤ ρ.U.length)
    (h : ρ.symmetrize ns H = .ok R) :
    ∀ p ∈ ρ.sym.S.zip ρ.U, ∀ (i j : ℕ) (hi : i < ns.length) (hj : j < ns.length),
      (ns[j] = p.1.mulVec ns[i] ∨ ns[j] = -p.1.mulVec ns[i]) → R.getD j 0 = p.2 * R.getD i 0 * p.2.conjTranspose := by
  have hcl : ClosedUpToSign ρ ns := by
    by_contra hcl
    rw [(C85_returns ρ ns H hρ.len hH).2.2 hU hcl] at h
    cases h
  rw [symmetrize_eq ρ ns H hρ.len hU hH hcl] at h
  obtain rfl := Except.ok.inj h
  have hg := pairGroup_of ρ hρ hu hc
  intro p hp i j hi hj he
  rw [getD_map_lt _ _ _ _ hi, getD_map_lt _ _ _ _ hj, Matrix.mul_smul, Matrix.smul_mul]
  have hcov : gsum (ρ.sym.S.zip ρ.U) (val ρ.invSplit ρ.sym.inversion ns H) (p.1.mulVec ns[i]) =
      p.2 * gsum (ρ.sym.S.zip ρ.U) (val ρ.invSplit ρ.sym.inversion ns H) ns[i] * p.2.conjTranspose :=
    hg.sum_covariant (val ρ.invSplit ρ.sym.inversion ns H) hp ns[i]
  rw [← hcov]
  rcases he with he | he
  · rw [he]
  · rw [he]
    congr 1
    unfold gsum
    congr 1
    refine List.map_congr_left fun q hq => ?_
    have hmem : q.1.mulVec (p.1.mulVec ns[i]) ∈ ns ∨ -(q.1.mulVec (p.1.mulVec ns[i])) ∈ ns := by
      rcases closed_pairs ρ ns hcl ns[i] (List.getElem_mem hi) p hp with h' | h'
      · exact closed_pairs ρ ns hcl _ h' q hq
      · have := closed_pairs ρ ns hcl _ h' q hq
        rw [Matrix.mulVec_neg, neg_neg] at this
        exact this.symm
    rw [Matrix.mulVec_neg, hinv, val_neg_noinv hns.half hmem]

/-- The rotation by 180° about `z` represented on two states, without inversion. -/
def exRepN : Rep ℚ ℚ 3 2 := ⟨⟨[1, rz2], false⟩, [1, !![1, 0; 0, -1]], 2⟩

theorem exRepN_isRep : IsRep exRepN :=
  ⟨by decide +kernel, by decide +kernel, by decide +kernel, by decide +kernel, (fun h => by simp [exRepN] at h), by decide +kernel⟩

theorem exRepN_symmetrize : ∃ R, exRepN.symmetrize [![0, 0, 0], ![1, 0, 0]] [!![1, 2; 3, 4], !![5, 6; 7, 8]] = .ok R ∧
    decide (R = [!![1, 0; 0, 4], !![5, 0; 0, 8]]) = true :=
  okAnd_iff.1 (by decide +kernel)

example : IsRep exRepN ∧ IsUnitary exRepN ∧ exRepN.sym.Constructed ∧ exRepN.sym.inversion = false ∧ 2 ≤ exRepN.U.length ∧
    HalfList [![(0 : ℚ), 0, 0], ![1, 0, 0]] ∧
    ∃ R, exRepN.symmetrize [![0, 0, 0], ![1, 0, 0]] [!![1, 2; 3, 4], !![5, 6; 7, 8]] = .ok R := by
  obtain ⟨R, h, -⟩ := exRepN_symmetrize
  exact ⟨exRepN_isRep, by unfold IsUnitary; decide +kernel, ⟨[1, rz2], false, by decide +kernel⟩, rfl, by decide +kernel,
    ⟨by decide +kernel, by decide +kernel⟩, R, h⟩

/-- **C85** An operator that has the symmetry and is hermitian need not survive `symmetrize` without inversion: the rotation by
180° maps the neighbour `r = e_x` to `-r`, so the symmetry asks for `H(r)^+ = H(-r) = U H(r) U^+`.  The matrix
`[[5, 6], [-6, 8]]` satisfies that, but the off-diagonal part of it is removed. -/
theorem C85_defect_no_inversion : ∃ R, exRepN.symmetrize [![0, 0, 0], ![1, 0, 0]] [!![1, 0; 0, 4], !![5, 6; -6, 8]] = .ok R ∧
    R ≠ [!![1, 0; 0, 4], !![5, 6; -6, 8]] ∧
    (∀ p ∈ exRepN.sym.S.zip exRepN.U, p.1.mulVec ![1, 0, 0] = ![-1, 0, 0] →
      (!![5, 6; -6, 8] : Mat ℚ 2).conjTranspose = p.2 * !![5, 6; -6, 8] * p.2.conjTranspose) := by
  obtain ⟨R, h, hR⟩ : ∃ R, exRepN.symmetrize [![0, 0, 0], ![1, 0, 0]] [!![1, 0; 0, 4], !![5, 6; -6, 8]] = .ok R ∧
      decide (R = [!![1, 0; 0, 4], !![5, 0; 0, 8]]) = true := okAnd_iff.1 (by decide +kernel)
  refine ⟨R, h, ?_, by decide +kernel⟩
  rw [of_decide_eq_true hR]
  decide +kernel

end TB.UR

import Mathlib.Data.Matrix.Block
import Mathlib.Tactic.NormNum
import Mathlib.Tactic.FinCases
import Mathlib.Tactic.Ring
import Mathlib.Analysis.Complex.Basic
import Verif.Props.UnitaryRep
import Verif.Spec.Representation

/-!
# Properties C82–C84: sums, multiples and permutations of unitary representations
-/

set_option linter.unusedSectionVars false

namespace TB.UR
open Spec Matrix

variable {K : Type} [Field K] [LinearOrder K] [IsStrictOrderedRing K] {d : ℕ}
variable {F : Type} [Field F] [StarRing F] [DecidableEq F] {N M : ℕ}

theorem mem_zip_iff {α β : Type} {S : List α} {U : List β} {p : α × β} :
    p ∈ S.zip U ↔ ∃ i, ∃ (h : i < S.length) (h' : i < U.length), p = (S[i], U[i]) := by
  rw [List.mem_iff_getElem]
  constructor
  · rintro ⟨i, hi, rfl⟩
    simp only [List.length_zip, lt_inf_iff] at hi
    exact ⟨i, hi.1, hi.2, by simp⟩
  · rintro ⟨i, h, h', rfl⟩
    exact ⟨i, by simp [h, h'], by simp⟩

theorem mem_zip_zipWith {α β γ δ : Type} {S : List α} {U : List β} {V : List γ} {f : β → γ → δ} (hS : S.Nodup)
    {p : α × δ} : p ∈ S.zip (List.zipWith f U V) ↔
      ∃ u v, (p.1, u) ∈ S.zip U ∧ (p.1, v) ∈ S.zip V ∧ p.2 = f u v := by
  constructor
  · intro h
    obtain ⟨i, hi, h', rfl⟩ := mem_zip_iff.1 h
    simp only [List.length_zipWith, lt_inf_iff] at h'
    exact ⟨U[i]'h'.1, V[i]'h'.2, mem_zip_iff.2 ⟨i, hi, h'.1, rfl⟩, mem_zip_iff.2 ⟨i, hi, h'.2, rfl⟩, by simp⟩
  · rintro ⟨u, v, hu, hv, he⟩
    obtain ⟨i, hi, hi', e1⟩ := mem_zip_iff.1 hu
    obtain ⟨j, hj, hj', e2⟩ := mem_zip_iff.1 hv
    simp only [Prod.mk.injEq] at e1 e2
    have : i = j := (hS.getElem_inj_iff).1 (e1.1.symm.trans e2.1)
    subst this
    refine mem_zip_iff.2 ⟨i, hi, by simp [hi', hj'], Prod.ext e1.1 ?_⟩
    rw [he, e1.2, e2.2]; simp

theorem mem_zip_map {α β δ : Type} {S : List α} {U : List β} {f : β → δ} {p : α × δ} :
    p ∈ S.zip (U.map f) ↔ ∃ u, (p.1, u) ∈ S.zip U ∧ p.2 = f u := by
  rw [List.zip_map_right, List.mem_map]
  constructor
  · rintro ⟨⟨s, u⟩, h, rfl⟩; exact ⟨u, h, rfl⟩
  · rintro ⟨u, h, he⟩; exact ⟨(p.1, u), h, Prod.ext rfl he.symm⟩

theorem mem_zip_right {α β : Type} {S : List α} {U : List β} (h : S.length = U.length) {u : β} :
    u ∈ U ↔ ∃ s, (s, u) ∈ S.zip U := by
  constructor
  · intro hu
    obtain ⟨i, hi, rfl⟩ := List.mem_iff_getElem.1 hu
    exact ⟨S[i]'(h ▸ hi), mem_zip_iff.2 ⟨i, h ▸ hi, hi, rfl⟩⟩
  · rintro ⟨s, hs⟩; exact (List.of_mem_zip hs).2

theorem zip_unique {α β : Type} {S : List α} {U : List β} (hS : S.Nodup) {s : α} {u v : β}
    (h1 : (s, u) ∈ S.zip U) (h2 : (s, v) ∈ S.zip U) : u = v := by
  obtain ⟨i, hi, hi', e1⟩ := mem_zip_iff.1 h1
  obtain ⟨j, hj, hj', e2⟩ := mem_zip_iff.1 h2
  simp only [Prod.mk.injEq] at e1 e2
  have : i = j := (hS.getElem_inj_iff).1 (e1.1.symm.trans e2.1)
  subst this
  rw [e1.2, e2.2]

/-- The basis change that puts the second block first. -/
def swapEquiv (N M : ℕ) : Fin N ⊕ Fin M ≃ Fin (N + M) :=
  (Equiv.sumComm _ _).trans (finSumFinEquiv.trans (finCongr (Nat.add_comm M N)))

theorem dsumR_eq (a : Mat F N) (b : Mat F M) :
    dsumR a b = (Matrix.fromBlocks a 0 0 b).submatrix (swapEquiv N M).symm (swapEquiv N M).symm := by
  ext i j
  unfold dsumR dsumL swapEquiv
  simp only [Matrix.submatrix_apply, Equiv.symm_trans_apply, Equiv.sumComm_symm, finCongr_symm]
  generalize finSumFinEquiv.symm (finCongr (Nat.add_comm N M) i) = x
  generalize finSumFinEquiv.symm (finCongr (Nat.add_comm N M) j) = y
  rcases x with x | x <;> rcases y with y | y <;> simp

/-- The direct sum of representations along any identification of the bases is a representation. -/
theorem isRep_directSum (ρ : Rep K F d N) (σ : Rep K F d M) (hρ : IsRep ρ) (hσ : IsRep σ) (hS : σ.sym = ρ.sym)
    {D : ℕ} (e : Fin N ⊕ Fin M ≃ Fin D) (k : ℕ) (hk : k ≤ D)
    (he1 : ∀ a : Fin N, (e (Sum.inl a)).val < k ↔ a.val < ρ.invSplit)
    (he2 : ∀ b : Fin M, (e (Sum.inr b)).val < k ↔ b.val < σ.invSplit) :
    IsRep (⟨ρ.sym, List.zipWith (fun a b => (Matrix.fromBlocks a 0 0 b).submatrix e.symm e.symm) ρ.U σ.U, k⟩ : Rep K F d D) := by
  have hS' : σ.sym.S = ρ.sym.S := by rw [hS]
  refine ⟨?_, hρ.nodup, ?_, ?_, ?_, hk⟩
  · simp only [List.length_zipWith]; rw [← hρ.len, ← hσ.len, hS']; simp
  · refine (mem_zip_zipWith hρ.nodup).2 ⟨1, 1, hρ.one, hS' ▸ hσ.one, ?_⟩
    simp [Matrix.fromBlocks_one]
  · intro p hp q hq
    obtain ⟨u, v, hu, hv, h1⟩ := (mem_zip_zipWith hρ.nodup).1 hp
    obtain ⟨u', v', hu', hv', h2⟩ := (mem_zip_zipWith hρ.nodup).1 hq
    have hv2 : (p.1 * q.1, v * v') ∈ ρ.sym.S.zip σ.U :=
      hS' ▸ hσ.mul _ (hS'.symm ▸ hv) _ (hS'.symm ▸ hv')
    refine (mem_zip_zipWith hρ.nodup).2 ⟨u * u', v * v', hρ.mul _ hu _ hu', hv2, ?_⟩
    rw [h1, h2, Matrix.submatrix_mul_equiv, Matrix.fromBlocks_multiply]
    simp
  · intro hi w hw a b hab
    obtain ⟨i, hi', rfl⟩ := List.mem_iff_getElem.1 hw
    simp only [List.length_zipWith, lt_inf_iff] at hi'
    simp only [List.getElem_zipWith, Matrix.submatrix_apply]
    obtain ⟨x, rfl⟩ := e.surjective a
    obtain ⟨y, rfl⟩ := e.surjective b
    simp only [Equiv.symm_apply_apply]
    rcases x with x | x <;> rcases y with y | y
    · rw [he1, he1] at hab
      exact hρ.parity hi _ (List.getElem_mem hi'.1) x y hab
    · rfl
    · rfl
    · rw [he2, he2] at hab
      exact hσ.parity (by rw [hS]; exact hi) _ (List.getElem_mem hi'.2) x y hab

/-- The result of `a + b` before the choice of the order of the blocks: the matched second representation. -/
theorem matched_isRep (τ : Rep K F d M) (hτ : IsRep τ) (σ : Sym K d) (U : List (Mat F M))
    (hU : U.length = σ.S.length) (hp : (σ.S.zip U).Perm (τ.sym.S.zip τ.U)) (hi : σ.inversion = τ.sym.inversion)
    (hS : σ.S.Perm τ.sym.S) :
    IsRep (⟨σ, U, τ.invSplit⟩ : Rep K F d M) := by
  refine ⟨hU.symm, hS.nodup_iff.2 hτ.nodup, hp.symm.subset hτ.one, ?_, ?_, hτ.split⟩
  · intro p h q h'
    exact hp.symm.subset (hτ.mul _ (hp.subset h) _ (hp.subset h'))
  · intro h u hu
    obtain ⟨s, hs⟩ := (mem_zip_right hU.symm).1 hu
    exact hτ.parity (hi ▸ h) u (List.of_mem_zip (hp.subset hs)).2

/-- **C82** The sum `a + b` of two representations (with matrices whose entries survive the conversion to floating point
numbers): when both list the same operations with the same inversion flag and one of them has only states of one parity, the
result is a representation of the operations of `a`, in the order of `a`, and it is the direct sum: there is a numbering `e`
of the two bases together such that the matrix of each operation has the matrices of `a` and `b` as blocks, and the parity of
each state is the one that it has in `a` or `b`. -/
theorem C82_add (flt : F → F) (ρ : Rep K F d N) (τ : Rep K F d M) (hρ : IsRep ρ) (hτ : IsRep τ)
    (hc : τ.sym.Constructed) (h0 : flt 0 = 0)
    (hf1 : ∀ u ∈ ρ.U, ∀ a b, flt (u a b) = u a b) (hf2 : ∀ u ∈ τ.U, ∀ a b, flt (u a b) = u a b)
    (hi : ρ.sym.inversion = τ.sym.inversion) (hS : ρ.sym.S.Perm τ.sym.S)
    (hk : ρ.invSplit = 0 ∨ ρ.invSplit = N ∨ τ.invSplit = 0 ∨ τ.invSplit = M) :
    ∃ R, ρ.add flt τ = .ok R ∧ R.sym = ρ.sym ∧ IsRep R ∧
      ∃ e : Fin N ⊕ Fin M ≃ Fin (N + M),
        (∀ s u v, (s, u) ∈ ρ.sym.S.zip ρ.U → (s, v) ∈ τ.sym.S.zip τ.U →
          (s, (Matrix.fromBlocks u 0 0 v).submatrix e.symm e.symm) ∈ R.sym.S.zip R.U) ∧
        (∀ a : Fin N, (e (Sum.inl a)).val < R.invSplit ↔ a.val < ρ.invSplit) ∧
        (∀ b : Fin M, (e (Sum.inr b)).val < R.invSplit ↔ b.val < τ.invSplit) := by
  have hcopy : τ.copy = .ok τ := by unfold Rep.copy Sym.copy; rw [hc.fix]
  have hne : τ.sym.S ≠ [] := List.ne_nil_of_mem hc.one_mem
  rcases C80_match_sym τ ρ.sym hτ.len hτ.nodup hne with ⟨-, U, hU, hUl, hUp⟩ | ⟨hno, -⟩
  swap
  · exact absurd ⟨hi, hS⟩ hno
  have hrep := matched_isRep τ hτ ρ.sym U hUl hUp hi hS
  have hf2' : ∀ u ∈ U, ∀ a b, flt (u a b) = u a b := by
    intro u hu
    obtain ⟨s, hs⟩ := (mem_zip_right hUl.symm).1 hu
    exact hf2 u (List.of_mem_zip (hUp.subset hs)).2
  have hmap : ∀ (f : Mat F N → Mat F M → Mat F (N + M)) (e : Fin N ⊕ Fin M ≃ Fin (N + M)),
      (∀ a b, f a b = (Matrix.fromBlocks a 0 0 b).submatrix e.symm e.symm) →
      List.zipWith (fun a b => (f a b).map flt) ρ.U U =
        List.zipWith (fun a b => (Matrix.fromBlocks a 0 0 b).submatrix e.symm e.symm) ρ.U U := by
    intro f e hfe
    apply List.ext_getElem (by simp)
    intro i h1 h2
    simp only [List.length_zipWith, lt_inf_iff] at h1
    simp only [List.getElem_zipWith, hfe]
    ext x y
    simp only [Matrix.map_apply, Matrix.submatrix_apply]
    rcases e.symm x with a | a <;> rcases e.symm y with b | b
    · exact hf1 _ (List.getElem_mem h1.1) a b
    · exact h0
    · exact h0
    · exact hf2' _ (List.getElem_mem h1.2) a b
  have key : ∀ (e : Fin N ⊕ Fin M ≃ Fin (N + M)),
      (∀ a : Fin N, (e (Sum.inl a)).val < ρ.invSplit + τ.invSplit ↔ a.val < ρ.invSplit) →
      (∀ b : Fin M, (e (Sum.inr b)).val < ρ.invSplit + τ.invSplit ↔ b.val < τ.invSplit) →
      ∃ R, (Except.ok (⟨ρ.sym, List.zipWith (fun a b => (Matrix.fromBlocks a 0 0 b).submatrix e.symm e.symm) ρ.U U,
          ρ.invSplit + τ.invSplit⟩ : Rep K F d (N + M)) : Except Err _) = .ok R ∧ R.sym = ρ.sym ∧ IsRep R ∧
      ∃ e : Fin N ⊕ Fin M ≃ Fin (N + M),
        (∀ s u v, (s, u) ∈ ρ.sym.S.zip ρ.U → (s, v) ∈ τ.sym.S.zip τ.U →
          (s, (Matrix.fromBlocks u 0 0 v).submatrix e.symm e.symm) ∈ R.sym.S.zip R.U) ∧
        (∀ a : Fin N, (e (Sum.inl a)).val < R.invSplit ↔ a.val < ρ.invSplit) ∧
        (∀ b : Fin M, (e (Sum.inr b)).val < R.invSplit ↔ b.val < τ.invSplit) := by
    intro e h1 h2
    refine ⟨_, rfl, rfl, isRep_directSum ρ ⟨ρ.sym, U, τ.invSplit⟩ hρ hrep rfl e _ ?_ h1 h2, e, ?_, h1, h2⟩
    · have := hρ.split; have := hτ.split; omega
    · intro s u v hu hv
      exact (mem_zip_zipWith hρ.nodup).2 ⟨u, v, hu, hUp.symm.subset hv, rfl⟩
  have hN := hρ.split
  have hM := hτ.split
  have left1 : ∀ a : Fin N, ((finSumFinEquiv (m := N) (n := M)) (Sum.inl a)).val = a.val := fun a => by simp
  have left2 : ∀ b : Fin M, ((finSumFinEquiv (m := N) (n := M)) (Sum.inr b)).val = N + b.val := fun b => by simp
  have right1 : ∀ a : Fin N, (swapEquiv N M (Sum.inl a)).val = M + a.val := fun a => by simp [swapEquiv, Nat.add_comm]
  have right2 : ∀ b : Fin M, (swapEquiv N M (Sum.inr b)).val = b.val := fun b => by simp [swapEquiv]
  unfold Rep.add
  rw [hcopy]
  simp only [hU]
  rw [hmap dsumR (swapEquiv N M) dsumR_eq, hmap dsumL finSumFinEquiv (fun _ _ => rfl)]
  by_cases c1 : ρ.invSplit = 0
  · rw [if_pos c1]
    refine key (swapEquiv N M) (fun a => ?_) (fun b => ?_)
    · rw [right1]; omega
    · rw [right2]; omega
  rw [if_neg c1]
  by_cases c2 : ρ.invSplit = N
  · rw [if_pos c2]
    refine key finSumFinEquiv (fun a => ?_) (fun b => ?_)
    · rw [left1]; omega
    · rw [left2]; omega
  rw [if_neg c2]
  by_cases c3 : τ.invSplit = 0
  · rw [if_pos c3]
    refine key finSumFinEquiv (fun a => ?_) (fun b => ?_)
    · rw [left1]; omega
    · rw [left2]; have := b.2; omega
  rw [if_neg c3]
  have c4 : τ.invSplit = M := by tauto
  rw [if_pos c4]
  refine key (swapEquiv N M) (fun a => ?_) (fun b => ?_)
  · rw [right1]; omega
  · rw [right2]; have := b.2; omega

/-- The two one dimensional representations of a half turn; the even state comes first. -/
example : ∃ R, (⟨⟨[1, rz2], true⟩, [1, -1], 0⟩ : Rep ℚ ℚ 3 1).add id (⟨⟨[1, rz2], true⟩, [1, 1], 1⟩ : Rep ℚ ℚ 3 1) = .ok R ∧
    decide (R.invSplit = 1 ∧ R.U.map (fun u => (u 0 0, u 0 1, u 1 0, u 1 1)) = [(1, 0, 0, 1), (1, 0, 0, -1)]) = true :=
  okAnd_iff.1 (by decide +kernel)

/-- **C82** Otherwise the sum raises `ValueError`. -/
theorem C82_add_error (flt : F → F) (ρ : Rep K F d N) (τ : Rep K F d M) (hτ : IsRep τ) (hc : τ.sym.Constructed)
    (h : ¬ (ρ.sym.inversion = τ.sym.inversion ∧ ρ.sym.S.Perm τ.sym.S ∧
      (ρ.invSplit = 0 ∨ ρ.invSplit = N ∨ τ.invSplit = 0 ∨ τ.invSplit = M))) :
    ρ.add flt τ = .error .valueError := by
  have hcopy : τ.copy = .ok τ := by unfold Rep.copy Sym.copy; rw [hc.fix]
  have hne : τ.sym.S ≠ [] := List.ne_nil_of_mem hc.one_mem
  unfold Rep.add
  rw [hcopy]
  rcases C80_match_sym τ ρ.sym hτ.len hτ.nodup hne with ⟨⟨hi, hS⟩, U, hU, hUl, hUp⟩ | ⟨-, hU⟩
  · have h' : ¬ (ρ.invSplit = 0 ∨ ρ.invSplit = N ∨ τ.invSplit = 0 ∨ τ.invSplit = M) := fun hk => h ⟨hi, hS, hk⟩
    push Not at h'
    simp only [hU]
    rw [if_neg h'.1, if_neg h'.2.1, if_neg h'.2.2.1, if_neg h'.2.2.2]
  · simp only [hU]

example : (⟨⟨[1, rz2], true⟩, [1, 1], 1⟩ : Rep ℚ ℚ 3 2).add id (⟨⟨[1, rz2], true⟩, [1, 1], 1⟩ : Rep ℚ ℚ 3 2) =
    (.error .valueError : Except Err (Rep ℚ ℚ 3 (2 + 2))) := by decide +kernel

/-- **C82** Sums of unitary representations are unitary. -/
theorem C82_unitary (flt : F → F) (ρ : Rep K F d N) (τ : Rep K F d M) (R : Rep K F d (N + M)) (hρ : IsRep ρ) (hτ : IsRep τ)
    (hc : τ.sym.Constructed) (h0 : flt 0 = 0)
    (hf1 : ∀ u ∈ ρ.U, ∀ a b, flt (u a b) = u a b) (hf2 : ∀ u ∈ τ.U, ∀ a b, flt (u a b) = u a b)
    (h1 : IsUnitary ρ) (h2 : IsUnitary τ) (h : ρ.add flt τ = .ok R) : IsUnitary R := by
  have hcond : ρ.sym.inversion = τ.sym.inversion ∧ ρ.sym.S.Perm τ.sym.S ∧
      (ρ.invSplit = 0 ∨ ρ.invSplit = N ∨ τ.invSplit = 0 ∨ τ.invSplit = M) := by
    by_contra hno
    rw [C82_add_error flt ρ τ hτ hc hno] at h
    cases h
  obtain ⟨R', hR', hsym, hrep, e, he, -, -⟩ := C82_add flt ρ τ hρ hτ hc h0 hf1 hf2 hcond.1 hcond.2.1 hcond.2.2
  rw [h] at hR'
  obtain rfl := Except.ok.inj hR'
  intro w hw
  obtain ⟨s, hs⟩ := (mem_zip_right hrep.len).1 hw
  have hsS : s ∈ ρ.sym.S := hsym ▸ (List.of_mem_zip hs).1
  have hex : ∀ {n : ℕ} (π : Rep K F d n), π.sym.S.length = π.U.length → s ∈ π.sym.S → ∃ u, (s, u) ∈ π.sym.S.zip π.U := by
    intro n π hl hs
    obtain ⟨i, hi, rfl⟩ := List.mem_iff_getElem.1 hs
    exact ⟨π.U[i]'(hl ▸ hi), mem_zip_iff.2 ⟨i, hi, hl ▸ hi, rfl⟩⟩
  obtain ⟨u, hu⟩ := hex ρ hρ.len hsS
  obtain ⟨v, hv⟩ := hex τ hτ.len (hcond.2.1.subset hsS)
  have := he s u v hu hv
  have hw' := zip_unique hrep.nodup hs this
  rw [hw', Matrix.conjTranspose_submatrix, Matrix.submatrix_mul_equiv, Matrix.fromBlocks_conjTranspose,
    Matrix.fromBlocks_multiply]
  simp [h1 u (List.of_mem_zip hu).2, h2 v (List.of_mem_zip hv).2, Matrix.fromBlocks_one]

/-- Rotation matrices of the plane, twice. -/
example : IsUnitary (⟨⟨[1, rz2], true⟩, [1, j2], 0⟩ : Rep ℚ ℚ 3 2) := by
  intro u hu
  simp only [List.mem_cons, List.not_mem_nil, or_false] at hu
  rcases hu with rfl | rfl <;> decide +kernel

/-- **C82** (disagreement) Complex matrices lose their imaginary part in a sum: the matrix with the entries `-i`, `i` (Pauli
matrix) represents a half turn, but the sum of this representation with itself is no representation. `re` is the conversion
of an entry to a floating point number. -/
theorem C82_defect_complex {C : Type} [Field C] [StarRing C] [DecidableEq C] [CharZero C] (i : C) (hi : i * i = -1)
    (re : C → C) (h1 : re 1 = 1) (h0 : re 0 = 0) (hre : re i = 0) (hre' : re (-i) = 0) :
    ∃ ρ : Rep ℚ C 3 2, ρ.check = true ∧ ∃ R, ρ.add re ρ = .ok R ∧ R.check = false := by
  let σy : Mat C 2 := !![0, -i; i, 0]
  have hσ : σy * σy = 1 := by
    ext a b; fin_cases a <;> fin_cases b <;> simp [σy, Matrix.mul_apply, Fin.sum_univ_two, hi]
  have e1 : rz2 * rz2 = 1 := by decide +kernel
  have e2 : (1 : Mat ℚ 3) ≠ rz2 := by decide +kernel
  have e3 : rz2 ≠ 1 := by decide +kernel
  let ρ : Rep ℚ C 3 2 := ⟨⟨[1, rz2], false⟩, [1, σy], 2⟩
  have hcopy : ρ.copy = .ok ρ := by
    have : mkSym [1, rz2] false = .ok ⟨[1, rz2], false⟩ := by decide +kernel
    unfold Rep.copy Sym.copy
    simp only [ρ, this]
  have hmatch : ρ.matchSym ρ.sym = (ρ, .ok ()) := by
    have : matchOrder [1, rz2] [1, rz2] = .ok [0, 1] := by decide +kernel
    unfold Rep.matchSym
    simp only [ρ, this]
    simp [List.mapM_cons]
  refine ⟨ρ, ?_, ⟨ρ.sym, List.zipWith (fun a b => (dsumL a b).map re) ρ.U ρ.U, 4⟩, ?_, ?_⟩
  · simp [Rep.check, checkProd, ρ, e1, e2, e3, hσ]
  · unfold Rep.add
    rw [hcopy]
    simp only [hmatch]
    rfl
  · have hz : (dsumL σy σy).map re = 0 := by
      ext a b
      simp only [dsumL, Matrix.map_apply, Matrix.submatrix_apply, Matrix.zero_apply]
      rcases finSumFinEquiv.symm a with a | a <;> rcases finSumFinEquiv.symm b with b | b
      · fin_cases a <;> fin_cases b <;> simp [σy, h0, hre, hre']
      · simpa using h0
      · simpa using h0
      · fin_cases a <;> fin_cases b <;> simp [σy, h0, hre, hre']
    have ho : (dsumL (1 : Mat C 2) (1 : Mat C 2)).map re = 1 := by
      unfold dsumL
      rw [Matrix.fromBlocks_one, Matrix.submatrix_one_equiv]
      ext a b
      by_cases hab : a = b <;> simp [Matrix.one_apply, hab, h0, h1]
    simp [Rep.check, checkProd, ρ, e1, e2, e3, hz, ho]

/-- The complex numbers with the real part are such a case. -/
example : ∃ (i : ℂ) (re : ℂ → ℂ), i * i = -1 ∧ re 1 = 1 ∧ re 0 = 0 ∧ re i = 0 ∧ re (-i) = 0 :=
  ⟨Complex.I, fun z => (z.re : ℂ), by simp, by simp, by simp, by simp, by simp⟩

/-! ## Multiples -/

/-- **C83** `a * n` for an integer `n ≥ 0`: the result is a representation of the same symmetry in the space of pairs (state
of `a`, copy): there is a numbering `e` of these pairs such that the matrices act on the first component only and the parity
is the parity of the first component. -/
theorem C83_mul (ρ : Rep K F d N) (n : ℕ) (hρ : IsRep ρ) (hc : ρ.sym.Constructed) :
    ∃ R, ρ.mulNat n = .ok R ∧ R.sym = ρ.sym ∧ IsRep R ∧ (IsUnitary ρ → IsUnitary R) ∧
      ∃ e : Fin N × Fin n ≃ Fin (N * n),
        (∀ s u, (s, u) ∈ ρ.sym.S.zip ρ.U → ∃ w, (s, w) ∈ R.sym.S.zip R.U ∧
          ∀ a b x y, w (e (a, x)) (e (b, y)) = if x = y then u a b else 0) ∧
        (∀ a x, (e (a, x)).val < R.invSplit ↔ a.val < ρ.invSplit) := by
  have hcopy : ρ.copy = .ok ρ := by unfold Rep.copy Sym.copy; rw [hc.fix]
  have hpar : ∀ (a : Fin N) (x : Fin n), (finProdFinEquiv (a, x)).val < ρ.invSplit * n ↔ a.val < ρ.invSplit := by
    intro a x
    have hv : (finProdFinEquiv (a, x)).val = x.val + n * a.val := finProdFinEquiv_apply_val (a, x)
    rw [hv]
    have hx := x.2
    constructor
    · intro h
      by_contra hle
      have : ρ.invSplit * n ≤ n * a.val := by rw [mul_comm n]; exact Nat.mul_le_mul_right n (by omega)
      omega
    · intro h
      have : (a.val + 1) * n ≤ ρ.invSplit * n := Nat.mul_le_mul_right n h
      have h2 : (a.val + 1) * n = n * a.val + n := by ring
      omega
  unfold Rep.mulNat
  rw [hcopy]
  refine ⟨_, rfl, rfl, ⟨?_, hρ.nodup, ?_, ?_, ?_, ?_⟩, ?_, finProdFinEquiv, ?_, hpar⟩
  · simpa using hρ.len
  · refine mem_zip_map.2 ⟨1, hρ.one, ?_⟩
    change (1 : Mat F (N * n)) = (Matrix.kroneckerMap (· * ·) 1 1).submatrix _ _
    rw [Matrix.one_kronecker_one, Matrix.submatrix_one_equiv]
  · intro p hp q hq
    obtain ⟨u, hu, h1⟩ := mem_zip_map.1 hp
    obtain ⟨v, hv, h2⟩ := mem_zip_map.1 hq
    refine mem_zip_map.2 ⟨u * v, hρ.mul _ hu _ hv, ?_⟩
    simp only
    rw [h1, h2, Matrix.submatrix_mul_equiv]
    rw [← Matrix.mul_kronecker_mul, mul_one]
  · intro hi w hw a b hab
    obtain ⟨u, hu, rfl⟩ := List.mem_map.1 hw
    obtain ⟨⟨a, x⟩, rfl⟩ := finProdFinEquiv.surjective a
    obtain ⟨⟨b, y⟩, rfl⟩ := finProdFinEquiv.surjective b
    simp only [hpar] at hab
    simp [Matrix.kroneckerMap_apply, hρ.parity hi u hu a b hab]
  · exact Nat.mul_le_mul_right n hρ.split
  · intro hu w hw
    obtain ⟨u, hu', rfl⟩ := List.mem_map.1 hw
    rw [Matrix.conjTranspose_submatrix, Matrix.submatrix_mul_equiv]
    rw [Matrix.conjTranspose_kronecker, ← Matrix.mul_kronecker_mul, hu u hu']
    simp
  · intro s u hu
    refine ⟨_, mem_zip_map.2 ⟨u, hu, rfl⟩, fun a b x y => ?_⟩
    rw [Matrix.of_apply, Equiv.symm_apply_apply, Equiv.symm_apply_apply, Matrix.kroneckerMap_apply, Matrix.one_apply]
    simp

/-- Two copies of a two dimensional representation with one even state. -/
example : ∃ R, (⟨⟨[1, rz2], true⟩, [1, !![1, 0; 0, -1]], 1⟩ : Rep ℚ ℚ 3 2).mulNat 2 = .ok R ∧
    decide (R.invSplit = 2 ∧ R.U.map (fun u => (u 0 0, u 1 1, u 2 2, u 3 3)) = [(1, 1, 1, 1), (1, 1, -1, -1)]) = true :=
  okAnd_iff.1 (by decide +kernel)

/-- **C83** (disagreement) The product `a * b` of two representations always raises an exception: `TypeError` when the
symmetries match and one of the two has states of one parity only, else `ValueError`. -/
theorem C83_mul_rep (ρ : Rep K F d N) (τ : Rep K F d M) (hτ : IsRep τ) (hc : τ.sym.Constructed) :
    ρ.mulRep τ = .error (if (ρ.sym.inversion = τ.sym.inversion ∧ ρ.sym.S.Perm τ.sym.S) ∧
      (ρ.invSplit = 0 ∨ ρ.invSplit = N ∨ τ.invSplit = 0 ∨ τ.invSplit = M) then .typeError else .valueError) := by
  have hcopy : τ.copy = .ok τ := by unfold Rep.copy Sym.copy; rw [hc.fix]
  have hne : τ.sym.S ≠ [] := List.ne_nil_of_mem hc.one_mem
  unfold Rep.mulRep
  rw [hcopy]
  rcases C80_match_sym τ ρ.sym hτ.len hτ.nodup hne with ⟨hm, U, hU, hUl, hUp⟩ | ⟨hno, hU⟩
  · simp only [hU]
    by_cases c1 : τ.invSplit = 0 ∨ τ.invSplit = M
    · rw [if_pos c1, if_pos ⟨hm, by tauto⟩]
    · rw [if_neg c1]
      by_cases c2 : ρ.invSplit = 0 ∨ ρ.invSplit = N
      · rw [if_pos c2, if_pos ⟨hm, by tauto⟩]
      · rw [if_neg c2, if_neg (by tauto)]
  · simp only [hU]
    rw [if_neg fun h => hno h.1]

example : (⟨⟨[1, rz2], true⟩, [1, 1], 1⟩ : Rep ℚ ℚ 3 1).mulRep (⟨⟨[1, rz2], true⟩, [1, -1], 0⟩ : Rep ℚ ℚ 3 1) =
    .error .typeError := by decide +kernel

/-! ## Permutation of the basis -/

/-- **C84** `permute(order)` with a permutation of the basis: it succeeds exactly when no state is moved to a place of the
other parity; then the new basis vector `i` is the old one `order[i]` and the object is still a (unitary) representation.
Otherwise `AssertionError` is raised and the object is unchanged. -/
theorem C84_permute (ρ : Rep K F d N) (order : Fin N → Fin N) (ho : Function.Bijective order) (hρ : IsRep ρ) :
    ((∀ i, (i.val < ρ.invSplit ↔ (order i).val < ρ.invSplit)) ∧ ∃ U, ρ.permute order = (⟨ρ.sym, U, ρ.invSplit⟩, .ok ()) ∧
      IsRep ⟨ρ.sym, U, ρ.invSplit⟩ ∧ (IsUnitary ρ → ∀ u ∈ U, u * u.conjTranspose = 1) ∧
      ∀ s w, (s, w) ∈ ρ.sym.S.zip U ↔ ∃ u, (s, u) ∈ ρ.sym.S.zip ρ.U ∧ ∀ i j, w i j = u (order i) (order j)) ∨
    (¬ (∀ i, (i.val < ρ.invSplit ↔ (order i).val < ρ.invSplit)) ∧ ρ.permute order = (ρ, .error .assertionError)) := by
  have hcond : ((List.finRange N).all fun i => decide (i.val < ρ.invSplit) == decide ((order i).val < ρ.invSplit)) = true ↔
      ∀ i, (i.val < ρ.invSplit ↔ (order i).val < ρ.invSplit) := by
    simp
  unfold Rep.permute
  by_cases h : ∀ i, (i.val < ρ.invSplit ↔ (order i).val < ρ.invSplit)
  swap
  · right
    rw [if_neg (fun h' => h (hcond.1 h'))]
    exact ⟨h, rfl⟩
  left
  rw [if_pos (hcond.2 h)]
  let e : Fin N ≃ Fin N := Equiv.ofBijective order ho
  have he : (⇑e : Fin N → Fin N) = order := rfl
  refine ⟨h, _, rfl, ⟨?_, hρ.nodup, ?_, ?_, ?_, hρ.split⟩, ?_, ?_⟩
  · simpa using hρ.len
  · refine mem_zip_map.2 ⟨1, hρ.one, ?_⟩
    rw [← he, Matrix.submatrix_one_equiv]
  · intro p hp q hq
    obtain ⟨u, hu, h1⟩ := mem_zip_map.1 hp
    obtain ⟨v, hv, h2⟩ := mem_zip_map.1 hq
    refine mem_zip_map.2 ⟨u * v, hρ.mul _ hu _ hv, ?_⟩
    simp only
    rw [h1, h2, ← he, Matrix.submatrix_mul_equiv]
  · intro hi w hw a b hab
    obtain ⟨u, hu, rfl⟩ := List.mem_map.1 hw
    rw [Matrix.submatrix_apply]
    refine hρ.parity hi u hu _ _ ?_
    rw [← h a, ← h b]
    exact hab
  · intro hu w hw
    obtain ⟨u, hu', rfl⟩ := List.mem_map.1 hw
    rw [Matrix.conjTranspose_submatrix, ← he, Matrix.submatrix_mul_equiv, hu u hu', Matrix.submatrix_one_equiv]
  · intro s w
    rw [mem_zip_map]
    refine exists_congr fun u => and_congr_right fun _ => ?_
    rw [← Matrix.ext_iff]
    rfl

/-- Exchange of the two odd states. -/
example : ((⟨⟨[1, rz2], true⟩, [1, !![1, 0, 0; 0, -1, 0; 0, 0, 1]], 1⟩ : Rep ℚ ℚ 3 3).permute ![0, 2, 1]).1.U =
    [1, !![1, 0, 0; 0, 1, 0; 0, 0, -1]] := by decide +kernel

end TB.UR

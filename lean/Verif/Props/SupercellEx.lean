import Mathlib.Data.Fin.VecNotation
import Mathlib.LinearAlgebra.Matrix.Notation
import Mathlib.Tactic.FinCases
import Mathlib.Tactic.NormNum
import Verif.Props.SupercellBands

/-! # C55: multiples of the cell, examples and limitations -/

set_option linter.unusedSectionVars false

namespace TB.SC
open Matrix

variable {d n : ℕ}

/-! ## Multiples of the cell -/

theorem inCell_scalar {m : ℕ} (hm : 0 < m) {x : Fin d → ℤ} (hx : InCell ((m : ℤ) • (1 : Matrix (Fin d) (Fin d) ℤ)) x) (i : Fin d) :
    0 ≤ x i ∧ x i < m := by
  have hdet : ((m : ℤ) • (1 : Matrix (Fin d) (Fin d) ℤ)).det ≠ 0 := by
    rw [Matrix.det_smul, Matrix.det_one, mul_one]
    exact pow_ne_zero _ (by exact_mod_cast hm.ne')
  have h := mul_cellFrac hdet x i
  rw [Finset.sum_eq_single i] at h
  · have hi := hx i
    simp only [Matrix.smul_apply, Matrix.one_apply_eq, smul_eq_mul, mul_one] at h
    have hm' : (0 : ℚ) < ((m : ℤ) : ℚ) := by exact_mod_cast hm
    constructor
    · have : (0 : ℚ) ≤ x i := by rw [← h]; exact mul_nonneg hm'.le hi.1
      exact_mod_cast this
    · have : (x i : ℚ) < ((m : ℤ) : ℚ) := by rw [← h]; nlinarith [hi.2]
      exact_mod_cast this
  · intro j _ hj
    simp [Ne.symm hj]
  · simp

/-- Multiples of the cell are exact if with a neighbour every lattice vector with smaller coordinates of the same sign is a
neighbour. -/
theorem exact_multiple (t : Tb d n) (A : Matrix (Fin d) (Fin d) ℝ) (m : ℕ) (hm : 0 < m)
    (h0 : ∃ H0 rest, t.H.terms = (0, H0) :: rest ∧ H0.IsHermitian) (hh : Halved (t.H.terms.map Prod.fst))
    (hlat : ∀ x, Listed t x → ∃ z : Fin d → ℤ, x = A *ᵥ fun i => (z i : ℝ))
    (hsolid : ∀ z w : Fin d → ℤ, Listed t (A *ᵥ fun i => (z i : ℝ)) →
      (∀ i, (0 ≤ w i ∧ w i ≤ z i) ∨ (z i ≤ w i ∧ w i ≤ 0)) → Listed t (A *ᵥ fun i => (w i : ℝ))) :
    Exact t A ((m : ℤ) • (1 : Matrix (Fin d) (Fin d) ℤ)) := by
  obtain ⟨H0, rest, hst, hH0⟩ := h0
  have hvec : ∀ w : Fin d → ℤ, ((m : ℤ) • (1 : Matrix (Fin d) (Fin d) ℤ)) *ᵥ w = (m : ℤ) • w := by
    intro w; rw [Matrix.smul_mulVec, Matrix.one_mulVec]
  have hmap : ((m : ℤ) • (1 : Matrix (Fin d) (Fin d) ℤ)).map (Int.cast : ℤ → ℝ) = (m : ℝ) • (1 : Matrix (Fin d) (Fin d) ℝ) := by
    ext i j
    rw [Matrix.map_apply, Matrix.smul_apply, Matrix.smul_apply, Matrix.one_apply, Matrix.one_apply]
    by_cases h : i = j <;> simp [h]
  have hscale : ∀ w : Fin d → ℤ, (A *ᵥ fun i => ((((m : ℤ) • (1 : Matrix (Fin d) (Fin d) ℤ)) *ᵥ w) i : ℝ)) =
      (m : ℝ) • (A *ᵥ fun i => (w i : ℝ)) := by
    intro w
    rw [hvec, ← Matrix.mulVec_smul]
    congr 1
    funext i
    simp
  refine ⟨hh, ?_, hlat, ?_, ?_⟩
  · intro M hM
    have hnd := hh.nodup
    rw [hst] at hM hnd
    simp only [List.map_cons, List.nodup_cons] at hnd
    rcases List.mem_cons.1 hM with h | h
    · have h2 : M = H0 := (Prod.ext_iff.1 h).2
      rw [h2]; exact hH0
    · exact absurd (List.mem_map.2 ⟨_, h, rfl⟩) hnd.1
  · intro z _
    rw [hscale, hmap, Matrix.smul_mulVec, Matrix.one_mulVec]
  · intro w x y hx hy hl
    refine hsolid _ w hl fun i => ?_
    have hxi := inCell_scalar hm hx i
    have hyi := inCell_scalar hm hy i
    rw [hvec]
    simp only [Pi.sub_apply, Pi.add_apply, Pi.smul_apply, smul_eq_mul]
    have hm' : (1 : ℤ) ≤ m := by exact_mod_cast hm
    rcases lt_trichotomy (w i) 0 with hw | hw | hw
    · right
      constructor
      · nlinarith [mul_nonneg (sub_nonneg.2 hm') (show 0 ≤ -1 - w i by omega)]
      · omega
    · rw [hw]
      simp only [mul_zero]
      omega
    · left
      constructor
      · omega
      · nlinarith [mul_nonneg (sub_nonneg.2 hm') (show 0 ≤ w i - 1 by omega)]

/-- C55.  Multiples of the cell: if the neighbours are lattice vectors and with a neighbour every lattice vector with
smaller coordinates of the same sign is a neighbour, then `supercell(A, m A)` succeeds, has `m^d` times as many bands and
its bands at `k` are the bands of the model at the points `k + g` with `m g · A w` integer for all integer `w`. -/
theorem C55_multiple (t : Tb d n) (A : Matrix (Fin d) (Fin d) ℝ) (m : ℕ) (hm : 0 < m) (hd : d ≠ 0) (hA : A.det ≠ 0)
    (h0 : ∃ H0 rest, t.H.terms = (0, H0) :: rest ∧ H0.IsHermitian) (hh : Halved (t.H.terms.map Prod.fst))
    (hlat : ∀ x, Listed t x → ∃ z : Fin d → ℤ, x = A *ᵥ fun i => (z i : ℝ))
    (hsolid : ∀ z w : Fin d → ℤ, Listed t (A *ᵥ fun i => (z i : ℝ)) →
      (∀ i, (0 ≤ w i ∧ w i ≤ z i) ∨ (z i ≤ w i ∧ w i ≤ 0)) → Listed t (A *ᵥ fun i => (w i : ℝ))) :
    ∃ r, t.supercell A ((m : ℝ) • A) = .ok r ∧ r.1 = m ^ d * n ∧ ∀ k (E : ℂ),
      (∃ M', r.2.H.f k = .ok M' ∧ ∃ v, v ≠ 0 ∧ M' *ᵥ v = E • v) ↔
        ∃ g : RVec d, (∀ w : Fin d → ℤ, ∃ l : ℤ, m * (g ⬝ᵥ (A *ᵥ fun i => (w i : ℝ))) = l) ∧
          ∃ M, t.H.f (k + g) = .ok M ∧ ∃ v, v ≠ 0 ∧ M *ᵥ v = E • v := by
  obtain ⟨H0, rest, hst, hH0⟩ := h0
  have hdet : 0 < ((m : ℤ) • (1 : Matrix (Fin d) (Fin d) ℤ)).det := by
    rw [Matrix.det_smul, Matrix.det_one, mul_one]
    exact pow_pos (by exact_mod_cast hm) _
  have hvec : ∀ w : Fin d → ℤ, ((m : ℤ) • (1 : Matrix (Fin d) (Fin d) ℤ)) *ᵥ w = (m : ℤ) • w := by
    intro w; rw [Matrix.smul_mulVec, Matrix.one_mulVec]
  have hmap : ((m : ℤ) • (1 : Matrix (Fin d) (Fin d) ℤ)).map (Int.cast : ℤ → ℝ) = (m : ℝ) • (1 : Matrix (Fin d) (Fin d) ℝ) := by
    ext i j
    rw [Matrix.map_apply, Matrix.smul_apply, Matrix.smul_apply, Matrix.one_apply, Matrix.one_apply]
    by_cases h : i = j <;> simp [h]
  have hB : (m : ℝ) • A = A * ((m : ℤ) • (1 : Matrix (Fin d) (Fin d) ℤ)).map (Int.cast : ℤ → ℝ) := by
    rw [hmap, Matrix.mul_smul, Matrix.mul_one]
  have hscale : ∀ w : Fin d → ℤ, (A *ᵥ fun i => ((((m : ℤ) • (1 : Matrix (Fin d) (Fin d) ℤ)) *ᵥ w) i : ℝ)) =
      (m : ℝ) • (A *ᵥ fun i => (w i : ℝ)) := by
    intro w
    rw [hvec, ← Matrix.mulVec_smul]
    congr 1
    funext i
    simp
  have hex := exact_multiple t A m hm ⟨H0, rest, hst, hH0⟩ hh hlat hsolid
  obtain ⟨r, hr⟩ := (C55_success_iff t A ((m : ℝ) • A)).2 ⟨⟨H0, rest, hst⟩, hd, hA, _, hB, hdet,
    fun i => ⟨i, by simpa using hm⟩⟩
  refine ⟨r, hr, ?_, fun k E => ?_⟩
  · rw [hB] at hr
    have := (C55_bloch t A _ hex r hr).1
    rw [Matrix.det_smul, Matrix.det_one, mul_one, Fintype.card_fin] at this
    exact_mod_cast this
  · have hr2 := hr
    rw [hB] at hr2
    rw [C55_bands t A _ hex r hr2 k E]
    unfold Reciprocal
    simp only [hscale, dotProduct_smul, smul_eq_mul]

/-! ## Examples -/

/-- A chain with hopping to the next neighbour. -/
noncomputable def chain : Tb 1 1 := ⟨⟨[(0, 0), (![1], !![1])]⟩, ⟨[(0, 1)]⟩⟩

theorem chain_listed {x : RVec 1} : Listed chain x ↔ x = 0 ∨ x = ![1] ∨ x = ![-1] := by
  have h1 : -x = ![1] ↔ x = ![-1] := by
    constructor
    · intro h; rw [← neg_neg x, h]; simp
    · intro h; rw [h]; simp
  simp only [Listed, chain, List.map_cons, List.map_nil, List.mem_cons, List.not_mem_nil, or_false, neg_eq_zero, h1]
  tauto

theorem chain_halved : Halved (chain.H.terms.map Prod.fst) := by
  constructor
  · simp only [chain, List.map_cons, List.map_nil, List.nodup_cons, List.mem_cons, List.not_mem_nil, or_false, not_false_eq_true,
      List.nodup_nil, and_true]
    intro h
    have := congrFun h 0
    simp at this
  · intro r hr hr'
    simp only [chain, List.map_cons, List.map_nil, List.mem_cons, List.not_mem_nil, or_false] at hr hr'
    rcases hr with rfl | rfl
    · rfl
    · rcases hr' with h | h
      · have := congrFun h 0; simp at this
      · have := congrFun h 0; simp at this; norm_num at this

theorem chain_lattice (x : RVec 1) (hx : Listed chain x) :
    ∃ z : Fin 1 → ℤ, x = (1 : Matrix (Fin 1) (Fin 1) ℝ) *ᵥ fun i => (z i : ℝ) := by
  rcases chain_listed.1 hx with rfl | rfl | rfl
  · exact ⟨0, by simp; rfl⟩
  · exact ⟨![1], by rw [Matrix.one_mulVec]; funext i; fin_cases i; simp⟩
  · exact ⟨![-1], by rw [Matrix.one_mulVec]; funext i; fin_cases i; simp⟩

theorem chain_solid (z w : Fin 1 → ℤ) (hz : Listed chain ((1 : Matrix (Fin 1) (Fin 1) ℝ) *ᵥ fun i => (z i : ℝ)))
    (hw : ∀ i, (0 ≤ w i ∧ w i ≤ z i) ∨ (z i ≤ w i ∧ w i ≤ 0)) :
    Listed chain ((1 : Matrix (Fin 1) (Fin 1) ℝ) *ᵥ fun i => (w i : ℝ)) := by
  rw [Matrix.one_mulVec, chain_listed] at hz ⊢
  have hz' : z 0 = 0 ∨ z 0 = 1 ∨ z 0 = -1 := by
    rcases hz with h | h | h
    · left; have := congrFun h 0; simpa using this
    · right; left; have := congrFun h 0; simp at this; exact_mod_cast this
    · right; right; have := congrFun h 0; simp at this; exact_mod_cast this
  have hw' : w 0 = 0 ∨ w 0 = 1 ∨ w 0 = -1 := by
    have := hw 0
    omega
  rcases hw' with h | h | h
  · left; funext i; fin_cases i; simp [h]
  · right; left; funext i; fin_cases i; simp [h]
  · right; right; funext i; fin_cases i; simp [h]

/-- The doubled chain satisfies the hypotheses of `C55_bloch` and `C55_bands`. -/
example : Exact chain 1 ((2 : ℤ) • (1 : Matrix (Fin 1) (Fin 1) ℤ)) :=
  exact_multiple chain 1 2 (by norm_num) ⟨0, [(![1], !![1])], rfl, by simp [Matrix.IsHermitian]⟩ chain_halved
    chain_lattice chain_solid

/-- The hypotheses of `C55_multiple` hold for the doubled chain. -/
example : ∃ r, chain.supercell 1 ((2 : ℕ) • (1 : Matrix (Fin 1) (Fin 1) ℝ)) = .ok r ∧ r.1 = 2 := by
  obtain ⟨r, hr, h1, -⟩ := C55_multiple chain 1 2 (by norm_num) (by norm_num) (by simp)
    ⟨0, [(![1], !![1])], rfl, by simp [Matrix.IsHermitian]⟩ chain_halved chain_lattice chain_solid
  refine ⟨r, ?_, by simpa using h1⟩
  rw [← hr]
  congr 1
  ext i j
  simp

/-! ## Limitations -/

/-- C55, limitation.  The inverted basis `-A` and a basis with two exchanged vectors generate the same lattice, but
`supercell` raises an exception for every model. -/
theorem C55_defect_basis (t : Tb 2 n) (r : (N : ℕ) × Tb 2 N) :
    t.supercell 1 (-1) ≠ .ok r ∧ t.supercell 1 !![0, 1; 1, 0] ≠ .ok r := by
  constructor
  · intro h
    obtain ⟨-, -, -, Λ, hB, -, hrow⟩ := (C55_success_iff t _ _).1 ⟨r, h⟩
    obtain ⟨j, hj⟩ := hrow 0
    have := congrFun (congrFun hB 0) j
    rw [Matrix.one_mul, Matrix.map_apply, Matrix.neg_apply] at this
    have h2 : (0 : ℝ) < -(1 : Matrix (Fin 2) (Fin 2) ℝ) 0 j := by rw [this]; exact_mod_cast hj
    have hle : (0 : ℝ) ≤ (1 : Matrix (Fin 2) (Fin 2) ℝ) 0 j := by
      rw [Matrix.one_apply]; split_ifs <;> norm_num
    linarith
  · intro h
    obtain ⟨-, -, -, Λ, hB, hdet, -⟩ := (C55_success_iff t _ _).1 ⟨r, h⟩
    have h2 : (!![0, 1; 1, 0] : Matrix (Fin 2) (Fin 2) ℝ).det = (Λ.det : ℝ) := by
      rw [hB, Matrix.one_mul]; exact det_toRM Λ
    rw [Matrix.det_fin_two_of] at h2
    have h3 : (0 : ℝ) < (Λ.det : ℝ) := by exact_mod_cast hdet
    rw [← h2] at h3
    norm_num at h3

example : (-1 : Matrix (Fin 2) (Fin 2) ℝ).det ≠ 0 ∧ (!![0, 1; 1, 0] : Matrix (Fin 2) (Fin 2) ℝ).det ≠ 0 := by
  constructor <;> simp [Matrix.det_fin_two]

/-- C55, limitation.  The overlap of the model is ignored. -/
theorem C55_defect_overlap (t : Tb d n) (S : Series d n) (A B : Matrix (Fin d) (Fin d) ℝ) :
    (⟨t.H, S⟩ : Tb d n).supercell A B = t.supercell A B ∧
      ∀ r, t.supercell A B = .ok r → ∀ k, r.2.S.f k = .ok 1 := by
  refine ⟨rfl, fun r hr k => ?_⟩
  obtain ⟨-, -, hA, Λ, rfl, -, -⟩ := (C55_success_iff t _ _).1 ⟨r, hr⟩
  obtain ⟨-, -, -, -, -, rfl⟩ := supercell_ok hr
  rw [f_eq]; simp [Spec.value]

/-- A chain with hopping to the second neighbour only. -/
noncomputable def chain2 : Tb 1 1 := ⟨⟨[(0, 0), (![2], !![1])]⟩, ⟨[(0, 1)]⟩⟩

theorem cell2 : cellPoints (!![2] : Matrix (Fin 1) (Fin 1) ℤ) = [![0], ![1]] := by decide +kernel

/-- C55, limitation.  Superlattice vectors which are not `Λ` times a neighbour are lost: the chain with hopping to the
second neighbour has the band `2 cos(4πk)`; its double cell has the bands `0`. -/
theorem C55_defect_lost : ∃ r, chain2.supercell 1 !![2] = .ok r ∧ (∀ k, r.2.H.f k = .ok 0) ∧
    chain2.H.f 0 = .ok !![2] := by
  have hB : (!![2] : Matrix (Fin 1) (Fin 1) ℝ) = 1 * (!![2] : Matrix (Fin 1) (Fin 1) ℤ).map (Int.cast : ℤ → ℝ) := by
    ext i j; fin_cases i; fin_cases j; simp
  obtain ⟨r, hr⟩ := (C55_success_iff chain2 1 !![2]).2 ⟨⟨0, [(![2], !![1])], rfl⟩, by norm_num, by simp, !![2], hB,
    by simp, fun i => ⟨0, by fin_cases i; decide⟩⟩
  refine ⟨r, hr, ?_, ?_⟩
  · rw [hB] at hr
    obtain ⟨-, -, -, -, -, rfl⟩ := supercell_ok hr
    intro k
    have hrep : ∀ i, rep (!![2] : Matrix (Fin 1) (Fin 1) ℤ) (1 * toRM !![2]) i 0 = 0 ∨
        rep (!![2] : Matrix (Fin 1) (Fin 1) ℤ) (1 * toRM !![2]) i 0 = 1 := by
      intro i
      have : rep (!![2] : Matrix (Fin 1) (Fin 1) ℤ) (1 * toRM !![2]) i ∈ cellPoints (!![2] : Matrix (Fin 1) (Fin 1) ℤ) :=
        List.getElem_mem _
      rw [cell2] at this
      simp only [List.mem_cons, List.not_mem_nil, or_false] at this
      rcases this with h | h <;> rw [h] <;> simp
    have hlook : ∀ x : RVec 1, x 0 ≠ 2 → x 0 ≠ -2 → chain2.H.lookup x = 0 := by
      intro x h1 h2
      by_cases h0 : x = 0
      · refine lookup_mem (s := chain2.H) ?_ (by rw [h0]; exact List.mem_cons_self)
        simp only [chain2, List.map_cons, List.map_nil, List.nodup_cons, List.mem_cons, List.not_mem_nil, or_false,
          not_false_eq_true, List.nodup_nil, and_true]
        intro h
        have := congrFun h 0
        simp at this
      · refine lookup_none ?_ ?_
        · simp only [chain2, List.map_cons, List.map_nil, List.mem_cons, List.not_mem_nil, or_false]
          rintro (h | h)
          · exact h0 h
          · exact h1 (by rw [h]; rfl)
        · simp only [chain2, List.map_cons, List.map_nil, List.mem_cons, List.not_mem_nil, or_false]
          rintro (h | h)
          · exact h0 (neg_eq_zero.1 h)
          · have := congrFun h 0
            simp at this
            exact h2 (by linarith)
    have hblock : ∀ v : RVec 1, v = 0 ∨ v = ![2] → (blockMatrix fun i j => chain2.H.lookup
        (toRM !![2] *ᵥ v + (1 : Matrix (Fin 1) (Fin 1) ℝ) *ᵥ toR (rep !![2] (1 * toRM !![2]) j) -
          (1 : Matrix (Fin 1) (Fin 1) ℝ) *ᵥ toR (rep !![2] (1 * toRM !![2]) i))) =
        (0 : CMat ((internalPositions !![2] (1 * toRM !![2])).length * 1)) := by
      intro v hv
      ext a b
      simp only [blockMatrix, Matrix.zero_apply]
      generalize (finProdFinEquiv.symm a).1 = i
      generalize (finProdFinEquiv.symm b).1 = j
      have hv0 : (toRM !![2] *ᵥ v) 0 = 0 ∨ (toRM !![2] *ᵥ v) 0 = 4 := by
        rcases hv with rfl | rfl
        · left; simp
        · right; simp [toRM, Matrix.mulVec, dotProduct]; norm_num
      have hi := hrep i
      have hj := hrep j
      have hi' : toR (rep !![2] (1 * toRM !![2]) i) 0 = 0 ∨ toR (rep !![2] (1 * toRM !![2]) i) 0 = 1 := by
        rcases hi with h | h <;> simp [toR, h]
      have hj' : toR (rep !![2] (1 * toRM !![2]) j) 0 = 0 ∨ toR (rep !![2] (1 * toRM !![2]) j) 0 = 1 := by
        rcases hj with h | h <;> simp [toR, h]
      rw [Matrix.one_mulVec, Matrix.one_mulVec, hlook _ ?_ ?_]
      · rfl
      · simp only [Pi.sub_apply, Pi.add_apply]
        rcases hv0 with h1 | h1 <;> rcases hi' with h2 | h2 <;> rcases hj' with h3 | h3 <;> rw [h1, h2, h3] <;> norm_num
      · simp only [Pi.sub_apply, Pi.add_apply]
        rcases hv0 with h1 | h1 <;> rcases hi' with h2 | h2 <;> rcases hj' with h3 | h3 <;> rw [h1, h2, h3] <;> norm_num
    have hterms : superTerms chain2 1 !![2] = [(0, 0), (toRM !![2] *ᵥ ![2], 0)] := by
      simp only [superTerms, chain2, List.map_cons, List.map_nil]
      have h1 := hblock 0 (Or.inl rfl)
      have h2 := hblock ![2] (Or.inr rfl)
      simp only [chain2] at h1 h2
      rw [h1, h2, Matrix.mulVec_zero]
    simp only
    rw [hterms, f_eq]
    simp [Spec.value]
  · rw [chain2, f_eq]
    congr 1
    ext a b
    fin_cases a; fin_cases b
    simp [Spec.value, Matrix.conjTranspose_apply]
    norm_num

/-- Lattice with the basis vectors `(1, 0)` and `(1, 1)`. -/
def obliqueA : Matrix (Fin 2) (Fin 2) ℝ := !![1, 1; 0, 1]

/-- Doubling of the second basis vector. -/
def doubleL : Matrix (Fin 2) (Fin 2) ℤ := !![1, 0; 0, 2]

/-- Hopping along the second basis vector. -/
noncomputable def oblique : Tb 2 1 := ⟨⟨[(0, 0), (![1, 1], !![1])]⟩, ⟨[(0, 1)]⟩⟩

theorem cellDouble : cellPoints doubleL = [![0, 0], ![0, 1]] := by decide +kernel

/-- C55, limitation.  The neighbours are multiplied with `Λ` in cartesian coordinates: if `Λ` does not commute with the
basis `A`, the result is wrong.  Here the band is `2 cos(2π k·a₂)` and the cell is doubled along `a₂`; the Hamiltonian of the
supercell does not depend on `k`, although the bands of the model at all points `k + g` (`g` in the reciprocal superlattice)
are `0` for `k = (0, 1/4)` and at `k = 0` there is the band `2`. -/
theorem C55_defect_cartesian : ∃ r, oblique.supercell obliqueA (obliqueA * doubleL.map (Int.cast : ℤ → ℝ)) = .ok r ∧
    (∀ k, r.2.H.f k = r.2.H.f 0) ∧ oblique.H.f 0 = .ok !![2] ∧
    ∀ g, Reciprocal obliqueA doubleL g → oblique.H.f (![0, 1/4] + g) = .ok 0 := by
  have hdL : doubleL.det = 2 := by decide +kernel
  have hdA : obliqueA.det ≠ 0 := by simp [obliqueA, Matrix.det_fin_two]
  obtain ⟨r, hr⟩ := (C55_success_iff oblique obliqueA (obliqueA * doubleL.map (Int.cast : ℤ → ℝ))).2
    ⟨⟨0, [(![1, 1], !![1])], rfl⟩, by norm_num, hdA, doubleL, rfl, by rw [hdL]; norm_num,
      fun i => ⟨i, by fin_cases i <;> decide⟩⟩
  refine ⟨r, hr, ?_, ?_, ?_⟩
  · obtain ⟨-, -, -, -, -, rfl⟩ := supercell_ok hr
    intro k
    have hrep : ∀ i, rep doubleL (obliqueA * toRM doubleL) i = ![0, 0] ∨ rep doubleL (obliqueA * toRM doubleL) i = ![0, 1] := by
      intro i
      have : rep doubleL (obliqueA * toRM doubleL) i ∈ cellPoints doubleL := List.getElem_mem _
      rw [cellDouble] at this
      simpa using this
    have hblock : (blockMatrix fun i j => oblique.H.lookup
        (toRM doubleL *ᵥ ![1, 1] + obliqueA *ᵥ toR (rep doubleL (obliqueA * toRM doubleL) j) -
          obliqueA *ᵥ toR (rep doubleL (obliqueA * toRM doubleL) i))) =
        (0 : CMat ((internalPositions doubleL (obliqueA * toRM doubleL)).length * 1)) := by
      ext a b
      simp only [blockMatrix, Matrix.zero_apply]
      generalize (finProdFinEquiv.symm a).1 = i
      generalize (finProdFinEquiv.symm b).1 = j
      have h1 : toRM doubleL *ᵥ ![1, 1] = ![1, 2] := by
        funext l; fin_cases l <;> simp [toRM, doubleL, Matrix.mulVec, dotProduct]
      have h2 : ∀ i, obliqueA *ᵥ toR (rep doubleL (obliqueA * toRM doubleL) i) = ![0, 0] ∨
          obliqueA *ᵥ toR (rep doubleL (obliqueA * toRM doubleL) i) = ![1, 1] := by
        intro i
        rcases hrep i with h | h
        · left; rw [h]; funext l; fin_cases l <;> simp [toR, obliqueA, Matrix.mulVec, dotProduct]
        · right; rw [h]; funext l; fin_cases l <;> simp [toR, obliqueA, Matrix.mulVec, dotProduct]
      rw [h1, lookup_none]
      · rfl
      · simp only [oblique, List.map_cons, List.map_nil, List.mem_cons, List.not_mem_nil, or_false]
        rintro (h | h) <;> have h3 := congrFun h 1 <;> have h4 := congrFun h 0 <;>
          rcases h2 i with hi | hi <;> rcases h2 j with hj | hj <;> rw [hi, hj] at h3 h4 <;>
          simp at h3 h4 <;> linarith
      · simp only [oblique, List.map_cons, List.map_nil, List.mem_cons, List.not_mem_nil, or_false]
        rintro (h | h) <;> have h3 := congrFun h 1 <;> have h4 := congrFun h 0 <;>
          rcases h2 i with hi | hi <;> rcases h2 j with hj | hj <;> rw [hi, hj] at h3 h4 <;>
          simp at h3 h4 <;> linarith
    have hterms : ∃ M0, superTerms oblique obliqueA doubleL = [(0, M0), (toRM doubleL *ᵥ ![1, 1], 0)] := by
      simp only [superTerms, oblique, List.map_cons, List.map_nil]
      simp only [oblique] at hblock
      rw [hblock, Matrix.mulVec_zero]
      exact ⟨_, rfl⟩
    obtain ⟨M0, hM0⟩ := hterms
    simp only
    rw [hM0, f_eq, f_eq]
    simp [Spec.value]
  · rw [oblique, f_eq]
    congr 1
    ext a b
    fin_cases a; fin_cases b
    simp [Spec.value, Matrix.conjTranspose_apply]
    norm_num
  · intro g hg
    rw [oblique, f_eq]
    congr 1
    obtain ⟨m, hm⟩ := hg ![0, 1]
    have hm' : 2 * (g ⬝ᵥ ![1, 1]) = m := by
      rw [← hm]
      simp [doubleL, obliqueA, Matrix.mulVec, dotProduct, Fin.sum_univ_two]
      ring
    have hdot : ((![0, 1/4] : RVec 2) + g) ⬝ᵥ ![1, 1] = 1/4 + (m : ℝ)/2 := by
      rw [add_dotProduct, ← hm']
      simp [dotProduct, Fin.sum_univ_two]
    ext a b
    fin_cases a; fin_cases b
    simp only [Spec.value, List.map_cons, List.map_nil, List.sum_cons, List.sum_nil, add_zero, zero_add, hdot]
    have hph : Complex.exp (2 * Real.pi * Complex.I * ((1/4 + m/2 : ℝ) : ℂ)) =
        Complex.I * Complex.exp (m * (Real.pi * Complex.I)) := by
      have h1 : Complex.I = Complex.exp (Real.pi / 2 * Complex.I) := Complex.exp_pi_div_two_mul_I.symm
      conv_rhs => rw [h1]
      rw [← Complex.exp_add]
      congr 1
      push_cast
      rw [← h1]
      ring
    have hreal : Complex.exp (m * (Real.pi * Complex.I)) = ((((-1 : ℝ)) ^ m : ℝ) : ℂ) := by
      rw [Complex.exp_int_mul, Complex.exp_pi_mul_I]
      push_cast
      rfl
    rw [hph, hreal]
    simp [Matrix.conjTranspose_apply]

end TB.SC

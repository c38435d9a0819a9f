import Verif.Model.InitRef
import Verif.Lemmas.Weyl

/-!
# C115: start models from reference data

`AsymTightBindingModel.init_from_ref` and `BandStructureModel.init_(tight_binding_)from_ref`: exceptions, number of bands, and
how far the start model is from the reference bands.
-/

set_option linter.unusedSectionVars false

namespace TB.InitRef
open Matrix TB
open scoped ComplexOrder

variable {d e n : ℕ}

/-! ## specification -/

/-- Position of the first sample at `k = 0`. -/
def Spec.FirstZero (ks : List (RVec e)) (i : ℕ) : Prop := ks[i]? = some 0 ∧ ∀ j < i, ks[j]? ≠ some 0

/-- Numbers of `np.random.random`. -/
def Spec.Random (M : Matrix (Fin n) (Fin n) ℝ) : Prop := ∀ i j, 0 ≤ M i j ∧ M i j < 1

/-! ## helpers -/

theorem argmin_zero (ks : List (RVec e)) (h : (0 : RVec e) ∈ ks) : Spec.FirstZero ks (argmin (ks.map vnorm)) := by
  classical
  have hpred : ∀ r : RVec e, (∀ y ∈ ks.map vnorm, vnorm r ≤ y) ↔ r = 0 := by
    intro r
    constructor
    · intro hr
      have h1 := hr _ (List.mem_map.2 ⟨0, h, rfl⟩)
      have h2 : vnorm (0 : RVec e) = 0 := vnorm_eq_zero.2 rfl
      exact vnorm_eq_zero.1 (le_antisymm (by rw [h2] at h1; exact h1) (vnorm_nonneg r))
    · rintro rfl y hy
      obtain ⟨r, -, rfl⟩ := List.mem_map.1 hy
      rw [vnorm_eq_zero.2 rfl]
      exact vnorm_nonneg r
  have hlt : argmin (ks.map vnorm) < (ks.map vnorm).length := by
    unfold argmin
    rw [List.findIdx_lt_length]
    exact ⟨vnorm (0 : RVec e), List.mem_map.2 ⟨0, h, rfl⟩, by rw [decide_eq_true_eq, hpred]⟩
  have hlt' : argmin (ks.map vnorm) < ks.length := by simpa using hlt
  constructor
  · have h1 := List.findIdx_getElem (xs := ks.map vnorm) (p := fun x => decide (∀ y ∈ ks.map vnorm, x ≤ y)) (w := hlt)
    rw [decide_eq_true_eq] at h1
    rw [List.getElem?_eq_getElem hlt']
    congr 1
    rw [← hpred, ← List.getElem_map vnorm]
    exact h1
  · intro j hj h0
    have hjl : j < ks.length := hj.trans hlt'
    rw [List.getElem?_eq_getElem hjl, Option.some.injEq] at h0
    have h1 := List.not_of_lt_findIdx (xs := ks.map vnorm) (p := fun x => decide (∀ y ∈ ks.map vnorm, x ≤ y)) hj
    rw [decide_eq_false_iff_not] at h1
    refine h1 ?_
    rw [List.getElem_map, hpred]
    exact h0

theorem firstZero_unique {ks : List (RVec e)} {i j : ℕ} (hi : Spec.FirstZero ks i) (hj : Spec.FirstZero ks j) : i = j := by
  rcases lt_trichotomy i j with h | h | h
  · exact absurd hi.1 (hj.2 i h)
  · exact h
  · exact absurd hj.1 (hi.2 j h)

theorem zeroRow_ok {A : Type} {ks : List (RVec e)} {ref : List A} {i : ℕ} (h : Spec.FirstZero ks i) :
    zeroRow ks ref = fetch ref[i]? := by
  have h0 : (0 : RVec e) ∈ ks := List.mem_of_getElem? h.1
  rw [firstZero_unique h (argmin_zero ks h0)]
  unfold zeroRow
  rw [(argmin_zero ks h0).1]
  simp only
  rw [if_neg (by rw [not_not]; exact vnorm_eq_zero.2 rfl)]

theorem zeroRow_missing {A : Type} {ks : List (RVec e)} {ref : List A} (hne : ks ≠ []) (h : (0 : RVec e) ∉ ks) :
    zeroRow ks ref = .error .assertionError := by
  classical
  have hlt : argmin (ks.map vnorm) < ks.length := by
    have : argmin (ks.map vnorm) < (ks.map vnorm).length := by
      unfold argmin
      rw [List.findIdx_lt_length]
      obtain ⟨x, hx, hmin⟩ : ∃ x ∈ ks.map vnorm, ∀ y ∈ ks.map vnorm, x ≤ y := by
        have h1 : (ks.map vnorm).toFinset.Nonempty := by
          cases ks with
          | nil => exact absurd rfl hne
          | cons a l => exact ⟨vnorm a, by simp⟩
        refine ⟨(ks.map vnorm).toFinset.min' h1, List.mem_toFinset.1 (Finset.min'_mem _ h1), fun y hy => ?_⟩
        exact Finset.min'_le _ _ (List.mem_toFinset.2 hy)
      exact ⟨x, hx, by rw [decide_eq_true_eq]; exact hmin⟩
    simpa using this
  unfold zeroRow
  rw [List.getElem?_eq_getElem hlt]
  simp only
  rw [if_pos]
  intro h0
  exact h (vnorm_eq_zero.1 h0 ▸ List.getElem_mem hlt)

theorem random_herm (a b : Matrix (Fin n) (Fin n) ℝ) : (randomHermitian a b).IsHermitian := by
  unfold randomHermitian
  rw [IsHermitian, conjTranspose_add, conjTranspose_conjTranspose, add_comm]

theorem random_bound {a b : Matrix (Fin n) (Fin n) ℝ} (ha : Spec.Random a) (hb : Spec.Random b) (i j : Fin n) :
    ‖randomHermitian a b i j‖ ≤ 3 := by
  have key : ∀ i j : Fin n, ‖randomPart a b i j‖ ≤ 3 / 2 := by
    intro i j
    rw [randomPart, of_apply, Complex.norm_add_mul_I, Real.sqrt_le_left (by norm_num)]
    have := ha i j
    have := hb i j
    nlinarith
  rw [randomHermitian, Matrix.add_apply, conjTranspose_apply]
  refine (norm_add_le _ _).trans ?_
  rw [norm_star]
  have := key i j
  have := key j i
  linarith

theorem random_trace (a b : Matrix (Fin n) (Fin n) ℝ) : (randomHermitian a b).trace = ((∑ j, 2 * (2 * a j j - 1) : ℝ) : ℂ) := by
  unfold randomHermitian
  rw [Matrix.trace, Complex.ofReal_sum]
  refine Finset.sum_congr rfl fun j _ => ?_
  rw [diag_apply, Matrix.add_apply, conjTranspose_apply, randomPart, of_apply]
  simp only [star_add, star_mul', Complex.star_def, Complex.conj_ofReal, Complex.conj_I]
  push_cast
  ring

/-- Entries of a Fourier sum. -/
theorem value_bound (H0 : CMat n) (rest : List (RVec d × CMat n)) (k : RVec d) {η : ℝ} (h : ∀ t ∈ rest, ∀ i j, ‖t.2 i j‖ ≤ η)
    (i j : Fin n) : ‖TB.Spec.value H0 rest k i j - H0 i j‖ ≤ rest.length * (2 * η) := by
  unfold TB.Spec.value
  rw [Matrix.add_apply, add_sub_cancel_left]
  induction rest with
  | nil => simp
  | cons t rest ih =>
    rw [List.map_cons, List.sum_cons, Matrix.add_apply, List.length_cons]
    refine (norm_add_le _ _).trans ?_
    have h1 := ih fun t ht => h t (List.mem_cons_of_mem _ ht)
    have hexp : ‖Complex.exp (2 * Real.pi * Complex.I * ((k ⬝ᵥ t.1 : ℝ) : ℂ))‖ = 1 := by
      rw [show (2 * Real.pi * Complex.I * ((k ⬝ᵥ t.1 : ℝ) : ℂ)) = ((2 * Real.pi * (k ⬝ᵥ t.1) : ℝ) : ℂ) * Complex.I by push_cast; ring]
      exact Complex.norm_exp_ofReal_mul_I _
    have h2 : ‖(Complex.exp (2 * Real.pi * Complex.I * ((k ⬝ᵥ t.1 : ℝ) : ℂ)) • t.2 +
        (Complex.exp (2 * Real.pi * Complex.I * ((k ⬝ᵥ t.1 : ℝ) : ℂ)) • t.2)ᴴ) i j‖ ≤ 2 * η := by
      rw [Matrix.add_apply, conjTranspose_apply, Matrix.smul_apply, Matrix.smul_apply]
      refine (norm_add_le _ _).trans ?_
      rw [norm_star, smul_eq_mul, smul_eq_mul, norm_mul, norm_mul, hexp, one_mul, one_mul]
      have := h t (by simp) i j
      have := h t (by simp) j i
      linarith
    push_cast
    linarith

/-! ## AsymTightBindingModel -/

/-- **C115.** `AsymTightBindingModel.init_from_ref`: `IndexError` without samples or without neighbours, `AssertionError` if the
dimensions differ, if the first neighbour is not zero, or if no sample is zero; `IndexError` if the row of the first zero sample is
missing; `ValueError` without bands. -/
theorem C115_asym_errors (eigh : CMat n → (Fin n → ℝ) × CMat n) (sorting : CMat n → Equiv.Perm (Fin n)) (N : List (RVec d))
    (ks : List (RVec e)) (ref : List (Fin n → ℝ)) (useS : Bool)
    (rnd : ℕ → Matrix (Fin n) (Fin n) ℝ × Matrix (Fin n) (Fin n) ℝ) :
    (ks = [] ∨ N = [] → asymInit eigh sorting N ks ref useS rnd = .error .indexError) ∧
    (ks ≠ [] → ∀ r0 rest, N = r0 :: rest → e ≠ d ∨ r0 ≠ 0 ∨ (0 : RVec e) ∉ ks →
      asymInit eigh sorting N ks ref useS rnd = .error .assertionError) ∧
    (∀ rest, N = 0 :: rest → e = d → ∀ i, Spec.FirstZero ks i →
      (ref[i]? = none → asymInit eigh sorting N ks ref useS rnd = .error .indexError) ∧
      (ref[i]? ≠ none → n = 0 → asymInit eigh sorting N ks ref useS rnd = .error .valueError)) := by
  refine ⟨?_, ?_, ?_⟩
  · intro h
    rcases h with rfl | rfl
    · rfl
    · cases ks <;> rfl
  · rintro hks r0 rest rfl h
    cases ks with
    | nil => exact absurd rfl hks
    | cons k ks =>
      unfold asymInit
      simp only
      by_cases h1 : e ≠ d
      · rw [if_pos h1]
      · rw [if_neg h1]
        by_cases h2 : vnorm r0 ≠ 0
        · rw [if_pos h2]
        · rw [if_neg h2]
          rw [not_not, vnorm_eq_zero] at h2
          rcases h with h | h | h
          · exact absurd h h1
          · exact absurd h2 h
          · rw [zeroRow_missing hks h]; rfl
  · rintro rest rfl he i hi
    have hks : ks ≠ [] := by
      rintro rfl
      simpa using hi.1
    cases ks with
    | nil => exact absurd rfl hks
    | cons k ks =>
      unfold asymInit
      simp only
      rw [if_neg (not_not.2 he), if_neg (by rw [not_not]; exact vnorm_eq_zero.2 rfl), zeroRow_ok hi]
      constructor
      · intro h; rw [h]; rfl
      · intro h hn
        obtain ⟨row, hrow⟩ := Option.ne_none_iff_exists'.1 h
        rw [hrow]
        simp only [fetch, bind, Except.bind, asymBuild]
        rw [if_pos hn]

theorem asymTb_eq (H0 : CMat n) (rest : List (RVec d)) (R : List (CMat n)) (hR : R.length = rest.length) (useS : Bool) :
    ∃ srest : List (RVec d × CMat n), (∀ t ∈ srest, t.2 = 0) ∧
      (0 : RVec d) :: srest.map Prod.fst = (if useS then 0 :: rest else [0]) ∧
      asymTb ((0 : RVec d) :: rest) (H0 :: R) useS = .ok ⟨⟨(0, H0) :: rest.zip R⟩, ⟨(0, 1) :: srest⟩⟩ := by
  have hser : mkSeries ((0 : RVec d) :: rest) (H0 :: R) = .ok (⟨(0, H0) :: rest.zip R⟩ : Series d n) := by
    unfold mkSeries
    simp only
    rw [if_neg (by rw [not_not]; exact vnorm_eq_zero.2 rfl), if_neg (by simp [hR]), List.zip_cons_cons]
  cases useS with
  | true =>
    refine ⟨rest.map fun r => (r, 0), by simp, by simp [Function.comp_def], ?_⟩
    unfold asymTb
    rw [hser]
    simp only [if_true, bind, Except.bind]
    unfold Series.unitMatrix mkSeries
    simp only
    rw [if_neg (by rw [not_not]; exact vnorm_eq_zero.2 rfl), if_neg (by simp)]
    simp only [pure, Except.pure, List.mapIdx_cons, List.zip_cons_cons, if_true]
    congr 4
    apply List.ext_getElem <;> simp
  | false =>
    refine ⟨[], by simp, by simp, ?_⟩
    unfold asymTb
    rw [hser]
    simp only [Bool.false_eq_true, if_false, bind, Except.bind]
    unfold mkTb Series.unitMatrix mkSeries
    simp only
    rw [if_neg (by rw [not_not]; exact vnorm_eq_zero.2 rfl), if_neg (by simp)]
    rfl

theorem diag_herm (row : Fin n → ℝ) : (diagonal fun i => (row i : ℂ) : CMat n).IsHermitian := by
  rw [IsHermitian, diagonal_conjTranspose]
  congr 1
  ext i
  simp

theorem unit_conj (M : CMat n) (srest : List (RVec d × CMat n)) (hval : ∀ k : RVec d, TB.Spec.value (1 : CMat n) srest k = 1)
    (hS0 : ((⟨(0, 1) :: srest⟩ : Series d n).conj M).f 0 = .ok 1) : Mᴴ * M = 1 := by
  rw [conj_f, f_eq, hval] at hS0
  simpa [Except.map] using hS0

theorem asym_shape (eigh : CMat n → (Fin n → ℝ) × CMat n) (heigh : TB.Spec.IsEigh eigh) (sorting : CMat n → Equiv.Perm (Fin n))
    (H0 : CMat n) (h0 : H0.IsHermitian) (hrest srest : List (RVec d × CMat n))
    (hval : ∀ k : RVec d, TB.Spec.value (1 : CMat n) srest k = 1) :
    ∃ M : CMat n, (⟨⟨(0, H0) :: hrest⟩, ⟨(0, 1) :: srest⟩⟩ : Tb d n).normalize eigh sorting =
        .ok ⟨(⟨(0, H0) :: hrest⟩ : Series d n).conj M, (⟨(0, 1) :: srest⟩ : Series d n).conj M⟩ ∧ Mᴴ * M = 1 ∧
      ∃ D : CMat n, ((⟨(0, H0) :: hrest⟩ : Series d n).conj M).f 0 = .ok D ∧ IsDiag D := by
  have hp : (TB.Spec.value (1 : CMat n) srest (0 : RVec d)).PosDef := by rw [hval]; exact PosDef.one
  obtain ⟨M, hM, -, hS0, D, hD, hdiag⟩ := Opt.normalize_shape eigh heigh sorting H0 1 hrest srest h0 isHermitian_one hp
  exact ⟨M, hM, unit_conj M srest hval hS0, D, hD, hdiag⟩

theorem conj_fst (s : Series d n) (M : CMat n) : (s.conj M).terms.map Prod.fst = s.terms.map Prod.fst := by
  simp [Series.conj, Function.comp_def]

theorem conj_value (H0 M : CMat n) (rest : List (RVec d × CMat n)) (k : RVec d) :
    ((⟨(0, H0) :: rest⟩ : Series d n).conj M).f k = .ok (Mᴴ * TB.Spec.value H0 rest k * M) := by
  rw [conj_f, f_eq, Except.map]

theorem value_one {srest : List (RVec d × CMat n)} (hs0 : ∀ t ∈ srest, t.2 = 0) (k : RVec d) :
    TB.Spec.value (1 : CMat n) srest k = 1 := by
  unfold TB.Spec.value
  rw [add_eq_left]
  apply List.sum_eq_zero
  intro x hx
  obtain ⟨t, ht, rfl⟩ := List.mem_map.1 hx
  rw [hs0 t ht, smul_zero, conjTranspose_zero, add_zero]

theorem ok_bind {A B : Type} (a : A) (f : A → Except Err B) : ((.ok a : Except Err A) >>= f) = f a := rfl

/-- The normalised model. -/
theorem asym_normalize (eigh : CMat n → (Fin n → ℝ) × CMat n) (heigh : TB.Spec.IsEigh eigh) (sorting : CMat n → Equiv.Perm (Fin n))
    (H0 : CMat n) (h0 : H0.IsHermitian) (rest : List (RVec d)) (R : List (CMat n)) (hR : R.length = rest.length) (useS : Bool) :
    ∃ (t' : Tb d n) (M : CMat n), (asymTb ((0 : RVec d) :: rest) (H0 :: R) useS >>= fun t => t.normalize eigh sorting) = .ok t' ∧
      Mᴴ * M = 1 ∧ t'.H.terms.map Prod.fst = 0 :: rest ∧ t'.S.terms.map Prod.fst = (if useS then 0 :: rest else [0]) ∧
      (∃ D : CMat n, t'.H.f 0 = .ok D ∧ IsDiag D) ∧
      ∀ k, t'.S.f k = .ok 1 ∧ t'.H.f k = .ok (Mᴴ * TB.Spec.value H0 (rest.zip R) k * M) := by
  obtain ⟨srest, hs0, hsn, hSeq⟩ := asymTb_eq H0 rest R hR useS
  obtain ⟨M, hM, hMM, hD⟩ := asym_shape eigh heigh sorting H0 h0 (rest.zip R) srest (value_one hs0)
  refine ⟨⟨(⟨(0, H0) :: rest.zip R⟩ : Series d n).conj M, (⟨(0, 1) :: srest⟩ : Series d n).conj M⟩, M, ?_, hMM,
    ?_, ?_, hD, fun k => ⟨?_, conj_value _ _ _ _⟩⟩
  · rw [hSeq, ok_bind, hM]
  · rw [conj_fst, List.map_cons, List.map_fst_zip (by rw [hR])]
  · rw [← hsn, conj_fst, List.map_cons]
  · rw [conj_value, value_one hs0, Matrix.mul_one, hMM]

/-- The result of `asymBuild` up to the basis. -/
theorem asymBuild_eq (eigh : CMat n → (Fin n → ℝ) × CMat n) (heigh : TB.Spec.IsEigh eigh) (sorting : CMat n → Equiv.Perm (Fin n))
    (rest : List (RVec d)) (row : Fin n → ℝ) (hn : n ≠ 0) (useS : Bool) (rnd : ℕ → Matrix (Fin n) (Fin n) ℝ × Matrix (Fin n) (Fin n) ℝ)
    {hi lo : ℝ} (hhi : IsGreatest (Set.range row) hi) (hlo : IsLeast (Set.range row) lo) :
    ∃ (t' : Tb d n) (M : CMat n), asymBuild eigh sorting (0 :: rest) row useS rnd = .ok t' ∧ Mᴴ * M = 1 ∧
      t'.H.terms.map Prod.fst = 0 :: rest ∧
      t'.S.terms.map Prod.fst = (if useS then 0 :: rest else [0]) ∧
      (∃ D : CMat n, t'.H.f 0 = .ok D ∧ IsDiag D) ∧
      ∀ k, t'.S.f k = .ok 1 ∧ t'.H.f k = .ok (Mᴴ * TB.Spec.value (diagonal fun i => (row i : ℂ))
        (rest.zip ((List.range rest.length).map fun i =>
          (((hi - lo) / 1000 : ℝ) : ℂ) • randomHermitian (rnd i).1 (rnd i).2)) k * M) := by
  have hsup : (⨆ i, row i) = hi := hhi.csSup_eq
  have hinf : (⨅ i, row i) = lo := hlo.csInf_eq
  have hHr : asymHr ((0 : RVec d) :: rest).length row rnd = (diagonal fun i => (row i : ℂ)) ::
      (List.range rest.length).map fun i => (((hi - lo) / 1000 : ℝ) : ℂ) • randomHermitian (rnd i).1 (rnd i).2 := by
    unfold asymHr
    simp only
    rw [hsup, hinf, mul_one_div, List.length_cons, Nat.add_sub_cancel]
  obtain ⟨t, M, h⟩ := asym_normalize eigh heigh sorting (diagonal fun i => (row i : ℂ)) (diag_herm row) rest
    ((List.range rest.length).map fun i => (((hi - lo) / 1000 : ℝ) : ℂ) • randomHermitian (rnd i).1 (rnd i).2) (by simp) useS
  refine ⟨t, M, ?_, h.2⟩
  rw [asymBuild, if_neg hn, hHr]
  exact h.1

theorem asymInit_eq (eigh : CMat n → (Fin n → ℝ) × CMat n) (sorting : CMat n → Equiv.Perm (Fin n))
    (rest : List (RVec d)) (ks : List (RVec d)) (ref : List (Fin n → ℝ)) (i0 : ℕ) (hz : Spec.FirstZero ks i0) (row : Fin n → ℝ)
    (hrow : ref[i0]? = some row) (useS : Bool) (rnd : ℕ → Matrix (Fin n) (Fin n) ℝ × Matrix (Fin n) (Fin n) ℝ) :
    asymInit eigh sorting (0 :: rest) ks ref useS rnd = asymBuild eigh sorting (0 :: rest) row useS rnd := by
  have hks : ks ≠ [] := by
    rintro rfl
    simpa using hz.1
  cases ks with
  | nil => exact absurd rfl hks
  | cons k ks =>
    unfold asymInit
    simp only
    rw [if_neg (not_not.2 rfl), if_neg (by rw [not_not]; exact vnorm_eq_zero.2 rfl), zeroRow_ok hz, hrow]
    rfl

/-- **C115.** The model of `init_from_ref`: there are hermitian matrices `R_r` with entries of at most 3/1000 of the spread of the
reference bands at the first zero sample, and one unitary matrix `M`, such that the Hamiltonian at every `k` is `M†` times the Fourier
sum with the constant term `diag(reference)` and the terms `R_r` times `M`; the overlap is one (with `use_S` it has the same
neighbours), the neighbours are the given ones, and the Hamiltonian at `k = 0` is diagonal. -/
theorem C115_asym_values (eigh : CMat n → (Fin n → ℝ) × CMat n) (heigh : TB.Spec.IsEigh eigh) (sorting : CMat n → Equiv.Perm (Fin n))
    (rest : List (RVec d)) (ks : List (RVec d)) (ref : List (Fin n → ℝ)) (i0 : ℕ) (hz : Spec.FirstZero ks i0) (row : Fin n → ℝ)
    (hrow : ref[i0]? = some row) (hn : n ≠ 0) (useS : Bool) (rnd : ℕ → Matrix (Fin n) (Fin n) ℝ × Matrix (Fin n) (Fin n) ℝ)
    (hrnd : ∀ i, Spec.Random (rnd i).1 ∧ Spec.Random (rnd i).2) {w : ℝ} (hw : ∀ i j, |row i - row j| ≤ w) :
    ∃ (t : Tb d n) (M : CMat n) (R : List (CMat n)), asymInit eigh sorting (0 :: rest) ks ref useS rnd = .ok t ∧ Mᴴ * M = 1 ∧
      R.length = rest.length ∧ (∀ X ∈ R, X.IsHermitian ∧ ∀ i j, ‖X i j‖ ≤ w * (3 / 1000)) ∧
      t.H.terms.map Prod.fst = 0 :: rest ∧ t.S.terms.map Prod.fst = (if useS then 0 :: rest else [0]) ∧
      (∃ D : CMat n, t.H.f 0 = .ok D ∧ IsDiag D) ∧
      ∀ k, TB.Spec.At t k (Mᴴ * TB.Spec.value (diagonal fun i => (row i : ℂ)) (rest.zip R) k * M) 1 := by
  have : Nonempty (Fin n) := ⟨⟨0, Nat.pos_of_ne_zero hn⟩⟩
  have hfin : (Set.range row).Finite := Set.finite_range row
  have hne : (Set.range row).Nonempty := Set.range_nonempty row
  obtain ⟨hi, hhi⟩ : ∃ hi, IsGreatest (Set.range row) hi := ⟨_, hfin.isCompact.isGreatest_sSup hne⟩
  obtain ⟨lo, hlo⟩ : ∃ lo, IsLeast (Set.range row) lo := ⟨_, hfin.isCompact.isLeast_sInf hne⟩
  obtain ⟨t, M, h1, h2, h3, h4, h5, h6⟩ := asymBuild_eq eigh heigh sorting rest row hn useS rnd hhi hlo
  rw [← asymInit_eq eigh sorting rest ks ref i0 hz row hrow useS rnd] at h1
  refine ⟨t, M, _, h1, h2, by simp, ?_, h3, h4, h5, fun k => ⟨(h6 k).2, (h6 k).1⟩⟩
  have hle : 0 ≤ hi - lo ∧ hi - lo ≤ w := by
    obtain ⟨a, ha⟩ := hhi.1
    obtain ⟨b, hb⟩ := hlo.1
    constructor
    · have := hlo.2 hhi.1
      linarith
    · have := hw a b
      rw [ha, hb] at this
      exact (le_abs_self _).trans this
  intro X hX
  obtain ⟨i, -, rfl⟩ := List.mem_map.1 hX
  constructor
  · rw [IsHermitian, conjTranspose_smul, (random_herm _ _).eq]
    congr 1
    simp
  · intro a b
    rw [Matrix.smul_apply, smul_eq_mul, norm_mul, Complex.norm_real, Real.norm_eq_abs, abs_of_nonneg (by linarith [hle.1])]
    have h := random_bound (hrnd i).1 (hrnd i).2 a b
    have h0 := norm_nonneg (randomHermitian (rnd i).1 (rnd i).2 a b)
    nlinarith [hle.1, hle.2]

theorem diag_geigh (row : Fin n → ℝ) (h : Monotone row) : TB.Spec.IsGeigh (diagonal fun i => (row i : ℂ)) 1 row 1 :=
  ⟨by simp [rot], by simp [rot], h⟩

/-- **C115.** The bands of the start model are near the reference at `k = 0`, for every `k`: the band number `i` differs from the
reference by at most `6/1000` of the spread times the number of bands and of further neighbours. -/
theorem C115_asym_bound (eigh : CMat n → (Fin n → ℝ) × CMat n) (heigh : TB.Spec.IsEigh eigh) (sorting : CMat n → Equiv.Perm (Fin n))
    (rest : List (RVec d)) (ks : List (RVec d)) (ref : List (Fin n → ℝ)) (i0 : ℕ) (hz : Spec.FirstZero ks i0) (row : Fin n → ℝ)
    (hrow : ref[i0]? = some row) (hmono : Monotone row) (useS : Bool)
    (rnd : ℕ → Matrix (Fin n) (Fin n) ℝ × Matrix (Fin n) (Fin n) ℝ) (hrnd : ∀ i, Spec.Random (rnd i).1 ∧ Spec.Random (rnd i).2)
    {w : ℝ} (hw : ∀ i j, |row i - row j| ≤ w) (t : Tb d n) (ht : asymInit eigh sorting (0 :: rest) ks ref useS rnd = .ok t)
    (k : RVec d) (H S V : CMat n) (bands : Fin n → ℝ) (hat : TB.Spec.At t k H S) (hb : TB.Spec.IsGeigh H S bands V) (i : Fin n) :
    |bands i - row i| ≤ w * (6 / 1000) * rest.length * n := by
  have hn : n ≠ 0 := by
    rintro rfl
    exact i.elim0
  obtain ⟨t', M, R, h1, h2, h3, h4, -, -, -, h5⟩ := C115_asym_values eigh heigh sorting rest ks ref i0 hz row hrow hn useS rnd hrnd hw
  rw [ht] at h1
  cases h1
  have hH := (Except.ok.inj (hat.1.symm.trans (h5 k).1))
  have hS := (Except.ok.inj (hat.2.symm.trans (h5 k).2))
  subst hH hS
  have hunit : IsUnit M.det := by
    have := congrArg det h2
    rw [det_mul, det_one] at this
    exact IsUnit.of_mul_eq_one_right _ this
  have hU : M * Mᴴ = 1 := mul_eq_one_comm.1 h2
  -- undo the basis change
  have hunit' : IsUnit (Mᴴ).det := by rw [det_conjTranspose]; exact hunit.star
  have hb' := Opt.geigh_congr hb hunit'
  rw [conjTranspose_conjTranspose, Matrix.mul_one, hU] at hb'
  have hback : M * (Mᴴ * TB.Spec.value (diagonal fun i => (row i : ℂ)) (rest.zip R) k * M) * Mᴴ =
      TB.Spec.value (diagonal fun i => (row i : ℂ)) (rest.zip R) k := by
    calc _ = (M * Mᴴ) * TB.Spec.value (diagonal fun i => (row i : ℂ)) (rest.zip R) k * (M * Mᴴ) := by simp only [Matrix.mul_assoc]
      _ = _ := by rw [hU, Matrix.one_mul, Matrix.mul_one]
  rw [hback] at hb'
  have hent : ∀ a b, ‖TB.Spec.value (diagonal fun i => (row i : ℂ)) (rest.zip R) k a b - (diagonal fun i => (row i : ℂ) : CMat n) a b‖ ≤
      rest.length * (2 * (w * (3 / 1000))) := by
    intro a b
    have := value_bound (diagonal fun i => (row i : ℂ)) (rest.zip R) k (η := w * (3 / 1000))
      (fun t ht => (h4 t.2 (List.of_mem_zip ht).2).2) a b
    rwa [List.length_zip, h3, min_self] at this
  refine (SE.weyl hb' (diag_geigh row hmono) hent i).trans_eq ?_
  ring

/-- **C115 (defect)** The comment says that the model is made correct for `k = 0`.  It is not: the sum of the bands at `k = 0` differs
from the sum of the reference bands by the spread of the reference over 1000 times the sum of the traces of the random matrices
(twice). -/
theorem C115_asym_trace (eigh : CMat n → (Fin n → ℝ) × CMat n) (heigh : TB.Spec.IsEigh eigh) (sorting : CMat n → Equiv.Perm (Fin n))
    (rest : List (RVec d)) (ks : List (RVec d)) (ref : List (Fin n → ℝ)) (i0 : ℕ) (hz : Spec.FirstZero ks i0) (row : Fin n → ℝ)
    (hrow : ref[i0]? = some row) (hn : n ≠ 0) (useS : Bool) (rnd : ℕ → Matrix (Fin n) (Fin n) ℝ × Matrix (Fin n) (Fin n) ℝ)
    {hi lo : ℝ} (hhi : IsGreatest (Set.range row) hi) (hlo : IsLeast (Set.range row) lo) :
    ∃ (t : Tb d n) (H : CMat n), asymInit eigh sorting (0 :: rest) ks ref useS rnd = .ok t ∧ TB.Spec.At t 0 H 1 ∧
      ∀ (bands : Fin n → ℝ) (V : CMat n), TB.Spec.IsGeigh H 1 bands V →
        ∑ i, bands i = ∑ i, row i + (hi - lo) / 1000 * ∑ i ∈ Finset.range rest.length, ∑ j, 4 * (2 * (rnd i).1 j j - 1) := by
  obtain ⟨t, M, h1, h2, -, -, -, h6⟩ := asymBuild_eq eigh heigh sorting rest row hn useS rnd hhi hlo
  rw [← asymInit_eq eigh sorting rest ks ref i0 hz row hrow useS rnd] at h1
  refine ⟨t, _, h1, ⟨(h6 0).2, (h6 0).1⟩, fun bands V hb => ?_⟩
  have hU : M * Mᴴ = 1 := mul_eq_one_comm.1 h2
  have h7 := SE.sum_eig hb
  rw [Matrix.mul_assoc, Matrix.trace_mul_comm, Matrix.mul_assoc, hU, Matrix.mul_one] at h7
  have h8 : (TB.Spec.value (diagonal fun i => (row i : ℂ)) (rest.zip ((List.range rest.length).map fun i =>
      (((hi - lo) / 1000 : ℝ) : ℂ) • randomHermitian (rnd i).1 (rnd i).2)) (0 : RVec d)).trace =
      ((∑ i, row i + (hi - lo) / 1000 * ∑ i ∈ Finset.range rest.length, ∑ j, 4 * (2 * (rnd i).1 j j - 1) : ℝ) : ℂ) := by
    unfold TB.Spec.value
    rw [trace_add, trace_diagonal, trace_list_sum, List.map_map]
    have h9 : ∀ l : List (RVec d × CMat n), (l.map (trace ∘ fun t : RVec d × CMat n =>
        Complex.exp (2 * Real.pi * Complex.I * (((0 : RVec d) ⬝ᵥ t.1 : ℝ) : ℂ)) • t.2 +
        (Complex.exp (2 * Real.pi * Complex.I * (((0 : RVec d) ⬝ᵥ t.1 : ℝ) : ℂ)) • t.2)ᴴ)) =
        (l.map Prod.snd).map fun X => X.trace + star X.trace := by
      intro l
      rw [List.map_map]
      refine List.map_congr_left fun t _ => ?_
      simp [trace_add, trace_conjTranspose]
    rw [h9, List.map_snd_zip (by simp), List.map_map]
    have h10 : ∀ i, ((fun X : CMat n => X.trace + star X.trace) ∘ fun i =>
        (((hi - lo) / 1000 : ℝ) : ℂ) • randomHermitian (rnd i).1 (rnd i).2) i =
        (((hi - lo) / 1000 * ∑ j, 4 * (2 * (rnd i).1 j j - 1) : ℝ) : ℂ) := by
      intro i
      simp only [Function.comp, trace_smul, random_trace, smul_eq_mul, star_mul', Complex.star_def, Complex.conj_ofReal]
      rw [← Complex.ofReal_mul, ← Complex.ofReal_add]
      congr 1
      rw [← mul_add, ← Finset.sum_add_distrib]
      congr 1
      exact Finset.sum_congr rfl fun _ _ => by ring
    rw [List.map_congr_left fun i _ => h10 i, Finset.mul_sum, Complex.ofReal_add, Complex.ofReal_sum, Complex.ofReal_sum]
    congr 1
  rw [h8, ← Complex.ofReal_sum] at h7
  exact_mod_cast h7

/-- **C115 (defect)** For one band, or if all reference bands at `k = 0` are equal, the random part vanishes: the start model is
constant, `H(k) = c`, for every neighbour list and every random number. -/
theorem C115_asym_flat (eigh : CMat n → (Fin n → ℝ) × CMat n) (heigh : TB.Spec.IsEigh eigh) (sorting : CMat n → Equiv.Perm (Fin n))
    (rest : List (RVec d)) (ks : List (RVec d)) (ref : List (Fin n → ℝ)) (i0 : ℕ) (hz : Spec.FirstZero ks i0) (c : ℝ)
    (hrow : ref[i0]? = some fun _ => c) (hn : n ≠ 0) (useS : Bool)
    (rnd : ℕ → Matrix (Fin n) (Fin n) ℝ × Matrix (Fin n) (Fin n) ℝ) :
    ∃ t : Tb d n, asymInit eigh sorting (0 :: rest) ks ref useS rnd = .ok t ∧ ∀ k, TB.Spec.At t k ((c : ℂ) • 1) 1 := by
  have hg : IsGreatest (Set.range fun _ : Fin n => c) c := ⟨⟨⟨0, Nat.pos_of_ne_zero hn⟩, rfl⟩, by rintro _ ⟨_, rfl⟩; exact le_rfl⟩
  have hl : IsLeast (Set.range fun _ : Fin n => c) c := ⟨⟨⟨0, Nat.pos_of_ne_zero hn⟩, rfl⟩, by rintro _ ⟨_, rfl⟩; exact le_rfl⟩
  obtain ⟨t, M, h1, h2, -, -, -, h6⟩ := asymBuild_eq eigh heigh sorting rest (fun _ => c) hn useS rnd hg hl
  rw [← asymInit_eq eigh sorting rest ks ref i0 hz _ hrow useS rnd] at h1
  refine ⟨t, h1, fun k => ⟨?_, (h6 k).1⟩⟩
  rw [(h6 k).2]
  congr 1
  have h3 : TB.Spec.value (diagonal fun _ => (c : ℂ) : CMat n) (rest.zip ((List.range rest.length).map fun i =>
      (((c - c) / 1000 : ℝ) : ℂ) • randomHermitian (rnd i).1 (rnd i).2)) k = (c : ℂ) • 1 := by
    unfold TB.Spec.value
    rw [List.sum_eq_zero, add_zero, smul_one_eq_diagonal]
    intro X hX
    obtain ⟨t, ht, rfl⟩ := List.mem_map.1 hX
    obtain ⟨i, -, hi⟩ := List.mem_map.1 (List.of_mem_zip ht).2
    rw [← hi]
    simp
  rw [h3, Matrix.mul_smul, Matrix.mul_one, Matrix.smul_mul, h2]

/-! ## BandStructureModel -/

/-- The padded reference bands. -/
def Spec.padded (row : List ℝ) (h : row ≠ []) (left right : ℕ) : List ℝ :=
  List.replicate left (row.head h) ++ row ++ List.replicate right (row.getLast h)

theorem pad_eq (row : List ℝ) (h : row ≠ []) (o a : ℤ) : pad row o a = .ok (Spec.padded row h o.toNat (a - o).toNat) := by
  unfold pad
  rw [List.head?_eq_some_head h, List.getLast?_eq_some_getLast h]
  rfl

/-- **C115.** `BandStructureModel.init_from_ref`: the bands of the first zero sample, padded with the first band `band_offset` times on
the left and with the last band `add_bands - band_offset` times on the right (not at all for negative numbers), are the diagonal
of the first matrix.  The other matrices are hermitian with entries of at most 3/1000.  The number of bands is that of the data
plus `add_bands` exactly if `0 ≤ band_offset ≤ add_bands`; otherwise it is larger. -/
theorem C115_bs_values (c : BS.Coeff d) (paramCount : ℕ) (ks : List (RVec e)) (ref : List (List ℝ)) (o a : ℤ)
    (rnd : (n : ℕ) → ℕ → Matrix (Fin n) (Fin n) ℝ × Matrix (Fin n) (Fin n) ℝ)
    (hrnd : ∀ n i, Spec.Random (rnd n i).1 ∧ Spec.Random (rnd n i).2) (i0 : ℕ) (hz : Spec.FirstZero ks i0) (row : List ℝ)
    (hrow : ref[i0]? = some row) (hne : row ≠ []) :
    ∃ b : BS.BSM d (Spec.padded row hne o.toNat (a - o).toNat).length,
      bsInit c paramCount ks ref o a rnd = .ok ⟨_, b⟩ ∧ b.coeff = c ∧ b.symmetrizer = none ∧
      b.P0 = diagonal (fun i => (((Spec.padded row hne o.toNat (a - o).toNat).get i : ℝ) : ℂ)) ∧
      b.Ps.length = paramCount - 1 ∧ (∀ P ∈ b.Ps, P.IsHermitian ∧ ∀ i j, ‖P i j‖ ≤ 3 / 1000) ∧
      (((Spec.padded row hne o.toNat (a - o).toNat).length : ℤ) = row.length + a ↔ (0 ≤ o ∧ o ≤ a)) ∧
      (row.length + a : ℤ) ≤ (Spec.padded row hne o.toNat (a - o).toNat).length := by
  refine ⟨⟨c, diagonal (fun i => (((Spec.padded row hne o.toNat (a - o).toNat).get i : ℝ) : ℂ)),
    (List.range (paramCount - 1)).map fun i => ((1 / 1000 : ℝ) : ℂ) • randomHermitian (rnd _ i).1 (rnd _ i).2, none⟩, ?_, rfl, rfl, rfl,
    by simp, ?_, ?_, ?_⟩
  · unfold bsInit
    rw [zeroRow_ok hz, hrow]
    simp only [fetch, bind, Except.bind]
    rw [pad_eq row hne]
    rfl
  · intro P hP
    obtain ⟨i, -, rfl⟩ := List.mem_map.1 hP
    constructor
    · rw [IsHermitian, conjTranspose_smul, (random_herm _ _).eq]
      congr 1
      simp
    · intro x y
      rw [Matrix.smul_apply, smul_eq_mul, norm_mul, Complex.norm_real, Real.norm_eq_abs, abs_of_pos (by norm_num)]
      have := random_bound (hrnd _ i).1 (hrnd _ i).2 x y
      linarith
  · simp only [Spec.padded, List.length_append, List.length_replicate]
    omega
  · simp only [Spec.padded, List.length_append, List.length_replicate]
    omega

/-- **C115.** Exceptions of `BandStructureModel.init_from_ref`. -/
theorem C115_bs_errors (c : BS.Coeff d) (paramCount : ℕ) (ks : List (RVec e)) (ref : List (List ℝ)) (o a : ℤ)
    (rnd : (n : ℕ) → ℕ → Matrix (Fin n) (Fin n) ℝ × Matrix (Fin n) (Fin n) ℝ) :
    (ks = [] → bsInit c paramCount ks ref o a rnd = .error .indexError) ∧
    (ks ≠ [] → (0 : RVec e) ∉ ks → bsInit c paramCount ks ref o a rnd = .error .assertionError) ∧
    (∀ i, Spec.FirstZero ks i → (ref[i]? = none ∨ ref[i]? = some []) → bsInit c paramCount ks ref o a rnd = .error .indexError) := by
  refine ⟨?_, ?_, ?_⟩
  · rintro rfl
    simp [bsInit, zeroRow, bind, Except.bind]
  · intro h1 h2
    unfold bsInit
    rw [zeroRow_missing h1 h2]
    rfl
  · rintro i hi (h | h)
    · unfold bsInit
      rw [zeroRow_ok hi, h]
      rfl
    · unfold bsInit
      rw [zeroRow_ok hi, h]
      rfl

/-- The coefficient functions at `k = 0`. -/
theorem fi_at_zero (t : BS.TBData d) (hN : t.neighbors ≠ []) (i : ℕ) (hi : i ≠ 0) :
    t.fi 0 i = if t.cosReduced = false ∧ (t.exp = true ∨ t.inversion = true ∨ i < t.neighbors.length) then (t.S.length : ℂ)
      else 0 := by
  have hfold : ∀ (l : List (Matrix (Fin d) (Fin d) ℝ)) (z a : ℂ), l.foldl (fun res _ => res + z) a = a + l.length * z := by
    intro l z
    induction l with
    | nil => intro a; simp
    | cons s l ih =>
      intro a
      rw [List.foldl_cons, ih]
      push_cast [List.length_cons]
      ring
  unfold BS.TBData.fi
  rw [if_neg hi]
  simp only [zero_dotProduct, mul_zero]
  rw [hfold]
  have hdiv : i / t.neighbors.length = 0 ↔ i < t.neighbors.length ∨ t.neighbors.length = 0 := by
    rw [Nat.div_eq_zero_iff]
    tauto
  have hl : t.neighbors.length ≠ 0 := by simpa using hN
  unfold BS.TBData.func
  by_cases hlt : i < t.neighbors.length
  · have h0 : i / t.neighbors.length = 0 := Nat.div_eq_of_lt hlt
    cases hc : t.cosReduced <;> cases hx : t.exp <;> cases hv : t.inversion <;> simp [h0, hlt]
  · have h0 : i / t.neighbors.length ≠ 0 := by
      rw [Ne, hdiv]
      tauto
    cases hc : t.cosReduced <;> cases hx : t.exp <;> cases hv : t.inversion <;> simp [h0, hlt]

/-- **C115.** `init_tight_binding_from_ref` with `cos_reduced=True` reproduces the (padded) reference at `k = 0` exactly, with any
random numbers: `f(0)` is the diagonal matrix of the padded bands, and if these are ascending they are the bands at `k = 0`. -/
theorem C115_bs_exact (t : BS.TBData d) (hc : t.cosReduced = true) (ks : List (RVec e)) (ref : List (List ℝ)) (o a : ℤ)
    (rnd : (n : ℕ) → ℕ → Matrix (Fin n) (Fin n) ℝ × Matrix (Fin n) (Fin n) ℝ) (i0 : ℕ) (hz : Spec.FirstZero ks i0) (row : List ℝ)
    (hrow : ref[i0]? = some row) (hne : row ≠ []) :
    ∃ b : BS.BSM d (Spec.padded row hne o.toNat (a - o).toNat).length, bsInitTb t ks ref o a rnd = .ok ⟨_, b⟩ ∧ b.coeff = .tb t ∧
      b.f 0 = diagonal (fun i => (((Spec.padded row hne o.toNat (a - o).toNat).get i : ℝ) : ℂ)) ∧
      (Monotone (Spec.padded row hne o.toNat (a - o).toNat).get → ∀ bands V, TB.Spec.IsGeigh (b.f 0) 1 bands V →
        bands = (Spec.padded row hne o.toNat (a - o).toNat).get) := by
  have hf : ∀ (b : BS.BSM d (Spec.padded row hne o.toNat (a - o).toNat).length), b.coeff = .tb t →
      b.Ps.length = t.termCount.toNat - 1 → b.f 0 = b.P0 := by
    intro b hb hl
    have h0 : ∀ i ∈ Finset.range b.Ps.length, t.fi 0 (i + 1) • b.Ps.getD i 0 = 0 := by
      intro i hi
      have hN : t.neighbors ≠ [] := by
        rintro h
        rw [Finset.mem_range, hl] at hi
        unfold BS.TBData.termCount at hi
        rw [h] at hi
        split_ifs at hi <;> simp at hi
      rw [fi_at_zero t hN _ (Nat.succ_ne_zero i), if_neg (by rw [hc]; simp), zero_smul]
    unfold BS.BSM.f BS.BSM.hsum
    simp only [hb, BS.Coeff.fi]
    rw [Finset.sum_eq_zero h0, conjTranspose_zero, add_zero, zero_add]
    unfold BS.TBData.fi
    rw [if_pos rfl, one_smul]
  refine ⟨⟨.tb t, diagonal (fun i => (((Spec.padded row hne o.toNat (a - o).toNat).get i : ℝ) : ℂ)),
    (List.range (t.termCount.toNat - 1)).map fun i => ((1 / 1000 : ℝ) : ℂ) • randomHermitian (rnd _ i).1 (rnd _ i).2, none⟩, ?_, rfl, ?_, ?_⟩
  · unfold bsInitTb bsInit
    rw [zeroRow_ok hz, hrow]
    simp only [fetch, bind, Except.bind]
    rw [pad_eq row hne]
    rfl
  · exact hf _ rfl (by simp)
  · intro hm bands V hb
    rw [hf _ rfl (by simp)] at hb
    exact Opt.geigh_unique hb (diag_geigh _ hm)

/-- **C115 (defect)** With `cos_reduced=False` (the default; a TODO in the source mentions it) the start model does not reproduce the
reference at `k = 0`: the trace of `f(0)` is the sum of the padded bands plus 1/1000 times the number of operations times the traces
of the random matrices of the neighbours (twice). -/
theorem C115_bs_trace (t : BS.TBData d) (hc : t.cosReduced = false) (hN : t.neighbors ≠ []) (ks : List (RVec e)) (ref : List (List ℝ))
    (o a : ℤ) (rnd : (n : ℕ) → ℕ → Matrix (Fin n) (Fin n) ℝ × Matrix (Fin n) (Fin n) ℝ) (i0 : ℕ) (hz : Spec.FirstZero ks i0)
    (row : List ℝ) (hrow : ref[i0]? = some row) (hne : row ≠ []) :
    ∃ b : BS.BSM d (Spec.padded row hne o.toNat (a - o).toNat).length, bsInitTb t ks ref o a rnd = .ok ⟨_, b⟩ ∧
      (b.f 0).trace = (((Spec.padded row hne o.toNat (a - o).toNat).sum + t.S.length / 1000 *
        ∑ i ∈ Finset.range (t.neighbors.length - 1), ∑ j,
          4 * (2 * (rnd (Spec.padded row hne o.toNat (a - o).toNat).length i).1 j j - 1) : ℝ) : ℂ) := by
  obtain ⟨p, hp⟩ : ∃ p, p = Spec.padded row hne o.toNat (a - o).toNat := ⟨_, rfl⟩
  have hpad := pad_eq row hne o a
  rw [← hp] at hpad ⊢
  refine ⟨⟨.tb t, diagonal (fun i => ((p.get i : ℝ) : ℂ)),
    (List.range (t.termCount.toNat - 1)).map fun i => ((1 / 1000 : ℝ) : ℂ) • randomHermitian (rnd _ i).1 (rnd _ i).2, none⟩, ?_, ?_⟩
  · unfold bsInitTb bsInit
    rw [zeroRow_ok hz, hrow]
    simp only [fetch, bind, Except.bind]
    rw [hpad]
    rfl
  · have hl : t.neighbors.length ≠ 0 := by simpa using hN
    have hsub : t.neighbors.length - 1 ≤ t.termCount.toNat - 1 := by
      unfold BS.TBData.termCount
      split_ifs <;> omega
    have hz0 : ∀ i, ¬ i < t.neighbors.length - 1 → i < t.termCount.toNat - 1 → t.fi 0 (i + 1) = 0 := by
      intro i hi hi'
      rw [fi_at_zero t hN _ (Nat.succ_ne_zero i), if_neg]
      rintro ⟨-, h | h | h⟩
      · unfold BS.TBData.termCount at hi'
        rw [if_pos h] at hi'
        omega
      · unfold BS.TBData.termCount at hi'
        rw [if_pos h] at hi'
        split_ifs at hi' <;> omega
      · omega
    have hz1 : ∀ i, i < t.neighbors.length - 1 → t.fi 0 (i + 1) = t.S.length := by
      intro i hi
      rw [fi_at_zero t hN _ (Nat.succ_ne_zero i), if_pos ⟨hc, Or.inr (Or.inr (by omega))⟩]
    have hsum : ∑ i ∈ Finset.range (t.termCount.toNat - 1), t.fi 0 (i + 1) •
          (((List.range (t.termCount.toNat - 1)).map fun i => ((1 / 1000 : ℝ) : ℂ) • randomHermitian (rnd p.length i).1 (rnd p.length i).2).getD i 0) =
        ∑ i ∈ Finset.range (t.neighbors.length - 1), (t.S.length : ℂ) • (((1 / 1000 : ℝ) : ℂ) •
          randomHermitian (rnd p.length i).1 (rnd p.length i).2) := by
      rw [← Finset.sum_subset (Finset.range_subset_range.2 hsub)]
      · refine Finset.sum_congr rfl fun i hi => ?_
        have hi' := Finset.mem_range.1 hi
        rw [hz1 i hi', List.getD_eq_getElem?_getD, List.getElem?_map, List.getElem?_range (lt_of_lt_of_le hi' hsub)]
        rfl
      · intro i hi hni
        rw [hz0 i (by simpa using hni) (Finset.mem_range.1 hi), zero_smul]
    unfold BS.BSM.f BS.BSM.hsum
    simp only [BS.Coeff.fi, List.length_map, List.length_range]
    rw [hsum, trace_add, trace_add, trace_conjTranspose, trace_sum]
    have htr : ∀ i, ((t.S.length : ℂ) • (((1 / 1000 : ℝ) : ℂ) • randomHermitian (rnd p.length i).1 (rnd p.length i).2)).trace =
        ((t.S.length * (1 / 1000) * ∑ j, 2 * (2 * (rnd p.length i).1 j j - 1) : ℝ) : ℂ) := by
      intro i
      rw [trace_smul, trace_smul, random_trace, smul_eq_mul, smul_eq_mul]
      push_cast
      ring
    rw [Finset.sum_congr rfl fun i _ => htr i, ← Complex.ofReal_sum, Complex.star_def, Complex.conj_ofReal]
    have h0 : t.fi 0 0 = 1 := by
      unfold BS.TBData.fi
      rw [if_pos rfl]
    rw [h0, one_smul, trace_diagonal, ← Complex.ofReal_sum, ← Complex.ofReal_add, ← Complex.ofReal_add]
    congr 1
    rw [show ∑ i, p.get i = p.sum from by rw [← List.sum_ofFn, List.ofFn_get], add_comm]
    congr 1
    rw [← Finset.sum_add_distrib, Finset.mul_sum]
    refine Finset.sum_congr rfl fun i _ => ?_
    rw [← mul_add, ← Finset.sum_add_distrib]
    rw [show (t.S.length : ℝ) / 1000 = t.S.length * (1 / 1000) by ring]
    congr 1
    exact Finset.sum_congr rfl fun _ _ => by ring

/-! ## examples -/

/-- Samples `1, 0, 0` in one dimension; the reference bands at the first zero sample are `0, 1`. -/
def exKs : List (RVec 1) := [![1], 0, 0]

theorem exZero : Spec.FirstZero exKs 1 := by
  refine ⟨rfl, ?_⟩
  intro j hj
  obtain rfl : j = 0 := by omega
  simp only [exKs, List.getElem?_cons_zero, ne_eq, Option.some.injEq]
  intro h
  have := congrFun h 0
  simp at this

/-- All random numbers `3/4`. -/
noncomputable def exRnd (n : ℕ) : ℕ → Matrix (Fin n) (Fin n) ℝ × Matrix (Fin n) (Fin n) ℝ := fun _ => (fun _ _ => 3 / 4, fun _ _ => 3 / 4)

theorem exRnd_random (n i : ℕ) : Spec.Random (exRnd n i).1 ∧ Spec.Random (exRnd n i).2 := by
  constructor <;> intro i j <;> norm_num [exRnd]

/-- Reference bands. -/
def exRef : List (Fin 2 → ℝ) := [![5, 6], ![0, 1], ![7, 8]]

theorem exRow : Monotone (![0, 1] : Fin 2 → ℝ) := by
  intro i j h
  fin_cases i <;> fin_cases j <;> simp_all

/-- `C115_asym_values`, `C115_asym_bound`, `C115_asym_trace`: the sum of the two bands at `k = 0` is `1 + 4/1000` instead of `1`. -/
example (eigh : CMat 2 → (Fin 2 → ℝ) × CMat 2) (heigh : TB.Spec.IsEigh eigh) (sorting : CMat 2 → Equiv.Perm (Fin 2)) :
    ∃ (t : Tb 1 2) (H : CMat 2), asymInit eigh sorting [0, ![1]] exKs exRef true (exRnd 2) = .ok t ∧ TB.Spec.At t 0 H 1 ∧
      ∀ (bands : Fin 2 → ℝ) (V : CMat 2), TB.Spec.IsGeigh H 1 bands V → ∑ i, bands i = 1 + 4 / 1000 := by
  have hg : IsGreatest (Set.range (![0, 1] : Fin 2 → ℝ)) 1 :=
    ⟨⟨1, rfl⟩, by rintro _ ⟨i, rfl⟩; fin_cases i <;> simp⟩
  have hl : IsLeast (Set.range (![0, 1] : Fin 2 → ℝ)) 0 :=
    ⟨⟨0, rfl⟩, by rintro _ ⟨i, rfl⟩; fin_cases i <;> simp⟩
  obtain ⟨t, H, h1, h2, h3⟩ := C115_asym_trace eigh heigh sorting [![1]] exKs exRef 1 exZero ![0, 1] rfl (by norm_num) true (exRnd 2) hg hl
  refine ⟨t, H, h1, h2, fun bands V hb => ?_⟩
  rw [h3 bands V hb]
  simp [exRnd]
  norm_num

/-- `C115_asym_bound`: the bands stay within `12/1000` of `0` and `1`. -/
example (eigh : CMat 2 → (Fin 2 → ℝ) × CMat 2) (heigh : TB.Spec.IsEigh eigh) (sorting : CMat 2 → Equiv.Perm (Fin 2)) (k : RVec 1) :
    ∃ (t : Tb 1 2) (H : CMat 2), asymInit eigh sorting [0, ![1]] exKs exRef true (exRnd 2) = .ok t ∧ TB.Spec.At t k H 1 ∧
      ∀ (bands : Fin 2 → ℝ) (V : CMat 2), TB.Spec.IsGeigh H 1 bands V → ∀ i, |bands i - ![0, 1] i| ≤ 12 / 1000 := by
  have hw : ∀ i j, |(![0, 1] : Fin 2 → ℝ) i - (![0, 1] : Fin 2 → ℝ) j| ≤ 1 := by
    intro i j
    fin_cases i <;> fin_cases j <;> simp
  obtain ⟨t, M, R, h1, -, -, -, -, -, -, h5⟩ := C115_asym_values eigh heigh sorting [![1]] exKs exRef 1 exZero ![0, 1] rfl (by norm_num) true
    (exRnd 2) (exRnd_random 2) hw
  refine ⟨t, _, h1, h5 k, fun bands V hb i => ?_⟩
  refine (C115_asym_bound eigh heigh sorting [![1]] exKs exRef 1 exZero ![0, 1] rfl exRow true (exRnd 2) (exRnd_random 2) hw t h1 k _ _ V bands
    (h5 k) hb i).trans ?_
  norm_num

/-- `C115_asym_flat`: one band. -/
example (eigh : CMat 1 → (Fin 1 → ℝ) × CMat 1) (heigh : TB.Spec.IsEigh eigh) (sorting : CMat 1 → Equiv.Perm (Fin 1)) :
    ∃ t : Tb 1 1, asymInit eigh sorting [0, ![1], ![2]] exKs [fun _ => 5, fun _ => 6, fun _ => 7] false (exRnd 1) = .ok t ∧
      ∀ k, TB.Spec.At t k (((6 : ℝ) : ℂ) • 1) 1 :=
  C115_asym_flat eigh heigh sorting _ _ _ 1 exZero 6 rfl (by norm_num) false _

/-- `C115_asym_errors`: no zero sample. -/
example (eigh : CMat 2 → (Fin 2 → ℝ) × CMat 2) (sorting : CMat 2 → Equiv.Perm (Fin 2)) :
    asymInit eigh sorting [(0 : RVec 1)] [(![1] : RVec 1)] exRef true (exRnd 2) = .error .assertionError :=
  (C115_asym_errors eigh sorting [0] [![1]] exRef true (exRnd 2)).2.1 (by simp) 0 [] rfl (Or.inr (Or.inr (by
    simp only [List.mem_singleton]
    intro h
    have := congrFun h 0
    simp at this)))

/-- Cosines, one operation, two neighbours. -/
noncomputable def exData (c : Bool) : BS.TBData 1 := ⟨[1], false, [0, ![1]], c, false⟩

/-- `C115_bs_values`, `C115_bs_exact`: one band below and two above. -/
example : ∃ b : BS.BSM 1 5, bsInitTb (exData true) exKs [[5, 6], [0, 1], [7, 8]] 1 3 exRnd = .ok ⟨5, b⟩ ∧
    b.f 0 = diagonal ![0, 0, 1, 1, 1] := by
  obtain ⟨b, h1, -, h2, -⟩ := C115_bs_exact (exData true) rfl exKs [[5, 6], [0, 1], [7, 8]] 1 3 exRnd 1 exZero [0, 1] rfl (by simp)
  refine ⟨b, h1, h2.trans ?_⟩
  congr 1
  ext i
  fin_cases i <;> simp [Spec.padded]

/-- `C115_bs_values`: `band_offset = 2`, `add_bands = 1` gives two more bands instead of one. -/
example : ∃ b : BS.BSM 1 4, bsInitTb (exData true) exKs [[5, 6], [0, 1], [7, 8]] 2 1 exRnd = .ok ⟨4, b⟩ := by
  obtain ⟨b, h1, -⟩ := C115_bs_values (.tb (exData true)) (exData true).termCount.toNat exKs [[5, 6], [0, 1], [7, 8]] 2 1 exRnd exRnd_random
    1 exZero [0, 1] rfl (by simp)
  exact ⟨b, h1⟩

/-- `C115_bs_trace`: the sum of the bands at `k = 0` is `1 + 4/1000`. -/
example : ∃ b : BS.BSM 1 2, bsInitTb (exData false) exKs [[5, 6], [0, 1], [7, 8]] 0 0 exRnd = .ok ⟨2, b⟩ ∧
    (b.f 0).trace = ((1 + 4 / 1000 : ℝ) : ℂ) := by
  obtain ⟨b, h1, h2⟩ := C115_bs_trace (exData false) rfl (by simp [exData]) exKs [[5, 6], [0, 1], [7, 8]] 0 0 exRnd 1 exZero [0, 1] rfl (by simp)
  refine ⟨b, h1, h2.trans ?_⟩
  congr 1
  have hc : (Finset.univ : Finset (Fin (Spec.padded [(0 : ℝ), 1] (by simp) (Int.toNat 0) (0 - 0 : ℤ).toNat).length)).card = 2 := rfl
  simp only [exRnd, Finset.sum_const, hc]
  simp [Spec.padded, exData]
  norm_num

/-- `C115_bs_errors`: no samples. -/
example : bsInitTb (exData true) ([] : List (RVec 1)) [[5, 6]] 0 0 exRnd = .error .indexError :=
  (C115_bs_errors _ _ _ _ 0 0 exRnd).1 rfl

end TB.InitRef

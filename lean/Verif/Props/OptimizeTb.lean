import Verif.Lemmas.OptimizeTb

/-!
# C99: the whole of `AsymTightBindingModel.optimize_cg`
-/

set_option linter.unusedSectionVars false

namespace TB.Opt
open Matrix TB
open scoped ComplexOrder

variable {K n B d : ℕ}

/-- A model whose constant terms are hermitian and whose overlap at zero is positive definite. -/
structure Spec.Good (t : Tb d n) : Prop where
  H : ∃ H0 rest, t.H.terms = (0, H0) :: rest ∧ H0.IsHermitian
  S : ∃ S0 rest, t.S.terms = (0, S0) :: rest ∧ S0.IsHermitian
  pos : ∀ X, t.S.f 0 = .ok X → X.PosDef

theorem Spec.Good.cases {t : Tb d n} (h : Spec.Good t) : ∃ H0 hrest S0 srest, t = ⟨⟨(0, H0) :: hrest⟩, ⟨(0, S0) :: srest⟩⟩ ∧ H0.IsHermitian ∧
    S0.IsHermitian ∧ (TB.Spec.value S0 srest 0).PosDef := by
  obtain ⟨⟨H0, hrest, h1, h2⟩, ⟨S0, srest, h3, h4⟩, h5⟩ := h
  obtain ⟨⟨hl⟩, ⟨sl⟩⟩ := t
  simp only at h1 h3
  subst h1 h3
  exact ⟨H0, hrest, S0, srest, rfl, h2, h4, h5 _ (f_eq _ _ _)⟩

/-- C99.  A call with a valid offset succeeds if there is no preconditioner or the plane waves are independent on the samples.  The result has
the same neighbours, the overlap changed by a basis only, the identity as overlap at zero and a diagonal Hamiltonian at zero. -/
theorem C99_result {lib : Lib n} (hl : Spec.LibOk lib) (a : Args K B d) (t : Tb d n) (ht : Spec.Good t) (hK : K ≠ 0)
    (hoff : 0 ≤ a.off ∧ a.off ≤ (n : ℤ) - B) (hpre : a.precond = true → Spec.Indep a.ks (t.H.terms.map Prod.fst)) :
    ∃ (t' : Tb d n) (M : CMat n), a.call lib t = .ok t' ∧ t'.H.terms.map Prod.fst = t.H.terms.map Prod.fst ∧ IsUnit M.det ∧
      (∀ k X, t.S.f k = .ok X → t'.S.f k = .ok (Mᴴ * X * M)) ∧ t'.S.f 0 = .ok 1 ∧ (∃ D, t'.H.f 0 = .ok D ∧ IsDiag D) ∧
      ∀ k, ∃ X, t'.H.f k = .ok X ∧ X.IsHermitian := by
  obtain ⟨H0, hrest, S0, srest, rfl, hH0, hS0, hpos⟩ := ht.cases
  obtain ⟨M, M2, E, x, h1, h2, -, h4, -, h6, -, -, h7, h8⟩ := opt_form hl a H0 S0 hrest srest hH0 hS0 hpos hK hoff hpre
  refine ⟨_, M * M2, h6, ?_, by rw [det_mul]; exact h1.mul h2, ?_, h7, h8, ?_⟩
  · simp only [Series.conj, setArr, List.map_ofFn]
    refine List.ext_getElem (by simp) ?_
    intro i h9 h10
    cases i with
    | zero => simp
    | succ i => simp
  · intro k X hX
    rw [conj_f, hX]
    rfl
  · intro k
    refine ⟨M2ᴴ * TB.Spec.value (x 0) _ k * M2, ?_, conj_herm (value_herm h4 (List.ofFn fun p : Fin (hrest.map fun y => (y.1, Mᴴ * y.2 * M)).length =>
      ((hrest.map fun y => (y.1, Mᴴ * y.2 * M))[p].1, x p.succ)) k) M2⟩
    rw [conj_f, setArr_cons, f_eq]
    rfl

/-- The loss of a model: root mean square over the samples of the weighted differences. -/
noncomputable def Spec.tbLoss (geigh : CMat n → CMat n → (Fin n → ℝ) × CMat n) (a : Args K B d) (t : Tb d n)
    (h : 0 ≤ a.off ∧ a.off ≤ (n : ℤ) - B) : ℝ :=
  Real.sqrt (∑ k, ∑ b : Fin B, (((geigh (valueAt t.H (a.ks k)) (valueAt t.S (a.ks k))).1 ⟨a.off.toNat + b, by omega⟩ - a.ref k b) * a.bw b) ^ 2) /
    Real.sqrt K

/-- C99.  Without iterations, or if the loss of the model is below the threshold, the call only changes the basis: the bands are kept
everywhere. -/
theorem C99_kept {lib : Lib n} (hl : Spec.LibOk lib) (a : Args K B d) (t : Tb d n) (ht : Spec.Good t) (hK : K ≠ 0)
    (hoff : 0 ≤ a.off ∧ a.off ≤ (n : ℤ) - B) (hpre : a.precond = true → Spec.Indep a.ks (t.H.terms.map Prod.fst))
    (hS : ∀ k X, t.S.f (a.ks k) = .ok X → X.PosDef) (hfit : a.iterations = 0 ∨ Spec.tbLoss lib.geigh a t hoff < a.thr) :
    ∃ (t' : Tb d n) (M : CMat n), a.call lib t = .ok t' ∧ IsUnit M.det ∧
      ∀ k H S, TB.Spec.At t k H S → TB.Spec.At t' k (Mᴴ * H * M) (Mᴴ * S * M) ∧
        (S.PosDef → (lib.geigh (Mᴴ * H * M) (Mᴴ * S * M)).1 = (lib.geigh H S).1) := by
  obtain ⟨H0, hrest, S0, srest, rfl, hH0, hS0, hpos⟩ := ht.cases
  obtain ⟨M, M2, E, x, h1, h2, -, h4, h5, h6, -, -, h7, h8⟩ := opt_form hl a H0 S0 hrest srest hH0 hS0 hpos hK hoff hpre
  have hband : ∀ (N H S : CMat n), IsUnit N.det → H.IsHermitian → S.PosDef → (lib.geigh (Nᴴ * H * N) (Nᴴ * S * N)).1 = (lib.geigh H S).1 := by
    intro N H S hN hH hS
    exact geigh_unique (hl.geigh _ _ (conj_herm hH N) (conj_posDef hS hN)) (geigh_congr (hl.geigh H S hH hS) hN)
  have hx : x = arr ((0, Mᴴ * H0 * M) :: hrest.map fun y => (y.1, Mᴴ * y.2 * M)) := by
    rw [h5]
    rcases hfit with h | h
    · rw [h]; rfl
    · cases hit : a.iterations with
      | zero => rfl
      | succ m =>
        rw [Fit.run, if_pos]
        simp only [stop, Bool.false_or, decide_eq_true_eq]
        refine lt_of_eq_of_lt ?_ h
        rw [Fit.loss, Spec.tbLoss]
        congr 2
        refine Finset.sum_congr rfl fun k _ => Finset.sum_congr rfl fun b _ => ?_
        have h9 : fmat (coef a.ks ((0, Mᴴ * H0 * M) :: hrest.map fun y => (y.1, Mᴴ * y.2 * M)))
            (arr ((0, Mᴴ * H0 * M) :: hrest.map fun y => (y.1, Mᴴ * y.2 * M))) k = Mᴴ * TB.Spec.value H0 hrest (a.ks k) * M := by
          erw [fmat_coef a.ks _ _ _ (conj_herm hH0 M) k]
          rw [setArr_arr]
          exact (valueAt_conj ⟨(0, H0) :: hrest⟩ M (a.ks k)).trans (by rw [valueAt_eq (f_eq _ _ _)])
        rw [Fit.diff]
        simp only
        rw [h9, hband M _ _ h1 (value_herm hH0 _ _) (hS k _ (f_eq _ _ _)), valueAt_eq (f_eq _ _ _), valueAt_eq (f_eq _ _ _)]
  rw [hx, setArr_arr] at h6
  refine ⟨_, M * M2, h6, by rw [det_mul]; exact h1.mul h2, ?_⟩
  intro k H S hHS
  refine ⟨⟨?_, ?_⟩, fun hp => hband _ _ _ (by rw [det_mul]; exact h1.mul h2) ?_ hp⟩
  · have := conj_f (⟨(0, H0) :: hrest⟩ : Series d n) (M * M2) k
    rw [← conj_conj, hHS.1] at this
    exact this
  · have := conj_f (⟨(0, S0) :: srest⟩ : Series d n) (M * M2) k
    rw [hHS.2] at this
    exact this
  · have h9 := hHS.1
    rw [f_eq] at h9
    rw [← Except.ok.inj h9]
    exact value_herm hH0 _ _

/-- C99.  An offset outside `[0, N - N_B]` raises `AssertionError`. -/
theorem C99_offset (lib : Lib n) (a : Args K B d) (t : Tb d n) (hK : K ≠ 0) (ht : t.H.terms ≠ []) (hoff : ¬ (0 ≤ a.off ∧ a.off ≤ (n : ℤ) - B)) :
    a.call lib t = .error .assertionError := by
  rw [Args.call, optimizeCg, if_neg (by simp [hK, ht]), dif_neg hoff]

/-- C99.  With the preconditioner, which is the default, `LinAlgError` (a `ValueError`) is raised whenever the plane waves of the neighbours are dependent on the samples, in particular
whenever there are fewer samples than neighbours. -/
theorem C99_precond {lib : Lib n} (hl : Spec.LibOk lib) (a : Args K B d) (t : Tb d n) (hK : K ≠ 0) (ht : t.H.terms ≠ [])
    (hoff : 0 ≤ a.off ∧ a.off ≤ (n : ℤ) - B) (hp : a.precond = true) :
    (¬ Spec.Indep a.ks (t.H.terms.map Prod.fst) → a.call lib t = .error .valueError) ∧
    (K < t.H.terms.length → a.call lib t = .error .valueError) := by
  have h1 : ¬ Spec.Indep a.ks (t.H.terms.map Prod.fst) → a.call lib t = .error .valueError := by
    intro h
    rw [indep_coef] at h
    push Not at h
    rw [Args.call, optimizeCg, if_neg (by simp [hK, ht]), dif_pos hoff, hp, mkE_err hl _ h]
    rfl
  exact ⟨h1, fun h => h1 (not_indep _ _ (by simpa using h))⟩

/-- Off-diagonal hopping in one place. -/
def exFlip : CMat 2 := !![0, 1; 1, 0]

/-- A model with the bands `-1` and `1` and an identity overlap. -/
def exKz : Tb 1 2 := ⟨⟨[(0, exFlip)]⟩, ⟨[(0, 1)]⟩⟩

/-- One iteration towards the bands `-2` and `2` with `keep_zeros`. -/
noncomputable def exKzArgs : Args 1 2 1 := ⟨fun _ => 0, fun _ => ![-2, 2], fun _ => 1, 0, 1, true, false, 1e-3, 1e-16, 5⟩

/-- C99, defect.  The mask of `keep_zeros` is computed before `normalize()` changes the basis.  For a model with bands `±1` and the reference `±2`
the fit with `keep_zeros=True` returns the zero Hamiltonian, whatever the library routines choose. -/
theorem C99_keep_zeros_defect {lib : Lib 2} (hl : Spec.LibOk lib) : ∃ t', exKzArgs.call lib exKz = .ok t' ∧ ∀ k, t'.H.f k = .ok 0 := by
  have hX : exFlip.IsHermitian := by
    ext i j; fin_cases i <;> fin_cases j <;> simp [exFlip]
  obtain ⟨M, M2, E, x, h1, h2, -, h4, h5, h6, h7, h8, -, -⟩ := opt_form hl exKzArgs exFlip 1 [] [] hX isHermitian_one
    (by simp [TB.Spec.value]; exact PosDef.one) one_ne_zero (by simp [exKzArgs]) (by simp [exKzArgs])
  refine ⟨_, h6, fun k => ?_⟩
  have hMM : Mᴴ * 1 * M = 1 := by
    rw [conj_f, f_eq] at h7
    simpa [Except.map, TB.Spec.value] using h7
  obtain ⟨D, hD1, hD2⟩ := h8
  have hD : Mᴴ * exFlip * M = D := by
    rw [conj_f, f_eq] at hD1
    simpa [Except.map, TB.Spec.value] using hD1
  have hdet : D 0 0 * D 1 1 = -1 := by
    have h9 : D.det = -1 := by
      have h10 := congrArg det hMM
      rw [Matrix.mul_one, det_mul, det_one] at h10
      rw [← hD, det_mul, det_mul, mul_right_comm, h10, one_mul]
      simp [exFlip, det_fin_two]
    rw [det_fin_two, hD2 (show (0 : Fin 2) ≠ 1 by decide), zero_mul, sub_zero] at h9
    exact h9
  have hDh : D.IsHermitian := by rw [← hD]; exact conj_herm hX M
  have hg := hl.geigh D 1 hDh PosDef.one
  set e := (lib.geigh D 1).1 with he
  set V := (lib.geigh D 1).2 with hV
  have hVV : Vᴴ * V = 1 := by simpa [rot] using hg.norm
  have hVV' : V * Vᴴ = 1 := mul_eq_one_comm.1 hVV
  have hDV : D * V = V * diagonal fun i => (e i : ℂ) := by
    rw [← hg.diag, rot, ← Matrix.mul_assoc, ← Matrix.mul_assoc, hVV', Matrix.one_mul]
  have hee : e 0 * e 1 = -1 := by
    have h10 := congrArg det hg.diag
    have h11 := congrArg det hVV
    rw [det_mul, det_one] at h11
    rw [rot, det_mul, det_mul, mul_right_comm, h11, one_mul, det_fin_two, det_diagonal, Fin.prod_univ_two,
      hD2 (show (0 : Fin 2) ≠ 1 by decide), zero_mul, sub_zero, hdet] at h10
    exact_mod_cast h10.symm
  have hrow : ∀ i b, D i i * V i b = V i b * (e b : ℂ) := by
    intro i b
    have h10 := congrFun (congrFun hDV i) b
    rw [mul_diagonal, mul_apply, Finset.sum_eq_single i (fun j _ hj => by rw [hD2 (Ne.symm hj), zero_mul]) (by simp)] at h10
    exact h10
  have hout : ∀ b i j, i ≠ j → V i b * star (V j b) = 0 := by
    intro b i j hij
    by_contra h10
    have h11 : V i b ≠ 0 := fun h => h10 (by rw [h, zero_mul])
    have h12 : V j b ≠ 0 := fun h => h10 (by rw [h, star_zero, mul_zero])
    have h13 : D i i = e b := mul_right_cancel₀ h11 ((hrow i b).trans (mul_comm _ _))
    have h14 : D j j = e b := mul_right_cancel₀ h12 ((hrow j b).trans (mul_comm _ _))
    have h15 : D i i * D j j = -1 := by
      fin_cases i <;> fin_cases j
      · exact absurd rfl hij
      · exact hdet
      · exact (mul_comm _ _).trans hdet
      · exact absurd rfl hij
    rw [h13, h14, ← Complex.ofReal_mul] at h15
    have h16 : e b * e b = -1 := by exact_mod_cast h15
    nlinarith [mul_self_nonneg (e b)]
  have hx : x 0 = 0 := by
    have hfm : ∀ k : Fin 1, fmat (coef exKzArgs.ks [((0 : RVec 1), Mᴴ * exFlip * M)]) (arr [((0 : RVec 1), Mᴴ * exFlip * M)]) k = D := by
      intro k
      erw [fmat_coef exKzArgs.ks _ [] _ (conj_herm hX M) k]
      rw [setArr_arr, valueAt_eq (f_eq _ _ _), hD]
      simp [TB.Spec.value]
    have hSv : ∀ k : RVec 1, Mᴴ * TB.Spec.value (1 : CMat 2) [] k * M = 1 := by
      intro k
      simpa [TB.Spec.value] using hMM
    simp only [hSv] at h5
    let c : Fit 1 1 2 2 := ⟨coef exKzArgs.ks [((0 : RVec 1), Mᴴ * exFlip * M)], E, fun _ => 1, exKzArgs.ref, exKzArgs.bw,
      fun b => ⟨exKzArgs.off.toNat + b, by simp [exKzArgs]; omega⟩, exKzArgs.conv, exKzArgs.thr, exKzArgs.maxCg⟩
    let y : Par 1 2 := arr [((0 : RVec 1), Mᴴ * exFlip * M)]
    have h10 : x = c.run lib.geigh (fun z => mask [exFlip] z) 1 none y := h5
    have hvec : ∀ k b i, c.vec lib.geigh y k b i = V i (c.win b) := by
      intro k b i
      show (lib.geigh (fmat c.F y k) 1).2 i (c.win b) = _
      rw [hfm k]
    have hdiff : ∀ k b, c.diff lib.geigh y k b = e (c.win b) - c.ref k b := by
      intro k b
      show (lib.geigh (fmat c.F y k) 1).1 (c.win b) - c.ref k b = _
      rw [hfm k]
    let U : Submodule ℝ (Par 1 2) :=
      { carrier := {z | ∀ p i j, i ≠ j → z p i j = 0}
        add_mem' := by
          intro a b ha hb p i j hij
          rw [Pi.add_apply, Matrix.add_apply, ha p i j hij, hb p i j hij, add_zero]
        zero_mem' := by intro p i j _; rfl
        smul_mem' := by
          intro r a ha p i j hij
          rw [Pi.smul_apply, Matrix.smul_apply, ha p i j hij, smul_zero] }
    have hU : ∀ q : Fin 1 → Fin 1 → Fin 2 → ℂ,
        (fun l => ∑ k, ∑ b, q l k b • outer (c.vec lib.geigh y k b) : Par 1 2) ∈ U := by
      intro q p i j hij
      change (∑ k, ∑ b, q p k b • outer (c.vec lib.geigh y k b) : CMat 2) i j = 0
      rw [Matrix.sum_apply]
      refine Finset.sum_eq_zero fun k _ => ?_
      rw [Matrix.sum_apply]
      refine Finset.sum_eq_zero fun b _ => ?_
      rw [Matrix.smul_apply, outer, vecMulVec_apply, Pi.star_apply, hvec, hvec, hout _ i j hij, smul_zero]
    have hsolve : (c.lin lib.geigh y).solve (c.diff lib.geigh y) c.maxCg ∈ U :=
      cgSolveV_mem U (fun z _ => hU _) _ (hU _) _ _
    have hstep : (c.lin lib.geigh y).step (c.diff lib.geigh y) c.maxCg ∈ U := by
      refine U.smul_mem _ ?_
      intro p i j hij
      rw [applyE, Matrix.sum_apply]
      refine Finset.sum_eq_zero fun q _ => ?_
      rw [Matrix.smul_apply, hsolve q i j hij, smul_zero]
    have hy : y ∈ U := by
      intro p i j hij
      show (arr [((0 : RVec 1), Mᴴ * exFlip * M)] p) i j = 0
      rw [arr]
      have : ([((0 : RVec 1), Mᴴ * exFlip * M)])[p] = ((0 : RVec 1), Mᴴ * exFlip * M) := by fin_cases p; rfl
      rw [this, hD]
      exact hD2 hij
    have hstop : stop c.conv c.thr none (c.loss lib.geigh y) = false := by
      simp only [stop, Bool.false_or, decide_eq_false_iff_not, not_lt]
      rw [Fit.loss]
      simp only [Fin.sum_univ_one, Fin.sum_univ_two, hdiff]
      have h11 : e (c.win 0) = e 0 := rfl
      have h12 : e (c.win 1) = e 1 := rfl
      have h13 : c.ref 0 0 = -2 := rfl
      have h14 : c.ref 0 1 = 2 := rfl
      have h15 : ∀ b, c.bw b = 1 := fun _ => rfl
      rw [h11, h12, h13, h14, h15, h15, Nat.cast_one, Real.sqrt_one, div_one]
      refine Real.le_sqrt_of_sq_le ?_
      show (1e-16 : ℝ) ^ 2 ≤ _
      by_contra h
      have h16 : ((e 0 - -2) * 1) ^ 2 + ((e 1 - 2) * 1) ^ 2 < 1 / 4 := lt_trans (not_le.1 h) (by norm_num)
      have h17 : e 0 < -3 / 2 := by nlinarith [sq_nonneg ((e 1 - 2) * 1)]
      have h18 : e 1 > 3 / 2 := by nlinarith [sq_nonneg ((e 0 - -2) * 1)]
      nlinarith
    have h20 : x = herm0 (mask [exFlip] (y - (c.lin lib.geigh y).step (c.diff lib.geigh y) c.maxCg)) := by
      rw [h10, Fit.run, hstop]
      rfl
    have h21 : mask [exFlip] (y - (c.lin lib.geigh y).step (c.diff lib.geigh y) c.maxCg) = 0 := by
      funext p
      ext i j
      rw [mask, of_apply]
      by_cases hij : i = j
      · rw [if_pos, mul_zero]; rfl
        subst hij
        fin_cases p
        fin_cases i <;> simp [exFlip] <;> norm_num
      · rw [U.sub_mem hy hstep p i j hij, zero_mul]; rfl
    rw [h20, h21]
    show herm0 (0 : Par 1 2) 0 = 0
    simp [herm0]
  rw [conj_f, setArr_cons, f_eq]
  simp [Except.map, TB.Spec.value, hx]

/-! ## `BandStructureModel.optimize_cg` -/

/-- C99.  The array expression of the loop of `BandStructureModel.optimize_cg` is the Hamiltonian of the model with these parameters, for
a hermitian first matrix and a real first coefficient function.  With it the theorems on `Fit` are about the bands of the model. -/
theorem C99_bs_hamiltonian (t : BS.BSM d n) (ks : Fin K → RVec d) (x : Par (t.Ps.length + 1) n) (hx : (x 0).IsHermitian) (k : Fin K)
    (hr : star (t.coeff.fi (ks k) 0) = t.coeff.fi (ks k) 0) : fmat (bsCoef ks t) x k = (bsSet t x).f (ks k) := by
  have h0 : bsCoef ks t k 0 = t.coeff.fi (ks k) 0 / 2 := by simp [bsCoef]
  have h1 : ∀ p : Fin t.Ps.length, bsCoef ks t k p.succ = t.coeff.fi (ks k) (p + 1) := by intro p; simp [bsCoef]
  rw [fmat, BS.BSM.f, BS.BSM.hsum, Fin.sum_univ_succ, h0]
  simp only [h1, bsSet, List.length_ofFn, Finset.sum_range]
  have h2 : ∀ p : Fin t.Ps.length, (List.ofFn fun p : Fin t.Ps.length => x p.succ).getD p 0 = x p.succ := by
    intro p; simp [List.getD]
  simp only [h2]
  rw [conjTranspose_add, conjTranspose_smul, hx.eq]
  have h3 : (t.coeff.fi (ks k) 0 / 2) • x 0 + star (t.coeff.fi (ks k) 0 / 2) • x 0 = t.coeff.fi (ks k) 0 • x 0 := by
    have : star (t.coeff.fi (ks k) 0 / 2) = t.coeff.fi (ks k) 0 / 2 := by rw [star_div₀, hr]; simp
    rw [this, ← add_smul]
    congr 1
    ring
  rw [← h3]
  abel

/-- C99.  The exceptions of `BandStructureModel.optimize_cg`: an invalid offset, and with the preconditioner dependent coefficient functions on the samples, in particular
fewer samples than parameter matrices. -/
theorem C99_bs_errors {lib : Lib n} (hl : Spec.LibOk lib) (t : BS.BSM d n) (ks : Fin K → RVec d) (ref : Fin K → Fin B → ℝ) (bw : Fin B → ℝ)
    (off : ℤ) (iterations : ℕ) (keepZeros : Bool) (conv thr : ℝ) (maxCg : ℤ) (hK : K ≠ 0) :
    (∀ precond, ¬ (0 ≤ off ∧ off ≤ (n : ℤ) - B) →
      bsOptimizeCg lib t ks ref bw off iterations keepZeros precond conv thr maxCg = .error .assertionError) ∧
    (0 ≤ off ∧ off ≤ (n : ℤ) - B → K < t.params.length →
      bsOptimizeCg lib t ks ref bw off iterations keepZeros true conv thr maxCg = .error .valueError) := by
  constructor
  · intro precond h
    rw [bsOptimizeCg, if_neg hK, dif_neg h]
  · intro h hlt
    have h1 : LinearMap.ker (Matrix.mulVecLin (Matrix.of (bsCoef ks t))) ≠ ⊥ :=
      LinearMap.ker_ne_bot_of_finrank_lt (by simpa [BS.BSM.params] using hlt)
    obtain ⟨y, hy, hy0⟩ := (Submodule.ne_bot_iff _).1 h1
    rw [bsOptimizeCg, if_neg hK, dif_pos h, mkE_err hl _ ⟨y, LinearMap.mem_ker.1 hy, hy0⟩]
    rfl

theorem mask_id {P : ℕ} {l : List (CMat n)} (hP : P = l.length) (h : ∀ M ∈ l, ∀ i j, 1e-14 ≤ ‖M i j‖) (x : Par P n) : mask l x = x := by
  funext p
  ext i j
  have hp : (p : ℕ) < l.length := by rw [← hP]; exact p.2
  have h1 : l.getD p 0 = l[(p : ℕ)] := by simp [List.getD, hp]
  rw [mask, of_apply, h1, if_neg (not_lt.2 (h _ (List.getElem_mem hp) i j)), mul_one]

theorem normalize_terms {eigh : CMat n → (Fin n → ℝ) × CMat n} {sorting : CMat n → Equiv.Perm (Fin n)} {t t1 : Tb d n}
    (h : t.normalize eigh sorting = .ok t1) : t1.H.terms.length = t.H.terms.length := by
  obtain ⟨⟨hl⟩, ⟨sl⟩⟩ := t
  cases hl with
  | nil => cases h
  | cons a l =>
    unfold Tb.normalize at h
    simp only [Series.herm0, bind, Except.bind] at h
    cases sl with
    | nil => cases h
    | cons b m =>
      simp only at h
      split at h
      · cases h
      · split at h
        · cases h
        · have := Except.ok.inj h
          rw [← this]
          simp only [Series.conj, List.map_map, List.length_map, List.length_cons]

/-- C99.  If no entry of the Hamiltonian is below `1e-14`, `keep_zeros` has no effect. -/
theorem C99_keep_zeros_dense (lib : Lib n) (a : Args K B d) (t : Tb d n) (h : ∀ x ∈ t.H.terms, ∀ i j, 1e-14 ≤ ‖x.2 i j‖) :
    ({ a with keepZeros := true } : Args K B d).call lib t = ({ a with keepZeros := false } : Args K B d).call lib t := by
  show optimizeCg lib t a.ks a.ref a.bw a.off a.iterations true a.precond a.conv a.thr a.maxCg =
    optimizeCg lib t a.ks a.ref a.bw a.off a.iterations false a.precond a.conv a.thr a.maxCg
  by_cases h1 : K = 0 ∨ t.H.terms = []
  · rw [optimizeCg, optimizeCg, if_pos h1, if_pos h1]
  by_cases h2 : 0 ≤ a.off ∧ a.off ≤ (n : ℤ) - B
  · rw [optimizeCg, optimizeCg, if_neg h1, if_neg h1, dif_pos h2, dif_pos h2]
    simp only [bind, Except.bind]
    cases mkE (lib.pinv _) (lib.chol _) a.precond (coef a.ks t.H.terms) with
    | error e => rfl
    | ok E0 =>
      cases ht : t.normalize lib.eigh lib.sorting with
      | error e => rfl
      | ok t1 =>
        have hm : ∀ x : Par t1.H.terms.length n, mask (t.H.terms.map Prod.snd) x = x := by
          intro x
          refine mask_id (by rw [List.length_map]; exact normalize_terms ht) ?_ x
          intro M hM i j
          obtain ⟨y, hy, rfl⟩ := List.mem_map.1 hM
          exact h y hy i j
        simp only [hm, if_true, Bool.false_eq_true, if_false]
  · rw [optimizeCg, optimizeCg, if_neg h1, if_neg h1, dif_neg h2, dif_neg h2]

/-- C99.  The same for `BandStructureModel.optimize_cg`, without symmetrizer. -/
theorem C99_bs_keep_zeros_dense (lib : Lib n) (t : BS.BSM d n) (hl : (t.normalize lib.eigh).Ps.length = t.Ps.length) (ks : Fin K → RVec d)
    (ref : Fin K → Fin B → ℝ) (bw : Fin B → ℝ) (off : ℤ) (iterations : ℕ) (precond : Bool) (conv thr : ℝ) (maxCg : ℤ)
    (h : ∀ M ∈ t.params, ∀ i j, 1e-14 ≤ ‖M i j‖) :
    bsOptimizeCg lib t ks ref bw off iterations true precond conv thr maxCg = bsOptimizeCg lib t ks ref bw off iterations false precond conv thr maxCg := by
  have hm : ∀ x : Par ((t.normalize lib.eigh).Ps.length + 1) n, mask t.params x = x := by
    intro x
    exact mask_id (by rw [hl]; simp [BS.BSM.params]) h x
  unfold bsOptimizeCg
  simp only [hm, if_true, Bool.false_eq_true, if_false]

/-! ## examples -/

example (lib : Lib 1) (a : Args 3 1 1) : ({ a with keepZeros := true } : Args 3 1 1).call lib ⟨⟨[(0, 1), (1, 1)]⟩, ⟨[(0, 1)]⟩⟩ =
    ({ a with keepZeros := false } : Args 3 1 1).call lib ⟨⟨[(0, 1), (1, 1)]⟩, ⟨[(0, 1)]⟩⟩ := by
  refine C99_keep_zeros_dense lib a _ fun x hx i j => ?_
  have : x.2 = 1 := by
    simp only [List.mem_cons, List.not_mem_nil, or_false] at hx
    rcases hx with rfl | rfl <;> rfl
  rw [this, Subsingleton.elim i j, one_apply_eq, norm_one]
  norm_num

theorem exGeigh {lib : Lib 2} (hl : Spec.LibOk lib) : (lib.geigh (diagonal ![1, 3]) 1).1 = ![1, 3] := by
  have hd : (diagonal ![1, 3] : CMat 2).IsHermitian := by
    rw [IsHermitian, diagonal_conjTranspose]
    congr 1
    funext i; fin_cases i <;> simp
  refine geigh_unique (hl.geigh _ _ hd PosDef.one) (W := 1) ⟨by simp [rot], ?_, ?_⟩
  · simp only [rot, conjTranspose_one, Matrix.one_mul, Matrix.mul_one]
    congr 1
    funext i; fin_cases i <;> simp
  · intro i j hij
    fin_cases i <;> fin_cases j <;> simp_all

/-- Two levels, the lower one fitted to zero: the hypotheses of `C99_descent` hold and its second alternative is the case. -/
example {lib : Lib 2} (hl : Spec.LibOk lib) :
    let c : Fit 1 1 2 1 := ⟨fun _ _ => 1 / 2, 1, fun _ => 1, fun _ _ => 0, fun _ => 1, fun _ => 0, 1e-3, 1e-16, 5⟩
    let x : Par 1 2 := fun _ => diagonal ![1, 3]
    ∃ t0 > (0 : ℝ), ∀ t : ℝ, 0 < t → t < t0 →
      c.loss lib.geigh (x - t • (c.lin lib.geigh x).step (c.diff lib.geigh x) c.maxCg) < c.loss lib.geigh x := by
  intro c x
  have hfx : ∀ k, fmat c.F x k = diagonal ![1, 3] := by
    intro k
    simp only [c, x, fmat, Finset.univ_unique, Finset.sum_singleton]
    ext i j
    fin_cases i <;> fin_cases j <;> simp <;> norm_num
  have hsimple : Spec.Simple lib.geigh c x := by
    intro k b j hj
    rw [hfx]
    show (lib.geigh _ 1).1 j ≠ (lib.geigh _ 1).1 (0 : Fin 2)
    rw [exGeigh hl]
    have : j = 1 := by
      have h : j ≠ (0 : Fin 2) := hj
      omega
    subst this
    norm_num
  rcases C99_descent hl.geigh c one_ne_zero (by simp [c]) (fun _ => PosDef.one) x hsimple with ⟨h, -⟩ | ⟨-, h⟩
  · exfalso
    have h1 := (h 1).unique (sq_deriv hl.geigh c (fun _ => PosDef.one) x hsimple 1)
    have h2 : jac c.F (c.vec lib.geigh x) 1 0 0 = 1 := by
      have h3 : fmat c.F (1 : Par 1 2) 0 = 1 := by
        simp only [c, fmat, Finset.univ_unique, Finset.sum_singleton]
        ext i j
        fin_cases i <;> fin_cases j <;> simp <;> norm_num
      have hd : (diagonal ![1, 3] : CMat 2).IsHermitian := by
        rw [IsHermitian, diagonal_conjTranspose]
        congr 1
        funext i; fin_cases i <;> simp
      have h4 := congrFun (congrFun (hl.geigh _ _ hd PosDef.one).norm 0) 0
      rw [rot_apply] at h4
      rw [jac, h3]
      have h5 : c.vec lib.geigh x 0 0 = fun i => (lib.geigh (diagonal ![1, 3]) 1).2 i 0 := by
        funext i
        show (lib.geigh (fmat c.F x 0) 1).2 i 0 = _
        rw [hfx]
      rw [h5]
      rw [h4]
      rfl
    have h6 : c.diff lib.geigh x 0 0 = 1 := by
      show (lib.geigh (fmat c.F x 0) 1).1 0 - 0 = 1
      rw [hfx, exGeigh hl]
      simp
    simp only [Finset.univ_unique, Finset.sum_singleton, Fin.default_eq_zero, Fin.isValue] at h1
    rw [h2, h6] at h1
    norm_num [c] at h1
  · exact h

/-- A model with the levels 1 and 3 and its exact bands as reference at one sample. -/
def exFit : Tb 1 2 := ⟨⟨[(0, diagonal ![1, 3]), (![1], 0)]⟩, ⟨[(0, 1)]⟩⟩

theorem exFit_good : Spec.Good exFit := by
  refine ⟨⟨_, _, rfl, ?_⟩, ⟨_, _, rfl, isHermitian_one⟩, ?_⟩
  · rw [IsHermitian, diagonal_conjTranspose]
    congr 1
    funext i; fin_cases i <;> simp
  · intro X hX
    have h := (f_eq (1 : CMat 2) ([] : List (RVec 1 × CMat 2)) 0).symm.trans hX
    rw [← Except.ok.inj h]
    simp [TB.Spec.value]
    exact PosDef.one

/-- Arguments for the examples; the preconditioner is used if `p` is true. -/
noncomputable def exFitArgs (p : Bool) : Args 1 2 1 := ⟨fun _ => 0, fun _ => ![1, 3], fun _ => 1, 0, 7, false, p, 1e-3, 1e-16, 5⟩

/-- The hypotheses of `C99_kept` and `C99_result` can be met: an exact fit is kept. -/
example : ∃ (lib : Lib 2) (t' : Tb 1 2) (M : CMat 2), (exFitArgs false).call lib exFit = .ok t' ∧ IsUnit M.det ∧
    ∀ k H S, TB.Spec.At exFit k H S → TB.Spec.At t' k (Mᴴ * H * M) (Mᴴ * S * M) := by
  obtain ⟨lib, hl⟩ := exists_lib 2
  obtain ⟨t', M, h1, h2, h3⟩ := C99_kept hl (exFitArgs false) exFit exFit_good one_ne_zero (by simp [exFitArgs]) (by simp [exFitArgs])
    (fun k X hX => exFit_good.pos X hX) (Or.inr (by
      have h1 : valueAt exFit.H 0 = diagonal ![1, 3] := by
        rw [exFit, valueAt_eq (f_eq (diagonal ![1, 3] : CMat 2) [((![1] : RVec 1), (0 : CMat 2))] 0)]
        simp [TB.Spec.value]
      have h2 : valueAt exFit.S 0 = 1 := by
        rw [exFit, valueAt_eq (f_eq (1 : CMat 2) ([] : List (RVec 1 × CMat 2)) 0)]
        simp [TB.Spec.value]
      have h3 : Spec.tbLoss lib.geigh (exFitArgs false) exFit (by simp [exFitArgs]) = 0 := by
        rw [Spec.tbLoss]
        simp only [exFitArgs, h1, h2, exGeigh hl]
        simp
      rw [h3]
      norm_num [exFitArgs]))
  exact ⟨lib, t', M, h1, h2, fun k H S h => (h3 k H S h).1⟩

/-- With the default preconditioner the same call raises, as there is one sample and there are two neighbours. -/
example : ∃ lib : Lib 2, (exFitArgs true).call lib exFit = .error .valueError := by
  obtain ⟨lib, hl⟩ := exists_lib 2
  exact ⟨lib, (C99_precond hl (exFitArgs true) exFit one_ne_zero (by simp [exFit]) (by simp [exFitArgs]) rfl).2 (by simp [exFit])⟩

end TB.Opt

import Verif.Lemmas.BandStructure

/-!
# C30: the parametrisations of `BandStructureModel` (`set_params_complex`, `params_complex`, `f`)
-/

namespace TB.BS
open Matrix TB

variable {d n m : ℕ}

/-- `e^{2πi k·r}`. -/
noncomputable def Spec.phase (k r : RVec d) : ℂ := Complex.exp (2 * Real.pi * Complex.I * ((∑ a, k a * r a : ℝ) : ℂ))

/-- `(X + X†)/2`. -/
noncomputable def Spec.hermPart (X : CMat n) : CMat n := (1 / 2 : ℂ) • (X + Xᴴ)

/-- `H_0 + Σ_j Σ_{s ∈ S} (e^{2πi k·(s r_j)} H_j + h.c.)`. -/
noncomputable def Spec.ham (S : List (Matrix (Fin d) (Fin d) ℝ)) (r : Fin m → RVec d) (H0 : CMat n)
    (H : Fin m → CMat n) (k : RVec d) : CMat n :=
  H0 + ∑ j, (S.map fun s => Spec.phase k (s.mulVec (r j)) • H j + (Spec.phase k (s.mulVec (r j)) • H j)ᴴ).sum

/-- The first coefficient the model stands for: with `exp=False` only the hermitian part of `H_0` is kept. -/
noncomputable def Spec.first (exp : Bool) (H0 : CMat n) : CMat n := if exp then H0 else Spec.hermPart H0

/-- The other coefficients: with `exp=False` and inversion symmetry only the hermitian part is kept. -/
noncomputable def Spec.other (exp inversion : Bool) (H : CMat n) : CMat n :=
  if exp = false ∧ inversion = true then Spec.hermPart H else H

theorem exp_phase (k r : RVec d) :
    Complex.exp (Complex.I * ((2 * Real.pi * (k ⬝ᵥ r) : ℝ) : ℂ)) = Spec.phase k r := by
  rw [Spec.phase, show (∑ a, k a * r a) = k ⬝ᵥ r from rfl]
  congr 1; push_cast; ring

theorem phase_eq (k r : RVec d) :
    Spec.phase k r = (Real.cos (2 * Real.pi * (k ⬝ᵥ r)) : ℂ) + (Real.sin (2 * Real.pi * (k ⬝ᵥ r)) : ℂ) * Complex.I := by
  rw [← exp_phase, mul_comm, Complex.exp_mul_I, Complex.ofReal_cos, Complex.ofReal_sin]

theorem sum_phase (S : List (Matrix (Fin d) (Fin d) ℝ)) (k r : RVec d) :
    (S.map fun s => Spec.phase k (s.mulVec r)).sum =
      (((S.map fun s => Real.cos (2 * Real.pi * (k ⬝ᵥ s.mulVec r))).sum : ℝ) : ℂ) +
      (((S.map fun s => Real.sin (2 * Real.pi * (k ⬝ᵥ s.mulVec r))).sum : ℝ) : ℂ) * Complex.I := by
  induction S with
  | nil => simp
  | cons s S ih =>
    simp only [List.map_cons, List.sum_cons, ih, Complex.ofReal_add]
    rw [phase_eq]; ring

theorem ham_eq (S : List (Matrix (Fin d) (Fin d) ℝ)) (r : Fin m → RVec d) (H0 : CMat n)
    (H : Fin m → CMat n) (k : RVec d) :
    Spec.ham S r H0 H k = H0 + ∑ j, ((S.map fun s => Spec.phase k (s.mulVec (r j))).sum • H j +
      ((S.map fun s => Spec.phase k (s.mulVec (r j))).sum • H j)ᴴ) := by
  rw [Spec.ham]
  congr 1
  refine Finset.sum_congr rfl fun j _ => ?_
  rw [← sum_smul_herm, List.map_map]
  rfl

theorem setParams_eq (S : List (Matrix (Fin d) (Fin d) ℝ)) (inversion cosReduced exp : Bool) (r0 : RVec d)
    (r : Fin m → RVec d) (H0 : CMat n) (H : Fin m → CMat n) (b : BSM d n)
    (hb : b.coeff = .tb (TBData.mk' S inversion cosReduced exp r0 r)) :
    (b.setParamsComplex (H0 :: List.ofFn H)).2 = .ok () ∧
    (b.setParamsComplex (H0 :: List.ofFn H)).1.coeff = b.coeff ∧
    (b.setParamsComplex (H0 :: List.ofFn H)).1.symmetrizer = b.symmetrizer ∧
    (b.setParamsComplex (H0 :: List.ofFn H)).1.P0 = Spec.first exp H0 +
      (if cosReduced then ∑ j, (Spec.other exp inversion (H j) + (Spec.other exp inversion (H j))ᴴ) else 0) ∧
    (b.setParamsComplex (H0 :: List.ofFn H)).1.Ps =
      (if exp then List.ofFn H
       else if inversion then List.ofFn fun j => Spec.hermPart (H j)
       else (List.ofFn fun j => Spec.hermPart (H j)) ++
         List.ofFn fun j => (1 / 2 : ℂ) • (Complex.I • (H j - (H j)ᴴ))) := by
  have hl : ¬ ((H0 :: List.ofFn H).length ≠ (TBData.mk' S inversion cosReduced exp r0 r).neighbors.length) := by
    simp [TBData.mk']
  have e1 : (List.map plusAdj (List.ofFn H)).sum = ∑ j, (H j + (H j)ᴴ) := by
    rw [List.map_ofFn, List.sum_ofFn]; rfl
  have e2 : (2 : ℂ) • (List.map (fun X => (1 / 2 : ℂ) • plusAdj X) (List.ofFn H)).sum = ∑ j, (H j + (H j)ᴴ) := by
    rw [List.map_ofFn, List.sum_ofFn, Finset.smul_sum]
    refine Finset.sum_congr rfl fun j _ => ?_
    simp only [Function.comp, plusAdj, smul_smul]; norm_num
  have e3 : ∑ j, (Spec.hermPart (H j) + (Spec.hermPart (H j))ᴴ) = ∑ j, (H j + (H j)ᴴ) := by
    refine Finset.sum_congr rfl fun j _ => ?_
    simp only [Spec.hermPart, conjTranspose_smul, conjTranspose_add, conjTranspose_conjTranspose]
    have : star (1 / 2 : ℂ) = 1 / 2 := by simp
    rw [this]; module
  simp only [BSM.setParamsComplex, hb]
  rw [if_neg hl]
  have hh : (List.map (fun X => (1 / 2 : ℂ) • plusAdj X) (List.ofFn H)) = List.ofFn fun j => Spec.hermPart (H j) := by
    rw [List.map_ofFn]; rfl
  have hB : (List.map (fun X : CMat n => (1 / 2 : ℂ) • (Complex.I • (X - Xᴴ))) (List.ofFn H)) =
      List.ofFn fun j => (1 / 2 : ℂ) • (Complex.I • (H j - (H j)ᴴ)) := by
    rw [List.map_ofFn]; rfl
  cases exp
  · cases inversion
    · refine ⟨rfl, rfl, rfl, ?_, congrArg₂ (· ++ ·) hh hB⟩
      cases cosReduced
      · exact (add_zero _).symm
      · exact congrArg (Spec.hermPart H0 + ·) e2
    · refine ⟨rfl, rfl, rfl, ?_, hh⟩
      cases cosReduced
      · exact (add_zero _).symm
      · exact congrArg (Spec.hermPart H0 + ·) (e2.trans e3.symm)
  · refine ⟨rfl, rfl, rfl, ?_, rfl⟩
    cases inversion <;> cases cosReduced
    · exact (add_zero _).symm
    · exact congrArg (H0 + ·) e1
    · exact (add_zero _).symm
    · exact congrArg (H0 + ·) e1

/-- `|S|` with `cos_reduced`, else zero: what the subtracted ones add up to. -/
noncomputable def redCount (S : List (Matrix (Fin d) (Fin d) ℝ)) (cosReduced : Bool) : ℝ :=
  if cosReduced then (S.length : ℝ) else 0

theorem fi_exp (S : List (Matrix (Fin d) (Fin d) ℝ)) (inversion cosReduced : Bool) (r0 : RVec d)
    (r : Fin m → RVec d) (k : RVec d) (j : Fin m) :
    (TBData.mk' S inversion cosReduced true r0 r).fi k (j + 1) =
      (S.map fun s => Spec.phase k (s.mulVec (r j))).sum - (redCount S cosReduced : ℝ) := by
  rw [fi_low]
  cases cosReduced
  · simp only [TBData.func, TBData.mk', redCount, if_true, Bool.false_eq_true, if_false, exp_phase, Complex.ofReal_zero,
      sub_zero]
  · simp only [TBData.func, TBData.mk', redCount, if_true, exp_phase, sum_sub_one, Complex.ofReal_natCast]

/-- `Σ_s cos(2π k·(s r))` and `Σ_s sin(2π k·(s r))`. -/
noncomputable def cosSum (S : List (Matrix (Fin d) (Fin d) ℝ)) (k r : RVec d) : ℝ :=
  (S.map fun s => Real.cos (2 * Real.pi * (k ⬝ᵥ s.mulVec r))).sum
@[inherit_doc cosSum]
noncomputable def sinSum (S : List (Matrix (Fin d) (Fin d) ℝ)) (k r : RVec d) : ℝ :=
  (S.map fun s => Real.sin (2 * Real.pi * (k ⬝ᵥ s.mulVec r))).sum

theorem fi_cos (S : List (Matrix (Fin d) (Fin d) ℝ)) (inversion cosReduced : Bool) (r0 : RVec d)
    (r : Fin m → RVec d) (k : RVec d) (j : Fin m) :
    (TBData.mk' S inversion cosReduced false r0 r).fi k (j + 1) =
      ((cosSum S k (r j) - redCount S cosReduced : ℝ) : ℂ) := by
  have h : ∀ l : List (Matrix (Fin d) (Fin d) ℝ), (l.map fun s => ((Real.cos (2 * Real.pi * (k ⬝ᵥ s.mulVec (r j))) : ℝ) : ℂ)).sum =
      (((l.map fun s => Real.cos (2 * Real.pi * (k ⬝ᵥ s.mulVec (r j)))).sum : ℝ) : ℂ) := by
    intro l
    rw [← sum_re, List.map_map]; rfl
  rw [fi_low]
  cases inversion <;> cases cosReduced
  all_goals simp only [TBData.func, TBData.mk', redCount, if_true, Bool.false_eq_true, if_false, sub_zero, cosSum,
    sum_sub_one, h, Complex.ofReal_sub, Complex.ofReal_natCast]

theorem fi_sin (S : List (Matrix (Fin d) (Fin d) ℝ)) (cosReduced : Bool) (r0 : RVec d)
    (r : Fin m → RVec d) (k : RVec d) (j : Fin m) :
    (TBData.mk' S false cosReduced false r0 r).fi k (m + j + 1) = (sinSum S k (r j) : ℂ) := by
  rw [fi_high]
  simp only [TBData.func, TBData.mk', Bool.false_eq_true, if_false, one_ne_zero, sinSum]
  rw [← sum_re, List.map_map]; rfl

theorem smul_herm_real (x : ℝ) {A : CMat n} (hA : Aᴴ = A) : ((x : ℂ) • A)ᴴ = (x : ℂ) • A := by
  rw [conjTranspose_smul, hA]; congr 1; exact Complex.conj_ofReal x

theorem hermPart_herm (X : CMat n) : (Spec.hermPart X)ᴴ = Spec.hermPart X := by
  rw [Spec.hermPart, conjTranspose_smul, conjTranspose_add, conjTranspose_conjTranspose, add_comm]
  congr 1; simp

theorem antiPart_herm (X : CMat n) :
    ((1 / 2 : ℂ) • (Complex.I • (X - Xᴴ)) : CMat n)ᴴ = (1 / 2 : ℂ) • (Complex.I • (X - Xᴴ)) := by
  rw [conjTranspose_smul, conjTranspose_smul, conjTranspose_sub, conjTranspose_conjTranspose]
  have h1 : star (1 / 2 : ℂ) = 1 / 2 := by simp
  have h2 : star Complex.I = -Complex.I := Complex.conj_I
  rw [h1, h2]; module

/-- The value of `f` in terms of the stored coefficients. -/
theorem f_of_params (S : List (Matrix (Fin d) (Fin d) ℝ)) (inversion cosReduced exp : Bool) (r0 : RVec d)
    (r : Fin m → RVec d) (H : Fin m → CMat n) (b : BSM d n)
    (hc : b.coeff = .tb (TBData.mk' S inversion cosReduced exp r0 r))
    (hP : b.Ps = (if exp then List.ofFn H
       else if inversion then List.ofFn fun j => Spec.hermPart (H j)
       else (List.ofFn fun j => Spec.hermPart (H j)) ++
         List.ofFn fun j => (1 / 2 : ℂ) • (Complex.I • (H j - (H j)ᴴ)))) (k : RVec d) :
    b.f k = Spec.ham S r b.P0 (fun j => Spec.other exp inversion (H j)) k - ((redCount S cosReduced : ℝ) : ℂ) •
      ∑ j, (Spec.other exp inversion (H j) + (Spec.other exp inversion (H j))ᴴ) := by
  rw [BSM.f, hc, BSM.hsum, hP, ham_eq]
  have h0 : (Coeff.tb (TBData.mk' S inversion cosReduced exp r0 r)).fi k 0 = 1 := rfl
  rw [h0, one_smul]
  set κ := redCount S cosReduced with hκ
  have hs : ∀ x : ℝ, star (x : ℂ) = x := Complex.conj_ofReal
  have hI : star Complex.I = -Complex.I := Complex.conj_I
  rw [add_comm _ b.P0, add_sub_assoc, Finset.smul_sum, ← Finset.sum_sub_distrib]
  congr 1
  cases exp
  · cases inversion
    · simp only [Bool.false_eq_true, if_false]
      rw [sum_ofFn_append, conjTranspose_add, conjTranspose_sum, conjTranspose_sum, add_add_add_comm,
        ← Finset.sum_add_distrib, ← Finset.sum_add_distrib, ← Finset.sum_add_distrib]
      refine Finset.sum_congr rfl fun j _ => ?_
      simp only [Coeff.fi, fi_cos, fi_sin]
      rw [smul_herm_real _ (hermPart_herm _), smul_herm_real _ (antiPart_herm _), sum_phase]
      change _ = ((cosSum S k (r j) : ℂ) + (sinSum S k (r j) : ℂ) * Complex.I) • H j +
        (((cosSum S k (r j) : ℂ) + (sinSum S k (r j) : ℂ) * Complex.I) • H j)ᴴ - (κ : ℂ) • (H j + (H j)ᴴ)
      rw [conjTranspose_smul, star_add, star_mul', hs, hs, hI, Spec.hermPart, Complex.ofReal_sub]
      module
    · simp only [Bool.false_eq_true, if_false, if_true]
      rw [sum_ofFn, conjTranspose_sum, ← Finset.sum_add_distrib]
      refine Finset.sum_congr rfl fun j _ => ?_
      simp only [Coeff.fi, fi_cos]
      rw [smul_herm_real _ (hermPart_herm _), sum_phase]
      change _ = ((cosSum S k (r j) : ℂ) + (sinSum S k (r j) : ℂ) * Complex.I) • Spec.hermPart (H j) +
        (((cosSum S k (r j) : ℂ) + (sinSum S k (r j) : ℂ) * Complex.I) • Spec.hermPart (H j))ᴴ -
          (κ : ℂ) • (Spec.hermPart (H j) + (Spec.hermPart (H j))ᴴ)
      rw [conjTranspose_smul, hermPart_herm, star_add, star_mul', hs, hs, hI, Complex.ofReal_sub]
      module
  · simp only [if_true]
    rw [sum_ofFn, conjTranspose_sum, ← Finset.sum_add_distrib]
    refine Finset.sum_congr rfl fun j _ => ?_
    have ho : Spec.other true inversion (H j) = H j := by simp [Spec.other]
    simp only [Coeff.fi, fi_exp, ho, sub_smul, conjTranspose_sub]
    rw [conjTranspose_smul (κ : ℂ), hs]
    module

theorem init_ok (S : List (Matrix (Fin d) (Fin d) ℝ)) (inversion cosReduced exp : Bool) (r0 : RVec d)
    (r : Fin m → RVec d) (n : ℕ) : ∃ b : BSM d n, init (TBData.mk' S inversion cosReduced exp r0 r) n = .ok b ∧
      b.coeff = .tb (TBData.mk' S inversion cosReduced exp r0 r) := by
  have h1 : ¬ (TBData.mk' S inversion cosReduced exp r0 r).termCount < 0 := by
    simp only [TBData.termCount, TBData.mk', List.length_cons]; split_ifs <;> omega
  have h2 : ¬ (TBData.mk' S inversion cosReduced exp r0 r).termCount = 0 := by
    simp only [TBData.termCount, TBData.mk', List.length_cons]; split_ifs <;> omega
  rw [init, if_neg h1, if_neg h2]
  exact ⟨_, rfl, rfl⟩

/-- **C30.** After `set_params_complex(H)` the Hamiltonian is `H_0 + Σ_j Σ_s (e^{2πi k·(s r_j)} H_j + h.c.)`, minus
`(|S| - 1) Σ_j (H_j + H_j†)` with `cos_reduced` — an error exactly if `cos_reduced` is combined with a symmetry.
`H_0` (and with inversion symmetry all matrices) are replaced by their hermitian parts for `exp=False`. -/
theorem C30_f (S : List (Matrix (Fin d) (Fin d) ℝ)) (inversion cosReduced exp : Bool) (r0 : RVec d)
    (r : Fin m → RVec d) (H0 : CMat n) (H : Fin m → CMat n) :
    ∃ b b' : BSM d n, init ⟨S, inversion, r0 :: List.ofFn r, cosReduced, exp⟩ n = .ok b ∧
      b.setParamsComplex (H0 :: List.ofFn H) = (b', .ok ()) ∧
      ∀ k, b'.f k = Spec.ham S r (Spec.first exp H0) (fun j => Spec.other exp inversion (H j)) k -
        (if cosReduced then ((S.length : ℂ) - 1) •
          ∑ j, (Spec.other exp inversion (H j) + (Spec.other exp inversion (H j))ᴴ) else 0) := by
  obtain ⟨b, hb, hc⟩ := init_ok S inversion cosReduced exp r0 r n
  obtain ⟨e1, e2, -, e3, e4⟩ := setParams_eq S inversion cosReduced exp r0 r H0 H b hc
  refine ⟨b, (b.setParamsComplex (H0 :: List.ofFn H)).1, hb, Prod.ext rfl e1, fun k => ?_⟩
  rw [f_of_params S inversion cosReduced exp r0 r H _ (e2.trans hc) e4, e3]
  simp only [Spec.ham]
  cases cosReduced
  · simp [redCount]
  · simp only [redCount, if_true, Complex.ofReal_natCast]
    module

theorem list_sum_plusAdj (H : Fin m → CMat n) : (List.map plusAdj (List.ofFn H)).sum = ∑ j, (H j + (H j)ᴴ) := by
  rw [List.map_ofFn, List.sum_ofFn]; rfl

theorem pc_exp (b : BSM d n) {t : TBData d} (h : b.coeff = .tb t) (he : t.exp = true) :
    b.paramsComplex = .ok ((if t.cosReduced then b.P0 - (b.Ps.map plusAdj).sum else b.P0) :: b.Ps) := by
  simp only [BSM.paramsComplex, h]; rw [if_pos he]

theorem pc_inv (b : BSM d n) {t : TBData d} (h : b.coeff = .tb t) (he : t.exp = false) (hi : t.inversion = true) :
    b.paramsComplex = .ok ((if t.cosReduced then b.P0 - (b.Ps.map plusAdj).sum else b.P0) :: b.Ps) := by
  simp only [BSM.paramsComplex, h]; rw [if_neg (by simp [he]), if_neg (by simp [hi])]

theorem pc_none (b : BSM d n) {t : TBData d} (h : b.coeff = .tb t) (he : t.exp = false) (hi : t.inversion = false)
    {A B : List (CMat n)} (hA : b.Ps.take ((b.params.length + 1) / 2 - 1) = A)
    (hB : b.Ps.drop ((b.params.length + 1) / 2 - 1) = B) (hl : A.length = B.length) :
    b.paramsComplex = .ok ((if t.cosReduced then b.P0 - (A.map plusAdj).sum else b.P0) ::
        List.zipWith (fun a b => a + (-Complex.I) • b) A B) := by
  simp only [BSM.paramsComplex, h]
  rw [if_neg (by simp [he]), if_pos hi, hA, hB, if_neg (by simp [hl])]

theorem paramsComplex_set (S : List (Matrix (Fin d) (Fin d) ℝ)) (inversion cosReduced exp : Bool) (r0 : RVec d)
    (r : Fin m → RVec d) (H0 : CMat n) (H : Fin m → CMat n) (b : BSM d n)
    (hb : b.coeff = .tb (TBData.mk' S inversion cosReduced exp r0 r)) :
    (b.setParamsComplex (H0 :: List.ofFn H)).1.paramsComplex =
      .ok (Spec.first exp H0 :: List.ofFn fun j => Spec.other exp inversion (H j)) := by
  obtain ⟨-, e2, -, e3, e4⟩ := setParams_eq S inversion cosReduced exp r0 r H0 H b hb
  set b' := (b.setParamsComplex (H0 :: List.ofFn H)).1
  have hc : b'.coeff = .tb (TBData.mk' S inversion cosReduced exp r0 r) := e2.trans hb
  have key : ∀ X : CMat n, ∀ G : Fin m → CMat n,
      (if cosReduced then X + (if cosReduced then ∑ j, (G j + (G j)ᴴ) else 0) - ∑ j, (G j + (G j)ᴴ)
        else X + (if cosReduced then ∑ j, (G j + (G j)ᴴ) else 0)) = X := by
    intro X G; cases cosReduced <;> simp
  have herm : ∑ j, (Spec.hermPart (H j) + (Spec.hermPart (H j))ᴴ) = ∑ j, (H j + (H j)ᴴ) := by
    refine Finset.sum_congr rfl fun j _ => ?_
    rw [hermPart_herm, Spec.hermPart]; module
  cases exp
  · cases inversion
    · simp only [Bool.false_eq_true, if_false] at e4
      have hlen : (b'.params.length + 1) / 2 - 1 = m := by
        simp only [BSM.params, e4, List.length_cons, List.length_append, List.length_ofFn]; omega
      have hA : b'.Ps.take m = List.ofFn fun j => Spec.hermPart (H j) := by
        rw [e4, List.take_left' (by simp)]
      have hB : b'.Ps.drop m = List.ofFn fun j => (1 / 2 : ℂ) • (Complex.I • (H j - (H j)ᴴ)) := by
        rw [e4, List.drop_left' (by simp)]
      have hA' := (congrArg (fun c => b'.Ps.take c) hlen).trans hA
      have hB' := (congrArg (fun c => b'.Ps.drop c) hlen).trans hB
      rw [pc_none b' hc rfl rfl hA' hB' (by simp), list_sum_plusAdj, herm, e3]
      congr 2
      · exact key _ H
      · apply List.ext_getElem
        · simp
        · intro i h1 h2
          simp only [List.getElem_zipWith, List.getElem_ofFn, Spec.other, Bool.false_eq_true, and_false, if_false,
            Spec.hermPart, smul_smul]
          have : -Complex.I * (1 / 2 * Complex.I) = 1 / 2 := by
            linear_combination (-1 / 2 : ℂ) * Complex.I_mul_I
          rw [this]; module
    · simp only [Bool.false_eq_true, if_false, if_true] at e4
      rw [pc_inv b' hc rfl rfl, e4, list_sum_plusAdj, e3]
      exact congrArg (fun X => Except.ok (X :: List.ofFn fun j => Spec.hermPart (H j))) (key _ fun j => Spec.hermPart (H j))
  · simp only [if_true] at e4
    have ho : ∀ j, Spec.other true inversion (H j) = H j := fun j => by simp [Spec.other]
    simp only [ho] at e3 ⊢
    rw [pc_exp b' hc rfl, e4, list_sum_plusAdj, e3]
    exact congrArg (fun X => Except.ok (X :: List.ofFn H)) (key _ H)

theorem other_idem (exp inversion : Bool) (X : CMat n) :
    Spec.other exp inversion (Spec.other exp inversion X) = Spec.other exp inversion X := by
  unfold Spec.other
  split_ifs
  · conv_lhs => rw [Spec.hermPart, hermPart_herm]
    module
  · rfl

/-- **C30.** `params_complex()` after `set_params_complex(H)` returns the matrices that `f` uses: `H` itself with
`exp=True`, `H` with the hermitian part of `H_0` for `exp=False` without inversion symmetry, and the hermitian parts
otherwise. Setting the result again changes neither the answer nor the Hamiltonian. -/
theorem C30_roundtrip (S : List (Matrix (Fin d) (Fin d) ℝ)) (inversion cosReduced exp : Bool) (r0 : RVec d)
    (r : Fin m → RVec d) (H0 : CMat n) (H : Fin m → CMat n) :
    ∃ b b' b'' : BSM d n, ∃ G, init ⟨S, inversion, r0 :: List.ofFn r, cosReduced, exp⟩ n = .ok b ∧
      b.setParamsComplex (H0 :: List.ofFn H) = (b', .ok ()) ∧
      b'.paramsComplex = .ok G ∧
      G = Spec.first exp H0 :: (List.ofFn fun j => Spec.other exp inversion (H j)) ∧
      b'.setParamsComplex G = (b'', .ok ()) ∧ b''.paramsComplex = .ok G ∧ ∀ k, b''.f k = b'.f k := by
  obtain ⟨b, hb, hc⟩ := init_ok S inversion cosReduced exp r0 r n
  obtain ⟨e1, e2, -, e3, e4⟩ := setParams_eq S inversion cosReduced exp r0 r H0 H b hc
  set b' := (b.setParamsComplex (H0 :: List.ofFn H)).1 with hb'
  have hc' : b'.coeff = .tb (TBData.mk' S inversion cosReduced exp r0 r) := e2.trans hc
  obtain ⟨g1, g2, -, g3, g4⟩ := setParams_eq S inversion cosReduced exp r0 r (Spec.first exp H0)
    (fun j => Spec.other exp inversion (H j)) b' hc'
  have hf : Spec.first exp (Spec.first exp H0) = Spec.first exp H0 := by
    cases exp
    · change Spec.hermPart (Spec.hermPart H0) = Spec.hermPart H0
      conv_lhs => rw [Spec.hermPart, hermPart_herm]
      module
    · rfl
  refine ⟨b, b', (b'.setParamsComplex _).1, _, hb, Prod.ext rfl e1,
    paramsComplex_set S inversion cosReduced exp r0 r H0 H b hc, rfl, Prod.ext rfl g1, ?_, fun k => ?_⟩
  · rw [paramsComplex_set S inversion cosReduced exp r0 r _ _ b' hc', hf]
    simp only [other_idem]
  · rw [f_of_params S inversion cosReduced exp r0 r _ _ (g2.trans hc') g4,
      f_of_params S inversion cosReduced exp r0 r H b' hc' e4, g3, hf, e3]
    simp only [other_idem]

/-- **C30.** Without symmetry all four options give `H_0 + Σ_j (e^{2πi k·r_j} H_j + h.c.)` for hermitian `H_0`, and
`params_complex()` returns `H`. -/
theorem C30_none (cosReduced exp : Bool) (r0 : RVec d)
    (r : Fin m → RVec d) (H0 : CMat n) (H : Fin m → CMat n) (h0 : H0ᴴ = H0) :
    ∃ b b' : BSM d n, init ⟨[1], false, r0 :: List.ofFn r, cosReduced, exp⟩ n = .ok b ∧
      b.setParamsComplex (H0 :: List.ofFn H) = (b', .ok ()) ∧
      b'.paramsComplex = .ok (H0 :: List.ofFn H) ∧
      ∀ k, b'.f k = H0 + ∑ j, (Spec.phase k (r j) • H j + (Spec.phase k (r j) • H j)ᴴ) := by
  obtain ⟨b, b', hb, hset, hf⟩ := C30_f [1] false cosReduced exp r0 r H0 H
  have hfirst : Spec.first exp H0 = H0 := by
    cases exp
    · change Spec.hermPart H0 = H0
      rw [Spec.hermPart, h0]; module
    · rfl
  have hother : ∀ j, Spec.other exp false (H j) = H j := fun j => by simp [Spec.other]
  refine ⟨b, b', hb, hset, ?_, fun k => ?_⟩
  · obtain ⟨b₁, hb₁, hc⟩ := init_ok [1] false cosReduced exp r0 r n
    have : b₁ = b := by
      have := hb₁.symm.trans hb
      exact Except.ok.inj this
    subst this
    have := paramsComplex_set [1] false cosReduced exp r0 r H0 H b₁ hc
    rw [hset, hfirst] at this
    simpa only [hother] using this
  · rw [hf k, hfirst]
    simp only [hother, Spec.ham, List.map_cons, List.map_nil, List.sum_cons, List.sum_nil, add_zero, one_mulVec,
      List.length_cons, List.length_nil]
    simp

/-- Non-trivial instance: one neighbour, a hermitian `H_0` and a non-hermitian `H_1`. -/
example : ∃ b b' : BSM 1 2, init ⟨[1], false, 0 :: List.ofFn (fun _ : Fin 1 => fun _ => 1), true, false⟩ 2 = .ok b ∧
    b.setParamsComplex (1 :: List.ofFn fun _ : Fin 1 => !![0, 1; 0, 0]) = (b', .ok ()) ∧
    ∀ k, b'.f k 0 1 = Spec.phase k (fun _ => 1) := by
  obtain ⟨b, b', h1, h2, -, h4⟩ := C30_none (d := 1) (n := 2) true false 0 (fun _ : Fin 1 => fun _ => 1) 1
    (fun _ => !![0, 1; 0, 0]) conjTranspose_one
  refine ⟨b, b', h1, h2, fun k => ?_⟩
  rw [h4]
  simp [conjTranspose]

/-- **C30.** With `cos_reduced` and two symmetry operations `f(0)` is not `H_0 + Σ_r (H_r + H_r†)`: here `1×1` matrices
`H_0 = 0`, `H_1 = 1` and `S = [1, -1]` give `f(0) = 2` although the sum over both operations is `4`. -/
theorem C30_symmetry_defect : ∃ b b' : BSM 1 1,
    init ⟨[1, -1], false, 0 :: List.ofFn (fun _ : Fin 1 => fun _ => 1), true, true⟩ 1 = .ok b ∧
    b.setParamsComplex (0 :: List.ofFn fun _ : Fin 1 => 1) = (b', .ok ()) ∧
    b'.f 0 0 0 = 2 ∧ Spec.ham (d := 1) [1, -1] (fun _ : Fin 1 => fun _ => 1) 0 (fun _ : Fin 1 => (1 : CMat 1)) 0 0 0 = 4 := by
  obtain ⟨b, b', h1, h2, h3⟩ := C30_f (d := 1) (n := 1) [1, -1] false true true 0 (fun _ : Fin 1 => fun _ => 1) 0
    (fun _ => 1)
  have h4 : Spec.ham [1, -1] (fun _ : Fin 1 => fun _ : Fin 1 => (1 : ℝ)) 0 (fun _ : Fin 1 => (1 : CMat 1)) 0 0 0 = 4 := by
    simp [Spec.ham, Spec.phase]; norm_num
  refine ⟨b, b', h1, h2, ?_, h4⟩
  rw [h3, Matrix.sub_apply]
  simp only [Spec.first, Spec.other, if_true, Bool.false_eq_true, and_false, if_false, h4]
  simp
  norm_num

/-- **C30.** `init_tight_binding` with `N > 0` neighbours makes a model with zero matrices: `N` of them with the exponential
parametrisation or inversion symmetry, else `2 N - 1`. Without neighbours it raises `AssertionError` or `ValueError`. -/
theorem C30_init (t : TBData d) (n : ℕ) :
    (t.neighbors ≠ [] → ∃ b, init t n = .ok b ∧ b.coeff = .tb t ∧ b.symmetrizer = none ∧ (∀ P ∈ b.params, P = 0) ∧
      b.params.length = if t.exp = true ∨ t.inversion = true then t.neighbors.length else 2 * t.neighbors.length - 1) ∧
    (t.neighbors = [] → init t n = .error (if t.exp = true ∨ t.inversion = true then .assertionError else .valueError)) := by
  constructor
  · intro h
    have hl : 0 < t.neighbors.length := List.length_pos_of_ne_nil h
    have hc : t.termCount = ((if t.exp = true ∨ t.inversion = true then t.neighbors.length else 2 * t.neighbors.length - 1 : ℕ) : ℤ) := by
      unfold TBData.termCount
      cases t.exp <;> cases t.inversion <;> simp <;> omega
    have hp : 0 < (if t.exp = true ∨ t.inversion = true then t.neighbors.length else 2 * t.neighbors.length - 1 : ℕ) := by
      split_ifs <;> omega
    refine ⟨⟨.tb t, 0, List.replicate (t.termCount.toNat - 1) 0, none⟩, ?_, rfl, rfl, ?_, ?_⟩
    · unfold init
      rw [if_neg (by omega), if_neg (by omega)]
    · intro P hP
      rcases List.mem_cons.1 hP with rfl | hP
      · rfl
      · exact List.eq_of_mem_replicate hP
    · simp only [BSM.params, List.length_cons, List.length_replicate]
      omega
  · intro h
    unfold init TBData.termCount
    rw [h]
    cases t.exp <;> cases t.inversion <;> simp

/-- Three neighbours without symmetry: five matrices. -/
example : ∃ b, init (d := 1) ⟨[1], false, [![0], ![1], ![2]], false, false⟩ 2 = .ok b ∧ b.params.length = 5 := by
  obtain ⟨b, h, -, -, -, hl⟩ := (C30_init (d := 1) ⟨[1], false, [![0], ![1], ![2]], false, false⟩ 2).1 (by simp)
  exact ⟨b, h, by simpa using hl⟩

/-- **C30.** `set_params_complex` raises `ValueError` and leaves the model alone exactly if the number of matrices is not
the number of neighbours (or the model has custom coefficient functions); `params_complex` of a custom model raises
`ValueError`, too. -/
theorem C30_errors (b : BSM d n) (H : List (CMat n)) :
    ((∀ t, b.coeff ≠ .tb t) → b.setParamsComplex H = (b, .error .valueError) ∧ b.paramsComplex = .error .valueError) ∧
    (∀ t, b.coeff = .tb t → t.neighbors ≠ [] →
      ((b.setParamsComplex H).2 = .ok () ↔ H.length = t.neighbors.length) ∧
      (H.length ≠ t.neighbors.length → b.setParamsComplex H = (b, .error .valueError))) := by
  refine ⟨fun h => ?_, fun t ht hne => ?_⟩
  · unfold BSM.setParamsComplex BSM.paramsComplex
    cases hcf : b.coeff with
    | custom => exact ⟨rfl, rfl⟩
    | tb t => exact absurd hcf (h t)
  · have h2 : H.length ≠ t.neighbors.length → b.setParamsComplex H = (b, .error .valueError) := by
      intro h
      simp only [BSM.setParamsComplex, ht]
      rw [if_pos h]
    refine ⟨⟨fun h => ?_, fun h => ?_⟩, h2⟩
    · by_contra hc
      rw [h2 hc] at h
      cases h
    · simp only [BSM.setParamsComplex, ht]
      rw [if_neg (not_not.2 h)]
      cases H with
      | nil =>
        simp only [List.length_nil] at h
        exact absurd (List.length_eq_zero_iff.1 h.symm) hne
      | cons H0 Hs => dsimp only; split_ifs <;> rfl

example : ((⟨.tb ⟨[1], false, [0, fun _ => 1], false, true⟩, 0, [0], none⟩ : BSM 1 1).setParamsComplex [1]).2 =
    .error .valueError := by
  rw [((C30_errors _ _).2 _ rfl (by simp)).2 (by simp)]

/-! ## C72: save and load in the "python" format -/

/-- **C72.** The model read back from a file in "python" format: the options are replaced by
`cos_reduced=True, exp=False`. -/
theorem C72_python (S : List (Matrix (Fin d) (Fin d) ℝ)) (inversion cosReduced exp : Bool) (r0 : RVec d)
    (r : Fin m → RVec d) (H0 : CMat n) (H : Fin m → CMat n) :
    ∃ b b' b'' : BSM d n, init ⟨S, inversion, r0 :: List.ofFn r, cosReduced, exp⟩ n = .ok b ∧
      b.setParamsComplex (H0 :: List.ofFn H) = (b', .ok ()) ∧ b'.saveLoadPython = .ok b'' ∧
      (∀ k, b''.f k = Spec.ham S r (Spec.hermPart H0) (fun j => Spec.other false inversion (H j)) k -
        ((S.length : ℂ) - 1) • ∑ j, (H j + (H j)ᴴ)) ∧
      -- the bands are those of the saved model for the same options, and without symmetry
      ((cosReduced = true ∧ exp = false) ∨ (S.length = 1 ∧ inversion = false ∧ H0ᴴ = H0) → ∀ k, b''.f k = b'.f k) ∧
      -- they are shifted by a constant matrix if the saved model has `cos_reduced=False, exp=False`
      (cosReduced = false ∧ exp = false → ∀ k, b''.f k = b'.f k - ((S.length : ℂ) - 1) • ∑ j, (H j + (H j)ᴴ)) := by
  obtain ⟨b, hb, hc⟩ := init_ok S inversion cosReduced exp r0 r n
  obtain ⟨e1, e2, -, e3, e4⟩ := setParams_eq S inversion cosReduced exp r0 r H0 H b hc
  have hpc := paramsComplex_set S inversion cosReduced exp r0 r H0 H b hc
  obtain ⟨b₀, b₁, hb₀, hset₀, hf₀⟩ := C30_f S inversion cosReduced exp r0 r H0 H
  have hbb : b₀ = b := Except.ok.inj (hb₀.symm.trans hb)
  subst hbb
  rw [hset₀] at hpc e2
  simp only at hpc e2
  obtain ⟨c, c', hcc, hset, hf⟩ := C30_f S inversion true false r0 r (Spec.first exp H0)
    (fun j => Spec.other exp inversion (H j))
  have hsl : b₁.saveLoadPython = .ok c' := by
    have hcoeff : b₁.coeff = .tb (TBData.mk' S inversion cosReduced exp r0 r) := e2.trans hc
    have hcc' : init { TBData.mk' S inversion cosReduced exp r0 r with cosReduced := true, exp := false } n = .ok c := hcc
    simp only [BSM.saveLoadPython, hpc, hcoeff, bind, Except.bind, hcc', hset, pure, Except.pure]
  have h1 : Spec.first false (Spec.first exp H0) = Spec.hermPart H0 := by
    cases exp
    · change Spec.hermPart (Spec.hermPart H0) = Spec.hermPart H0
      conv_lhs => rw [Spec.hermPart, hermPart_herm]
      module
    · rfl
  have h2 : ∀ j, Spec.other false inversion (Spec.other exp inversion (H j)) = Spec.other false inversion (H j) := by
    intro j
    cases exp
    · exact other_idem _ _ _
    · simp [Spec.other]
  have h3 : ∑ j, (Spec.other false inversion (H j) + (Spec.other false inversion (H j))ᴴ) = ∑ j, (H j + (H j)ᴴ) := by
    refine Finset.sum_congr rfl fun j _ => ?_
    cases inversion
    · simp [Spec.other]
    · change Spec.hermPart (H j) + (Spec.hermPart (H j))ᴴ = _
      rw [hermPart_herm, Spec.hermPart]; module
  have main : ∀ k, c'.f k = Spec.ham S r (Spec.hermPart H0) (fun j => Spec.other false inversion (H j)) k -
        ((S.length : ℂ) - 1) • ∑ j, (H j + (H j)ᴴ) := by
    intro k
    rw [hf k, h1]
    simp only [h2, h3, if_true]
  refine ⟨b₀, b₁, c', hb, hset₀, hsl, main, ?_, ?_⟩
  · rintro (⟨rfl, rfl⟩ | ⟨hS, rfl, h0⟩) k
    · rw [main, hf₀, h3]; rfl
    · have hh : Spec.hermPart H0 = H0 := by rw [Spec.hermPart, h0]; module
      have ho : ∀ e, ∀ j, Spec.other e false (H j) = H j := fun e j => by simp [Spec.other]
      have hfi : Spec.first exp H0 = H0 := by cases exp; exacts [hh, rfl]
      rw [main, hf₀, hh, hfi, hS]
      simp [ho]
  · rintro ⟨rfl, rfl⟩ k
    rw [main, hf₀]
    simp [Spec.first]

/-- A model with `S = [1, -1]`, `cos_reduced=False`, `exp=False` does not survive the round trip. -/
example : ∃ b b' b'' : BSM 1 1,
    init ⟨[1, -1], false, 0 :: List.ofFn (fun _ : Fin 1 => fun _ => 1), false, false⟩ 1 = .ok b ∧
      b.setParamsComplex (0 :: List.ofFn fun _ : Fin 1 => 1) = (b', .ok ()) ∧ b'.saveLoadPython = .ok b'' ∧
      b''.f 0 ≠ b'.f 0 := by
  obtain ⟨b, b', b'', h1, h2, h3, -, -, h4⟩ := C72_python (d := 1) (n := 1) [1, -1] false false false 0
    (fun _ : Fin 1 => fun _ => 1) 0 (fun _ => 1)
  refine ⟨b, b', b'', h1, h2, h3, fun h => ?_⟩
  rw [h4 ⟨rfl, rfl⟩] at h
  have := congrFun (congrFun (sub_eq_self.1 h) 0) 0
  simp at this
  norm_num at this

end TB.BS

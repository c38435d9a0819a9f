import Verif.Lemmas.AsymDescent

/-!
# C101: `AsymTightBindingModel.optimize`
-/

set_option linter.unusedSectionVars false

namespace TB.Opt
open Matrix TB
open scoped ComplexOrder

variable {K P n B d : ℕ} {geigh : CMat n → CMat n → (Fin n → ℝ) × CMat n} {lib : Lib n}
  {pinv : ∀ P K, Matrix (Fin P) (Fin K) ℂ → Matrix (Fin K) (Fin P) ℂ} {geigh1 : CMat 1 → CMat 1 → (Fin 1 → ℝ) × CMat 1}

/-! ## descent -/

/-- The sum of the squared weighted differences to the reference at all samples. -/
noncomputable def Spec.adSq (geigh : CMat n → CMat n → (Fin n → ℝ) × CMat n) (c : AD K P n B) (x : Par P n) : ℝ :=
  ∑ k, ∑ b, (c.bw b * ((geigh (fmat c.F x k) (c.S k)).1 (c.win b) - c.ref k b)) ^ 2

theorem ad_loss_eq (c : AD K P n B) (x : Par P n) : c.loss geigh x = Real.sqrt (Spec.adSq geigh c x) / Real.sqrt K := by
  rw [AD.loss, Spec.adSq]
  congr 2
  refine Finset.sum_congr rfl fun k _ => Finset.sum_congr rfl fun b _ => ?_
  ring

/-- The real inner product of a matrix with its hermitian part. -/
theorem herm_ip (X : CMat n) (hX : X.IsHermitian) : ∑ i, ∑ j, (star (((1 / 4 : ℂ) • (X + Xᴴ)) i j) * X i j).re = 1 / 2 * ∑ i, ∑ j, ‖X i j‖ ^ 2 := by
  rw [hX.eq, Finset.mul_sum]
  refine Finset.sum_congr rfl fun i _ => ?_
  rw [Finset.mul_sum]
  refine Finset.sum_congr rfl fun j _ => ?_
  have h : (1 / 4 : ℂ) • (X + X) = (1 / 2 : ℂ) • X := by module
  rw [h, Matrix.smul_apply, smul_eq_mul, star_mul', mul_assoc, Complex.star_def, ← Complex.normSq_eq_conj_mul_self, Complex.normSq_eq_norm_sq]
  have h2 : (starRingEnd ℂ) (1 / 2 : ℂ) = ((1 / 2 : ℝ) : ℂ) := by
    rw [show (1 / 2 : ℂ) = ((1 / 2 : ℝ) : ℂ) by push_cast; rfl, Complex.conj_ofReal]
  rw [h2, ← Complex.ofReal_mul, Complex.ofReal_re]

theorem quarter0_ip (g : Par (P + 1) n) (h0 : (g 0).IsHermitian) (hg : g ≠ 0) : 0 < parIp (quarter0 g) g := by
  have h1 : 0 < parIp g g := lt_of_le_of_ne (parIp_isIp.nonneg _) fun h => hg (parIp_isIp.zero _ h.symm)
  have h2 : parIp g g ≤ 2 * parIp (quarter0 g) g := by
    rw [parIp, parIp, Finset.mul_sum]
    refine Finset.sum_le_sum fun p _ => ?_
    have h3 : ∑ i, ∑ j, (star (g p i j) * g p i j).re = ∑ i, ∑ j, ‖g p i j‖ ^ 2 := by
      refine Finset.sum_congr rfl fun i _ => Finset.sum_congr rfl fun j _ => ?_
      rw [Complex.star_def, ← Complex.normSq_eq_conj_mul_self, Complex.normSq_eq_norm_sq, Complex.ofReal_re]
    by_cases hp : p = 0
    · subst hp
      have h4 := herm_ip (g 0) h0
      have hq : quarter0 g 0 = (1 / 4 : ℂ) • (g 0 + (g 0)ᴴ) := by simp [quarter0]
      rw [hq, h4, h3]
      linarith
    · have hp' : ¬ (p : ℕ) = 0 := fun h => hp (Fin.ext h)
      simp only [quarter0, hp', if_false]
      rw [h3]
      have : 0 ≤ ∑ i, ∑ j, ‖g p i j‖ ^ 2 := by positivity
      linarith
  linarith

/-- C101.  Without pseudoinverse, batches, `keep_zeros` and last change, at simple bands and for positive definite overlaps: the parameters are a stationary point of the loss and the change
is zero for every learning rate, or the loss decreases strictly for all small learning rates. -/
theorem C101_descent (hg : Spec.GeighOk geigh) (c : AD K (P + 1) n B) (hK : K ≠ 0) (hb : c.batchDiv = 1) (hp : c.usePinv = false)
    (hm : ∀ x, c.mask x = x) (hw : 0 < ⨆ b, c.bw b) (hF : ∀ k, star (c.F k 0) = c.F k 0) (hS : ∀ k, (c.S k).PosDef)
    (x : Par (P + 1) n) (hs : ∀ k b j, j ≠ c.win b → (geigh (fmat c.F x k) (c.S k)).1 j ≠ (geigh (fmat c.F x k) (c.S k)).1 (c.win b)) (it : ℕ) :
    ((∀ lr : ℝ, ({ c with lr := lr } : AD K (P + 1) n B).add geigh it x 0 = 0) ∧
      ∀ y, HasDerivAt (fun t : ℝ => Spec.adSq geigh c (x + t • y)) 0 0) ∨
    ∃ t0 > (0 : ℝ), ∀ lr : ℝ, 0 < lr → lr < t0 → c.loss geigh (x + ({ c with lr := lr } : AD K (P + 1) n B).add geigh it x 0) < c.loss geigh x := by
  have hu := adBatch_one c hb it
  have hKr : (0 : ℝ) < K := by exact_mod_cast Nat.pos_of_ne_zero hK
  have hN := norm_pos c
  have ha : 0 < c.alpha it := by
    rw [AD.alpha, hu, Finset.card_univ, Fintype.card_fin]
    positivity
  have hadd : ∀ lr : ℝ, ({ c with lr := lr } : AD K (P + 1) n B).add geigh it x 0 = (lr * c.alpha it) • quarter0 (c.grad geigh it x) := by
    intro lr
    simp only [AD.add, smul_zero, add_zero, hm]
    rfl
  have hC : ∀ k p, c.C it k p = star (c.F k p) := by
    intro k p; rw [AD.C, hp]; rfl
  let f : Fit K (P + 1) n B := ⟨c.F, 1, c.S, c.ref, c.bw, c.win, c.conv, c.thr, 0⟩
  have hsq : ∀ x, Spec.adSq geigh c x = Spec.sq geigh f x := fun _ => rfl
  have hd := sq_deriv hg f hS x hs
  have hvec : c.vec geigh x = f.vec geigh x := by
    funext k b i
    show (geigh (fmat c.F x k) (c.S (c.pos k))).2 i _ = (geigh (fmat c.F x k) (c.S k)).2 i _
    rw [adPos_one c hb]
  have hdiff : ∀ k b, c.weighted geigh x k b = -(1 / c.norm) * (f.diff geigh x k b * (f.bw b * f.bw b)) := by
    intro k b
    have h1 : c.diff geigh x k b = - f.diff geigh x k b := by
      show c.ref k b - (geigh (fmat c.F x k) (c.S (c.pos k))).1 _ = - ((geigh (fmat c.F x k) (c.S k)).1 _ - c.ref k b)
      rw [adPos_one c hb]
      ring
    rw [AD.weighted, h1]
    show - f.diff geigh x k b * c.bw b * c.bw b / c.norm = -(1 / c.norm) * (f.diff geigh x k b * (c.bw b * c.bw b))
    ring
  have hgr : (fun p => ∑ k, ∑ b, (star (c.F k p) * (c.weighted geigh x k b : ℂ)) • outer (c.vec geigh x k b)) = c.grad geigh it x := by
    funext p
    simp only [AD.grad, hu, hC]
  have hpar : ∀ y, 2 * parIp y (c.grad geigh it x) =
      -(1 / c.norm) * ∑ k, ∑ b, f.diff geigh x k b * (f.bw b * f.bw b) * jac c.F (f.vec geigh x) y k b := by
    intro y
    have h1 := parIp_grad c.F (c.vec geigh x) (c.weighted geigh x) y
    rw [hgr] at h1
    rw [h1, hvec, Finset.mul_sum]
    refine Finset.sum_congr rfl fun k _ => ?_
    rw [Finset.mul_sum]
    refine Finset.sum_congr rfl fun b _ => ?_
    rw [hdiff]
    ring
  have h0 : (c.grad geigh it x 0).IsHermitian := by
    rw [← hgr, IsHermitian, conjTranspose_sum]
    refine Finset.sum_congr rfl fun k _ => ?_
    rw [conjTranspose_sum]
    refine Finset.sum_congr rfl fun b _ => ?_
    rw [conjTranspose_smul, star_mul', star_star, hF, outer, conjTranspose_vecMulVec, star_star]
    simp
  by_cases hz : c.grad geigh it x = 0
  · left
    refine ⟨fun lr => ?_, fun y => ?_⟩
    · rw [hadd, hz]
      have : quarter0 (0 : Par (P + 1) n) = 0 := by funext p; simp [quarter0]
      rw [this, smul_zero]
    · refine (hd y).congr_deriv ?_
      have h1 := hpar y
      rw [hz] at h1
      have h2 : parIp y 0 = 0 := by simp [parIp]
      rw [h2, mul_zero] at h1
      have h3 : 1 / c.norm ≠ 0 := by positivity
      have h4 := (mul_eq_zero.1 h1.symm).resolve_left (by simpa using hN.ne')
      show 2 * ∑ k, ∑ b, f.diff geigh x k b * (f.bw b * f.bw b) * jac c.F (f.vec geigh x) y k b = 0
      rw [h4, mul_zero]
  · right
    have h1 := quarter0_ip _ h0 hz
    have h2 := hpar (quarter0 (c.grad geigh it x))
    have hneg : 2 * ∑ k, ∑ b, f.diff geigh x k b * (f.bw b * f.bw b) * jac c.F (f.vec geigh x) (quarter0 (c.grad geigh it x)) k b < 0 := by
      have h3 : 0 < 1 / c.norm := by positivity
      nlinarith
    obtain ⟨t0, h3, h4⟩ := neg_deriv_decreases (hd _) hneg
    refine ⟨t0 / c.alpha it, div_pos h3 ha, fun lr h5 h6 => ?_⟩
    have h7 := h4 (lr * c.alpha it) (by positivity) (by rwa [lt_div_iff₀ ha] at h6)
    simp only [zero_smul, add_zero] at h7
    rw [hadd, ad_loss_eq, ad_loss_eq]
    refine div_lt_div_of_pos_right (Real.sqrt_lt_sqrt ?_ h7) (Real.sqrt_pos.2 hKr)
    exact Finset.sum_nonneg fun k _ => Finset.sum_nonneg fun b _ => sq_nonneg _

/-! ## exact fit -/

/-- One step is exact, for every number of iterations but zero. -/
theorem ad_exact (hg : Spec.GeighOk geigh) (c : AD K (P + 1) n n) (G : Fin K → Fin (P + 1) → ℂ) (hc : c.Exact G) (hK : K ≠ 0)
    (ht : c.trainS = false) (hlr : c.lr = 1) (hreg : c.reg = 1) (hacc : c.accel = 1)
    (hmono : ∀ k, Monotone (c.ref k)) (m : ℕ) (x : Par (P + 1) n) :
    ∃ y, c.run geigh (m + 1) 0 none 0 x = .ok y ∧
      ((y = x ∧ c.loss geigh x < c.thr) ∨ ∀ k, (geigh (fmat c.F y k) 1).1 = c.ref k) := by
  have hreg' := adReg_one c hreg
  have hma : ∀ it, c.maxAccel it = 1 := by
    intro it
    rw [AD.maxAccel, adBatch_one c hc.batch, hacc, Finset.card_univ, Fintype.card_fin, min_eq_right]
    exact_mod_cast Nat.one_le_iff_ne_zero.2 hK
  have hadd : ∀ it x l, c.add geigh it x l = c.alpha it • quarter0 (c.mask (c.grad geigh it x)) := by
    intro it x l
    simp [AD.add, hlr, hma]
  have hb : c.batchDiv ≠ 0 := by rw [hc.batch]; exact one_ne_zero
  have hne : ∀ it, c.batch it ≠ ∅ := adBatch_ne c hb (by rw [hc.batch]; exact Nat.one_le_iff_ne_zero.2 hK)
  have ht' : ¬ c.trainS = true := by rw [ht]; simp
  have hstep : ∀ it x k, (geigh (fmat c.F (x + c.add geigh it x (0 : Par (P + 1) n)) k) 1).1 = c.ref k := by
    intro it x k
    rw [hadd, ad_exact_step hg c G hc x it k]
    have h1 := (geigh_spectral (hg _ _ (fmat_herm c.F x k) PosDef.one)).1
    have h2 := spectral_geigh h1 (hmono k)
    refine geigh_unique (hg _ _ ?_ PosDef.one) h2
    rw [← ad_exact_step hg c G hc x it k]
    exact fmat_herm _ _ _
  have hrest : ∀ m it ll l x, (∀ k, (geigh (fmat c.F x k) 1).1 = c.ref k) → ∃ y, c.run geigh m it ll l x = .ok y ∧
      ∀ k, (geigh (fmat c.F y k) 1).1 = c.ref k := by
    intro m
    induction m with
    | zero => intro it ll l x hx; exact ⟨x, rfl, hx⟩
    | succ m ih =>
      intro it ll l x hx
      rw [ad_run_succ, if_neg hb, if_neg ht', if_neg (hne it)]
      split
      · exact ⟨_, rfl, by rw [hreg']; exact hx⟩
      · rw [if_neg (by rw [hma]; exact one_ne_zero), hreg']
        refine ih _ _ _ _ fun k => ?_
        have := hstep it x k
        rw [hadd] at this ⊢
        exact this
  rw [ad_run_succ, if_neg hb, if_neg ht', if_neg (hne 0), hreg']
  split
  · rename_i h
    refine ⟨x, rfl, Or.inl ⟨rfl, ?_⟩⟩
    have h1 := h.2
    simp only [stop, Bool.false_or, decide_eq_true_eq] at h1
    exact h1
  · rw [if_neg (by rw [hma]; exact one_ne_zero)]
    obtain ⟨y, h1, h2⟩ := hrest m 1 (if 0 % 100 = 0 ∨ c.batchDiv = 1 then some (c.loss geigh x) else none) (c.add geigh 0 x 0)
      (x + c.add geigh 0 x 0) (hstep 0 x)
    exact ⟨y, h1, Or.inr h2⟩

/-- The samples are independent under the plane waves of the neighbours. -/
def Spec.IndepK (ks : Fin K → RVec d) (nbrs : List (RVec d)) : Prop :=
  ∀ y : Fin K → ℂ, (∀ R ∈ nbrs, ∑ k, y k * Complex.exp (2 * Real.pi * Complex.I * ((ks k ⬝ᵥ R : ℝ) : ℂ)) = 0) → y = 0

theorem coef_zero (ks : Fin K → RVec d) (H0 : CMat n) (rest : List (RVec d × CMat n)) (k : Fin K) :
    coef ks ((0, H0) :: rest) k (0 : Fin (rest.length + 1)) = 1 / 2 := by
  simp only [coef]
  change (if ((0 : Fin (rest.length + 1)) : ℕ) = 0 then TB.fi (ks k) (0 : RVec d) / 2 else _) = _
  rw [if_pos (Fin.val_zero _), fi_zero]

theorem coef_succ (ks : Fin K → RVec d) (H0 : CMat n) (rest : List (RVec d × CMat n)) (k : Fin K) (p : Fin rest.length) :
    coef ks ((0, H0) :: rest) k (p.succ : Fin (rest.length + 1)) = TB.fi (ks k) rest[p].1 := by
  simp only [coef]
  rw [if_neg (by simp)]
  rfl

theorem fi_norm (k R : RVec d) : star (TB.fi k R) * TB.fi k R = 1 := by
  rw [Complex.star_def, ← Complex.normSq_eq_conj_mul_self, Complex.normSq_eq_norm_sq]
  have : ‖TB.fi k R‖ = 1 := by
    rw [TB.fi]
    have h : (2 * Real.pi * Complex.I * ((k ⬝ᵥ R : ℝ) : ℂ)) = ((2 * Real.pi * (k ⬝ᵥ R) : ℝ) : ℂ) * Complex.I := by push_cast; ring
    rw [h, Complex.norm_exp_ofReal_mul_I]
  rw [this]
  simp

/-- C101.  With `train_S=False`, `batch_div=1`, `learning_rate=1`, `regularization=1`, `keep_zeros=False` and the default acceleration, an overlap which is the same at all samples as at zero, all
bands as sorted reference and constant weights: if the pseudoinverse is used and the samples are independent under the plane waves, or if it is not used and there is one sample, a call with at least
one iteration succeeds.  Either the loss of the normalised model was already below the threshold and only the basis is changed, or the bands of the result are the reference at every sample. -/
theorem C101_fit (hl : Spec.LibOk lib) (hpi : Spec.RectPinv pinv) (hK : K ≠ 0) (hn : n ≠ 0) (t : Tb d n) (ht : Spec.Good t) (a : ADArgs K n d)
    (hS : ∀ k, t.S.f (a.ks k) = t.S.f 0) (htr : a.trainS = false) (hb : a.batchDiv = 1) (hlr : a.lr = 1) (hreg : a.reg = 1) (hz : a.keepZeros = false)
    (hacc : a.maxAccel = none) (hbw : ∃ w : ℝ, w ≠ 0 ∧ ∀ b, a.bw b = w) (hmono : ∀ k, Monotone (a.ref k))
    (hind : (a.usePinv = true ∧ Spec.IndepK a.ks (t.H.terms.map Prod.fst)) ∨ (a.usePinv = false ∧ K = 1)) (m : ℕ) :
    ∃ (t' : Tb d n) (M : CMat n), tbOptimize lib pinv t a 0 (m + 1) = .ok t' ∧ IsUnit M.det ∧ (∀ k X, t.S.f k = .ok X → t'.S.f k = .ok (Mᴴ * X * M)) ∧
      ((∀ k X, t.H.f k = .ok X → t'.H.f k = .ok (Mᴴ * X * M)) ∨
        ∀ k, ∃ H S, TB.Spec.At t' (a.ks k) H S ∧ (lib.geigh H S).1 = a.ref k) := by
  obtain ⟨H0, hrest, S0, srest, rfl, hH0, hS0, hpos⟩ := ht.cases
  obtain ⟨M, hMu, hM1, -, -, hrun⟩ := ad_form hl pinv a H0 S0 hrest srest hH0 hS0 hpos hK hn 0 (by simp) (m + 1)
  set rest1 := hrest.map fun y => (y.1, Mᴴ * y.2 * M) with hrest1
  set c := adOf a pinv (H0 :: hrest.map Prod.snd) (Mᴴ * H0 * M) rest1 (fun k => Mᴴ * TB.Spec.value S0 srest (a.ks k) * M)
    fun b => ⟨(0 : ℤ).toNat + b, by have := b.2; simp⟩ with hc
  have hSv : ∀ k, Mᴴ * TB.Spec.value S0 srest (a.ks k) * M = 1 := by
    intro k
    have h1 := hS k
    simp only at h1
    rw [f_eq, f_eq] at h1
    rw [Except.ok.inj h1]
    rw [conj_f, f_eq] at hM1
    simpa [Except.map] using hM1
  have hF0 : ∀ k, c.F k 0 = 1 / 2 := coef_zero a.ks _ rest1
  have hFs : ∀ k (p : Fin rest1.length), c.F k p.succ = TB.fi (a.ks k) rest1[p].1 := coef_succ a.ks _ rest1
  have hcard : ∀ it, (c.batch it).card = K := by
    intro it; rw [adBatch_one c hb, Finset.card_univ, Fintype.card_fin]
  have hN := (norm_pos c).ne'
  have hKc : (K : ℂ) ≠ 0 := by exact_mod_cast hK
  have hex : ∃ G, c.Exact G := by
    have hcommon : ∀ G : Fin K → Fin (rest1.length + 1) → ℂ, (∀ k k', ∑ p, c.F k p * G k' p = if k = k' then 1 else 0) →
        (∀ it k p, c.C it k p = G k p * (if (p : ℕ) = 0 then 2 else 1) * (c.norm : ℂ) * K) → c.Exact G := by
      intro G h1 h2
      refine ⟨hb, h1, h2, fun k => by rw [hF0]; simp, hSv, fun b => Fin.ext (by simp [hc, adOf]), hbw, fun x => ?_⟩
      simp [hc, adOf, hz]
    rcases hind with ⟨hu, hi⟩ | ⟨hu, hK1⟩
    · have hFi : ∀ y : Fin K → ℂ, (∀ p, ∑ k, y k * c.F k p = 0) → y = 0 := by
        intro y hy
        refine hi y fun R hR => ?_
        simp only [List.map_cons, List.mem_cons] at hR
        rcases hR with rfl | hR
        · have h1 := hy 0
          simp only [hF0] at h1
          rw [← Finset.sum_mul] at h1
          have h2 : ∑ k, y k = 0 := (mul_eq_zero.1 h1).resolve_right (by norm_num)
          simpa using h2
        · obtain ⟨⟨R', X⟩, hm', rfl⟩ := List.mem_map.1 hR
          obtain ⟨i, hi', hget⟩ := List.mem_iff_getElem.1 hm'
          have h1 := hy (Fin.succ ⟨i, by simpa [hrest1] using hi'⟩)
          simp only [hFs] at h1
          have h2 : rest1[(⟨i, by simpa [hrest1] using hi'⟩ : Fin rest1.length)].1 = R' := by
            simp [hrest1, hget]
          rw [h2] at h1
          exact h1
      have hex' : ∀ it (k : Fin K), k.val < (c.batch it).card := fun it k => by rw [hcard]; exact k.2
      have hleft : ∀ it (k k' : Fin K), ∑ p, c.F k p * pinv _ _ (Matrix.of (c.batchF it))ᵀ ⟨k'.val, hex' it k'⟩ p = if k = k' then 1 else 0 := by
        intro it k k'
        refine pinv_cast hpi c.F hFi (hcard it) (c.batchF it) (fun i p => ?_) k k' _
        have hb' : c.batchDiv = 1 := hb
        have hlt : it % c.batchDiv + i * c.batchDiv < K := by
          rw [hb', Nat.mod_one]
          have := i.2.trans_eq (hcard it)
          omega
        rw [AD.batchF, dif_pos hlt]
        congr 1
        refine Fin.ext ?_
        simp [hb', Nat.mod_one]
      refine ⟨fun k p => pinv _ _ (Matrix.of (c.batchF 0))ᵀ ⟨k.val, hex' 0 k⟩ p, hcommon _ (hleft 0) ?_⟩
      intro it k p
      have hbat : ∀ it, c.batchF it = fun (i : Fin (c.batch it).card) p => c.F ⟨i.val, i.2.trans_eq (hcard it)⟩ p := by
        intro it
        funext i p
        have hb' : c.batchDiv = 1 := hb
        have hlt : it % c.batchDiv + i * c.batchDiv < K := by
          rw [hb', Nat.mod_one]
          have := i.2.trans_eq (hcard it)
          omega
        rw [AD.batchF, dif_pos hlt]
        congr 1
        refine Fin.ext ?_
        simp [hb', Nat.mod_one]
      have hgen : ∀ (N N' : ℕ) (h : N = K) (h' : N' = K), pinv (rest1.length + 1) N (Matrix.of fun (i : Fin N) p => c.F ⟨i.val, h ▸ i.2⟩ p)ᵀ ⟨k.val, h ▸ k.2⟩ p =
          pinv (rest1.length + 1) N' (Matrix.of fun (i : Fin N') p => c.F ⟨i.val, h' ▸ i.2⟩ p)ᵀ ⟨k.val, h' ▸ k.2⟩ p := by
        rintro N N' rfl rfl; rfl
      have hpos' : (c.pos k).val < (c.batch it).card := by rw [adPos_one c hb]; exact hex' it k
      have hu' : c.usePinv = true := hu
      have hcc : ((c.batch it).card : ℂ) = K := by rw [hcard]
      rw [AD.C, if_pos hu', dif_pos hpos', hcc, hbat, hbat]
      have h5 := hgen (c.batch it).card (c.batch 0).card (hcard it) (hcard 0)
      have h6 : (⟨(c.pos k).val, hpos'⟩ : Fin (c.batch it).card) = ⟨k.val, hex' it k⟩ := Fin.ext (by have := congrArg Fin.val (adPos_one c hb k); exact this)
      rw [h6]
      exact congrArg (fun z => z * (if (p : ℕ) = 0 then 2 else 1) * (c.norm : ℂ) * K) h5
    · subst hK1
      refine ⟨fun k p => star (c.F k p) / ((if (p : ℕ) = 0 then 2 else 1) * (c.norm : ℂ)), hcommon _ ?_ ?_⟩
      · intro k k'
        have hkk : k = k' := Subsingleton.elim _ _
        subst hkk
        rw [if_pos rfl, Fin.sum_univ_succ]
        simp only [hF0, hFs, Fin.val_zero, if_true, Fin.val_succ, Nat.succ_ne_zero, if_false, one_mul]
        have h1 : ∀ p : Fin rest1.length, TB.fi (a.ks k) rest1[p].1 * (star (TB.fi (a.ks k) rest1[p].1) / (c.norm : ℂ)) = 1 / (c.norm : ℂ) := by
          intro p
          rw [mul_div_assoc', mul_comm, fi_norm]
        simp only [h1, Finset.sum_const, Finset.card_univ, Fintype.card_fin, nsmul_eq_mul]
        have h2 : (c.norm : ℂ) = rest1.length + 1 / 8 := by
          rw [AD.norm]; push_cast; ring
        have h3 : (c.norm : ℂ) ≠ 0 := by exact_mod_cast hN
        rw [h2] at h3 ⊢
        rw [show star (1 / 2 : ℂ) = 1 / 2 by simp]
        field_simp
        ring
      · intro it k p
        have hu' : ¬ c.usePinv = true := by show ¬ a.usePinv = true; rw [hu]; simp
        rw [AD.C, if_neg hu']
        have h3 : (c.norm : ℂ) ≠ 0 := by exact_mod_cast hN
        have h4 : (if (p : ℕ) = 0 then (2 : ℂ) else 1) ≠ 0 := by split <;> norm_num
        field_simp
        simp
  obtain ⟨G, hG⟩ := hex
  have hacc' : c.accel = 1 := by
    show adAccel a.usePinv a.batchDiv K a.maxAccel = 1
    rw [hacc, hb, adAccel]
    rcases hind with ⟨hu, -⟩ | ⟨hu, hK1⟩
    · simp [hu]
    · simp [hu, hK1]
  obtain ⟨y, h1, h2⟩ := ad_exact hl.geigh c G hG hK htr hlr hreg hacc' hmono m (arr ((0, Mᴴ * H0 * M) :: rest1))
  obtain ⟨hy0, M2, hM2, h3, -, -⟩ := hrun y h1
  refine ⟨_, M * M2, h3, by rw [det_mul]; exact hMu.mul hM2, ?_, ?_⟩
  · intro k X hX
    have := conj_f (⟨(0, S0) :: srest⟩ : Series d n) (M * M2) k
    rw [hX] at this
    exact this
  rcases h2 with ⟨rfl, -⟩ | h2
  · left
    intro k X hX
    show ((setArr ((0, Mᴴ * H0 * M) :: rest1) (arr ((0, Mᴴ * H0 * M) :: rest1))).conj M2).f k = _
    rw [setArr_arr]
    have := conj_f (⟨(0, H0) :: hrest⟩ : Series d n) (M * M2) k
    rw [← conj_conj, hX] at this
    exact this
  · right
    intro k
    have h4 : fmat c.F y k = valueAt (setArr ((0, Mᴴ * H0 * M) :: rest1) y) (a.ks k) := fmat_coef a.ks _ rest1 y hy0 k
    have h5 : (setArr ((0, Mᴴ * H0 * M) :: rest1) y).f (a.ks k) = .ok (fmat c.F y k) := by
      rw [h4, setArr_cons, valueAt_eq (f_eq _ _ _), f_eq]
    refine ⟨M2ᴴ * fmat c.F y k * M2, M2ᴴ * 1 * M2, ⟨?_, ?_⟩, ?_⟩
    · have := conj_f (setArr ((0, Mᴴ * H0 * M) :: rest1) y) M2 (a.ks k)
      rw [h5] at this
      exact this
    · have h6 := conj_f ((⟨(0, S0) :: srest⟩ : Series d n).conj M) M2 (a.ks k)
      have h7 := conj_f (⟨(0, S0) :: srest⟩ : Series d n) M (a.ks k)
      rw [f_eq] at h7
      rw [h7, conj_conj] at h6
      rw [← hSv k]
      exact h6
    · rw [geigh_unique (hl.geigh _ _ (conj_herm (fmat_herm _ _ _) M2) (conj_posDef PosDef.one hM2)) (geigh_congr (hl.geigh _ _ (fmat_herm c.F y k) PosDef.one) hM2)]
      exact h2 k

/-! ## results and exceptions -/

/-- Root mean square over the samples of the weighted differences. -/
noncomputable def Spec.adLoss (geigh : CMat n → CMat n → (Fin n → ℝ) × CMat n) (a : ADArgs K B d) (t : Tb d n) (off : ℤ)
    (h : 0 ≤ off ∧ off ≤ (n : ℤ) - B) : ℝ :=
  Real.sqrt (∑ k, ∑ b : Fin B, ((a.ref k b - (geigh (valueAt t.H (a.ks k)) (valueAt t.S (a.ks k))).1 ⟨off.toNat + b, by omega⟩) * a.bw b) ^ 2) /
    Real.sqrt K

theorem ad_band (hl : Spec.LibOk lib) (N H S : CMat n) (hN : IsUnit N.det) (hH : H.IsHermitian) (hS : S.PosDef) :
    (lib.geigh (Nᴴ * H * N) (Nᴴ * S * N)).1 = (lib.geigh H S).1 :=
  geigh_unique (hl.geigh _ _ (conj_herm hH N) (conj_posDef hS hN)) (geigh_congr (hl.geigh H S hH hS) hN)

/-- The loss of the loop before the first change is that of the model. -/
theorem ad_first_loss (hl : Spec.LibOk lib) (a : ADArgs K B d) (H0 S0 : CMat n) (hrest srest : List (RVec d × CMat n)) (hH0 : H0.IsHermitian)
    (off : ℤ) (hoff : 0 ≤ off ∧ off ≤ (n : ℤ) - B) (M : CMat n) (hM : IsUnit M.det) (hS : ∀ k, (TB.Spec.value S0 srest (a.ks k)).PosDef) :
    (adOf a pinv (H0 :: hrest.map Prod.snd) (Mᴴ * H0 * M) (hrest.map fun y => (y.1, Mᴴ * y.2 * M))
      (fun k => Mᴴ * TB.Spec.value S0 srest (a.ks k) * M) fun b => ⟨off.toNat + b, by omega⟩).loss lib.geigh
      (arr ((0, Mᴴ * H0 * M) :: hrest.map fun y => (y.1, Mᴴ * y.2 * M))) =
    Spec.adLoss lib.geigh a ⟨⟨(0, H0) :: hrest⟩, ⟨(0, S0) :: srest⟩⟩ off hoff := by
  rw [AD.loss, Spec.adLoss]
  congr 2
  refine Finset.sum_congr rfl fun k _ => Finset.sum_congr rfl fun b _ => ?_
  have h9 : fmat (coef a.ks ((0, Mᴴ * H0 * M) :: hrest.map fun y => (y.1, Mᴴ * y.2 * M)))
      (arr ((0, Mᴴ * H0 * M) :: hrest.map fun y => (y.1, Mᴴ * y.2 * M))) k = Mᴴ * TB.Spec.value H0 hrest (a.ks k) * M := by
    erw [fmat_coef a.ks _ _ _ (conj_herm hH0 M) k]
    rw [setArr_arr]
    exact (valueAt_conj ⟨(0, H0) :: hrest⟩ M (a.ks k)).trans (by rw [valueAt_eq (f_eq _ _ _)])
  simp only [adOf]
  erw [h9]
  rw [ad_band hl M _ _ hM (value_herm hH0 _ _) (hS k), valueAt_eq (f_eq _ _ _), valueAt_eq (f_eq _ _ _)]

/-- C101.  Without iterations, or with a loss below the threshold, the call only changes the basis: the bands are kept everywhere. -/
theorem C101_kept (hl : Spec.LibOk lib) (hK : K ≠ 0) (hB : B ≠ 0) (t : Tb d n) (ht : Spec.Good t) (a : ADArgs K B d) (off : ℤ)
    (hoff : 0 ≤ off ∧ off ≤ (n : ℤ) - B) (hS : ∀ k X, t.S.f (a.ks k) = .ok X → X.PosDef) (m : ℕ)
    (hfit : m = 0 ∨ a.trainS = false ∧ a.batchDiv ≠ 0 ∧ a.reg = 1 ∧ Spec.adLoss lib.geigh a t off hoff < a.thr) :
    ∃ (t' : Tb d n) (M : CMat n), tbOptimize lib pinv t a off m = .ok t' ∧ IsUnit M.det ∧
      ∀ k H S, TB.Spec.At t k H S → TB.Spec.At t' k (Mᴴ * H * M) (Mᴴ * S * M) ∧
        (S.PosDef → (lib.geigh (Mᴴ * H * M) (Mᴴ * S * M)).1 = (lib.geigh H S).1) := by
  obtain ⟨H0, hrest, S0, srest, rfl, hH0, hS0, hpos⟩ := ht.cases
  obtain ⟨M, hMu, hM1, -, -, hrun⟩ := ad_form hl pinv a H0 S0 hrest srest hH0 hS0 hpos hK hB off hoff m
  obtain ⟨-, M2, hM2, h6, -, -⟩ := hrun (arr ((0, Mᴴ * H0 * M) :: hrest.map fun y => (y.1, Mᴴ * y.2 * M))) (by
    rcases hfit with rfl | ⟨h1, h2, h3, h4⟩
    · rfl
    · cases m with
      | zero => rfl
      | succ m =>
        refine ad_run_stop _ hK h2 h1 h3 m 0 _ ?_
        exact lt_of_eq_of_lt (ad_first_loss hl a H0 S0 hrest srest hH0 off hoff M hMu fun k => hS k _ (f_eq _ _ _)) h4)
  rw [setArr_arr] at h6
  refine ⟨_, M * M2, h6, by rw [det_mul]; exact hMu.mul hM2, ?_⟩
  intro k H S hHS
  refine ⟨⟨?_, ?_⟩, fun hp => ad_band hl _ _ _ (by rw [det_mul]; exact hMu.mul hM2) ?_ hp⟩
  · have := conj_f (⟨(0, H0) :: hrest⟩ : Series d n) (M * M2) k
    rw [← conj_conj, hHS.1] at this
    exact this
  · have := conj_f (⟨(0, S0) :: srest⟩ : Series d n) (M * M2) k
    rw [hHS.2] at this
    exact this
  · have h9 := hHS.1
    rw [f_eq] at h9
    rw [← Except.ok.inj h9]
    exact value_herm hH0 _ _

/-- C101.  A call with `train_S=False`, a valid offset, at least one band, a number of batches from 1 to the number of samples and an acceleration that is not zero succeeds.  The result has the same
neighbours, the overlap changed by a basis only, the identity as overlap at zero, a diagonal Hamiltonian at zero and a hermitian one everywhere. -/
theorem C101_result (hl : Spec.LibOk lib) (hK : K ≠ 0) (hB : B ≠ 0) (t : Tb d n) (ht : Spec.Good t) (a : ADArgs K B d) (off : ℤ)
    (hoff : 0 ≤ off ∧ off ≤ (n : ℤ) - B) (htr : a.trainS = false) (hb : a.batchDiv ≠ 0) (hbK : a.batchDiv ≤ K) (hacc : a.maxAccel ≠ some 0) (m : ℕ) :
    ∃ (t' : Tb d n) (M : CMat n), tbOptimize lib pinv t a off m = .ok t' ∧ t'.H.terms.map Prod.fst = t.H.terms.map Prod.fst ∧ IsUnit M.det ∧
      (∀ k X, t.S.f k = .ok X → t'.S.f k = .ok (Mᴴ * X * M)) ∧ t'.S.f 0 = .ok 1 ∧ (∃ D, t'.H.f 0 = .ok D ∧ IsDiag D) ∧
      ∀ k, ∃ X, t'.H.f k = .ok X ∧ X.IsHermitian := by
  obtain ⟨H0, hrest, S0, srest, rfl, hH0, hS0, hpos⟩ := ht.cases
  obtain ⟨M, hMu, hM1, -, -, hrun⟩ := ad_form hl pinv a H0 S0 hrest srest hH0 hS0 hpos hK hB off hoff m
  have hsucc : ∀ (c : AD K ((hrest.map fun y => (y.1, Mᴴ * y.2 * M)).length + 1) n B), c.trainS = false → c.batchDiv ≠ 0 → c.batchDiv ≤ K → c.accel ≠ 0 →
      ∀ m it ll l x, ∃ y, c.run lib.geigh m it ll l x = .ok y := by
    intro c h1 h2 h3 h4 m
    induction m with
    | zero => intro it ll l x; exact ⟨x, rfl⟩
    | succ m ih =>
      intro it ll l x
      have hne := adBatch_ne c h2 h3 it
      rw [ad_run_succ, if_neg h2, if_neg (by rw [h1]; simp), if_neg hne]
      split
      · exact ⟨_, rfl⟩
      · rw [if_neg]
        · exact ih _ _ _ _
        · rw [AD.maxAccel]
          have h5 : ((c.batch it).card : ℝ) ≠ 0 := by
            have := Finset.card_ne_zero.2 (Finset.nonempty_iff_ne_empty.2 hne)
            exact_mod_cast this
          rcases min_choice ((c.batch it).card : ℝ) c.accel with h | h <;> rw [h] <;> assumption
  obtain ⟨x, hx⟩ := hsucc (adOf a pinv (H0 :: hrest.map Prod.snd) (Mᴴ * H0 * M) (hrest.map fun y => (y.1, Mᴴ * y.2 * M))
    (fun k => Mᴴ * TB.Spec.value S0 srest (a.ks k) * M) fun b => ⟨off.toNat + b, by omega⟩) htr hb hbK (by
      show adAccel a.usePinv a.batchDiv K a.maxAccel ≠ 0
      cases h : a.maxAccel with
      | none =>
        rw [adAccel]
        split
        · exact one_ne_zero
        · exact_mod_cast hK
      | some r =>
        rw [adAccel]
        intro h0
        exact hacc (by rw [h, h0])) m 0 none 0 (arr ((0, Mᴴ * H0 * M) :: hrest.map fun y => (y.1, Mᴴ * y.2 * M)))
  obtain ⟨hx0, M2, hM2, h6, h7, h8⟩ := hrun x hx
  refine ⟨_, M * M2, h6, ?_, by rw [det_mul]; exact hMu.mul hM2, ?_, h7, h8, ?_⟩
  · simp only [setArr_cons, Series.conj, List.map_map, List.map_cons]
    congr 1
    refine List.ext_getElem (by simp) ?_
    intro i h9 h10
    simp
  · intro k X hX
    have := conj_f (⟨(0, S0) :: srest⟩ : Series d n) (M * M2) k
    rw [hX] at this
    exact this
  · intro k
    have h9 : (setArr ((0, Mᴴ * H0 * M) :: hrest.map fun y => (y.1, Mᴴ * y.2 * M)) x).f k = .ok (TB.Spec.value (x 0)
        (List.ofFn fun p : Fin (hrest.map fun y => (y.1, Mᴴ * y.2 * M)).length => ((hrest.map fun y => (y.1, Mᴴ * y.2 * M))[p].1, x p.succ)) k) := by
      rw [setArr_cons, f_eq]
    have := conj_f (setArr ((0, Mᴴ * H0 * M) :: hrest.map fun y => (y.1, Mᴴ * y.2 * M)) x) M2 k
    rw [h9] at this
    exact ⟨_, this, conj_herm (value_herm hx0 _ k) M2⟩

/-- C101.  The exceptions: no samples or no matrices; an invalid offset; `batch_div=0`; more batches than samples (fewer than 100), if the iterations reach an empty batch and the first loss is not
below the threshold. -/
theorem C101_errors (hl : Spec.LibOk lib) (t : Tb d n) (a : ADArgs K B d) (off : ℤ) (m : ℕ) :
    (K = 0 ∨ t.H.terms = [] → tbOptimize lib pinv t a off m = .error .indexError) ∧
    (K ≠ 0 → t.H.terms ≠ [] → ¬ (0 ≤ off ∧ off ≤ (n : ℤ) - B) → tbOptimize lib pinv t a off m = .error .assertionError) ∧
    (K ≠ 0 → B ≠ 0 → 0 ≤ off ∧ off ≤ (n : ℤ) - B → Spec.Good t → a.batchDiv = 0 → tbOptimize lib pinv t a off (m + 1) = .error .zeroDivision) ∧
    (∀ h : 0 ≤ off ∧ off ≤ (n : ℤ) - B, K ≠ 0 → B ≠ 0 → Spec.Good t → (∀ k X, t.S.f (a.ks k) = .ok X → X.PosDef) → a.trainS = false → K < a.batchDiv → K < 100 → K < m → a.reg = 1 →
      a.maxAccel = none → a.thr ≤ Spec.adLoss lib.geigh a t off h → tbOptimize lib pinv t a off m = .error .indexError) := by
  refine ⟨?_, ?_, ?_, ?_⟩
  · intro h
    rw [tbOptimize, if_pos h]
  · intro hK ht h
    rw [tbOptimize, if_neg (by simp [hK, ht]), dif_neg h]
  · intro hK hB hoff ht h0
    obtain ⟨H0, hrest, S0, srest, rfl, hH0, hS0, hpos⟩ := ht.cases
    obtain ⟨M, -, -, -, hrun, -⟩ := ad_form hl pinv a H0 S0 hrest srest hH0 hS0 hpos hK hB off hoff (m + 1)
    exact hrun _ (ad_run_zero _ h0 _ _ _ _ _)
  · intro hoff hK hB ht hS htr hd h100 hm hreg hacc hthr
    obtain ⟨H0, hrest, S0, srest, rfl, hH0, hS0, hpos⟩ := ht.cases
    obtain ⟨M, hMu, -, -, hrun, -⟩ := ad_form hl pinv a H0 S0 hrest srest hH0 hS0 hpos hK hB off hoff m
    refine hrun _ ?_
    have hfirst := ad_first_loss (pinv := pinv) hl a H0 S0 hrest srest hH0 off hoff M hMu fun k => hS k _ (f_eq _ _ _)
    set rest1 := hrest.map fun y => (y.1, Mᴴ * y.2 * M) with hrest1
    set c := adOf a pinv (H0 :: hrest.map Prod.snd) (Mᴴ * H0 * M) rest1 (fun k => Mᴴ * TB.Spec.value S0 srest (a.ks k) * M)
      fun b => ⟨off.toNat + b, by omega⟩ with hc
    have hbd : c.batchDiv = a.batchDiv := rfl
    have hregd := adReg_one c hreg
    have htr' : ¬ c.trainS = true := by show ¬ a.trainS = true; rw [htr]; simp
    have hmem : ∀ it, it ≤ K → ∀ k, k ∈ c.batch it ↔ k.1 = it := by
      intro it hit k
      have := k.2
      rw [AD.batch, Finset.mem_filter, hbd, Nat.mod_eq_of_lt (by omega), Nat.mod_eq_of_lt (by omega)]
      simp
    have hcard : ∀ it, it < K → (c.batch it).card = 1 := by
      intro it hit
      rw [Finset.card_eq_one]
      refine ⟨⟨it, hit⟩, ?_⟩
      ext k
      rw [hmem it hit.le, Finset.mem_singleton, Fin.ext_iff]
    have hrun : ∀ j it ll l x, it + j = K → (it = 0 → ll = none ∧ x = arr ((0, Mᴴ * H0 * M) :: rest1)) →
        ∀ r, c.run lib.geigh (j + 1 + r) it ll l x = .error .indexError := by
      intro j
      induction j with
      | zero =>
        intro it ll l x h1 _ r
        rw [show 0 + 1 + r = r + 1 by omega, ad_run_succ, if_neg (by rw [hbd]; omega), if_neg htr', if_pos]
        ext k
        rw [hmem it (by omega)]
        have := k.2
        simp; omega
      | succ j ih =>
        intro it ll l x h1 h2 r
        rw [show j + 1 + 1 + r = (j + 1 + r) + 1 by omega, ad_run_succ, if_neg (by rw [hbd]; omega), if_neg htr', if_neg, if_neg, if_neg]
        · exact ih (it + 1) _ _ _ (by omega) (by omega) r
        · rw [AD.maxAccel, hcard it (by omega)]
          have : c.accel = K := by
            show adAccel a.usePinv a.batchDiv K a.maxAccel = K
            rw [hacc, adAccel, if_neg (by omega)]
          rw [this, Nat.cast_one, min_eq_left]
          · exact one_ne_zero
          · exact_mod_cast Nat.one_le_iff_ne_zero.2 hK
        · rintro ⟨h3, h4⟩
          rcases h3 with h3 | h3
          · have h5 : it = 0 := by omega
            obtain ⟨rfl, rfl⟩ := h2 h5
            rw [hregd, stop] at h4
            simp only [Bool.false_or, decide_eq_true_eq] at h4
            rw [hfirst] at h4
            exact absurd h4 (not_lt.2 hthr)
          · rw [hbd] at h3; omega
        · refine Finset.ne_empty_of_mem (a := (⟨it, by omega⟩ : Fin K)) ?_
          rw [hmem it (by omega)]
    have := hrun K 0 none 0 _ (by omega) (fun _ => ⟨rfl, rfl⟩) (m - (K + 1))
    rwa [show K + 1 + (m - (K + 1)) = m by omega] at this

/-- C101, defect.  `train_S=True` raises `UnboundLocalError`, a `NameError`, in the first iteration of every call that reaches it. -/
theorem C101_train_S_defect (hl : Spec.LibOk lib) (hK : K ≠ 0) (hB : B ≠ 0) (t : Tb d n) (ht : Spec.Good t) (a : ADArgs K B d) (off : ℤ)
    (hoff : 0 ≤ off ∧ off ≤ (n : ℤ) - B) (htr : a.trainS = true) (hb : a.batchDiv ≠ 0) (m : ℕ) :
    tbOptimize lib pinv t a off (m + 1) = .error .nameError := by
  obtain ⟨H0, hrest, S0, srest, rfl, hH0, hS0, hpos⟩ := ht.cases
  obtain ⟨M, -, -, -, hrun, -⟩ := ad_form hl pinv a H0 S0 hrest srest hH0 hS0 hpos hK hB off hoff (m + 1)
  exact hrun _ (ad_run_trainS _ hb htr _ _ _ _ _)

/-! ## `keep_zeros` -/

theorem diag_eigvec {lib : Lib 2} (hl : Spec.LibOk lib) (D : CMat 2) (hD : IsDiag D) (hDh : D.IsHermitian) (hdet : D 0 0 * D 1 1 = -1) (b i j : Fin 2)
    (hij : i ≠ j) : (lib.geigh D 1).2 i b * star ((lib.geigh D 1).2 j b) = 0 := by
  have hg := hl.geigh D 1 hDh PosDef.one
  set e := (lib.geigh D 1).1 with he
  set V := (lib.geigh D 1).2 with hV
  have hVV : Vᴴ * V = 1 := by simpa [rot] using hg.norm
  have hVV' : V * Vᴴ = 1 := mul_eq_one_comm.1 hVV
  have hDV : D * V = V * diagonal fun i => (e i : ℂ) := by
    rw [← hg.diag, rot, ← Matrix.mul_assoc, ← Matrix.mul_assoc, hVV', Matrix.one_mul]
  have hrow : ∀ i b, D i i * V i b = V i b * (e b : ℂ) := by
    intro i b
    have h10 := congrFun (congrFun hDV i) b
    rw [mul_diagonal, mul_apply, Finset.sum_eq_single i (fun j _ hj => by rw [hD (Ne.symm hj), zero_mul]) (by simp)] at h10
    exact h10
  by_contra h10
  have h11 : V i b ≠ 0 := fun h => h10 (by rw [h, zero_mul])
  have h12 : V j b ≠ 0 := fun h => h10 (by rw [h, star_zero, mul_zero])
  have h13 : D i i = e b := mul_right_cancel₀ h11 ((hrow i b).trans (mul_comm _ _))
  have h14 : D j j = e b := mul_right_cancel₀ h12 ((hrow j b).trans (mul_comm _ _))
  have h15 : D i i * D j j = -1 := by
    fin_cases i <;> fin_cases j
    · exact absurd rfl hij
    · exact hdet
    · exact (mul_comm _ _).trans hdet
    · exact absurd rfl hij
  rw [h13, h14, ← Complex.ofReal_mul] at h15
  have h16 : e b * e b = -1 := by exact_mod_cast h15
  nlinarith [mul_self_nonneg (e b)]

/-- C101, defect.  The mask of `keep_zeros` is computed before `normalize()` changes the basis.  A model with the bands `±1` and zeros on the diagonal keeps these bands at every k point in
every successful call with `keep_zeros=True`, whatever the samples, the reference, the number of iterations and the other options are: nothing is fitted. -/
theorem C101_keep_zeros_defect {lib : Lib 2} (hl : Spec.LibOk lib) (hK : K ≠ 0) (hB : B ≠ 0) (a : ADArgs K B 1) (hz : a.keepZeros = true) (off : ℤ)
    (hoff : 0 ≤ off ∧ off ≤ (2 : ℤ) - B) (m : ℕ) (t' : Tb 1 2) (h : tbOptimize lib pinv exKz a off m = .ok t') (k : RVec 1) :
    ∃ H S : CMat 2, TB.Spec.At t' k H S ∧ (lib.geigh H S).1 = ![-1, 1] := by
  have hX : exFlip.IsHermitian := by
    ext i j; fin_cases i <;> fin_cases j <;> simp [exFlip]
  obtain ⟨M, hMu, h7, ⟨D, hD1, hD2⟩, herr, hrun⟩ := ad_form hl pinv a exFlip 1 [] [] hX isHermitian_one
    (by simp [TB.Spec.value]; exact PosDef.one) hK hB off hoff m
  have hMM : Mᴴ * 1 * M = 1 := by
    rw [conj_f, f_eq] at h7
    simpa [Except.map, TB.Spec.value] using h7
  have hD : Mᴴ * exFlip * M = D := by
    rw [conj_f, f_eq] at hD1
    simpa [Except.map, TB.Spec.value] using hD1
  have hdet : D 0 0 * D 1 1 = -1 := by
    have h9 : D.det = -1 := by
      have h10 := congrArg det hMM
      rw [Matrix.mul_one, det_mul, det_one] at h10
      rw [← hD, det_mul, det_mul, mul_right_comm, h10, one_mul]
      simp [exFlip, det_fin_two]
    rw [det_fin_two, hD2 (show (0 : Fin 2) ≠ 1 by decide), zero_mul, sub_zero] at h9
    exact h9
  have hDh : D.IsHermitian := by rw [← hD]; exact conj_herm hX M
  let c : AD K 1 2 B := adOf a pinv [exFlip] (Mᴴ * exFlip * M) [] (fun k => Mᴴ * TB.Spec.value 1 [] (a.ks k) * M) fun b => ⟨off.toNat + b, by omega⟩
  let y : Par 1 2 := arr [((0 : RVec 1), Mᴴ * exFlip * M)]
  have hy0 : y 0 = D := hD
  have hfm : ∀ k : Fin K, fmat c.F y k = D := by
    intro k
    have h1 : fmat c.F y k = valueAt (setArr [((0 : RVec 1), Mᴴ * exFlip * M)] y) (a.ks k) := fmat_coef a.ks _ [] y (conj_herm hX M) k
    rw [h1, setArr_arr, valueAt_eq (f_eq _ _ _), hD]
    simp [TB.Spec.value]
  have hSv : ∀ k, c.S k = 1 := by
    intro k
    show Mᴴ * TB.Spec.value (1 : CMat 2) [] (a.ks k) * M = 1
    simpa [TB.Spec.value] using hMM
  have hmask : ∀ it, quarter0 (c.mask (c.grad lib.geigh it y)) = 0 := by
    intro it
    have h1 : c.mask (c.grad lib.geigh it y) = 0 := by
      funext p
      ext i j
      have h2 : c.mask (c.grad lib.geigh it y) = mask [exFlip] (c.grad lib.geigh it y) := if_pos hz
      rw [h2, mask, of_apply]
      by_cases hij : i = j
      · rw [if_pos, mul_zero]; rfl
        subst hij
        fin_cases p
        fin_cases i <;> simp [exFlip] <;> norm_num
      · have h3 : c.grad lib.geigh it y p i j = 0 := by
          rw [AD.grad, Matrix.sum_apply]
          refine Finset.sum_eq_zero fun k _ => ?_
          rw [Matrix.sum_apply]
          refine Finset.sum_eq_zero fun b _ => ?_
          rw [Matrix.smul_apply, outer, vecMulVec_apply, Pi.star_apply, AD.vec, AD.vec, AD.sol, hfm, hSv, diag_eigvec hl D hD2 hDh hdet _ i j hij, smul_zero]
        rw [h3, zero_mul]; rfl
    rw [h1]
    funext p
    simp [quarter0]
  have hconst : ∀ m it ll z, c.run lib.geigh m it ll 0 y = .ok z → z = y := by
    intro m it ll z hz
    obtain ⟨l, h1, -⟩ := ad_inv c (fun z l => z = y ∧ l = 0) (by
      rintro z l ⟨rfl, rfl⟩
      refine ⟨?_, rfl⟩
      funext p
      have : p = 0 := Subsingleton.elim _ _
      simp [AD.regd, this]) (by
      rintro it z l ⟨rfl, rfl⟩
      have : c.add lib.geigh it y 0 = 0 := by rw [AD.add, hmask, smul_zero, smul_zero, add_zero]
      rw [this]
      exact ⟨add_zero _, rfl⟩) m it ll 0 y z ⟨rfl, rfl⟩ hz
    exact h1
  cases hr : c.run lib.geigh m 0 none 0 y with
  | error e =>
    rw [show tbOptimize lib pinv exKz a off m = .error e from herr e hr] at h
    cases h
  | ok z =>
    obtain ⟨-, M2, hM2, h6, -, -⟩ := hrun z hr
    have h1 := hconst m 0 none z hr
    subst h1
    rw [show tbOptimize lib pinv exKz a off m = _ from h6] at h
    have h2 := Except.ok.inj h
    subst h2
    have hu : IsUnit (M * M2).det := by rw [det_mul]; exact hMu.mul hM2
    refine ⟨(M * M2)ᴴ * exFlip * (M * M2), (M * M2)ᴴ * 1 * (M * M2), ⟨?_, ?_⟩, ?_⟩
    · have h3 := conj_f (⟨[(0, exFlip)]⟩ : Series 1 2) (M * M2) k
      rw [← conj_conj, f_eq] at h3
      show ((setArr [((0 : RVec 1), Mᴴ * exFlip * M)] (arr [((0 : RVec 1), Mᴴ * exFlip * M)])).conj M2).f k = _
      rw [setArr_arr]
      simpa [TB.Spec.value, Except.map, Series.conj] using h3
    · have h3 := conj_f (⟨[(0, 1)]⟩ : Series 1 2) (M * M2) k
      rw [f_eq] at h3
      simpa [TB.Spec.value, Except.map] using h3
    · rw [ad_band hl _ _ _ hu hX PosDef.one]
      have hs : (1 : ℂ) / (Real.sqrt 2 : ℝ) * (1 / (Real.sqrt 2 : ℝ)) = 1 / 2 := by
        rw [div_mul_div_comm, one_mul, ← Complex.ofReal_mul, Real.mul_self_sqrt (by norm_num)]
        norm_num
      refine geigh_unique (hl.geigh _ _ hX PosDef.one) (W := (1 / (Real.sqrt 2 : ℝ) : ℂ) • !![1, 1; -1, 1]) ⟨?_, ?_, ?_⟩
      · ext i j
        rw [rot, Matrix.mul_one, conjTranspose_smul, smul_mul_smul_comm]
        have : star (1 / (Real.sqrt 2 : ℝ) : ℂ) = 1 / (Real.sqrt 2 : ℝ) := by simp
        rw [this, hs]
        fin_cases i <;> fin_cases j <;> simp [Matrix.mul_apply, Fin.sum_univ_two] <;> norm_num
      · ext i j
        rw [rot, Matrix.mul_smul, conjTranspose_smul, Matrix.smul_mul, Matrix.smul_mul, smul_smul]
        have : star (1 / (Real.sqrt 2 : ℝ) : ℂ) = 1 / (Real.sqrt 2 : ℝ) := by simp
        rw [this, hs]
        fin_cases i <;> fin_cases j <;> simp [exFlip, Matrix.mul_apply, Fin.sum_univ_two] <;> norm_num
      · intro i j hij
        fin_cases i <;> fin_cases j <;> simp_all

/-! ## batches -/

theorem geigh_scalar (hg : Spec.GeighOk (n := 1) geigh1) (X S : CMat 1) (hX : X.IsHermitian) (s : ℝ) (hs : 0 < s) (hS : S = (s : ℂ) • 1) :
    ((geigh1 X S).1 0 : ℂ) * s = X 0 0 ∧ (s : ℂ) * outer (fun i => (geigh1 X S).2 i 0) 0 0 = 1 := by
  have hp : S.PosDef := by
    rw [hS]
    exact PosDef.one.smul (by exact_mod_cast hs)
  have h := hg X S hX hp
  have h1 := congrFun (congrFun h.norm 0) 0
  have h2 := congrFun (congrFun h.diag 0) 0
  generalize hV : (geigh1 X S).2 = V at h1 h2
  rw [rot, hS] at h1
  simp only [rot, Matrix.mul_apply, Finset.univ_unique, Finset.sum_singleton, Fin.default_eq_zero, conjTranspose_apply, Matrix.smul_apply, one_apply_eq,
    diagonal_apply_eq, smul_eq_mul, mul_one] at h1 h2
  refine ⟨?_, ?_⟩
  · rw [← h2]
    linear_combination (X 0 0) * h1
  · rw [outer, vecMulVec_apply, Pi.star_apply]
    linear_combination h1

/-- One step for one orbital, one neighbour and two samples in two batches: the Hamiltonian becomes the reference of the batch, as if the overlap were the one of the first sample. -/
theorem ad_scalar_step (hg : Spec.GeighOk (n := 1) geigh1) (c : AD 2 1 1 1) (hF : ∀ k p, c.F k p = 1 / 2) (hS : c.S 0 = 1) (hb : c.batchDiv = 2) (hlr : c.lr = 1)
    (hu : c.usePinv = true) (hm : ∀ x, c.mask x = x) (hbw : ∀ b, c.bw b = 1) (hpi : Spec.RectPinv c.pinv) (hacc : c.accel = 2) (it : ℕ) (x l : Par 1 1)
    (hx : (x 0).IsHermitian) : (x + c.add geigh1 it x l) 0 0 0 = c.ref ⟨it % 2, Nat.mod_lt _ (by norm_num)⟩ 0 := by
  set k : Fin 2 := ⟨it % 2, Nat.mod_lt _ (by norm_num)⟩ with hk
  have hbat : c.batch it = {k} := by
    ext j
    have := j.2
    rw [AD.batch, Finset.mem_filter, hb, Nat.mod_eq_of_lt j.2, Finset.mem_singleton, Fin.ext_iff]
    simp [hk]
  have hcard : (c.batch it).card = 1 := by rw [hbat, Finset.card_singleton]
  have hpos : c.pos k = 0 := by
    refine Fin.ext ?_
    show k.val / c.batchDiv = 0
    rw [hb]
    exact Nat.div_eq_of_lt k.2
  have hnorm : c.norm = 1 / 8 := by rw [AD.norm]; norm_num
  have hC : c.C it k 0 = 1 / 2 := by
    have hp : (c.pos k).val < (c.batch it).card := by rw [hpos, hcard]; exact Nat.one_pos
    have hp0 : (0 : Fin 1).val < (c.batch it).card := by rw [hcard]; exact Nat.one_pos
    have h1 := pinv_cast hpi (fun (_ : Fin 1) (_ : Fin 1) => (1 / 2 : ℂ)) (by
      intro y hy
      funext i
      have := hy 0
      have hi : i = 0 := Subsingleton.elim _ _
      subst hi
      simpa using this) hcard (c.batchF it) (fun i p => by
        have hlt : it % c.batchDiv + i * c.batchDiv < 2 := by
          have := i.2.trans_eq hcard
          rw [hb, show i.val = 0 by omega]
          omega
        rw [AD.batchF, dif_pos hlt, hF]) 0 0 hp0
    have hcc : ((c.batch it).card : ℂ) = 1 := by rw [hcard, Nat.cast_one]
    have h6 : (⟨(c.pos k).val, hp⟩ : Fin (c.batch it).card) = ⟨(0 : Fin 1).val, hp0⟩ := Fin.ext (by simp [hpos])
    rw [AD.C, if_pos hu, dif_pos hp, hcc, h6, hnorm]
    simp only [Finset.univ_unique, Finset.sum_singleton, Fin.default_eq_zero, if_true] at h1
    rw [if_pos (show ((0 : Fin 1) : ℕ) = 0 from rfl)]
    push_cast
    linear_combination (1 / 2 : ℂ) * h1
  have hf : fmat c.F x k = x 0 := by
    rw [fmat]
    simp only [Finset.univ_unique, Finset.sum_singleton, Fin.default_eq_zero, hF]
    rw [conjTranspose_smul, hx.eq]
    have : star (1 / 2 : ℂ) = 1 / 2 := by simp
    rw [this]
    module
  obtain ⟨h1, h2⟩ := geigh_scalar hg (x 0) (c.S 0) hx 1 one_pos (by rw [hS]; simp)
  have hw : c.win 0 = 0 := Subsingleton.elim _ _
  have hg0 : c.grad geigh1 it x 0 0 0 = 4 * ((c.ref k 0 : ℂ) - x 0 0 0) := by
    rw [AD.grad, hbat, Finset.sum_singleton]
    simp only [Finset.univ_unique, Finset.sum_singleton, Fin.default_eq_zero]
    have hv : c.vec geigh1 x k 0 = fun i => (geigh1 (x 0) (c.S 0)).2 i 0 := by
      funext i
      rw [AD.vec, AD.sol, hf, hpos, hw]
    rw [Matrix.smul_apply, hv, hC, AD.weighted, AD.diff, AD.sol, hf, hpos, hw, hnorm, hbw, smul_eq_mul]
    push_cast at h1 h2 ⊢
    rw [← h1]
    linear_combination (4 * ((c.ref k 0 : ℂ) - ((geigh1 (x 0) (c.S 0)).1 0 : ℂ))) * h2
  have hal : c.alpha it = 1 / 2 := by
    rw [AD.alpha, hcard]
    simp only [hbw]
    norm_num
  have hma : c.maxAccel it = 1 := by
    rw [AD.maxAccel, hcard, hacc]
    norm_num
  have hreal : star (x 0 0 0) = x 0 0 0 := congrFun (congrFun hx.eq 0) 0
  rw [Pi.add_apply, Matrix.add_apply, AD.add, hm, hlr, hal, hma, Pi.add_apply, Pi.smul_apply, Pi.smul_apply, Matrix.add_apply, Matrix.smul_apply, Matrix.smul_apply]
  simp only [quarter0, Fin.val_zero, if_true]
  rw [Matrix.smul_apply, Matrix.add_apply, conjTranspose_apply, hg0]
  rw [star_mul', star_sub, hreal]
  have h4 : star (4 : ℂ) = 4 := by simp
  have hr : star (c.ref k 0 : ℂ) = c.ref k 0 := Complex.conj_ofReal _
  rw [h4, hr, Complex.real_smul, Complex.real_smul, smul_eq_mul]
  push_cast
  ring

/-- One orbital with energy `11/10`, the overlap is `1` at zero and `1/2` at the edge. -/
noncomputable def exBatch : Tb 1 1 := ⟨⟨[(0, (11 / 10 : ℂ) • 1)]⟩, ⟨[(0, (3 / 4 : ℂ) • 1), (![1], (1 / 8 : ℂ) • 1)]⟩⟩

/-- Two batches, all other options as default. -/
noncomputable def exBatchArgs : ADArgs 2 1 1 := ⟨![0, ![1 / 2]], ![![1], ![2]], fun _ => 1, 2, 1, false, true, none, 1, false, 1e-3, 1e-16⟩

theorem exBatch_S (k : RVec 1) : TB.Spec.value ((3 / 4 : ℂ) • (1 : CMat 1)) [(![1], (1 / 8 : ℂ) • 1)] k =
    ((3 / 4 + 1 / 4 * Real.cos (2 * Real.pi * k 0) : ℝ) : ℂ) • 1 := by
  have h1 : k ⬝ᵥ ![1] = k 0 := by simp [dotProduct]
  have h2 : (2 * Real.pi * Complex.I * ((k 0 : ℝ) : ℂ)) = ((2 * Real.pi * k 0 : ℝ) : ℂ) * Complex.I := by push_cast; ring
  simp only [TB.Spec.value, List.map_cons, List.map_nil, List.sum_cons, List.sum_nil, add_zero, h1, h2]
  rw [smul_smul, conjTranspose_smul, conjTranspose_one, ← add_smul, ← add_smul]
  congr 1
  set z := Complex.exp (((2 * Real.pi * k 0 : ℝ) : ℂ) * Complex.I) with hz
  have h3 : z.re = Real.cos (2 * Real.pi * k 0) := Complex.exp_ofReal_mul_I_re _
  have h4 : z + star z = ((2 * z.re : ℝ) : ℂ) := Complex.add_conj z
  have h5 : star (1 / 8 : ℂ) = 1 / 8 := by
    rw [show (1 / 8 : ℂ) = ((1 / 8 : ℝ) : ℂ) by push_cast; rfl, Complex.star_def, Complex.conj_ofReal]
  rw [star_mul', h5, ← h3]
  push_cast at h4 ⊢
  linear_combination (1 / 8 : ℂ) * h4

/-- C101, defect.  With more than one batch the Hamiltonians of a batch are paired with the overlaps of the first samples.  The model `exBatch` has the bands `11/10` and `11/5` at the two samples and the
reference `1`, `2` is met by energy `1`; but with two batches and any even number of iterations that is not zero the result has the bands `2` and `4`. -/
theorem C101_batch_overlap_defect {lib : Lib 1} (hl : Spec.LibOk lib) (hpi : Spec.RectPinv pinv) (j : ℕ) :
    (∀ k, ∃ H S, TB.Spec.At exBatch (exBatchArgs.ks k) H S ∧ (lib.geigh H S).1 = fun _ => 11 / 10 * exBatchArgs.ref k 0) ∧
    (∀ k, ∃ H S, TB.Spec.At ⟨⟨[(0, 1)]⟩, exBatch.S⟩ (exBatchArgs.ks k) H S ∧ (lib.geigh H S).1 = exBatchArgs.ref k) ∧
    ∃ t', tbOptimize lib pinv exBatch exBatchArgs 0 (2 * j + 2) = .ok t' ∧
      ∀ k, ∃ H S, TB.Spec.At t' (exBatchArgs.ks k) H S ∧ (lib.geigh H S).1 = fun _ => 2 * exBatchArgs.ref k 0 := by
  have hSk : ∀ k, TB.Spec.value ((3 / 4 : ℂ) • (1 : CMat 1)) [(![1], (1 / 8 : ℂ) • 1)] (exBatchArgs.ks k) = ((1 / exBatchArgs.ref k 0 : ℝ) : ℂ) • 1 := by
    intro k
    rw [exBatch_S]
    fin_cases k
    · norm_num [exBatchArgs]
    · have : Real.cos (2 * Real.pi * (1 / 2)) = -1 := by rw [show 2 * Real.pi * (1 / 2) = Real.pi by ring, Real.cos_pi]
      simp only [exBatchArgs, Fin.mk_one, cons_val_one, cons_val_zero, this]
      norm_num
  have hrp : ∀ k, 0 < exBatchArgs.ref k 0 := by
    intro k
    fin_cases k <;> simp [exBatchArgs]
  have hband : ∀ k (r : ℝ), (lib.geigh ((r : ℂ) • 1) (((1 / exBatchArgs.ref k 0 : ℝ) : ℂ) • 1)).1 = fun _ => r * exBatchArgs.ref k 0 := by
    intro k r
    have hX : IsHermitian ((r : ℂ) • (1 : CMat 1)) := by
      rw [IsHermitian, conjTranspose_smul, conjTranspose_one, Complex.star_def, Complex.conj_ofReal]
    obtain ⟨h1, -⟩ := geigh_scalar hl.geigh _ (((1 / exBatchArgs.ref k 0 : ℝ) : ℂ) • 1) hX (1 / exBatchArgs.ref k 0) (one_div_pos.2 (hrp k)) rfl
    funext i
    have hi : i = 0 := Subsingleton.elim _ _
    subst hi
    rw [Matrix.smul_apply, one_apply_eq, smul_eq_mul, mul_one] at h1
    have h2 : (lib.geigh ((r : ℂ) • 1) (((1 / exBatchArgs.ref k 0 : ℝ) : ℂ) • 1)).1 0 * (1 / exBatchArgs.ref k 0) = r := by exact_mod_cast h1
    have := (hrp k).ne'
    field_simp at h2
    rw [h2, mul_comm]
  have hat : ∀ (r : ℝ) k, TB.Spec.At (⟨⟨[(0, (r : ℂ) • 1)]⟩, exBatch.S⟩ : Tb 1 1) (exBatchArgs.ks k) ((r : ℂ) • 1) (((1 / exBatchArgs.ref k 0 : ℝ) : ℂ) • 1) := by
    intro r k
    refine ⟨?_, ?_⟩
    · show (⟨[(0, (r : ℂ) • 1)]⟩ : Series 1 1).f _ = _
      rw [f_eq]
      simp [TB.Spec.value]
    · show (⟨[(0, (3 / 4 : ℂ) • 1), (![1], (1 / 8 : ℂ) • 1)]⟩ : Series 1 1).f _ = _
      rw [f_eq, hSk]
  refine ⟨fun k => ⟨_, _, ?_, hband k (11 / 10)⟩, fun k => ⟨_, _, ?_, (hband k 1).trans ?_⟩, ?_⟩
  · have := hat (11 / 10) k
    push_cast at this ⊢
    exact this
  · have := hat 1 k
    simpa using this
  · funext i
    rw [show i = 0 from Subsingleton.elim _ _, one_mul]
  have hX0 : IsHermitian ((11 / 10 : ℂ) • (1 : CMat 1)) := by
    rw [IsHermitian, conjTranspose_smul, conjTranspose_one]
    congr 1
    rw [show (11 / 10 : ℂ) = ((11 / 10 : ℝ) : ℂ) by push_cast; rfl, Complex.star_def, Complex.conj_ofReal]
  have hS0 : IsHermitian ((3 / 4 : ℂ) • (1 : CMat 1)) := by
    rw [IsHermitian, conjTranspose_smul, conjTranspose_one]
    congr 1
    rw [show (3 / 4 : ℂ) = ((3 / 4 : ℝ) : ℂ) by push_cast; rfl, Complex.star_def, Complex.conj_ofReal]
  have hpos : (TB.Spec.value ((3 / 4 : ℂ) • (1 : CMat 1)) [(![1], (1 / 8 : ℂ) • 1)] 0).PosDef := by
    have := hSk 0
    have h2 : exBatchArgs.ks 0 = 0 := rfl
    rw [h2] at this
    rw [this]
    exact PosDef.one.smul (by exact_mod_cast one_div_pos.2 (hrp 0))
  obtain ⟨M, hMu, hM1, -, -, hrun⟩ := ad_form hl pinv exBatchArgs ((11 / 10 : ℂ) • 1) ((3 / 4 : ℂ) • 1) [] [(![1], (1 / 8 : ℂ) • 1)] hX0 hS0 hpos two_ne_zero
    one_ne_zero 0 (by simp) (2 * j + 2)
  have hMM : Mᴴ * M = 1 := by
    have h2 := hSk 0
    rw [show exBatchArgs.ks 0 = 0 from rfl] at h2
    rw [conj_f, f_eq, h2] at hM1
    simpa [Except.map, exBatchArgs] using hM1
  have hH1 : ∀ z : ℂ, Mᴴ * (z • 1) * M = z • 1 := by
    intro z
    rw [Matrix.mul_smul, Matrix.smul_mul, Matrix.mul_one, hMM]
  let c : AD 2 1 1 1 := adOf exBatchArgs pinv [(11 / 10 : ℂ) • 1] (Mᴴ * ((11 / 10 : ℂ) • 1) * M) []
    (fun k => Mᴴ * TB.Spec.value ((3 / 4 : ℂ) • 1) [(![1], (1 / 8 : ℂ) • 1)] (exBatchArgs.ks k) * M) fun b => ⟨(0 : ℤ).toNat + b, by omega⟩
  let y : Par 1 1 := arr [((0 : RVec 1), Mᴴ * ((11 / 10 : ℂ) • 1) * M)]
  have hF : ∀ k p, c.F k p = 1 / 2 := by
    intro k p
    rw [show p = 0 from Subsingleton.elim _ _]
    exact coef_zero _ _ [] k
  have hcS : ∀ k, c.S k = ((1 / exBatchArgs.ref k 0 : ℝ) : ℂ) • 1 := by
    intro k
    show Mᴴ * TB.Spec.value ((3 / 4 : ℂ) • 1) [(![1], (1 / 8 : ℂ) • 1)] (exBatchArgs.ks k) * M = _
    rw [hSk, hH1]
  have hfm : ∀ (x : Par 1 1) k, (x 0).IsHermitian → fmat c.F x k = x 0 := by
    intro x k hx
    rw [fmat]
    simp only [Finset.univ_unique, Finset.sum_singleton, Fin.default_eq_zero, hF]
    rw [conjTranspose_smul, hx.eq]
    have : star (1 / 2 : ℂ) = 1 / 2 := by simp
    rw [this]
    module
  have hstep := ad_scalar_step hl.geigh c hF (by rw [hcS]; simp [exBatchArgs]) rfl rfl rfl (fun x => rfl) (fun b => rfl) hpi (by
    show adAccel true 2 2 none = 2
    simp [adAccel])
  have hscal : ∀ (X : CMat 1) (z : ℂ), X 0 0 = z → X = z • 1 := by
    intro X z h
    ext i k
    rw [show i = 0 from Subsingleton.elim _ _, show k = 0 from Subsingleton.elim _ _, h]
    simp
  have hherm : ∀ (X : CMat 1) (r : ℝ), X 0 0 = r → X.IsHermitian := by
    intro X r h
    ext i k
    rw [show i = 0 from Subsingleton.elim _ _, show k = 0 from Subsingleton.elim _ _, conjTranspose_apply, h, Complex.star_def, Complex.conj_ofReal]
  have hreg := adReg_one c rfl
  have hb2 : ¬ c.batchDiv = 0 := show ¬ (2 : ℕ) = 0 by norm_num
  have ht2 : ¬ c.trainS = true := show ¬ false = true by simp
  have hgo : ∀ m it ll l x, ¬ ((it % 100 = 0 ∨ c.batchDiv = 1) ∧ stop c.conv c.thr ll (c.loss lib.geigh x)) → ∃ ll' l', c.run lib.geigh (m + 1) it ll l x =
      c.run lib.geigh m (it + 1) ll' l' (x + c.add lib.geigh it x l) := by
    intro m it ll l x h
    have hne := adBatch_ne c (show (2 : ℕ) ≠ 0 by norm_num) le_rfl it
    rw [ad_run_succ, if_neg hb2, if_neg ht2, if_neg hne, hreg, if_neg h, if_neg]
    · exact ⟨_, _, rfl⟩
    · have h5 : ((c.batch it).card : ℝ) ≠ 0 := by
        have := Finset.card_ne_zero.2 (Finset.nonempty_iff_ne_empty.2 hne)
        exact_mod_cast this
      have h6 : c.accel ≠ 0 := by
        show adAccel true 2 2 none ≠ 0
        simp [adAccel]
      rw [AD.maxAccel]
      rcases min_choice ((c.batch it).card : ℝ) c.accel with h | h <;> rw [h] <;> assumption
  have hodd : ∀ m it ll l x, it % 2 = 1 → (x 0).IsHermitian → ∃ ll' l', c.run lib.geigh (m + 1) it ll l x =
      c.run lib.geigh m (it + 1) ll' l' (x + c.add lib.geigh it x l) ∧ (x + c.add lib.geigh it x l) 0 0 0 = 2 := by
    intro m it ll l x hit hx
    obtain ⟨ll', l', h⟩ := hgo m it ll l x (by
      rintro ⟨h1 | h1, -⟩
      · omega
      · exact absurd h1 (show ¬ (2 : ℕ) = 1 by norm_num))
    refine ⟨ll', l', h, ?_⟩
    rw [hstep it x l hx]
    simp only [hit]
    show ((2 : ℝ) : ℂ) = 2
    norm_num
  have heven : ∀ j it ll l x, it % 2 = 0 → x 0 0 0 = 2 → ∃ z, c.run lib.geigh (2 * j) it ll l x = .ok z ∧ z 0 0 0 = 2 := by
    intro j
    induction j with
    | zero => intro it ll l x _ h; exact ⟨x, rfl, h⟩
    | succ j ih =>
      intro it ll l x hit hx
      have hxh : (x 0).IsHermitian := hherm _ 2 (by rw [hx]; norm_num)
      by_cases hs : (it % 100 = 0 ∨ c.batchDiv = 1) ∧ stop c.conv c.thr ll (c.loss lib.geigh x)
      · refine ⟨x, ?_, hx⟩
        have hne := adBatch_ne c (show (2 : ℕ) ≠ 0 by norm_num) le_rfl it
        rw [show 2 * (j + 1) = (2 * j + 1) + 1 by omega, ad_run_succ, if_neg hb2, if_neg ht2, if_neg hne, hreg,
          if_pos hs]
      · obtain ⟨ll', l', h1⟩ := hgo (2 * j + 1) it ll l x hs
        obtain ⟨ll2, l2, h2, h3⟩ := hodd (2 * j) (it + 1) ll' l' (x + c.add lib.geigh it x l) (by omega) (hherm _ _ (hstep it x l hxh))
        obtain ⟨z, h4, h5⟩ := ih (it + 1 + 1) ll2 l2 _ (by omega) h3
        exact ⟨z, by rw [show 2 * (j + 1) = (2 * j + 1) + 1 by omega, h1, h2, h4], h5⟩
  have hy : y 0 = (11 / 10 : ℂ) • 1 := hH1 _
  have hyh : (y 0).IsHermitian := by rw [hy]; exact hX0
  have hloss : c.loss lib.geigh y = Real.sqrt (1 / 20) / Real.sqrt 2 := by
    rw [AD.loss]
    congr 2
    have h1 : ∀ k, (lib.geigh (fmat c.F y k) (c.S k)).1 = fun _ => 11 / 10 * exBatchArgs.ref k 0 := by
      intro k
      rw [hfm y k hyh, hcS, hy, show (11 / 10 : ℂ) = ((11 / 10 : ℝ) : ℂ) by push_cast; rfl, hband]
    simp only [h1, Fin.sum_univ_two, Finset.univ_unique, Finset.sum_singleton, Fin.default_eq_zero]
    show ((1 - 11 / 10 * 1) * 1 : ℝ) ^ 2 + ((2 - 11 / 10 * 2) * 1 : ℝ) ^ 2 = 1 / 20
    norm_num
  have hthr : ¬ c.loss lib.geigh y < c.thr := by
    rw [hloss, not_lt, le_div_iff₀ (by positivity)]
    show (1e-16 : ℝ) * Real.sqrt 2 ≤ Real.sqrt (1 / 20)
    refine Real.le_sqrt_of_sq_le ?_
    rw [mul_pow, Real.sq_sqrt (by norm_num)]
    norm_num
  obtain ⟨ll1, l1, h1⟩ := hgo (2 * j + 1) 0 none 0 y (by
    rintro ⟨-, h⟩
    rw [stop] at h
    simp only [Bool.false_or, decide_eq_true_eq] at h
    exact hthr h)
  obtain ⟨ll2, l2, h2, h3⟩ := hodd (2 * j) 1 ll1 l1 (y + c.add lib.geigh 0 y 0) rfl (hherm _ _ (hstep 0 y 0 hyh))
  obtain ⟨z, h4, h5⟩ := heven j 2 ll2 l2 _ rfl h3
  have hz : c.run lib.geigh (2 * j + 2) 0 none 0 y = .ok z := by
    rw [show 2 * j + 2 = (2 * j + 1) + 1 by omega, h1, h2, h4]
  obtain ⟨hz0, M2, hM2, h6, -, -⟩ := hrun z hz
  refine ⟨_, h6, fun k => ⟨M2ᴴ * (((2 : ℝ) : ℂ) • 1) * M2, M2ᴴ * (((1 / exBatchArgs.ref k 0 : ℝ) : ℂ) • 1) * M2, ⟨?_, ?_⟩, ?_⟩⟩
  · have h7 : (setArr [((0 : RVec 1), Mᴴ * ((11 / 10 : ℂ) • 1) * M)] z).f (exBatchArgs.ks k) = .ok (((2 : ℝ) : ℂ) • 1) := by
      rw [setArr_cons, f_eq, hscal (z 0) 2 h5]
      simp [TB.Spec.value]
    have := conj_f (setArr [((0 : RVec 1), Mᴴ * ((11 / 10 : ℂ) • 1) * M)] z) M2 (exBatchArgs.ks k)
    rw [h7] at this
    exact this
  · have h7 := conj_f (⟨[(0, (3 / 4 : ℂ) • 1), (![1], (1 / 8 : ℂ) • 1)]⟩ : Series 1 1) (M * M2) (exBatchArgs.ks k)
    rw [f_eq, hSk] at h7
    have h8 : (M * M2)ᴴ * (((1 / exBatchArgs.ref k 0 : ℝ) : ℂ) • 1) * (M * M2) = M2ᴴ * (((1 / exBatchArgs.ref k 0 : ℝ) : ℂ) • 1) * M2 := by
      rw [conjTranspose_mul]
      calc _ = M2ᴴ * (Mᴴ * (((1 / exBatchArgs.ref k 0 : ℝ) : ℂ) • 1) * M) * M2 := by simp only [Matrix.mul_assoc]
        _ = _ := by rw [hH1]
    refine h7.trans ?_
    show Except.ok ((M * M2)ᴴ * (((1 / exBatchArgs.ref k 0 : ℝ) : ℂ) • 1) * (M * M2)) = _
    rw [h8]
  · have hX : IsHermitian (((2 : ℝ) : ℂ) • (1 : CMat 1)) := by
      rw [IsHermitian, conjTranspose_smul, conjTranspose_one, Complex.star_def, Complex.conj_ofReal]
    rw [ad_band hl _ _ _ hM2 hX (PosDef.one.smul (by exact_mod_cast one_div_pos.2 (hrp k))), hband]

/-! ## examples -/

/-- One sample at the edge, where the phase of the neighbour is `-1`; `p`: `use_pinv`. -/
noncomputable def exADArgs (p : Bool) (r : Fin 2 → ℝ) : ADArgs 1 2 1 := ⟨fun _ => ![1 / 2], fun _ => r, fun _ => 1, 1, 1, false, p, none, 1, false, 1e-3, 1e-16⟩

theorem exAD_S (k : RVec 1) : exFit.S.f k = .ok 1 := by
  rw [exFit, f_eq]
  simp [TB.Spec.value]

/-- The hypotheses of `C101_fit` can be met, with and without the pseudoinverse: the bands `-1`, `7` are fitted. -/
example (p : Bool) : ∃ (lib : Lib 2) (pinv : ∀ P K, Matrix (Fin P) (Fin K) ℂ → Matrix (Fin K) (Fin P) ℂ) (t' : Tb 1 2) (M : CMat 2),
    tbOptimize lib pinv exFit (exADArgs p ![-1, 7]) 0 10 = .ok t' ∧ IsUnit M.det ∧
      ((∀ k X, exFit.H.f k = .ok X → t'.H.f k = .ok (Mᴴ * X * M)) ∨
        ∃ H S, TB.Spec.At t' ![1 / 2] H S ∧ (lib.geigh H S).1 = ![-1, 7]) := by
  obtain ⟨lib, hl⟩ := exists_lib 2
  obtain ⟨pinv, hpi⟩ := exists_rectPinv
  obtain ⟨t', M, h1, h2, -, h3⟩ := C101_fit hl hpi one_ne_zero two_ne_zero exFit exFit_good (exADArgs p ![-1, 7]) (fun k => by rw [exAD_S, exAD_S]) rfl rfl rfl rfl rfl rfl
    ⟨1, one_ne_zero, fun _ => rfl⟩ (fun k => by intro i j hij; fin_cases i <;> fin_cases j <;> simp_all [exADArgs] <;> norm_num) (by
      cases p
      · exact Or.inr ⟨rfl, rfl⟩
      · refine Or.inl ⟨rfl, fun y hy => ?_⟩
        have h := hy 0 (by simp [exFit])
        funext i
        rw [show i = 0 from Subsingleton.elim _ _]
        simpa using h) 9
  exact ⟨lib, pinv, t', M, h1, h2, h3.imp id fun h => h 0⟩

/-- The hypotheses of `C101_kept` can be met: an exact fit is kept. -/
example : ∃ (lib : Lib 2) (pinv : ∀ P K, Matrix (Fin P) (Fin K) ℂ → Matrix (Fin K) (Fin P) ℂ) (t' : Tb 1 2) (M : CMat 2),
    tbOptimize lib pinv exFit (exADArgs true ![1, 3]) 0 10 = .ok t' ∧ IsUnit M.det ∧
      ∀ k H S, TB.Spec.At exFit k H S → TB.Spec.At t' k (Mᴴ * H * M) (Mᴴ * S * M) := by
  obtain ⟨lib, hl⟩ := exists_lib 2
  obtain ⟨pinv, -⟩ := exists_rectPinv
  obtain ⟨t', M, h1, h2, h3⟩ := C101_kept (pinv := pinv) hl one_ne_zero two_ne_zero exFit exFit_good (exADArgs true ![1, 3]) 0 (by simp)
    (fun k X hX => by rw [exAD_S] at hX; rw [← Except.ok.inj hX]; exact PosDef.one) 10 (Or.inr ⟨rfl, one_ne_zero, rfl, by
      have h1 : ∀ k, valueAt exFit.H k = diagonal ![1, 3] := by
        intro k
        rw [exFit, valueAt_eq (f_eq (diagonal ![1, 3] : CMat 2) [((![1] : RVec 1), (0 : CMat 2))] k)]
        simp [TB.Spec.value]
      have h2 : ∀ k, valueAt exFit.S k = 1 := fun k => valueAt_eq (exAD_S k)
      have h3 : Spec.adLoss lib.geigh (exADArgs true ![1, 3]) exFit 0 (by simp) = 0 := by
        rw [Spec.adLoss]
        simp only [exADArgs, h1, h2, exGeigh hl]
        simp
      rw [h3]
      norm_num [exADArgs]⟩)
  exact ⟨lib, pinv, t', M, h1, h2, fun k H S h => (h3 k H S h).1⟩

/-- The hypotheses of `C101_result`, `C101_errors`, `C101_train_S_defect` and `C101_keep_zeros_defect` can be met. -/
example : ∃ (lib : Lib 2) (pinv : ∀ P K, Matrix (Fin P) (Fin K) ℂ → Matrix (Fin K) (Fin P) ℂ) (t' : Tb 1 2),
    tbOptimize lib pinv exFit (exADArgs true ![2, 4]) 0 10 = .ok t' ∧ t'.S.f 0 = .ok 1 ∧
    tbOptimize lib pinv exFit (exADArgs true ![2, 4]) 1 10 = .error .assertionError ∧
    tbOptimize lib pinv exFit { exADArgs true ![2, 4] with trainS := true } 0 10 = .error .nameError ∧
    ∃ t2, tbOptimize lib pinv exKz { exADArgs true ![2, 4] with keepZeros := true } 0 10 = .ok t2 ∧
      ∃ H S : CMat 2, TB.Spec.At t2 ![1 / 2] H S ∧ (lib.geigh H S).1 = ![-1, 1] := by
  obtain ⟨lib, hl⟩ := exists_lib 2
  obtain ⟨pinv, -⟩ := exists_rectPinv
  have hz : Spec.Good exKz := by
    refine ⟨⟨_, _, rfl, ?_⟩, ⟨_, _, rfl, isHermitian_one⟩, ?_⟩
    · ext i j; fin_cases i <;> fin_cases j <;> simp [exFlip]
    · intro X hX
      have h := (f_eq (1 : CMat 2) ([] : List (RVec 1 × CMat 2)) 0).symm.trans hX
      rw [← Except.ok.inj h]
      simp [TB.Spec.value]
      exact PosDef.one
  obtain ⟨t', M, h1, -, -, -, h2, -⟩ := C101_result (pinv := pinv) hl one_ne_zero two_ne_zero exFit exFit_good (exADArgs true ![2, 4]) 0 (by simp) rfl one_ne_zero le_rfl
    (by simp [exADArgs]) 10
  obtain ⟨t2, -, h3, -⟩ := C101_result (pinv := pinv) hl one_ne_zero two_ne_zero exKz hz { exADArgs true ![2, 4] with keepZeros := true } 0 (by simp) rfl one_ne_zero le_rfl
    (by simp [exADArgs]) 10
  exact ⟨lib, pinv, t', h1, h2, (C101_errors hl exFit (exADArgs true ![2, 4]) 1 10).2.1 one_ne_zero (by simp [exFit]) (by simp),
    C101_train_S_defect hl one_ne_zero two_ne_zero exFit exFit_good { exADArgs true ![2, 4] with trainS := true } 0 (by simp) rfl one_ne_zero 9,
    t2, h3, C101_keep_zeros_defect hl one_ne_zero two_ne_zero { exADArgs true ![2, 4] with keepZeros := true } rfl 0 (by simp) 10 t2 h3 ![1 / 2]⟩

/-- Two levels, the lower one fitted to zero: the hypotheses of `C101_descent` hold and its second alternative is the case. -/
example {lib : Lib 2} (hl : Spec.LibOk lib) :
    let c : AD 1 1 2 1 := ⟨fun _ _ => 1 / 2, fun _ => 1, fun _ _ => 0, fun _ => 1, fun _ => 0, 1, 1, false, false, 1, 1, id, 1e-3, 1e-16, fun _ _ _ => 0⟩
    let x : Par 1 2 := fun _ => diagonal ![1, 3]
    ∃ t0 > (0 : ℝ), ∀ lr : ℝ, 0 < lr → lr < t0 → c.loss lib.geigh (x + ({ c with lr := lr } : AD 1 1 2 1).add lib.geigh 0 x 0) < c.loss lib.geigh x := by
  intro c x
  have hd : (diagonal ![1, 3] : CMat 2).IsHermitian := by
    rw [IsHermitian, diagonal_conjTranspose]
    congr 1
    funext i; fin_cases i <;> simp
  have hfx : ∀ k, fmat c.F x k = diagonal ![1, 3] := by
    intro k
    simp only [c, x, fmat, Finset.univ_unique, Finset.sum_singleton]
    rw [conjTranspose_smul, hd.eq]
    have : star (1 / 2 : ℂ) = 1 / 2 := by simp
    rw [this]
    module
  rcases C101_descent hl.geigh c one_ne_zero rfl rfl (fun _ => rfl) (by simp [c]) (fun k => by simp [c]) (fun _ => PosDef.one) x (by
    intro k b j hj
    rw [hfx, show c.S k = 1 from rfl, exGeigh hl]
    have : j = 1 := by
      have h : j ≠ (0 : Fin 2) := hj
      omega
    subst this
    norm_num [c]) 0 with ⟨-, h⟩ | h
  · exfalso
    have h1 := h 1
    have hf1 : ∀ t : ℝ, fmat c.F (x + t • 1) 0 = diagonal ![1, 3] + (t : ℂ) • 1 := by
      intro t
      simp only [c, x, fmat, Finset.univ_unique, Finset.sum_singleton]
      ext i j
      fin_cases i <;> fin_cases j <;> simp <;> ring
    have h2 : ∀ t : ℝ, Spec.adSq lib.geigh c (x + t • 1) = (1 + t) ^ 2 := by
      intro t
      have h3 : (lib.geigh (diagonal ![1, 3] + (t : ℂ) • 1) 1).1 = ![1 + t, 3 + t] := by
        have hh : (diagonal ![1, 3] + (t : ℂ) • (1 : CMat 2)).IsHermitian := by
          refine hd.add ?_
          rw [IsHermitian, conjTranspose_smul, conjTranspose_one, Complex.star_def, Complex.conj_ofReal]
        refine geigh_unique (hl.geigh _ _ hh PosDef.one) (W := 1) ⟨by simp [rot], ?_, ?_⟩
        · simp only [rot, conjTranspose_one, Matrix.one_mul, Matrix.mul_one]
          ext i j
          fin_cases i <;> fin_cases j <;> simp
        · intro i j hij
          fin_cases i <;> fin_cases j <;> simp_all
      rw [Spec.adSq]
      simp only [Finset.univ_unique, Finset.sum_singleton, Fin.default_eq_zero]
      rw [hf1, show c.S 0 = 1 from rfl, h3]
      simp [c]
    simp only [h2] at h1
    have h4 : HasDerivAt (fun t : ℝ => (1 + t) ^ 2) 2 0 := by
      have h5 : HasDerivAt (fun t : ℝ => (1 + t) ^ 2) ((2 : ℕ) * (1 + 0 : ℝ) ^ (2 - 1) * 1) 0 := ((hasDerivAt_id (0 : ℝ)).const_add 1).pow 2
      have h6 : ((2 : ℕ) * (1 + 0 : ℝ) ^ (2 - 1) * 1) = 2 := by norm_num
      rwa [h6] at h5
    have := h1.unique h4
    norm_num at this
  · exact h

end TB.Opt

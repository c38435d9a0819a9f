import Verif.Props.OptimizeTb
import Verif.Lemmas.Descent

/-!
# C99: the whole of `BandStructureModel.optimize_cg`
-/

set_option linter.unusedSectionVars false

namespace TB.Opt
open Matrix TB
open scoped ComplexOrder

variable {K n B d : ℕ}

/-- The call of `BandStructureModel.optimize_cg` with bundled arguments. -/
noncomputable def Args.bs (a : Args K B d) (lib : Lib n) (t : BS.BSM d n) : Except Err (BS.BSM d n) :=
  bsOptimizeCg lib t a.ks a.ref a.bw a.off a.iterations a.keepZeros a.precond a.conv a.thr a.maxCg

/-- The first `N` coefficient functions are linearly independent on the k samples. -/
def Spec.BsIndep (ks : Fin K → RVec d) (c : BS.Coeff d) (N : ℕ) : Prop :=
  ∀ x : ℕ → ℂ, (∀ k, ∑ p ∈ Finset.range N, c.fi (ks k) p * x p = 0) → ∀ p < N, x p = 0

/-- `bsCoef` for given coefficient functions and number of matrices. -/
noncomputable def coefP (ks : Fin K → RVec d) (c : BS.Coeff d) (P : ℕ) (k : Fin K) (p : Fin (P + 1)) : ℂ :=
  if (p : ℕ) = 0 then c.fi (ks k) p / 2 else c.fi (ks k) p

theorem coefP_indep (ks : Fin K → RVec d) (c : BS.Coeff d) (P : ℕ) :
    Spec.BsIndep ks c (P + 1) ↔ ∀ y, Matrix.of (coefP ks c P) *ᵥ y = 0 → y = 0 := by
  have h1 : ∀ (k : Fin K) (x : ℕ → ℂ), (∑ p ∈ Finset.range (P + 1), c.fi (ks k) p * x p) =
      ∑ p : Fin (P + 1), coefP ks c P k p * (if (p : ℕ) = 0 then 2 * x p else x p) := by
    intro k x
    rw [Finset.sum_range]
    refine Finset.sum_congr rfl fun p _ => ?_
    rw [coefP]
    split <;> ring
  constructor
  · intro h y hy
    funext p
    have h3 := h (fun q => if hq : q < P + 1 then (if q = 0 then y ⟨q, hq⟩ / 2 else y ⟨q, hq⟩) else 0) (by
      intro k
      rw [h1]
      have := congrFun hy k
      rw [mulVec, dotProduct] at this
      rw [Pi.zero_apply] at this
      rw [← this]
      refine Finset.sum_congr rfl fun q _ => ?_
      simp only [q.2, dif_pos, of_apply]
      split
      · ring
      · rfl) p p.2
    simp only [p.2, dif_pos] at h3
    split at h3
    · exact (div_eq_zero_iff.1 h3).resolve_right (by norm_num)
    · exact h3
  · intro h x hx p hp
    have h3 := congrFun (h (fun q => if (q : ℕ) = 0 then 2 * x q else x q) (by
      funext k
      rw [Pi.zero_apply, ← hx k, h1]
      rfl)) ⟨p, hp⟩
    simp only [Pi.zero_apply] at h3
    split at h3
    · simpa using h3
    · exact h3

/-- The preconditioner for given coefficient functions and number of matrices. -/
noncomputable def mkP (lib : Lib n) (a : Args K B d) (c : BS.Coeff d) (P : ℕ) : Except Err (Matrix (Fin (P + 1)) (Fin (P + 1)) ℂ) :=
  mkE (lib.pinv _) (lib.chol _) a.precond (coefP a.ks c P)

theorem mkP_ok {lib : Lib n} (hl : Spec.LibOk lib) (a : Args K B d) (hK : K ≠ 0) (c : BS.Coeff d) (P : ℕ)
    (h : a.precond = true → Spec.BsIndep a.ks c (P + 1)) : ∃ E, mkP lib a c P = .ok E := by
  rw [mkP]
  cases hp : a.precond with
  | false => exact ⟨1, by simp [mkE]⟩
  | true =>
    obtain ⟨E, hE, -⟩ := mkE_ok hl hK _ ((coefP_indep _ _ _).1 (h hp))
    exact ⟨E, hE⟩

theorem mkP_err {lib : Lib n} (hl : Spec.LibOk lib) (a : Args K B d) (c : BS.Coeff d) (P : ℕ)
    (hp : a.precond = true) (h : ¬ Spec.BsIndep a.ks c (P + 1)) : mkP lib a c P = .error .valueError := by
  rw [mkP, hp]
  rw [coefP_indep] at h
  push Not at h
  exact mkE_err hl _ h

/-- The constants of the loop. -/
noncomputable def bsFit (a : Args K B d) (hoff : 0 ≤ a.off ∧ a.off ≤ (n : ℤ) - B) (c : BS.Coeff d) (P : ℕ)
    (E : Matrix (Fin (P + 1)) (Fin (P + 1)) ℂ) : Fit K (P + 1) n B :=
  ⟨coefP a.ks c P, E, fun _ => 1, a.ref, a.bw, fun b => ⟨a.off.toNat + b, by omega⟩, a.conv, a.thr, a.maxCg⟩

/-- The symmetrizer and the mask. -/
noncomputable def bsPost (a : Args K B d) (l : List (CMat n)) (sy : Option (CMat n × List (CMat n) → CMat n × List (CMat n))) {P : ℕ}
    (x : Par (P + 1) n) : Par (P + 1) n :=
  let x := match sy with
    | some s => bsSym s x
    | none => x
  if a.keepZeros then mask l x else x

/-- The parameters of a model with `P + 1` matrices. -/
def arrP (b : BS.BSM d n) {P : ℕ} (h : b.Ps.length = P) : Par (P + 1) n := Fin.cases b.P0 fun p => b.Ps[p]

theorem bsSet_arrP (b : BS.BSM d n) {P : ℕ} (h : b.Ps.length = P) : bsSet b (arrP b h) = b := by
  simp only [bsSet, arrP, Fin.cases_zero, Fin.cases_succ]
  congr 1
  exact List.ext_getElem (by simp [h]) (by simp)

theorem bs_form (lib : Lib n) (a : Args K B d) (hK : K ≠ 0) (hoff : 0 ≤ a.off ∧ a.off ≤ (n : ℤ) - B) (t : BS.BSM d n) {P : ℕ}
    (hP : t.Ps.length = P) (hc : (t.normalize lib.eigh).coeff = t.coeff) (hP1 : (t.normalize lib.eigh).Ps.length = P) :
    a.bs lib t = (mkP lib a t.coeff P).map fun E =>
      (bsSet (t.normalize lib.eigh) ((bsFit a hoff t.coeff P E).run lib.geigh (bsPost a t.params (t.normalize lib.eigh).symmetrizer) a.iterations none
        (arrP (t.normalize lib.eigh) hP1))).normalize lib.eigh := by
  rw [Args.bs, bsOptimizeCg, if_neg hK, dif_pos hoff]
  generalize ht1 : t.normalize lib.eigh = t1 at *
  show (mkP lib a t.coeff t.Ps.length >>= fun _ => mkP lib a t1.coeff t1.Ps.length >>= fun E => _) = _
  rw [hP]
  subst hP1
  cases h : mkP lib a t.coeff t1.Ps.length with
  | error e => rfl
  | ok E =>
    have h' := h
    rw [← hc] at h'
    show (mkP lib a t1.coeff t1.Ps.length >>= fun E => _) = _
    rw [h']
    simp only [Except.map]
    show Except.ok _ = Except.ok _
    congr 4
    simp only [bsFit, ← hc]
    rfl

/-- C99.  `BandStructureModel.optimize_cg` without symmetrizer and with a valid offset succeeds if there is no preconditioner or the coefficient functions are independent on the samples,
otherwise it raises `LinAlgError` (a `ValueError`).  The result has the same coefficient functions and number of matrices and a first matrix which is diagonal with ascending real
entries. -/
theorem C99_bs_result {lib : Lib n} (hl : Spec.LibOk lib) (hE : BS.Spec.IsEigh lib.eigh) (a : Args K B d) (hK : K ≠ 0)
    (hoff : 0 ≤ a.off ∧ a.off ≤ (n : ℤ) - B) (t : BS.BSM d n) (hs : t.symmetrizer = none) (hN : Spec.RealOrExp t.coeff) :
    ((a.precond = true → Spec.BsIndep a.ks t.coeff t.params.length) → ∃ t', a.bs lib t = .ok t' ∧ t'.coeff = t.coeff ∧
      t'.params.length = t.params.length ∧ ∃ w : Fin n → ℝ, Monotone w ∧ t'.P0 = diagonal fun i => (w i : ℂ)) ∧
    (a.precond = true → ¬ Spec.BsIndep a.ks t.coeff t.params.length → a.bs lib t = .error .valueError) := by
  obtain ⟨W, -, -, -, hc1, hl1, hs1⟩ := normalize_any lib.eigh hE t hs hN
  rw [bs_form lib a hK hoff t rfl hc1 hl1]
  refine ⟨fun h => ?_, fun hp h => ?_⟩
  · obtain ⟨E, hE'⟩ := mkP_ok hl a hK t.coeff t.Ps.length h
    rw [hE', Except.map]
    refine ⟨_, rfl, ?_⟩
    generalize Fit.run _ _ _ _ _ _ = x
    obtain ⟨V, -, -, h3, h4, h5, -⟩ := normalize_any lib.eigh hE (bsSet (t.normalize lib.eigh) x) hs1 (by
      show Spec.RealOrExp (t.normalize lib.eigh).coeff; rw [hc1]; exact hN)
    refine ⟨h4.trans hc1, ?_, h3⟩
    simp only [BS.BSM.params, List.length_cons]
    rw [h5]
    simp [bsSet]
  · rw [mkP_err hl a _ _ hp h]; rfl

theorem entry_le_one {V : CMat n} (h : Vᴴ * V = 1) (i j : Fin n) : ‖V i j‖ ≤ 1 := by
  have h1 : (∑ k, ‖V k j‖ ^ 2) = 1 := by
    have h2 := congrFun (congrFun h j) j
    rw [mul_apply, one_apply_eq] at h2
    have h3 : ((∑ k, ‖V k j‖ ^ 2 : ℝ) : ℂ) = 1 := by
      rw [← h2, Complex.ofReal_sum]
      refine Finset.sum_congr rfl fun k _ => ?_
      rw [conjTranspose_apply, Complex.star_def, ← Complex.normSq_eq_conj_mul_self, Complex.normSq_eq_norm_sq]
    exact_mod_cast h3
  have h2 : ‖V i j‖ ^ 2 ≤ 1 := by
    rw [← h1]
    exact Finset.single_le_sum (f := fun k => ‖V k j‖ ^ 2) (fun _ _ => sq_nonneg _) (Finset.mem_univ i)
  exact abs_le_one_iff_mul_self_le_one.2 (by rw [← sq]; exact h2) |> fun h => (le_abs_self _).trans h

/-- C99.  Without iterations, or if the loss of the normalised model is below `loss_threshold`, the Hamiltonian is changed by a basis only, up to the entries of at most `1e-14` dropped by
`normalize`. -/
theorem C99_bs_kept {lib : Lib n} (hl : Spec.LibOk lib) (hE : BS.Spec.IsEigh lib.eigh) (a : Args K B d) (hK : K ≠ 0)
    (hoff : 0 ≤ a.off ∧ a.off ≤ (n : ℤ) - B) (t : BS.BSM d n) (hs : t.symmetrizer = none) (hN : Spec.RealOrExp t.coeff)
    (hr : ∀ k, star (t.coeff.fi k 0) = t.coeff.fi k 0) (hH : t.P0.IsHermitian)
    (hpre : a.precond = true → Spec.BsIndep a.ks t.coeff t.params.length)
    (hfit : a.iterations = 0 ∨ Real.sqrt (∑ k, ∑ b : Fin B, (((lib.geigh ((t.normalize lib.eigh).f (a.ks k)) 1).1 ⟨a.off.toNat + b, by omega⟩ - a.ref k b) *
      a.bw b) ^ 2) / Real.sqrt K < a.thr) :
    ∃ (t' : BS.BSM d n) (V : CMat n), a.bs lib t = .ok t' ∧ Vᴴ * V = 1 ∧
      ∀ k i j, ‖t'.f k i j - (Vᴴ * t.f k * V) i j‖ ≤ ((n : ℝ) ^ 2 + 1) * (1e-14 * ‖t.coeff.fi k 1‖) := by
  obtain ⟨W, hW1, hW2, ⟨w, -, hw⟩, hc1, hl1, hs1⟩ := normalize_any lib.eigh hE t hs hN
  rw [bs_form lib a hK hoff t rfl hc1 hl1]
  obtain ⟨E, hE'⟩ := mkP_ok hl a hK t.coeff t.Ps.length hpre
  have hP0 : ∀ X : CMat n, X.IsHermitian → (1 / 2 : ℂ) • BS.plusAdj X = X := by
    intro X hX
    rw [BS.plusAdj, hX.eq, ← two_smul ℂ X, smul_smul]; norm_num
  rw [hE', Except.map]
  set t1 := t.normalize lib.eigh with ht1
  have hP : t1.P0.IsHermitian := by
    rw [hw, IsHermitian, diagonal_conjTranspose]
    congr 1
    funext i
    simp
  have hset : bsSet t1 (arrP t1 hl1) = t1 := by
    exact bsSet_arrP t1 hl1
  have hrun : (bsFit a hoff t.coeff t.Ps.length E).run lib.geigh (bsPost a t.params t1.symmetrizer) a.iterations none (arrP t1 hl1) = arrP t1 hl1 := by
    rcases hfit with h | h
    · rw [h]; rfl
    · cases hit : a.iterations with
      | zero => rfl
      | succ m =>
        rw [Fit.run, if_pos]
        rw [stop]
        simp only [Bool.false_or, decide_eq_true_eq]
        refine lt_of_eq_of_lt ?_ h
        rw [Fit.loss]
        congr 2
        refine Finset.sum_congr rfl fun k _ => Finset.sum_congr rfl fun b _ => ?_
        rw [Fit.diff]
        have hf : fmat (coefP a.ks t.coeff t.Ps.length) (arrP t1 hl1) k = t1.f (a.ks k) := by
          have key : ∀ P (h : t1.Ps.length = P), fmat (coefP a.ks t1.coeff P) (arrP t1 h) k = t1.f (a.ks k) := by
            intro P h
            subst h
            have := C99_bs_hamiltonian t1 a.ks (bsArr t1) hP k (by rw [hc1]; exact hr _)
            rw [bsSet_bsArr] at this
            exact this
          rw [← hc1]
          exact key _ hl1
        simp only [bsFit]
        rw [hf]
  rw [hrun, hset]
  obtain ⟨V, hV1, hV2, -⟩ := normalize_any lib.eigh hE t1 hs1 (by rw [hc1]; exact hN)
  refine ⟨_, W * V, rfl, by rw [conjTranspose_mul, Matrix.mul_assoc, ← Matrix.mul_assoc Wᴴ, hW1, Matrix.one_mul, hV1], ?_⟩
  intro k i j
  rw [show ({ t1 with P0 := (1 / 2 : ℂ) • BS.plusAdj t1.P0 } : BS.BSM d n) = t1 by rw [hP0 _ hP], hc1] at hV2
  rw [show ({ t with P0 := (1 / 2 : ℂ) • BS.plusAdj t.P0 } : BS.BSM d n) = t by rw [hP0 _ hH]] at hW2
  set δ : CMat n := t1.f k - Wᴴ * t.f k * W with hδ
  have e1 : (t1.normalize lib.eigh).f k i j - ((W * V)ᴴ * t.f k * (W * V)) i j =
      ((t1.normalize lib.eigh).f k i j - (Vᴴ * t1.f k * V) i j) + (Vᴴ * δ * V) i j := by
    have : Vᴴ * δ * V = Vᴴ * t1.f k * V - (W * V)ᴴ * t.f k * (W * V) := by
      rw [hδ, Matrix.mul_sub, Matrix.sub_mul, conjTranspose_mul]
      simp only [Matrix.mul_assoc]
    rw [this, Matrix.sub_apply]; ring
  rw [e1]
  have e2 : ‖(Vᴴ * δ * V) i j‖ ≤ (n : ℝ) ^ 2 * (1e-14 * ‖t.coeff.fi k 1‖) := by
    have e3 : (Vᴴ * δ * V) i j = ∑ b, ∑ c, star (V c i) * δ c b * V b j := by
      rw [mul_apply]
      refine Finset.sum_congr rfl fun b _ => ?_
      rw [mul_apply, Finset.sum_mul]
      rfl
    rw [e3]
    calc ‖∑ b, ∑ c, star (V c i) * δ c b * V b j‖ ≤ ∑ b : Fin n, ∑ c : Fin n, (1e-14 * ‖t.coeff.fi k 1‖) := by
          refine (norm_sum_le _ _).trans (Finset.sum_le_sum fun b _ => (norm_sum_le _ _).trans (Finset.sum_le_sum fun c _ => ?_))
          rw [norm_mul, norm_mul, norm_star]
          have q1 := entry_le_one hV1 c i
          have q2 := entry_le_one hV1 b j
          have q3 := hW2 k c b
          have q4 : ‖δ c b‖ ≤ 1e-14 * ‖t.coeff.fi k 1‖ := by rw [hδ, Matrix.sub_apply]; exact q3
          calc ‖V c i‖ * ‖δ c b‖ * ‖V b j‖ ≤ 1 * ‖δ c b‖ * 1 := by gcongr
            _ ≤ _ := by rw [one_mul, mul_one]; exact q4
      _ = (n : ℝ) ^ 2 * (1e-14 * ‖t.coeff.fi k 1‖) := by
          rw [Finset.sum_const, Finset.sum_const, Finset.card_univ, Fintype.card_fin, nsmul_eq_mul, nsmul_eq_mul]; ring
  calc _ ≤ ‖(t1.normalize lib.eigh).f k i j - (Vᴴ * t1.f k * V) i j‖ + ‖(Vᴴ * δ * V) i j‖ := norm_add_le _ _
    _ ≤ 1e-14 * ‖t.coeff.fi k 1‖ + (n : ℝ) ^ 2 * (1e-14 * ‖t.coeff.fi k 1‖) := add_le_add (hV2 k i j) e2
    _ = _ := by ring

/-! ## with a symmetrizer -/

/-- A symmetrizer is a projection which keeps the number of matrices and allows to take the hermitian part of the first matrix. -/
structure Spec.Symmetrizer (s : CMat n × List (CMat n) → CMat n × List (CMat n)) : Prop where
  length : ∀ q, (s q).2.length = q.2.length
  idem : ∀ q, s (s q) = s q
  herm : ∀ q, s q = q → s ((1 / 2 : ℂ) • (q.1 + q.1ᴴ), q.2) = ((1 / 2 : ℂ) • (q.1 + q.1ᴴ), q.2)

/-- An array as first matrix and list. -/
def ofArr {P : ℕ} (x : Par (P + 1) n) : CMat n × List (CMat n) := (x 0, List.ofFn fun p => x p.succ)

theorem ofArr_bsSym {s : CMat n × List (CMat n) → CMat n × List (CMat n)} (hs : Spec.Symmetrizer s) {P : ℕ} (x : Par (P + 1) n) :
    ofArr (bsSym s x) = s (ofArr x) := by
  have hlen : (s (ofArr x)).2.length = P := by rw [hs.length]; simp [ofArr]
  refine Prod.ext rfl ?_
  refine List.ext_getElem (by simp [ofArr] at hlen ⊢; exact hlen.symm) ?_
  intro i h1 h2
  have h3 : (ofArr (bsSym s x)).2[i] = (s (ofArr x)).2.getD i 0 := by
    simp only [ofArr, List.getElem_ofFn, bsSym, Fin.cases_succ]
  rw [h3, List.getD_eq_getElem _ _ h2]

theorem next_fix {s : CMat n × List (CMat n) → CMat n × List (CMat n)} (hs : Spec.Symmetrizer s) {P : ℕ} (y : Par (P + 1) n) :
    s (ofArr (herm0 (bsSym s y))) = ofArr (herm0 (bsSym s y)) := by
  have h1 : ofArr (herm0 (bsSym s y)) = ((1 / 2 : ℂ) • ((s (ofArr y)).1 + (s (ofArr y)).1ᴴ), (s (ofArr y)).2) := by
    rw [← ofArr_bsSym hs]
    refine Prod.ext ?_ ?_
    · simp [ofArr, herm0]
    · simp [ofArr, herm0]
  rw [h1]
  exact hs.herm _ (hs.idem _)

/-- `stop` with a convergence threshold which is not positive. -/
theorem stop_conv {conv thr : ℝ} (h : conv ≤ 0) (last : Option ℝ) (new : ℝ) : stop conv thr last new = decide (new < thr) := by
  cases last with
  | none => simp [stop]
  | some l =>
    have : ¬ |l / new - 1| < conv := not_lt.2 (h.trans (abs_nonneg _))
    simp [stop, this]

theorem run_add {geigh : CMat n → CMat n → (Fin n → ℝ) × CMat n} {P : ℕ} (c : Fit K P n B) (hc : c.conv ≤ 0) (post : Par P n → Par P n) (k : ℕ) :
    ∀ m last x, c.run geigh post (m + k) last x = c.run geigh post k none (c.run geigh post m last x) := by
  have hlast : ∀ j l l' x, c.run geigh post j l x = c.run geigh post j l' x := by
    intro j l l' x
    cases j with
    | zero => rfl
    | succ j => rw [Fit.run, Fit.run, stop_conv hc, stop_conv hc]
  have hstop : ∀ j l x, c.loss geigh x < c.thr → c.run geigh post j l x = x := by
    intro j l x h
    cases j with
    | zero => rfl
    | succ j => rw [Fit.run, stop_conv hc, if_pos (by simpa using h)]
  intro m
  induction m with
  | zero => intro last x; rw [Nat.zero_add, Fit.run]; exact hlast _ _ _ _
  | succ m ih =>
    intro last x
    by_cases h : c.loss geigh x < c.thr
    · rw [hstop _ _ _ h, hstop (m + 1) _ _ h, hstop _ _ _ h]
    · rw [Nat.add_right_comm, Fit.run, stop_conv hc, if_neg (by simpa using h), ih, Fit.run, stop_conv hc, if_neg (by simpa using h)]

theorem norm_sym (eigh : CMat n → (Fin n → ℝ) × CMat n) (t : BS.BSM d n) {s} (h : t.symmetrizer = some s) :
    t.normalize eigh = { t with P0 := (s (t.P0, t.Ps)).1, Ps := (s (t.P0, t.Ps)).2 } := by
  rw [BS.BSM.normalize, h]

/-- The result with a symmetrizer. -/
theorem bs_sym_form {lib : Lib n} (a : Args K B d) (hK : K ≠ 0) (hoff : 0 ≤ a.off ∧ a.off ≤ (n : ℤ) - B) (t : BS.BSM d n)
    {s : CMat n × List (CMat n) → CMat n × List (CMat n)} (hs : t.symmetrizer = some s) (hS : Spec.Symmetrizer s) {P : ℕ} (hP : t.Ps.length = P) :
    ∃ x : Par (P + 1) n, ofArr x = s (t.P0, t.Ps) ∧ a.bs lib t = (mkP lib a t.coeff P).map fun E =>
      (bsSet t ((bsFit a hoff t.coeff P E).run lib.geigh (bsPost a t.params (some s)) a.iterations none x)).normalize lib.eigh := by
  have hn := norm_sym lib.eigh t hs
  have hlen : (t.normalize lib.eigh).Ps.length = P := by rw [hn]; simp only; rw [hS.length]; exact hP
  refine ⟨arrP (t.normalize lib.eigh) hlen, ?_, ?_⟩
  · have key : ∀ (b : BS.BSM d n) (h : b.Ps.length = P), ofArr (arrP b h) = (b.P0, b.Ps) := by
      intro b h
      refine Prod.ext rfl ?_
      exact List.ext_getElem (by simp [ofArr, h]) (by simp [ofArr, arrP])
    rw [key, hn]
  · rw [bs_form lib a hK hoff t hP (by rw [hn]) hlen]
    have h1 : (t.normalize lib.eigh).symmetrizer = some s := by rw [hn]; exact hs
    have h2 : ∀ z : Par (P + 1) n, bsSet (t.normalize lib.eigh) z = bsSet t z := by intro z; rw [hn]; rfl
    simp only [h1, h2]

/-- C99.  With a symmetrizer that is a projection, a successful call keeps the coefficient functions, the number of matrices and the symmetrizer, and the matrices of the result are
symmetric. -/
theorem C99_bs_symmetric {lib : Lib n} (hl : Spec.LibOk lib) (a : Args K B d) (hK : K ≠ 0) (hoff : 0 ≤ a.off ∧ a.off ≤ (n : ℤ) - B) (t : BS.BSM d n)
    {s : CMat n × List (CMat n) → CMat n × List (CMat n)} (hs : t.symmetrizer = some s) (hS : Spec.Symmetrizer s)
    (hpre : a.precond = true → Spec.BsIndep a.ks t.coeff t.params.length) :
    ∃ t', a.bs lib t = .ok t' ∧ t'.coeff = t.coeff ∧ t'.symmetrizer = some s ∧ t'.params.length = t.params.length ∧ s (t'.P0, t'.Ps) = (t'.P0, t'.Ps) := by
  obtain ⟨x, -, h2⟩ := bs_sym_form (lib := lib) a hK hoff t hs hS rfl
  obtain ⟨E, hE⟩ := mkP_ok hl a hK t.coeff t.Ps.length hpre
  rw [h2, hE, Except.map]
  refine ⟨_, rfl, ?_⟩
  generalize Fit.run _ _ _ _ _ _ = y
  rw [norm_sym lib.eigh (bsSet t y) (s := s) hs]
  refine ⟨rfl, hs, ?_, hS.idem _⟩
  simp only [BS.BSM.params, List.length_cons, hS.length]
  simp [bsSet]

/-- C99.  With a symmetrizer that is a projection, every iteration works with symmetric matrices: a call with `m + k` iterations is the same as a call with `m` iterations followed by a call
with `k` iterations (without `keep_zeros` and stopped by the loss threshold only). -/
theorem C99_bs_restart {lib : Lib n} (a : Args K B d) (hK : K ≠ 0) (hoff : 0 ≤ a.off ∧ a.off ≤ (n : ℤ) - B) (hkz : a.keepZeros = false)
    (hconv : a.conv ≤ 0) (t t' : BS.BSM d n) {s : CMat n × List (CMat n) → CMat n × List (CMat n)} (hs : t.symmetrizer = some s)
    (hS : Spec.Symmetrizer s) (m k : ℕ) (h : ({ a with iterations := m } : Args K B d).bs lib t = .ok t') :
    ({ a with iterations := m + k } : Args K B d).bs lib t = ({ a with iterations := k } : Args K B d).bs lib t' := by
  have hpost : ∀ (m : ℕ) (l : List (CMat n)) {P : ℕ} (x : Par (P + 1) n), bsPost { a with iterations := m } l (some s) x = bsSym s x := by
    intro m l P x; simp [bsPost, hkz]
  set P := t.Ps.length with hP
  have hE : ∃ E, mkP lib a t.coeff P = .ok E := by
    obtain ⟨x, -, h2⟩ := bs_sym_form (lib := lib) { a with iterations := m } hK hoff t hs hS hP.symm
    rw [h] at h2
    cases hE : mkP lib a t.coeff P with
    | ok E => exact ⟨E, rfl⟩
    | error e =>
      rw [show mkP lib { a with iterations := m } t.coeff P = .error e from hE] at h2
      cases h2
  obtain ⟨E, hE⟩ := hE
  set c := bsFit a hoff t.coeff P E with hc
  -- a call from symmetric matrices
  have key : ∀ (b : BS.BSM d n) (j : ℕ), b.symmetrizer = some s → b.coeff = t.coeff → b.Ps.length = P →
      ∃ x : Par (P + 1) n, ofArr x = s (b.P0, b.Ps) ∧ s (ofArr (c.run lib.geigh (bsSym s) j none x)) = ofArr (c.run lib.geigh (bsSym s) j none x) ∧
        ({ a with iterations := j } : Args K B d).bs lib b = .ok (bsSet b (c.run lib.geigh (bsSym s) j none x)) := by
    intro b j h1 h2 h3
    obtain ⟨x, hx, h4⟩ := bs_sym_form (lib := lib) { a with iterations := j } hK hoff b h1 hS h3
    have h5 : s (ofArr (c.run lib.geigh (bsSym s) j none x)) = ofArr (c.run lib.geigh (bsSym s) j none x) :=
      run_inv c (bsSym s) (fun y => s (ofArr y) = ofArr y) (fun y _ => next_fix hS _) j none x (by rw [hx, hS.idem])
    refine ⟨x, hx, h5, ?_⟩
    rw [h4, h2, show mkP lib { a with iterations := j } t.coeff P = .ok E from hE, Except.map]
    have h6 : (bsPost { a with iterations := j } b.params (some s) : Par (P + 1) n → Par (P + 1) n) = bsSym s := funext fun x => hpost j _ x
    rw [h6]
    show Except.ok ((bsSet b (c.run lib.geigh (bsSym s) j none x)).normalize lib.eigh) = _
    generalize c.run lib.geigh (bsSym s) j none x = y at *
    rw [norm_sym lib.eigh (bsSet b y) (s := s) h1]
    congr 1
    have h7 : s ((bsSet b y).P0, (bsSet b y).Ps) = ((bsSet b y).P0, (bsSet b y).Ps) := h5
    rw [h7]
  obtain ⟨x, hx, h1, h2⟩ := key t m hs rfl hP.symm
  rw [h] at h2
  have ht' := Except.ok.inj h2
  obtain ⟨y, hy, -, h3⟩ := key t' k (by rw [ht']; exact hs) (by rw [ht']; rfl) (by rw [ht']; simp [bsSet])
  obtain ⟨z, hz, -, h4⟩ := key t (m + k) hs rfl hP.symm
  have hinj : ∀ u v : Par (P + 1) n, ofArr u = ofArr v → u = v := by
    intro u v huv
    funext p
    refine Fin.cases ?_ (fun q => ?_) p
    · exact congrArg Prod.fst huv
    · have := congrArg Prod.snd huv
      simp only [ofArr] at this
      exact congrFun (List.ofFn_injective this) q
  have hzx : z = x := hinj _ _ (hz.trans hx.symm)
  have hyr : y = c.run lib.geigh (bsSym s) m none x := by
    apply hinj
    rw [hy, ht']
    exact h1
  rw [h4, h3, hzx, hyr, run_add c hconv (bsSym s) k m none x, ht']
  rfl

/-! ## examples -/

/-- A chain with one orbital: energy `1` and hopping coefficient `1/2`. -/
noncomputable def exBs : BS.BSM 1 1 := ⟨.tb ⟨[1], true, [0, ![1]], false, false⟩, 1, [(1 / 2 : ℂ) • 1], none⟩

/-- The symmetrizer that makes all matrices but the first vanish. -/
def exSymz : CMat n × List (CMat n) → CMat n × List (CMat n) := fun q => (q.1, q.2.map fun _ => 0)

theorem exSymz_ok : Spec.Symmetrizer (exSymz (n := n)) where
  length q := by simp [exSymz]
  idem q := by simp [exSymz]
  herm q h := by
    have h1 : q.2.map (fun _ => (0 : CMat n)) = q.2 := congrArg Prod.snd h
    simp only [exSymz, h1]

/-- Two iterations without preconditioner for the sample `0`. -/
noncomputable def exBsArgs : Args 1 1 1 := ⟨fun _ => 0, fun _ => ![3], fun _ => 1, 0, 2, false, false, 0, 1e-16, 5⟩

theorem exBs_real : Spec.RealOrExp exBs.coeff := Or.inr ⟨_, rfl, Or.inl rfl⟩

example {lib : Lib 1} (hl : Spec.LibOk lib) (hE : BS.Spec.IsEigh lib.eigh) : ∃ t', exBsArgs.bs lib exBs = .ok t' ∧ t'.coeff = exBs.coeff ∧
    t'.params.length = 2 ∧ ∃ w : Fin 1 → ℝ, Monotone w ∧ t'.P0 = diagonal fun i => (w i : ℂ) :=
  (C99_bs_result hl hE exBsArgs one_ne_zero (by simp [exBsArgs]) exBs rfl exBs_real).1 (by simp [exBsArgs])

/-- Two coefficient functions are dependent on one sample. -/
example {lib : Lib 1} (hl : Spec.LibOk lib) (hE : BS.Spec.IsEigh lib.eigh) : ({ exBsArgs with precond := true } : Args 1 1 1).bs lib exBs = .error .valueError := by
  refine (C99_bs_result hl hE _ one_ne_zero (by simp [exBsArgs]) exBs rfl exBs_real).2 rfl ?_
  intro h
  have := h (fun p => if p = 0 then exBs.coeff.fi 0 1 else - exBs.coeff.fi 0 0) (by
    intro k
    simp [exBs, BS.BSM.params, Finset.sum_range_succ, exBsArgs]
    ring) 1 (by simp [exBs, BS.BSM.params])
  simp [exBs, BS.Coeff.fi, BS.TBData.fi] at this

example {lib : Lib 1} (hl : Spec.LibOk lib) (hE : BS.Spec.IsEigh lib.eigh) : ∃ (t' : BS.BSM 1 1) (V : CMat 1),
    ({ exBsArgs with iterations := 0 } : Args 1 1 1).bs lib exBs = .ok t' ∧ Vᴴ * V = 1 ∧
      ∀ k i j, ‖t'.f k i j - (Vᴴ * exBs.f k * V) i j‖ ≤ (((1 : ℕ) : ℝ) ^ 2 + 1) * (1e-14 * ‖exBs.coeff.fi k 1‖) :=
  C99_bs_kept hl hE _ one_ne_zero (by simp [exBsArgs]) exBs rfl exBs_real (by simp [exBs, BS.Coeff.fi, BS.TBData.fi]) (by simp [exBs, IsHermitian])
    (by simp [exBsArgs]) (Or.inl rfl)

example {lib : Lib 1} (hl : Spec.LibOk lib) : ∃ t', exBsArgs.bs lib { exBs with symmetrizer := some exSymz } = .ok t' ∧ t'.Ps = [0] := by
  obtain ⟨t', h1, -, -, h4, h5⟩ := C99_bs_symmetric hl exBsArgs one_ne_zero (by simp [exBsArgs]) { exBs with symmetrizer := some exSymz } rfl exSymz_ok
    (by simp [exBsArgs])
  refine ⟨t', h1, ?_⟩
  have h6 : t'.Ps.map (fun _ => (0 : CMat 1)) = t'.Ps := congrArg Prod.snd h5
  have h7 : t'.Ps.length = 1 := by simpa [BS.BSM.params, exBs] using h4
  obtain ⟨X, hX⟩ := List.length_eq_one_iff.1 h7
  rw [← h6, hX]; rfl

example {lib : Lib 1} (hl : Spec.LibOk lib) : ∃ t', ({ exBsArgs with iterations := 1 } : Args 1 1 1).bs lib { exBs with symmetrizer := some exSymz } = .ok t' ∧
    exBsArgs.bs lib { exBs with symmetrizer := some exSymz } = ({ exBsArgs with iterations := 1 } : Args 1 1 1).bs lib t' := by
  obtain ⟨t', h1, -⟩ := C99_bs_symmetric hl { exBsArgs with iterations := 1 } one_ne_zero (by simp [exBsArgs]) { exBs with symmetrizer := some exSymz } rfl exSymz_ok
    (by simp [exBsArgs])
  exact ⟨t', h1, C99_bs_restart exBsArgs one_ne_zero (by simp [exBsArgs]) rfl le_rfl _ t' rfl exSymz_ok 1 1 h1⟩

end TB.Opt

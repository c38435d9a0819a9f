import Verif.Model.Descent
import Verif.Props.OptimizeTb
import Verif.Props.BandStructureNorm

/-!
# Lemmas for `BandStructureModel.optimize`
-/

set_option linter.unusedSectionVars false

namespace TB.Opt
open Matrix TB
open scoped ComplexOrder

variable {K P n B d : ℕ} {geigh : CMat n → CMat n → (Fin n → ℝ) × CMat n}

/-! ## pseudoinverse -/

/-- Contract of `np.linalg.pinv`: the first of the equations of Moore and Penrose. -/
def Spec.RectPinv (pinv : ∀ P K, Matrix (Fin P) (Fin K) ℂ → Matrix (Fin K) (Fin P) ℂ) : Prop := ∀ P K A, A * pinv P K A * A = A

theorem exists_rectPinv : ∃ pinv, Spec.RectPinv pinv := by
  obtain ⟨pinv, h⟩ := exists_pinv
  refine ⟨fun P K A => pinv K (Aᴴ * A) * Aᴴ, fun P K A => ?_⟩
  have h1 := (h K (Aᴴ * A) (isHermitian_conjTranspose_mul_self A)).1
  have h2 : Aᴴ * A * (pinv K (Aᴴ * A) * Aᴴ * A - 1) = 0 := by
    rw [Matrix.mul_sub, Matrix.mul_one, sub_eq_zero]
    simpa only [Matrix.mul_assoc] using h1
  have h3 := (conjTranspose_mul_self_mul_eq_zero A _).1 h2
  rw [Matrix.mul_sub, Matrix.mul_one, sub_eq_zero] at h3
  simpa only [Matrix.mul_assoc] using h3

/-- For independent samples the pseudoinverse is a left inverse. -/
theorem pinv_left {pinv : ∀ P K, Matrix (Fin P) (Fin K) ℂ → Matrix (Fin K) (Fin P) ℂ} (hp : Spec.RectPinv pinv) (F : Fin K → Fin P → ℂ)
    (hF : ∀ y : Fin K → ℂ, (∀ p, ∑ k, y k * F k p = 0) → y = 0) (k k' : Fin K) :
    ∑ p, F k p * pinv P K (Matrix.of F)ᵀ k' p = if k = k' then 1 else 0 := by
  have h1 := hp P K (Matrix.of F)ᵀ
  set A := (Matrix.of F)ᵀ with hA
  have h2 : A * (pinv P K A * A - 1) = 0 := by
    rw [Matrix.mul_sub, Matrix.mul_one, ← Matrix.mul_assoc, h1, sub_self]
  have h3 : pinv P K A * A - 1 = 0 := by
    ext i j
    refine congrFun (hF (fun i => (pinv P K A * A - 1 : Matrix (Fin K) (Fin K) ℂ) i j) fun p => ?_) i
    have h4 := congrFun (congrFun h2 p) j
    rw [mul_apply] at h4
    simpa [hA, mul_comm] using h4
  have h5 := congrFun (congrFun (sub_eq_zero.1 h3) k') k
  rw [mul_apply, one_apply] at h5
  simp only [hA, transpose_apply, of_apply] at h5
  rw [← hA] at h5
  simp only [mul_comm, eq_comm] at h5 ⊢
  exact h5

/-! ## one exact step -/

theorem outer_sum (V : CMat n) (q : Fin n → ℝ) : ∑ b, ((q b : ℝ) : ℂ) • outer (fun i => V i b) = V * diagonal (fun i => (q i : ℂ)) * Vᴴ := by
  ext i j
  rw [Matrix.sum_apply, mul_apply]
  refine Finset.sum_congr rfl fun b _ => ?_
  rw [Matrix.smul_apply, outer, vecMulVec_apply, mul_diagonal, conjTranspose_apply, Pi.star_apply, smul_eq_mul]
  ring

theorem geigh_spectral {H V : CMat n} {e : Fin n → ℝ} (h : TB.Spec.IsGeigh H 1 e V) : V * Vᴴ = 1 ∧ H = V * diagonal (fun i => (e i : ℂ)) * Vᴴ := by
  have h1 : Vᴴ * V = 1 := by simpa [rot] using h.norm
  have h2 : V * Vᴴ = 1 := mul_eq_one_comm.1 h1
  refine ⟨h2, ?_⟩
  rw [← h.diag, rot]
  calc H = (V * Vᴴ) * H * (V * Vᴴ) := by rw [h2, Matrix.one_mul, Matrix.mul_one]
    _ = _ := by simp only [Matrix.mul_assoc]

theorem spectral_geigh {V : CMat n} {e : Fin n → ℝ} (h1 : V * Vᴴ = 1) (he : Monotone e) :
    TB.Spec.IsGeigh (V * diagonal (fun i => (e i : ℂ)) * Vᴴ) 1 e V := by
  have h2 : Vᴴ * V = 1 := mul_eq_one_comm.1 h1
  refine ⟨by rw [rot, Matrix.mul_one, h2], ?_, he⟩
  rw [rot]
  calc Vᴴ * (V * diagonal (fun i => (e i : ℂ)) * Vᴴ) * V = (Vᴴ * V) * diagonal (fun i => (e i : ℂ)) * (Vᴴ * V) := by simp only [Matrix.mul_assoc]
    _ = _ := by rw [h2, Matrix.one_mul, Matrix.mul_one]

theorem batch_one (c : GD K P n B) (h : c.batchDiv = 1) (it : ℕ) : c.batch it = Finset.univ := by
  rw [GD.batch, h, Finset.filter_true_of_mem]
  intro k _
  rw [Nat.mod_one, Nat.mod_one]

/-- The conditions under which one step is exact. -/
structure GD.Exact (c : GD K P n n) (G : Fin K → Fin P → ℂ) : Prop where
  batch : c.batchDiv = 1
  left : ∀ k k', ∑ p, c.F k p * G k' p = if k = k' then 1 else 0
  C : ∀ k p, c.C k p = G k p * ((∑ q, ‖c.F k q‖ ^ 2 : ℝ) : ℂ) * K
  win : ∀ b, c.win b = b
  bw : ∃ w : ℝ, w ≠ 0 ∧ ∀ b, c.bw b = w
  kw : ∃ w : ℝ, w ≠ 0 ∧ ∀ k, c.kw k = w

theorem exact_step (hg : Spec.GeighOk geigh) (c : GD K P n n) (G : Fin K → Fin P → ℂ) (hc : c.Exact G) (x : Par P n) (it : ℕ) (k : Fin K) :
    fmat c.F (x + c.grad geigh it x) k =
      (geigh (fmat c.F x k) 1).2 * diagonal (fun i => (c.ref k i : ℂ)) * (geigh (fmat c.F x k) 1).2ᴴ := by
  have hu := batch_one c hc.batch it
  have hK : (K : ℝ) ≠ 0 := by
    have := k.pos
    exact_mod_cast this.ne'
  have hs : c.s k ≠ 0 := by
    intro h
    rw [GD.s, Finset.sum_eq_zero_iff_of_nonneg (fun _ _ => by positivity)] at h
    have h1 := hc.left k k
    rw [if_pos rfl, Finset.sum_eq_zero] at h1
    · exact zero_ne_one h1
    · intro p _
      have := h p (Finset.mem_univ p)
      rw [pow_eq_zero_iff two_ne_zero, norm_eq_zero] at this
      rw [this, zero_mul]
  obtain ⟨wb, hwb, hbw⟩ := hc.bw
  obtain ⟨wk, hwk, hkw⟩ := hc.kw
  have hq : ∀ b, c.weighted geigh it x k b * c.s k * K = 1 / 2 * c.diff geigh x k b := by
    intro b
    have hn : (n : ℝ) ≠ 0 := by
      have := b.pos
      exact_mod_cast this.ne'
    simp only [GD.weighted, GD.bwN, GD.kwN, hu, hbw, hkw, Finset.sum_const, Finset.card_univ, Fintype.card_fin, nsmul_eq_mul]
    field_simp
  have h1 : ∑ p, c.F k p • c.grad geigh it x p = (1 / 2 : ℂ) • ∑ b, ((c.diff geigh x k b : ℝ) : ℂ) • outer (c.vec geigh x k b) := by
    simp only [GD.grad, hu, Finset.smul_sum, smul_smul]
    rw [Finset.sum_comm]
    have h2 : ∀ k', ∑ p, ∑ b, (c.F k p * (c.C k' p * (c.weighted geigh it x k' b : ℂ))) • outer (c.vec geigh x k' b) =
        if k = k' then ∑ b, (1 / 2 * ((c.diff geigh x k b : ℝ) : ℂ)) • outer (c.vec geigh x k b) else 0 := by
      intro k'
      rw [Finset.sum_comm]
      simp only [← Finset.sum_smul]
      have h3 : ∀ b, ∑ p, c.F k p * (c.C k' p * (c.weighted geigh it x k' b : ℂ)) =
          (if k = k' then 1 else 0) * ((c.weighted geigh it x k' b * c.s k' * K : ℝ) : ℂ) := by
        intro b
        rw [← hc.left k k', Finset.sum_mul]
        refine Finset.sum_congr rfl fun p _ => ?_
        rw [hc.C, GD.s]
        push_cast
        ring
      simp only [h3]
      split
      · rename_i h
        subst h
        refine Finset.sum_congr rfl fun b _ => ?_
        rw [one_mul, hq]
        push_cast
        rfl
      · simp
    simp only [h2, Finset.sum_ite_eq, Finset.mem_univ, if_true]
  have h4 : ∑ b, ((c.diff geigh x k b : ℝ) : ℂ) • outer (c.vec geigh x k b) =
      (geigh (fmat c.F x k) 1).2 * diagonal (fun i => (c.diff geigh x k i : ℂ)) * (geigh (fmat c.F x k) 1).2ᴴ := by
    rw [← outer_sum]
    refine Finset.sum_congr rfl fun b _ => ?_
    have h8 : c.vec geigh x k b = fun i => (geigh (fmat c.F x k) 1).2 i b := by
      funext i; rw [GD.vec, hc.win]
    rw [h8]
  have h5 := (geigh_spectral (hg _ _ (fmat_herm c.F x k) PosDef.one)).2
  have h6 : fmat c.F (c.grad geigh it x) k =
      (geigh (fmat c.F x k) 1).2 * diagonal (fun i => (c.diff geigh x k i : ℂ)) * (geigh (fmat c.F x k) 1).2ᴴ := by
    rw [fmat, h1, h4, conjTranspose_smul, conjTranspose_mul, conjTranspose_mul, conjTranspose_conjTranspose, diagonal_conjTranspose, ← Matrix.mul_assoc]
    have h7 : star (fun i => (c.diff geigh x k i : ℂ)) = fun i => (c.diff geigh x k i : ℂ) := by
      funext i; simp
    rw [h7, ← add_smul]
    norm_num
  rw [fmat_add, h6]
  set V := (geigh (fmat c.F x k) 1).2
  conv_lhs => rw [h5]
  rw [← Matrix.add_mul, ← Matrix.mul_add, diagonal_add]
  congr 3
  funext i
  rw [GD.diff, hc.win]
  push_cast
  ring

/-! ## models -/

theorem exists_bs_eigh (n : ℕ) : ∃ eigh : CMat n → (Fin n → ℝ) × CMat n, BS.Spec.IsEigh eigh := by
  obtain ⟨geigh, hg⟩ := exists_geighOk n
  refine ⟨fun M => geigh M 1, fun M hM => ?_⟩
  have h := hg M 1 hM PosDef.one
  obtain ⟨h1, h2⟩ := geigh_spectral h
  have h3 : (geigh M 1).2ᴴ * (geigh M 1).2 = 1 := mul_eq_one_comm.1 h1
  refine ⟨h3, ?_, h.mono⟩
  show M * (geigh M 1).2 = (geigh M 1).2 * diagonal (fun i => ((geigh M 1).1 i : ℂ))
  generalize (geigh M 1).2 = V at *
  generalize (geigh M 1).1 = e at *
  rw [h2, Matrix.mul_assoc, h3, Matrix.mul_one]

theorem norm_herm (eigh : CMat n → (Fin n → ℝ) × CMat n) (b : BS.BSM d n) (hs : b.symmetrizer = none) :
    b.normalize eigh = ({ b with P0 := (1 / 2 : ℂ) • BS.plusAdj b.P0 } : BS.BSM d n).normalize eigh := by
  have h : (1 / 2 : ℂ) • BS.plusAdj ((1 / 2 : ℂ) • BS.plusAdj b.P0) = (1 / 2 : ℂ) • BS.plusAdj b.P0 := by
    simp only [BS.plusAdj]
    rw [conjTranspose_smul, conjTranspose_add, conjTranspose_conjTranspose]
    simp
    module
  simp only [BS.BSM.normalize, hs, h]
  generalize List.map (fun P => (eigh ((1 / 2 : ℂ) • BS.plusAdj b.P0)).2ᴴ * P * (eigh ((1 / 2 : ℂ) • BS.plusAdj b.P0)).2)
    (if b.coeff.needHerm = true then List.map (fun P => (1 / 2 : ℂ) • BS.plusAdj P) b.Ps else b.Ps) = L
  cases L with
  | nil => rfl
  | cons P1 Q =>
    dsimp only
    obtain ⟨c, e, hl⟩ := BS.loop_inv P1 ((eigh ((1 / 2 : ℂ) • BS.plusAdj b.P0)).2ᴴ * (1 / 2 : ℂ) • BS.plusAdj b.P0 *
      (eigh ((1 / 2 : ℂ) • BS.plusAdj b.P0)).2 :: Q) n le_rfl
    have h2 := hl.others
    revert h2
    generalize List.foldl BS.phaseStep _ _ = st
    intro h2
    obtain ⟨a, l⟩ := st
    simp only at h2
    subst h2
    rfl

theorem bsSet_bsArr (b : BS.BSM d n) : bsSet b (bsArr b) = b := by
  simp only [bsSet, bsArr, Fin.cases_zero, Fin.cases_succ]
  congr 1
  exact List.ofFn_getElem

/-- Coefficient functions for which only the hermitian parts of the matrices matter, or `normalize` keeps them. -/
def Spec.RealOrExp (c : BS.Coeff d) : Prop :=
  (∀ k i, star (c.fi k i) = c.fi k i) ∨ ∃ t, c = .tb t ∧ (t.exp = false ∨ t.inversion = false)

theorem plusAdj_herm (X : CMat n) : ((1 / 2 : ℂ) • BS.plusAdj X)ᴴ = (1 / 2 : ℂ) • BS.plusAdj X := by
  simp only [BS.plusAdj]
  rw [conjTranspose_smul, conjTranspose_add, conjTranspose_conjTranspose, add_comm]
  simp

/-- `C75_normalize` for a first matrix that need not be hermitian. -/
theorem normalize_any (eigh : CMat n → (Fin n → ℝ) × CMat n) (hE : BS.Spec.IsEigh eigh) (b : BS.BSM d n)
    (hs : b.symmetrizer = none) (hN : Spec.RealOrExp b.coeff) :
    ∃ V : CMat n, Vᴴ * V = 1 ∧
      (∀ k i j, ‖(b.normalize eigh).f k i j - (Vᴴ * ({ b with P0 := (1 / 2 : ℂ) • BS.plusAdj b.P0 } : BS.BSM d n).f k * V) i j‖ ≤
        1e-14 * ‖b.coeff.fi k 1‖) ∧
      (∃ w : Fin n → ℝ, Monotone w ∧ (b.normalize eigh).P0 = diagonal fun i => (w i : ℂ)) ∧
      (b.normalize eigh).coeff = b.coeff ∧ (b.normalize eigh).Ps.length = b.Ps.length ∧ (b.normalize eigh).symmetrizer = none := by
  obtain ⟨V, h1, h2, h3, -, h5, h6⟩ := BS.C75_normalize eigh hE { b with P0 := (1 / 2 : ℂ) • BS.plusAdj b.P0 } hs (plusAdj_herm _) (Or.inr hN)
  rw [← norm_herm eigh b hs] at h2 h3 h5 h6
  refine ⟨V, h1, h2, h3, h5, h6, ?_⟩
  simp only [BS.BSM.normalize, hs]
  split
  · rfl
  · split <;> rfl

/-- The array expression of the loop is the Hamiltonian of the model with the hermitian part of the first matrix. -/
theorem fmat_bs (t : BS.BSM d n) (ks : Fin K → RVec d) (x : Par (t.Ps.length + 1) n) (k : Fin K)
    (hr : star (t.coeff.fi (ks k) 0) = t.coeff.fi (ks k) 0) :
    fmat (bsCoef ks t) x k = ({ bsSet t x with P0 := (1 / 2 : ℂ) • BS.plusAdj (bsSet t x).P0 } : BS.BSM d n).f (ks k) := by
  have h0 : bsCoef ks t k 0 = t.coeff.fi (ks k) 0 / 2 := by simp [bsCoef]
  have h1 : ∀ p : Fin t.Ps.length, bsCoef ks t k p.succ = t.coeff.fi (ks k) (p + 1) := by intro p; simp [bsCoef]
  rw [fmat, BS.BSM.f, BS.BSM.hsum, Fin.sum_univ_succ, h0]
  simp only [h1, bsSet, List.length_ofFn, Finset.sum_range]
  have h2 : ∀ p : Fin t.Ps.length, (List.ofFn fun p : Fin t.Ps.length => x p.succ).getD p 0 = x p.succ := by
    intro p; simp [List.getD]
  simp only [h2]
  rw [conjTranspose_add, conjTranspose_smul]
  have h3 : star (t.coeff.fi (ks k) 0 / 2) = t.coeff.fi (ks k) 0 / 2 := by rw [star_div₀, hr]; simp
  rw [h3, BS.plusAdj]
  have h4 : t.coeff.fi (ks k) 0 • (1 / 2 : ℂ) • (x 0 + (x 0)ᴴ) = (t.coeff.fi (ks k) 0 / 2) • x 0 + (t.coeff.fi (ks k) 0 / 2) • (x 0)ᴴ := by
    rw [smul_smul, smul_add]
    congr 2 <;> ring
  rw [h4]
  abel

end TB.Opt

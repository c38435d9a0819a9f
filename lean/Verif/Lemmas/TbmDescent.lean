import Verif.Model.TbmDescent
import Verif.Props.TightBinding
import Verif.Props.Descent

/-!
# Lemmas for `TightBindingModel.optimize`
-/

set_option linter.unusedSectionVars false

namespace TB.Opt
open Matrix TB
open scoped ComplexOrder

variable {K P n B d : ℕ} {eigh : CMat n → (Fin n → ℝ) × CMat n}

/-- Contract of `np.linalg.eigh`: for hermitian matrices orthonormal eigenvectors in the columns and the eigenvalues in ascending order. -/
def Spec.EighOk (eigh : CMat n → (Fin n → ℝ) × CMat n) : Prop := ∀ H : CMat n, H.IsHermitian → TB.Spec.IsGeigh H 1 (eigh H).1 (eigh H).2

theorem exists_eighOk (n : ℕ) : ∃ eigh, Spec.EighOk (n := n) eigh := by
  obtain ⟨g, h⟩ := exists_geighOk n
  exact ⟨fun H => g H 1, fun H hH => h H 1 hH PosDef.one⟩

theorem td_fm_add (c : TD K P n B) (x y : Par P n) (k : Fin K) : c.fm (x + y) k = c.fm x k + c.fm y k := by
  simp only [TD.fm, Pi.add_apply, smul_add, Finset.sum_add_distrib]

theorem td_batch_one (c : TD K P n B) (h : c.batchDiv = 1) (it : ℕ) : c.batch it = Finset.univ := by
  rw [TD.batch, h, Finset.filter_true_of_mem]
  intro k _
  rw [Nat.mod_one, Nat.mod_one]

theorem td_batch_nonempty (c : TD K P n B) (h : c.batchDiv ≠ 0) (hK : c.batchDiv ≤ K) (it : ℕ) : c.batch it ≠ ∅ := by
  have h1 : it % c.batchDiv < c.batchDiv := Nat.mod_lt _ (Nat.pos_of_ne_zero h)
  refine Finset.Nonempty.ne_empty ⟨⟨it % c.batchDiv, by omega⟩, ?_⟩
  simp [TD.batch]

theorem td_fm_hermitian (c : TD K P n B) (x : Par P n) (hx : ∀ p, (x p).IsHermitian) (k : Fin K) : (c.fm x k).IsHermitian := by
  rw [TD.fm, IsHermitian, conjTranspose_sum]
  refine Finset.sum_congr rfl fun p _ => ?_
  rw [conjTranspose_smul, (hx p).eq, Complex.star_def, Complex.conj_ofReal]

theorem outer_hermitian (v : Fin n → ℂ) : (outer v).IsHermitian := by
  rw [IsHermitian, outer, conjTranspose_vecMulVec, star_star]

theorem real_smul_hermitian (r : ℝ) {X : CMat n} (h : X.IsHermitian) : ((r : ℂ) • X).IsHermitian := by
  rw [IsHermitian, conjTranspose_smul, h.eq, Complex.star_def, Complex.conj_ofReal]

theorem sum_hermitian {ι : Type} (s : Finset ι) (f : ι → CMat n) (h : ∀ i, (f i).IsHermitian) : (∑ i ∈ s, f i).IsHermitian := by
  rw [IsHermitian, conjTranspose_sum]
  exact Finset.sum_congr rfl fun i _ => (h i).eq

theorem td_grad_hermitian (c : TD K P n B) (it : ℕ) (x : Par P n) (p : Fin P) : (c.grad eigh it x p).IsHermitian :=
  sum_hermitian _ _ fun _ => real_smul_hermitian _ (sum_hermitian _ _ fun _ => real_smul_hermitian _ (outer_hermitian _))

theorem rsmul_hermitian (r : ℝ) {X : CMat n} (h : X.IsHermitian) : (r • X).IsHermitian := by
  rw [IsHermitian, conjTranspose_smul, h.eq, star_trivial]

theorem td_add_hermitian (c : TD K P n B) (it : ℕ) (x last : Par P n) (hl : ∀ p, (last p).IsHermitian) (p : Fin P) :
    (c.add eigh it x last p).IsHermitian := by
  rw [TD.add]
  refine IsHermitian.add ?_ (rsmul_hermitian _ (hl p))
  by_cases h : c.trainK0 = false ∧ (p : ℕ) = 0
  · rw [if_pos h]; exact isHermitian_zero
  · rw [if_neg h]; exact rsmul_hermitian _ (td_grad_hermitian c it x p)

/-- Hermitian parameters stay hermitian. -/
theorem td_run_hermitian (c : TD K P n B) (m it : ℕ) (last x y : Par P n) (hx : ∀ p, (x p).IsHermitian) (hl : ∀ p, (last p).IsHermitian)
    (h : c.run eigh m it last x = .ok y) : ∀ p, (y p).IsHermitian := by
  induction m generalizing it last x with
  | zero => rw [TD.run] at h; cases h; exact hx
  | succ m ih =>
    rw [TD.run] at h
    by_cases h1 : c.batchDiv = 0
    · rw [if_pos h1] at h; cases h
    rw [if_neg h1] at h
    by_cases h2 : c.batch it = ∅
    · rw [if_pos h2] at h; cases h
    rw [if_neg h2] at h
    have ha := td_add_hermitian (eigh := eigh) c it x last hl
    exact ih _ _ _ (fun p => (hx p).add (ha p)) ha h

/-! ## one sample -/

/-- One for the entries which are changed. -/
def tdGate (c : TD K P n B) (p : Fin P) : ℝ := if c.trainK0 = false ∧ (p : ℕ) = 0 then 0 else 1

/-- The factor by which the change moves the bands of the only sample. -/
noncomputable def tdTheta (c : TD 1 P n n) (w : ℝ) : ℝ := c.lr * w * (∑ p : Fin P, tdGate c p * c.F 0 p ^ 2) / (∑ p, c.F 0 p ^ 2) ^ 2

theorem td_one_step (he : Spec.EighOk eigh) (c : TD 1 P n n) (hb : c.batchDiv = 1) (hwin : ∀ b, c.win b = b) (w : ℝ) (hw : ∀ b, c.w b = w)
    (it : ℕ) (x last : Par P n) (hx : (c.fm x 0).IsHermitian) :
    c.fm (x + c.add eigh it x last) 0 = (eigh (c.fm x 0)).2 *
      diagonal (fun i => (((eigh (c.fm x 0)).1 i + tdTheta c w * (c.ref 0 i - (eigh (c.fm x 0)).1 i) : ℝ) : ℂ)) * (eigh (c.fm x 0)).2ᴴ := by
  obtain ⟨hv, hs⟩ := geigh_spectral (he _ hx)
  have hu := td_batch_one c hb it
  have hm : c.mat eigh x 0 = (w : ℂ) • ((eigh (c.fm x 0)).2 * diagonal (fun i => ((c.ref 0 i - (eigh (c.fm x 0)).1 i : ℝ) : ℂ)) * (eigh (c.fm x 0)).2ᴴ) := by
    rw [← outer_sum, TD.mat, Finset.smul_sum]
    refine Finset.sum_congr rfl fun b _ => ?_
    rw [TD.diff, hw, hwin, smul_smul]
    congr 1
    push_cast
    ring
  set S := ∑ p, c.F 0 p ^ 2 with hS
  have hsc : c.sc it 0 = 1 / S := by
    rw [TD.sc, hu]
    simp only [Finset.card_univ, Fintype.card_fin, sq_abs, ← two_mul, ← Finset.mul_sum, Nat.cast_one, div_one]
    rw [← hS, div_mul_eq_div_div, div_self two_ne_zero]
  have hadd : ∀ p, c.add eigh it x last p = ((tdGate c p * (c.lr * c.F 0 p / S ^ 2) : ℝ) : ℂ) • c.mat eigh x 0 := by
    intro p
    rw [TD.add, hu, TD.grad, hu, tdGate]
    simp only [Finset.card_univ, Fintype.card_fin, Nat.cast_one, div_one, sub_self, zero_smul, add_zero, Fin.sum_univ_one, hsc]
    by_cases h : c.trainK0 = false ∧ (p : ℕ) = 0
    · rw [if_pos h, if_pos h]; simp
    · rw [if_neg h, if_neg h]
      ext i j
      simp only [Matrix.smul_apply, smul_eq_mul, Complex.real_smul]
      push_cast
      ring
  have hfa : c.fm (c.add eigh it x last) 0 = (tdTheta c w : ℂ) • ((eigh (c.fm x 0)).2 * diagonal (fun i => ((c.ref 0 i - (eigh (c.fm x 0)).1 i : ℝ) : ℂ)) * (eigh (c.fm x 0)).2ᴴ) := by
    rw [TD.fm]
    simp only [hadd, hm, smul_smul, ← Finset.sum_smul]
    congr 1
    rw [tdTheta, ← hS, Finset.mul_sum, Finset.sum_div]
    push_cast
    refine Finset.sum_congr rfl fun p _ => ?_
    ring
  rw [td_fm_add, hfa]
  conv_lhs => arg 1; rw [hs]
  rw [← Matrix.smul_mul, ← Matrix.mul_smul, ← Matrix.add_mul, ← Matrix.mul_add]
  congr 2
  rw [← diagonal_smul, diagonal_add]
  congr 1
  funext i
  simp

/-- All iterations with one sample: the distance to the reference shrinks by the same factor in each. -/
theorem td_one_run (he : Spec.EighOk eigh) (c : TD 1 P n n) (hb : c.batchDiv = 1) (hwin : ∀ b, c.win b = b) (w : ℝ) (hw : ∀ b, c.w b = w)
    (hmono : Monotone (c.ref 0)) (h0 : 0 ≤ tdTheta c w) (h1 : tdTheta c w ≤ 1) (m it : ℕ) (last x : Par P n) (hx : (c.fm x 0).IsHermitian) :
    ∃ y, c.run eigh m it last x = .ok y ∧ (c.fm y 0).IsHermitian ∧
      ∀ i, (eigh (c.fm y 0)).1 i = c.ref 0 i + (1 - tdTheta c w) ^ m * ((eigh (c.fm x 0)).1 i - c.ref 0 i) := by
  induction m generalizing it last x with
  | zero => exact ⟨x, rfl, hx, fun i => by rw [pow_zero]; ring⟩
  | succ m ih =>
    have hs := td_one_step he c hb hwin w hw it x last hx
    have hV := (geigh_spectral (he _ hx)).1
    have hm : Monotone fun i => (eigh (c.fm x 0)).1 i + tdTheta c w * (c.ref 0 i - (eigh (c.fm x 0)).1 i) := by
      intro i j hij
      have h2 := (he _ hx).mono hij
      have h3 := hmono hij
      show (eigh (c.fm x 0)).1 i + tdTheta c w * (c.ref 0 i - (eigh (c.fm x 0)).1 i) ≤ (eigh (c.fm x 0)).1 j + tdTheta c w * (c.ref 0 j - (eigh (c.fm x 0)).1 j)
      nlinarith
    have hg := spectral_geigh hV hm
    rw [← hs] at hg
    have hH : (c.fm (x + c.add eigh it x last) 0).IsHermitian := by
      rw [hs, IsHermitian, conjTranspose_mul, conjTranspose_mul, conjTranspose_conjTranspose, diagonal_conjTranspose, Matrix.mul_assoc]
      congr 2
      congr 1
      funext i
      simp
    have hu := geigh_unique (he _ hH) hg
    obtain ⟨y, h2, h3, h4⟩ := ih (it + 1) (c.add eigh it x last) (x + c.add eigh it x last) hH
    refine ⟨y, ?_, h3, fun i => ?_⟩
    · rw [TD.run, if_neg (by rw [hb]; exact one_ne_zero), if_neg (by rw [td_batch_one c hb]; exact Finset.univ_nonempty.ne_empty)]
      exact h2
    · rw [h4, hu, pow_succ]
      ring

/-- A perfect fit is kept. -/
theorem td_kept (c : TD K P n B) (hb : c.batchDiv ≠ 0) (hK : c.batchDiv ≤ K) (x : Par P n) (h : ∀ k b, (eigh (c.fm x k)).1 (c.win b) = c.ref k b) (m it : ℕ) :
    c.run eigh m it 0 x = .ok x := by
  have hm : ∀ k, c.mat eigh x k = 0 := by
    intro k
    rw [TD.mat]
    refine Finset.sum_eq_zero fun b _ => ?_
    rw [TD.diff, h, sub_self, zero_mul, Complex.ofReal_zero, zero_smul]
  have ha : ∀ it, c.add eigh it x 0 = 0 := by
    intro it
    funext p
    simp [TD.add, TD.grad, hm]
  induction m generalizing it with
  | zero => rfl
  | succ m ih =>
    rw [TD.run, if_neg hb, if_neg (td_batch_nonempty c hb hK it), ha]
    show TD.run eigh c m (it + 1) 0 (x + 0) = _
    rw [add_zero]
    exact ih (it + 1)

/-! ## the cached coefficients -/

theorem sum_zipIdx_fin (L : List (CMat n)) (c : ℕ → ℂ) : (L.zipIdx.map fun p => c p.2 • p.1).sum = ∑ i : Fin L.length, c i • L[i] := by
  rw [← List.sum_ofFn]
  congr 1
  refine List.ext_getElem (by simp) fun i h1 h2 => ?_
  simp

theorem msum_fin (t : TBM d n) (g : ℕ → Except Err ℂ) (c : ℕ → ℂ) (hne : t.params ≠ []) (h : ∀ i, i < t.params.length → g i = .ok (c i)) :
    t.msum g = .ok (∑ i : Fin t.params.length, c i • t.params[i]) := by
  rw [TBM.msum, if_neg hne, foldlM_smul g c _ _ 0 (fun i hi => by rw [Nat.zero_add]; exact h i hi), zero_add, sum_zipIdx_fin]

theorem pick_ok (t : TBM d n) (r0 : RVec d) (rest : List (RVec d)) (hn : t.nbrs = r0 :: rest) (one : ℂ) (fc fs : RVec d → ℂ) (i : ℕ) (hi : i < 2 * rest.length + 1) :
    ∃ c, t.pick one fc fs i = .ok c := by
  have hl : t.nbrs.length = rest.length + 1 := by rw [hn]; rfl
  rw [TBM.pick]
  by_cases h0 : i = 0
  · rw [if_pos h0]; exact ⟨_, rfl⟩
  rw [if_neg h0]
  have hidx : i % t.nbrs.length + i / t.nbrs.length < t.nbrs.length := by
    rw [hl]
    by_cases h1 : i < rest.length + 1
    · rw [Nat.mod_eq_of_lt h1, Nat.div_eq_of_lt h1]; omega
    · obtain ⟨j, rfl⟩ : ∃ j, i = j + (rest.length + 1) := ⟨i - (rest.length + 1), by omega⟩
      rw [Nat.add_mod_right, Nat.add_div_right _ (by omega), Nat.mod_eq_of_lt (by omega), Nat.div_eq_of_lt (by omega)]
      omega
  simp only [List.getElem?_eq_getElem hidx]
  exact ⟨_, rfl⟩

theorem pick_sq (t : TBM d n) (t' : TBM d 1) (hn : t'.nbrs = t.nbrs) (one : ℂ) (fc fs : RVec d → ℂ) (i : ℕ) (c : ℂ) (h : t.pick one fc fs i = .ok c) :
    t'.pick (one ^ 2) (fun r => fc r ^ 2) (fun r => fs r ^ 2) i = .ok (c ^ 2) := by
  rw [TBM.pick] at h ⊢
  rw [hn]
  by_cases h0 : i = 0
  · rw [if_pos h0] at h ⊢
    cases h; rfl
  rw [if_neg h0] at h ⊢
  simp only at h ⊢
  cases hx : t.nbrs[i % t.nbrs.length + i / t.nbrs.length]? with
  | none => rw [hx] at h; cases h
  | some r =>
    rw [hx] at h
    by_cases h1 : i < t.nbrs.length
    · simp only [if_pos h1] at h ⊢
      cases h; rfl
    · simp only [if_neg h1] at h ⊢
      cases h; rfl

theorem fi_real (t : TBM d n) (k : RVec d) (i : ℕ) (c : ℂ) (h : t.fi k i = .ok c) : c = (c.re : ℂ) := by
  rw [TBM.fi, TBM.pick] at h
  by_cases h0 : i = 0
  · rw [if_pos h0] at h; cases h; simp
  rw [if_neg h0] at h
  simp only at h
  cases hx : t.nbrs[i % t.nbrs.length + i / t.nbrs.length]? with
  | none => rw [hx] at h; cases h
  | some r =>
    rw [hx] at h
    by_cases h1 : i < t.nbrs.length
    · simp only [if_pos h1] at h; cases h; rfl
    · simp only [if_neg h1] at h; cases h; rfl

/-- What the theorems need from an object: neighbours and parameters fit. -/
structure TdFits (t : TBM d n) (rest : List (RVec d)) : Prop where
  nbrs : t.nbrs = 0 :: rest
  len : t.params.length = 2 * rest.length + 1

theorem tdF_ok {t : TBM d n} {rest : List (RVec d)} (ht : TdFits t rest) (ks : Fin K → RVec d) (k : Fin K) (p : Fin t.params.length) :
    t.fi (ks k) p = .ok (tdF t ks k p : ℂ) := by
  obtain ⟨c, hc⟩ := pick_ok t 0 rest ht.nbrs 1 (fun r => ((Real.cos (phase (ks k) r) - 1 : ℝ) : ℂ)) (fun r => ((Real.sin (phase (ks k) r) : ℝ) : ℂ)) p
    (by have := p.2; have := ht.len; omega)
  have hc' : t.fi (ks k) p = .ok c := hc
  rw [tdF, hc']
  exact congrArg Except.ok (fi_real t _ _ _ hc')

theorem tdF_zero {t : TBM d n} (ks : Fin K → RVec d) (k : Fin K) (p : Fin t.params.length) (hp : (p : ℕ) = 0) : tdF t ks k p = 1 := by
  have : t.fi (ks k) p = .ok 1 := by rw [TBM.fi, TBM.pick, if_pos hp]
  rw [tdF, this]
  simp

/-- The normalisation `Σ_p f_p²` of a sample. -/
noncomputable def Spec.scale (rest : List (RVec d)) (k : RVec d) : ℝ := 1 + 2 * (rest.map fun r => 1 - Real.cos (2 * Real.pi * (k ⬝ᵥ r))).sum

theorem scale_pos (rest : List (RVec d)) (k : RVec d) : 1 ≤ Spec.scale rest k := by
  have h : 0 ≤ (rest.map fun r => 1 - Real.cos (2 * Real.pi * (k ⬝ᵥ r))).sum := by
    refine List.sum_nonneg fun x hx => ?_
    obtain ⟨r, -, rfl⟩ := List.mem_map.1 hx
    have := Real.cos_le_one (2 * Real.pi * (k ⬝ᵥ r))
    linarith
  rw [Spec.scale]
  linarith

theorem tdF_sq {t : TBM d n} {rest : List (RVec d)} (ht : TdFits t rest) (ks : Fin K → RVec d) (k : Fin K) :
    ∑ p, tdF t ks k p ^ 2 = Spec.scale rest (ks k) := by
  let u : TBM d 1 := ⟨t.nbrs, 1 :: (List.replicate rest.length 1 ++ List.replicate rest.length 1), .ok⟩
  have h1 := msum_pick u 0 rest 1 (List.replicate rest.length 1) (List.replicate rest.length 1) ht.nbrs rfl (by simp) (by simp) (1 ^ 2)
    (fun r => ((Real.cos (phase (ks k) r) - 1 : ℝ) : ℂ) ^ 2) (fun r => ((Real.sin (phase (ks k) r) : ℝ) : ℂ) ^ 2)
  have hlen : u.params.length = t.params.length := by
    rw [ht.len]
    show (1 :: (List.replicate rest.length (1 : CMat 1) ++ List.replicate rest.length 1)).length = _
    simp; ring
  let C : ℕ → ℂ := fun i => if h : i < t.params.length then ((tdF t ks k ⟨i, h⟩ : ℝ) : ℂ) ^ 2 else 0
  have hC : ∀ i (h : i < t.params.length), C i = ((tdF t ks k ⟨i, h⟩ : ℝ) : ℂ) ^ 2 := fun i h => dif_pos h
  have h2 := msum_fin u (u.pick (1 ^ 2) (fun r => ((Real.cos (phase (ks k) r) - 1 : ℝ) : ℂ) ^ 2) (fun r => ((Real.sin (phase (ks k) r) : ℝ) : ℂ) ^ 2)) C
    (by simp [u]) (fun i hi => by
      rw [hlen] at hi
      rw [hC i hi]
      exact pick_sq t u rfl _ _ _ _ _ (tdF_ok ht ks k ⟨i, hi⟩))
  rw [h1] at h2
  have h3 := congrFun (congrFun (Except.ok.inj h2) 0) 0
  have h4 : ∀ i : Fin u.params.length, u.params[i] = 1 := by
    intro i
    have : u.params[i] ∈ u.params := List.getElem_mem _
    have h5 : ∀ X ∈ u.params, X = 1 := by
      intro X hX
      have hX' : X ∈ (1 :: (List.replicate rest.length (1 : CMat 1) ++ List.replicate rest.length 1)) := hX
      simp only [List.mem_cons, List.mem_append, List.mem_replicate] at hX'
      tauto
    exact h5 _ this
  have h6 : (∑ i : Fin u.params.length, C i • u.params[i]) 0 0 = ((∑ p, tdF t ks k p ^ 2 : ℝ) : ℂ) := by
    simp only [h4, Matrix.sum_apply, Matrix.smul_apply, Matrix.one_apply_eq, smul_eq_mul, mul_one]
    rw [← Fin.sum_congr' (fun i : Fin u.params.length => C i) hlen.symm]
    push_cast
    refine Finset.sum_congr rfl fun p _ => ?_
    exact hC p p.2
  rw [h6] at h3
  have h7 : ∀ (f : RVec d → ℂ) (l : List (RVec d)), ((l.zip (List.replicate l.length (1 : CMat 1))).map fun p => f p.1 • p.2).sum 0 0 = (l.map f).sum := by
    intro f l
    induction l with
    | nil => simp
    | cons r l ih =>
      rw [List.length_cons, List.replicate_succ, List.zip_cons_cons, List.map_cons, List.sum_cons, Matrix.add_apply, ih]
      simp
  have h9 : ∀ X Y Z : CMat 1, (X + (Y + Z)) 0 0 = X 0 0 + (Y 0 0 + Z 0 0) := fun _ _ _ => rfl
  rw [h9, h7 (fun r => ((Real.cos (phase (ks k) r) - 1 : ℝ) : ℂ) ^ 2), h7 (fun r => ((Real.sin (phase (ks k) r) : ℝ) : ℂ) ^ 2)] at h3
  have h8 : ∀ l : List (RVec d), (l.map fun r => ((Real.cos (phase (ks k) r) - 1 : ℝ) : ℂ) ^ 2).sum + (l.map fun r => ((Real.sin (phase (ks k) r) : ℝ) : ℂ) ^ 2).sum =
      ((2 * (l.map fun r => 1 - Real.cos (2 * Real.pi * (ks k ⬝ᵥ r))).sum : ℝ) : ℂ) := by
    intro l
    induction l with
    | nil => simp
    | cons r l ih =>
      have hr : (Real.cos (phase (ks k) r) - 1) ^ 2 + Real.sin (phase (ks k) r) ^ 2 = 2 * (1 - Real.cos (2 * Real.pi * (ks k ⬝ᵥ r))) := by
        have := Real.sin_sq_add_cos_sq (phase (ks k) r)
        rw [phase] at this ⊢
        linear_combination this
      simp only [List.map_cons, List.sum_cons]
      rw [mul_add, Complex.ofReal_add, ← ih, ← hr]
      push_cast
      ring
  rw [h8] at h3
  rw [Spec.scale]
  simp only [one_pow, one_smul, Matrix.one_apply_eq] at h3
  exact_mod_cast h3.symm

/-- `f` of an object whose parameters are replaced. -/
theorem td_fm_eq {t : TBM d n} {rest : List (RVec d)} (ht : TdFits t rest) (a : TDArgs K B d) (win : Fin B → Fin n) (x : Par t.params.length n) (k : Fin K) :
    ({ t with params := List.ofFn x } : TBM d n).f (a.ks k) = .ok ((a.td t win).fm x k) := by
  let u : TBM d n := { t with params := List.ofFn x }
  have hlen : u.params.length = t.params.length := List.length_ofFn
  let C : ℕ → ℂ := fun i => if h : i < t.params.length then ((tdF t a.ks k ⟨i, h⟩ : ℝ) : ℂ) else 0
  have hC : ∀ i (h : i < t.params.length), C i = ((tdF t a.ks k ⟨i, h⟩ : ℝ) : ℂ) := fun i h => dif_pos h
  have hne : u.params ≠ [] := by
    rw [← List.length_pos_iff, hlen, ht.len]; omega
  show u.f (a.ks k) = _
  rw [TBM.f, msum_fin u _ C hne (fun i hi => by
    rw [hlen] at hi
    rw [hC i hi]
    exact tdF_ok ht a.ks k ⟨i, hi⟩)]
  congr 1
  rw [TD.fm, ← Fin.sum_congr' _ hlen.symm]
  refine Finset.sum_congr rfl fun p _ => ?_
  rw [show C ((Fin.cast hlen.symm p : Fin u.params.length) : ℕ) = _ from hC p p.2]
  congr 1
  exact List.getElem_ofFn _

theorem td_fm_start {t : TBM d n} {rest : List (RVec d)} (ht : TdFits t rest) (a : TDArgs K B d) (win : Fin B → Fin n) (k : Fin K) :
    t.f (a.ks k) = .ok ((a.td t win).fm (fun p => t.params[p]) k) := by
  rw [← td_fm_eq ht a win]
  congr 1
  have : List.ofFn (fun p : Fin t.params.length => t.params[p]) = t.params := List.ofFn_getElem
  rw [this]

end TB.Opt

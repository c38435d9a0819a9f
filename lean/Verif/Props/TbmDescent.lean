import Verif.Lemmas.TbmDescent

/-!
# C106: `TightBindingModel.optimize`
-/

set_option linter.unusedSectionVars false

namespace TB.Opt
open Matrix TB

variable {K N n B d : ℕ} {eigh : CMat n → (Fin n → ℝ) × CMat n} {ρ : UR.Rep ℝ ℂ d n} {nbrs : List (RVec d)} {P : List (CMat n)} {t : TBM d n}

/-- The bands of an object at a point, from `np.linalg.eigh(f(k))`. -/
noncomputable def Spec.bandsOf (eigh : CMat n → (Fin n → ℝ) × CMat n) (t : TBM d n) (k : RVec d) : Fin n → ℝ :=
  match t.f k with
  | .ok H => (eigh H).1
  | .error _ => 0

theorem tdFits_of (h : mkTBM ρ nbrs (some P) = .ok t) : ∃ rest, nbrs = 0 :: rest ∧ TdFits t rest ∧ t.params = P ∧ ∀ Q, t.symm Q = .ok Q := by
  obtain ⟨⟨rest, rfl⟩, -, -, h1, h2, h3, h4⟩ := (C105_constructor _ _ _ _).1 h
  refine ⟨rest, rfl, ⟨h1, ?_⟩, ?_, h2⟩
  · simp only [List.length_cons] at h3; omega
  · rcases h4 with h4 | ⟨h4, -⟩
    · exact (Option.some.inj h4).symm
    · cases h4

/-- `optimize` of a constructed object with good arguments is the loop. -/
theorem optimize_eq {rest : List (RVec d)} (ht : TdFits t rest) (hs : ∀ Q, t.symm Q = .ok Q) (a : TDArgs K B d) (off : ℤ) (m : ℕ) (hK : K ≠ 0)
    (ho : 0 ≤ off ∧ off ≤ (n : ℤ) - B) (hkw : a.kw.length = 1 ∨ a.kw.length = K) :
    t.optimize eigh a off m = match (a.td t fun b => ⟨off.toNat + b, by omega⟩).run eigh m 0 0 fun p => t.params[p] with
      | .error e => .error e
      | .ok x => .ok { t with params := List.ofFn x } := by
  rw [TBM.optimize, if_neg hK, dif_pos ho, if_neg, if_neg (not_not.2 hkw)]
  · cases (a.td t fun b => ⟨off.toNat + b, by omega⟩).run eigh m 0 0 fun p => t.params[p] with
    | error e => rfl
    | ok x => simp only [hs]
  · rintro ⟨k, p, e, he⟩
    rw [tdF_ok ht a.ks k p] at he
    cases he

theorem td_run_ok (c : TD K N n B) (m it : ℕ) (last x : Par N n) (h : ∀ j, j < m → c.batch (it + j) ≠ ∅) (hb : m = 0 ∨ c.batchDiv ≠ 0) :
    ∃ y, c.run eigh m it last x = .ok y := by
  induction m generalizing it last x with
  | zero => exact ⟨x, rfl⟩
  | succ m ih =>
    have hb' : c.batchDiv ≠ 0 := hb.resolve_left (Nat.succ_ne_zero m)
    rw [TD.run, if_neg hb', if_neg (by simpa using h 0 (by omega))]
    exact ih _ _ _ (fun j hj => by have := h (j + 1) (by omega); rwa [show it + (j + 1) = it + 1 + j by ring] at this) (.inr hb')

theorem td_run_empty (c : TD K N n B) (m it : ℕ) (last x : Par N n) (hb : c.batchDiv ≠ 0) (h : ∃ j, j < m ∧ c.batch (it + j) = ∅) :
    c.run eigh m it last x = .error .indexError := by
  induction m generalizing it last x with
  | zero => obtain ⟨j, hj, -⟩ := h; omega
  | succ m ih =>
    rw [TD.run, if_neg hb]
    by_cases h0 : c.batch it = ∅
    · rw [if_pos h0]
    rw [if_neg h0]
    obtain ⟨j, hj, hj2⟩ := h
    cases j with
    | zero => exact absurd hj2 h0
    | succ j => exact ih _ _ _ ⟨j, by omega, by rw [← hj2]; congr 1; ring⟩

theorem td_batch_empty (c : TD K N n B) (it : ℕ) : c.batch it = ∅ ↔ K ≤ it % c.batchDiv := by
  rw [TD.batch, Finset.filter_eq_empty_iff]
  constructor
  · intro h
    by_contra hK
    exact h (Finset.mem_univ ⟨it % c.batchDiv, by omega⟩) (by simp)
  · intro h k _ hk
    have h1 := Nat.mod_le k.val c.batchDiv
    have := k.2
    omega

/-- C106.  `optimize` of a constructed object succeeds exactly if there is a sample, the window of the reference bands lies within the bands, there are one or `K` weights of
samples and no batch is empty (`batch_div` not larger than the number of samples, or so few iterations that no empty batch is reached).  The failures are: `IndexError` without
samples, `AssertionError` for the window, `ValueError` for the weights, `ZeroDivisionError` for `batch_div=0`, `IndexError` for an empty batch.  A returned object has the same
neighbours, as many parameters, and hermitian parameters if it had hermitian parameters before; without iterations nothing changes. -/
theorem C106_result (h : mkTBM ρ nbrs (some P) = .ok t) (a : TDArgs K B d) (off : ℤ) (m : ℕ) :
    ((∃ t', t.optimize eigh a off m = .ok t') ↔ K ≠ 0 ∧ (0 ≤ off ∧ off ≤ (n : ℤ) - B) ∧ (a.kw.length = 1 ∨ a.kw.length = K) ∧
      (m = 0 ∨ a.batchDiv ≠ 0 ∧ (a.batchDiv ≤ K ∨ m ≤ K))) ∧
    (K = 0 → t.optimize eigh a off m = .error .indexError) ∧
    (K ≠ 0 → ¬ (0 ≤ off ∧ off ≤ (n : ℤ) - B) → t.optimize eigh a off m = .error .assertionError) ∧
    (K ≠ 0 → 0 ≤ off ∧ off ≤ (n : ℤ) - B → ¬ (a.kw.length = 1 ∨ a.kw.length = K) → t.optimize eigh a off m = .error .valueError) ∧
    (K ≠ 0 → 0 ≤ off ∧ off ≤ (n : ℤ) - B → (a.kw.length = 1 ∨ a.kw.length = K) → m ≠ 0 → a.batchDiv = 0 → t.optimize eigh a off m = .error .zeroDivision) ∧
    (K ≠ 0 → 0 ≤ off ∧ off ≤ (n : ℤ) - B → (a.kw.length = 1 ∨ a.kw.length = K) → K < a.batchDiv → K < m → t.optimize eigh a off m = .error .indexError) ∧
    (∀ t', t.optimize eigh a off m = .ok t' → t'.nbrs = nbrs ∧ t'.params.length = P.length ∧ (m = 0 → t' = t) ∧
      mkTBM ρ nbrs (some t'.params) = .ok t' ∧ ((∀ X ∈ P, X.IsHermitian) → ∀ X ∈ t'.params, X.IsHermitian)) := by
  obtain ⟨rest, hr, ht, hP, hs⟩ := tdFits_of h
  have hbad : ∀ (_ : 0 ≤ off ∧ off ≤ (n : ℤ) - B), ¬ (∃ k, ∃ p : Fin t.params.length, ∃ e, t.fi (a.ks k) p = .error e) := by
    rintro _ ⟨k, p, e, he⟩
    rw [tdF_ok ht a.ks k p] at he
    cases he
  have e1 : K = 0 → t.optimize eigh a off m = .error .indexError := fun hK => by rw [TBM.optimize, if_pos hK]
  have e2 : K ≠ 0 → ¬ (0 ≤ off ∧ off ≤ (n : ℤ) - B) → t.optimize eigh a off m = .error .assertionError := fun hK ho => by
    rw [TBM.optimize, if_neg hK, dif_neg ho]
  have e3 : K ≠ 0 → 0 ≤ off ∧ off ≤ (n : ℤ) - B → ¬ (a.kw.length = 1 ∨ a.kw.length = K) → t.optimize eigh a off m = .error .valueError := fun hK ho hk => by
    rw [TBM.optimize, if_neg hK, dif_pos ho, if_neg (hbad ho), if_pos hk]
  have e4 : K ≠ 0 → 0 ≤ off ∧ off ≤ (n : ℤ) - B → (a.kw.length = 1 ∨ a.kw.length = K) → m ≠ 0 → a.batchDiv = 0 →
      t.optimize eigh a off m = .error .zeroDivision := fun hK ho hk hm hb => by
    rw [optimize_eq ht hs a off m hK ho hk]
    obtain ⟨m, rfl⟩ := Nat.exists_eq_succ_of_ne_zero hm
    have hb' : (a.td t fun b => ⟨off.toNat + b, by omega⟩ : TD K t.params.length n B).batchDiv = 0 := hb
    rw [TD.run, if_pos hb']
  have e5 : K ≠ 0 → 0 ≤ off ∧ off ≤ (n : ℤ) - B → (a.kw.length = 1 ∨ a.kw.length = K) → K < a.batchDiv → K < m →
      t.optimize eigh a off m = .error .indexError := fun hK ho hk hb hm => by
    have hb0 : a.batchDiv ≠ 0 := by omega
    rw [optimize_eq ht hs a off m hK ho hk, td_run_empty (a.td t fun b => ⟨off.toNat + b, by omega⟩) m 0 0 _ hb0 ⟨K, hm, (td_batch_empty _ _).2 (by
      rw [Nat.zero_add]
      show K ≤ K % a.batchDiv
      rw [Nat.mod_eq_of_lt hb])⟩]
  refine ⟨⟨?_, ?_⟩, e1, e2, e3, e4, e5, ?_⟩
  · rintro ⟨t', h'⟩
    by_cases hK : K = 0
    · rw [e1 hK] at h'; cases h'
    by_cases ho : 0 ≤ off ∧ off ≤ (n : ℤ) - B
    swap
    · rw [e2 hK ho] at h'; cases h'
    by_cases hk : a.kw.length = 1 ∨ a.kw.length = K
    swap
    · rw [e3 hK ho hk] at h'; cases h'
    refine ⟨hK, ho, hk, ?_⟩
    by_contra hc
    push Not at hc
    by_cases hb : a.batchDiv = 0
    · rw [e4 hK ho hk hc.1 hb] at h'; cases h'
    · obtain ⟨h1, h2⟩ := hc.2 hb
      rw [e5 hK ho hk h1 h2] at h'; cases h'
  · rintro ⟨hK, ho, hk, hm⟩
    rw [optimize_eq ht hs a off m hK ho hk]
    obtain ⟨y, hy⟩ := td_run_ok (eigh := eigh) (a.td t fun b => ⟨off.toNat + b, by omega⟩) m 0 0 (fun p => t.params[p]) (fun j hj => by
      rcases hm with hm | ⟨hb, hm⟩
      · omega
      · rw [Ne, td_batch_empty]
        show ¬ K ≤ (0 + j) % a.batchDiv
        rw [Nat.zero_add]
        have h1 := Nat.mod_lt j (Nat.pos_of_ne_zero hb)
        have h2 := Nat.mod_le j a.batchDiv
        omega) (hm.imp id fun h => h.1)
    rw [hy]
    exact ⟨_, rfl⟩
  · intro t' h'
    by_cases hK : K = 0
    · rw [e1 hK] at h'; cases h'
    by_cases ho : 0 ≤ off ∧ off ≤ (n : ℤ) - B
    swap
    · rw [e2 hK ho] at h'; cases h'
    by_cases hk : a.kw.length = 1 ∨ a.kw.length = K
    swap
    · rw [e3 hK ho hk] at h'; cases h'
    rw [optimize_eq ht hs a off m hK ho hk] at h'
    cases hy : (a.td t fun b => ⟨off.toNat + b, by omega⟩).run eigh m 0 0 (fun p => t.params[p]) with
    | error e => rw [hy] at h'; cases h'
    | ok y =>
      rw [hy] at h'
      cases h'
      have hn : t.nbrs = nbrs := ht.nbrs.trans hr.symm
      have hl : (List.ofFn y).length = P.length := by rw [List.length_ofFn, hP]
      refine ⟨hn, hl, ?_, ?_, ?_⟩
      · rintro rfl
        rw [TD.run] at hy
        cases hy
        have : List.ofFn (fun p : Fin t.params.length => t.params[p]) = t.params := List.ofFn_getElem
        rw [this]
      · obtain ⟨g1, g2, g3, g4, g5, g6, g7⟩ := (C105_constructor _ _ _ _).1 h
        exact (C105_constructor _ _ _ _).2 ⟨g1, g2, g3, g4, g5, by rw [hP] at g6; rw [← g6]; exact congrArg (· + 1) hl, .inl rfl⟩
      · intro hH X hX
        obtain ⟨p, rfl⟩ := (List.mem_ofFn' _ _).1 hX
        exact td_run_hermitian _ m 0 0 _ y (fun p => hH _ (by rw [← hP]; exact List.getElem_mem _)) (fun p => isHermitian_zero) hy p

/-- C106.  `k_smpl_weights` has no effect: two lists of weights of an accepted length give the same result. -/
theorem C106_weights_defect (a a' : TDArgs K B d) (off : ℤ) (m : ℕ) (kw : List ℝ) (ha : a' = { a with kw := kw }) (h1 : a.kw.length = 1 ∨ a.kw.length = K)
    (h2 : kw.length = 1 ∨ kw.length = K) : t.optimize eigh a off m = t.optimize eigh a' off m := by
  subst ha
  simp only [TBM.optimize, h1, h2, not_true, if_false]
  rfl

/-- C106.  A model which reproduces the reference bands at all samples is not changed. -/
theorem C106_kept (h : mkTBM ρ nbrs (some P) = .ok t) (a : TDArgs K B d) (off : ℕ) (ho : off + B ≤ n) (m : ℕ) (hK : K ≠ 0)
    (hkw : a.kw.length = 1 ∨ a.kw.length = K) (hb : a.batchDiv ≠ 0) (hbK : a.batchDiv ≤ K)
    (hfit : ∀ (k : Fin K) (b : Fin B), Spec.bandsOf eigh t (a.ks k) ⟨off + b, by omega⟩ = a.ref k b) : t.optimize eigh a off m = .ok t := by
  obtain ⟨rest, hr, ht, hP, hs⟩ := tdFits_of h
  rw [optimize_eq ht hs a off m hK (by omega) hkw, td_kept (a.td t fun b => ⟨(off : ℤ).toNat + b, by omega⟩) hb hbK]
  · have : List.ofFn (fun p : Fin t.params.length => t.params[p]) = t.params := List.ofFn_getElem
    simp only [this]
  · intro k b
    have h1 := hfit k b
    rw [Spec.bandsOf, td_fm_start ht a fun b => ⟨(off : ℤ).toNat + b, by omega⟩] at h1
    exact h1

/-- C106.  One sample, all bands, a constant weight `w` and an ascending reference: let `S = 1 + 2 Σ_r (1 - cos 2πk·r)`, `θ = learning_rate w / S` (`learning_rate w (S - 1) / S²`
with `train_k0=False`) lie between 0 and 1.  Then every iteration multiplies the distance of each band to the reference with `1 - θ`; so the fit is
exact after one iteration only for `θ = 1`. -/
theorem C106_one_point (he : Spec.EighOk eigh) (h : mkTBM ρ nbrs (some P) = .ok t) (hH : ∀ X ∈ P, X.IsHermitian) (a : TDArgs 1 n d) (hkw : a.kw.length = 1)
    (hb : a.batchDiv = 1) (w : ℝ) (hw : ∀ b, a.w b = w) (hmono : Monotone (a.ref 0)) (S θ : ℝ)
    (hS : S = 1 + 2 * (nbrs.map fun r => 1 - Real.cos (2 * Real.pi * (a.ks 0 ⬝ᵥ r))).sum)
    (hθ : θ = a.lr * w * (if a.trainK0 then 1 / S else (S - 1) / S ^ 2)) (h0 : 0 ≤ θ) (h1 : θ ≤ 1) (m : ℕ) :
    ∃ t', t.optimize eigh a 0 m = .ok t' ∧ mkTBM ρ nbrs (some t'.params) = .ok t' ∧
      ∀ i, Spec.bandsOf eigh t' (a.ks 0) i = a.ref 0 i + (1 - θ) ^ m * (Spec.bandsOf eigh t (a.ks 0) i - a.ref 0 i) := by
  obtain ⟨rest, hr, ht, hP, hs⟩ := tdFits_of h
  set c := a.td t (fun b => ⟨(0 : ℤ).toNat + b, by simp⟩) with hc
  have hS' : S = Spec.scale rest (a.ks 0) := by
    rw [hS, hr, Spec.scale]
    simp
  have hSpos : S ≠ 0 := by
    have := scale_pos rest (a.ks 0)
    rw [← hS'] at this
    linarith
  have hsum : ∑ p, c.F 0 p ^ 2 = S := by rw [hS']; exact tdF_sq ht a.ks 0
  have hz : 0 < t.params.length := by rw [ht.len]; omega
  have hgate : ∑ p, tdGate c p * c.F 0 p ^ 2 = if a.trainK0 then S else S - 1 := by
    by_cases hk : a.trainK0 = true
    · rw [if_pos hk, ← hsum]
      refine Finset.sum_congr rfl fun p _ => ?_
      have : ¬ (c.trainK0 = false ∧ (p : ℕ) = 0) := by
        rintro ⟨h3, -⟩
        have h4 : a.trainK0 = false := h3
        rw [hk] at h4
        cases h4
      rw [tdGate, if_neg this, one_mul]
    · rw [if_neg hk, ← hsum]
      have hk' : c.trainK0 = false := Bool.eq_false_iff.2 hk
      have h3 : ∀ p : Fin t.params.length, tdGate c p * c.F 0 p ^ 2 = c.F 0 p ^ 2 - if p = ⟨0, hz⟩ then 1 else 0 := by
        intro p
        rw [tdGate]
        by_cases hp : (p : ℕ) = 0
        · have h4 : c.F 0 p = 1 := tdF_zero a.ks 0 p hp
          rw [if_pos ⟨hk', hp⟩, if_pos (Fin.ext hp), h4]; norm_num
        · rw [if_neg (fun h4 => hp h4.2), if_neg (fun h4 => hp (congrArg Fin.val h4))]; ring
      simp only [h3, Finset.sum_sub_distrib, Finset.sum_ite_eq', Finset.mem_univ, if_true]
  have hθ' : tdTheta c w = θ := by
    have hlr : c.lr = a.lr := rfl
    rw [tdTheta, hgate, hsum, hθ, hlr]
    by_cases hk : a.trainK0 = true
    · rw [if_pos hk, if_pos hk]; field_simp
    · rw [if_neg hk, if_neg hk]; field_simp
  have hx : ∀ p : Fin t.params.length, (t.params[p]).IsHermitian := fun p => hH _ (by rw [← hP]; exact List.getElem_mem _)
  obtain ⟨y, h2, -, h3⟩ := td_one_run he c hb (fun b => Fin.ext (by simp [hc, TDArgs.td])) w hw hmono (by rw [hθ']; exact h0) (by rw [hθ']; exact h1) m 0 0 (fun p => t.params[p])
    (td_fm_hermitian c _ hx 0)
  have hopt : t.optimize eigh a 0 m = .ok { t with params := List.ofFn y } := by
    rw [optimize_eq ht hs a 0 m one_ne_zero (by simp) (.inl hkw), h2]
  refine ⟨_, hopt, ((C106_result h a 0 m).2.2.2.2.2.2 _ hopt).2.2.2.1, fun i => ?_⟩
  have h4 := h3 i
  rw [hθ'] at h4
  rw [Spec.bandsOf, Spec.bandsOf, td_fm_eq ht a (fun b => ⟨(0 : ℤ).toNat + b, by simp⟩), td_fm_start ht a (fun b => ⟨(0 : ℤ).toNat + b, by simp⟩)]
  exact h4

/-! ## descent -/

/-- The weighted loss which the gradient belongs to: the squared differences at a sample divided by the square of `S = 1 + 2 Σ_r (1 - cos 2πk·r)`, times the weights of the bands. -/
noncomputable def Spec.fitLoss (eigh : CMat n → (Fin n → ℝ) × CMat n) (t : TBM d n) (a : TDArgs K B d) (off : ℕ) (ho : off + B ≤ n) : ℝ :=
  ∑ k, (1 / Spec.scale t.nbrs (a.ks k)) ^ 2 * ∑ b : Fin B, a.w b * (Spec.bandsOf eigh t (a.ks k) ⟨off + b, by omega⟩ - a.ref k b) ^ 2

theorem td_fm_smul (c : TD K N n B) (s : ℝ) (y : Par N n) (k : Fin K) : c.fm (s • y) k = s • c.fm y k := by
  simp only [TD.fm, Pi.smul_apply, Finset.smul_sum]
  refine Finset.sum_congr rfl fun p _ => ?_
  rw [smul_comm]

theorem td_band_deriv (he : Spec.EighOk eigh) (c : TD K N n B) (x y : Par N n) (hx : ∀ p, (x p).IsHermitian) (hy : ∀ p, (y p).IsHermitian) (k : Fin K) (b : Fin B)
    (hs : ∀ j, j ≠ c.win b → (eigh (c.fm x k)).1 j ≠ (eigh (c.fm x k)).1 (c.win b)) :
    HasDerivAt (fun s : ℝ => (eigh (c.fm (x + s • y) k)).1 (c.win b))
      (star (fun i => (eigh (c.fm x k)).2 i (c.win b)) ⬝ᵥ (c.fm y k *ᵥ fun i => (eigh (c.fm x k)).2 i (c.win b))).re 0 := by
  have h := C52_simple (fun s : ℝ => c.fm (x + s • y) k) (fun _ => 1) (fun s => (eigh (c.fm (x + s • y) k)).2) (c.fm y k) 0
    (fun s => (eigh (c.fm (x + s • y) k)).1) 0
    (Filter.Eventually.of_forall fun s => he _ (td_fm_hermitian c _ (fun p => (hx p).add (rsmul_hermitian s (hy p))) k))
    (by
      intro i j
      have h2 : ∀ s : ℝ, c.fm (x + s • y) k i j = c.fm x k i j + (s : ℂ) * c.fm y k i j := by
        intro s
        rw [td_fm_add, td_fm_smul, Matrix.add_apply, Matrix.smul_apply, Complex.real_smul]
      simp only [h2]
      have h3 : HasDerivAt (fun t : ℝ => (t : ℂ)) 1 0 := (hasDerivAt_id (0 : ℝ)).ofReal_comp
      simpa using (h3.mul_const (c.fm y k i j)).const_add (c.fm x k i j))
    (fun i j => hasDerivAt_const _ _) (c.win b) (by simpa using hs)
  refine h.congr_deriv ?_
  simp only [zero_smul, add_zero]
  rw [geighGrad]
  have h4 : rot (eigh (c.fm x k)).2 (0 : CMat n) = 0 := by simp [rot]
  rw [h4, rot_apply]
  simp

theorem scale_cons (rest : List (RVec d)) (k : RVec d) : Spec.scale (0 :: rest) k = Spec.scale rest k := by
  simp [Spec.scale]

/-- C106.  Without batches and at simple bands of the window one iteration either changes nothing, for every learning rate and number of iterations, or decreases the weighted loss
for all small positive learning rates. -/
theorem C106_descent (he : Spec.EighOk eigh) (h : mkTBM ρ nbrs (some P) = .ok t) (hH : ∀ X ∈ P, X.IsHermitian) (a : TDArgs K B d) (off : ℕ) (ho : off + B ≤ n)
    (hK : K ≠ 0) (hkw : a.kw.length = 1 ∨ a.kw.length = K) (hb : a.batchDiv = 1)
    (hs : ∀ (k : Fin K) (b : Fin B) (j : Fin n), (j : ℕ) ≠ off + b → Spec.bandsOf eigh t (a.ks k) j ≠ Spec.bandsOf eigh t (a.ks k) ⟨off + b, by omega⟩) :
    (∀ lr m, t.optimize eigh { a with lr := lr } off m = .ok t) ∨
    ∃ l0 > (0 : ℝ), ∀ lr, 0 < lr → lr < l0 → ∃ t', t.optimize eigh { a with lr := lr } off 1 = .ok t' ∧ Spec.fitLoss eigh t' a off ho < Spec.fitLoss eigh t a off ho := by
  obtain ⟨rest, hr, ht, hP, hsym⟩ := tdFits_of h
  have hx : ∀ p : Fin t.params.length, (t.params[p]).IsHermitian := fun p => hH _ (by rw [← hP]; exact List.getElem_mem _)
  let win : Fin B → Fin n := fun b => ⟨(off : ℤ).toNat + b, by omega⟩
  let c : TD K t.params.length n B := a.td t win
  let x : Par t.params.length n := fun p => t.params[p]
  have hofn : List.ofFn x = t.params := List.ofFn_getElem
  have hKr : (K : ℝ) ≠ 0 := by exact_mod_cast hK
  have hu : ∀ it, c.batch it = Finset.univ := td_batch_one c hb
  let S : Fin K → ℝ := fun k => Spec.scale rest (a.ks k)
  have hS : ∀ k, S k ≠ 0 := fun k => by
    have := scale_pos rest (a.ks k)
    show Spec.scale rest (a.ks k) ≠ 0
    linarith
  have hsc : ∀ it k, c.sc it k = 1 / (K * S k) := by
    intro it k
    have h1 : ∑ p, c.F k p ^ 2 = S k := tdF_sq ht a.ks k
    rw [TD.sc, hu]
    simp only [Finset.card_univ, Fintype.card_fin, sq_abs, ← two_mul, ← Finset.mul_sum]
    rw [h1]
    have := hS k
    field_simp
  let y : Par t.params.length n := fun p => tdGate c p • c.grad eigh 0 x p
  have hgrad : ∀ it, c.grad eigh it x = c.grad eigh 0 x := by
    intro it
    funext p
    simp only [TD.grad, hu, hsc]
  have hadd : ∀ lr it, (({ a with lr := lr } : TDArgs K B d).td t win).add eigh it x 0 = lr • y := by
    intro lr it
    funext p
    have h1 : (({ a with lr := lr } : TDArgs K B d).td t win).grad eigh it x p = c.grad eigh 0 x p := by
      rw [← hgrad it]; rfl
    show (if a.trainK0 = false ∧ (p : ℕ) = 0 then 0 else lr • (({ a with lr := lr } : TDArgs K B d).td t win).grad eigh it x p) + _ • (0 : Par t.params.length n) p = lr • y p
    rw [h1, Pi.zero_apply, smul_zero, add_zero]
    show _ = lr • ((if a.trainK0 = false ∧ (p : ℕ) = 0 then (0 : ℝ) else 1) • c.grad eigh 0 x p)
    by_cases hg : a.trainK0 = false ∧ (p : ℕ) = 0
    · rw [if_pos hg, if_pos hg, zero_smul, smul_zero]
    · rw [if_neg hg, if_neg hg, one_smul]
  have hopt : ∀ lr m, t.optimize eigh { a with lr := lr } off m = match (({ a with lr := lr } : TDArgs K B d).td t win).run eigh m 0 0 x with
      | .error e => .error e
      | .ok x => .ok { t with params := List.ofFn x } := fun lr m => optimize_eq ht hsym { a with lr := lr } off m hK (by omega) hkw
  have hne : ∀ lr it, ¬ ((({ a with lr := lr } : TDArgs K B d).td t win).batch it = ∅) := by
    intro lr it
    have : (({ a with lr := lr } : TDArgs K B d).td t win).batch it = Finset.univ := td_batch_one _ hb it
    rw [this]
    exact (Finset.univ_nonempty_iff.2 ⟨⟨0, Nat.pos_of_ne_zero hK⟩⟩).ne_empty
  have hb0 : ∀ lr, ¬ (({ a with lr := lr } : TDArgs K B d).td t win).batchDiv = 0 := by
    intro lr h1
    have h2 : a.batchDiv = 0 := h1
    omega
  by_cases hy0 : y = 0
  · left
    intro lr m
    have hrun : ∀ it, (({ a with lr := lr } : TDArgs K B d).td t win).run eigh m it 0 x = .ok x := by
      induction m with
      | zero => intro it; rfl
      | succ m ih =>
        intro it
        rw [TD.run, if_neg (hb0 lr), if_neg (hne lr it), hadd, hy0, smul_zero]
        show (({ a with lr := lr } : TDArgs K B d).td t win).run eigh m (it + 1) 0 (x + 0) = _
        rw [add_zero]
        exact ih (it + 1)
    rw [hopt, hrun]
    simp only [hofn]
  · right
    have hy : ∀ p, (y p).IsHermitian := fun p => rsmul_hermitian _ (td_grad_hermitian c 0 x p)
    let v : Fin K → Fin B → Fin n → ℂ := fun k b i => (eigh (c.fm x k)).2 i (c.win b)
    let D : Fin K → Fin B → ℝ := fun k b => (star (v k b) ⬝ᵥ (c.fm y k *ᵥ v k b)).re
    let e : Fin K → Fin B → ℝ := fun k b => (eigh (c.fm x k)).1 (c.win b)
    have hbands : ∀ k, Spec.bandsOf eigh t (a.ks k) = (eigh (c.fm x k)).1 := by
      intro k
      rw [Spec.bandsOf, td_fm_start ht a win]
    have hd : ∀ k b, HasDerivAt (fun s : ℝ => (eigh (c.fm (x + s • y) k)).1 (c.win b)) (D k b) 0 := by
      intro k b
      refine td_band_deriv he c x y hx hy k b fun j hj => ?_
      have h1 := hs k b j (fun h2 => hj (Fin.ext h2))
      rw [hbands] at h1
      exact h1
    let L : ℝ → ℝ := fun s => ∑ k, (1 / S k) ^ 2 * ∑ b, a.w b * ((eigh (c.fm (x + s • y) k)).1 (c.win b) - a.ref k b) ^ 2
    have hL : HasDerivAt L (∑ k, (1 / S k) ^ 2 * ∑ b, a.w b * (2 * (e k b - a.ref k b) * D k b)) 0 := by
      refine HasDerivAt.fun_sum fun k _ => HasDerivAt.const_mul _ (HasDerivAt.fun_sum fun b _ => HasDerivAt.const_mul _ ?_)
      refine (((hd k b).sub_const (a.ref k b)).pow 2).congr_deriv ?_
      simp only [zero_smul, add_zero]
      push_cast
      ring
    have hpar : parIp y (c.grad eigh 0 x) = ∑ k, ∑ b, (1 / (K * S k)) ^ 2 * ((a.ref k b - e k b) * a.w b) * D k b := by
      have h1 := parIp_grad (fun k p => ((c.F k p : ℝ) : ℂ)) v (fun k b => (1 / (K * S k)) ^ 2 * ((a.ref k b - e k b) * a.w b)) y
      have h2 : (fun p => ∑ k, ∑ b, (star ((c.F k p : ℝ) : ℂ) * (((1 / (K * S k)) ^ 2 * ((a.ref k b - e k b) * a.w b) : ℝ) : ℂ)) • outer (v k b)) = c.grad eigh 0 x := by
        funext p
        simp only [TD.grad, hu, hsc, TD.mat, Finset.smul_sum, smul_smul]
        refine Finset.sum_congr rfl fun k _ => Finset.sum_congr rfl fun b _ => ?_
        congr 1
        rw [Complex.star_def, Complex.conj_ofReal, ← Complex.ofReal_mul, ← Complex.ofReal_mul]
        congr 1
        show _ = c.F k p * (1 / (K * S k)) * (1 / (K * S k)) * ((a.ref k b - e k b) * a.w b)
        ring
      have h3 : ∀ k b, jac (fun k p => ((c.F k p : ℝ) : ℂ)) v y k b = 2 * D k b := by
        intro k b
        have h4 : fmat (fun k p => ((c.F k p : ℝ) : ℂ)) y k = c.fm y k + c.fm y k := by
          rw [fmat]
          congr 1
          exact (td_fm_hermitian c y hy k).eq
        rw [jac, h4, add_mulVec, dotProduct_add, Complex.add_re, two_mul]
      rw [h2] at h1
      simp only [h3] at h1
      have h5 : ∑ k, ∑ b, (1 / (K * S k)) ^ 2 * ((a.ref k b - e k b) * a.w b) * (2 * D k b) =
          2 * ∑ k, ∑ b, (1 / (K * S k)) ^ 2 * ((a.ref k b - e k b) * a.w b) * D k b := by
        simp only [Finset.mul_sum]
        exact Finset.sum_congr rfl fun k _ => Finset.sum_congr rfl fun b _ => by ring
      linarith
    have hyy : parIp y (c.grad eigh 0 x) = parIp y y := by
      refine Finset.sum_congr rfl fun p _ => Finset.sum_congr rfl fun i _ => Finset.sum_congr rfl fun j _ => ?_
      show (star ((tdGate c p • c.grad eigh 0 x p) i j) * _).re = (star ((tdGate c p • c.grad eigh 0 x p) i j) * (tdGate c p • c.grad eigh 0 x p) i j).re
      rw [tdGate]
      by_cases hg : c.trainK0 = false ∧ (p : ℕ) = 0
      · rw [if_pos hg]; simp
      · rw [if_neg hg, one_smul]
    have hpos : 0 < parIp y y := lt_of_le_of_ne (parIp_isIp.nonneg _) fun h1 => hy0 (parIp_isIp.zero _ h1.symm)
    have hLval : ∑ k, (1 / S k) ^ 2 * ∑ b, a.w b * (2 * (e k b - a.ref k b) * D k b) = -(2 * K ^ 2) * parIp y y := by
      rw [← hyy, hpar, Finset.mul_sum]
      refine Finset.sum_congr rfl fun k _ => ?_
      rw [Finset.mul_sum, Finset.mul_sum]
      refine Finset.sum_congr rfl fun b _ => ?_
      have := hS k
      field_simp
      ring
    have hneg : ∑ k, (1 / S k) ^ 2 * ∑ b, a.w b * (2 * (e k b - a.ref k b) * D k b) < 0 := by
      rw [hLval]
      have : 0 < (K : ℝ) ^ 2 := by positivity
      nlinarith
    obtain ⟨l0, h1, h2⟩ := neg_deriv_decreases hL hneg
    refine ⟨l0, h1, fun lr h3 h4 => ⟨{ t with params := List.ofFn (x + lr • y) }, ?_, ?_⟩⟩
    · rw [hopt, TD.run, if_neg (hb0 lr), if_neg (hne lr 0), hadd]
      rfl
    · have h5 : ∀ s : ℝ, Spec.fitLoss eigh { t with params := List.ofFn (x + s • y) } a off ho = L s := by
        intro s
        refine Finset.sum_congr rfl fun k _ => ?_
        show (1 / Spec.scale t.nbrs (a.ks k)) ^ 2 * _ = _
        have h7 : Spec.scale t.nbrs (a.ks k) = S k := by rw [ht.nbrs, scale_cons]
        rw [h7]
        congr 1
        refine Finset.sum_congr rfl fun b _ => ?_
        rw [Spec.bandsOf, td_fm_eq ht a win]
        rfl
      have h6 := h5 0
      rw [zero_smul, add_zero, hofn] at h6
      rw [h5]
      rw [show Spec.fitLoss eigh t a off ho = L 0 from h6]
      exact h2 lr h3 h4

/-! ## examples and a defect -/

theorem eigh_scalar {eigh1 : CMat 1 → (Fin 1 → ℝ) × CMat 1} (he : Spec.EighOk eigh1) (X : CMat 1) (hX : X.IsHermitian) :
    (((eigh1 X).1 0 : ℝ) : ℂ) = X 0 0 ∧ outer (fun i => (eigh1 X).2 i 0) = 1 := by
  obtain ⟨h1, h2⟩ := geigh_spectral (he X hX)
  have h3 : (eigh1 X).2 0 0 * star ((eigh1 X).2 0 0) = 1 := by
    have := congrFun (congrFun h1 0) 0
    simpa [mul_apply] using this
  constructor
  · have h4 := congrFun (congrFun h2 0) 0
    rw [mul_apply, Fin.sum_univ_one, mul_diagonal, conjTranspose_apply] at h4
    linear_combination (-(((eigh1 X).1 0 : ℝ) : ℂ)) * h3 - h4
  · ext i j
    fin_cases i; fin_cases j
    simpa [outer, vecMulVec_apply] using h3

/-- A chain with all parameters zero. -/
noncomputable def exZero : TBM 1 1 := ⟨[0, ![1]], [0, 0, 0], .ok⟩

theorem exZero_ok : mkTBM (exTriv 1 1) [0, ![1]] (some [0, 0, 0]) = .ok exZero :=
  (C105_constructor _ _ _ _).2 ⟨⟨_, rfl⟩, rfl, rfl, rfl, fun _ => rfl, rfl, .inl rfl⟩

theorem exZero_herm : ∀ X ∈ ([0, 0, 0] : List (CMat 1)), X.IsHermitian := by
  intro X hX
  simp only [List.mem_cons, List.not_mem_nil, or_false, or_self] at hX
  subst hX
  exact isHermitian_zero

theorem exZero_fits : TdFits exZero [![1]] := ⟨rfl, rfl⟩

/-- The samples `0` and `1/2` with the references `1` and `-2`. -/
noncomputable def exTdArgs (lr : ℝ) : TDArgs 2 1 1 :=
  { ks := fun k => if k = 0 then ![0] else ![1 / 2], kw := [1], ref := fun k _ => if k = 0 then 1 else -2, w := fun _ => 1, batchDiv := 1, lr := lr, trainK0 := true }

theorem exZero_F (lr : ℝ) (p : Fin 3) : tdF exZero (exTdArgs lr).ks 0 p = ![1, 0, 0] p ∧ tdF exZero (exTdArgs lr).ks 1 p = ![1, -2, 0] p := by
  have e1 : Real.cos (2 * Real.pi * (1 / 2)) = -1 := by rw [show 2 * Real.pi * (1 / 2) = Real.pi by ring]; exact Real.cos_pi
  have e2 : Real.sin (2 * Real.pi * (1 / 2)) = 0 := by rw [show 2 * Real.pi * (1 / 2) = Real.pi by ring]; exact Real.sin_pi
  have e3 : phase (![1 / 2] : RVec 1) ![1] = 2 * Real.pi * (1 / 2) := by simp [phase]
  have e4 : phase (![0] : RVec 1) ![1] = 0 := by simp [phase]
  have e5 : exZero.nbrs = [0, ![1]] := rfl
  fin_cases p
  · exact ⟨tdF_zero _ _ _ rfl, tdF_zero _ _ _ rfl⟩
  · constructor
    · have : exZero.fi ((exTdArgs lr).ks 0) 1 = .ok ((Real.cos (phase (![0] : RVec 1) ![1]) - 1 : ℝ) : ℂ) := rfl
      simp only [tdF]
      rw [this]
      simp [e4]
    · have : exZero.fi ((exTdArgs lr).ks 1) 1 = .ok ((Real.cos (phase (![1 / 2] : RVec 1) ![1]) - 1 : ℝ) : ℂ) := rfl
      simp only [tdF]
      rw [this, e3, e1]
      norm_num
  · constructor
    · have : exZero.fi ((exTdArgs lr).ks 0) 2 = .ok ((Real.sin (phase (![0] : RVec 1) ![1]) : ℝ) : ℂ) := rfl
      simp only [tdF]
      rw [this]
      simp [e4]
    · have : exZero.fi ((exTdArgs lr).ks 1) 2 = .ok ((Real.sin (phase (![1 / 2] : RVec 1) ![1]) : ℝ) : ℂ) := rfl
      simp only [tdF]
      rw [this, e3, e2]
      simp

/-- C106.  The loss which `optimize` prints, without weights, need not decrease: for the chain with parameters zero, the samples `0` and `1/2` and the references `1` and `-2` one
iteration increases the sum of the squared differences for every positive learning rate. -/
theorem C106_loss_defect {eigh1 : CMat 1 → (Fin 1 → ℝ) × CMat 1} (he : Spec.EighOk eigh1) (lr : ℝ) (hlr : 0 < lr) :
    ∃ t', exZero.optimize eigh1 (exTdArgs lr) 0 1 = .ok t' ∧
      Spec.bandsOf eigh1 exZero ![0] 0 = 0 ∧ Spec.bandsOf eigh1 exZero ![1 / 2] 0 = 0 ∧
      (1 - 0) ^ 2 + (-2 - 0) ^ 2 < (1 - Spec.bandsOf eigh1 t' ![0] 0) ^ 2 + (-2 - Spec.bandsOf eigh1 t' ![1 / 2] 0) ^ 2 := by
  let c : TD 2 3 1 1 := (exTdArgs lr).td exZero fun b => ⟨(0 : ℤ).toNat + b, by simp⟩
  let x : Par 3 1 := fun p => exZero.params[p]
  have hx : x = 0 := by funext p; fin_cases p <;> rfl
  have hx' : ∀ p, (x p).IsHermitian := fun p => by rw [hx]; exact isHermitian_zero
  have hF0 : ∀ p, c.F 0 p = ![1, 0, 0] p := fun p => (exZero_F lr p).1
  have hF1 : ∀ p, c.F 1 p = ![1, -2, 0] p := fun p => (exZero_F lr p).2
  have hu := td_batch_one c rfl 0
  have hs0 : c.sc 0 0 = 1 / 2 := by
    rw [TD.sc, hu]
    simp only [hF0, Fin.sum_univ_three, Finset.card_univ, Fintype.card_fin]
    rw [show (![1, 0, 0] : Fin 3 → ℝ) 2 = 0 from rfl]
    norm_num
  have hs1 : c.sc 0 1 = 1 / 10 := by
    rw [TD.sc, hu]
    simp only [hF1, Fin.sum_univ_three, Finset.card_univ, Fintype.card_fin]
    rw [show (![1, -2, 0] : Fin 3 → ℝ) 2 = 0 from rfl]
    norm_num
  have hfm : ∀ k, c.fm x k = 0 := by intro k; rw [hx]; simp [TD.fm]
  obtain ⟨z1, z2⟩ := eigh_scalar he 0 isHermitian_zero
  have hz1 : (eigh1 0).1 0 = 0 := Complex.ofReal_injective z1
  have hwin : ∀ b, c.win b = 0 := fun b => Subsingleton.elim _ _
  have hmat : ∀ k, c.mat eigh1 x k = ((if k = 0 then 1 else -2 : ℝ) : ℂ) • 1 := by
    intro k
    rw [TD.mat, Fin.sum_univ_one, TD.diff, hwin, hfm, z2, hz1]
    congr 2
    show ((if k = 0 then 1 else -2) - 0) * (1 : ℝ) = _
    ring
  have hadd : ∀ p, c.add eigh1 0 x 0 p = ((lr * ![23 / 100, 4 / 100, 0] p : ℝ) : ℂ) • 1 := by
    intro p
    have hk : ¬ (c.trainK0 = false ∧ (p : ℕ) = 0) := by rintro ⟨h1, -⟩; cases h1
    have hl : c.lr = lr := rfl
    rw [TD.add, if_neg hk, Pi.zero_apply, smul_zero, add_zero, TD.grad, hu, Fin.sum_univ_two, hmat, hmat, hF0, hF1, hs0, hs1, hl]
    have hv : (![1, 0, 0] : Fin 3 → ℝ) p * (1 / 2) * (1 / 2) * 1 + ![1, -2, 0] p * (1 / 10) * (1 / 10) * -2 = ![23 / 100, 4 / 100, 0] p := by
      fin_cases p
      · show (1 : ℝ) * (1 / 2) * (1 / 2) * 1 + 1 * (1 / 10) * (1 / 10) * -2 = 23 / 100
        norm_num
      · show (0 : ℝ) * (1 / 2) * (1 / 2) * 1 + -2 * (1 / 10) * (1 / 10) * -2 = 4 / 100
        norm_num
      · show (0 : ℝ) * (1 / 2) * (1 / 2) * 1 + 0 * (1 / 10) * (1 / 10) * -2 = 0
        norm_num
    rw [← hv, if_pos rfl, if_neg (by decide), smul_smul, smul_smul, ← Complex.ofReal_mul, ← Complex.ofReal_mul, ← add_smul, ← Complex.ofReal_add]
    ext i j
    simp only [Matrix.smul_apply, smul_eq_mul, Complex.real_smul]
    push_cast
    ring
  have hrun : c.run eigh1 1 0 0 x = .ok (x + c.add eigh1 0 x 0) := by
    rw [TD.run, if_neg (show ¬ c.batchDiv = 0 from one_ne_zero), if_neg (by rw [hu]; exact Finset.univ_nonempty.ne_empty)]
    rfl
  have hH : ∀ k, (c.fm (x + c.add eigh1 0 x 0) k).IsHermitian := fun k =>
    td_fm_hermitian c _ (fun p => (hx' p).add (td_add_hermitian c 0 x 0 (fun _ => isHermitian_zero) p)) k
  have hval : ∀ k : Fin 2, c.fm (x + c.add eigh1 0 x 0) k 0 0 = ((lr * (c.F k 0 * (23 / 100) + c.F k 1 * (4 / 100)) : ℝ) : ℂ) := by
    intro k
    rw [td_fm_add, hfm, zero_add, TD.fm, Fin.sum_univ_three, hadd, hadd, hadd]
    simp
    ring
  refine ⟨{ exZero with params := List.ofFn (x + c.add eigh1 0 x 0) }, ?_, ?_, ?_, ?_⟩
  · rw [optimize_eq exZero_fits (fun _ => rfl) (exTdArgs lr) 0 1 two_ne_zero (by simp) (.inl rfl)]
    exact congrArg (fun r : Except Err (Par 3 1) => match r with
      | .error e => Except.error e
      | .ok x => .ok ({ exZero with params := List.ofFn x } : TBM 1 1)) hrun
  · rw [Spec.bandsOf, show exZero.f ![0] = .ok (c.fm x 0) from td_fm_start exZero_fits (exTdArgs lr) _ 0, hfm]
    exact hz1
  · rw [Spec.bandsOf, show exZero.f ![1 / 2] = .ok (c.fm x 1) from td_fm_start exZero_fits (exTdArgs lr) _ 1, hfm]
    exact hz1
  · rw [Spec.bandsOf, Spec.bandsOf,
      show ({ exZero with params := List.ofFn (x + c.add eigh1 0 x 0) } : TBM 1 1).f ![0] = .ok (c.fm (x + c.add eigh1 0 x 0) 0) from
        td_fm_eq exZero_fits (exTdArgs lr) _ _ 0,
      show ({ exZero with params := List.ofFn (x + c.add eigh1 0 x 0) } : TBM 1 1).f ![1 / 2] = .ok (c.fm (x + c.add eigh1 0 x 0) 1) from
        td_fm_eq exZero_fits (exTdArgs lr) _ _ 1]
    have h0 := (eigh_scalar he _ (hH 0)).1
    have h1 := (eigh_scalar he _ (hH 1)).1
    rw [hval, hF0, hF0] at h0
    rw [hval, hF1, hF1] at h1
    have h0' : (eigh1 (c.fm (x + c.add eigh1 0 x 0) 0)).1 0 = lr * (23 / 100) := by
      have := Complex.ofReal_injective h0
      rw [this]; simp
    have h1' : (eigh1 (c.fm (x + c.add eigh1 0 x 0) 1)).1 0 = lr * (15 / 100) := by
      have := Complex.ofReal_injective h1
      rw [this]; simp; norm_num
    simp only [h0', h1']
    nlinarith

/-- C106_result: a third batch of two samples is empty; two weights of samples are accepted, three are not. -/
example {eigh1 : CMat 1 → (Fin 1 → ℝ) × CMat 1} :
    exZero.optimize eigh1 { exTdArgs 1 with batchDiv := 3 } 0 3 = .error .indexError ∧
    (∃ t', exZero.optimize eigh1 { exTdArgs 1 with batchDiv := 3 } 0 2 = .ok t') ∧
    exZero.optimize eigh1 { exTdArgs 1 with kw := [1, 2, 3] } 0 3 = .error .valueError ∧
    exZero.optimize eigh1 (exTdArgs 1) 1 3 = .error .assertionError := by
  refine ⟨(C106_result exZero_ok _ 0 3).2.2.2.2.2.1 (by decide) (by simp) (.inl rfl) (by simp) (by simp),
    (C106_result exZero_ok _ 0 2).1.2 ⟨by decide, by simp, .inl rfl, .inr ⟨by simp, .inr (le_refl _)⟩⟩,
    (C106_result exZero_ok _ 0 3).2.2.2.1 (by decide) (by simp) (by simp), (C106_result exZero_ok _ 1 3).2.2.1 (by decide) (by simp)⟩

/-- C106_weights_defect -/
example {eigh1 : CMat 1 → (Fin 1 → ℝ) × CMat 1} : exZero.optimize eigh1 (exTdArgs 1) 0 5 = exZero.optimize eigh1 { exTdArgs 1 with kw := [1, 100] } 0 5 :=
  C106_weights_defect _ _ 0 5 [1, 100] rfl (.inl rfl) (.inr rfl)

/-- C106_one_point: at `k = 0` one iteration fits the energy of the chain, with half the learning rate half of the difference remains. -/
example : ∃ eigh1 : CMat 1 → (Fin 1 → ℝ) × CMat 1, ∀ m, ∃ t', exZero.optimize eigh1
    ({ ks := fun _ => ![0], kw := [1], ref := fun _ _ => 3, w := fun _ => 1, batchDiv := 1, lr := 1 / 2, trainK0 := true } : TDArgs 1 1 1) 0 m = .ok t' ∧
    Spec.bandsOf eigh1 t' ![0] 0 = 3 + (1 / 2) ^ m * (Spec.bandsOf eigh1 exZero ![0] 0 - 3) := by
  obtain ⟨eigh1, he⟩ := exists_eighOk 1
  refine ⟨eigh1, fun m => ?_⟩
  obtain ⟨t', h1, -, h2⟩ := C106_one_point he exZero_ok exZero_herm
    ({ ks := fun _ => ![0], kw := [1], ref := fun _ _ => 3, w := fun _ => 1, batchDiv := 1, lr := 1 / 2, trainK0 := true } : TDArgs 1 1 1) rfl rfl 1 (fun _ => rfl)
    (fun _ _ _ => le_refl _) 1 (1 / 2) (by simp) (by norm_num) (by norm_num) (by norm_num) m
  refine ⟨t', h1, ?_⟩
  have := h2 0
  norm_num at this ⊢
  exact this

/-- C106_kept, C106_descent: the references `0`, `0` are kept; for the references `1` and `-2` the change is not zero, so the weighted loss decreases. -/
example : ∃ eigh1 : CMat 1 → (Fin 1 → ℝ) × CMat 1, (∀ m, exZero.optimize eigh1 { exTdArgs 1 with ref := fun _ _ => 0 } 0 m = .ok exZero) ∧
    ∃ l0 > (0 : ℝ), ∀ lr, 0 < lr → lr < l0 → ∃ t', exZero.optimize eigh1 (exTdArgs lr) 0 1 = .ok t' ∧
      Spec.fitLoss eigh1 t' (exTdArgs 1) 0 (le_refl _) < Spec.fitLoss eigh1 exZero (exTdArgs 1) 0 (le_refl _) := by
  obtain ⟨eigh1, he⟩ := exists_eighOk 1
  obtain ⟨-, -, hb0, hb1, -⟩ := C106_loss_defect he 1 one_pos
  refine ⟨eigh1, fun m => C106_kept exZero_ok _ 0 (le_refl _) m two_ne_zero (.inl rfl) one_ne_zero (by simp [exTdArgs]) fun k b => ?_, ?_⟩
  · fin_cases b
    fin_cases k
    · exact hb0
    · exact hb1
  · rcases C106_descent he exZero_ok exZero_herm (exTdArgs 1) 0 (le_refl _) two_ne_zero (.inl rfl) rfl (fun k b j hj => absurd (by omega) hj) with h | h
    · obtain ⟨t', h1, -, -, h2⟩ := C106_loss_defect he 1 one_pos
      have h3 := h 1 1
      have h4 : exZero.optimize eigh1 (exTdArgs 1) 0 1 = .ok exZero := h3
      rw [h1] at h4
      cases h4
      rw [hb0, hb1] at h2
      norm_num at h2
    · exact h

end TB.Opt

import Verif.Model.Phonon
import Verif.Props.EigGrad
import Verif.Props.BandStructureGrad
import Verif.Props.BandStructureNorm
import Verif.Lemmas.Descent
import Mathlib.Tactic.Linarith
import Mathlib.Tactic.Ring
import Mathlib.Tactic.NormNum
import Mathlib.Analysis.Complex.Basic
import Mathlib.LinearAlgebra.UnitaryGroup

/-!
# C117: `BandStructureModel.electron_phonon_coupling`
-/

namespace TB.Phonon
open Matrix TB TB.BS

variable {d n : ℕ}

/-- Position `x` of the index list `idx` selects the sample `k`, counted from the front or from the end. -/
def Spec.At (ks : List (RVec d)) (idx : List ℤ) (x : ℕ) (k : RVec d) : Prop :=
  ∃ (z : ℤ) (p : ℕ), idx[x]? = some z ∧ (z = p ∨ z + ks.length = p) ∧ ks[p]? = some k

/-- The coupling matrices of the pair `(x, y)`. -/
def Spec.Entry (r : List (Fin n → ℝ) × List (Fin d → Fin n → ℝ) × List (List (Fin d → CMat n))) (x y : ℕ) (G : Fin d → CMat n) : Prop :=
  ∃ row, r.2.2[x]? = some row ∧ row[y]? = some G

/-- The eigenvectors are orthonormal. -/
def Spec.Orthonormal (eigh : CMat n → (Fin n → ℝ) × CMat n) : Prop := ∀ H, (eigh H).2ᴴ * (eigh H).2 = 1

/-- Expectation value of the derivative of the Hamiltonian in direction `a` for the eigenvector `i` at `k`. -/
noncomputable def Spec.vel (b : BSM d n) (eigh : CMat n → (Fin n → ℝ) × CMat n) (k : RVec d) (a : Fin d) (i : Fin n) : ℝ :=
  (star (fun l => (eigh (b.f k)).2 l i) ⬝ᵥ (b.df k a).mulVec fun l => (eigh (b.f k)).2 l i).re

/-- Overlap of the eigenvectors `i` at `k` and `j` at `k'`. -/
noncomputable def Spec.overlap (b : BSM d n) (eigh : CMat n → (Fin n → ℝ) × CMat n) (k k' : RVec d) (i j : Fin n) : ℂ :=
  star (fun l => (eigh (b.f k)).2 l i) ⬝ᵥ fun l => (eigh (b.f k')).2 l j

/-! ## Lemmas -/

theorem mapM_ok {α β : Type} {f : α → Except Err β} {l : List α} {r : List β} (h : l.mapM f = .ok r) :
    r.length = l.length ∧ ∀ (i : ℕ) (a : α), l[i]? = some a → ∃ y, f a = .ok y ∧ r[i]? = some y := by
  induction l generalizing r with
  | nil =>
    rw [List.mapM_nil] at h
    cases h
    simp
  | cons a l ih =>
    rw [List.mapM_cons] at h
    cases ha : f a with
    | error e => rw [ha] at h; cases h
    | ok y =>
      rw [ha] at h
      cases hl : l.mapM f with
      | error e => rw [hl] at h; cases h
      | ok r' =>
        rw [hl] at h
        cases h
        obtain ⟨h1, h2⟩ := ih hl
        refine ⟨by simp [h1], ?_⟩
        intro i b hi
        cases i with
        | zero => simp only [List.getElem?_cons_zero, Option.some.injEq] at hi; subst hi; exact ⟨y, ha, rfl⟩
        | succ i => exact h2 i b hi

theorem mapM_error {α β : Type} {f : α → Except Err β} {e : Err} {l : List α} (hf : ∀ a ∈ l, ∀ e', f a = .error e' → e' = e)
    (h : ∃ a ∈ l, ∃ e', f a = .error e') : l.mapM f = .error e := by
  induction l with
  | nil => simp at h
  | cons a l ih =>
    rw [List.mapM_cons]
    cases ha : f a with
    | error e' =>
      rw [hf a (by simp) e' ha]
      rfl
    | ok y =>
      obtain ⟨x, hx, e', he⟩ := h
      rcases List.mem_cons.1 hx with rfl | hx
      · rw [ha] at he; cases he
      · rw [ih (fun a ha => hf a (List.mem_cons_of_mem _ ha)) ⟨x, hx, e', he⟩]
        rfl

theorem mapM_some_ok {α β : Type} {f : α → Except Err β} {l : List α} (h : ∀ a ∈ l, ∃ y, f a = .ok y) : ∃ r, l.mapM f = .ok r := by
  induction l with
  | nil => exact ⟨[], rfl⟩
  | cons a l ih =>
    obtain ⟨y, hy⟩ := h a (by simp)
    obtain ⟨r, hr⟩ := ih fun a ha => h a (List.mem_cons_of_mem _ ha)
    exact ⟨y :: r, by rw [List.mapM_cons, hy, hr]; rfl⟩

theorem pyIndex_spec {N : ℕ} {z : ℤ} {p : ℕ} (hp : p < N) (h : z = p ∨ z + N = p) : pyIndex N z = .ok p := by
  unfold pyIndex
  rcases h with h | h
  · rw [if_pos (by omega)]
    congr 1
    omega
  · rw [if_neg (by omega), if_pos (by omega)]
    congr 1
    omega

variable {b : BSM d n} {eigh : CMat n → (Fin n → ℝ) × CMat n} {ks : List (RVec d)} {k1 k2 : List ℤ}
  {r r' : List (Fin n → ℝ) × List (Fin d → Fin n → ℝ) × List (List (Fin d → CMat n))}

theorem epc_ok (h : epc b eigh ks k1 k2 = .ok r) : r.1 = (ks.map fun k => (eigh (b.f k)).1) ∧
    r.2.1 = (ks.map fun k => velocity (eigh (b.f k)).2 (b.df k)) ∧ r.2.2.length = k1.length ∧ (∀ row ∈ r.2.2, row.length = k2.length) ∧
    ∀ x y k k', Spec.At ks k1 x k → Spec.At ks k2 y k' →
      Spec.Entry r x y (coupling (velocity (eigh (b.f k)).2 (b.df k)) (velocity (eigh (b.f k')).2 (b.df k')) (eigh (b.f k)).2 (eigh (b.f k')).2) := by
  unfold epc at h
  simp only [bind, Except.bind] at h
  cases h1 : k1.mapM (pyIndex ks.length) with
  | error e => rw [h1] at h; cases h
  | ok i1 =>
    cases h2 : k2.mapM (pyIndex ks.length) with
    | error e => rw [h1, h2] at h; cases h
    | ok i2 =>
      rw [h1, h2] at h
      cases h
      obtain ⟨l1, m1⟩ := mapM_ok h1
      obtain ⟨l2, m2⟩ := mapM_ok h2
      refine ⟨rfl, rfl, by simp [l1], ?_, ?_⟩
      · intro row hrow
        obtain ⟨p, -, rfl⟩ := List.mem_map.1 hrow
        simp [l2]
      · rintro x y k k' ⟨z, p, a1, a2, a3⟩ ⟨z', q, b1, b2, b3⟩
        obtain ⟨y1, c1, c2⟩ := m1 x z a1
        obtain ⟨y2, d1, d2⟩ := m2 y z' b1
        have hp : p < ks.length := (List.getElem?_eq_some_iff.1 a3).1
        have hq : q < ks.length := (List.getElem?_eq_some_iff.1 b3).1
        rw [pyIndex_spec hp a2] at c1
        rw [pyIndex_spec hq b2] at d1
        cases c1
        cases d1
        refine ⟨_, by simp only [List.getElem?_map, c2]; rfl, ?_⟩
        simp only [List.getElem?_map, d2, Option.map_some, List.getD_eq_getElem?_getD, a3, b3, Option.getD_some]

theorem coupling_apply (v1 v2 : Fin d → Fin n → ℝ) (e1 e2 : CMat n) (a : Fin d) (i j : Fin n) :
    coupling v1 v2 e1 e2 a i j = ((v1 a i - v2 a j : ℝ) : ℂ) * (e1ᴴ * e2) i j := by
  rw [coupling, of_apply, Matrix.mul_apply, Finset.mul_sum, ← Finset.sum_sub_distrib]
  refine Finset.sum_congr rfl fun k _ => ?_
  rw [conjTranspose_apply]
  push_cast
  ring

theorem entry_unique {x y : ℕ} {G G' : Fin d → CMat n} (h : Spec.Entry r x y G) (h' : Spec.Entry r x y G') : G = G' := by
  obtain ⟨row, h1, h2⟩ := h
  obtain ⟨row', h3, h4⟩ := h'
  rw [h1] at h3
  cases h3
  rw [h2] at h4
  exact Option.some.inj h4

theorem entry_eq (h : epc b eigh ks k1 k2 = .ok r) {x y : ℕ} {k k' : RVec d} (hx : Spec.At ks k1 x k) (hy : Spec.At ks k2 y k')
    {G : Fin d → CMat n} (hG : Spec.Entry r x y G) (a : Fin d) (i j : Fin n) :
    G a i j = ((velocity (eigh (b.f k)).2 (b.df k) a i - velocity (eigh (b.f k')).2 (b.df k') a j : ℝ) : ℂ) *
      ((eigh (b.f k)).2ᴴ * (eigh (b.f k')).2) i j := by
  rw [entry_unique hG ((epc_ok h).2.2.2.2 x y k k' hx hy), coupling_apply]

theorem velocity_eq (k : RVec d) (a : Fin d) (i : Fin n) : velocity (eigh (b.f k)).2 (b.df k) a i = Spec.vel b eigh k a i := by
  rw [velocity, Spec.vel, rot_apply]

theorem overlap_eq (k k' : RVec d) (i j : Fin n) : ((eigh (b.f k)).2ᴴ * (eigh (b.f k')).2) i j = Spec.overlap b eigh k k' i j := rfl

/-! ## Theorems -/

/-- **C117.** `electron_phonon_coupling` returns bands and velocities of all samples and, for the pair of selected samples `k`, `k'`, the matrix
`g_ij = (v_i(k) - v_j(k')) <u_i(k)|u_j(k')>` for every direction. -/
theorem C117_formula (h : epc b eigh ks k1 k2 = .ok r) :
    r.1 = (ks.map fun k => (eigh (b.f k)).1) ∧ r.2.1 = ks.map (Spec.vel b eigh) ∧ r.2.2.length = k1.length ∧
    (∀ row ∈ r.2.2, row.length = k2.length) ∧
    ∀ x y k k', Spec.At ks k1 x k → Spec.At ks k2 y k' → ∃ G, Spec.Entry r x y G ∧
      ∀ a i j, G a i j = ((Spec.vel b eigh k a i - Spec.vel b eigh k' a j : ℝ) : ℂ) * Spec.overlap b eigh k k' i j := by
  obtain ⟨h1, h2, h3, h4, h5⟩ := epc_ok h
  refine ⟨h1, ?_, h3, h4, fun x y k k' hx hy => ⟨_, h5 x y k k' hx hy, fun a i j => ?_⟩⟩
  · rw [h2]
    refine List.map_congr_left fun k _ => ?_
    funext a i
    exact velocity_eq k a i
  · rw [coupling_apply, velocity_eq, velocity_eq]
    rfl

/-- **C117.** It returns if all indices are in the range from `-N` to `N - 1`; otherwise it raises `IndexError`. -/
theorem C117_index (b : BSM d n) (eigh : CMat n → (Fin n → ℝ) × CMat n) (ks : List (RVec d)) (k1 k2 : List ℤ) :
    ((∀ z ∈ k1 ++ k2, -(ks.length : ℤ) ≤ z ∧ z < ks.length) → ∃ r, epc b eigh ks k1 k2 = .ok r) ∧
    ((∃ z ∈ k1 ++ k2, ¬ (-(ks.length : ℤ) ≤ z ∧ z < ks.length)) → epc b eigh ks k1 k2 = .error .indexError) := by
  have hok : ∀ z : ℤ, -(ks.length : ℤ) ≤ z ∧ z < ks.length → ∃ p, pyIndex ks.length z = .ok p := by
    intro z hz
    unfold pyIndex
    split_ifs with c1 c2
    · exact ⟨_, rfl⟩
    · exact ⟨_, rfl⟩
    · omega
  have herr : ∀ z : ℤ, ∀ e', pyIndex ks.length z = .error e' → e' = .indexError := by
    intro z e' h
    unfold pyIndex at h
    split_ifs at h
    cases h
    rfl
  have hbad : ∀ z : ℤ, ¬ (-(ks.length : ℤ) ≤ z ∧ z < ks.length) → ∃ e', pyIndex ks.length z = .error e' := by
    intro z hz
    unfold pyIndex
    rw [if_neg (by omega), if_neg (by omega)]
    exact ⟨_, rfl⟩
  constructor
  · intro h
    obtain ⟨i1, h1⟩ := mapM_some_ok (f := pyIndex ks.length) fun z hz => hok z (h z (List.mem_append_left k2 hz))
    obtain ⟨i2, h2⟩ := mapM_some_ok (f := pyIndex ks.length) fun z hz => hok z (h z (List.mem_append_right k1 hz))
    unfold epc
    rw [h1, h2]
    exact ⟨_, rfl⟩
  · rintro ⟨z, hz, hzb⟩
    by_cases h1 : ∀ z ∈ k1, -(ks.length : ℤ) ≤ z ∧ z < ks.length
    · obtain ⟨i1, h1'⟩ := mapM_some_ok (f := pyIndex ks.length) fun z hz => hok z (h1 z hz)
      have hz2 : z ∈ k2 := (List.mem_append.1 hz).resolve_left fun hz => hzb (h1 z hz)
      unfold epc
      rw [h1', mapM_error (l := k2) (fun a _ e' => herr a e') ⟨z, hz2, hbad z hzb⟩]
      rfl
    · push Not at h1
      obtain ⟨z', hz', hb'⟩ := h1
      unfold epc
      rw [mapM_error (l := k1) (fun a _ e' => herr a e') ⟨z', hz', hbad z' (by omega)⟩]
      rfl

/-- **C117.** No coupling without transfer: for equal samples all entries are zero. -/
theorem C117_same (heigh : Spec.Orthonormal eigh) (h : epc b eigh ks k1 k2 = .ok r) (x y : ℕ) (k : RVec d) (hx : Spec.At ks k1 x k)
    (hy : Spec.At ks k2 y k) (G : Fin d → CMat n) (hG : Spec.Entry r x y G) : G = 0 := by
  funext a
  ext i j
  rw [entry_eq h hx hy hG, heigh, Matrix.one_apply]
  by_cases hij : i = j
  · subst hij
    simp
  · rw [if_neg hij, mul_zero]
    rfl

/-- **C117.** Exchanging the samples gives minus the adjoint. -/
theorem C117_exchange (h : epc b eigh ks k1 k2 = .ok r) (h' : epc b eigh ks k2 k1 = .ok r') (x y : ℕ) (k k' : RVec d)
    (hx : Spec.At ks k1 x k) (hy : Spec.At ks k2 y k') (G G' : Fin d → CMat n) (hG : Spec.Entry r x y G) (hG' : Spec.Entry r' y x G')
    (a : Fin d) : (G a)ᴴ = -G' a := by
  ext i j
  rw [conjTranspose_apply, Matrix.neg_apply, entry_eq h hx hy hG, entry_eq h' hy hx hG', star_mul', ← conjTranspose_apply,
    conjTranspose_mul, conjTranspose_conjTranspose, Complex.star_def, Complex.conj_ofReal]
  push_cast
  ring

/-- **C117.** Sum rule: the couplings of one band to all bands of another sample are bounded by the largest difference of velocities; if all
differences have the size `M`, the sum of squares is `M²`. -/
theorem C117_bound (heigh : Spec.Orthonormal eigh) (h : epc b eigh ks k1 k2 = .ok r) (x y : ℕ) (k k' : RVec d)
    (hx : Spec.At ks k1 x k) (hy : Spec.At ks k2 y k') (G : Fin d → CMat n) (hG : Spec.Entry r x y G) (a : Fin d) (i : Fin n) (M : ℝ) :
    ((∀ j, |Spec.vel b eigh k a i - Spec.vel b eigh k' a j| ≤ M) → ∑ j, ‖G a i j‖ ^ 2 ≤ M ^ 2) ∧
    ((∀ j, |Spec.vel b eigh k a i - Spec.vel b eigh k' a j| = M) → ∑ j, ‖G a i j‖ ^ 2 = M ^ 2) := by
  have hu : (eigh (b.f k)).2ᴴ * (eigh (b.f k')).2 * ((eigh (b.f k)).2ᴴ * (eigh (b.f k')).2)ᴴ = 1 := by
    have h2 : (eigh (b.f k')).2 * (eigh (b.f k')).2ᴴ = 1 := mul_eq_one_comm.1 (heigh _)
    rw [conjTranspose_mul, conjTranspose_conjTranspose, Matrix.mul_assoc, ← Matrix.mul_assoc (eigh (b.f k')).2, h2, Matrix.one_mul, heigh]
  have hsum : ∑ j, ‖((eigh (b.f k)).2ᴴ * (eigh (b.f k')).2) i j‖ ^ 2 = 1 := by
    have := congrFun (congrFun hu i) i
    rw [Matrix.mul_apply, Matrix.one_apply_eq] at this
    have h3 : ((∑ j, ‖((eigh (b.f k)).2ᴴ * (eigh (b.f k')).2) i j‖ ^ 2 : ℝ) : ℂ) = 1 := by
      rw [← this]
      push_cast
      refine Finset.sum_congr rfl fun j _ => ?_
      rw [conjTranspose_apply, Complex.star_def, Complex.mul_conj']
    exact_mod_cast h3
  have hn : ∀ j, ‖G a i j‖ ^ 2 = |Spec.vel b eigh k a i - Spec.vel b eigh k' a j| ^ 2 *
      ‖((eigh (b.f k)).2ᴴ * (eigh (b.f k')).2) i j‖ ^ 2 := by
    intro j
    rw [entry_eq h hx hy hG, velocity_eq, velocity_eq, norm_mul, Complex.norm_real, Real.norm_eq_abs, mul_pow]
  constructor
  · intro hM
    calc ∑ j, ‖G a i j‖ ^ 2 ≤ ∑ j, M ^ 2 * ‖((eigh (b.f k)).2ᴴ * (eigh (b.f k')).2) i j‖ ^ 2 := by
          refine Finset.sum_le_sum fun j _ => ?_
          rw [hn j]
          exact mul_le_mul_of_nonneg_right (pow_le_pow_left₀ (abs_nonneg _) (hM j) 2) (sq_nonneg _)
      _ = M ^ 2 := by rw [← Finset.mul_sum, hsum, mul_one]
  · intro hM
    calc ∑ j, ‖G a i j‖ ^ 2 = ∑ j, M ^ 2 * ‖((eigh (b.f k)).2ᴴ * (eigh (b.f k')).2) i j‖ ^ 2 :=
          Finset.sum_congr rfl fun j _ => by rw [hn j, hM j]
      _ = M ^ 2 := by rw [← Finset.mul_sum, hsum, mul_one]

/-- **C117.** Other phases of the eigenvectors: bands and velocities stay, `g_ij` gets the phases of both vectors, so its size stays. -/
theorem C117_phases (φ : CMat n → Fin n → ℂ) (hφ : ∀ H i, ‖φ H i‖ = 1) (h : epc b eigh ks k1 k2 = .ok r)
    (h' : epc b (fun H => ((eigh H).1, (eigh H).2 * diagonal (φ H))) ks k1 k2 = .ok r') (x y : ℕ) (k k' : RVec d)
    (hx : Spec.At ks k1 x k) (hy : Spec.At ks k2 y k') (G G' : Fin d → CMat n) (hG : Spec.Entry r x y G) (hG' : Spec.Entry r' x y G') :
    r'.1 = r.1 ∧ r'.2.1 = r.2.1 ∧ ∀ a i j, G' a i j = star (φ (b.f k) i) * G a i j * φ (b.f k') j ∧ ‖G' a i j‖ = ‖G a i j‖ := by
  have hone : ∀ H i, star (φ H i) * φ H i = 1 := by
    intro H i
    rw [Complex.star_def, mul_comm, Complex.mul_conj', hφ]
    norm_num
  have hvel : ∀ k, velocity ((eigh (b.f k)).2 * diagonal (φ (b.f k))) (b.df k) = velocity (eigh (b.f k)).2 (b.df k) := by
    intro k
    funext a i
    have : rot ((eigh (b.f k)).2 * diagonal (φ (b.f k))) (b.df k a) i i = rot (eigh (b.f k)).2 (b.df k a) i i := by
      rw [rot, rot, conjTranspose_mul, diagonal_conjTranspose, Matrix.mul_assoc, Matrix.mul_assoc, ← Matrix.mul_assoc (b.df k a),
        ← Matrix.mul_assoc (eigh (b.f k)).2ᴴ, diagonal_mul, mul_diagonal, Pi.star_apply, ← Matrix.mul_assoc, mul_comm _ (φ (b.f k) i),
        ← mul_assoc, hone, one_mul]
    rw [velocity, velocity, this]
  refine ⟨by rw [(epc_ok h).1, (epc_ok h').1], by rw [(epc_ok h).2.1, (epc_ok h').2.1]; simp only [hvel], fun a i j => ?_⟩
  have e1 : G' a i j = star (φ (b.f k) i) * G a i j * φ (b.f k') j := by
    rw [entry_eq h' hx hy hG', entry_eq h hx hy hG]
    simp only [hvel]
    rw [conjTranspose_mul, diagonal_conjTranspose, Matrix.mul_assoc, ← Matrix.mul_assoc (eigh (b.f k)).2ᴴ, diagonal_mul, mul_diagonal,
      Pi.star_apply]
    ring
  refine ⟨e1, ?_⟩
  rw [e1, norm_mul, norm_mul, norm_star, hφ, hφ, one_mul, mul_one]

/-- **C117.** Every differentiable band has the returned velocity as its derivative: if `e(t)` with eigenvector `w(t)` of the Hamiltonian at
`k + t u` are differentiable at `0` and `w(0)` is the returned eigenvector `i`, then `e'(0) = Σ_a u_a v_a`. -/
theorem C117_velocity (b : BSM d n) (t : TBData d) (hb : b.coeff = .tb t) (heigh : Spec.Orthonormal eigh) (k u : RVec d)
    (hH : (b.f k).IsHermitian) (i : Fin n) (e : ℝ → ℝ) (e' : ℝ) (w : ℝ → Fin n → ℂ) (w' : Fin n → ℂ) (he : HasDerivAt e e' 0)
    (hw : TB.Spec.VDeriv w w' 0)
    (heq : ∀ᶠ τ in nhds (0 : ℝ), (b.f (k + τ • u)).mulVec (w τ) = (e τ : ℂ) • w τ) (hw0 : ∀ j, (eigh (b.f k)).2 j i = w 0 j)
    (he0 : (eigh (b.f k)).1 i = e 0) (h : epc b eigh ks k1 k2 = .ok r) (p : ℕ) (hp : ks[p]? = some k) :
    ∃ v, r.2.1[p]? = some v ∧ ∑ a, u a * v a i = e' := by
  refine ⟨velocity (eigh (b.f k)).2 (b.df k), by rw [(epc_ok h).2.1, List.getElem?_map, hp]; rfl, ?_⟩
  have hk : k + (0 : ℝ) • u = k := by rw [zero_smul, add_zero]
  have hd : TB.Spec.MDeriv (fun τ => b.f (k + τ • u)) (∑ a, (u a : ℂ) • b.df k a) 0 := by
    intro i j
    have := (C73_derivatives b t hb k u i j 0).1
    rw [hk] at this
    simpa only [Matrix.sum_apply, Matrix.smul_apply, smul_eq_mul] using this
  have hS : TB.Spec.MDeriv (fun _ => (1 : CMat n)) 0 (0 : ℝ) := fun i j => hasDerivAt_const _ _
  have hg := C52_gradient (fun τ => b.f (k + τ • u)) (fun _ => 1) _ 0 e e' w w' 0 hd hS he hw
    (by simpa only [one_mulVec] using heq) (by simp only [hk]; exact hH) isHermitian_one (eigh (b.f k)).1 (eigh (b.f k)).2 i hw0 he0
    (by rw [rot, Matrix.mul_one, heigh, Matrix.one_apply_eq])
  rw [← hg, geighGrad]
  have h0 : rot (eigh (b.f k)).2 (0 : CMat n) i i = 0 := by simp [rot]
  rw [h0, Complex.zero_re, zero_mul, sub_zero]
  have hr : rot (eigh (b.f k)).2 (∑ a, (u a : ℂ) • b.df k a) i i = ∑ a, (u a : ℂ) * rot (eigh (b.f k)).2 (b.df k a) i i := by
    simp only [rot, Matrix.mul_sum, Matrix.sum_mul, Matrix.sum_apply, Matrix.mul_smul, Matrix.smul_mul, Matrix.smul_apply, smul_eq_mul]
  rw [hr, Complex.re_sum]
  exact Finset.sum_congr rfl fun a _ => by rw [velocity, Complex.re_ofReal_mul]

/-! ## Degenerate bands -/

/-- A band crossing in one dimension: `H(k) = k diag(1, -1)`. -/
noncomputable def crossing : BSM 1 2 := ⟨.custom (fun k _ => (k 0 : ℂ)) (fun _ _ _ => 1) none, !![1, 0; 0, -1], [], none⟩

theorem crossing_f (k : RVec 1) : crossing.f k = (k 0 : ℂ) • !![1, 0; 0, -1] := by
  simp [crossing, BSM.f, BSM.hsum, Coeff.fi]

theorem crossing_df (k : RVec 1) (a : Fin 1) : crossing.df k a = !![1, 0; 0, -1] := by
  simp [crossing, BSM.df, BSM.hsum, Coeff.dfi]

open Classical in
/-- Eigenvectors `V` of the zero matrix, and the usual ones of `diag(1, -1)`. -/
noncomputable def chosen (e0 : CMat 2 → (Fin 2 → ℝ) × CMat 2) (V H : CMat 2) : (Fin 2 → ℝ) × CMat 2 :=
  if H = 0 then (0, V) else if H = !![1, 0; 0, -1] then (![-1, 1], !![0, 1; 1, 0]) else if Hᴴ = H then e0 H else (0, 1)

theorem chosen_zero (e0 : CMat 2 → (Fin 2 → ℝ) × CMat 2) (V : CMat 2) : chosen e0 V 0 = (0, V) := if_pos rfl

theorem chosen_one (e0 : CMat 2 → (Fin 2 → ℝ) × CMat 2) (V : CMat 2) : chosen e0 V !![1, 0; 0, -1] = (![-1, 1], !![0, 1; 1, 0]) := by
  rw [chosen, if_neg, if_pos rfl]
  intro h
  have := congrFun (congrFun h 0) 0
  simp at this

theorem swap_orth : (!![0, 1; 1, 0] : CMat 2)ᴴ * !![0, 1; 1, 0] = 1 := by
  ext i j
  fin_cases i <;> fin_cases j <;> simp [Matrix.mul_apply, Fin.sum_univ_two]

theorem chosen_orth {e0 : CMat 2 → (Fin 2 → ℝ) × CMat 2} (h0 : BS.Spec.IsEigh e0) {V : CMat 2} (hV : Vᴴ * V = 1) :
    Spec.Orthonormal (chosen e0 V) := by
  intro H
  unfold chosen
  split_ifs with h1 h2 h3
  · exact hV
  · exact swap_orth
  · exact (h0 H h3).1
  · simp

theorem chosen_eigh {e0 : CMat 2 → (Fin 2 → ℝ) × CMat 2} (h0 : BS.Spec.IsEigh e0) {V : CMat 2} (hV : Vᴴ * V = 1) :
    BS.Spec.IsEigh (chosen e0 V) := by
  intro H hH
  refine ⟨chosen_orth h0 hV H, ?_⟩
  unfold chosen
  split_ifs with h1 h2
  · subst h1
    refine ⟨by ext i j; simp [Matrix.mul_apply, Matrix.diagonal_apply], fun _ _ _ => le_rfl⟩
  · subst h2
    constructor
    · ext i j
      fin_cases i <;> fin_cases j <;> simp [Matrix.mul_apply, Fin.sum_univ_two, Matrix.diagonal_apply]
    · intro i j hij
      fin_cases i <;> fin_cases j <;> simp_all
  · exact (h0 H hH).2

/-- A rotation. -/
noncomputable def rotated : CMat 2 := !![3 / 5, -(4 / 5); 4 / 5, 3 / 5]

theorem rotated_orth : rotatedᴴ * rotated = 1 := by
  ext i j
  fin_cases i <;> fin_cases j <;> simp [rotated, Matrix.mul_apply, Fin.sum_univ_two, Complex.conj_ofNat] <;> norm_num

theorem vel_rotated (k : RVec 1) : velocity rotated (crossing.df k) 0 0 = -(7 / 25) := by
  have h : rot rotated !![1, 0; 0, -1] 0 0 = ((-(7 / 25) : ℝ) : ℂ) := by
    simp [rot, rotated, Matrix.mul_apply, Fin.sum_univ_two, Complex.conj_ofNat]
    norm_num
  rw [velocity, crossing_df, h, Complex.ofReal_re]

theorem vel_one (k : RVec 1) : velocity (1 : CMat 2) (crossing.df k) 0 0 = 1 := by
  rw [velocity, crossing_df]
  simp [rot]

theorem vel_swap (k : RVec 1) : velocity (!![0, 1; 1, 0] : CMat 2) (crossing.df k) 0 0 = -1 := by
  rw [velocity, crossing_df]
  simp [rot, Matrix.mul_apply, Fin.sum_univ_two]

theorem exAt0 (k1 : List ℤ) : Spec.At [(0 : RVec 1), 1] (0 :: k1) 0 0 := ⟨0, 0, rfl, Or.inl rfl, rfl⟩
theorem exAt1 (k1 : List ℤ) : Spec.At [(0 : RVec 1), 1] (-1 :: k1) 0 1 := ⟨-1, 1, rfl, Or.inr rfl, rfl⟩

/-- **C117 (defect)** At a degeneracy the result depends on the eigenvectors which the library happens to return: for `H(k) = k diag(1, -1)` one
valid choice at `k = 0` gives no coupling to `k = 1` at all, another valid choice gives other velocities and a coupling. -/
theorem C117_degenerate : ∃ (b : BSM 1 2) (eigh eigh' : CMat 2 → (Fin 2 → ℝ) × CMat 2) (ks : List (RVec 1)), BS.Spec.IsEigh eigh ∧
    BS.Spec.IsEigh eigh' ∧ Spec.Orthonormal eigh ∧ Spec.Orthonormal eigh' ∧ ∃ r r' G G', epc b eigh ks [0] [-1] = .ok r ∧ epc b eigh' ks [0] [-1] = .ok r' ∧
      Spec.Entry r 0 0 G ∧ Spec.Entry r' 0 0 G' ∧ r.1 = r'.1 ∧ r.2.1 ≠ r'.2.1 ∧ G = 0 ∧ G' 0 0 0 = 72 / 125 := by
  obtain ⟨e0, h0⟩ := TB.Opt.exists_bs_eigh 2
  obtain ⟨r, hr⟩ := (C117_index crossing (chosen e0 1) [(0 : RVec 1), 1] [0] [-1]).1 (by decide)
  obtain ⟨r', hr'⟩ := (C117_index crossing (chosen e0 rotated) [(0 : RVec 1), 1] [0] [-1]).1 (by decide)
  obtain ⟨a1, a2, -, -, a3⟩ := epc_ok hr
  obtain ⟨b1, b2, -, -, b3⟩ := epc_ok hr'
  have f0 : crossing.f 0 = 0 := by rw [crossing_f]; simp
  have f1 : crossing.f 1 = !![1, 0; 0, -1] := by rw [crossing_f]; simp
  refine ⟨crossing, chosen e0 1, chosen e0 rotated, [(0 : RVec 1), 1], chosen_eigh h0 (by simp), chosen_eigh h0 rotated_orth,
    chosen_orth h0 (by simp), chosen_orth h0 rotated_orth, r, r', _, _, hr, hr', a3 0 0 0 1 (exAt0 _) (exAt1 _), b3 0 0 0 1 (exAt0 _) (exAt1 _),
    ?_, ?_, ?_, ?_⟩
  · rw [a1, b1]
    simp [f0, f1, chosen_zero, chosen_one]
  · rw [a2, b2]
    intro h
    rw [List.map_cons, List.map_cons] at h
    have := congrFun (congrFun (List.cons.inj h).1 0) 0
    simp only [f0, chosen_zero, vel_one, vel_rotated] at this
    norm_num at this
  · funext a
    ext i j
    rw [coupling_apply, f0, f1, chosen_zero, chosen_one, velocity, velocity, crossing_df, crossing_df]
    fin_cases i <;> fin_cases j <;> simp [rot, Matrix.mul_apply, Fin.sum_univ_two]
  · rw [coupling_apply, f0, f1, chosen_zero, chosen_one, vel_rotated, vel_swap]
    simp [rotated, Matrix.mul_apply, Fin.sum_univ_two, Complex.conj_ofNat]
    norm_num

/-! ## Examples -/

/-- `C117_formula`, `C117_same`, `C117_bound`, `C117_phases`: the crossing, two samples. -/
example : ∃ eigh r, Spec.Orthonormal eigh ∧ epc crossing eigh [(0 : RVec 1), 1] [0, -1] [-1, 0] = .ok r ∧ r.2.2.length = 2 ∧
    ∀ G, Spec.Entry r 0 1 G → G = 0 := by
  obtain ⟨e0, h0⟩ := TB.Opt.exists_bs_eigh 2
  obtain ⟨r, hr⟩ := (C117_index crossing (chosen e0 1) [(0 : RVec 1), 1] [0, -1] [-1, 0]).1 (by decide)
  exact ⟨chosen e0 1, r, chosen_orth h0 (by simp), hr, (C117_formula hr).2.2.1,
    fun G hG => C117_same (chosen_orth h0 (by simp)) hr 0 1 0 (exAt0 _) ⟨0, 0, rfl, Or.inl rfl, rfl⟩ G hG⟩

/-- `C117_index`: index 2 of two samples. -/
example (eigh : CMat 2 → (Fin 2 → ℝ) × CMat 2) : epc crossing eigh [(0 : RVec 1), 1] [2] [0] = .error .indexError :=
  (C117_index crossing eigh [(0 : RVec 1), 1] [2] [0]).2 ⟨2, by simp, by simp⟩

/-- `C117_exchange`: the hypotheses hold for the crossing. -/
example (eigh : CMat 2 → (Fin 2 → ℝ) × CMat 2) : ∃ r r' G G', epc crossing eigh [(0 : RVec 1), 1] [0] [-1] = .ok r ∧
    epc crossing eigh [(0 : RVec 1), 1] [-1] [0] = .ok r' ∧ Spec.Entry r 0 0 G ∧ Spec.Entry r' 0 0 G' ∧ ∀ a, (G a)ᴴ = -G' a := by
  obtain ⟨r, hr⟩ := (C117_index crossing eigh [(0 : RVec 1), 1] [0] [-1]).1 (by decide)
  obtain ⟨r', hr'⟩ := (C117_index crossing eigh [(0 : RVec 1), 1] [-1] [0]).1 (by decide)
  obtain ⟨G, hG, -⟩ := (C117_formula hr).2.2.2.2 0 0 0 1 (exAt0 _) (exAt1 _)
  obtain ⟨G', hG', -⟩ := (C117_formula hr').2.2.2.2 0 0 1 0 (exAt1 _) (exAt0 _)
  exact ⟨r, r', G, G', hr, hr', hG, hG', C117_exchange hr hr' 0 0 0 1 (exAt0 _) (exAt1 _) G G' hG hG'⟩

/-- `C117_bound`, `C117_phases`: the hypotheses hold for the crossing, with all phases `-1`. -/
example : ∃ eigh r r' G G', Spec.Orthonormal eigh ∧ epc crossing eigh [(0 : RVec 1), 1] [0] [-1] = .ok r ∧
    epc crossing (fun H => ((eigh H).1, (eigh H).2 * diagonal fun _ => -1)) [(0 : RVec 1), 1] [0] [-1] = .ok r' ∧
    Spec.Entry r 0 0 G ∧ Spec.Entry r' 0 0 G' ∧ (∀ a i j, ‖G' a i j‖ = ‖G a i j‖) ∧ ∃ M, ∑ j, ‖G 0 0 j‖ ^ 2 ≤ M ^ 2 := by
  obtain ⟨e0, h0⟩ := TB.Opt.exists_bs_eigh 2
  obtain ⟨r, hr⟩ := (C117_index crossing (chosen e0 rotated) [(0 : RVec 1), 1] [0] [-1]).1 (by decide)
  obtain ⟨r', hr'⟩ := (C117_index crossing (fun H => ((chosen e0 rotated H).1, (chosen e0 rotated H).2 * diagonal fun _ => -1))
    [(0 : RVec 1), 1] [0] [-1]).1 (by decide)
  obtain ⟨G, hG, -⟩ := (C117_formula hr).2.2.2.2 0 0 0 1 (exAt0 _) (exAt1 _)
  obtain ⟨G', hG', -⟩ := (C117_formula hr').2.2.2.2 0 0 0 1 (exAt0 _) (exAt1 _)
  refine ⟨chosen e0 rotated, r, r', G, G', chosen_orth h0 rotated_orth, hr, hr', hG, hG', fun a i j => ?_, _,
    (C117_bound (chosen_orth h0 rotated_orth) hr 0 0 0 1 (exAt0 _) (exAt1 _) G hG 0 0
      (∑ j, |Spec.vel crossing (chosen e0 rotated) 0 0 0 - Spec.vel crossing (chosen e0 rotated) 1 0 j|)).1
      fun j => Finset.single_le_sum (f := fun j => |Spec.vel crossing (chosen e0 rotated) 0 0 0 - Spec.vel crossing (chosen e0 rotated) 1 0 j|)
        (fun _ _ => abs_nonneg _) (Finset.mem_univ j)⟩
  exact ((C117_phases (fun _ _ => -1) (by simp) hr hr' 0 0 0 1 (exAt0 _) (exAt1 _) G G' hG hG').2.2 a i j).2

/-- `C117_velocity`: a model with one band, constant eigenvector. -/
example : ∃ (b : BSM 1 1) (t : TBData 1), b.coeff = .tb t ∧ ∀ (r : List (Fin 1 → ℝ) × List (Fin 1 → Fin 1 → ℝ) × List (List (Fin 1 → CMat 1)))
    (k u : RVec 1) (e' : ℝ), HasDerivAt (fun τ : ℝ => (b.f (k + τ • u) 0 0).re) e' 0 →
    epc b (fun H => (fun _ => (H 0 0).re, 1)) [k] [] [] = .ok r → ∃ v, r.2.1[0]? = some v ∧ ∑ a, u a * v a 0 = e' := by
  refine ⟨⟨.tb ⟨[1], false, [0, 1], false, true⟩, 1, [1], none⟩, ⟨[1], false, [0, 1], false, true⟩, rfl, fun r k u e' he h => ?_⟩
  have hherm : ∀ k, ((⟨.tb ⟨[1], false, [0, 1], false, true⟩, 1, [1], none⟩ : BSM 1 1).f k).IsHermitian := by
    intro k
    unfold BSM.f BSM.hsum
    simp only
    refine (isHermitian_add_transpose_self _).add ?_
    rw [IsHermitian, conjTranspose_smul, conjTranspose_one]
    congr 1
    simp [Coeff.fi, TBData.fi]
  refine C117_velocity (eigh := fun H => (fun _ => (H 0 0).re, 1)) _ _ rfl (fun H => by simp) k u (hherm k) 0
    (fun τ => ((⟨.tb ⟨[1], false, [0, 1], false, true⟩, 1, [1], none⟩ : BSM 1 1).f (k + τ • u) 0 0).re) e' (fun _ => 1) 0 he
    (fun i => hasDerivAt_const _ _) ?_ (fun j => by fin_cases j; rfl) (by simp) h 0 rfl
  refine Filter.Eventually.of_forall fun τ => ?_
  funext i
  fin_cases i
  have h1 := (hherm (k + τ • u)).apply 0 0
  have h2 : ((((⟨.tb ⟨[1], false, [0, 1], false, true⟩, 1, [1], none⟩ : BSM 1 1).f (k + τ • u) 0 0).re : ℝ) : ℂ) =
      (⟨.tb ⟨[1], false, [0, 1], false, true⟩, 1, [1], none⟩ : BSM 1 1).f (k + τ • u) 0 0 :=
    Complex.conj_eq_iff_re.1 h1
  simp only [Fin.zero_eta, Matrix.mulVec, dotProduct, Fin.sum_univ_one, Pi.smul_apply, smul_eq_mul, Pi.one_apply]
  rw [h2]

end TB.Phonon

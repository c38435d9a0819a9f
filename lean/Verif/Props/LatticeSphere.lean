import Mathlib.LinearAlgebra.Matrix.Block
import Mathlib.LinearAlgebra.Matrix.ToLin
import Mathlib.Algebra.Order.BigOperators.Ring.Finset
import Mathlib.Algebra.BigOperators.Field
import Mathlib.Data.Rat.Floor
import Mathlib.Analysis.InnerProductSpace.GramSchmidtOrtho
import Mathlib.Analysis.Matrix.PosDef
import Mathlib.Analysis.RCLike.Basic
import Mathlib.Algebra.Order.Star.Real
import Mathlib.Tactic.Linarith
import Mathlib.Tactic.FieldSimp
import Verif.Model.Linalg

/-!
# C51: `lattice_in_sphere`

The numpy routines `qr` and `svd` enter through their contracts.
-/

set_option linter.unusedSectionVars false

namespace TB
open Matrix

variable {K : Type} [Field K] [LinearOrder K] [IsStrictOrderedRing K] [FloorRing K] {n : ℕ}

/-- Contract of `np.linalg.qr` for invertible matrices: `A = Q R`, `Q` orthogonal, `R` upper triangular. -/
def Spec.IsQR (qr : Matrix (Fin n) (Fin n) K → Matrix (Fin n) (Fin n) K) : Prop :=
  ∀ A, A.det ≠ 0 → ∃ Q, Qᵀ * Q = 1 ∧ A = Q * qr A ∧ ∀ i j, j < i → qr A i j = 0

/-- Contract of `np.linalg.svd` for a square matrix `A`: `A = U diag(S) Vh`, `U`, `Vh` orthogonal, `S ≥ 0`. -/
def Spec.IsSVD (A : Matrix (Fin n) (Fin n) K)
    (r : Matrix (Fin n) (Fin n) K × (Fin n → K) × Matrix (Fin n) (Fin n) K) : Prop :=
  r.1ᵀ * r.1 = 1 ∧ r.2.2 * r.2.2ᵀ = 1 ∧ (∀ i, 0 ≤ r.2.1 i) ∧ A = r.1 * diagonal r.2.1 * r.2.2

/-- Integer vectors as vectors of the field. -/
def Spec.ofInt (v : Fin n → ℤ) : Fin n → K := fun i => (v i : K)

theorem ofInt_inj {v w : Fin n → ℤ} (h : (Spec.ofInt v : Fin n → K) = Spec.ofInt w) : v = w := by
  ext i; have := congrFun h i; simpa [Spec.ofInt] using this

theorem latStep_spec (qr : Matrix (Fin n) (Fin n) K → Matrix (Fin n) (Fin n) K) (hqr : Spec.IsQR qr)
    (rnd : K → ℤ) (h0 : rnd 0 = 0) (h1 : rnd 1 = 1) (A : Matrix (Fin n) (Fin n) K) (hA : A.det ≠ 0) :
    ∃ M : Matrix (Fin n) (Fin n) ℤ, M.det = 1 ∧ latStep qr rnd A = .ok (A * M.map (Int.cast : ℤ → K)) := by
  obtain ⟨Q, hQ, hAQ, hup⟩ := hqr A hA
  have hdet : (qr A).det ≠ 0 := by
    intro h; apply hA; rw [hAQ, det_mul, h, mul_zero]
  have hdiag : ∀ i, qr A i i ≠ 0 := by
    intro i h
    apply hdet
    rw [det_of_isUpperTriangular (fun i j hij => hup i j hij)]
    exact Finset.prod_eq_zero (Finset.mem_univ i) h
  have hR : ∀ i j, j < i → normRows (qr A) i j = 0 := fun i j hij => by simp [normRows, hup i j hij]
  have hRd : ∀ i, normRows (qr A) i i = 1 := fun i => by simp [normRows, hdiag i]
  have hRdet : (normRows (qr A)).det = 1 := by
    rw [det_of_isUpperTriangular (fun i j hij => hR i j hij)]
    exact Finset.prod_eq_one fun i _ => hRd i
  let M : Matrix (Fin n) (Fin n) ℤ := fun i j => rnd (normRows (qr A) i j)
  have hM : M.det = 1 := by
    rw [det_of_isUpperTriangular (fun i j hij => by show rnd _ = 0; rw [hR i j hij, h0])]
    exact Finset.prod_eq_one fun i _ => by show rnd _ = 1; rw [hRd i, h1]
  have hMdet : (M.map (Int.cast : ℤ → K)).det = 1 := by
    have := (Int.castRingHom K).map_det M
    rw [hM, map_one] at this
    exact this.symm
  refine ⟨M, hM, ?_⟩
  unfold latStep
  simp only
  rw [minv_eq, det_nonsing_inv, hRdet, if_neg (by simp)]
  rw [if_neg]
  · rfl
  · rw [not_not]
    show |(M.map (Int.cast : ℤ → K)).det| = 1
    rw [hMdet, abs_one]

theorem mem_symRange {m x : ℤ} : x ∈ symRange m ↔ -m ≤ x ∧ x ≤ m := by
  simp only [symRange, List.mem_map, List.mem_range]
  constructor
  · rintro ⟨t, ht, rfl⟩; omega
  · intro h; exact ⟨(x + m).toNat, by omega, by omega⟩

theorem nodup_symRange (m : ℤ) : (symRange m).Nodup :=
  List.nodup_range.map fun a b h => by simpa using h

theorem mem_meshgrid {n : ℕ} {rs : Fin n → List ℤ} {v : Fin n → ℤ} : v ∈ meshgrid rs ↔ ∀ i, v i ∈ rs i := by
  induction n with
  | zero => simp [meshgrid]; exact Subsingleton.elim _ _
  | succ n ih =>
    simp only [meshgrid, List.mem_flatMap, List.mem_map, ih]
    constructor
    · rintro ⟨x, hx, w, hw, rfl⟩ i
      refine Fin.cases ?_ (fun j => ?_) i
      · simpa using hx
      · simpa using hw j
    · intro h
      exact ⟨v 0, h 0, fun i => v i.succ, fun i => h i.succ, by
        ext i; refine Fin.cases ?_ (fun j => ?_) i <;> simp⟩

theorem nodup_meshgrid {n : ℕ} {rs : Fin n → List ℤ} (h : ∀ i, (rs i).Nodup) : (meshgrid rs).Nodup := by
  induction n with
  | zero => simp [meshgrid]
  | succ n ih =>
    rw [meshgrid, List.nodup_flatMap]
    refine ⟨fun x _ => (ih fun i => h i.succ).map fun a b hab => (Fin.cons_inj.1 hab).2, ?_⟩
    refine (h 0).imp fun {a b} hab => ?_
    show List.Disjoint _ _
    intro v hv hw
    obtain ⟨u, -, rfl⟩ := List.mem_map.1 hv
    obtain ⟨u', -, hu⟩ := List.mem_map.1 hw
    exact hab (Fin.cons_inj.1 hu).1.symm

/-- An orthogonal matrix keeps the squared length. -/
theorem orth_sq {U : Matrix (Fin n) (Fin n) K} (hU : Uᵀ * U = 1) (p : Fin n → K) :
    ∑ i, (U.mulVec p) i ^ 2 = ∑ i, p i ^ 2 := by
  have : U.mulVec p ⬝ᵥ U.mulVec p = p ⬝ᵥ p := by
    rw [dotProduct_mulVec, vecMul_mulVec, hU, vecMul_one]
  simpa [dotProduct, sq] using this

theorem cornerMax_eq (S : Fin n → K) (hS : ∀ i, 0 < S i) (Vh : Matrix (Fin n) (Fin n) K) (i : Fin n) :
    cornerMax S Vh i = ∑ j, |Vh j i| / S j := by
  apply le_antisymm
  · refine Finset.sup'_le _ _ fun s _ => Finset.sum_le_sum fun j _ => ?_
    rw [mul_div_assoc', div_le_div_iff_of_pos_right (hS j)]
    split
    · rw [mul_one]; exact le_abs_self _
    · rw [mul_neg_one]; exact neg_le_abs _
  · have := Finset.le_sup' (fun s : Fin n → Bool => ∑ j, Vh j i * ((if s j then 1 else -1) / S j))
      (Finset.mem_univ fun j => decide (0 ≤ Vh j i))
    refine le_trans (Finset.sum_le_sum fun j _ => ?_) this
    rw [mul_div_assoc', div_le_div_iff_of_pos_right (hS j)]
    by_cases h : 0 ≤ Vh j i
    · simp [h, abs_of_nonneg h]
    · simp [h, abs_of_neg (not_le.1 h)]

/-- C51.  For every invertible lattice matrix and every radius the call succeeds and returns each lattice point `A n`
(`n` an integer vector) of length less than `dist` exactly once, and nothing else.  (`rnd` is the rounding function;
it only needs to round `0` and `1` to themselves.) -/
theorem C51_lattice_in_sphere (qr : Matrix (Fin n) (Fin n) K → Matrix (Fin n) (Fin n) K) (hqr : Spec.IsQR qr)
    (svd : Matrix (Fin n) (Fin n) K → Matrix (Fin n) (Fin n) K × (Fin n → K) × Matrix (Fin n) (Fin n) K)
    (hsvd : ∀ B, B.det ≠ 0 → Spec.IsSVD B (svd B)) (rnd : K → ℤ) (h0 : rnd 0 = 0) (h1 : rnd 1 = 1)
    (A : Matrix (Fin n) (Fin n) K) (hA : A.det ≠ 0) (dist : K) :
    ∃ L, latticeInSphere qr svd rnd A dist = .ok L ∧ L.Nodup ∧
      ∀ p, p ∈ L ↔ ∃ v : Fin n → ℤ, p = A.mulVec (Spec.ofInt v) ∧ 0 < dist ∧ ∑ i, p i ^ 2 < dist ^ 2 := by
  have castdet : ∀ M : Matrix (Fin n) (Fin n) ℤ, M.det = 1 → (M.map (Int.cast : ℤ → K)).det = 1 := by
    intro M hM
    have := (Int.castRingHom K).map_det M
    rw [hM, map_one] at this
    exact this.symm
  obtain ⟨M1, hM1, e1⟩ := latStep_spec qr hqr rnd h0 h1 A hA
  obtain ⟨M2, hM2, e2⟩ := latStep_spec qr hqr rnd h0 h1 (A * M1.map Int.cast)
    (by rw [det_mul, castdet M1 hM1, mul_one]; exact hA)
  obtain ⟨M3, hM3, e3⟩ := latStep_spec qr hqr rnd h0 h1 (A * M1.map Int.cast * M2.map Int.cast)
    (by rw [det_mul, det_mul, castdet M1 hM1, castdet M2 hM2, mul_one, mul_one]; exact hA)
  set B := A * M1.map Int.cast * M2.map Int.cast * M3.map (Int.cast : ℤ → K) with hB
  let M := M1 * M2 * M3
  have hBM : B = A * M.map (Int.cast : ℤ → K) := by
    have : M.map (Int.cast : ℤ → K) = M1.map Int.cast * M2.map Int.cast * M3.map Int.cast := by
      show (Int.castRingHom K).mapMatrix (M1 * M2 * M3) = _
      rw [map_mul, map_mul]; rfl
    rw [this, hB, Matrix.mul_assoc, Matrix.mul_assoc, Matrix.mul_assoc]
  have hMdet : M.det = 1 := by simp [M, det_mul, hM1, hM2, hM3]
  have hBdet : B.det ≠ 0 := by rw [hBM, det_mul, castdet M hMdet, mul_one]; exact hA
  have castmul : ∀ (N : Matrix (Fin n) (Fin n) ℤ) (v : Fin n → ℤ),
      (N.map (Int.cast : ℤ → K)).mulVec (Spec.ofInt v) = Spec.ofInt (N.mulVec v) := by
    intro N v; ext i; simp [mulVec, dotProduct, Spec.ofInt]
  have hlat : ∀ v : Fin n → ℤ, ∃ w : Fin n → ℤ, A.mulVec (Spec.ofInt v) = B.mulVec (Spec.ofInt w) := by
    intro v
    refine ⟨M.adjugate.mulVec v, ?_⟩
    rw [hBM, ← mulVec_mulVec, castmul, mulVec_mulVec, mul_adjugate, hMdet, one_smul, one_mulVec]
  obtain ⟨hU, hV, hSn, hBs⟩ := hsvd B hBdet
  obtain ⟨⟨U, S, Vh⟩, hsv⟩ : ∃ t, svd B = t := ⟨_, rfl⟩
  rw [hsv] at hU hV hSn hBs
  simp only at hU hV hSn hBs
  have hS : ∀ i, 0 < S i := by
    intro i
    refine lt_of_le_of_ne (hSn i) fun h => hBdet ?_
    rw [hBs, det_mul, det_mul, det_diagonal, Finset.prod_eq_zero (Finset.mem_univ i) h.symm]
    simp
  have hpos : ∀ w : Fin n → ℤ, B.mulVec (Spec.ofInt w) =
      U.mulVec fun i => S i * (Vh.mulVec fun j => (w j : K)) i := by
    intro w
    rw [hBs, ← mulVec_mulVec, ← mulVec_mulVec]
    congr 1
    ext i
    rw [mulVec_diagonal]; rfl
  have hBinj : ∀ w w' : Fin n → ℤ, B.mulVec (Spec.ofInt w) = B.mulVec (Spec.ofInt w') → w = w' := by
    intro w w' h
    exact ofInt_inj (mulVec_injective_of_isUnit ((isUnit_iff_isUnit_det _).2 (isUnit_iff_ne_zero.2 hBdet)) h)
  refine ⟨(((meshgrid fun i => symRange (pyInt (dist * cornerMax S Vh i))).map fun v i =>
    S i * (Vh.mulVec (fun j => (v j : K))) i).filter fun p => decide (0 < dist ∧ ∑ i, p i ^ 2 < dist ^ 2)).map
    fun p => U.mulVec p, ?_, ?_, ?_⟩
  · unfold latticeInSphere
    rw [e1]; simp only [bind, Except.bind]
    rw [e2]; simp only
    rw [e3]; simp only
    rw [hsv]
    rfl
  · simp only [List.filter_map, List.map_map]
    refine List.Nodup.map ?_ ((nodup_meshgrid fun i => nodup_symRange _).filter _)
    intro w w' h
    exact hBinj w w' (by rw [hpos, hpos]; exact h)
  · intro p
    simp only [List.filter_map, List.map_map, List.mem_map, List.mem_filter, mem_meshgrid, mem_symRange,
      Function.comp, decide_eq_true_eq]
    have hlen : ∀ w : Fin n → ℤ, ∑ i, (U.mulVec fun i => S i * (Vh.mulVec fun j => (w j : K)) i) i ^ 2
        = ∑ i, (S i * (Vh.mulVec fun j => (w j : K)) i) ^ 2 := fun w => orth_sq hU _
    constructor
    · rintro ⟨w, ⟨-, hd, hlt⟩, rfl⟩
      refine ⟨M.mulVec w, ?_, hd, ?_⟩
      · rw [← hpos, hBM, ← mulVec_mulVec, castmul]
      · rw [hlen]; exact hlt
    · rintro ⟨v, rfl, hd, hlt⟩
      obtain ⟨w, hw⟩ := hlat v
      rw [hw, hpos] at hlt ⊢
      rw [hlen] at hlt
      refine ⟨w, ⟨fun i => ?_, hd, hlt⟩, rfl⟩
      rw [cornerMax_eq S hS]
      have hy : ∀ j, |(Vh.mulVec fun j => (w j : K)) j| ≤ dist / S j := by
        intro j
        have h2 : (S j * (Vh.mulVec fun j => (w j : K)) j) ^ 2 ≤ dist ^ 2 :=
          (Finset.single_le_sum (f := fun i => (S i * (Vh.mulVec fun j => (w j : K)) i) ^ 2)
            (fun i _ => sq_nonneg _) (Finset.mem_univ j)).trans hlt.le
        have h3 := abs_le_of_sq_le_sq h2 hd.le
        rw [le_div_iff₀ (hS j)]
        calc |(Vh.mulVec fun j => (w j : K)) j| * S j = |S j * (Vh.mulVec fun j => (w j : K)) j| := by
              rw [abs_mul, abs_of_pos (hS j), mul_comm]
          _ ≤ dist := h3
      have hwi : (w i : K) = ∑ j, Vh j i * (Vh.mulVec fun j => (w j : K)) j := by
        have hV' : Vhᵀ * Vh = 1 := mul_eq_one_comm.1 hV
        have : (Vhᵀ.mulVec (Vh.mulVec fun j => (w j : K))) i = (w i : K) := by
          rw [mulVec_mulVec, hV', one_mulVec]
        rw [← this]; rfl
      have hb : |(w i : K)| ≤ dist * ∑ j, |Vh j i| / S j := by
        rw [hwi, Finset.mul_sum]
        refine (Finset.abs_sum_le_sum_abs _ _).trans (Finset.sum_le_sum fun j _ => ?_)
        rw [abs_mul]
        calc |Vh j i| * |(Vh.mulVec fun j => (w j : K)) j| ≤ |Vh j i| * (dist / S j) :=
              mul_le_mul_of_nonneg_left (hy j) (abs_nonneg _)
          _ = dist * (|Vh j i| / S j) := by ring
      have h3 : ((|w i| : ℤ) : K) ≤ dist * ∑ j, |Vh j i| / S j := by rw [Int.cast_abs]; exact hb
      have h4 : |w i| ≤ pyInt (dist * ∑ j, |Vh j i| / S j) := by
        rw [pyInt, if_pos ((abs_nonneg _).trans hb)]
        exact Int.le_floor.2 h3
      exact ⟨(abs_le.1 h4).1, (abs_le.1 h4).2⟩

/-- C51.  For a radius that is not positive nothing is returned, whatever the library routines compute. -/
theorem C51_nonpositive_radius (qr : Matrix (Fin n) (Fin n) K → Matrix (Fin n) (Fin n) K)
    (svd : Matrix (Fin n) (Fin n) K → Matrix (Fin n) (Fin n) K × (Fin n → K) × Matrix (Fin n) (Fin n) K)
    (rnd : K → ℤ) (A : Matrix (Fin n) (Fin n) K) (dist : K) (hd : dist ≤ 0) (L : List (Fin n → K))
    (h : latticeInSphere qr svd rnd A dist = .ok L) : L = [] := by
  unfold latticeInSphere at h
  simp only [bind, Except.bind] at h
  split at h
  · cases h
  split at h
  · cases h
  split at h
  · cases h
  have : ∀ (p : Fin n → K), ¬(0 < dist ∧ ∑ i, p i ^ 2 < dist ^ 2) := fun p hp => absurd hp.1 (not_lt.2 hd)
  simp only [this, decide_false, List.filter_false, List.map_nil, pure, Except.pure, Except.ok.injEq] at h
  exact h.symm

/-! ### the contracts can be met -/

theorem exists_qr (A : Matrix (Fin n) (Fin n) ℝ) :
    ∃ R Q : Matrix (Fin n) (Fin n) ℝ, Qᵀ * Q = 1 ∧ A = Q * R ∧ ∀ i j, j < i → R i j = 0 := by
  let f : Fin n → EuclideanSpace ℝ (Fin n) := fun j => WithLp.toLp 2 fun i => A i j
  have hf : Module.finrank ℝ (EuclideanSpace ℝ (Fin n)) = Fintype.card (Fin n) := by simp
  let e := InnerProductSpace.gramSchmidtOrthonormalBasis hf f
  let Q : Matrix (Fin n) (Fin n) ℝ := fun i j => e j i
  refine ⟨fun i j => e.repr (f j) i, Q, ?_, ?_, ?_⟩
  · ext i j
    have := e.inner_eq_ite i j
    rw [one_apply, ← this]
    rw [PiLp.inner_apply]
    show ∑ k, e i k * e j k = _
    exact Finset.sum_congr rfl fun k _ => mul_comm (e i k) (e j k)
  · ext i j
    have := e.sum_repr (f j)
    have := congrArg (fun v : EuclideanSpace ℝ (Fin n) => v i) this
    simp only [smul_eq_mul, WithLp.ofLp_sum, Finset.sum_apply, WithLp.ofLp_smul, Pi.smul_apply] at this
    rw [show A i j = f j i from rfl, ← this]
    exact Finset.sum_congr rfl fun k _ => mul_comm _ _
  · intro i j hij
    exact InnerProductSpace.gramSchmidtOrthonormalBasis_inv_triangular' hf f hij

theorem exists_svd (A : Matrix (Fin n) (Fin n) ℝ) (hA : A.det ≠ 0) : ∃ r, Spec.IsSVD A r := by
  have hH : (Aᵀ * A).PosDef := by
    have := (PosDef.conjTranspose_mul_self A) (mulVec_injective_of_isUnit
      ((isUnit_iff_isUnit_det _).2 (isUnit_iff_ne_zero.2 hA)))
    simpa using this
  let V : Matrix (Fin n) (Fin n) ℝ := hH.1.eigenvectorUnitary
  have hV1 : Vᵀ * V = 1 := by
    have := (Matrix.mem_unitaryGroup_iff').1 hH.1.eigenvectorUnitary.2
    simpa [star_eq_conjTranspose] using this
  have hV2 : V * Vᵀ = 1 := mul_eq_one_comm.1 hV1
  let e := hH.1.eigenvalues
  have he : ∀ i, 0 < e i := hH.eigenvalues_pos
  have hs : Vᵀ * (Aᵀ * A) * V = diagonal e := by
    have := hH.1.spectral_theorem
    have h2 : Aᵀ * A = V * diagonal e * Vᵀ := by
      conv_lhs => rw [this]
      simp [Unitary.conjStarAlgAut_apply, star_eq_conjTranspose, V, e]
    rw [h2]
    simp only [Matrix.mul_assoc, hV1, Matrix.mul_one]
    rw [← Matrix.mul_assoc, hV1, Matrix.one_mul]
  let S : Fin n → ℝ := fun i => Real.sqrt (e i)
  have hS : ∀ i, 0 < S i := fun i => Real.sqrt_pos.2 (he i)
  let D : Matrix (Fin n) (Fin n) ℝ := diagonal fun i => (S i)⁻¹
  refine ⟨(A * V * D, S, Vᵀ), ?_, ?_, fun i => (hS i).le, ?_⟩
  · have : (A * V * D)ᵀ * (A * V * D) = D * (Vᵀ * (Aᵀ * A) * V) * D := by
      simp [transpose_mul, Matrix.mul_assoc, D]
    show (A * V * D)ᵀ * (A * V * D) = 1
    rw [this, hs]
    simp only [D, diagonal_mul_diagonal]
    rw [← diagonal_one]
    congr 1
    ext i
    have := Real.mul_self_sqrt (he i).le
    have h3 := (hS i).ne'
    have h4 : S i * S i = e i := this
    rw [← h4]
    field_simp
  · simpa using hV1
  · show A = A * V * D * diagonal S * Vᵀ
    have hD : D * diagonal S = 1 := by
      simp only [D, diagonal_mul_diagonal]
      rw [← diagonal_one]
      congr 1
      ext i
      exact inv_mul_cancel₀ (hS i).ne'
    rw [Matrix.mul_assoc (A * V), hD, Matrix.mul_one, Matrix.mul_assoc, hV2, Matrix.mul_one]

-- Every real matrix with non-zero determinant meets the hypotheses, with numpy's half-way rule replaced by `round`.
example (A : Matrix (Fin n) (Fin n) ℝ) (hA : A.det ≠ 0) (dist : ℝ) : ∃ qr svd L,
    latticeInSphere qr svd round A dist = .ok L ∧ L.Nodup ∧
      ∀ p, p ∈ L ↔ ∃ v : Fin n → ℤ, p = A.mulVec (Spec.ofInt v) ∧ 0 < dist ∧ ∑ i, p i ^ 2 < dist ^ 2 := by
  classical
  refine ⟨fun B => (exists_qr B).choose, fun B => if h : B.det ≠ 0 then (exists_svd B h).choose else (0, 0, 0),
    C51_lattice_in_sphere _ (fun B _ => (exists_qr B).choose_spec) _ (fun B hB => ?_) round (by simp) (by simp) A hA dist⟩
  rw [dif_pos hB]
  exact (exists_svd B hB).choose_spec

-- the square lattice with lattice constants 1 and 2 and radius 5/2 has eleven points inside the sphere
def exQr (A : Matrix (Fin 2) (Fin 2) ℚ) : Matrix (Fin 2) (Fin 2) ℚ := A
def exSvd (A : Matrix (Fin 2) (Fin 2) ℚ) :
    Matrix (Fin 2) (Fin 2) ℚ × (Fin 2 → ℚ) × Matrix (Fin 2) (Fin 2) ℚ := (1, fun i => A i i, 1)

example : okAnd (latticeInSphere exQr exSvd round !![1, 0; 0, 2] (5/2)) (fun L => L.length = 11) = true := by
  decide +kernel

end TB

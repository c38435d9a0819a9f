import Mathlib.LinearAlgebra.Matrix.Kronecker
import Mathlib.LinearAlgebra.Matrix.SchurComplement
import Mathlib.LinearAlgebra.Matrix.Charpoly.Coeff
import Mathlib.Logic.Equiv.Fin.Basic
import Mathlib.Data.List.Perm.Subperm
import Mathlib.Data.List.Nodup
import Verif.Model.Linalg

/-!
# C18 (`pointcloud_distance`) and C50 (`direct_sum`, `kron`)
-/

set_option linter.unusedSectionVars false

namespace TB
open Matrix

/-! ## C18 -/

theorem ptDist_nonneg {n : ℕ} (p q : Fin n → ℝ) : 0 ≤ ptDist p q := Real.sqrt_nonneg _

theorem ptDist_eq_zero {n : ℕ} {p q : Fin n → ℝ} : ptDist p q = 0 ↔ p = q := by
  rw [ptDist, Real.sqrt_eq_zero (Finset.sum_nonneg fun i _ => sq_nonneg _),
    Finset.sum_eq_zero_iff_of_nonneg fun i _ => sq_nonneg _]
  constructor
  · intro h; ext i; exact sub_eq_zero.1 (pow_eq_zero_iff two_ne_zero |>.1 (h i (Finset.mem_univ i)))
  · rintro rfl i _; simp

theorem minOf_spec (x : ℝ) (l : List ℝ) : minOf x l ∈ x :: l ∧ ∀ y ∈ x :: l, minOf x l ≤ y := by
  induction l generalizing x with
  | nil => simp [minOf]
  | cons a l ih =>
    obtain ⟨h1, h2⟩ := ih (min x a)
    have e : minOf x (a :: l) = minOf (min x a) l := rfl
    rw [e]
    constructor
    · rcases List.mem_cons.1 h1 with h | h
      · rcases min_choice x a with h' | h' <;> rw [h, h'] <;> simp
      · simp [h]
    · intro y hy
      have h3 := h2 _ List.mem_cons_self
      rcases List.mem_cons.1 hy with rfl | hy
      · exact h3.trans (min_le_left _ _)
      rcases List.mem_cons.1 hy with rfl | hy
      · exact h3.trans (min_le_right _ _)
      · exact h2 y (List.mem_cons_of_mem _ hy)

theorem foldl_add_eq {α : Type} (f : α → ℝ) (l : List α) (x : ℝ) :
    l.foldl (fun s p => s + f p) x = x + (l.map f).sum := by
  induction l generalizing x with
  | nil => simp
  | cons a l ih => simp [ih, add_assoc]

/-- C18.  For two non-empty clouds a distance is returned, it is not negative, and it is zero exactly if every point of
the first cloud occurs in the second one. -/
theorem C18_pointcloud_distance_zero_iff {n : ℕ} (A B : List (Fin n → ℝ)) (hA : A ≠ []) (hB : B ≠ []) :
    ∃ v, pointcloudDistance A B = .ok v ∧ 0 ≤ v ∧ (v = 0 ↔ ∀ a ∈ A, a ∈ B) := by
  obtain ⟨a, as, rfl⟩ := List.exists_cons_of_ne_nil hA
  obtain ⟨b, bs, rfl⟩ := List.exists_cons_of_ne_nil hB
  have hm : ∀ p : Fin n → ℝ, 0 ≤ minOf (ptDist p b) (bs.map fun q => ptDist p q) ∧
      (minOf (ptDist p b) (bs.map fun q => ptDist p q) = 0 ↔ p ∈ b :: bs) := by
    intro p
    obtain ⟨h1, h2⟩ := minOf_spec (ptDist p b) (bs.map fun q => ptDist p q)
    have e : (ptDist p b :: bs.map fun q => ptDist p q) = (b :: bs).map fun q => ptDist p q := rfl
    rw [e] at h1 h2
    obtain ⟨q, hq, hq'⟩ := List.mem_map.1 h1
    refine ⟨hq' ▸ ptDist_nonneg p q, ?_, ?_⟩
    · intro h0; rw [h0] at hq'; rw [ptDist_eq_zero.1 hq']; exact hq
    · intro hp
      exact le_antisymm ((h2 _ (List.mem_map_of_mem hp)).trans_eq (ptDist_eq_zero.2 rfl)) (hq' ▸ ptDist_nonneg p q)
  refine ⟨_, rfl, ?_, ?_⟩
  · rw [foldl_add_eq, zero_add]
    exact List.sum_nonneg (by simpa [List.forall_mem_map] using
      ⟨(hm a).1, fun p _ => (hm p).1⟩)
  · rw [foldl_add_eq, zero_add]
    generalize a :: as = L
    induction L with
    | nil => simp
    | cons p L ih =>
      rw [List.map_cons, List.sum_cons, List.forall_mem_cons, ← ih, ← (hm p).2]
      exact add_eq_zero_iff_of_nonneg (hm p).1 (List.sum_nonneg fun x hx => by
        obtain ⟨q, -, rfl⟩ := List.mem_map.1 hx; exact (hm q).1)

/-- C18.  For a first cloud without duplicates and a second one which is not larger, the distance is zero exactly if
the clouds agree up to order. -/
theorem C18_zero_iff_perm {n : ℕ} (A B : List (Fin n → ℝ)) (hA : A ≠ []) (hB : B ≠ []) (hnd : A.Nodup)
    (hlen : B.length ≤ A.length) : ∃ v, pointcloudDistance A B = .ok v ∧ (v = 0 ↔ A.Perm B) := by
  obtain ⟨v, h1, -, h2⟩ := C18_pointcloud_distance_zero_iff A B hA hB
  refine ⟨v, h1, h2.trans ⟨fun h => ?_, fun h a ha => h.mem_iff.1 ha⟩⟩
  exact (hnd.subperm h).perm_of_length_le hlen

/-- C18.  An empty cloud raises `ValueError`. -/
theorem C18_empty {n : ℕ} (A : List (Fin n → ℝ)) :
    pointcloudDistance [] A = .error .valueError ∧ pointcloudDistance A [] = .error .valueError := by
  cases A <;> exact ⟨rfl, rfl⟩

/-- C18.  The distance is not symmetric and ignores multiplicities: a cloud with a double point and a third cloud
containing it. -/
theorem C18_not_symmetric : ∃ (A B : List (Fin 1 → ℝ)) (v w : ℝ), pointcloudDistance A B = .ok v ∧
    pointcloudDistance B A = .ok w ∧ v = 0 ∧ w ≠ 0 ∧ A.length = B.length := by
  obtain ⟨v, hv, -, hv'⟩ := C18_pointcloud_distance_zero_iff [![0], ![0]] [![0], ![(1 : ℝ)]] (by simp) (by simp)
  obtain ⟨w, hw, -, hw'⟩ := C18_pointcloud_distance_zero_iff [![0], ![(1 : ℝ)]] [![0], ![0]] (by simp) (by simp)
  refine ⟨_, _, v, w, hv, hw, hv'.2 (by simp), fun h => ?_, rfl⟩
  have := (hw'.1 h) ![1] (by simp)
  simp only [List.mem_cons, List.not_mem_nil, or_false, or_self] at this
  have := congrFun this 0
  simp at this

example : ∃ v, pointcloudDistance [![1, 2], ![3, 4]] [![3, (4 : ℝ)], ![1, 2]] = .ok v ∧ v = 0 := by
  obtain ⟨v, h, -, h'⟩ := C18_pointcloud_distance_zero_iff [![1, 2], ![3, 4]] [![3, (4 : ℝ)], ![1, 2]] (by simp) (by simp)
  exact ⟨v, h, h'.2 (by simp)⟩

/-! ## C50 -/

section C50
variable {K : Type}

/-- `c` is the matrix product `a @ b` of arrays of compatible shape. -/
def Spec.IsProd [CommRing K] (a b c : Arr K) : Prop :=
  ∃ (m n p : ℕ) (x : Matrix (Fin m) (Fin n) K) (y : Matrix (Fin n) (Fin p) K),
    a = ⟨m, n, x⟩ ∧ b = ⟨n, p, y⟩ ∧ c = ⟨m, p, x * y⟩

/-- Transposed conjugate of an array. -/
def Spec.adj [Star K] (a : Arr K) : Arr K := ⟨a.cols, a.rows, a.getᴴ⟩

theorem Arr.ext' {a b : Arr K} (h1 : a.rows = b.rows) (h2 : a.cols = b.cols)
    (h3 : ∀ i j (hi : i < a.rows) (hj : j < a.cols), a.get ⟨i, hi⟩ ⟨j, hj⟩ = b.get ⟨i, h1 ▸ hi⟩ ⟨j, h2 ▸ hj⟩) :
    a = b := by
  obtain ⟨m, n, f⟩ := a
  obtain ⟨m', n', f'⟩ := b
  dsimp only at h1 h2
  subst h1 h2
  congr
  ext ⟨i, hi⟩ ⟨j, hj⟩
  exact h3 i j hi hj

theorem dsum_eq [Zero K] {m n p q : ℕ} (a : Matrix (Fin m) (Fin n) K) (b : Matrix (Fin p) (Fin q) K) :
    dsum a b = (fromBlocks a 0 0 b).submatrix finSumFinEquiv.symm finSumFinEquiv.symm := by
  ext i j
  obtain ⟨i, rfl⟩ := finSumFinEquiv.surjective i
  obtain ⟨j, rfl⟩ := finSumFinEquiv.surjective j
  rcases i with i | i <;> rcases j with j | j <;> simp [dsum]

theorem dsum_mul [CommRing K] {m n p m' n' p' : ℕ} (a : Matrix (Fin m) (Fin n) K) (b : Matrix (Fin m') (Fin n') K)
    (a' : Matrix (Fin n) (Fin p) K) (b' : Matrix (Fin n') (Fin p') K) :
    dsum a b * dsum a' b' = dsum (a * a') (b * b') := by
  simp only [dsum_eq]
  rw [submatrix_mul_equiv, fromBlocks_multiply]
  simp

theorem dsum_conjTranspose [CommRing K] [StarRing K] {m n p q : ℕ} (a : Matrix (Fin m) (Fin n) K)
    (b : Matrix (Fin p) (Fin q) K) : (dsum a b)ᴴ = dsum aᴴ bᴴ := by
  simp only [dsum_eq]
  rw [conjTranspose_submatrix, fromBlocks_conjTranspose]
  simp

theorem dsum_det [CommRing K] {m n : ℕ} (a : Matrix (Fin m) (Fin m) K) (b : Matrix (Fin n) (Fin n) K) :
    (dsum a b).det = a.det * b.det := by
  rw [dsum_eq, det_submatrix_equiv_self, det_fromBlocks_zero₂₁]

theorem Arr.dsum_assoc [Zero K] (a b c : Arr K) : (a.dsum b).dsum c = a.dsum (b.dsum c) := by
  refine Arr.ext' (Nat.add_assoc _ _ _) (Nat.add_assoc _ _ _) fun i j hi hj => ?_
  simp only [Arr.dsum, TB.dsum]
  split_ifs <;> first | rfl | omega | (congr 2 <;> omega)

theorem Arr.kron_assoc [Semigroup K] (a b c : Arr K) : (a.kron b).kron c = a.kron (b.kron c) := by
  refine Arr.ext' (Nat.mul_assoc _ _ _) (Nat.mul_assoc _ _ _) fun i j hi hj => ?_
  simp only [Arr.kron, mul_assoc]
  have key : ∀ (i x y : ℕ), i / (y * x) = i / x / y ∧ i / x % y = i % (y * x) / x ∧ i % x = i % (y * x) % x := by
    intro i x y
    refine ⟨by rw [Nat.mul_comm, Nat.div_div_eq_div_mul], ?_, ?_⟩
    · rw [Nat.mul_comm, Nat.mod_mul_right_div_self]
    · rw [Nat.mod_mod_of_dvd _ (Nat.dvd_mul_left _ _)]
  congr 1
  · congr 1 <;> apply Fin.ext <;> simp only [Fin.coe_divNat] <;> exact ((key _ _ _).1).symm
  congr 1
  · congr 1 <;> apply Fin.ext <;> simp only [Fin.coe_divNat, Fin.coe_modNat] <;> exact (key _ _ _).2.1
  · congr 1 <;> apply Fin.ext <;> simp only [Fin.coe_modNat] <;> exact (key _ _ _).2.2

theorem directSum_cons [Zero K] (a : Arr K) (l : List (Arr K)) :
    directSum (a :: l) = .ok (l.foldl Arr.dsum a) := by
  induction l generalizing a with
  | nil => rw [directSum]; rfl
  | cons b l ih => rw [directSum, ih]; rfl

theorem kronList_cons [Mul K] (a : Arr K) (l : List (Arr K)) :
    kronList (a :: l) = .ok (l.foldl Arr.kron a) := by
  induction l generalizing a with
  | nil => rw [kronList]; rfl
  | cons b l ih => rw [kronList, ih]; rfl

/-- C50.  `direct_sum` of a non-empty list is block diagonal: the row block of the matrix `a` standing after the
matrices `l1` starts at the total number of rows of `l1`; in this block the entries in the column block of `a` are those
of `a` and all other entries are zero. -/
theorem C50_direct_sum_blocks [Zero K] (l : List (Arr K)) (hl : l ≠ []) :
    ∃ r, directSum l = .ok r ∧ r.rows = (l.map Arr.rows).sum ∧ r.cols = (l.map Arr.cols).sum ∧
    ∀ (l1 l2 : List (Arr K)) (a : Arr K), l = l1 ++ a :: l2 → ∀ (i J : ℕ) (hi : i < a.rows)
      (hI : (l1.map Arr.rows).sum + i < r.rows) (hJ : J < r.cols),
      r.get ⟨(l1.map Arr.rows).sum + i, hI⟩ ⟨J, hJ⟩ =
        if h : (l1.map Arr.cols).sum ≤ J ∧ J < (l1.map Arr.cols).sum + a.cols
        then a.get ⟨i, hi⟩ ⟨J - (l1.map Arr.cols).sum, by omega⟩ else 0 := by
  induction l using List.reverseRecOn with
  | nil => exact absurd rfl hl
  | append_singleton l b ih =>
    rcases List.eq_nil_or_concat l with rfl | ⟨l', x, rfl⟩
    · refine ⟨b, by simp [directSum], by simp, by simp, ?_⟩
      intro l1 l2 a he i J hi hI hJ
      cases l1 with
      | nil =>
        simp only [List.nil_append, List.cons.injEq] at he
        obtain ⟨rfl, -⟩ := he
        simp [hJ]
      | cons y l1 => simp at he
    · obtain ⟨r, h1, h2, h3, h4⟩ := ih (by simp)
      obtain ⟨c, cs, hc⟩ := List.exists_cons_of_ne_nil (l := l' ++ [x]) (by simp)
      have hr : directSum (l' ++ [x] ++ [b]) = .ok (r.dsum b) := by
        simp only [List.concat_eq_append] at h1
        rw [hc] at h1 ⊢
        rw [directSum_cons] at h1
        rw [List.cons_append, directSum_cons, List.foldl_append]
        simp only [List.foldl_cons, List.foldl_nil]
        rw [Except.ok.inj h1]
      simp only [List.concat_eq_append] at h2 h3 h4 ⊢
      have e2 : ((l' ++ [x] ++ [b]).map Arr.rows).sum = r.rows + b.rows := by
        rw [List.map_append, List.sum_append, ← h2]; simp
      have e3 : ((l' ++ [x] ++ [b]).map Arr.cols).sum = r.cols + b.cols := by
        rw [List.map_append, List.sum_append, ← h3]; simp
      refine ⟨r.dsum b, hr, e2.symm, e3.symm, ?_⟩
      intro l1 l2 a he i J hi hI hJ
      have hJ' : J < r.cols + b.cols := hJ
      rcases List.eq_nil_or_concat l2 with rfl | ⟨l2', y, rfl⟩
      · obtain ⟨rfl, hab⟩ := List.append_inj' he rfl
        simp only [List.cons.injEq, and_true] at hab
        subst hab
        rw [← h2] at hI
        simp only [← h3]
        have : ∀ (I : ℕ) (hI : I < r.rows + b.rows), I = r.rows + i → (r.dsum b).get ⟨I, hI⟩ ⟨J, hJ⟩ =
            if h : r.cols ≤ J ∧ J < r.cols + b.cols then b.get ⟨i, hi⟩ ⟨J - r.cols, by omega⟩ else 0 := by
          rintro I hI rfl
          simp only [Arr.dsum, TB.dsum]
          rw [dif_neg (by omega)]
          by_cases hJr : J < r.cols
          · rw [dif_pos hJr, dif_neg (by omega)]
          · rw [dif_neg hJr, dif_pos (by omega)]
            congr 2; omega
        exact this _ _ (by rw [h2])
      · simp only [List.concat_eq_append] at he
        rw [show l1 ++ a :: (l2' ++ [y]) = l1 ++ a :: l2' ++ [y] by simp] at he
        obtain ⟨he, hby⟩ := List.append_inj' he rfl
        have hrow : (l1.map Arr.rows).sum + i < r.rows := by
          rw [h2, he]; simp; omega
        have hcol : (l1.map Arr.cols).sum + a.cols ≤ r.cols := by
          rw [h3, he]; simp
        have := h4 l1 l2' a he i J hi hrow
        simp only [Arr.dsum, TB.dsum]
        rw [dif_pos hrow]
        by_cases hJr : J < r.cols
        · rw [dif_pos hJr, this hJr]
        · rw [dif_neg hJr, dif_neg (by omega)]

/-- C50.  Both functions raise `ValueError` without arguments and return a single argument unchanged; splitting the
argument list anywhere gives the same result (associativity). -/
theorem C50_associative [CommRing K] :
    (directSum ([] : List (Arr K)) = .error .valueError ∧ kronList ([] : List (Arr K)) = .error .valueError) ∧
    (∀ a : Arr K, directSum [a] = .ok a ∧ kronList [a] = .ok a) ∧
    ∀ l1 l2 : List (Arr K), l1 ≠ [] → l2 ≠ [] →
      (∃ a b, directSum l1 = .ok a ∧ directSum l2 = .ok b ∧ directSum (l1 ++ l2) = directSum [a, b]) ∧
      (∃ a b, kronList l1 = .ok a ∧ kronList l2 = .ok b ∧ kronList (l1 ++ l2) = kronList [a, b]) := by
  refine ⟨⟨by rw [directSum], by rw [kronList]⟩, fun a => ⟨by rw [directSum], by rw [kronList]⟩, ?_⟩
  intro l1 l2 h1 h2
  obtain ⟨a, as, rfl⟩ := List.exists_cons_of_ne_nil h1
  obtain ⟨b, bs, rfl⟩ := List.exists_cons_of_ne_nil h2
  constructor
  · refine ⟨_, _, directSum_cons _ _, directSum_cons _ _, ?_⟩
    rw [List.cons_append, directSum_cons, directSum_cons, List.foldl_append]
    simp only [List.foldl_cons, List.foldl_nil]
    congr 1
    generalize as.foldl Arr.dsum a = x
    induction bs generalizing b with
    | nil => rfl
    | cons c cs ih => simp only [List.foldl_cons]; rw [Arr.dsum_assoc, ih _ (by simp)]
  · refine ⟨_, _, kronList_cons _ _, kronList_cons _ _, ?_⟩
    rw [List.cons_append, kronList_cons, kronList_cons, List.foldl_append]
    simp only [List.foldl_cons, List.foldl_nil]
    congr 1
    generalize as.foldl Arr.kron a = x
    induction bs generalizing b with
    | nil => rfl
    | cons c cs ih => simp only [List.foldl_cons]; rw [Arr.kron_assoc, ih _ (by simp)]

/-- C50.  The binary Kronecker product: entry `(i p + i', j q + j')` is `a[i,j] b[i',j']`. -/
theorem C50_kron_entry [Mul K] (a b : Arr K) : ∃ r, kronList [a, b] = .ok r ∧ r.rows = a.rows * b.rows ∧
    r.cols = a.cols * b.cols ∧
    ∀ (i i' j j' : ℕ) (hi : i < a.rows) (hi' : i' < b.rows) (hj : j < a.cols) (hj' : j' < b.cols)
      (hI : i * b.rows + i' < r.rows) (hJ : j * b.cols + j' < r.cols),
      r.get ⟨i * b.rows + i', hI⟩ ⟨j * b.cols + j', hJ⟩ = a.get ⟨i, hi⟩ ⟨j, hj⟩ * b.get ⟨i', hi'⟩ ⟨j', hj'⟩ := by
  refine ⟨_, kronList_cons _ _, rfl, rfl, ?_⟩
  intro i i' j j' hi hi' hj hj' hI hJ
  simp only [List.foldl_cons, List.foldl_nil, Arr.kron]
  have hd : ∀ x y p : ℕ, y < p → (x * p + y) / p = x ∧ (x * p + y) % p = y := by
    intro x y p h
    refine ⟨?_, ?_⟩
    · rw [Nat.mul_comm, Nat.mul_add_div (by omega), Nat.div_eq_of_lt h, Nat.add_zero]
    · rw [Nat.mul_comm, Nat.mul_add_mod, Nat.mod_eq_of_lt h]
  congr 1
  · congr 1 <;> apply Fin.ext <;> simp only [Fin.coe_divNat]
    · exact (hd _ _ _ hi').1
    · exact (hd _ _ _ hj').1
  · congr 1 <;> apply Fin.ext <;> simp only [Fin.coe_modNat]
    · exact (hd _ _ _ hi').2
    · exact (hd _ _ _ hj').2

theorem IsProd.dsum [CommRing K] {a b c a' b' c' : Arr K} (h : Spec.IsProd a b c) (h' : Spec.IsProd a' b' c') :
    Spec.IsProd (a.dsum a') (b.dsum b') (c.dsum c') := by
  obtain ⟨m, n, p, x, y, rfl, rfl, rfl⟩ := h
  obtain ⟨m', n', p', x', y', rfl, rfl, rfl⟩ := h'
  exact ⟨m + m', n + n', p + p', TB.dsum x x', TB.dsum y y', rfl, rfl, by simp only [Arr.dsum, dsum_mul]⟩

theorem IsProd.kron [CommRing K] {a b c a' b' c' : Arr K} (h : Spec.IsProd a b c) (h' : Spec.IsProd a' b' c') :
    Spec.IsProd (a.kron a') (b.kron b') (c.kron c') := by
  obtain ⟨m, n, p, x, y, rfl, rfl, rfl⟩ := h
  obtain ⟨m', n', p', x', y', rfl, rfl, rfl⟩ := h'
  refine ⟨m * m', n * n', p * p', _, _, rfl, rfl, ?_⟩
  simp only [Arr.kron]
  congr 1
  ext i j
  simp only [mul_apply]
  rw [Finset.sum_mul_sum, ← Fintype.sum_prod_type', ← finProdFinEquiv.symm.sum_comp]
  refine Finset.sum_congr rfl fun k _ => ?_
  simp only [finProdFinEquiv_symm_apply]
  ring

/-- C50.  Both constructions are multiplicative for lists of any length: if `c_i = a_i @ b_i` for all `i`, then the
direct sum (Kronecker product) of the `c_i` is the product of those of the `a_i` and `b_i`. -/
theorem C50_multiplicative [CommRing K] (l : List (Arr K × Arr K × Arr K)) (hl : l ≠ [])
    (hp : ∀ t ∈ l, Spec.IsProd t.1 t.2.1 t.2.2) :
    (∃ a b c, directSum (l.map fun t => t.1) = .ok a ∧ directSum (l.map fun t => t.2.1) = .ok b ∧
      directSum (l.map fun t => t.2.2) = .ok c ∧ Spec.IsProd a b c) ∧
    (∃ a b c, kronList (l.map fun t => t.1) = .ok a ∧ kronList (l.map fun t => t.2.1) = .ok b ∧
      kronList (l.map fun t => t.2.2) = .ok c ∧ Spec.IsProd a b c) := by
  obtain ⟨t, ts, rfl⟩ := List.exists_cons_of_ne_nil hl
  simp only [List.map_cons, directSum_cons, kronList_cons]
  have ht := hp t (by simp)
  have hts : ∀ u ∈ ts, Spec.IsProd u.1 u.2.1 u.2.2 := fun u hu => hp u (by simp [hu])
  constructor
  · refine ⟨_, _, _, rfl, rfl, rfl, ?_⟩
    clear hp hl
    obtain ⟨a, b, c⟩ := t
    induction ts generalizing a b c with
    | nil => exact ht
    | cons u ts ih => exact ih (fun v hv => hts v (List.mem_cons_of_mem _ hv)) _ _ _ (IsProd.dsum ht (hts u (by simp)))
  · refine ⟨_, _, _, rfl, rfl, rfl, ?_⟩
    clear hp hl
    obtain ⟨a, b, c⟩ := t
    induction ts generalizing a b c with
    | nil => exact ht
    | cons u ts ih => exact ih (fun v hv => hts v (List.mem_cons_of_mem _ hv)) _ _ _ (IsProd.kron ht (hts u (by simp)))

/-- C50.  The adjoint of a direct sum (Kronecker product) is the direct sum (Kronecker product) of the adjoints. -/
theorem C50_adjoint [CommRing K] [StarRing K] (l : List (Arr K)) (hl : l ≠ []) :
    (∃ a, directSum l = .ok a ∧ directSum (l.map Spec.adj) = .ok (Spec.adj a)) ∧
    (∃ a, kronList l = .ok a ∧ kronList (l.map Spec.adj) = .ok (Spec.adj a)) := by
  obtain ⟨t, ts, rfl⟩ := List.exists_cons_of_ne_nil hl
  simp only [List.map_cons, directSum_cons, kronList_cons]
  have h1 : ∀ a b : Arr K, (Spec.adj a).dsum (Spec.adj b) = Spec.adj (a.dsum b) := by
    intro a b; simp only [Spec.adj, Arr.dsum, dsum_conjTranspose]
  have h2 : ∀ a b : Arr K, (Spec.adj a).kron (Spec.adj b) = Spec.adj (a.kron b) := by
    intro a b
    simp only [Spec.adj, Arr.kron]
    congr 1
    ext i j
    exact (star_mul' _ _).symm
  constructor
  · refine ⟨_, rfl, ?_⟩
    congr 1
    clear hl
    induction ts generalizing t with
    | nil => rfl
    | cons u ts ih => simp only [List.map_cons, List.foldl_cons, h1, ih]
  · refine ⟨_, rfl, ?_⟩
    congr 1
    clear hl
    induction ts generalizing t with
    | nil => rfl
    | cons u ts ih => simp only [List.map_cons, List.foldl_cons, h2, ih]

example : ∃ r, directSum [⟨1, 2, !![1, 2]⟩, ⟨1, 1, !![3]⟩, (⟨2, 1, !![4; 5]⟩ : Arr ℤ)] = .ok r ∧ r.rows = 4 ∧
    r.cols = 4 := by
  obtain ⟨r, h, h1, h2, -⟩ := C50_direct_sum_blocks
    [⟨1, 2, !![1, 2]⟩, ⟨1, 1, !![3]⟩, (⟨2, 1, !![4; 5]⟩ : Arr ℤ)] (by simp)
  exact ⟨r, h, h1, h2⟩

example : Spec.IsProd (⟨1, 2, !![1, 2]⟩ : Arr ℤ) ⟨2, 1, !![3; 4]⟩ ⟨1, 1, !![11]⟩ :=
  ⟨1, 2, 1, !![1, 2], !![3; 4], rfl, rfl, by congr 1; decide⟩

end C50
end TB

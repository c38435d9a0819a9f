import Mathlib.Analysis.Matrix.Spectrum
import Mathlib.Analysis.Matrix.PosDef
import Mathlib.Analysis.Complex.Order
import Mathlib.LinearAlgebra.Matrix.IsDiag
import Verif.Props.Fourier

/-!
# C26 - C29: `AsymTightBindingModel`

The bands at `k` are the generalised eigenvalues of the pair `(H(k), S(k))` (tight_binding_asym.py 771-780).
-/

set_option linter.unusedSectionVars false

namespace TB
open Matrix
open scoped ComplexOrder

variable {d n m : ℕ}

/-- `e` is a generalised eigenvalue of `(H, S)` with eigenvector `v`: `H v = e S v`, `v ≠ 0`. -/
def Spec.GenEig (H S : CMat n) (e : ℂ) (v : Fin n → ℂ) : Prop := v ≠ 0 ∧ H.mulVec v = e • S.mulVec v

/-- The model has Hamiltonian `H` and overlap `S` at `k`. -/
def Spec.At (t : Tb d n) (k : RVec d) (H S : CMat n) : Prop := t.H.f k = .ok H ∧ t.S.f k = .ok S

/-! ## transport of the value along maps of the coefficients -/

theorem hsum_map {n' : ℕ} (c : RVec d → ℂ) (φ : CMat n →+ CMat n') (hφ : ∀ (z : ℂ) M, φ (z • M) = z • φ M)
    (hφ' : ∀ M, φ Mᴴ = (φ M)ᴴ) (l : List (RVec d × CMat n)) :
    hsum c (l.map fun x => (x.1, φ x.2)) = (hsum c l).map φ := by
  cases l with
  | nil => rfl
  | cons t0 rest =>
    rw [List.map_cons, hsum_cons, hsum_cons]
    simp only [Except.map, map_add, hφ, map_list_sum, List.map_map]
    congr 3
    refine List.map_congr_left fun x _ => ?_
    simp [hφ, hφ', map_add]

theorem hsum_nbr {d' : ℕ} (c : RVec d' → ℂ) (g : RVec d → RVec d') (l : List (RVec d × CMat n)) :
    hsum c (l.map fun x => (g x.1, x.2)) = hsum (fun r => c (g r)) l := by
  cases l with
  | nil => rfl
  | cons t0 rest =>
    rw [List.map_cons, hsum_cons, hsum_cons, List.map_map]; rfl

/-- `M ↦ Lᴴ M L`. -/
def congrHom (L : CMat n) : CMat n →+ CMat n where
  toFun M := Lᴴ * M * L
  map_zero' := by simp
  map_add' a b := by rw [Matrix.mul_add, Matrix.add_mul]

theorem conj_f (s : Series d n) (L : CMat n) (k : RVec d) : (s.conj L).f k = (s.f k).map fun M => Lᴴ * M * L := by
  refine hsum_map (fi k) (congrHom L) ?_ ?_ s.terms
  · intro z M; simp [congrHom]
  · intro M; simp [congrHom, conjTranspose_mul, Matrix.mul_assoc]

/-- `M ↦ M[order][:, order]`. -/
def submatrixHom (order : Fin n → Fin n) : CMat n →+ CMat n where
  toFun M := M.submatrix order order
  map_zero' := by simp
  map_add' _ _ := rfl

/-- `M ↦ c M`. -/
noncomputable def smulHom (c : ℝ) : CMat n →+ CMat n where
  toFun M := (c : ℂ) • M
  map_zero' := by simp
  map_add' a b := smul_add _ a b

/-! ## C26 -/

theorem dsum_zipWith (c : RVec d → ℂ) (l : List (RVec d × CMat n)) (l' : List (RVec d × CMat m))
    (h : l.map Prod.fst = l'.map Prod.fst) :
    (((l.map Prod.fst).zip (List.zipWith (fun a b => dsum a.2 b.2) l l')).map fun t =>
        c t.1 • t.2 + (c t.1 • t.2)ᴴ).sum =
      dsum (l.map fun t => c t.1 • t.2 + (c t.1 • t.2)ᴴ).sum (l'.map fun t => c t.1 • t.2 + (c t.1 • t.2)ᴴ).sum := by
  have hz : (0 : CMat (n + m)) = dsum (0 : CMat n) (0 : CMat m) := by
    ext i j; simp [dsum]
  have ha : ∀ (a a' : CMat n) (b b' : CMat m), dsum a b + dsum a' b' = dsum (a + a') (b + b') := by
    intro a a' b b'; ext i j; simp only [dsum, Matrix.add_apply]; split_ifs <;> simp
  have hs : ∀ (z : ℂ) (a : CMat n) (b : CMat m), z • dsum a b = dsum (z • a) (z • b) := by
    intro z a b; ext i j; simp only [dsum, Matrix.smul_apply]; split_ifs <;> simp
  induction l generalizing l' with
  | nil =>
    cases l' with
    | nil => simpa using hz
    | cons b l' => simp at h
  | cons a l ih =>
    cases l' with
    | nil => simp at h
    | cons b l' =>
      simp only [List.map_cons, List.cons.injEq] at h
      simp only [List.map_cons, List.zipWith_cons_cons, List.zip_cons_cons, List.sum_cons, ih l' h.2]
      rw [hs, dsum_conjTranspose, ha, ha, ← h.1]

/-- C26.  The sum of two series exists exactly if the neighbour lists agree (otherwise `AssertionError`), and its value
at every `k` is block diagonal with the two values as blocks. -/
theorem C26_series_sum (s : Series d n) (t : Series d m) (hs : Spec.Starts0 s) :
    (s.terms.map Prod.fst ≠ t.terms.map Prod.fst → s.add t = .error .assertionError) ∧
    (s.terms.map Prod.fst = t.terms.map Prod.fst → ∃ u, s.add t = .ok u ∧
      u.terms.map Prod.fst = s.terms.map Prod.fst ∧
      ∀ k, ∃ A B, s.f k = .ok A ∧ t.f k = .ok B ∧ u.f k = .ok (dsum A B)) := by
  constructor
  · intro h; rw [Series.add, if_neg h]
  · intro h
    obtain ⟨A0, rest, hr⟩ := hs
    cases ht : t.terms with
    | nil => rw [hr, ht] at h; simp at h
    | cons b0 rest' =>
      have hb0 : b0.1 = 0 := by rw [hr, ht] at h; simp at h; exact h.1.symm
      have htail : rest.map Prod.fst = rest'.map Prod.fst := by rw [hr, ht] at h; simp at h; exact h.2
      have hlen : rest.length = rest'.length := by simpa using congrArg List.length htail
      refine ⟨⟨(s.terms.map Prod.fst).zip (List.zipWith (fun a b => dsum a.2 b.2) s.terms t.terms)⟩, ?_, ?_, ?_⟩
      · rw [Series.add, if_pos h, mkSeries_ok]
        refine ⟨⟨rest.map Prod.fst, by simp [hr]⟩, ?_, rfl⟩
        simp [hr, ht, hlen]
      · rw [List.map_fst_zip]
        simp [hr, ht, hlen]
      · intro k
        obtain ⟨sterms⟩ := s
        obtain ⟨tterms⟩ := t
        simp only at hr ht
        subst hr ht
        obtain ⟨b0, B0⟩ := b0
        simp only at hb0
        subst hb0
        refine ⟨_, _, f_eq _ _ _, f_eq _ _ _, ?_⟩
        simp only [List.map_cons, List.zipWith_cons_cons, List.zip_cons_cons]
        rw [f_eq]
        congr 1
        have := dsum_zipWith (fi k) rest rest' htail
        simp only [fi] at this
        rw [Spec.value, this, Spec.value, Spec.value]
        ext i j; simp only [dsum, Matrix.add_apply]; split_ifs <;> simp

/-- C26.  The bands of the sum of two models are the bands of both, with multiplicity: at every `k` the polynomial
`det(x S(k) - H(k))` whose roots are the bands is the product of the polynomials of the summands. -/
theorem C26_bands_of_sum (t : Tb d n) (u : Tb d m) (hH : Spec.Starts0 t.H) (hS : Spec.Starts0 t.S) (w : Tb d (n + m))
    (h : t.add u = .ok w) (k : RVec d) :
    ∃ H1 S1 H2 S2 H3 S3, Spec.At t k H1 S1 ∧ Spec.At u k H2 S2 ∧ Spec.At w k H3 S3 ∧
      ∀ x : ℂ, (x • S3 - H3).det = (x • S1 - H1).det * (x • S2 - H2).det := by
  rw [Tb.add] at h
  cases h1 : t.H.add u.H with
  | error e => rw [h1] at h; cases h
  | ok w1 =>
  cases h2 : t.S.add u.S with
  | error e => rw [h1, h2] at h; cases h
  | ok w2 =>
  rw [h1, h2] at h
  have hw : w = ⟨w1, w2⟩ := (Except.ok.inj h).symm
  subst hw
  have key : ∀ (a : Series d n) (b : Series d m) (c : Series d (n + m)), Spec.Starts0 a → a.add b = .ok c →
      ∃ A B, a.f k = .ok A ∧ b.f k = .ok B ∧ c.f k = .ok (dsum A B) := by
    intro a b c ha hc
    by_cases he : a.terms.map Prod.fst = b.terms.map Prod.fst
    · obtain ⟨c', hc', -, hf⟩ := (C26_series_sum a b ha).2 he
      rw [hc] at hc'
      rw [Except.ok.inj hc']
      exact hf k
    · rw [(C26_series_sum a b ha).1 he] at hc; cases hc
  obtain ⟨A, B, e1, e2, e3⟩ := key _ _ _ hH h1
  obtain ⟨A', B', e4, e5, e6⟩ := key _ _ _ hS h2
  refine ⟨A, A', B, B', _, _, ⟨e1, e4⟩, ⟨e2, e5⟩, ⟨e3, e6⟩, fun x => ?_⟩
  have : x • dsum A' B' - dsum A B = dsum (x • A' - A) (x • B' - B) := by
    ext i j; simp only [dsum, Matrix.sub_apply, Matrix.smul_apply]; split_ifs <;> simp
  rw [this, dsum_det]

/-! ## C27 -/

/-- C27.  Multiplying a model by a number multiplies every band by it, at every `k`, with the same eigenvectors. -/
theorem C27_scale (t : Tb d n) (c : ℝ) (k : RVec d) (H S : CMat n) (h : Spec.At t k H S) :
    Spec.At (t.mul c) k ((c : ℂ) • H) S ∧
    ∀ e v, Spec.GenEig H S e v → Spec.GenEig ((c : ℂ) • H) S (c * e) v := by
  refine ⟨⟨?_, h.2⟩, fun e v hv => ⟨hv.1, ?_⟩⟩
  · have := hsum_map (fi k) (smulHom (n := n) c) (fun z M => smul_comm _ _ _)
      (fun M => by simp [smulHom, conjTranspose_smul]) t.H.terms
    show hsum (fi k) _ = _
    simp only [smulHom, AddMonoidHom.coe_mk, ZeroHom.coe_mk, Tb.mul] at this ⊢
    rw [this, show hsum (fi k) t.H.terms = .ok H from h.1]; rfl
  · rw [smul_mulVec, hv.2, smul_smul]

/-- C27.  Adding a number to a model whose overlap does not depend on `k` (all coefficients but the first vanish)
shifts every band by this number, at every `k`, with the same eigenvectors. -/
theorem C27_shift (t : Tb d n) (c : ℝ) (hH : Spec.Starts0 t.H) (S0 : CMat n) (rest : List (RVec d × CMat n))
    (hS : t.S.terms = (0, S0) :: rest) (hrest : ∀ x ∈ rest, x.2 = 0) :
    ∃ t', t.shift c = .ok t' ∧ ∀ k, ∃ H, Spec.At t k H S0 ∧ Spec.At t' k (H + (c : ℂ) • S0) S0 ∧
      ∀ e v, Spec.GenEig H S0 e v → Spec.GenEig (H + (c : ℂ) • S0) S0 (e + c) v := by
  obtain ⟨⟨hterms⟩, ⟨sterms⟩⟩ := t
  obtain ⟨H0, hrest', hr⟩ := hH
  simp only at hr hS
  subst hr hS
  refine ⟨_, rfl, fun k => ?_⟩
  have hSf : (⟨(0, S0) :: rest⟩ : Series d n).f k = .ok S0 := by
    rw [Series.f, hsum_cons, zero_terms _ _ hrest, fi_zero]; simp
  refine ⟨Spec.value H0 hrest' k, ⟨f_eq _ _ _, hSf⟩, ⟨?_, hSf⟩, fun e v hv => ⟨hv.1, ?_⟩⟩
  · rw [f_eq, Spec.value, Spec.value]; congr 1; abel
  · rw [add_mulVec, hv.2, smul_mulVec, add_smul]

/-- C27, the limit: with a `k`-dependent overlap the shift is not rigid.  The one-band model with `H = 0` and
`S(k) = 1 + cos(2πk)/2` has the band `0`; after adding `1` the only band at `k = 0` is `2/3`. -/
theorem C27_shift_not_rigid : ∃ (t t' : Tb 1 1) (H S H' : CMat 1), t.shift 1 = .ok t' ∧
    Spec.Starts0 t.H ∧ Spec.Starts0 t.S ∧ Spec.At t 0 H S ∧ Spec.At t' 0 H' S ∧
    (∀ e v, Spec.GenEig H S e v → e = 0) ∧ (∃ v, Spec.GenEig H S 0 v) ∧
    (∀ e v, Spec.GenEig H' S e v → e = 2 / 3) ∧ ∃ v, Spec.GenEig H' S (2 / 3) v := by
  let t : Tb 1 1 := ⟨⟨[(0, 0)]⟩, ⟨[(0, 1), (![1], !![1 / 4])]⟩⟩
  let t' : Tb 1 1 := ⟨⟨[(0, 1)]⟩, ⟨[(0, 1), (![1], !![1 / 4])]⟩⟩
  have hS : (⟨[(0, 1), (![1], !![1 / 4])]⟩ : Series 1 1).f 0 = .ok !![3 / 2] := by
    rw [f_eq]; congr 1; ext i j; fin_cases i; fin_cases j
    simp [Spec.value, conjTranspose_apply]; norm_num
  have hH : (⟨[(0, 0)]⟩ : Series 1 1).f 0 = .ok !![0] := by
    rw [f_eq]; congr 1; ext i j; fin_cases i; fin_cases j; simp [Spec.value]
  have hH' : (⟨[(0, 1)]⟩ : Series 1 1).f 0 = .ok !![1] := by
    rw [f_eq]; congr 1; ext i j; fin_cases i; fin_cases j; simp [Spec.value]
  have hev : ∀ (a e : ℂ) (v : Fin 1 → ℂ), Spec.GenEig !![a] !![3 / 2] e v → e = 2 / 3 * a := by
    rintro a e v ⟨hv, h⟩
    have h0 : v 0 ≠ 0 := fun h0 => hv (by ext i; fin_cases i; simpa using h0)
    have := congrFun h 0
    simp [mulVec, dotProduct] at this
    have h2 : a * v 0 = (e * (3 / 2)) * v 0 := by rw [this]; ring
    have h3 := mul_right_cancel₀ h0 h2
    rw [h3]; ring
  refine ⟨t, t', !![0], !![3 / 2], !![1], ?_, ⟨_, _, rfl⟩, ⟨_, _, rfl⟩, ⟨hH, hS⟩, ⟨hH', hS⟩, ?_, ⟨fun _ => 1, ?_, ?_⟩,
    ?_, ⟨fun _ => 1, ?_, ?_⟩⟩
  · simp [t, t', Tb.shift]
  · intro e v h; simpa using hev 0 e v h
  · exact fun h => one_ne_zero (congrFun h 0)
  · ext i; fin_cases i; simp [mulVec, dotProduct]
  · intro e v h; simpa using hev 1 e v h
  · exact fun h => one_ne_zero (congrFun h 0)
  · ext i; fin_cases i; simp [mulVec, dotProduct]

/-! ## C28 -/

/-- C28.  After `transform(A)` Hamiltonian and overlap at `k` are the former ones at `Aᵀ k`. -/
theorem C28_transform (t : Tb d n) (A : Matrix (Fin d) (Fin d) ℝ) (k : RVec d) :
    (t.transform A).H.f k = t.H.f (Aᵀ.mulVec k) ∧ (t.transform A).S.f k = t.S.f (Aᵀ.mulVec k) := by
  have key : ∀ l : List (RVec d × CMat n),
      hsum (fi k) (l.map fun x => (A.mulVec x.1, x.2)) = hsum (fi (Aᵀ.mulVec k)) l := by
    intro l
    rw [hsum_nbr]
    congr 1
    funext r
    rw [fi, fi, dotProduct_mulVec, mulVec_transpose]
  exact ⟨key _, key _⟩

/-- C28.  `transform(A)` and then `transform(A⁻¹)` restores the model; the first neighbour stays zero. -/
theorem C28_round_trip (t : Tb d n) (A : Matrix (Fin d) (Fin d) ℝ) (hA : A.det ≠ 0) :
    (t.transform A).transform A⁻¹ = t ∧ (Spec.Starts0 t.H → Spec.Starts0 (t.transform A).H) := by
  constructor
  · have key : ∀ l : List (RVec d × CMat n),
        (l.map fun x => (A.mulVec x.1, x.2)).map (fun x => (A⁻¹.mulVec x.1, x.2)) = l := by
      intro l
      rw [List.map_map]
      conv_rhs => rw [← List.map_id l]
      refine List.map_congr_left fun x _ => ?_
      simp [mulVec_mulVec, nonsing_inv_mul A (isUnit_iff_ne_zero.2 hA)]
    obtain ⟨⟨a⟩, ⟨b⟩⟩ := t
    simp only [Tb.transform, key]
  · rintro ⟨H0, rest, hr⟩
    exact ⟨H0, rest.map fun x => (A.mulVec x.1, x.2), by simp [Tb.transform, hr]⟩

/-! ## C29 -/

/-- C29.  `permute(order)` with a permutation gives the matrices in the reordered basis at every `k`, so the polynomial
`det(x S - H)` and with it the bands with multiplicities are unchanged. -/
theorem C29_permute (t : Tb d n) (order : Equiv.Perm (Fin n)) (k : RVec d) (H S : CMat n) (h : Spec.At t k H S) :
    Spec.At (t.permute order) k (H.submatrix order order) (S.submatrix order order) ∧
    ∀ x : ℂ, (x • S.submatrix order order - H.submatrix order order).det = (x • S - H).det := by
  have key : ∀ l : List (RVec d × CMat n), hsum (fi k) (l.map fun x => (x.1, x.2.submatrix order order)) =
      (hsum (fi k) l).map fun M => M.submatrix order order := fun l =>
    hsum_map (fi k) (submatrixHom order) (fun z M => rfl) (fun M => rfl) l
  refine ⟨⟨?_, ?_⟩, fun x => ?_⟩
  · show hsum _ _ = _
    exact (key _).trans (by rw [show hsum (fi k) t.H.terms = .ok H from h.1]; rfl)
  · show hsum _ _ = _
    exact (key _).trans (by rw [show hsum (fi k) t.S.terms = .ok S from h.2]; rfl)
  · rw [← det_submatrix_equiv_self order (x • S - H)]; rfl

/-- C29, the limit: an `order` with a repeated index is accepted as well and changes the bands. -/
theorem C29_permute_repeated : ∃ (t : Tb 1 2) (order : Fin 2 → Fin 2) (H S H' S' : CMat 2), Spec.At t 0 H S ∧
    Spec.At (t.permute order) 0 H' S' ∧ ¬ ∀ x : ℂ, (x • S' - H').det = (x • S - H).det := by
  refine ⟨⟨⟨[(0, !![1, 0; 0, 2])]⟩, ⟨[(0, 1)]⟩⟩, fun _ => 0, !![1, 0; 0, 2], 1, !![1, 1; 1, 1], !![1, 1; 1, 1],
    ⟨?_, ?_⟩, ⟨?_, ?_⟩, fun h => ?_⟩
  · rw [f_eq]; simp [Spec.value]
  · rw [f_eq]; simp [Spec.value]
  · show (⟨[(0, _)]⟩ : Series 1 2).f 0 = _
    rw [f_eq]; congr 1; ext i j; fin_cases i <;> fin_cases j <;> simp [Spec.value]
  · show (⟨[(0, _)]⟩ : Series 1 2).f 0 = _
    rw [f_eq]; congr 1; ext i j; fin_cases i <;> fin_cases j <;> simp [Spec.value]
  · have := h 0
    simp [det_fin_two] at this

/-- Contract of `np.linalg.eigh`: for a hermitian matrix the columns of `ev` are an orthonormal basis of eigenvectors
with the eigenvalues `la`. -/
def Spec.IsEigh (eigh : CMat n → (Fin n → ℝ) × CMat n) : Prop :=
  ∀ M, M.IsHermitian → (eigh M).2ᴴ * (eigh M).2 = 1 ∧
    M = (eigh M).2 * diagonal (fun i => ((eigh M).1 i : ℂ)) * (eigh M).2ᴴ

/-- A basis change keeps the generalised eigenvalues. -/
theorem genEig_congr (M : CMat n) (hunit : IsUnit M.det) (H S : CMat n) (e : ℂ) :
    (∃ v, Spec.GenEig (Mᴴ * H * M) (Mᴴ * S * M) e v) ↔ ∃ v, Spec.GenEig H S e v := by
  have hinj : Function.Injective M.mulVec := mulVec_injective_of_isUnit ((isUnit_iff_isUnit_det _).2 hunit)
  have hunit' : IsUnit Mᴴ := by
    rw [isUnit_iff_isUnit_det, det_conjTranspose]; exact hunit.star
  have hinj' : Function.Injective Mᴴ.mulVec := mulVec_injective_of_isUnit hunit'
  constructor
  · rintro ⟨v, hv, h⟩
    refine ⟨M.mulVec v, fun h0 => hv (hinj (by rw [h0, mulVec_zero])), hinj' ?_⟩
    rw [mulVec_smul]
    simpa only [mulVec_mulVec, Matrix.mul_assoc] using h
  · rintro ⟨v, hv, h⟩
    have hs : M.mulVec (M⁻¹.mulVec v) = v := by
      rw [mulVec_mulVec, mul_nonsing_inv _ hunit, one_mulVec]
    refine ⟨M⁻¹.mulVec v, fun h0 => hv (by rw [← hs, h0, mulVec_zero]), ?_⟩
    rw [← mulVec_mulVec, hs, ← mulVec_mulVec, h, mulVec_smul, ← mulVec_mulVec, hs, ← mulVec_mulVec]

theorem herm0_eq (s : Series d n) (H0 : CMat n) (rest : List (RVec d × CMat n)) (h : s.terms = (0, H0) :: rest)
    (hH0 : H0.IsHermitian) : s.herm0 = .ok s := by
  obtain ⟨terms⟩ := s
  simp only at h
  subst h
  simp only [Series.herm0]
  rw [hH0.eq, ← two_smul ℂ H0, smul_smul]
  norm_num

/-- C29.  For a model with hermitian constant terms and positive definite overlap at `k = 0`, `normalize()` replaces
`H(k)` and `S(k)` by `Mᴴ H(k) M` and `Mᴴ S(k) M` with one invertible matrix `M` for all `k`; the overlap at zero becomes
the identity and the Hamiltonian at zero becomes diagonal.  Consequently every band is kept at every `k`. -/
theorem C29_normalize (eigh : CMat n → (Fin n → ℝ) × CMat n) (heigh : Spec.IsEigh eigh)
    (sorting : CMat n → Equiv.Perm (Fin n)) (t : Tb d n) (H0 S0 : CMat n) (hrest srest : List (RVec d × CMat n))
    (hH : t.H.terms = (0, H0) :: hrest) (hS : t.S.terms = (0, S0) :: srest) (hH0 : H0.IsHermitian)
    (hS0 : S0.IsHermitian) (hpos : ∀ M, t.S.f 0 = .ok M → M.PosDef) :
    ∃ (t' : Tb d n) (M : CMat n), t.normalize eigh sorting = .ok t' ∧ IsUnit M.det ∧
      (∀ k H S, Spec.At t k H S → Spec.At t' k (Mᴴ * H * M) (Mᴴ * S * M) ∧
        ∀ e, (∃ v, Spec.GenEig (Mᴴ * H * M) (Mᴴ * S * M) e v) ↔ ∃ v, Spec.GenEig H S e v) ∧
      t'.S.f 0 = .ok 1 ∧ ∃ D : CMat n, t'.H.f 0 = .ok D ∧ IsDiag D := by
  have hSf : t.S.f 0 = .ok (Spec.value S0 srest 0) := by
    rw [Series.f, hS, ← f_eq]; rfl
  have hHf : t.H.f 0 = .ok (Spec.value H0 hrest 0) := by
    rw [Series.f, hH, ← f_eq]; rfl
  set Sv := Spec.value S0 srest 0 with hSv
  set Hv := Spec.value H0 hrest 0 with hHv
  have hSp := hpos _ hSf
  have hHh : Hv.IsHermitian := hH0.add (herm_sum (fi 0) hrest)
  obtain ⟨hu, hd⟩ := heigh Sv hSp.1
  set la := (eigh Sv).1 with hla
  set ev := (eigh Sv).2 with hev
  have hu' : ev * evᴴ = 1 := mul_eq_one_comm.1 hu
  have hdia : evᴴ * Sv * ev = diagonal fun i => (la i : ℂ) := by
    rw [hd]
    calc evᴴ * (ev * diagonal (fun i => (la i : ℂ)) * evᴴ) * ev
        = (evᴴ * ev) * diagonal (fun i => (la i : ℂ)) * (evᴴ * ev) := by simp only [Matrix.mul_assoc]
      _ = _ := by rw [hu, Matrix.one_mul, Matrix.mul_one]
  have hlapos : ∀ i, 0 < la i := by
    intro i
    have hinj : Function.Injective ev.mulVec := by
      apply mulVec_injective_of_isUnit
      exact (isUnit_iff_isUnit_det _).2 (by
        have := congrArg det hu
        rw [det_mul, det_one] at this
        exact IsUnit.of_mul_eq_one_right _ this)
    have h1 : (evᴴ * Sv * ev).PosDef := hSp.conjTranspose_mul_mul_same hinj
    rw [hdia] at h1
    have := h1.diag_pos (i := i)
    rw [diagonal_apply_eq] at this
    exact_mod_cast this
  set w : Fin n → ℂ := fun i => ((la i ^ (-(1/2) : ℝ) : ℝ) : ℂ) with hw
  set L : CMat n := ev * diagonal w * evᴴ with hL
  have hLh : Lᴴ = L := by
    rw [hL]
    simp only [conjTranspose_mul, conjTranspose_conjTranspose, diagonal_conjTranspose]
    rw [Matrix.mul_assoc]
    congr 3
    ext i; simp [hw]
  have hww : ∀ i, w i * (la i : ℂ) * w i = 1 := by
    intro i
    have h1 : la i ^ (-(1/2) : ℝ) * la i * la i ^ (-(1/2) : ℝ) = 1 := by
      have h2 := Real.rpow_add (hlapos i) (-(1/2)) (-(1/2))
      rw [mul_right_comm, ← h2]
      norm_num [Real.rpow_neg_one, (hlapos i).ne']
    simp only [hw]
    exact_mod_cast h1
  have hLSL : Lᴴ * Sv * L = 1 := by
    rw [hLh, hL]
    calc ev * diagonal w * evᴴ * Sv * (ev * diagonal w * evᴴ)
        = ev * diagonal w * (evᴴ * Sv * ev) * diagonal w * evᴴ := by simp only [Matrix.mul_assoc]
      _ = ev * (diagonal w * diagonal (fun i => (la i : ℂ)) * diagonal w) * evᴴ := by
          rw [hdia]; simp only [Matrix.mul_assoc]
      _ = 1 := by
          rw [diagonal_mul_diagonal, diagonal_mul_diagonal]
          simp only [hww]
          rw [diagonal_one, Matrix.mul_one, hu']
  -- second step
  set H1 := Lᴴ * Hv * L with hH1
  have hH1h : H1.IsHermitian := by
    rw [hH1]; exact isHermitian_conjTranspose_mul_mul L hHh
  obtain ⟨hu2, hd2⟩ := heigh H1 hH1h
  set ev2 := (eigh H1).2 with hev2
  set P := sorting ev2 with hP
  let V : CMat n := fun i j => ev2 i (P j)
  have hV : Vᴴ * V = 1 := by
    ext i j
    have := congrFun (congrFun hu2 (P i)) (P j)
    rw [one_apply] at this ⊢
    simp only [EmbeddingLike.apply_eq_iff_eq] at this
    exact this
  have hHf1 : (t.H.conj L).f 0 = .ok H1 := by rw [conj_f, hHf]; rfl
  have hnorm : t.normalize eigh sorting = .ok ⟨(t.H.conj L).conj V, (t.S.conj L).conj V⟩ := by
    unfold Tb.normalize
    rw [herm0_eq _ _ _ hH hH0]; simp only [bind, Except.bind]
    rw [herm0_eq _ _ _ hS hS0]; simp only
    rw [hSf]; simp only
    rw [show ((eigh Sv).2 * diagonal (fun i => (((eigh Sv).1 i ^ (-(1/2) : ℝ) : ℝ) : ℂ)) * (eigh Sv).2ᴴ) = L from rfl,
      hHf1]
    rfl
  have hunit : IsUnit (L * V).det := by
    have h1 := congrArg det hLSL
    have h2 := congrArg det hV
    rw [det_mul, det_one] at h1 h2
    rw [det_mul]
    exact (IsUnit.of_mul_eq_one_right _ h1).mul (IsUnit.of_mul_eq_one_right _ h2)
  have hconj : ∀ (s : Series d n) k M, s.f k = .ok M → ((s.conj L).conj V).f k = .ok ((L * V)ᴴ * M * (L * V)) := by
    intro s k M hM
    rw [conj_f, conj_f, hM]
    simp only [Except.map, conjTranspose_mul, Matrix.mul_assoc]
  refine ⟨_, L * V, hnorm, hunit, ?_, ?_, ?_⟩
  · intro k H S hHS
    exact ⟨⟨hconj _ _ _ hHS.1, hconj _ _ _ hHS.2⟩, genEig_congr _ hunit H S⟩
  · have e : Vᴴ * Lᴴ * Sv * (L * V) = 1 := by
      calc Vᴴ * Lᴴ * Sv * (L * V) = Vᴴ * (Lᴴ * Sv * L) * V := by simp only [Matrix.mul_assoc]
        _ = 1 := by rw [hLSL, Matrix.mul_one, hV]
    rw [hconj _ _ _ hSf, conjTranspose_mul, e]
  · refine ⟨_, hconj _ _ _ hHf, ?_⟩
    have e : (L * V)ᴴ * Hv * (L * V) = Vᴴ * H1 * V := by
      rw [hH1, conjTranspose_mul]; simp only [Matrix.mul_assoc]
    rw [e]
    have e2 : Vᴴ * H1 * V = (ev2ᴴ * H1 * ev2).submatrix P P := by
      ext i j; rfl
    have e3 : ev2ᴴ * H1 * ev2 = diagonal fun i => ((eigh H1).1 i : ℂ) := by
      conv_lhs => rw [hd2]
      calc ev2ᴴ * (ev2 * diagonal (fun i => ((eigh H1).1 i : ℂ)) * ev2ᴴ) * ev2
          = (ev2ᴴ * ev2) * diagonal (fun i => ((eigh H1).1 i : ℂ)) * (ev2ᴴ * ev2) := by simp only [Matrix.mul_assoc]
        _ = _ := by rw [hu2, Matrix.one_mul, Matrix.mul_one]
    rw [e2, e3]
    intro i j hij
    rw [submatrix_apply, diagonal_apply_ne]
    exact fun h => hij (P.injective h)

/-! ### examples -/

/-- The contract of `eigh` can be met: Mathlib's spectral theorem. -/
theorem exists_eigh : ∃ eigh : CMat n → (Fin n → ℝ) × CMat n, Spec.IsEigh eigh := by
  classical
  refine ⟨fun M => if h : M.IsHermitian then (h.eigenvalues, (h.eigenvectorUnitary : CMat n)) else (0, 0), ?_⟩
  intro M h
  simp only [dif_pos h]
  constructor
  · have := (mem_unitaryGroup_iff').1 h.eigenvectorUnitary.2
    simpa [star_eq_conjTranspose] using this
  · have := h.spectral_theorem
    conv_lhs => rw [this]
    simp [Unitary.conjStarAlgAut_apply, star_eq_conjTranspose]
    rfl

/-- Two chains with the same neighbours can be added (C26); the sum has two bands. -/
example : ∃ u, exChain.add exChain = .ok u ∧ ∀ k, ∃ A, exChain.f k = .ok A ∧ u.f k = .ok (dsum A A) := by
  obtain ⟨u, h1, -, h2⟩ := (C26_series_sum exChain exChain (mkSeries_starts exChain_ok)).2 rfl
  refine ⟨u, h1, fun k => ?_⟩
  obtain ⟨A, B, e1, e2, e3⟩ := h2 k
  rw [e1] at e2
  exact ⟨A, e1, by rw [e3, Except.ok.inj e2]⟩

/-- A chain with overlap `S(k) = 2 + cos(2πk)/2` meets the hypotheses of `C29_normalize`. -/
example : ∃ eigh : CMat 1 → (Fin 1 → ℝ) × CMat 1, ∃ (t' : Tb 1 1) (M : CMat 1),
    (⟨exChain, ⟨[(0, !![2]), (![1], !![1 / 4])]⟩⟩ : Tb 1 1).normalize eigh (fun _ => 1) = .ok t' ∧ IsUnit M.det ∧
    t'.S.f 0 = .ok (1 : CMat 1) := by
  obtain ⟨eigh, he⟩ := exists_eigh (n := 1)
  obtain ⟨t', M, h1, h2, -, h3, -⟩ := C29_normalize eigh he (fun _ => 1)
    (⟨exChain, ⟨[(0, !![2]), (![1], !![1 / 4])]⟩⟩ : Tb 1 1) !![1] !![2] _ _ rfl rfl
    (by ext i j; fin_cases i; fin_cases j; simp) (by ext i j; fin_cases i; fin_cases j; simp) (by
      intro M hM
      rw [f_eq] at hM
      have : M = diagonal fun _ => (5 / 2 : ℂ) := by
        rw [← Except.ok.inj hM]
        ext i j; fin_cases i; fin_cases j; simp [Spec.value, conjTranspose_apply]; norm_num
      rw [this]
      refine PosDef.diagonal fun _ => ?_
      rw [show (5 / 2 : ℂ) = ((5 / 2 : ℝ) : ℂ) by push_cast; rfl]
      exact_mod_cast (by norm_num : (0 : ℝ) < 5 / 2))
  exact ⟨eigh, t', M, h1, h2, h3⟩

end TB

import Verif.Model.Randomize
import Verif.Props.TbModel
import Verif.Props.Loss
import Mathlib.Tactic.FieldSimp

/-!
# C150: `randomize`, `print_error`, `print_model_norms`
-/

namespace TB.PropsRandomize
open TB TB.Randomize Matrix
open scoped ComplexOrder

variable {d n : ℕ}

/-- What `randomize` may do to a matrix: with `keep` entries below `1e-8` stay, all others get `sigma` times the drawn complex number. -/
def Spec.Drawn (sigma : ℝ) (keep : Bool) (x y : Fin n → Fin n → ℝ) (H H' : CMat n) : Prop :=
  ∀ i j, (keep = true ∧ ‖H i j‖ < 1 / 10 ^ 8 → H' i j = H i j) ∧
    (keep = false ∨ 1 / 10 ^ 8 ≤ ‖H i j‖ → (H' i j - H i j).re = sigma * x i j ∧ (H' i j - H i j).im = sigma * y i j)

theorem noise_re (sigma : ℝ) (X Y : Draw n) (p : ℕ) (i j : Fin n) : (noise sigma X Y p i j).re = sigma * X p i j := by simp [noise]
theorem noise_im (sigma : ℝ) (X Y : Draw n) (p : ℕ) (i j : Fin n) : (noise sigma X Y p i j).im = sigma * Y p i j := by simp [noise]

theorem eps : (1e-8 : ℝ) = 1 / 10 ^ 8 := by norm_num

theorem masked_true (H D : CMat n) (i j : Fin n) (h : ‖H i j‖ < 1 / 10 ^ 8) : masked true H D i j = 0 := by
  have e : masked true H D i j = D i j * (if ‖H i j‖ < 1e-8 then 0 else 1) := rfl
  rw [e]
  rw [if_pos (by rw [eps]; exact h), mul_zero]

theorem masked_big (keep : Bool) (H D : CMat n) (i j : Fin n) (h : keep = false ∨ 1 / 10 ^ 8 ≤ ‖H i j‖) : masked keep H D i j = D i j := by
  cases keep with
  | false => rfl
  | true =>
    have e : masked true H D i j = D i j * (if ‖H i j‖ < 1e-8 then 0 else 1) := rfl
    rw [e]
    have : ¬ ‖H i j‖ < 1e-8 := by
      rw [eps, not_lt]
      simpa using h
    rw [if_neg this, mul_one]

theorem masked_le (keep : Bool) (H D : CMat n) (i j : Fin n) : ‖masked keep H D i j‖ ≤ ‖D i j‖ := by
  by_cases h : keep = false ∨ 1 / 10 ^ 8 ≤ ‖H i j‖
  · rw [masked_big keep H D i j h]
  · rw [not_or, Bool.not_eq_false, not_le] at h
    rw [h.1, masked_true H D i j h.2, norm_zero]
    exact norm_nonneg _

theorem drawn (sigma : ℝ) (keep : Bool) (X Y : Draw n) (p : ℕ) (H : CMat n) :
    Spec.Drawn sigma keep (X p) (Y p) H (H + masked keep H (noise sigma X Y p)) := by
  intro i j
  constructor
  · rintro ⟨rfl, h⟩
    rw [Matrix.add_apply, masked_true H _ i j h, add_zero]
  · intro h
    rw [Matrix.add_apply, add_sub_cancel_left, masked_big keep H _ i j h, noise_re, noise_im]
    exact ⟨rfl, rfl⟩

/-- C150: `AsymTightBindingModel.randomize` keeps the neighbours and changes each matrix as drawn; the overlap only with `randomize_S`, with numbers of
its own. -/
theorem C150_asym (sigma : ℝ) (keep rs : Bool) (X Y X' Y' : Draw n) (t : Tb d n) :
    (asym sigma keep rs X Y X' Y' t).H.terms.length = t.H.terms.length ∧
    (∀ (p : ℕ) (r : RVec d) (H : CMat n), t.H.terms[p]? = some (r, H) →
      ∃ H', (asym sigma keep rs X Y X' Y' t).H.terms[p]? = some (r, H') ∧ Spec.Drawn sigma keep (X p) (Y p) H H') ∧
    (rs = false → (asym sigma keep rs X Y X' Y' t).S = t.S) ∧
    (rs = true → (asym sigma keep rs X Y X' Y' t).S.terms.length = t.S.terms.length ∧
      ∀ (p : ℕ) (r : RVec d) (H : CMat n), t.S.terms[p]? = some (r, H) →
        ∃ H', (asym sigma keep rs X Y X' Y' t).S.terms[p]? = some (r, H') ∧ Spec.Drawn sigma keep (X' p) (Y' p) H H') := by
  refine ⟨by simp [asym, series], fun p r H h => ⟨_, ?_, drawn sigma keep X Y p H⟩, ?_, ?_⟩
  · simp [asym, series, h]
  · rintro rfl
    rfl
  · rintro rfl
    refine ⟨by simp [asym, series], fun p r H h => ⟨_, ?_, drawn sigma keep X' Y' p H⟩⟩
    simp [asym, series, h]

/-- With `keep_zeros` the zero stays zero and the entry 1 is changed. -/
example : ∃ H' : CMat 1, (asym 2 true false (fun _ _ _ => 3) (fun _ _ _ => 5) 0 0 ⟨⟨[((0 : RVec 1), 0), (fun _ => 1, 1)]⟩, ⟨[]⟩⟩).H.terms[1]? =
    some (fun _ => 1, H') ∧ (H' 0 0 - 1).re = 6 ∧ (H' 0 0 - 1).im = 10 := by
  obtain ⟨-, h, -, -⟩ := C150_asym (n := 1) 2 true false (fun _ _ _ => 3) (fun _ _ _ => 5) 0 0 ⟨⟨[((0 : RVec 1), 0), (fun _ => 1, 1)]⟩, ⟨[]⟩⟩
  obtain ⟨H', e, hd⟩ := h 1 (fun _ => 1) 1 rfl
  obtain ⟨h1, h2⟩ := (hd 0 0).2 (.inr (by norm_num))
  refine ⟨H', e, ?_, ?_⟩
  · have : (1 : CMat 1) 0 0 = 1 := rfl
    rw [this] at h1
    rw [h1]
    norm_num
  · have : (1 : CMat 1) 0 0 = 1 := rfl
    rw [this] at h2
    rw [h2]
    norm_num

/-- C150: the same for `BandStructureModel.randomize`; coefficient functions and symmetrizer stay. -/
theorem C150_bs (sigma : ℝ) (keep : Bool) (X Y : Draw n) (b : BS.BSM d n) :
    (bs sigma keep X Y b).coeff = b.coeff ∧ (bs sigma keep X Y b).symmetrizer = b.symmetrizer ∧
    (bs sigma keep X Y b).params.length = b.params.length ∧
    ∀ (p : ℕ) (H : CMat n), b.params[p]? = some H → ∃ H', (bs sigma keep X Y b).params[p]? = some H' ∧ Spec.Drawn sigma keep (X p) (Y p) H H' := by
  refine ⟨rfl, rfl, by simp [bs, BS.BSM.params], fun p H h => ⟨_, ?_, drawn sigma keep X Y p H⟩⟩
  cases p with
  | zero =>
    simp only [BS.BSM.params, List.getElem?_cons_zero, Option.some.injEq] at h
    subst h
    rfl
  | succ p =>
    simp only [BS.BSM.params, List.getElem?_cons_succ] at h
    simp [bs, BS.BSM.params, h]

/-- A model with two matrices. -/
example : ∃ b : BS.BSM 1 1, b.params[1]? = some 1 ∧ ∀ X Y : Draw 1, ∃ H', (bs 2 false X Y b).params[1]? = some H' ∧ Spec.Drawn 2 false (X 1) (Y 1) 1 H' :=
  ⟨⟨.tb ⟨[1], false, [0, fun _ => 1], false, true⟩, 0, [1], none⟩, rfl, fun X Y => (C150_bs 2 false X Y _).2.2.2 1 1 rfl⟩

theorem terms_cons (sigma : ℝ) (keep : Bool) (X Y : Draw n) (r : RVec d) (H0 : CMat n) (rest : List (RVec d × CMat n)) :
    (series sigma keep X Y ⟨(r, H0) :: rest⟩).terms = (r, H0 + masked keep H0 (noise sigma X Y 0)) ::
      rest.mapIdx fun p t => (t.1, t.2 + masked keep t.2 (noise sigma X Y (p + 1))) := by
  simp [series, List.mapIdx_cons]

/-- C150: without `keep_zeros` and for `sigma ≠ 0` the randomized Hamiltonian is hermitian (at one or at all `k`) exactly if the complex numbers drawn for the first
matrix happen to be a hermitian matrix: `randomize` alone leaves no hermitian model. -/
theorem C150_hermitian (sigma : ℝ) (hs : sigma ≠ 0) (rs : Bool) (X Y X' Y' : Draw n) (t : Tb d n) (H0 : CMat n) (rest : List (RVec d × CMat n))
    (ht : t.H.terms = (0, H0) :: rest) (hH : H0.IsHermitian) (k : RVec d) :
    ∃ M, (asym sigma false rs X Y X' Y' t).H.f k = .ok M ∧ (M.IsHermitian ↔ ∀ i j, X 0 i j = X 0 j i ∧ Y 0 i j = -Y 0 j i) := by
  obtain ⟨⟨terms⟩, S⟩ := t
  simp only at ht
  subst ht
  have e := terms_cons sigma false X Y 0 H0 rest
  refine ⟨TB.Spec.value (H0 + masked false H0 (noise sigma X Y 0)) (rest.mapIdx fun p t => (t.1, t.2 + masked false t.2 (noise sigma X Y (p + 1)))) k, ?_, ?_⟩
  · have : (asym sigma false rs X Y X' Y' ⟨⟨(0, H0) :: rest⟩, S⟩).H = ⟨(0, H0 + masked false H0 (noise sigma X Y 0)) ::
        rest.mapIdx fun p t => (t.1, t.2 + masked false t.2 (noise sigma X Y (p + 1)))⟩ := by rw [← e]; rfl
    rw [this, f_eq]
  · have hsum := herm_sum (fi k) (rest.mapIdx fun p t => (t.1, t.2 + masked false t.2 (noise sigma X Y (p + 1))))
    have key : (TB.Spec.value (H0 + masked false H0 (noise sigma X Y 0)) (rest.mapIdx fun p t => (t.1, t.2 + masked false t.2 (noise sigma X Y (p + 1)))) k).IsHermitian ↔
        (noise sigma X Y 0).IsHermitian := by
      constructor
      · intro h
        have h2 := (h.sub hsum).sub hH
        have e2 : TB.Spec.value (H0 + masked false H0 (noise sigma X Y 0)) (rest.mapIdx fun p t => (t.1, t.2 + masked false t.2 (noise sigma X Y (p + 1)))) k -
          ((rest.mapIdx fun p t => (t.1, t.2 + masked false t.2 (noise sigma X Y (p + 1)))).map fun t : RVec d × CMat n => fi k t.1 • t.2 + (fi k t.1 • t.2)ᴴ).sum -
          H0 = noise sigma X Y 0 := by
          rw [TB.Spec.value]
          simp only [fi]
          rw [add_sub_cancel_right, add_sub_cancel_left]
          simp [masked]
        rwa [e2] at h2
      · intro h
        have h3 : (masked false H0 (noise sigma X Y 0)).IsHermitian := by simpa [masked] using h
        exact (hH.add h3).add hsum
    rw [key]
    constructor
    · intro h i j
      have h1 := congrFun (congrFun h i) j
      rw [Matrix.conjTranspose_apply] at h1
      have hre := congrArg Complex.re h1
      have him := congrArg Complex.im h1
      rw [Complex.star_def, Complex.conj_re, noise_re, noise_re] at hre
      rw [Complex.star_def, Complex.conj_im, noise_im, noise_im] at him
      refine ⟨(mul_left_cancel₀ hs hre).symm, ?_⟩
      apply mul_left_cancel₀ hs
      rw [← him]
      ring
    · intro h
      ext i j
      rw [Matrix.conjTranspose_apply]
      apply Complex.ext
      · rw [Complex.star_def, Complex.conj_re, noise_re, noise_re, (h i j).1]
      · rw [Complex.star_def, Complex.conj_im, noise_im, noise_im, (h i j).2]
        ring

/-- One band: an imaginary part in the first matrix is enough. -/
example : ∃ M, (asym 1 false false (fun _ _ _ => 0) (fun _ _ _ => 1) 0 0 (⟨⟨[((0 : RVec 1), (1 : CMat 1))]⟩, ⟨[]⟩⟩ : Tb 1 1)).H.f 0 = .ok M ∧ ¬ M.IsHermitian := by
  obtain ⟨M, h1, h2⟩ := C150_hermitian 1 one_ne_zero false (fun _ _ _ => 0) (fun _ _ _ => 1) 0 0 (⟨⟨[((0 : RVec 1), (1 : CMat 1))]⟩, ⟨[]⟩⟩ : Tb 1 1) 1 [] rfl
    Matrix.isHermitian_one 0
  refine ⟨M, h1, fun h => ?_⟩
  have := (h2.1 h 0 0).2
  norm_num at this

theorem herm0_twice {s s2 : Series d n} {H0 : CMat n} {rest : List (RVec d × CMat n)} (h : s.terms = (0, H0) :: rest) (h2 : s.herm0 = .ok s2) :
    s2.herm0 = .ok s2 ∧ ∃ G, s2.terms = (0, G) :: rest ∧ G.IsHermitian := by
  obtain ⟨terms⟩ := s
  simp only at h
  subst h
  simp only [Series.herm0, Except.ok.injEq] at h2
  have hG : ((1 / 2 : ℂ) • (H0 + H0ᴴ)).IsHermitian := by
    rw [Matrix.IsHermitian, Matrix.conjTranspose_smul, Matrix.conjTranspose_add, Matrix.conjTranspose_conjTranspose, add_comm H0ᴴ]
    congr 1
    simp
  subst h2
  exact ⟨herm0_eq _ _ _ rfl hG, _, rfl, hG⟩

/-- C150: `randomize` followed by `normalize`, as in `autofit_asym`, gives a model which is hermitian for all `k`, with the identity as overlap at zero and a diagonal
Hamiltonian at zero, whatever was drawn. -/
theorem C150_normalized (eigh : CMat n → (Fin n → ℝ) × CMat n) (heigh : TB.Spec.IsEigh eigh) (sorting : CMat n → Equiv.Perm (Fin n)) (sigma : ℝ) (keep : Bool)
    (X Y X' Y' : Draw n) (t : Tb d n) (H0 S0 : CMat n) (hrest srest : List (RVec d × CMat n)) (hH : t.H.terms = (0, H0) :: hrest)
    (hS : t.S.terms = (0, S0) :: srest) (hS0 : S0.IsHermitian) (hpos : ∀ M, t.S.f 0 = .ok M → M.PosDef) :
    ∃ t', (asym sigma keep false X Y X' Y' t).normalize eigh sorting = .ok t' ∧ (∀ k, ∃ M, t'.H.f k = .ok M ∧ M.IsHermitian) ∧ t'.S.f 0 = .ok 1 ∧
      ∃ D : CMat n, t'.H.f 0 = .ok D ∧ IsDiag D := by
  obtain ⟨⟨terms⟩, S⟩ := t
  simp only at hH
  subst hH
  have e := terms_cons sigma keep X Y 0 H0 hrest
  set rest' := hrest.mapIdx fun p t => (t.1, t.2 + masked keep t.2 (noise sigma X Y (p + 1)))
  set T := asym sigma keep false X Y X' Y' ⟨⟨(0, H0) :: hrest⟩, S⟩ with hT
  have hTH : T.H.terms = (0, H0 + masked keep H0 (noise sigma X Y 0)) :: rest' := e
  have hTS : T.S = S := rfl
  obtain ⟨s2, h2⟩ : ∃ s2, T.H.herm0 = .ok s2 := ⟨_, by rw [Series.herm0, hTH]⟩
  obtain ⟨h3, G, hG, hGh⟩ := herm0_twice hTH h2
  have hn : T.normalize eigh sorting = (⟨s2, S⟩ : Tb d n).normalize eigh sorting := by
    rw [Tb.normalize, Tb.normalize, h2, h3, hTS]
  obtain ⟨t', M, h4, -, h5, h6, h7⟩ := C29_normalize eigh heigh sorting ⟨s2, S⟩ G S0 rest' srest hG hS hGh hS0 hpos
  refine ⟨t', hn.trans h4, fun k => ?_, h6, h7⟩
  have hf : s2.f k = .ok (TB.Spec.value G rest' k) := by
    obtain ⟨ts⟩ := s2
    simp only at hG
    rw [hG, f_eq]
  have hSf : S.f k = .ok (TB.Spec.value S0 srest k) := by
    obtain ⟨ts⟩ := S
    simp only at hS
    rw [hS, f_eq]
  have hHh : (TB.Spec.value G rest' k).IsHermitian := hGh.add (herm_sum (fi k) rest')
  refine ⟨_, (h5 k _ _ ⟨hf, hSf⟩).1.1, ?_⟩
  rw [Matrix.IsHermitian, Matrix.conjTranspose_mul, Matrix.conjTranspose_mul, Matrix.conjTranspose_conjTranspose, hHh.eq, Matrix.mul_assoc]

/-- Matrices of an upper left entry 1 with noise which is not hermitian. -/
example : ∃ (eigh : CMat 1 → (Fin 1 → ℝ) × CMat 1) (t' : Tb 1 1), TB.Spec.IsEigh eigh ∧
    (asym 1 false false (fun _ _ _ => 0) (fun _ _ _ => 1) 0 0 (⟨⟨[((0 : RVec 1), (1 : CMat 1))]⟩, ⟨[(0, 1)]⟩⟩ : Tb 1 1)).normalize eigh (fun _ => 1) = .ok t' ∧
    ∀ k, ∃ M, t'.H.f k = .ok M ∧ M.IsHermitian := by
  obtain ⟨eigh, he⟩ := exists_eigh (n := 1)
  obtain ⟨t', h1, h2, -⟩ := C150_normalized eigh he (fun _ => 1) 1 false (fun _ _ _ => 0) (fun _ _ _ => 1) 0 0
    (⟨⟨[((0 : RVec 1), (1 : CMat 1))]⟩, ⟨[(0, 1)]⟩⟩ : Tb 1 1) 1 1 [] [] rfl rfl Matrix.isHermitian_one (by
      intro M hM
      rw [f_eq] at hM
      simp only [Except.ok.injEq, TB.Spec.value, List.map_nil, List.sum_nil, add_zero] at hM
      rw [← hM]
      exact Matrix.PosDef.one)
  exact ⟨eigh, t', he, h1, h2⟩

theorem norm_noise (sigma : ℝ) (X Y : Draw n) (p : ℕ) (i j : Fin n) :
    ‖noise sigma X Y p i j‖ = |sigma| * Real.sqrt (X p i j ^ 2 + Y p i j ^ 2) := by
  rw [Complex.norm_eq_sqrt_sq_add_sq, noise_re, noise_im, ← Real.sqrt_sq_eq_abs, ← Real.sqrt_mul (sq_nonneg _)]
  congr 1
  ring

theorem norm_fi' (k r : RVec d) : ‖fi k r‖ = 1 := by
  have : (2 * Real.pi * Complex.I * ((k ⬝ᵥ r : ℝ) : ℂ)) = ((2 * Real.pi * (k ⬝ᵥ r) : ℝ) : ℂ) * Complex.I := by
    push_cast
    ring
  rw [fi, this, Complex.norm_exp_ofReal_mul_I]

theorem sum_move (c : RVec d → ℂ) (hc : ∀ r, ‖c r‖ = 1) (rest : List (RVec d × CMat n)) : ∀ (g : ℕ → CMat n → CMat n) (B : ℕ → Fin n → Fin n → ℝ),
    (∀ p H i j, ‖g p H i j‖ ≤ B p i j) → ∀ i j,
    ‖(((rest.mapIdx fun p t => (t.1, t.2 + g p t.2)).map fun t : RVec d × CMat n => c t.1 • t.2 + (c t.1 • t.2)ᴴ).sum -
      (rest.map fun t : RVec d × CMat n => c t.1 • t.2 + (c t.1 • t.2)ᴴ).sum) i j‖ ≤ ∑ p ∈ Finset.range rest.length, (B p i j + B p j i) := by
  induction rest with
  | nil => intro g B _ i j; simp
  | cons t rest ih =>
    intro g B hB i j
    rw [List.mapIdx_cons, List.map_cons, List.map_cons, List.sum_cons, List.sum_cons, List.length_cons, Finset.sum_range_succ', add_comm (Finset.sum _ _)]
    have h1 := ih (fun p => g (p + 1)) (fun p => B (p + 1)) (fun p => hB (p + 1)) i j
    simp only
    set A := ((rest.mapIdx fun p t => (t.1, t.2 + g (p + 1) t.2)).map fun t : RVec d × CMat n => c t.1 • t.2 + (c t.1 • t.2)ᴴ).sum
    set A' := (rest.map fun t : RVec d × CMat n => c t.1 • t.2 + (c t.1 • t.2)ᴴ).sum
    have e : (c t.1 • (t.2 + g 0 t.2) + (c t.1 • (t.2 + g 0 t.2))ᴴ + A - (c t.1 • t.2 + (c t.1 • t.2)ᴴ + A')) =
        (c t.1 • g 0 t.2 + (c t.1 • g 0 t.2)ᴴ) + (A - A') := by
      rw [smul_add, Matrix.conjTranspose_add]
      abel
    rw [e, Matrix.add_apply]
    refine (norm_add_le _ _).trans (add_le_add ?_ h1)
    rw [Matrix.add_apply]
    refine (norm_add_le _ _).trans (add_le_add ?_ ?_)
    · rw [Matrix.smul_apply, norm_smul, hc, one_mul]
      exact hB 0 t.2 i j
    · rw [Matrix.conjTranspose_apply, norm_star, Matrix.smul_apply, norm_smul, hc, one_mul]
      exact hB 0 t.2 j i

/-- C150: no entry of the Hamiltonian at any `k` moves by more than the sum of the sizes of the drawn numbers of this entry and, for the neighbours after the first,
of the mirrored one. -/
theorem C150_distance (sigma : ℝ) (keep rs : Bool) (X Y X' Y' : Draw n) (t : Tb d n) (H0 : CMat n) (rest : List (RVec d × CMat n))
    (ht : t.H.terms = (0, H0) :: rest) (k : RVec d) :
    ∃ M M', t.H.f k = .ok M ∧ (asym sigma keep rs X Y X' Y' t).H.f k = .ok M' ∧ ∀ i j,
      ‖M' i j - M i j‖ ≤ |sigma| * (Real.sqrt (X 0 i j ^ 2 + Y 0 i j ^ 2) + ∑ p ∈ Finset.range rest.length,
        (Real.sqrt (X (p + 1) i j ^ 2 + Y (p + 1) i j ^ 2) + Real.sqrt (X (p + 1) j i ^ 2 + Y (p + 1) j i ^ 2))) := by
  obtain ⟨⟨terms⟩, S⟩ := t
  simp only at ht
  subst ht
  have e := terms_cons sigma keep X Y 0 H0 rest
  refine ⟨TB.Spec.value H0 rest k, TB.Spec.value (H0 + masked keep H0 (noise sigma X Y 0))
    (rest.mapIdx fun p t => (t.1, t.2 + masked keep t.2 (noise sigma X Y (p + 1)))) k, f_eq _ _ _, ?_, fun i j => ?_⟩
  · have : (asym sigma keep rs X Y X' Y' ⟨⟨(0, H0) :: rest⟩, S⟩).H = ⟨(0, H0 + masked keep H0 (noise sigma X Y 0)) ::
        rest.mapIdx fun p t => (t.1, t.2 + masked keep t.2 (noise sigma X Y (p + 1)))⟩ := by rw [← e]; rfl
    rw [this, f_eq]
  · have h := sum_move (fi k) (norm_fi' k) rest (fun p H => masked keep H (noise sigma X Y (p + 1))) (fun p i j => ‖noise sigma X Y (p + 1) i j‖)
      (fun p H i j => masked_le keep H _ i j) i j
    have h0 := masked_le keep H0 (noise sigma X Y 0) i j
    simp only [norm_noise] at h h0
    rw [mul_add, Finset.mul_sum]
    simp only [mul_add]
    refine le_trans ?_ (add_le_add h0 h)
    refine le_trans (le_of_eq ?_) (norm_add_le _ _)
    congr 1
    simp only [TB.Spec.value, Matrix.add_apply, Matrix.sub_apply, fi]
    ring

/-- Without noise nothing moves. -/
example (t : Tb 1 1) (h : t.H.terms = [((0 : RVec 1), (1 : CMat 1))]) (k : RVec 1) : ∃ M M', t.H.f k = .ok M ∧
    (asym 0 false true (fun _ _ _ => 7) (fun _ _ _ => 7) 0 0 t).H.f k = .ok M' ∧ ∀ i j, ‖M' i j - M i j‖ ≤ 0 := by
  obtain ⟨M, M', h1, h2, h3⟩ := C150_distance 0 false true (fun _ _ _ => 7) (fun _ _ _ => 7) 0 0 t 1 [] h k
  exact ⟨M, M', h1, h2, fun i j => by simpa using h3 i j⟩

/-! ## Printing -/

theorem printWeights_full (w : List ℝ) (m : ℕ) (h : w.length = m) : printWeights w m = .ok (w.map fun x => x / (w.sum / w.length)) := by
  rw [printWeights, if_pos (by rw [List.length_map]; exact h)]

/-- C150: the printed loss is the error with weights divided by their mean; the maximal errors per band do not depend on the weights. -/
theorem C150_print (bands ref : Tab) (w : List ℝ) (off : ℕ) (hN : bands.rows = ref.rows) (h0 : ref.rows ≠ 0)
    (hw : w.length = ref.cols) (hs : w.sum ≠ 0) (hc : off + ref.cols ≤ bands.cols) :
    ∃ loss maxErr, printError bands ref w off = .ok (loss, maxErr) ∧ 0 ≤ loss ∧
      loss ^ 2 * ref.rows * w.sum ^ 2 = w.length ^ 2 * TB.Spec.errSq ref.rows ref.cols bands.get ref.get (fun j => w.getD j 0) off ∧
      maxErr.length = ref.cols ∧
      ∀ j (hj : j < maxErr.length), (∀ i < ref.rows, |bands.get i (off + j) - ref.get i j| ≤ maxErr[j]) ∧
        ∃ i < ref.rows, |bands.get i (off + j) - ref.get i j| = maxErr[j] := by
  have hl : (w.length : ℝ) ≠ 0 := by
    intro h
    rw [Nat.cast_eq_zero, List.length_eq_zero_iff] at h
    exact hs (by rw [h]; rfl)
  obtain ⟨loss, maxErr, h1, h2, h3, h4, h5⟩ := C34_value bands ref (w.map fun x => x / (w.sum / w.length)) off hN h0 (by rw [List.length_map, hw]) hc
  refine ⟨loss, maxErr, ?_, h2, ?_, h4, h5⟩
  · rw [printError, if_neg h0, printWeights_full w _ hw]
    exact h1
  · rw [h3, TB.Spec.errSq, TB.Spec.errSq, Finset.mul_sum, Finset.sum_mul]
    refine Finset.sum_congr rfl fun i _ => ?_
    rw [Finset.mul_sum, Finset.sum_mul]
    refine Finset.sum_congr rfl fun j _ => ?_
    have : (w.map fun x => x / (w.sum / w.length)).getD j 0 = w.getD j 0 / (w.sum / w.length) := by
      rw [List.getD_eq_getElem?_getD, List.getD_eq_getElem?_getD, List.getElem?_map]
      cases w[j]? <;> simp
    rw [this]
    field_simp

/-- One band, one point. -/
example : ∃ loss maxErr, printError ⟨1, 1, fun _ _ => 5⟩ ⟨1, 1, fun _ _ => 2⟩ [7] 0 = .ok (loss, maxErr) ∧ 0 ≤ loss := by
  obtain ⟨l, m, h, h2, -⟩ := C150_print ⟨1, 1, fun _ _ => 5⟩ ⟨1, 1, fun _ _ => 2⟩ [7] 0 rfl (by simp) rfl (by norm_num) (by simp)
  exact ⟨l, m, h, h2⟩

/-- C150: the printed numbers do not change if all weights are scaled. -/
theorem C150_print_scale (bands ref : Tab) (w : List ℝ) (off : ℕ) (c : ℝ) (hc : c ≠ 0) (hw : w.sum ≠ 0) :
    printError bands ref (w.map (c * ·)) off = printError bands ref w off := by
  have e : ((w.map (c * ·)).map fun x => x / ((w.map (c * ·)).sum / (w.map (c * ·)).length)) = w.map fun x => x / (w.sum / w.length) := by
    rw [List.map_map]
    refine List.map_congr_left fun x hx => ?_
    have hl : (w.length : ℝ) ≠ 0 := by
      have := List.length_pos_of_mem hx
      positivity
    have hsum : (w.map (c * ·)).sum = c * w.sum := by
      have := List.sum_map_mul_left w (fun x => x) c
      rwa [List.map_id'] at this
    simp only [Function.comp, List.length_map]
    rw [hsum]
    field_simp
  have e2 : printWeights (w.map (c * ·)) ref.cols = printWeights w ref.cols := by
    rw [printWeights, printWeights, e]
  rw [printError, printError, e2]

example (bands ref : Tab) : printError bands ref [2, 4] 0 = printError bands ref [1, 2] 0 := by
  have := C150_print_scale bands ref [1, 2] 0 2 (by norm_num) (by norm_num)
  norm_num at this
  exact this

/-- C150: a single weight counts for all bands, and is then no weight at all; a wrong number of weights raises `ValueError`, no reference raises `IndexError`. -/
theorem C150_print_single (bands ref : Tab) (off : ℕ) :
    (∀ x : ℝ, x ≠ 0 → ref.rows ≠ 0 → printError bands ref [x] off = modelError bands ref (List.replicate ref.cols 1) off) ∧
    (∀ w : List ℝ, ref.rows ≠ 0 → w.length ≠ ref.cols → w.length ≠ 1 → printError bands ref w off = .error .valueError) ∧
    (∀ w : List ℝ, ref.rows = 0 → printError bands ref w off = .error .indexError) := by
  refine ⟨fun x hx h => ?_, fun w h h1 h2 => ?_, fun w h => ?_⟩
  · have e : printWeights [x] ref.cols = .ok (List.replicate ref.cols 1) := by
      have : ([x].map fun y => y / ([x].sum / ([x].length : ℝ))) = [1] := by simp [hx]
      rw [printWeights, this]
      by_cases hc : ref.cols = 1
      · simp [hc]
      · have : ¬ ([1] : List ℝ).length = ref.cols := fun h => hc h.symm
        simp only
        rw [if_neg this]
    rw [printError, if_neg h, e]
    rfl
  · have e : printWeights w ref.cols = .error .valueError := by
      rw [printWeights, if_neg (by rw [List.length_map]; exact h1)]
      match w, h2 with
      | [], _ => rfl
      | [x], h2 => exact absurd rfl h2
      | _ :: _ :: _, _ => rfl
    rw [printError, if_neg h, e]
    rfl
  · rw [printError, if_pos h]

example : printError ⟨1, 3, fun _ _ => 5⟩ ⟨1, 3, fun _ _ => 2⟩ [1, 2] 0 = .error .valueError :=
  (C150_print_single _ _ _).2.1 _ (by simp) (by simp) (by simp)

/-- C150: `print_model_norms` prints the norm of every matrix, in order, for own coefficient functions and for models with `exp` or `inversion`. -/
theorem C150_norms (b : BS.BSM d n) :
    (∀ f g h, b.coeff = .custom f g h → (printNorms b).length = b.params.length ∧
      ∀ (p : ℕ) (P : CMat n), b.params[p]? = some P → (printNorms b)[p]? = some (Sum.inr p, mnorm P)) ∧
    (∀ t, b.coeff = .tb t → (b.params.length : ℤ) = t.termCount → (t.exp = true ∨ t.inversion = true) → (printNorms b).length = b.params.length ∧
      ∀ (p : ℕ) (P : CMat n), b.params[p]? = some P → ∃ r, t.neighbors[p]? = some r ∧ (printNorms b)[p]? = some (Sum.inl r, mnorm P)) := by
  refine ⟨fun f g h e => ?_, fun t e hl hx => ?_⟩
  · rw [printNorms, e]
    exact ⟨by simp, fun p P hp => by simp [hp]⟩
  · have hlen : b.params.length = t.neighbors.length := by
      rw [BS.TBData.termCount] at hl
      rcases hx with hx | hx
      · rw [hx, if_pos rfl] at hl
        exact_mod_cast hl
      · rw [hx] at hl
        simp only [if_true, ite_self] at hl
        exact_mod_cast hl
    rw [printNorms, e]
    refine ⟨by simp [hlen], fun p P hp => ?_⟩
    have hp' : p < t.neighbors.length := by
      rw [← hlen]
      exact (List.getElem?_eq_some_iff.1 hp).1
    exact ⟨t.neighbors[p], List.getElem?_eq_getElem hp', by simp [List.getElem?_zipWith, hp, List.getElem?_eq_getElem hp']⟩

example : (printNorms (⟨.tb ⟨[1], false, [0, fun _ => 1], true, true⟩, 0, [1], none⟩ : BS.BSM 1 1)).length = 2 :=
  ((C150_norms _).2 ⟨[1], false, [0, fun _ => 1], true, true⟩ rfl rfl (.inl rfl)).1

/-- C150: for a model without `exp` and `inversion` only the first `len(neighbors)` of the `2 len(neighbors) - 1` matrices are printed: the others have no influence on
what is printed. -/
theorem C150_norms_hidden (b : BS.BSM d n) (t : BS.TBData d) (hb : b.coeff = .tb t) (hl : (b.params.length : ℤ) = t.termCount) (hx : t.exp = false)
    (hi : t.inversion = false) :
    (printNorms b).length = t.neighbors.length ∧ b.params.length + 1 = 2 * (printNorms b).length ∧
    ∀ b' : BS.BSM d n, b'.coeff = b.coeff → b'.params.take t.neighbors.length = b.params.take t.neighbors.length → printNorms b' = printNorms b := by
  have h : b.params.length + 1 = 2 * t.neighbors.length := by
    rw [BS.TBData.termCount, hx, hi] at hl
    simp only [Bool.false_eq_true, if_false] at hl
    omega
  have h1 : (printNorms b).length = t.neighbors.length := by
    rw [printNorms, hb]
    simp only [List.length_zipWith]
    have : 1 ≤ b.params.length := by simp [BS.BSM.params]
    omega
  refine ⟨h1, by rw [h1]; exact h, fun b' e h2 => ?_⟩
  have key : ∀ (rs : List (RVec d)) (P P' : List (CMat n)), P'.take rs.length = P.take rs.length →
      List.zipWith (fun r P => ((.inl r : RVec d ⊕ ℕ), mnorm P)) rs P' = List.zipWith (fun r P => (.inl r, mnorm P)) rs P := by
    intro rs
    induction rs with
    | nil => intros; rfl
    | cons r rs ih =>
      intro P P' h
      cases P with
      | nil =>
        cases P' with
        | nil => rfl
        | cons _ _ => cases h
      | cons p P =>
        cases P' with
        | nil => cases h
        | cons p' P' =>
          simp only [List.length_cons, List.take_succ_cons, List.cons.injEq] at h
          rw [List.zipWith_cons_cons, List.zipWith_cons_cons, h.1, ih P P' h.2]
  rw [printNorms, printNorms, e, hb]
  exact key _ _ _ h2

/-- Two neighbours, three matrices, two lines. -/
example : (printNorms (⟨.tb ⟨[1], false, [0, fun _ => 1], false, false⟩, 0, [1, 1], none⟩ : BS.BSM 1 1)).length = 2 :=
  (C150_norms_hidden _ ⟨[1], false, [0, fun _ => 1], false, false⟩ rfl rfl rfl rfl).1

end TB.PropsRandomize

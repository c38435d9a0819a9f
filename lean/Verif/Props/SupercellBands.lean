import Verif.Props.Supercell

/-! # C55: the bands of a supercell -/

set_option linter.unusedSectionVars false

namespace TB.SC
open Matrix

variable {d n : ℕ}

/-- `x` or `-x` is a neighbour of the model. -/
def Listed (t : Tb d n) (x : RVec d) : Prop := x ∈ t.H.terms.map Prod.fst ∨ -x ∈ t.H.terms.map Prod.fst

/-- What a model and a supercell must satisfy for the supercell to be exact. -/
structure Exact (t : Tb d n) (A : Matrix (Fin d) (Fin d) ℝ) (Λ : Matrix (Fin d) (Fin d) ℤ) : Prop where
  /-- one of `r`, `-r` is listed, once -/
  halved : Halved (t.H.terms.map Prod.fst)
  /-- the coefficient at zero is hermitian -/
  herm0 : ∀ M, ((0 : RVec d), M) ∈ t.H.terms → M.IsHermitian
  /-- the neighbours are lattice vectors -/
  lattice : ∀ x, Listed t x → ∃ z : Fin d → ℤ, x = A *ᵥ fun i => (z i : ℝ)
  /-- `Λ` applied to a neighbour in cartesian coordinates does the same as applied to its lattice coordinates -/
  commute : ∀ z : Fin d → ℤ, Listed t (A *ᵥ fun i => (z i : ℝ)) →
    (Λ.map (Int.cast : ℤ → ℝ)) *ᵥ (A *ᵥ fun i => (z i : ℝ)) = A *ᵥ fun i => ((Λ *ᵥ z) i : ℝ)
  /-- a superlattice vector `A Λ w` that connects two cells through some neighbour has a listed `A w` -/
  complete : ∀ w x y : Fin d → ℤ, InCell Λ x → InCell Λ y → Listed t (A *ᵥ fun i => ((Λ *ᵥ w + y - x) i : ℝ)) →
    Listed t (A *ᵥ fun i => (w i : ℝ))

variable {t : Tb d n} {A : Matrix (Fin d) (Fin d) ℝ} {Λ : Matrix (Fin d) (Fin d) ℤ}

/-- The block of the supercell Hamiltonian that belongs to the superlattice vector `A Λ w`. -/
noncomputable def superBlock (t : Tb d n) (A : Matrix (Fin d) (Fin d) ℝ) (Λ : Matrix (Fin d) (Fin d) ℤ) (w : Fin d → ℤ) :
    CMat ((internalPositions Λ (A * toRM Λ)).length * n) :=
  blockMatrix fun i j => t.H.lookup (A *ᵥ toR (Λ *ᵥ w + rep Λ (A * toRM Λ) j - rep Λ (A * toRM Λ) i))

theorem blockMatrix_conj {P : ℕ} (b : Fin P → Fin P → CMat n) :
    (blockMatrix b)ᴴ = blockMatrix fun i j => (b j i)ᴴ := by
  ext x y; simp [blockMatrix, conjTranspose_apply]

theorem superBlock_neg (h : Exact t A Λ) (w : Fin d → ℤ) : superBlock t A Λ (-w) = (superBlock t A Λ w)ᴴ := by
  rw [superBlock, superBlock, blockMatrix_conj]
  congr 1
  funext i j
  rw [← lookup_conj h.halved h.herm0, ← Matrix.mulVec_neg, ← toR_neg]
  congr 3
  rw [Matrix.mulVec_neg]
  abel

theorem rep_inCell (i : Fin (internalPositions Λ (A * toRM Λ)).length) : InCell Λ (rep Λ (A * toRM Λ) i) :=
  inCell_of_mem (List.getElem_mem _)

theorem superTerms_fst : (superTerms t A Λ).map Prod.fst = (t.H.terms.map Prod.fst).map (toRM Λ *ᵥ ·) := by
  simp [superTerms]

theorem superTerms_halved (h : Exact t A Λ) (hdet : Λ.det ≠ 0) : Halved ((superTerms t A Λ).map Prod.fst) := by
  have hinj : Function.Injective (toRM Λ *ᵥ · : RVec d → RVec d) := mulVec_inj_of_det (by rw [det_toRM]; exact_mod_cast hdet)
  rw [superTerms_fst]
  refine ⟨h.halved.nodup.map hinj, ?_⟩
  intro r hr hr'
  obtain ⟨x, hx, rfl⟩ := List.mem_map.1 hr
  obtain ⟨y, hy, he⟩ := List.mem_map.1 hr'
  have : y = -x := hinj (by simp only at he ⊢; rw [he, Matrix.mulVec_neg])
  rw [h.halved.half x hx (this ▸ hy), Matrix.mulVec_zero]

theorem lattice_inj (hA : A.det ≠ 0) : Function.Injective fun z : Fin d → ℤ => A *ᵥ toR z :=
  (mulVec_inj_of_det hA).comp toR_injective

/-- The coefficient of the supercell model at the superlattice vector `A Λ w`. -/
theorem super_lookup (h : Exact t A Λ) (hA : A.det ≠ 0) (hdet : Λ.det ≠ 0) (w : Fin d → ℤ) :
    (⟨superTerms t A Λ⟩ : Series d _).lookup ((A * toRM Λ) *ᵥ toR w) = superBlock t A Λ w := by
  have hBw : (A * toRM Λ) *ᵥ toR w = A *ᵥ toR (Λ *ᵥ w) := by rw [← Matrix.mulVec_mulVec, toRM_mulVec]
  have hh : Halved ((⟨superTerms t A Λ⟩ : Series d _).terms.map Prod.fst) := superTerms_halved h hdet
  have hmem : ∀ z : Fin d → ℤ, A *ᵥ toR z ∈ t.H.terms.map Prod.fst →
      ((A *ᵥ toR (Λ *ᵥ z)), superBlock t A Λ z) ∈ superTerms t A Λ := by
    intro z hz
    obtain ⟨x, hx, he⟩ := List.mem_map.1 hz
    have hc : toRM Λ *ᵥ (A *ᵥ toR z) = A *ᵥ toR (Λ *ᵥ z) := h.commute z (Or.inl hz)
    refine List.mem_map.2 ⟨x, hx, ?_⟩
    rw [he, hc]
    refine Prod.ext rfl ?_
    simp only [superBlock]
    congr 1
    funext i j
    rw [toR_sub, toR_add, Matrix.mulVec_sub, Matrix.mulVec_add]
  by_cases h1 : A *ᵥ toR w ∈ t.H.terms.map Prod.fst
  · rw [hBw]
    exact lookup_mem hh.nodup (hmem w h1)
  · by_cases h2 : -(A *ᵥ toR w) ∈ t.H.terms.map Prod.fst
    · have h2' : A *ᵥ toR (-w) ∈ t.H.terms.map Prod.fst := by rwa [toR_neg, Matrix.mulVec_neg]
      have hw : w ≠ 0 := by
        rintro rfl
        apply h1
        rwa [neg_zero] at h2'
      have hne : A *ᵥ toR (Λ *ᵥ (-w)) ≠ 0 := by
        intro h0
        have h3 : Λ *ᵥ (-w) = 0 := lattice_inj hA (by
          simp only; rw [h0, show toR (0 : Fin d → ℤ) = 0 by funext i; simp [toR], Matrix.mulVec_zero])
        have h4 : -w = 0 := mulVec_injective hdet (by simp only; rw [h3, Matrix.mulVec_zero])
        exact hw (neg_eq_zero.1 h4)
      have := lookup_neg hh (hmem (-w) h2') hne
      rw [superBlock_neg h, conjTranspose_conjTranspose] at this
      rw [hBw, ← this]
      congr 1
      rw [Matrix.mulVec_neg, toR_neg, Matrix.mulVec_neg, neg_neg]
    · have hnl : ¬ Listed t (A *ᵥ toR w) := by rintro (h | h); exacts [h1 h, h2 h]
      have hblock : superBlock t A Λ w = 0 := by
        ext a b
        simp only [superBlock, blockMatrix, Matrix.zero_apply]
        rw [lookup_none, Matrix.zero_apply]
        · exact fun hc => hnl (h.complete w _ _ (rep_inCell _) (rep_inCell _) (Or.inl hc))
        · exact fun hc => hnl (h.complete w _ _ (rep_inCell _) (rep_inCell _) (Or.inr hc))
      rw [hblock]
      have hnone : ∀ z : Fin d → ℤ, (A * toRM Λ) *ᵥ toR z ∈ (superTerms t A Λ).map Prod.fst → A *ᵥ toR z ∈ t.H.terms.map Prod.fst := by
        intro z hz
        rw [superTerms_fst] at hz
        obtain ⟨x, hx, he⟩ := List.mem_map.1 hz
        obtain ⟨v, rfl⟩ := h.lattice x (Or.inl hx)
        have hc : toRM Λ *ᵥ (A *ᵥ toR v) = A *ᵥ toR (Λ *ᵥ v) := h.commute v (Or.inl hx)
        have he' : toRM Λ *ᵥ (A *ᵥ toR v) = (A * toRM Λ) *ᵥ toR z := he
        rw [hc, ← Matrix.mulVec_mulVec, toRM_mulVec] at he'
        have := mulVec_injective hdet (lattice_inj hA he')
        rw [← this]
        exact hx
      refine lookup_none (fun hc => h1 (hnone w hc)) (fun hc => h2 ?_)
      rw [← Matrix.mulVec_neg, ← toR_neg] at hc
      have := hnone (-w) hc
      rwa [toR_neg, Matrix.mulVec_neg] at this

theorem super_lookup_range (h : Exact t A Λ) {x : RVec d} (hx : (⟨superTerms t A Λ⟩ : Series d _).lookup x ≠ 0) :
    x ∈ Set.range fun w : Fin d → ℤ => (A * toRM Λ) *ᵥ toR w := by
  have key : ∀ y, y ∈ (superTerms t A Λ).map Prod.fst → ∃ w : Fin d → ℤ, (A * toRM Λ) *ᵥ toR w = y := by
    intro y hy
    rw [superTerms_fst] at hy
    obtain ⟨v, hv, rfl⟩ := List.mem_map.1 hy
    obtain ⟨z, rfl⟩ := h.lattice v (Or.inl hv)
    refine ⟨z, ?_⟩
    rw [← Matrix.mulVec_mulVec, toRM_mulVec]
    exact (h.commute z (Or.inl hv)).symm
  rcases listed_of_lookup hx with h1 | h1
  · exact key x h1
  · obtain ⟨w, hw⟩ := key (-x) h1
    exact ⟨-w, by simp only; rw [toR_neg, Matrix.mulVec_neg, hw, neg_neg]⟩

theorem lookup_range (h : Exact t A Λ) {x : RVec d} (hx : t.H.lookup x ≠ 0) : x ∈ Set.range fun w : Fin d → ℤ => A *ᵥ toR w := by
  obtain ⟨z, hz⟩ := h.lattice x (listed_of_lookup hx)
  exact ⟨z, hz.symm⟩

theorem coeff_finite (t : Tb d n) (hA : A.det ≠ 0) : (Function.support fun z : Fin d → ℤ => t.H.lookup (A *ᵥ toR z)).Finite :=
  (lookup_finite t.H).preimage (lattice_inj hA).injOn

theorem entry_finsum {α : Type*} {m : ℕ} (F : α → CMat m) (hF : (Function.support F).Finite) (a b : Fin m) :
    (∑ᶠ x, F x) a b = ∑ᶠ x, F x a b :=
  (Matrix.entryAddMonoidHom ℂ a b).map_finsum hF

/-- Sum over the lattice. -/
noncomputable def origM (t : Tb d n) (A : Matrix (Fin d) (Fin d) ℝ) (k : RVec d) : CMat n :=
  Matrix.of fun a b => ∑ᶠ z : Fin d → ℤ, fi k (A *ᵥ toR z) * t.H.lookup (A *ᵥ toR z) a b

/-- Sum over the superlattice. -/
noncomputable def superM (t : Tb d n) (A : Matrix (Fin d) (Fin d) ℝ) (Λ : Matrix (Fin d) (Fin d) ℤ) (k : RVec d) :
    CMat ((internalPositions Λ (A * toRM Λ)).length * n) :=
  Matrix.of fun a b => ∑ᶠ w : Fin d → ℤ, fi k ((A * toRM Λ) *ᵥ toR w) * superBlock t A Λ w a b

/-- `H(k)` of the original model as sum over the lattice. -/
theorem orig_f (h : Exact t A Λ) (hs : Spec.Starts0 t.H) (hA : A.det ≠ 0) (k : RVec d) :
    t.H.f k = .ok (origM t A k) := by
  rw [f_finsum hs h.halved, finsum_comp_of_injective (fun z : Fin d → ℤ => A *ᵥ toR z) (lattice_inj hA)]
  · congr 1
    ext a b
    rw [entry_finsum]
    · simp [Matrix.smul_apply, origM]
    · refine (coeff_finite t hA).subset fun z hz => ?_
      intro h0
      simp only [Function.mem_support] at hz h0
      exact hz (by rw [h0, smul_zero])
  · intro x hx
    refine lookup_range h fun h0 => hx (by rw [h0, smul_zero])

/-- `H(k)` of the supercell as sum over the superlattice. -/
theorem super_f (h : Exact t A Λ) (hs : Spec.Starts0 t.H) (hA : A.det ≠ 0) (hdet : Λ.det ≠ 0) (k : RVec d) :
    (⟨superTerms t A Λ⟩ : Series d _).f k = .ok (superM t A Λ k) := by
  have hB : (A * toRM Λ).det ≠ 0 := by
    rw [Matrix.det_mul, det_toRM]
    exact mul_ne_zero hA (by exact_mod_cast hdet)
  have hs' : Spec.Starts0 (⟨superTerms t A Λ⟩ : Series d _) := by
    obtain ⟨H0, rest, hst⟩ := hs
    unfold Spec.Starts0 superTerms
    rw [hst, List.map_cons, Matrix.mulVec_zero]
    exact ⟨_, _, rfl⟩
  rw [f_finsum hs' (superTerms_halved h hdet), finsum_comp_of_injective (fun z : Fin d → ℤ => (A * toRM Λ) *ᵥ toR z) (lattice_inj hB)]
  · congr 1
    simp only [super_lookup h hA hdet]
    ext a b
    rw [entry_finsum]
    · simp [Matrix.smul_apply, superM]
    · have hfin := (lookup_finite (⟨superTerms t A Λ⟩ : Series d _)).preimage
        (f := fun z : Fin d → ℤ => (A * toRM Λ) *ᵥ toR z) (lattice_inj hB).injOn
      refine hfin.subset fun z hz => ?_
      intro h0
      simp only [Function.mem_support] at hz
      exact hz (by rw [← super_lookup h hA hdet, h0, smul_zero])
  · intro x hx
    exact super_lookup_range h fun h0 => hx (by rw [h0, smul_zero])

/-- Cell point and orbital of a row of the supercell Hamiltonian. -/
noncomputable def site (Λ : Matrix (Fin d) (Fin d) ℤ) (B : Matrix (Fin d) (Fin d) ℝ) (a : Fin ((internalPositions Λ B).length * n)) : Fin d → ℤ :=
  rep Λ B (finProdFinEquiv.symm a).1

/-- Orbital of a row. -/
def orb {P : ℕ} (a : Fin (P * n)) : Fin n := (finProdFinEquiv.symm a).2

theorem transversal_rep (B : Matrix (Fin d) (Fin d) ℝ) (hdet : Λ.det ≠ 0) (hr : RowsPositive Λ) : Transversal Λ (rep Λ B) := by
  have h := transversal_cellPoints hdet hr
  have hl : (internalPositions Λ B).length = (cellPoints Λ).length := by simp [internalPositions]
  have : rep Λ B = (fun i : Fin (cellPoints Λ).length => (cellPoints Λ)[i]) ∘ finCongr hl := by
    funext i; rfl
  rw [this]
  constructor
  have h2 : Function.Bijective fun p : Fin (internalPositions Λ B).length × (Fin d → ℤ) => ((finCongr hl) p.1, p.2) :=
    ((finCongr hl).prodCongr (Equiv.refl _)).bijective
  exact h.bij.comp h2

theorem sum_blocks {P : ℕ} {M : Type*} [AddCommMonoid M] (F : Fin (P * n) → M) :
    ∑ a, F a = ∑ i : Fin P, ∑ b : Fin n, F (finProdFinEquiv (i, b)) := by
  rw [← finProdFinEquiv.sum_comp, Fintype.sum_prod_type]

/-- Bloch states of the supercell: the matrix of the supercell maps Bloch states to Bloch states. -/
theorem bloch_core (hA : A.det ≠ 0) (hdet : Λ.det ≠ 0) (hr : RowsPositive Λ) (k : RVec d) (ψ : Fin n → ℂ)
    (i : Fin (internalPositions Λ (A * toRM Λ)).length) (a : Fin n) :
    ∑ j, ∑ b, (∑ᶠ w : Fin d → ℤ, fi k ((A * toRM Λ) *ᵥ toR w) *
        t.H.lookup (A *ᵥ toR (Λ *ᵥ w + rep Λ (A * toRM Λ) j - rep Λ (A * toRM Λ) i)) a b) *
      (fi k (A *ᵥ toR (rep Λ (A * toRM Λ) j)) * ψ b) =
    fi k (A *ᵥ toR (rep Λ (A * toRM Λ) i)) * ∑ b, (∑ᶠ z : Fin d → ℤ, fi k (A *ᵥ toR z) * t.H.lookup (A *ᵥ toR z) a b) * ψ b := by
  rw [Finset.sum_comm, Finset.mul_sum]
  refine Finset.sum_congr rfl fun b _ => ?_
  have hrow := (transversal_rep (A * toRM Λ) hdet hr).row (fun z => fi k (A *ᵥ toR z) * t.H.lookup (A *ᵥ toR z) a b)
    ((coeff_finite t hA).subset fun z hz h0 => by
      simp only [Function.mem_support] at hz h0
      exact hz (by rw [h0, Matrix.zero_apply, mul_zero])) i
  rw [← hrow, Finset.sum_mul, Finset.mul_sum]
  refine Finset.sum_congr rfl fun j _ => ?_
  have hph : ∀ w : Fin d → ℤ, fi k ((A * toRM Λ) *ᵥ toR w) * fi k (A *ᵥ toR (rep Λ (A * toRM Λ) j)) =
      fi k (A *ᵥ toR (rep Λ (A * toRM Λ) i)) * fi k (A *ᵥ toR (Λ *ᵥ w + rep Λ (A * toRM Λ) j - rep Λ (A * toRM Λ) i)) := by
    intro w
    rw [← fi_add_right, ← fi_add_right, ← Matrix.mulVec_mulVec, toRM_mulVec, ← Matrix.mulVec_add, ← Matrix.mulVec_add,
      ← toR_add, ← toR_add]
    congr 3
    abel
  rw [show ∀ (x y z : ℂ), x * (y * z) = x * y * z from fun x y z => (mul_assoc _ _ _).symm,
    show ∀ (x y z : ℂ), x * (y * z) = x * y * z from fun x y z => (mul_assoc _ _ _).symm, finsum_mul, mul_finsum]
  · congr 1
    refine finsum_congr fun w => ?_
    rw [mul_right_comm, hph]
    ring

/-- Projection of a state of the supercell on the Bloch states of one wave vector. -/
theorem bloch_col (hA : A.det ≠ 0) (hdet : Λ.det ≠ 0) (hr : RowsPositive Λ) (k g : RVec d)
    (hg : ∀ w : Fin d → ℤ, ∃ m : ℤ, g ⬝ᵥ ((A * toRM Λ) *ᵥ toR w) = m)
    (j : Fin (internalPositions Λ (A * toRM Λ)).length) (a b : Fin n) :
    ∑ i, star (fi (k + g) (A *ᵥ toR (rep Λ (A * toRM Λ) i))) * (∑ᶠ w : Fin d → ℤ, fi k ((A * toRM Λ) *ᵥ toR w) *
        t.H.lookup (A *ᵥ toR (Λ *ᵥ w + rep Λ (A * toRM Λ) j - rep Λ (A * toRM Λ) i)) a b) =
    star (fi (k + g) (A *ᵥ toR (rep Λ (A * toRM Λ) j))) *
      ∑ᶠ z : Fin d → ℤ, fi (k + g) (A *ᵥ toR z) * t.H.lookup (A *ᵥ toR z) a b := by
  have hcol := (transversal_rep (A * toRM Λ) hdet hr).col (fun z => fi (k + g) (A *ᵥ toR z) * t.H.lookup (A *ᵥ toR z) a b)
    ((coeff_finite t hA).subset fun z hz h0 => by
      simp only [Function.mem_support] at hz h0
      exact hz (by rw [h0, Matrix.zero_apply, mul_zero])) j
  rw [← hcol, Finset.mul_sum]
  refine Finset.sum_congr rfl fun i _ => ?_
  rw [mul_finsum, mul_finsum]
  refine finsum_congr fun w => ?_
  have hph : fi k ((A * toRM Λ) *ᵥ toR w) = fi (k + g) ((A * toRM Λ) *ᵥ toR w) := by
    obtain ⟨m, hm⟩ := hg w
    exact (fi_periodic k g _ m hm).symm
  rw [hph, ← mul_assoc, ← mul_assoc]
  congr 1
  rw [← fi_neg, ← fi_neg, ← fi_add_right, ← fi_add_right, ← Matrix.mulVec_mulVec, toRM_mulVec, ← Matrix.mulVec_neg,
    ← Matrix.mulVec_neg, ← Matrix.mulVec_add, ← Matrix.mulVec_add, ← toR_neg, ← toR_neg, ← toR_add, ← toR_add]
  congr 3
  abel

theorem char_sum {G ι : Type*} [AddCommGroup G] (χ : AddChar G ℂ) (s : Finset ι) (f : ι → G) :
    χ (∑ i ∈ s, f i) = ∏ i ∈ s, χ (f i) := by
  classical
  induction s using Finset.induction_on with
  | empty => simp
  | insert a s ha ih => rw [Finset.sum_insert ha, Finset.prod_insert ha, AddChar.map_add_eq_mul, ih]

/-- Every character of `ℤᵈ / Λ ℤᵈ` is a wave vector of the reciprocal superlattice. -/
theorem char_wave (hA : A.det ≠ 0) (χ : AddChar ((Fin d → ℤ) ⧸ superlattice Λ) ℂ) [Finite ((Fin d → ℤ) ⧸ superlattice Λ)] :
    ∃ g : RVec d, (∀ w : Fin d → ℤ, ∃ m : ℤ, g ⬝ᵥ ((A * toRM Λ) *ᵥ toR w) = m) ∧
      ∀ z : Fin d → ℤ, χ (QuotientAddGroup.mk z) = fi g (A *ᵥ toR z) := by
  have hnorm : ∀ q, ‖χ q‖ = 1 := fun q => AddChar.norm_apply χ q
  have hex : ∀ l : Fin d, ∃ c : ℝ, χ (QuotientAddGroup.mk (Pi.single l 1)) = Complex.exp (2 * Real.pi * Complex.I * (c : ℂ)) := by
    intro l
    refine ⟨Complex.arg (χ (QuotientAddGroup.mk (Pi.single l 1))) / (2 * Real.pi), ?_⟩
    have h1 := Complex.norm_mul_exp_arg_mul_I (χ (QuotientAddGroup.mk (Pi.single l 1)))
    rw [hnorm, Complex.ofReal_one, one_mul] at h1
    rw [← h1]
    congr 1
    have hpi : (Real.pi : ℂ) ≠ 0 := by exact_mod_cast Real.pi_ne_zero
    push_cast
    field_simp
    rw [h1]
  choose c hc using hex
  have hz : ∀ z : Fin d → ℤ, χ (QuotientAddGroup.mk z) = Complex.exp (2 * Real.pi * Complex.I * ((c ⬝ᵥ toR z : ℝ) : ℂ)) := by
    intro z
    have hsum : (QuotientAddGroup.mk z : (Fin d → ℤ) ⧸ superlattice Λ) = ∑ l, z l • QuotientAddGroup.mk (Pi.single l 1) := by
      have h1 : z = ∑ l, z l • (Pi.single l 1 : Fin d → ℤ) := by
        funext i
        simp [Finset.sum_apply, Pi.single_apply]
      conv_lhs => rw [h1]
      rw [← QuotientAddGroup.mk'_apply, map_sum]
      simp
    rw [hsum, char_sum]
    rw [dotProduct]
    push_cast
    rw [Finset.mul_sum, Complex.exp_sum]
    refine Finset.prod_congr rfl fun l _ => ?_
    rw [AddChar.map_zsmul_eq_zpow, hc, ← Complex.exp_int_mul]
    congr 1
    simp only [toR]
    push_cast
    ring
  have hdot : ∀ x : RVec d, ((A⁻¹)ᵀ *ᵥ c) ⬝ᵥ (A *ᵥ x) = c ⬝ᵥ x := by
    intro x
    rw [Matrix.mulVec_transpose, ← Matrix.dotProduct_mulVec, Matrix.mulVec_mulVec,
      Matrix.nonsing_inv_mul A (isUnit_iff_ne_zero.2 hA), Matrix.one_mulVec]
  refine ⟨(A⁻¹)ᵀ *ᵥ c, ?_, ?_⟩
  · intro w
    have h1 := hz (Λ *ᵥ w)
    rw [(QuotientAddGroup.eq_zero_iff _).2 (mem_superlattice.2 ⟨w, rfl⟩), AddChar.map_zero_eq_one] at h1
    obtain ⟨m, hm⟩ := Complex.exp_eq_one_iff.1 h1.symm
    refine ⟨m, ?_⟩
    rw [← Matrix.mulVec_mulVec, toRM_mulVec, hdot]
    have hpi : (2 * Real.pi * Complex.I : ℂ) ≠ 0 := Complex.two_pi_I_ne_zero
    have h2 : ((c ⬝ᵥ toR (Λ *ᵥ w) : ℝ) : ℂ) = (m : ℂ) := by
      apply mul_left_cancel₀ hpi
      rw [hm]; ring
    exact_mod_cast h2
  · intro z
    rw [hz, fi, hdot]

/-- The Bloch states of all wave vectors are complete. -/
theorem bloch_complete (hA : A.det ≠ 0) (hdet : Λ.det ≠ 0) (Φ : Fin (internalPositions Λ (A * toRM Λ)).length → ℂ)
    (h : ∀ g : RVec d, (∀ w : Fin d → ℤ, ∃ m : ℤ, g ⬝ᵥ ((A * toRM Λ) *ᵥ toR w) = m) →
      ∑ i, star (fi g (A *ᵥ toR (rep Λ (A * toRM Λ) i))) * Φ i = 0) : Φ = 0 := by
  classical
  have hfin := finite_quotient hdet
  have := Fintype.ofFinite ((Fin d → ℤ) ⧸ superlattice Λ)
  funext i0
  have h1 : ∑ χ : AddChar ((Fin d → ℤ) ⧸ superlattice Λ) ℂ, χ (QuotientAddGroup.mk (rep Λ (A * toRM Λ) i0)) *
      ∑ i, star (χ (QuotientAddGroup.mk (rep Λ (A * toRM Λ) i))) * Φ i = 0 := by
    refine Finset.sum_eq_zero fun χ _ => ?_
    obtain ⟨g, hg, hχ⟩ := char_wave hA χ
    have := h g hg
    simp only [← hχ] at this
    rw [this, mul_zero]
  have h2 : ∑ χ : AddChar ((Fin d → ℤ) ⧸ superlattice Λ) ℂ, χ (QuotientAddGroup.mk (rep Λ (A * toRM Λ) i0)) *
      ∑ i, star (χ (QuotientAddGroup.mk (rep Λ (A * toRM Λ) i))) * Φ i =
      ∑ i, (∑ χ : AddChar ((Fin d → ℤ) ⧸ superlattice Λ) ℂ,
        χ (QuotientAddGroup.mk (rep Λ (A * toRM Λ) i0 - rep Λ (A * toRM Λ) i))) * Φ i := by
    simp only [Finset.mul_sum, Finset.sum_mul]
    rw [Finset.sum_comm]
    refine Finset.sum_congr rfl fun i _ => Finset.sum_congr rfl fun χ _ => ?_
    rw [QuotientAddGroup.mk_sub, sub_eq_add_neg, AddChar.map_add_eq_mul, AddChar.map_neg_eq_conj, Complex.star_def, mul_assoc]
  rw [h2] at h1
  have h3 : ∀ i, (∑ χ : AddChar ((Fin d → ℤ) ⧸ superlattice Λ) ℂ,
        χ (QuotientAddGroup.mk (rep Λ (A * toRM Λ) i0 - rep Λ (A * toRM Λ) i))) =
      if i = i0 then (Fintype.card ((Fin d → ℤ) ⧸ superlattice Λ) : ℂ) else 0 := by
    intro i
    rw [AddChar.sum_apply_eq_ite]
    by_cases hi : i = i0
    · subst hi; simp
    · rw [if_neg hi, if_neg]
      intro h0
      apply hi
      have := (QuotientAddGroup.eq_zero_iff _).1 h0
      obtain ⟨w, hw⟩ := mem_superlattice.1 this
      have h4 := (inCell_unique hdet (rep_inCell i0) (rep_inCell i) hw.symm).2
      exact Fin.ext ((cellPoints_nodup Λ).getElem_inj_iff.1 h4).symm
  simp only [h3, ite_mul, zero_mul, Finset.sum_ite_eq', Finset.mem_univ, if_true] at h1
  have hc : (Fintype.card ((Fin d → ℤ) ⧸ superlattice Λ) : ℂ) ≠ 0 := by exact_mod_cast Fintype.card_ne_zero
  simpa [hc] using h1

/-! ## The theorems -/

theorem mulVec_sum {m : ℕ} (M : CMat m) (v : Fin m → ℂ) (a : Fin m) : (M *ᵥ v) a = ∑ b, M a b * v b := rfl

theorem rep_surj (hdet : Λ.det ≠ 0) (hr : RowsPositive Λ) {y : Fin d → ℤ} (hy : InCell Λ y) :
    ∃ i, rep Λ (A * toRM Λ) i = y := by
  obtain ⟨i, hi, he⟩ := List.getElem_of_mem ((mem_cellPoints hdet hr).2 hy)
  exact ⟨⟨i, by simpa [internalPositions] using hi⟩, he⟩

theorem rep_inj {i j : Fin (internalPositions Λ (A * toRM Λ)).length}
    (h : rep Λ (A * toRM Λ) i = rep Λ (A * toRM Λ) j) : i = j := Fin.ext ((cellPoints_nodup Λ).getElem_inj_iff.1 h)

/-- The rows of the supercell Hamiltonian are the pairs of a point of the cell and an orbital. -/
def IsCellIndex (Λ : Matrix (Fin d) (Fin d) ℤ) {N : ℕ} (x : Fin N → Fin d → ℤ) (o : Fin N → Fin n) : Prop :=
  (∀ a, InCell Λ (x a)) ∧ ∀ y b, InCell Λ y → ∃! a, x a = y ∧ o a = b

theorem site_index (hdet : Λ.det ≠ 0) (hr : RowsPositive Λ) :
    IsCellIndex Λ (site (n := n) Λ (A * toRM Λ)) (orb (n := n)) := by
  refine ⟨fun a => rep_inCell _, fun y b hy => ?_⟩
  obtain ⟨i, hi⟩ := rep_surj (A := A) hdet hr hy
  refine ⟨finProdFinEquiv (i, b), ⟨by simp [site, hi], by simp [orb]⟩, ?_⟩
  rintro a ⟨h1, h2⟩
  have h3 : (finProdFinEquiv.symm a).1 = i := rep_inj (by rw [hi]; exact h1)
  rw [← h3, ← h2, orb]
  exact (Equiv.apply_symm_apply _ a).symm

/-- C55.  The supercell of an exact configuration: the model has `det Λ` times as many bands and unit overlap, its rows are
the pairs of a point `x` of the cell and an orbital `o`, its Hamiltonian is the sum over the superlattice of the hopping
between the points, and it maps Bloch states with the wave vector `k` to Bloch states with the original Hamiltonian. -/
theorem C55_bloch (t : Tb d n) (A : Matrix (Fin d) (Fin d) ℝ) (Λ : Matrix (Fin d) (Fin d) ℤ) (h : Exact t A Λ)
    (r : (N : ℕ) × Tb d N) (hr : t.supercell A (A * Λ.map (Int.cast : ℤ → ℝ)) = .ok r) :
    (r.1 : ℤ) = Λ.det * n ∧ ∃ (x : Fin r.1 → Fin d → ℤ) (o : Fin r.1 → Fin n), IsCellIndex Λ x o ∧
      ∀ k, r.2.S.f k = .ok 1 ∧ ∃ M' M, r.2.H.f k = .ok M' ∧ t.H.f k = .ok M ∧
        (∀ a b, M' a b = ∑ᶠ w : Fin d → ℤ, fi k (A *ᵥ fun i => ((Λ *ᵥ w) i : ℝ)) *
          t.H.lookup (A *ᵥ fun i => ((Λ *ᵥ w + x b - x a) i : ℝ)) (o a) (o b)) ∧
        ∀ ψ : Fin n → ℂ, M' *ᵥ (fun a => fi k (A *ᵥ fun i => (x a i : ℝ)) * ψ (o a)) =
          fun a => fi k (A *ᵥ fun i => (x a i : ℝ)) * (M *ᵥ ψ) (o a) := by
  obtain ⟨hA, hpos, hrow, hs, hlen, rfl⟩ := supercell_ok hr
  refine ⟨by push_cast; rw [hlen], site Λ (A * toRM Λ), orb, site_index hpos.ne' hrow, fun k => ⟨?_, _, _,
    super_f h hs hA hpos.ne' k, orig_f h hs hA k, ?_, ?_⟩⟩
  · rw [f_eq]; simp [Spec.value]
  · intro a b
    refine finsum_congr fun w => ?_
    rw [← Matrix.mulVec_mulVec, toRM_mulVec]
    rfl
  · intro ψ
    funext a
    rw [mulVec_sum, mulVec_sum, sum_blocks]
    have := bloch_core (t := t) hA hpos.ne' hrow k ψ (finProdFinEquiv.symm a).1 (finProdFinEquiv.symm a).2
    refine Eq.trans ?_ this
    refine Finset.sum_congr rfl fun j _ => Finset.sum_congr rfl fun b _ => ?_
    simp only [superM, Matrix.of_apply, superBlock, blockMatrix, site, orb, Equiv.symm_apply_apply]
    rfl

theorem super_starts (h : Exact t A Λ) {r : (N : ℕ) × Tb d N} (hr : t.supercell A (A * toRM Λ) = .ok r) :
    ∃ H0 rest, r.2.H.terms = (0, H0) :: rest ∧ H0.IsHermitian := by
  obtain ⟨-, -, -, ⟨H0, rest, hst⟩, -, rfl⟩ := supercell_ok hr
  simp only [superTerms, hst, List.map_cons, Matrix.mulVec_zero]
  refine ⟨_, _, rfl, ?_⟩
  have h1 := superBlock_neg h 0
  have e : superBlock t A Λ 0 = blockMatrix fun i j => t.H.lookup
      (0 + A *ᵥ toR (rep Λ (A * toRM Λ) j) - A *ᵥ toR (rep Λ (A * toRM Λ) i)) := by
    rw [superBlock]
    congr 1
    funext i j
    rw [Matrix.mulVec_zero, zero_add, zero_add, ← Matrix.mulVec_sub]
    congr 2
    funext l
    simp [toR]
  rw [neg_zero, e] at h1
  exact h1.symm

/-- C55.  The supercell of an exact configuration has hermitian matrices. -/
theorem C55_hermitian (t : Tb d n) (A : Matrix (Fin d) (Fin d) ℝ) (Λ : Matrix (Fin d) (Fin d) ℤ) (h : Exact t A Λ)
    (r : (N : ℕ) × Tb d N) (hr : t.supercell A (A * Λ.map (Int.cast : ℤ → ℝ)) = .ok r) (k : RVec d) :
    ∃ M, r.2.H.f k = .ok M ∧ M.IsHermitian := by
  obtain ⟨H0, rest, hst, hH0⟩ := super_starts h hr
  have : r.2.H = ⟨(0, H0) :: rest⟩ := by rw [← hst]
  rw [this]
  exact ⟨_, f_eq _ _ _, hH0.add (herm_sum (fi k) rest)⟩

/-- The reciprocal superlattice: wave vectors `g` with `g · R` integer for every superlattice vector `R = A Λ w`. -/
def Reciprocal (A : Matrix (Fin d) (Fin d) ℝ) (Λ : Matrix (Fin d) (Fin d) ℤ) (g : RVec d) : Prop :=
  ∀ w : Fin d → ℤ, ∃ m : ℤ, g ⬝ᵥ (A *ᵥ fun i => ((Λ *ᵥ w) i : ℝ)) = m

/-- C55.  The bands of the supercell at `k` are exactly the bands of the original model at the points `k + g` with `g` in
the reciprocal superlattice. -/
theorem C55_bands (t : Tb d n) (A : Matrix (Fin d) (Fin d) ℝ) (Λ : Matrix (Fin d) (Fin d) ℤ) (h : Exact t A Λ)
    (r : (N : ℕ) × Tb d N) (hr : t.supercell A (A * Λ.map (Int.cast : ℤ → ℝ)) = .ok r) (k : RVec d) (E : ℂ) :
    (∃ M', r.2.H.f k = .ok M' ∧ ∃ v, v ≠ 0 ∧ M' *ᵥ v = E • v) ↔
      ∃ g, Reciprocal A Λ g ∧ ∃ M, t.H.f (k + g) = .ok M ∧ ∃ v, v ≠ 0 ∧ M *ᵥ v = E • v := by
  obtain ⟨hA, hpos, hrow, hs, hlen, hr'⟩ := supercell_ok hr
  constructor
  · subst hr'
    rintro ⟨M', hM', v, hv, hE⟩
    rw [super_f h hs hA hpos.ne' k] at hM'
    have hM'' := Except.ok.inj hM'
    by_contra hno
    push Not at hno
    apply hv
    -- the projections
    have hproj : ∀ g, Reciprocal A Λ g → ∀ a : Fin n,
        ∑ i, star (fi (k + g) (A *ᵥ toR (rep Λ (A * toRM Λ) i))) * v (finProdFinEquiv (i, a)) = 0 := by
      intro g hg a
      have hg' : ∀ w : Fin d → ℤ, ∃ m : ℤ, g ⬝ᵥ ((A * toRM Λ) *ᵥ toR w) = m := by
        intro w
        obtain ⟨m, hm⟩ := hg w
        exact ⟨m, by rw [← Matrix.mulVec_mulVec, toRM_mulVec]; exact hm⟩
      by_contra hne
      refine hno g hg _ (orig_f h hs hA (k + g))
        (fun a => ∑ i, star (fi (k + g) (A *ᵥ toR (rep Λ (A * toRM Λ) i))) * v (finProdFinEquiv (i, a)))
        (fun h0 => hne (congrFun h0 a)) ?_
      funext a
      rw [Pi.smul_apply, smul_eq_mul, Finset.mul_sum]
      have h1 : ∀ i, star (fi (k + g) (A *ᵥ toR (rep Λ (A * toRM Λ) i))) * (E * v (finProdFinEquiv (i, a))) =
          ∑ j, ∑ b, (star (fi (k + g) (A *ᵥ toR (rep Λ (A * toRM Λ) i))) * ∑ᶠ w : Fin d → ℤ, fi k ((A * toRM Λ) *ᵥ toR w) *
            t.H.lookup (A *ᵥ toR (Λ *ᵥ w + rep Λ (A * toRM Λ) j - rep Λ (A * toRM Λ) i)) a b) * v (finProdFinEquiv (j, b)) := by
        intro i
        have h2 := congrFun hE (finProdFinEquiv (i, a))
        rw [Pi.smul_apply, smul_eq_mul] at h2
        rw [← h2, Matrix.mulVec, dotProduct, sum_blocks, Finset.mul_sum]
        refine Finset.sum_congr rfl fun j _ => ?_
        rw [Finset.mul_sum]
        refine Finset.sum_congr rfl fun b _ => ?_
        rw [← hM'', mul_assoc]
        simp only [superM, Matrix.of_apply, superBlock, blockMatrix, Equiv.symm_apply_apply]
      have h3 : ∀ i, E * (star (fi (k + g) (A *ᵥ toR (rep Λ (A * toRM Λ) i))) * v (finProdFinEquiv (i, a))) =
          star (fi (k + g) (A *ᵥ toR (rep Λ (A * toRM Λ) i))) * (E * v (finProdFinEquiv (i, a))) := fun i => by ring
      simp only [h3, h1]
      rw [Finset.sum_comm]
      rw [mulVec_sum]
      simp only [Finset.mul_sum]
      rw [Finset.sum_comm]
      refine Finset.sum_congr rfl fun j _ => ?_
      rw [Finset.sum_comm]
      refine Finset.sum_congr rfl fun b _ => ?_
      rw [← Finset.sum_mul, bloch_col hA hpos.ne' hrow k g hg', origM, Matrix.of_apply]
      ring
    funext c
    have hcomp := bloch_complete hA hpos.ne'
      (fun i => star (fi k (A *ᵥ toR (rep Λ (A * toRM Λ) i))) * v (finProdFinEquiv (i, (finProdFinEquiv.symm c).2))) (by
        intro g hg
        have := hproj g (fun w => by
          obtain ⟨m, hm⟩ := hg w
          exact ⟨m, by rw [← Matrix.mulVec_mulVec, toRM_mulVec] at hm; exact hm⟩) (finProdFinEquiv.symm c).2
        rw [← this]
        refine Finset.sum_congr rfl fun i _ => ?_
        rw [fi_add_left, star_mul']
        ring)
    have := congrFun hcomp (finProdFinEquiv.symm c).1
    simp only [Pi.zero_apply, mul_eq_zero, Prod.mk.eta, Equiv.apply_symm_apply] at this
    rcases this with h0 | h0
    · exact absurd h0 (star_ne_zero.2 (fi_ne_zero _ _))
    · exact h0
  · rintro ⟨g, hg, M, hM, v, hv, hE⟩
    obtain ⟨-, x, o, hidx, hk⟩ := C55_bloch t A Λ h r hr
    obtain ⟨-, M', M1, hM', hM1, -, hb⟩ := hk (k + g)
    rw [hM] at hM1
    obtain rfl := Except.ok.inj hM1
    have hper : r.2.H.f (k + g) = r.2.H.f k := by
      subst hr'
      rw [super_f h hs hA hpos.ne', super_f h hs hA hpos.ne']
      congr 1
      ext a b
      refine finsum_congr fun w => ?_
      obtain ⟨m, hm⟩ := hg w
      rw [fi_periodic k g _ m (by rw [← Matrix.mulVec_mulVec, toRM_mulVec]; exact hm)]
    refine ⟨M', by rw [← hper]; exact hM', fun a => fi (k + g) (A *ᵥ fun i => (x a i : ℝ)) * v (o a), ?_, ?_⟩
    · intro h0
      apply hv
      funext b
      obtain ⟨a, ⟨ha1, ha2⟩, -⟩ := hidx.2 0 b (fun i => by simp [cellFrac])
      have := congrFun h0 a
      simp only [Pi.zero_apply, mul_eq_zero] at this
      rcases this with h1 | h1
      · exact absurd h1 (fi_ne_zero _ _)
      · rwa [ha2] at h1
    · rw [hb v, hE]
      funext a
      simp only [Pi.smul_apply, smul_eq_mul]
      ring

end TB.SC

import Mathlib.Algebra.BigOperators.Finprod
import Verif.Lemmas.Supercell
import Verif.Lemmas.Fourier
import Verif.Lemmas.HamiltonianSymmetry

/-! # Lemmas about sums over the lattice, for supercells -/

set_option linter.unusedSectionVars false

namespace TB.SC
open Matrix

variable {d n : ℕ}

/-! ## `lookup` -/

/-- One of `r`, `-r` is listed, once. -/
structure Halved (ns : List (RVec d)) : Prop where
  nodup : ns.Nodup
  half : ∀ r ∈ ns, -r ∈ ns → r = 0

theorem getD_idxOf {l : List (RVec d × CMat n)} (hn : (l.map Prod.fst).Nodup) {x : RVec d} {M : CMat n} (h : (x, M) ∈ l) :
    (l.map Prod.snd).getD ((l.map Prod.fst).idxOf x) 0 = M := by
  induction l with
  | nil => simp at h
  | cons t l ih =>
    simp only [List.map_cons, List.nodup_cons] at hn
    rcases List.mem_cons.1 h with rfl | h'
    · simp
    · have hx : x ∈ l.map Prod.fst := List.mem_map.2 ⟨_, h', rfl⟩
      have : t.1 ≠ x := fun e => hn.1 (e ▸ hx)
      simp only [List.map_cons]
      rw [List.idxOf_cons_ne _ this, List.getD_cons_succ]
      exact ih hn.2 h'

theorem lookup_mem {s : Series d n} (hn : (s.terms.map Prod.fst).Nodup) {x : RVec d} {M : CMat n} (h : (x, M) ∈ s.terms) :
    s.lookup x = M := by
  have hx : x ∈ s.terms.map Prod.fst := List.mem_map.2 ⟨_, h, rfl⟩
  rw [Series.lookup, HS.tryNeighbor_eq, if_pos hx]
  exact getD_idxOf hn h

theorem lookup_neg {s : Series d n} (hn : Halved (s.terms.map Prod.fst)) {x : RVec d} {M : CMat n} (h : (x, M) ∈ s.terms)
    (h0 : x ≠ 0) : s.lookup (-x) = Mᴴ := by
  have hx : x ∈ s.terms.map Prod.fst := List.mem_map.2 ⟨_, h, rfl⟩
  have hx' : -x ∉ s.terms.map Prod.fst := fun h' => h0 (hn.half x hx h')
  rw [Series.lookup, HS.tryNeighbor_eq, if_neg hx', neg_neg, if_pos hx]
  exact congrArg conjTranspose (getD_idxOf hn.nodup h)

theorem lookup_none {s : Series d n} {x : RVec d} (h : x ∉ s.terms.map Prod.fst) (h' : -x ∉ s.terms.map Prod.fst) :
    s.lookup x = 0 := by
  rw [Series.lookup, HS.tryNeighbor_eq, if_neg h, if_neg h']

theorem listed_of_lookup {s : Series d n} {x : RVec d} (h : s.lookup x ≠ 0) :
    x ∈ s.terms.map Prod.fst ∨ -x ∈ s.terms.map Prod.fst := by
  by_contra hc
  push Not at hc
  exact h (lookup_none hc.1 hc.2)

theorem lookup_conj {s : Series d n} (hn : Halved (s.terms.map Prod.fst))
    (h0 : ∀ M, ((0 : RVec d), M) ∈ s.terms → M.IsHermitian) (x : RVec d) : s.lookup (-x) = (s.lookup x)ᴴ := by
  by_cases hz : x = 0
  · subst hz
    rw [neg_zero]
    by_cases hm : (0 : RVec d) ∈ s.terms.map Prod.fst
    · obtain ⟨⟨y, M⟩, hM, rfl⟩ := List.mem_map.1 hm
      rw [lookup_mem hn.nodup hM]
      exact (h0 M hM).eq.symm
    · rw [lookup_none hm (by rwa [neg_zero])]; simp
  · by_cases hx : x ∈ s.terms.map Prod.fst
    · obtain ⟨⟨y, M⟩, hM, rfl⟩ := List.mem_map.1 hx
      rw [lookup_mem hn.nodup hM, lookup_neg hn hM hz]
    · by_cases hx' : -x ∈ s.terms.map Prod.fst
      · obtain ⟨⟨y, M⟩, hM, he⟩ := List.mem_map.1 hx'
        simp only at he
        subst he
        rw [lookup_mem hn.nodup hM]
        have := lookup_neg hn hM (by simpa using hz)
        rw [neg_neg] at this
        rw [this, conjTranspose_conjTranspose]
      · rw [lookup_none hx hx', lookup_none hx' (by rwa [neg_neg])]; simp

theorem fi_add_right (k x y : RVec d) : fi k (x + y) = fi k x * fi k y := by
  simp only [fi, dotProduct_add]
  push_cast
  rw [mul_add, Complex.exp_add]

theorem fi_add_left (k g x : RVec d) : fi (k + g) x = fi k x * fi g x := by
  simp only [fi, add_dotProduct]
  push_cast
  rw [mul_add, Complex.exp_add]

theorem fi_neg (k x : RVec d) : fi k (-x) = star (fi k x) := by
  simp only [fi, dotProduct_neg]
  rw [Complex.star_def, ← Complex.exp_conj]
  congr 1
  simp only [map_mul, Complex.conj_ofReal, Complex.conj_I, Complex.conj_ofNat, Complex.ofReal_neg]
  ring

theorem fi_mul_star (k x : RVec d) : fi k x * star (fi k x) = 1 := by
  rw [← fi_neg, ← fi_add_right, add_neg_cancel, fi_zero]

theorem fi_ne_zero (k x : RVec d) : fi k x ≠ 0 := Complex.exp_ne_zero _

theorem lookup_finite (s : Series d n) : (Function.support s.lookup).Finite := by
  classical
  refine Set.Finite.subset (((s.terms.map Prod.fst).toFinset ∪ (s.terms.map fun t => -t.1).toFinset : Finset (RVec d)).finite_toSet) ?_
  intro x hx
  rcases listed_of_lookup hx with h | h
  · simpa using Or.inl (by simpa using h)
  · refine Finset.mem_coe.2 (Finset.mem_union_right _ ?_)
    obtain ⟨t, ht, he⟩ := List.mem_map.1 h
    exact List.mem_toFinset.2 (List.mem_map.2 ⟨t, ht, by rw [he, neg_neg]⟩)

/-- `f(k)` is the sum of `e^{2πi k·x}` times the coefficient that belongs to `x`, over all positions `x`. -/
theorem f_finsum {s : Series d n} (hs : Spec.Starts0 s) (hn : Halved (s.terms.map Prod.fst)) (k : RVec d) :
    s.f k = .ok (∑ᶠ x, fi k x • s.lookup x) := by
  classical
  obtain ⟨H0, rest, hst⟩ := hs
  have hr : s.f k = .ok (Spec.value H0 rest k) := by
    have := f_eq H0 rest k
    rw [← hst] at this
    exact this
  rw [hr]
  congr 1
  have hnd := hn.nodup
  rw [hst] at hnd
  simp only [List.map_cons, List.nodup_cons] at hnd
  have hmem : ∀ t ∈ rest, t ∈ s.terms := fun t ht => hst ▸ List.mem_cons_of_mem _ ht
  have hne : ∀ t ∈ rest, t.1 ≠ 0 := fun t ht h => hnd.1 (h ▸ List.mem_map.2 ⟨t, ht, rfl⟩)
  have hn2 : (rest.map fun t => -t.1).Nodup := by
    have : (rest.map fun t => -t.1) = (rest.map Prod.fst).map fun x => -x := by simp
    rw [this]
    exact hnd.2.map neg_injective
  have hdis : Disjoint (s.terms.map Prod.fst).toFinset (rest.map fun t => -t.1).toFinset := by
    rw [Finset.disjoint_left]
    intro x hx hx'
    rw [List.mem_toFinset] at hx hx'
    obtain ⟨t, ht, rfl⟩ := List.mem_map.1 hx'
    exact hne t ht (hn.half t.1 (List.mem_map.2 ⟨t, hmem t ht, rfl⟩) hx)
  rw [finsum_eq_sum_of_support_subset (s := (s.terms.map Prod.fst).toFinset ∪ (rest.map fun t => -t.1).toFinset),
    Finset.sum_union hdis, List.sum_toFinset _ hn.nodup, List.sum_toFinset _ hn2, List.map_map, List.map_map]
  · have h1 : (s.terms.map ((fun x => fi k x • s.lookup x) ∘ Prod.fst)).sum = H0 + (rest.map fun t => fi k t.1 • t.2).sum := by
      rw [hst, List.map_cons, List.sum_cons]
      congr 1
      · simp only [Function.comp]
        rw [fi_zero, one_smul]
        exact lookup_mem hn.nodup (hst ▸ List.mem_cons_self)
      · refine congrArg List.sum (List.map_congr_left fun t ht => ?_)
        simp only [Function.comp]
        rw [lookup_mem hn.nodup (hmem t ht)]
    have h2 : (rest.map ((fun x => fi k x • s.lookup x) ∘ fun t => -t.1)).sum = (rest.map fun t => (fi k t.1 • t.2)ᴴ).sum := by
      refine congrArg List.sum (List.map_congr_left fun t ht => ?_)
      simp only [Function.comp]
      rw [lookup_neg hn (hmem t ht) (hne t ht), fi_neg, conjTranspose_smul]
    rw [h1, h2, Spec.value, List.sum_map_add, add_assoc]
    rfl
  · intro x hx
    have hx' : s.lookup x ≠ 0 := by
      intro h; rw [Function.mem_support] at hx; exact hx (by rw [h, smul_zero])
    rw [Finset.coe_union]
    rcases listed_of_lookup hx' with h | h
    · exact Or.inl (by simpa using h)
    · by_cases hz : x = 0
      · refine Or.inl ?_
        rw [hz, neg_zero] at h
        rw [hz]
        simpa using h
      · right
        rw [hst] at h
        simp only [List.map_cons, List.mem_cons] at h
        rcases h with h | h
        · exact absurd (by simpa using h) hz
        · obtain ⟨t, ht, he⟩ := List.mem_map.1 h
          exact Finset.mem_coe.2 (List.mem_toFinset.2 (List.mem_map.2 ⟨t, ht, by rw [he, neg_neg]⟩))

/-! ## Sums over the lattice -/

/-- Change of variables in a finite sum. -/
theorem finsum_comp_of_injective {α β : Type*} {M : Type*} [AddCommMonoid M] (g : α → β) (hg : Function.Injective g) (F : β → M)
    (hF : ∀ x, F x ≠ 0 → x ∈ Set.range g) : ∑ᶠ x, F x = ∑ᶠ z, F (g z) := by
  rw [← finsum_mem_range hg, ← finsum_mem_univ]
  refine finsum_mem_inter_support_eq F _ _ ?_
  ext x
  simp only [Set.univ_inter, Set.mem_inter_iff, Function.mem_support]
  exact ⟨fun h => ⟨hF x h, h⟩, fun h => h.2⟩

variable {P : ℕ} {Λ : Matrix (Fin d) (Fin d) ℤ} {xs : Fin P → Fin d → ℤ}

/-- `xs` lists every class of `ℤᵈ / Λ ℤᵈ` once. -/
structure Transversal (Λ : Matrix (Fin d) (Fin d) ℤ) (xs : Fin P → Fin d → ℤ) : Prop where
  bij : Function.Bijective fun p : Fin P × (Fin d → ℤ) => Λ *ᵥ p.2 + xs p.1

theorem Transversal.row (h : Transversal Λ xs) {M : Type*} [AddCommMonoid M] (φ : (Fin d → ℤ) → M)
    (hφ : (Function.support φ).Finite) (i : Fin P) :
    ∑ j, ∑ᶠ w, φ (Λ *ᵥ w + xs j - xs i) = ∑ᶠ z, φ z := by
  let e := (Equiv.ofBijective _ h.bij).trans (Equiv.subRight (xs i))
  rw [← finsum_comp_equiv e, finsum_curry, finsum_eq_sum_of_fintype]
  · rfl
  · exact hφ.preimage e.injective.injOn

theorem Transversal.col (h : Transversal Λ xs) {M : Type*} [AddCommMonoid M] (φ : (Fin d → ℤ) → M)
    (hφ : (Function.support φ).Finite) (j : Fin P) :
    ∑ i, ∑ᶠ w, φ (Λ *ᵥ w + xs j - xs i) = ∑ᶠ z, φ z := by
  let e0 : Fin P × (Fin d → ℤ) ≃ Fin P × (Fin d → ℤ) := (Equiv.refl _).prodCongr (Equiv.neg _)
  let e := (e0.trans (Equiv.ofBijective _ h.bij)).trans (Equiv.subLeft (xs j))
  rw [← finsum_comp_equiv e, finsum_curry, finsum_eq_sum_of_fintype]
  · refine Finset.sum_congr rfl fun i _ => finsum_congr fun w => congrArg φ ?_
    simp only [e, e0, Equiv.trans_apply, Equiv.ofBijective_apply, Equiv.subLeft_apply, Equiv.prodCongr_apply, Prod.map,
      Equiv.refl_apply, Equiv.neg_apply, Matrix.mulVec_neg]
    abel
  · exact hφ.preimage e.injective.injOn

theorem transversal_cellPoints (hd : Λ.det ≠ 0) (hr : RowsPositive Λ) :
    Transversal Λ fun i : Fin (cellPoints Λ).length => (cellPoints Λ)[i] := by
  constructor
  constructor
  · rintro ⟨i, v⟩ ⟨j, w⟩ h
    simp only at h
    have hi := inCell_of_mem (List.getElem_mem i.2)
    have hj := inCell_of_mem (List.getElem_mem j.2)
    obtain ⟨h1, h2⟩ := inCell_unique (w := w - v) hd hi hj (by
      rw [Matrix.mulVec_sub, sub_eq_sub_iff_add_eq_add, add_comm _ (Λ *ᵥ v)]; exact h)
    have hij : i = j := Fin.ext ((cellPoints_nodup Λ).getElem_inj_iff.1 h2)
    rw [hij, show w = v from sub_eq_zero.1 h1]
  · intro z
    obtain ⟨w, hw⟩ := exists_inCell hd z
    obtain ⟨i, hi, he⟩ := List.getElem_of_mem ((mem_cellPoints hd hr).2 hw)
    exact ⟨(⟨i, hi⟩, w), by simp only [Fin.getElem_fin]; rw [he]; abel⟩

end TB.SC

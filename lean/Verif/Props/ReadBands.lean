import Mathlib.Data.Rat.Floor
import Verif.Props.SpaceGroup

/-!
# Property C103: `QECrystal.read_bands_crystal`
-/

set_option linter.unusedSectionVars false

namespace TB
open Spec

variable {K : Type} [Field K] [LinearOrder K] [IsStrictOrderedRing K] [FloorRing K]

theorem qeBlock_eq (s : Mat K 3) (t : Fin 3 → K) : qeBlock s t = aff (d := 3) s t := by
  apply affExt (d := 3)
  · intro i j; simp [qeBlock]
  · intro i; rw [aff_cl]; simp [qeBlock]
  · intro i; rw [aff_lc]; simp [qeBlock]
  · rw [aff_ll]; simp [qeBlock]

/-- The matrix with the reciprocal vectors of the file as columns is invertible. -/
def Spec.Independent (b : Fin 3 → Fin 3 → K) : Prop := (Matrix.of b).det ≠ 0

/-- **C103** (defect) A file without symmetries is meant to give the identity ("there is always one symmetry, the trivial symmetry"), but raises
`AssertionError`. -/
theorem C103_no_symmetry_defect (toA toEV : K) (ang : Bool) (f : QEFile K) (hb : Independent f.b) (hk : f.ks ≠ []) (hs : f.syms = []) :
    readBandsCrystal toA toEV ang f = .error .assertionError := by
  have hdet : (Matrix.of f.b).transpose.det ≠ 0 := by rw [Matrix.det_transpose]; exact hb
  unfold readBandsCrystal
  simp only [if_neg hdet, if_neg hk, if_pos hs]
  rw [hs]
  split_ifs <;> simp_all

/-- **C103** When `read_bands_crystal` returns: independent reciprocal vectors, at least one k-point, equal numbers of bands, and at least one listed
symmetry, all of them invertible integer matrices; otherwise it raises `ValueError` or `AssertionError`, the latter exactly for
independent reciprocal vectors and at least one k-point without symmetries or with a symmetry that is not an integer matrix. -/
theorem C103_returns_iff (toA toEV : K) (ang : Bool) (f : QEFile K) :
    ((∃ r, readBandsCrystal toA toEV ang f = .ok r) ↔ Independent f.b ∧ f.ks ≠ [] ∧ (∀ p ∈ f.ks, ∀ q ∈ f.ks, q.2.length = p.2.length) ∧
      f.syms ≠ [] ∧ ∀ p ∈ f.syms, (∀ i j, ∃ z : ℤ, p.1 i j = z) ∧ p.1.det ≠ 0) ∧
    (∀ e, readBandsCrystal toA toEV ang f = .error e → e = .valueError ∨ e = .assertionError) ∧
    (readBandsCrystal toA toEV ang f = .error .assertionError ↔ Independent f.b ∧ f.ks ≠ [] ∧
      (f.syms = [] ∨ ∃ p ∈ f.syms, ¬ ∀ i j, ∃ z : ℤ, p.1 i j = z)) := by
  have hdet : (Matrix.of f.b).transpose.det = (Matrix.of f.b).det := Matrix.det_transpose _
  have hint : ∀ s : Mat K 3, (∃ p : Fin 3 × Fin 3, ((⌊s p.1 p.2⌋ : ℤ) : K) ≠ s p.1 p.2) ↔ ¬ ∀ i j, ∃ z : ℤ, s i j = z := by
    intro s
    constructor
    · rintro ⟨p, hp⟩ h
      obtain ⟨z, hz⟩ := h p.1 p.2
      apply hp
      rw [hz, Int.floor_intCast]
    · intro h
      push Not at h
      obtain ⟨i, j, h⟩ := h
      exact ⟨(i, j), (h _).symm⟩
  refine ⟨?_, ?_, ?_⟩
  · unfold readBandsCrystal Independent
    simp only [hdet]
    by_cases hb : (Matrix.of f.b).det = 0
    · simp [hb]
    rw [if_neg hb]
    by_cases hk : f.ks = []
    · simp [hk]
    rw [if_neg hk]
    by_cases hs : f.syms = []
    · have := C103_no_symmetry_defect toA toEV ang f hb hk hs
      unfold readBandsCrystal at this
      simp only [hdet, if_neg hb, if_neg hk] at this
      rw [this]
      simp [hs]
    · simp only [if_neg hs]
      by_cases h1 : ((f.syms.map Prod.fst).any fun s => decide (∃ p : Fin 3 × Fin 3, ((⌊s p.1 p.2⌋ : ℤ) : K) ≠ s p.1 p.2)) = true
      · rw [if_pos h1]
        simp only [List.any_map, List.any_eq_true, Function.comp_apply, decide_eq_true_eq, hint] at h1
        obtain ⟨p, hp, h⟩ := h1
        simp only [reduceCtorEq, exists_false, false_iff]
        rintro ⟨-, -, -, -, h'⟩
        exact h (h' p hp).1
      rw [if_neg h1, if_neg (by simp)]
      simp only [List.any_map, List.any_eq_true, Function.comp_apply, decide_eq_true_eq, hint, not_exists, not_and, not_not] at h1
      by_cases h2 : ((f.syms.map Prod.fst).any fun s => decide (s.det = 0)) = true
      · rw [if_pos h2]
        simp only [List.any_map, List.any_eq_true, Function.comp_apply, decide_eq_true_eq] at h2
        obtain ⟨p, hp, h⟩ := h2
        simp only [reduceCtorEq, exists_false, false_iff]
        rintro ⟨-, -, -, -, h'⟩
        exact (h' p hp).2 h
      rw [if_neg h2]
      simp only [List.any_map, List.any_eq_true, Function.comp_apply, decide_eq_true_eq, not_exists, not_and] at h2
      by_cases h3 : (f.ks.any fun p => decide (∃ q ∈ f.ks, q.2.length ≠ p.2.length)) = true
      · rw [if_pos h3]
        simp only [List.any_eq_true, decide_eq_true_eq] at h3
        obtain ⟨p, hp, q, hq, h⟩ := h3
        simp only [reduceCtorEq, exists_false, false_iff]
        rintro ⟨-, -, h', -⟩
        exact h (h' p hp q hq)
      rw [if_neg h3]
      simp only [List.any_eq_true, decide_eq_true_eq, not_exists, not_and, not_not] at h3
      refine ⟨fun _ => ⟨hb, hk, h3, hs, fun p hp => ⟨h1 p hp, h2 p hp⟩⟩, fun _ => ⟨_, rfl⟩⟩
  · intro e h
    unfold readBandsCrystal at h
    simp only at h
    split_ifs at h <;> simp_all
  · by_cases hb : (Matrix.of f.b).det = 0
    · unfold readBandsCrystal Independent
      simp [hdet, hb]
    by_cases hk : f.ks = []
    · unfold readBandsCrystal Independent
      simp [hdet, hb, hk]
    by_cases hs : f.syms = []
    · rw [C103_no_symmetry_defect toA toEV ang f hb hk hs]
      exact ⟨fun _ => ⟨hb, hk, Or.inl hs⟩, fun _ => rfl⟩
    · unfold readBandsCrystal Independent
      simp only [hdet, if_neg hb, if_neg hk, if_neg hs]
      by_cases h1 : ((f.syms.map Prod.fst).any fun s => decide (∃ p : Fin 3 × Fin 3, ((⌊s p.1 p.2⌋ : ℤ) : K) ≠ s p.1 p.2)) = true
      · rw [if_pos h1]
        simp only [List.any_map, List.any_eq_true, Function.comp_apply, decide_eq_true_eq, hint] at h1
        exact ⟨fun _ => ⟨hb, hk, Or.inr h1⟩, fun _ => rfl⟩
      · rw [if_neg h1, if_neg (by simp)]
        simp only [List.any_map, List.any_eq_true, Function.comp_apply, decide_eq_true_eq, hint] at h1
        constructor
        · intro h
          split_ifs at h <;> cases h
        · rintro ⟨-, -, h | h⟩
          · exact absurd h hs
          · exact absurd h h1

theorem ite_error {α : Type} {c : Prop} [Decidable c] {e : Err} {x : Except Err α} {r : α} (h : (if c then .error e else x) = Except.ok r) :
    x = .ok r := by
  split_ifs at h
  exact h

theorem aff_dual {R : Mat K 3} (h : R.det ≠ 0) (t : Fin 3 → K) :
    (aff R t).transpose⁻¹ = coaff (R.transpose)⁻¹ (-(R⁻¹.mulVec t)) := by
  rw [← Matrix.transpose_nonsing_inv, aff_inv h, aff_transpose, Matrix.transpose_nonsing_inv]

theorem read_ok {toA toEV : K} {ang : Bool} {f : QEFile K} {r : QEData K} (h : readBandsCrystal toA toEV ang f = .ok r) :
    Independent f.b ∧ f.syms ≠ [] ∧ (∀ p ∈ f.syms, p.1.det ≠ 0) ∧
    r = { A := (if ang then toA else 1) • (Matrix.of f.a).transpose
          k := f.ks.map fun p => (minv (Matrix.of f.b).transpose).mulVec p.1
          bands := f.ks.map fun p => p.2.map (· * toEV)
          S := if (f.syms.map fun p => p.2.getD 0).all (fun t => decide (t = 0)) then .inl ((f.syms.map Prod.fst).map fun s => minv s.transpose)
            else .inr (((f.syms.map Prod.fst).zip (f.syms.map fun p => p.2.getD 0)).map fun p => minv (qeBlock p.1 p.2).transpose)
          fermi := f.fermi * toEV } := by
  obtain ⟨hb, hk, hl, hs, hp⟩ := (C103_returns_iff toA toEV ang f).1.1 ⟨r, h⟩
  refine ⟨hb, hs, fun p hm => (hp p hm).2, ?_⟩
  unfold readBandsCrystal at h
  simp only [if_neg hs] at h
  exact (Except.ok.inj (ite_error (ite_error (ite_error (ite_error (ite_error (ite_error h))))))).symm

/-- **C103** The returned k-points are the coordinates of the given ones with respect to the reciprocal vectors, in the order of the file; energies are
converted, and `self.A` has the lattice vectors as columns, converted for `unit="angstrom"`. -/
theorem C103_k_points (toA toEV : K) (ang : Bool) (f : QEFile K) (r : QEData K) (h : readBandsCrystal toA toEV ang f = .ok r) :
    List.Forall₂ (fun p k => (∀ i, p.1 i = ∑ j, k j * f.b j i) ∧ ∀ k', (∀ i, p.1 i = ∑ j, k' j * f.b j i) → k' = k) f.ks r.k ∧
    List.Forall₂ (fun p e => List.Forall₂ (fun x y => y = x * toEV) p.2 e) f.ks r.bands ∧ r.fermi = f.fermi * toEV ∧
    ∀ i j, r.A i j = (if ang then toA else 1) * f.a j i := by
  obtain ⟨hb, -, -, rfl⟩ := read_ok h
  refine ⟨?_, ?_, rfl, ?_⟩
  · rw [List.forall₂_map_right_iff, List.forall₂_same]
    intro p _
    have hu : IsUnit ((Matrix.of f.b).transpose).det := by rw [Matrix.det_transpose]; exact isUnit_iff_ne_zero.2 hb
    have hsum : ∀ (k' : Fin 3 → K), (∀ i, p.1 i = ∑ j, k' j * f.b j i) ↔ (Matrix.of f.b).transpose.mulVec k' = p.1 := by
      intro k'
      rw [funext_iff]
      refine forall_congr' fun i => ?_
      simp only [Matrix.mulVec, dotProduct, Matrix.transpose_apply, Matrix.of_apply]
      rw [eq_comm]
      simp only [mul_comm]
    refine ⟨?_, ?_⟩
    · rw [hsum, minv_eq, Matrix.mulVec_mulVec, Matrix.mul_nonsing_inv _ hu, Matrix.one_mulVec]
    · intro k' hk'
      rw [hsum] at hk'
      rw [← hk', minv_eq, Matrix.mulVec_mulVec, Matrix.nonsing_inv_mul _ hu, Matrix.one_mulVec]
  · rw [List.forall₂_map_right_iff, List.forall₂_same]
    intro p _
    rw [List.forall₂_map_right_iff, List.forall₂_same]
    intro x _
    rfl
  · intro i j
    simp

theorem dual_dot {n : ℕ} {s : Mat K n} (hs : s.det ≠ 0) (k x : Fin n → K) : dotProduct ((minv s.transpose).mulVec k) (s.mulVec x) = dotProduct k x := by
  have huT : IsUnit s.transpose.det := by rw [Matrix.det_transpose]; exact isUnit_iff_ne_zero.2 hs
  rw [Matrix.dotProduct_mulVec, ← Matrix.mulVec_transpose, Matrix.mulVec_mulVec, minv_eq, Matrix.mul_nonsing_inv _ huT, Matrix.one_mulVec]

/-- **C103** The returned operations, one per listed symmetry and in this order, are the ones of k-space: `(s k)·(R x) = k·x`; if some symmetry has a
translation all of them are 4×4 matrices dual to the affine maps, with the translation in the last row (not the last column). -/
theorem C103_symmetries (toA toEV : K) (ang : Bool) (f : QEFile K) (r : QEData K) (h : readBandsCrystal toA toEV ang f = .ok r) :
    ((∀ p ∈ f.syms, p.2.getD 0 = 0) → ∃ S, r.S = .inl S ∧
      List.Forall₂ (fun p s => ∀ k x : Fin 3 → K, dotProduct (s.mulVec k) (p.1.mulVec x) = dotProduct k x) f.syms S) ∧
    ((∃ p ∈ f.syms, p.2.getD 0 ≠ 0) → ∃ S, r.S = .inr S ∧
      List.Forall₂ (fun p s => (∃ v, s = coaff (d := 3) (p.1.transpose)⁻¹ v) ∧ ∀ k x : Fin 4 → K,
        dotProduct (s.mulVec k) ((aff (d := 3) p.1 (p.2.getD 0)).mulVec x) = dotProduct k x) f.syms S) := by
  obtain ⟨hb, -, hd, rfl⟩ := read_ok h
  constructor
  · intro h0
    have hall : ((f.syms.map fun p => p.2.getD 0).all fun t => decide (t = 0)) = true := by
      simpa [List.all_eq_true] using fun a b h => h0 (a, b) h
    refine ⟨(f.syms.map Prod.fst).map fun s => minv s.transpose, ?_, ?_⟩
    · simp only [if_pos hall]
    · rw [List.map_map, List.forall₂_map_right_iff, List.forall₂_same]
      intro p hp k x
      exact dual_dot (hd p hp) k x
  · rintro ⟨p0, hp0, h0⟩
    have hall : ¬ ((f.syms.map fun p => p.2.getD 0).all fun t => decide (t = 0)) = true := by
      intro h'
      rw [List.all_eq_true] at h'
      exact h0 (by simpa using h' _ (List.mem_map.2 ⟨p0, hp0, rfl⟩))
    refine ⟨((f.syms.map Prod.fst).zip (f.syms.map fun p => p.2.getD 0)).map fun p => minv (qeBlock p.1 p.2).transpose, ?_, ?_⟩
    · simp only [if_neg hall]
    · rw [List.zip_map', List.map_map, List.forall₂_map_right_iff, List.forall₂_same]
      intro p hp
      have hdet : (aff (d := 3) p.1 (p.2.getD 0)).det ≠ 0 := by rw [det_aff]; exact hd p hp
      constructor
      · simp only [Function.comp_apply]
        rw [qeBlock_eq, minv_eq]
        exact ⟨_, aff_dual (hd p hp) (p.2.getD 0)⟩
      · intro k x
        simp only [Function.comp_apply]
        rw [qeBlock_eq]
        exact dual_dot hdet k x

/-- **C103** `Symmetry.point_group` of the returned operations: it succeeds if the first listed symmetry is the identity without translation and all have
determinant ±1, and has exactly the operations of k-space of the listed rotations, whether or not some symmetry has a translation. -/
theorem C103_point_group (toA toEV : K) (ang : Bool) (f : QEFile K) (r : QEData K) (h : readBandsCrystal toA toEV ang f = .ok r)
    (h1 : (f.syms.map fun p => (p.1, p.2.getD 0)).head? = some (1, 0)) (hdet : ∀ p ∈ f.syms, |p.1.det| = 1) :
    ∃ σ : PSym K 3, (match r.S with
      | .inl S => pointGroup S 3
      | .inr S => pointGroup S 3) = .ok ⟨3, σ⟩ ∧ σ.projective = false ∧
      ∀ s, s ∈ σ.ops ↔ ∃ p ∈ f.syms, ∀ k x : Fin 3 → K, dotProduct (s.mulVec k) (p.1.mulVec x) = dotProduct k x := by
  have huniq : ∀ p ∈ f.syms, ∀ s : Mat K 3, (∀ k x : Fin 3 → K, dotProduct (s.mulVec k) (p.1.mulVec x) = dotProduct k x) ↔ s = (p.1.transpose)⁻¹ := by
    intro p hp s
    have hu : IsUnit p.1.transpose.det := by rw [Matrix.det_transpose]; exact isUnit_det_of_abs (hdet p hp)
    constructor
    · intro hs
      refine (Matrix.inv_eq_right_inv ?_).symm
      apply Matrix.ext_of_mulVec_single
      intro i
      funext j
      have := hs (Pi.single i 1) (Pi.single j 1)
      rw [Matrix.dotProduct_mulVec, ← Matrix.mulVec_transpose, Matrix.mulVec_mulVec, dotProduct_single, dotProduct_single, mul_one, mul_one] at this
      rw [this, Matrix.one_mulVec]
    · rintro rfl k x
      have := dual_dot (s := p.1) (isUnit_det_of_abs (hdet p hp)).ne_zero k x
      rwa [minv_eq] at this
  obtain ⟨-, hs, -, rfl⟩ := read_ok h
  obtain ⟨p0, rest, hp0⟩ := List.exists_cons_of_ne_nil hs
  have h10 : p0.1 = 1 ∧ p0.2.getD 0 = 0 := by
    rw [hp0] at h1
    simpa using h1
  by_cases hall : ((f.syms.map fun p => p.2.getD 0).all fun t => decide (t = 0)) = true
  · simp only [if_pos hall]
    have hh : ((f.syms.map Prod.fst).map fun s => minv s.transpose).head? = some 1 := by
      rw [hp0]; simp [h10.1, minv_eq]
    have hd : ∀ s ∈ (f.syms.map Prod.fst).map (fun s => minv s.transpose), |s.det| = 1 := by
      intro s hs'
      rw [List.map_map] at hs'
      obtain ⟨p, hp, rfl⟩ := List.mem_map.1 hs'
      rw [Function.comp_apply, minv_eq, Matrix.det_nonsing_inv, Ring.inverse_eq_inv', Matrix.det_transpose, abs_inv, hdet p hp, inv_one]
    obtain ⟨σ, hσ⟩ := ((C102_space_group (K := K) 3).2.1 _).2 ⟨hh, hd⟩
    obtain ⟨hops, hproj, -⟩ := (C102_space_group (K := K) 3).2.2.1 _ _ hσ
    refine ⟨σ, ?_, hproj, ?_⟩
    · rw [pointGroup, hσ]
      simp [PSym.ignoreTranslation, hproj]
    · intro s
      rw [hops, List.map_map, List.mem_map]
      constructor
      · rintro ⟨p, hp, rfl⟩
        exact ⟨p, hp, (huniq p hp _).2 (by rw [Function.comp_apply, minv_eq])⟩
      · rintro ⟨p, hp, h'⟩
        exact ⟨p, hp, by rw [(huniq p hp s).1 h', Function.comp_apply, minv_eq]⟩
  · simp only [if_neg hall]
    have hlist : ((f.syms.map Prod.fst).zip (f.syms.map fun p => p.2.getD 0)).map (fun p => minv (qeBlock p.1 p.2).transpose) =
        f.syms.map fun p => coaff (d := 3) (p.1.transpose)⁻¹ (-(p.1⁻¹.mulVec (p.2.getD 0))) := by
      rw [List.zip_map', List.map_map]
      refine List.map_congr_left fun p hp => ?_
      rw [Function.comp_apply, qeBlock_eq, minv_eq]
      exact aff_dual (isUnit_det_of_abs (hdet p hp)).ne_zero (p.2.getD 0)
    rw [hlist]
    have hco : ∀ s ∈ f.syms.map (fun p => coaff (d := 3) (p.1.transpose)⁻¹ (-(p.1⁻¹.mulVec (p.2.getD 0)))), ∃ R v, s = coaff (d := 3) R v := by
      intro s hs'
      obtain ⟨p, hp, rfl⟩ := List.mem_map.1 hs'
      exact ⟨_, _, rfl⟩
    have hd : ∀ s ∈ f.syms.map (fun p => coaff (d := 3) (p.1.transpose)⁻¹ (-(p.1⁻¹.mulVec (p.2.getD 0)))), |s.det| = 1 := by
      intro s hs'
      obtain ⟨p, hp, rfl⟩ := List.mem_map.1 hs'
      rw [det_coaff, Matrix.det_nonsing_inv, Ring.inverse_eq_inv', Matrix.det_transpose, abs_inv, hdet p hp, inv_one]
    have hh : (f.syms.map fun p => coaff (d := 3) (p.1.transpose)⁻¹ (-(p.1⁻¹.mulVec (p.2.getD 0)))).head? = some 1 := by
      rw [hp0]
      simp only [List.map_cons, List.head?_cons, h10.1, h10.2]
      rw [Matrix.mulVec_zero, neg_zero, Matrix.transpose_one, inv_one, coaff, Matrix.transpose_one, aff_one, Matrix.transpose_one]
    obtain ⟨σ, hσ, hproj, hops, -, -⟩ := C102_point_group (d := 3) _ hh (Or.inr hco) hd
    refine ⟨σ, hσ, hproj, ?_⟩
    intro s
    rw [hops]
    constructor
    · rintro ⟨x, hx, rfl⟩
      obtain ⟨p, hp, rfl⟩ := List.mem_map.1 hx
      exact ⟨p, hp, (huniq p hp _).2 (linear_coaff _ _)⟩
    · rintro ⟨p, hp, h'⟩
      exact ⟨_, List.mem_map.2 ⟨p, hp, rfl⟩, by rw [(huniq p hp s).1 h', linear_coaff]⟩

/-! ## Example -/

/-- A hexagonal file with a sixfold screw axis. -/
def screwFile : QEFile ℚ where
  a := ![![1, 0, 0], ![-1/2, 1, 0], ![0, 0, 2]]
  b := ![![1, 1/2, 0], ![0, 1, 0], ![0, 0, 1/2]]
  syms := [(1, none), (!![1, -1, 0; 1, 0, 0; 0, 0, 1], some ![0, 0, 1/2])]
  ks := [(![0, 0, 0], [1, 2]), (![1, 1, 1/2], [3, 4])]
  fermi := 1

example : ∃ r, readBandsCrystal 1 2 true screwFile = .ok r ∧ decide (r.k = [![0, 0, 0], ![1, 1/2, 1]] ∧ r.bands = [[2, 4], [6, 8]]) = true :=
  okAnd_iff.1 (by decide +kernel)

example : ∃ r, readBandsCrystal 1 2 true screwFile = .ok r ∧ (∃ p ∈ screwFile.syms, p.2.getD 0 ≠ 0) ∧
    (screwFile.syms.map fun p => (p.1, p.2.getD 0)).head? = some (1, 0) ∧ ∀ p ∈ screwFile.syms, |p.1.det| = 1 := by
  obtain ⟨r, h, -⟩ : ∃ r, readBandsCrystal 1 2 true screwFile = .ok r ∧ true = true := okAnd_iff.1 (by decide +kernel)
  exact ⟨r, h, by decide +kernel, by decide +kernel, by decide +kernel⟩

example : readBandsCrystal 1 2 true { screwFile with syms := [] } = .error .assertionError :=
  C103_no_symmetry_defect 1 2 true _ (by unfold Independent; decide +kernel) (by simp [screwFile]) rfl

end TB

import Verif.Props.HamiltonianSymmetry

/-!
# C92: examples and the defect of the inversion step
-/

namespace TB.HS

open Spec Matrix TB.UR

/-- Entry `(i, j)` of the block `(a, b)` (zero outside). -/
def ent {K F : Type} [Field F] {d m : ℕ} {o : Fin m → Orb K F d} (M : BMat o) (a b i j : ℕ) : F :=
  if ha : a < m then if hb : b < m then
    if h : i < (o ⟨a, ha⟩).N ∧ j < (o ⟨b, hb⟩).N then M ⟨a, ha⟩ ⟨b, hb⟩ ⟨i, h.1⟩ ⟨j, h.2⟩ else 0 else 0 else 0

/-- Two fold rotation with inversion; an even orbital at the origin, an odd one (which changes sign under the rotation) at
`(1/2, 0, 0)`. -/
def exH : HSym ℚ ℚ 3 :=
  ⟨⟨[1, rz2], true⟩, [⟨1, ⟨⟨[1, rz2], true⟩, [1, 1], 1⟩, ![0, 0, 0], "s"⟩, ⟨1, ⟨⟨[1, rz2], true⟩, [1, -1], 0⟩, ![1 / 2, 0, 0], "p"⟩]⟩

theorem rep1_isRep (x : Mat ℚ 1) (hx : x = 1 ∨ x = -1) (k : ℕ) (hk : k ≤ 1) :
    IsRep (⟨⟨[1, rz2], true⟩, [1, x], k⟩ : Rep ℚ ℚ 3 1) ∧ IsUnitary (⟨⟨[1, rz2], true⟩, [1, x], k⟩ : Rep ℚ ℚ 3 1) := by
  refine ⟨⟨rfl, show [1, rz2].Nodup by decide +kernel, by simp, ?_, ?_, hk⟩, ?_⟩
  · have h : rz2 * rz2 = 1 := by decide +kernel
    have hxx : x * x = 1 := by rcases hx with rfl | rfl <;> decide +kernel
    intro p hp q hq
    simp only [List.zip_cons_cons, List.zip_nil_right, List.mem_cons, List.not_mem_nil, or_false] at hp hq ⊢
    rcases hp with rfl | rfl <;> rcases hq with rfl | rfl <;> simp [h, hxx]
  · intro _ u _ a b hab
    exact absurd (by rw [Subsingleton.elim a b]) hab
  · intro u hu
    simp only [List.mem_cons, List.not_mem_nil, or_false] at hu
    rcases hu with rfl | rfl
    · simp
    · rcases hx with rfl | rfl <;> decide +kernel

theorem exH_valid : Valid exH := by
  refine ⟨⟨[1, rz2], true, by decide +kernel⟩, ?_⟩
  intro o ho
  simp only [exH, List.mem_cons, List.not_mem_nil, or_false] at ho
  rcases ho with rfl | rfl
  · exact ⟨(rep1_isRep 1 (Or.inl rfl) 1 le_rfl).1, (rep1_isRep 1 (Or.inl rfl) 1 le_rfl).2, rfl, Or.inr rfl⟩
  · exact ⟨(rep1_isRep (-1) (Or.inr rfl) 0 (by omega)).1, (rep1_isRep (-1) (Or.inr rfl) 0 (by omega)).2, rfl, Or.inl rfl⟩

/-- Matrices with all entries equal. -/
def constH (h : HSym ℚ ℚ 3) (l : List ℚ) : List (BMat h.orbs.get) := l.map fun x _ _ => Matrix.of fun _ _ => x

def exNs : List (Fin 3 → ℚ) := [![0, 0, 0], ![1, 0, 0]]

theorem exNs_half : HalfList exNs := ⟨by decide +kernel, by
  have : (exNs.all fun r => !(exNs.contains (-r)) || decide (r = 0)) = true := by decide +kernel
  intro r hr hr'
  have := List.all_eq_true.1 this r hr
  simpa [List.contains_iff_mem, hr'] using this⟩

/-- `InvClosed` can be checked on the positions of the list. -/
theorem invClosed_of_list {h : HSym ℚ ℚ 3} {ns : List (Fin 3 → ℚ)} (h1 : 1 ∈ h.sym.S)
    (hb : ((List.finRange h.orbs.length).all fun a => (List.finRange h.orbs.length).all fun b =>
      (ns ++ ns.map fun r => -r).all fun x => !(h.sym.S.all fun s => decide (Found ns (moved h.orbs.get s a b x))) ||
        h.sym.S.all fun s => decide (Found ns (moved h.orbs.get (-s) a b x))) = true) : InvClosed h ns := by
  intro a b x hx s hs
  have hx0 : Found ns x := by have := hx 1 h1; rwa [moved_one] at this
  have hm : x ∈ ns ++ ns.map fun r => -r := List.mem_toFinset.1 (mem_positions.2 hx0)
  have h2 := List.all_eq_true.1 (List.all_eq_true.1 (List.all_eq_true.1 hb a (List.mem_finRange a)) b (List.mem_finRange b)) x hm
  have h3 : (h.sym.S.all fun s => decide (Found ns (moved h.orbs.get s a b x))) = true :=
    List.all_eq_true.2 fun s hs => decide_eq_true (hx s hs)
  rw [h3, Bool.not_true, Bool.false_or] at h2
  exact of_decide_eq_true (List.all_eq_true.1 h2 s hs)

theorem exH_closed : InvClosed exH exNs := invClosed_of_list (by decide +kernel) (by decide +kernel)

/-- The entries of two by two matrices. -/
def ents {h : HSym ℚ ℚ 3} (R : List (BMat h.orbs.get)) : List (List ℚ) :=
  R.map fun M => [ent M 0 0 0 0, ent M 0 1 0 0, ent M 1 0 0 0, ent M 1 1 0 0]

theorem exH_symmetrize : ∃ R, exH.symmetrize (constH exH [1, 3]) exNs = .ok R ∧
    ents R = [[1, -1, -1, 1], [3, 0, 1, 3]] := by
  obtain ⟨R, h1, h2⟩ := okAnd_iff.1 (show okAnd (exH.symmetrize (constH exH [1, 3]) exNs) (fun R => decide
    (ents R = [[1, -1, -1, 1], [3, 0, 1, 3]])) = true by decide +kernel)
  exact ⟨R, h1, of_decide_eq_true h2⟩

/-- The hypotheses of the theorems C92 are met by a case with a nontrivial result. -/
example : ∃ R, exH.symmetrize (constH exH [1, 3]) exNs = .ok R ∧ ents R = [[1, -1, -1, 1], [3, 0, 1, 3]] ∧
    Spec.Covariant exH exNs R ∧ HermitianCoeff exNs R ∧ InvCovariant exH exNs R ∧ exH.symmetrize R exNs = .ok R := by
  obtain ⟨R, h1, h2⟩ := exH_symmetrize
  exact ⟨R, h1, h2, C92_covariant exH exH_valid exNs exNs_half _ R h1, C92_hermitian exH exH_valid exNs exNs_half _ R h1,
    C92_inversion exH exH_valid rfl exNs exNs_half exH_closed _ R h1,
    C92_idempotent exH exH_valid exNs exNs_half (fun _ => exH_closed) _ R h1⟩

/-- Orthogonality with the symmetric list of the previous example. -/
example : ∃ R R', exH.symmetrize (constH exH [1, 3]) exNs = .ok R ∧ exH.symmetrize (constH exH [1, 1]) exNs = .ok R' ∧
    ∀ a b, ∑ x ∈ positions exNs, (coeff exNs R' x a b * (coeff exNs R x a b).conjTranspose).trace =
      ∑ x ∈ positions exNs, (coeff exNs (constH exH [1, 1]) x a b * (coeff exNs R x a b).conjTranspose).trace := by
  obtain ⟨R, h1, h2⟩ := exH_symmetrize
  obtain ⟨R', h3, -⟩ := (C92_returns exH (constH exH [1, 1]) exNs).1 ⟨rfl, by decide⟩
  refine ⟨R, R', h1, h3, fun a b => C92_orthogonal exH exH_valid exNs exNs_half _ R' R h3 ?_ (C92_covariant exH exH_valid exNs exNs_half _ R h1)
    (fun _ => C92_inversion exH exH_valid rfl exNs exNs_half exH_closed _ R h1) _ _⟩
  refine coeff_neg exNs_half _ fun _ a b => ?_
  have : exNs.idxOf 0 = 0 := by decide +kernel
  rw [this]
  ext i j
  simp [constH]

/-! ### The defect -/

/-- Two fold rotation with inversion; two even orbitals, the second at `(1/2, 0, 1/2)`. -/
def exD : HSym ℚ ℚ 3 :=
  ⟨⟨[1, rz2], true⟩, [⟨1, ⟨⟨[1, rz2], true⟩, [1, 1], 1⟩, ![0, 0, 0], "A"⟩, ⟨1, ⟨⟨[1, rz2], true⟩, [1, 1], 1⟩, ![1 / 2, 0, 1 / 2], "B"⟩]⟩

theorem exD_valid : Valid exD := by
  refine ⟨⟨[1, rz2], true, by decide +kernel⟩, ?_⟩
  intro o ho
  simp only [exD, List.mem_cons, List.not_mem_nil, or_false] at ho
  rcases ho with rfl | rfl
  · exact ⟨(rep1_isRep 1 (Or.inl rfl) 1 le_rfl).1, (rep1_isRep 1 (Or.inl rfl) 1 le_rfl).2, rfl, Or.inr rfl⟩
  · exact ⟨(rep1_isRep 1 (Or.inl rfl) 1 le_rfl).1, (rep1_isRep 1 (Or.inl rfl) 1 le_rfl).2, rfl, Or.inr rfl⟩

/-- A list that is closed (up to sign) under all operations. -/
def exDns : List (Fin 3 → ℚ) := [![0, 0, 0], ![1, 0, 1], ![1, 0, -1], ![1, 0, 0]]

theorem exDns_half : HalfList exDns := ⟨by decide +kernel, by
  have : (exDns.all fun r => !(exDns.contains (-r)) || decide (r = 0)) = true := by decide +kernel
  intro r hr hr'
  have := List.all_eq_true.1 this r hr
  simpa [List.contains_iff_mem, hr'] using this⟩

theorem exD_symmetrize : ∃ R R2, exD.symmetrize (constH exD [1, 1, 1, 1]) exDns = .ok R ∧ exD.symmetrize R exDns = .ok R2 ∧
    ents R = [[1, 1 / 2, 1 / 2, 1], [1, 0, 0, 1], [1, 0, 0, 1], [1, 0, 1 / 2, 1]] ∧
    ents R2 = [[1, 1 / 8, 1 / 8, 1], [1, 0, 0, 1], [1, 0, 0, 1], [1, 0, 1 / 8, 1]] ∧
    ent (coeff exDns R ![0, 0, 0]) 0 1 0 0 = 1 / 2 ∧ ent (coeff exDns R ![-1, 0, -1]) 0 1 0 0 = 0 := by
  obtain ⟨R, h1, h2⟩ := okAnd_iff.1 (show okAnd (exD.symmetrize (constH exD [1, 1, 1, 1]) exDns) (fun R =>
    okAnd (exD.symmetrize R exDns) fun R2 => decide
    (ents R = [[1, 1 / 2, 1 / 2, 1], [1, 0, 0, 1], [1, 0, 0, 1], [1, 0, 1 / 2, 1]] ∧
    ents R2 = [[1, 1 / 8, 1 / 8, 1], [1, 0, 0, 1], [1, 0, 0, 1], [1, 0, 1 / 8, 1]] ∧
    ent (coeff exDns R ![0, 0, 0]) 0 1 0 0 = 1 / 2 ∧ ent (coeff exDns R ![-1, 0, -1]) 0 1 0 0 = 0)) = true by decide +kernel)
  obtain ⟨R2, h3, h4⟩ := okAnd_iff.1 h2
  exact ⟨R, R2, h1, h3, of_decide_eq_true h4⟩

/-- **C92** (disagreement with the description "orthogonal projection onto the space in which the symmetry operation … holds")
For a list of positions that is closed under all operations, but not under the operations about the middle between two orbitals, the result
does not have the inversion symmetry, and symmetrising again changes it again. -/
theorem C92_defect_inversion : ∃ (h : HSym ℚ ℚ 3) (ns : List (Fin 3 → ℚ)) (H R R2 : List (BMat h.orbs.get)),
    Valid h ∧ h.sym.inversion = true ∧ HalfList ns ∧ (∀ r ∈ ns, ∀ s ∈ h.sym.S, s.mulVec r ∈ ns ∨ -s.mulVec r ∈ ns) ∧
    h.symmetrize H ns = .ok R ∧ ¬ InvCovariant h ns R ∧ h.symmetrize R ns = .ok R2 ∧ R2 ≠ R := by
  obtain ⟨R, R2, h1, h2, h3, h4, h5, h6⟩ := exD_symmetrize
  refine ⟨exD, exDns, _, R, R2, exD_valid, rfl, exDns_half, ?_, h1, ?_, h2, ?_⟩
  · have : (exDns.all fun r => exD.sym.S.all fun s => decide (s.mulVec r ∈ exDns ∨ -s.mulVec r ∈ exDns)) = true := by
      decide +kernel
    intro r hr s hs
    exact of_decide_eq_true (List.all_eq_true.1 (List.all_eq_true.1 this r hr) s hs)
  · intro hc
    have h7 := hc ⟨0, by decide⟩ ⟨1, by decide⟩ ![0, 0, 0]
    have h8 : moved exD.orbs.get (-1) ⟨0, by decide⟩ ⟨1, by decide⟩ ![0, 0, 0] = ![-1, 0, -1] := by decide +kernel
    rw [h8] at h7
    have h9 := congrFun (congrFun h7 ⟨0, by decide⟩) ⟨0, by decide⟩
    have e1 : coeff exDns R ![-1, 0, -1] ⟨0, by decide⟩ ⟨1, by decide⟩ ⟨0, by decide⟩ ⟨0, by decide⟩ =
      ent (coeff exDns R ![-1, 0, -1]) 0 1 0 0 := rfl
    have e2 : coeff exDns R ![0, 0, 0] ⟨0, by decide⟩ ⟨1, by decide⟩ ⟨0, by decide⟩ ⟨0, by decide⟩ =
      ent (coeff exDns R ![0, 0, 0]) 0 1 0 0 := rfl
    rw [Matrix.smul_apply, e1, e2, h5, h6] at h9
    revert h9
    decide +kernel
  · intro e
    rw [e, h3] at h4
    revert h4
    decide +kernel

end TB.HS

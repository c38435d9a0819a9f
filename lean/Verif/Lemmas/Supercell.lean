import Mathlib.LinearAlgebra.FreeModule.Finite.CardQuotient
import Mathlib.LinearAlgebra.Matrix.ToLin
import Mathlib.LinearAlgebra.Matrix.Basis
import Mathlib.Tactic.Ring
import Mathlib.Tactic.Linarith
import Mathlib.Tactic.FieldSimp
import Verif.Model.Supercell

/-! # Lemmas about the cell of a supercell: bounding box, representatives of `ℤᵈ / Λ ℤᵈ`, their number -/

set_option linter.unusedSectionVars false

namespace TB.SC
open Matrix

variable {d : ℕ}

/-! ## `meshBox` -/

theorem mem_arangeInt {lo hi x : ℤ} : x ∈ arangeInt lo hi ↔ lo ≤ x ∧ x < hi := by
  simp only [arangeInt, List.mem_map, List.mem_range]
  constructor
  · rintro ⟨j, hj, rfl⟩; omega
  · rintro ⟨h1, h2⟩; exact ⟨(x - lo).toNat, by omega, by omega⟩

theorem nodup_arangeInt (lo hi : ℤ) : (arangeInt lo hi).Nodup :=
  List.Nodup.map (fun a b h => by simpa using h) List.nodup_range

/-- One round of `meshBox`. -/
def meshStep (lo hi : Fin d → ℤ) (l : List (Fin d → ℤ)) (a : Fin d) : List (Fin d → ℤ) :=
  l.flatMap fun v => (arangeInt (lo a) (hi a)).map fun x => Function.update v a x

theorem mem_meshStep {lo hi : Fin d → ℤ} {l : List (Fin d → ℤ)} {a : Fin d} {x : Fin d → ℤ} :
    x ∈ meshStep lo hi l a ↔ ∃ v ∈ l, (lo a ≤ x a ∧ x a < hi a) ∧ ∀ b, b ≠ a → x b = v b := by
  simp only [meshStep, List.mem_flatMap, List.mem_map, mem_arangeInt]
  constructor
  · rintro ⟨v, hv, y, hy, rfl⟩
    exact ⟨v, hv, by simpa using hy, fun b hb => by simp [hb]⟩
  · rintro ⟨v, hv, hy, h⟩
    refine ⟨v, hv, x a, hy, ?_⟩
    funext b
    by_cases hb : b = a
    · subst hb; simp
    · simp [hb, h b hb]

theorem mem_meshFold {lo hi : Fin d → ℤ} (axes : List (Fin d)) (hn : axes.Nodup) (l : List (Fin d → ℤ)) (x : Fin d → ℤ) :
    x ∈ axes.foldl (meshStep lo hi) l ↔
      ∃ v ∈ l, (∀ a ∈ axes, lo a ≤ x a ∧ x a < hi a) ∧ ∀ b, b ∉ axes → x b = v b := by
  induction axes generalizing l with
  | nil =>
    simp only [List.foldl_nil, List.not_mem_nil, false_imp_iff, implies_true, not_false_eq_true, true_imp_iff, true_and]
    constructor
    · intro h; exact ⟨x, h, fun _ => rfl⟩
    · rintro ⟨v, hv, h⟩; rwa [funext h]
  | cons a axes ih =>
    have ha := (List.nodup_cons.1 hn).1
    rw [List.foldl_cons, ih (List.nodup_cons.1 hn).2]
    constructor
    · rintro ⟨u, hu, h1, h2⟩
      obtain ⟨v, hv, h3, h4⟩ := mem_meshStep.1 hu
      refine ⟨v, hv, ?_, ?_⟩
      · intro b hb
        rcases List.mem_cons.1 hb with rfl | hb
        · rw [h2 _ ha]; exact h3
        · exact h1 b hb
      · intro b hb
        rw [h2 b (fun h => hb (List.mem_cons_of_mem _ h)), h4 b (fun h => hb (h ▸ List.mem_cons_self))]
    · rintro ⟨v, hv, h1, h2⟩
      refine ⟨Function.update v a (x a), mem_meshStep.2 ⟨v, hv, ?_, fun b hb => by simp [hb]⟩,
        fun b hb => h1 b (List.mem_cons_of_mem _ hb), ?_⟩
      · simpa using h1 a List.mem_cons_self
      · intro b hb
        by_cases hba : b = a
        · subst hba; simp
        · rw [Function.update_of_ne hba, h2 b (by simp [hba, hb])]

theorem pairwise_meshFold {lo hi : Fin d → ℤ} (axes : List (Fin d)) (hn : axes.Nodup) (l : List (Fin d → ℤ))
    (hl : l.Pairwise fun v w => ∃ b, b ∉ axes ∧ v b ≠ w b) : (axes.foldl (meshStep lo hi) l).Nodup := by
  induction axes generalizing l with
  | nil =>
    simp only [List.foldl_nil]
    refine hl.imp ?_
    rintro v w ⟨b, -, hb⟩ rfl
    exact hb rfl
  | cons a axes ih =>
    have ha := (List.nodup_cons.1 hn).1
    rw [List.foldl_cons]
    refine ih (List.nodup_cons.1 hn).2 _ ?_
    rw [meshStep, List.pairwise_flatMap]
    constructor
    · intro v _
      rw [List.pairwise_map]
      refine (nodup_arangeInt _ _).imp ?_
      intro x y hxy
      exact ⟨a, ha, by simpa using hxy⟩
    · refine hl.imp ?_
      rintro v w ⟨b, hb, hvw⟩ x hx y hy
      obtain ⟨x', -, rfl⟩ := List.mem_map.1 hx
      obtain ⟨y', -, rfl⟩ := List.mem_map.1 hy
      have hba : b ≠ a := fun h => hb (h ▸ List.mem_cons_self)
      exact ⟨b, fun h => hb (List.mem_cons_of_mem _ h), by simpa [hba] using hvw⟩

theorem meshAxes_perm (d : ℕ) : (meshAxes d).Perm (List.finRange d) := by
  unfold meshAxes
  split
  · next h => rw [h]; exact List.Perm.swap _ _ _
  · rfl

theorem meshAxes_nodup (d : ℕ) : (meshAxes d).Nodup := (meshAxes_perm d).nodup_iff.2 (List.nodup_finRange d)

theorem mem_meshAxes (a : Fin d) : a ∈ meshAxes d := (meshAxes_perm d).mem_iff.2 (List.mem_finRange a)

/-- `meshBox` lists exactly the integer points of the half open box. -/
theorem mem_meshBox {lo hi x : Fin d → ℤ} : x ∈ meshBox lo hi ↔ ∀ a, lo a ≤ x a ∧ x a < hi a := by
  have := mem_meshFold (lo := lo) (hi := hi) (meshAxes d) (meshAxes_nodup d) [0] x
  rw [show meshBox lo hi = (meshAxes d).foldl (meshStep lo hi) [0] from rfl, this]
  simp [mem_meshAxes]

theorem meshBox_nodup (lo hi : Fin d → ℤ) : (meshBox lo hi).Nodup :=
  pairwise_meshFold (meshAxes d) (meshAxes_nodup d) [0] (by simp)

/-! ## `cellFrac` -/

/-- `p` solves `Λ p = x`. -/
theorem mul_cellFrac {Λ : Matrix (Fin d) (Fin d) ℤ} (h : Λ.det ≠ 0) (x : Fin d → ℤ) (i : Fin d) :
    ∑ j, (Λ i j : ℚ) * cellFrac Λ x j = x i := by
  have h0 : (Λ.det : ℚ) ≠ 0 := by exact_mod_cast h
  have : (Λ * Λ.adjugate) *ᵥ x = Λ.det • x := by rw [Matrix.mul_adjugate, Matrix.smul_mulVec, Matrix.one_mulVec]
  have hi := congrFun this i
  rw [← Matrix.mulVec_mulVec] at hi
  simp only [Matrix.mulVec, dotProduct, Pi.smul_apply, smul_eq_mul] at hi
  simp only [cellFrac]
  rw [← mul_right_cancel_iff_of_pos (show (0 : ℚ) < (Λ.det : ℚ) ^ 2 by positivity), Finset.sum_mul]
  have hq : ∑ j, (Λ i j : ℚ) * ((Λ.adjugate *ᵥ x) j : ℚ) = Λ.det * x i := by
    rw [← Int.cast_mul, ← hi]
    push_cast
    simp only [Matrix.mulVec, dotProduct]
    push_cast
    rfl
  calc _ = (∑ j, (Λ i j : ℚ) * ((Λ.adjugate *ᵥ x) j : ℚ)) * Λ.det := by
        rw [Finset.sum_mul]
        refine Finset.sum_congr rfl fun j _ => ?_
        field_simp
    _ = _ := by rw [hq]; ring

theorem cellFrac_mul {Λ : Matrix (Fin d) (Fin d) ℤ} (h : Λ.det ≠ 0) (w : Fin d → ℤ) (i : Fin d) :
    cellFrac Λ (Λ *ᵥ w) i = w i := by
  have h0 : (Λ.det : ℚ) ≠ 0 := by exact_mod_cast h
  rw [cellFrac, Matrix.mulVec_mulVec, Matrix.adjugate_mul, Matrix.smul_mulVec, Matrix.one_mulVec]
  simp only [Pi.smul_apply, smul_eq_mul]
  rw [Int.cast_mul]
  field_simp

theorem cellFrac_add (Λ : Matrix (Fin d) (Fin d) ℤ) (x y : Fin d → ℤ) (i : Fin d) :
    cellFrac Λ (x + y) i = cellFrac Λ x i + cellFrac Λ y i := by
  simp only [cellFrac, Matrix.mulVec_add, Pi.add_apply]
  push_cast
  ring

theorem cellFrac_sub (Λ : Matrix (Fin d) (Fin d) ℤ) (x y : Fin d → ℤ) (i : Fin d) :
    cellFrac Λ (x - y) i = cellFrac Λ x i - cellFrac Λ y i := by
  simp only [cellFrac, Matrix.mulVec_sub, Pi.sub_apply]
  push_cast
  ring

/-- The half open cell. -/
def InCell (Λ : Matrix (Fin d) (Fin d) ℤ) (x : Fin d → ℤ) : Prop := ∀ i, 0 ≤ cellFrac Λ x i ∧ cellFrac Λ x i < 1

/-- Every row has a positive entry. -/
def RowsPositive (Λ : Matrix (Fin d) (Fin d) ℤ) : Prop := ∀ i, ∃ j, 0 < Λ i j

theorem cellLo_le {Λ : Matrix (Fin d) (Fin d) ℤ} (h : Λ.det ≠ 0) {x : Fin d → ℤ} (hx : InCell Λ x) (i : Fin d) :
    cellLo Λ i ≤ x i := by
  refine (Finset.inf'_le _ (Finset.mem_univ fun j => decide (Λ i j < 0))).trans ?_
  have : ((cellCorner Λ (fun j => decide (Λ i j < 0)) i : ℤ) : ℚ) ≤ (x i : ℚ) := by
    rw [← mul_cellFrac h x i]
    simp only [cellCorner, Matrix.mulVec, dotProduct]
    push_cast
    refine Finset.sum_le_sum fun j _ => ?_
    have hj := hx j
    by_cases hneg : Λ i j < 0
    · have : ((Λ i j : ℤ) : ℚ) < 0 := by exact_mod_cast hneg
      simp only [hneg, decide_true, if_true]
      nlinarith [hj.1, hj.2]
    · have : (0 : ℚ) ≤ ((Λ i j : ℤ) : ℚ) := by exact_mod_cast not_lt.1 hneg
      simp only [hneg, decide_false]
      simpa using mul_nonneg this hj.1
  exact_mod_cast this

theorem lt_cellHi {Λ : Matrix (Fin d) (Fin d) ℤ} (h : Λ.det ≠ 0) {x : Fin d → ℤ} (hx : InCell Λ x) {i : Fin d}
    (hi : ∃ j, 0 < Λ i j) : x i < cellHi Λ i := by
  refine lt_of_lt_of_le ?_ (Finset.le_sup' _ (Finset.mem_univ fun j => decide (0 < Λ i j)))
  have : (x i : ℚ) < ((cellCorner Λ (fun j => decide (0 < Λ i j)) i : ℤ) : ℚ) := by
    rw [← mul_cellFrac h x i]
    simp only [cellCorner, Matrix.mulVec, dotProduct]
    push_cast
    have hle : ∀ j, (Λ i j : ℚ) * cellFrac Λ x j ≤ (Λ i j : ℚ) * (if decide (0 < Λ i j) = true then 1 else 0) := by
      intro j
      have hj := hx j
      by_cases hpos : 0 < Λ i j
      · have : (0 : ℚ) < ((Λ i j : ℤ) : ℚ) := by exact_mod_cast hpos
        simp only [hpos, decide_true, if_true]
        nlinarith [hj.1, hj.2]
      · have : ((Λ i j : ℤ) : ℚ) ≤ 0 := by exact_mod_cast not_lt.1 hpos
        simp only [hpos, decide_false]
        simpa using mul_nonpos_of_nonpos_of_nonneg this hj.1
    obtain ⟨j, hj⟩ := hi
    refine Finset.sum_lt_sum (fun j _ => hle j) ⟨j, Finset.mem_univ j, ?_⟩
    have : (0 : ℚ) < ((Λ i j : ℤ) : ℚ) := by exact_mod_cast hj
    simp only [hj, decide_true, if_true]
    nlinarith [(hx j).2]
  exact_mod_cast this

theorem cellHi_nonpos {Λ : Matrix (Fin d) (Fin d) ℤ} {i : Fin d} (hi : ∀ j, Λ i j ≤ 0) : cellHi Λ i ≤ 0 := by
  refine Finset.sup'_le _ _ fun c _ => ?_
  simp only [cellCorner, Matrix.mulVec, dotProduct]
  refine Finset.sum_nonpos fun j _ => ?_
  split_ifs
  · simpa using hi j
  · simp

/-! ## `cellPoints` -/

theorem cellPoints_nodup (Λ : Matrix (Fin d) (Fin d) ℤ) : (cellPoints Λ).Nodup := (meshBox_nodup _ _).filter _

theorem inCell_of_mem {Λ : Matrix (Fin d) (Fin d) ℤ} {x : Fin d → ℤ} (h : x ∈ cellPoints Λ) : InCell Λ x := by
  simp only [cellPoints, List.mem_filter, decide_eq_true_eq] at h
  exact h.2

/-- If every row has a positive entry, `cellPoints` lists exactly the points of the half open cell. -/
theorem mem_cellPoints {Λ : Matrix (Fin d) (Fin d) ℤ} (h : Λ.det ≠ 0) (hr : RowsPositive Λ) {x : Fin d → ℤ} :
    x ∈ cellPoints Λ ↔ InCell Λ x := by
  refine ⟨inCell_of_mem, fun hx => ?_⟩
  simp only [cellPoints, List.mem_filter, decide_eq_true_eq]
  exact ⟨mem_meshBox.2 fun a => ⟨cellLo_le h hx a, lt_cellHi h hx (hr a)⟩, hx⟩

/-- A row without positive entry: the origin is not listed. -/
theorem zero_not_mem_cellPoints {Λ : Matrix (Fin d) (Fin d) ℤ} (hr : ¬ RowsPositive Λ) : (0 : Fin d → ℤ) ∉ cellPoints Λ := by
  unfold RowsPositive at hr
  push Not at hr
  obtain ⟨i, hi⟩ := hr
  intro h
  simp only [cellPoints, List.mem_filter] at h
  have := (mem_meshBox.1 h.1 i).2
  have h2 := cellHi_nonpos hi
  simp only [Pi.zero_apply] at this
  omega

/-- Two points of the cell that differ by a vector of the superlattice are equal. -/
theorem inCell_unique {Λ : Matrix (Fin d) (Fin d) ℤ} (h : Λ.det ≠ 0) {x y w : Fin d → ℤ} (hx : InCell Λ x) (hy : InCell Λ y)
    (hw : x - y = Λ *ᵥ w) : w = 0 ∧ x = y := by
  have : w = 0 := by
    funext i
    have h1 := cellFrac_sub Λ x y i
    rw [hw, cellFrac_mul h] at h1
    have hxi := hx i
    have hyi := hy i
    have h2 : (w i : ℚ) < 1 := by linarith [hxi.2, hyi.1]
    have h3 : (-1 : ℚ) < w i := by linarith [hxi.1, hyi.2]
    have h4 : w i < 1 := by exact_mod_cast h2
    have h5 : -1 < w i := by exact_mod_cast h3
    simp only [Pi.zero_apply]
    omega
  refine ⟨this, ?_⟩
  rw [this, Matrix.mulVec_zero, sub_eq_zero] at hw
  exact hw

/-- Every lattice point is a point of the cell plus a vector of the superlattice. -/
theorem exists_inCell {Λ : Matrix (Fin d) (Fin d) ℤ} (h : Λ.det ≠ 0) (z : Fin d → ℤ) :
    ∃ w, InCell Λ (z - Λ *ᵥ w) := by
  refine ⟨fun i => ⌊cellFrac Λ z i⌋, fun i => ?_⟩
  rw [cellFrac_sub, cellFrac_mul h]
  exact ⟨Int.fract_nonneg _, Int.fract_lt_one _⟩

/-! ## The number of points -/

/-- The superlattice `Λ ℤᵈ`. -/
def superlattice (Λ : Matrix (Fin d) (Fin d) ℤ) : AddSubgroup (Fin d → ℤ) := (LinearMap.range Λ.mulVecLin).toAddSubgroup

theorem mem_superlattice {Λ : Matrix (Fin d) (Fin d) ℤ} {z : Fin d → ℤ} : z ∈ superlattice Λ ↔ ∃ w, Λ *ᵥ w = z := by
  simp [superlattice]

theorem mulVec_injective {Λ : Matrix (Fin d) (Fin d) ℤ} (h : Λ.det ≠ 0) : Function.Injective (Λ *ᵥ · : (Fin d → ℤ) → _) := by
  intro v w hvw
  funext i
  have hvw' : Λ *ᵥ v = Λ *ᵥ w := hvw
  have := cellFrac_mul h v i
  rw [hvw', cellFrac_mul h w i] at this
  exact_mod_cast this.symm

theorem superlattice_index {Λ : Matrix (Fin d) (Fin d) ℤ} (h : Λ.det ≠ 0) : (superlattice Λ).index = Λ.det.natAbs := by
  have hinj : Function.Injective Λ.mulVecLin := mulVec_injective h
  let e := LinearEquiv.ofInjective Λ.mulVecLin hinj
  have := Submodule.natAbs_det_equiv (LinearMap.range Λ.mulVecLin) e
  have hcomp : (LinearMap.range Λ.mulVecLin).subtype ∘ₗ
      AddMonoidHom.toIntLinearMap (e : (Fin d → ℤ) →+ LinearMap.range Λ.mulVecLin) = Λ.mulVecLin := by
    ext; simp [e]
  rw [hcomp] at this
  have hd : LinearMap.det Λ.mulVecLin = Λ.det := by
    rw [← Matrix.toLin'_apply', LinearMap.det_toLin']
  rw [hd] at this
  rw [this]
  rfl

/-- The points of the cell are pairwise different modulo the superlattice. -/
theorem quotient_injOn {Λ : Matrix (Fin d) (Fin d) ℤ} (h : Λ.det ≠ 0) {x y : Fin d → ℤ} (hx : InCell Λ x) (hy : InCell Λ y)
    (hxy : (QuotientAddGroup.mk x : (Fin d → ℤ) ⧸ superlattice Λ) = QuotientAddGroup.mk y) : x = y := by
  rw [eq_comm, QuotientAddGroup.eq, mem_superlattice] at hxy
  obtain ⟨w, hw⟩ := hxy
  exact (inCell_unique h hx hy (by rw [hw]; abel)).2

theorem finite_quotient {Λ : Matrix (Fin d) (Fin d) ℤ} (h : Λ.det ≠ 0) : Finite ((Fin d → ℤ) ⧸ superlattice Λ) := by
  have : (superlattice Λ).index ≠ 0 := by rw [superlattice_index h]; simpa using h
  have hf : (superlattice Λ).FiniteIndex := ⟨this⟩
  exact AddSubgroup.finite_quotient_of_finiteIndex

/-- The images of the listed points in the quotient. -/
theorem length_eq_card {Λ : Matrix (Fin d) (Fin d) ℤ} (h : Λ.det ≠ 0) :
    (cellPoints Λ).length = ({q | ∃ x ∈ cellPoints Λ, (QuotientAddGroup.mk x : (Fin d → ℤ) ⧸ superlattice Λ) = q}).ncard := by
  classical
  have : {q | ∃ x ∈ cellPoints Λ, (QuotientAddGroup.mk x : (Fin d → ℤ) ⧸ superlattice Λ) = q} =
      (fun x : Fin d → ℤ => (QuotientAddGroup.mk x : (Fin d → ℤ) ⧸ superlattice Λ)) '' {x | x ∈ cellPoints Λ} := by
    ext q; simp
  rw [this, Set.InjOn.ncard_image]
  · rw [show {x | x ∈ cellPoints Λ} = (((cellPoints Λ).toFinset : Finset _) : Set (Fin d → ℤ)) by ext; simp,
      Set.ncard_coe_finset, List.toFinset_card_of_nodup (cellPoints_nodup Λ)]
  · intro x hx y hy hxy
    exact quotient_injOn h (inCell_of_mem hx) (inCell_of_mem hy) hxy

/-- The number of listed points is `|det Λ|` exactly if every row of `Λ` has a positive entry. -/
theorem length_cellPoints_iff {Λ : Matrix (Fin d) (Fin d) ℤ} (h : Λ.det ≠ 0) :
    (cellPoints Λ).length = Λ.det.natAbs ↔ RowsPositive Λ := by
  have hfin := finite_quotient h
  have hcard : Nat.card ((Fin d → ℤ) ⧸ superlattice Λ) = Λ.det.natAbs := superlattice_index h
  rw [length_eq_card h, ← hcard]
  constructor
  · intro heq
    by_contra hr
    have huniv := (Set.eq_univ_iff_ncard _).2 heq
    have h0 : (0 : (Fin d → ℤ) ⧸ superlattice Λ) ∈
        {q | ∃ x ∈ cellPoints Λ, (QuotientAddGroup.mk x : (Fin d → ℤ) ⧸ superlattice Λ) = q} := by rw [huniv]; trivial
    obtain ⟨x, hx, hq⟩ := h0
    have hz : InCell Λ 0 := fun i => by simp [cellFrac]
    have := quotient_injOn h (inCell_of_mem hx) hz hq
    exact zero_not_mem_cellPoints hr (this ▸ hx)
  · intro hr
    rw [← Set.ncard_univ]
    congr 1
    refine Set.eq_univ_of_forall fun q => ?_
    obtain ⟨z, rfl⟩ := QuotientAddGroup.mk_surjective q
    obtain ⟨w, hw⟩ := exists_inCell h z
    refine ⟨z - Λ *ᵥ w, (mem_cellPoints h hr).2 hw, ?_⟩
    rw [QuotientAddGroup.eq, mem_superlattice]
    exact ⟨w, by abel⟩

end TB.SC

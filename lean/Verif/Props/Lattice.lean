import Verif.Model.Lattice
import Mathlib.Analysis.SpecialFunctions.Trigonometric.Basic
import Mathlib.LinearAlgebra.Matrix.Determinant.Basic
import Mathlib.Tactic.Linarith
import Mathlib.Tactic.Ring
import Mathlib.Tactic.FieldSimp
import Mathlib.Tactic.LinearCombination
import Mathlib.Tactic.NormNum
import Mathlib.Tactic.FinCases

/-!
# C42, C43: lattices and density
-/

namespace TB.Lat
open Matrix Real

/-! ## Specification -/

/-- Lattice vector `j`. -/
def Spec.vec (A : Mat3) (j : Fin 3) : Fin 3 → ℝ := fun i => A i j

/-- Lengths `a b c` and angles `α` (between 2 and 3), `β` (between 1 and 3), `γ` (between 1 and 2), right-handed. -/
def Spec.Cell (A : Mat3) (a b c α β γ : ℝ) : Prop :=
  Spec.vec A 0 ⬝ᵥ Spec.vec A 0 = a ^ 2 ∧ Spec.vec A 1 ⬝ᵥ Spec.vec A 1 = b ^ 2 ∧ Spec.vec A 2 ⬝ᵥ Spec.vec A 2 = c ^ 2 ∧
  Spec.vec A 1 ⬝ᵥ Spec.vec A 2 = b * c * cos α ∧ Spec.vec A 0 ⬝ᵥ Spec.vec A 2 = a * c * cos β ∧
  Spec.vec A 0 ⬝ᵥ Spec.vec A 1 = a * b * cos γ ∧ 0 < A.det

/-- The points of the lattice. -/
def Spec.points (A : Mat3) : Set (Fin 3 → ℝ) := {x | ∃ n : Fin 3 → ℤ, x = A *ᵥ fun i => (n i : ℝ)}

/-- Integer triples for face centring: even sum. -/
def Spec.face (m : Fin 3 → ℤ) : Prop := Even (m 0 + m 1 + m 2)
/-- Integer triples for body centring: all of the same parity. -/
def Spec.body (m : Fin 3 → ℤ) : Prop := Even (m 0 - m 1) ∧ Even (m 1 - m 2)
/-- Integer triples for centring of the first two axes. -/
def Spec.base (m : Fin 3 → ℤ) : Prop := Even (m 0 + m 1) ∧ Even (m 2)

/-- All points `(m₀ e₀ + m₁ e₁ + m₂ e₂)/2` with an allowed triple `m`, for the conventional cell with edges `e`. -/
def Spec.centred (p : (Fin 3 → ℤ) → Prop) (e : Mat3) : Set (Fin 3 → ℝ) :=
  {x | ∃ m : Fin 3 → ℤ, p m ∧ x = e *ᵥ fun i => (m i : ℝ) / 2}

/-! ## Primitive lattices -/

theorem det_cols (u v w : Fin 3 → ℝ) : (cols u v w).det =
    u 0 * (v 1 * w 2 - v 2 * w 1) - v 0 * (u 1 * w 2 - u 2 * w 1) + w 0 * (u 1 * v 2 - u 2 * v 1) := by
  rw [cols, det_transpose, det_fin_three]
  simp only [of_apply, cons_val]
  ring

theorem cell_cols {u v w : Fin 3 → ℝ} {a b c α β γ : ℝ}
    (h1 : u 0 ^ 2 + u 1 ^ 2 + u 2 ^ 2 = a ^ 2) (h2 : v 0 ^ 2 + v 1 ^ 2 + v 2 ^ 2 = b ^ 2) (h3 : w 0 ^ 2 + w 1 ^ 2 + w 2 ^ 2 = c ^ 2)
    (h4 : v 0 * w 0 + v 1 * w 1 + v 2 * w 2 = b * c * cos α) (h5 : u 0 * w 0 + u 1 * w 1 + u 2 * w 2 = a * c * cos β)
    (h6 : u 0 * v 0 + u 1 * v 1 + u 2 * v 2 = a * b * cos γ)
    (h7 : 0 < u 0 * (v 1 * w 2 - v 2 * w 1) - v 0 * (u 1 * w 2 - u 2 * w 1) + w 0 * (u 1 * v 2 - u 2 * v 1)) :
    Spec.Cell (cols u v w) a b c α β γ := by
  have e0 : Spec.vec (cols u v w) 0 = u := by funext i; rfl
  have e1 : Spec.vec (cols u v w) 1 = v := by funext i; rfl
  have e2 : Spec.vec (cols u v w) 2 = w := by funext i; rfl
  unfold Spec.Cell
  rw [e0, e1, e2, det_cols]
  simp only [dotProduct, Fin.sum_univ_three]
  refine ⟨?_, ?_, ?_, h4, h5, h6, h7⟩
  · rw [← h1]; ring
  · rw [← h2]; ring
  · rw [← h3]; ring

/-- The four conditions for three angles of a cell. -/
def Spec.Angles (α β γ : ℝ) : Prop := 0 < α ∧ 0 < β ∧ 0 < γ ∧ α < β + γ ∧ β < α + γ ∧ γ < α + β ∧ α + β + γ < 2 * π

theorem angles_range {α β γ : ℝ} (h : Spec.Angles α β γ) : α < π ∧ β < π ∧ γ < π := by
  obtain ⟨h1, h2, h3, h4, h5, h6, h7⟩ := h
  exact ⟨by linarith, by linarith, by linarith⟩

theorem angle_iff {α β γ : ℝ} (ha : 0 < α) (ha' : α < π) (hb : 0 < β) (hb' : β < π) (hg : 0 < γ) (hg' : γ < π) (hs : α + β + γ < 2 * π) :
    (cos α - cos γ * cos β) / sin γ * ((cos α - cos γ * cos β) / sin γ) < sin β * sin β ↔ α < β + γ ∧ β < α + γ ∧ γ < α + β := by
  have sg : 0 < sin γ := sin_pos_of_pos_of_lt_pi hg hg'
  have sb : 0 < sin β := sin_pos_of_pos_of_lt_pi hb hb'
  have e1 : (cos α - cos γ * cos β) / sin γ * ((cos α - cos γ * cos β) / sin γ) < sin β * sin β ↔
      |cos α - cos γ * cos β| < sin β * sin γ := by
    have : (cos α - cos γ * cos β) / sin γ * ((cos α - cos γ * cos β) / sin γ) = (cos α - cos γ * cos β) ^ 2 / sin γ ^ 2 := by
      field_simp
    rw [this, div_lt_iff₀ (by positivity), show sin β * sin β * sin γ ^ 2 = (sin β * sin γ) ^ 2 by ring,
      ← sq_abs (cos α - cos γ * cos β), sq_lt_sq₀ (abs_nonneg _) (by positivity)]
  rw [e1, abs_lt]
  have c1 : -(sin β * sin γ) < cos α - cos γ * cos β ↔ cos (β + γ) < cos α := by
    rw [cos_add]; constructor <;> intro h <;> linarith
  have c2 : cos α - cos γ * cos β < sin β * sin γ ↔ cos α < cos (β - γ) := by
    rw [cos_sub]; constructor <;> intro h <;> linarith
  rw [c1, c2]
  have d1 : cos (β + γ) < cos α ↔ α < β + γ := by
    rcases le_total (β + γ) π with h | h
    · exact strictAntiOn_cos.lt_iff_gt ⟨by linarith, h⟩ ⟨ha.le, ha'.le⟩
    · have : cos (β + γ) = cos (2 * π - (β + γ)) := by rw [cos_two_pi_sub]
      rw [this, strictAntiOn_cos.lt_iff_gt ⟨by linarith, by linarith⟩ ⟨ha.le, ha'.le⟩]
      constructor <;> intro _ <;> linarith
  have d2 : cos α < cos (β - γ) ↔ |β - γ| < α := by
    rw [← cos_abs (β - γ)]
    refine strictAntiOn_cos.lt_iff_gt ⟨ha.le, ha'.le⟩ ⟨abs_nonneg _, ?_⟩
    rw [abs_le]; constructor <;> linarith
  rw [d1, d2, abs_lt]
  constructor
  · rintro ⟨h1, h2, h3⟩; exact ⟨h1, by linarith, by linarith⟩
  · rintro ⟨h1, h2, h3⟩; exact ⟨h1, by linarith, by linarith⟩

/-- C42.  `triclinic` succeeds exactly for positive lengths and angles that form a cell (each less than the sum of the other two,
together less than `2π`); otherwise it raises `AssertionError`.  The result has these lengths and angles. -/
theorem C42_triclinic (a b c α β γ : ℝ) :
    ((0 < a ∧ 0 < b ∧ 0 < c ∧ Spec.Angles α β γ) → ∃ A, triclinic a b c α β γ = .ok A ∧ Spec.Cell A a b c α β γ) ∧
    (¬ (0 < a ∧ 0 < b ∧ 0 < c ∧ Spec.Angles α β γ) → triclinic a b c α β γ = .error .assertionError) := by
  constructor
  · rintro ⟨ha, hb, hc, h⟩
    obtain ⟨hα', hβ', hγ'⟩ := angles_range h
    obtain ⟨hα, hβ, hγ, h4, h5, h6, h7⟩ := h
    have hv := (angle_iff hα hα' hβ hβ' hγ hγ' h7).2 ⟨h4, h5, h6⟩
    have sg : 0 < sin γ := sin_pos_of_pos_of_lt_pi hγ hγ'
    unfold triclinic
    rw [if_neg (not_not.2 ⟨ha, hb, hc⟩), if_neg (not_not.2 ⟨hα', hα, hβ', hβ, hγ', hγ⟩), if_neg (not_not.2 (by linarith))]
    simp only
    rw [if_neg (not_not.2 hv)]
    refine ⟨_, rfl, ?_⟩
    set v := (cos α - cos γ * cos β) / sin γ with hvd
    have hvg : v * sin γ = cos α - cos γ * cos β := by rw [hvd]; field_simp
    have hsq : √(sin β * sin β - v * v) ^ 2 = sin β * sin β - v * v := sq_sqrt (by linarith)
    have hpos : 0 < √(sin β * sin β - v * v) := sqrt_pos.2 (by linarith)
    apply cell_cols <;> simp only [cons_val]
    · ring
    · linear_combination b ^ 2 * sin_sq_add_cos_sq γ
    · linear_combination c ^ 2 * hsq + c ^ 2 * sin_sq_add_cos_sq β
    · linear_combination b * c * hvg
    · ring
    · ring
    · have : 0 < a * (sin γ * b * (√(sin β * sin β - v * v) * c)) := by positivity
      linarith
  · intro h
    unfold triclinic
    by_cases h1 : a > 0 ∧ b > 0 ∧ c > 0
    swap
    · rw [if_pos h1]
    rw [if_neg (not_not.2 h1)]
    by_cases h2 : π > α ∧ α > 0 ∧ π > β ∧ β > 0 ∧ π > γ ∧ γ > 0
    swap
    · rw [if_pos h2]
    rw [if_neg (not_not.2 h2)]
    by_cases h3 : α + β + γ < π * 2
    swap
    · rw [if_pos h3]
    rw [if_neg (not_not.2 h3)]
    simp only
    apply if_pos
    intro hv
    obtain ⟨hα', hα, hβ', hβ, hγ', hγ⟩ := h2
    have := (angle_iff hα hα' hβ hβ' hγ hγ' (by linarith)).1 hv
    exact h ⟨h1.1, h1.2.1, h1.2.2, hα, hβ, hγ, this.1, this.2.1, this.2.2, by linarith⟩

/-- C42.  The volume of a cell. -/
theorem C42_volume (A : Mat3) (a b c α β γ : ℝ) (h : Spec.Cell A a b c α β γ) :
    A.det ^ 2 = (a * b * c) ^ 2 * (1 - cos α ^ 2 - cos β ^ 2 - cos γ ^ 2 + 2 * cos α * cos β * cos γ) := by
  obtain ⟨h1, h2, h3, h4, h5, h6, -⟩ := h
  have hG : (Aᵀ * A).det = A.det ^ 2 := by rw [det_mul, det_transpose]; ring
  rw [← hG, det_fin_three]
  simp only [dotProduct, Fin.sum_univ_three, Spec.vec] at h1 h2 h3 h4 h5 h6
  simp only [mul_apply, transpose_apply, Fin.sum_univ_three]
  rw [h1, h2, h3, h4, h5, h6, show A 0 1 * A 0 0 + A 1 1 * A 1 0 + A 2 1 * A 2 0 = a * b * cos γ by rw [← h6]; ring,
    show A 0 2 * A 0 0 + A 1 2 * A 1 0 + A 2 2 * A 2 0 = a * c * cos β by rw [← h5]; ring,
    show A 0 2 * A 0 1 + A 1 2 * A 1 1 + A 2 2 * A 2 1 = b * c * cos α by rw [← h4]; ring]
  ring

/-- C42.  Cells of the other primitive lattices; wrong parameters raise `AssertionError`. -/
theorem C42_primitive (a b c β : ℝ) :
    ((0 < a ∧ 0 < b ∧ 0 < c ∧ 0 < β ∧ β < π → ∃ A, monoclinic a b c β = .ok A ∧ Spec.Cell A a b c (π / 2) β (π / 2)) ∧
      (¬ (0 < a ∧ 0 < b ∧ 0 < c ∧ 0 < β ∧ β < π) → monoclinic a b c β = .error .assertionError)) ∧
    ((0 < a ∧ 0 < b ∧ 0 < c → ∃ A, orthorhombic a b c = .ok A ∧ Spec.Cell A a b c (π / 2) (π / 2) (π / 2)) ∧
      (¬ (0 < a ∧ 0 < b ∧ 0 < c) → orthorhombic a b c = .error .assertionError)) ∧
    ((0 < a ∧ 0 < c → ∃ A, tetragonal a c = .ok A ∧ Spec.Cell A a a c (π / 2) (π / 2) (π / 2)) ∧
      (¬ (0 < a ∧ 0 < c) → tetragonal a c = .error .assertionError)) ∧
    (0 < a → Spec.Cell (sc a) a a a (π / 2) (π / 2) (π / 2)) ∧
    (0 < a → 0 < c → ∃ A, hexagonal a c = .ok A ∧ Spec.Cell A a a c (π / 2) (π / 2) (2 * π / 3)) := by
  refine ⟨⟨?_, ?_⟩, ⟨?_, ?_⟩, ⟨?_, ?_⟩, ?_, ?_⟩
  · rintro ⟨ha, hb, hc, h1, h2⟩
    unfold monoclinic
    rw [if_neg (not_not.2 ⟨ha, hb, hc⟩), if_neg (not_not.2 ⟨h2, h1⟩)]
    have sb : 0 < sin β := sin_pos_of_pos_of_lt_pi h1 h2
    refine ⟨_, rfl, ?_⟩
    apply cell_cols <;> simp only [cons_val, cos_pi_div_two]
    · ring
    · ring
    · linear_combination c ^ 2 * sin_sq_add_cos_sq β
    · ring
    · ring
    · ring
    · have : 0 < a * (b * (sin β * c)) := by positivity
      linarith
  · intro h
    unfold monoclinic
    by_cases h1 : a > 0 ∧ b > 0 ∧ c > 0
    swap
    · rw [if_pos h1]
    rw [if_neg (not_not.2 h1)]
    apply if_pos
    intro h2
    exact h ⟨h1.1, h1.2.1, h1.2.2, h2.2, h2.1⟩
  · rintro ⟨ha, hb, hc⟩
    unfold orthorhombic
    rw [if_neg (not_not.2 ⟨ha, hb, hc⟩)]
    refine ⟨_, rfl, ?_⟩
    apply cell_cols <;> simp only [cons_val, cos_pi_div_two]
    · ring
    · ring
    · ring
    · ring
    · ring
    · ring
    · have : 0 < a * (b * c) := by positivity
      linarith
  · intro h
    exact if_pos h
  · rintro ⟨ha, hc⟩
    unfold tetragonal
    rw [if_neg (not_not.2 ⟨ha, hc⟩)]
    refine ⟨_, rfl, ?_⟩
    apply cell_cols <;> simp only [cons_val, cos_pi_div_two]
    · ring
    · ring
    · ring
    · ring
    · ring
    · ring
    · have : 0 < a * (a * c) := by positivity
      linarith
  · intro h
    exact if_pos h
  · intro ha
    have e : sc a = cols ![a, 0, 0] ![0, a, 0] ![0, 0, a] := by
      ext i j; fin_cases i <;> fin_cases j <;> simp [sc, cols]
    rw [e]
    apply cell_cols <;> simp only [cons_val, cos_pi_div_two]
    · ring
    · ring
    · ring
    · ring
    · ring
    · ring
    · have : 0 < a * (a * a) := by positivity
      linarith
  · intro ha hc
    unfold hexagonal
    rw [if_neg ha.ne']
    refine ⟨_, rfl, ?_⟩
    have e : a • cols ![1, 0, 0] ![-1 / 2, √3 / 2, 0] ![0, 0, c / a] = cols ![a, 0, 0] ![a * (-1 / 2), a * (√3 / 2), 0] ![0, 0, c] := by
      have : a * (c / a) = c := by field_simp
      ext i j; fin_cases i <;> fin_cases j <;> simp [cols, this]
    rw [e]
    have s3 : √3 ^ 2 = (3 : ℝ) := sq_sqrt (by norm_num)
    have hcos : cos (2 * π / 3) = -1 / 2 := by
      rw [show 2 * π / 3 = π - π / 3 by ring, cos_pi_sub, cos_pi_div_three]; norm_num
    have p3 : 0 < √3 := sqrt_pos.2 (by norm_num)
    apply cell_cols <;> simp only [cons_val, cos_pi_div_two, hcos]
    · ring
    · linear_combination a ^ 2 / 4 * s3
    · ring
    · ring
    · ring
    · ring
    · have : 0 < a * (a * (√3 / 2) * c) := by positivity
      linarith

/-- C42.  The rhombohedral cell has three equal lengths and three equal angles and stands upright: all vectors have the same third
component. -/
theorem C42_rhombohedral (a α : ℝ) :
    (0 < a ∧ 0 < α ∧ α < 2 * π / 3 → ∃ A, rhombohedral a α = .ok A ∧ Spec.Cell A a a a α α α ∧
      Spec.vec A 0 2 = Spec.vec A 1 2 ∧ Spec.vec A 1 2 = Spec.vec A 2 2) ∧
    (¬ (0 < a ∧ 0 < α ∧ α < 2 * π / 3) → rhombohedral a α = .error .assertionError) := by
  constructor
  · rintro ⟨ha, h1, h2⟩
    unfold rhombohedral
    rw [if_neg (not_not.2 ha), if_neg (not_not.2 ⟨h1, h2⟩)]
    simp only
    refine ⟨_, rfl, ?_, rfl, rfl⟩
    have hcos : cos (2 * π / 3) = -1 / 2 := by
      rw [show 2 * π / 3 = π - π / 3 by ring, cos_pi_sub, cos_pi_div_three]; norm_num
    have c1 : cos α < 1 := by
      rw [← cos_zero]
      exact strictAntiOn_cos ⟨le_rfl, pi_pos.le⟩ ⟨h1.le, by linarith [pi_pos]⟩ h1
    have c2 : -1 / 2 < cos α := by
      rw [← hcos]
      exact strictAntiOn_cos ⟨h1.le, by linarith [pi_pos]⟩ ⟨by linarith [pi_pos], by linarith [pi_pos]⟩ h2
    set v := 2 / 3 - 2 / 3 * cos α with hv
    have hv0 : 0 < v := by rw [hv]; linarith
    have hv1 : 0 < 1 - v := by rw [hv]; linarith
    have s3 : √3 ^ 2 = (3 : ℝ) := sq_sqrt (by norm_num)
    have sv : √v ^ 2 = v := sq_sqrt hv0.le
    have sw : √(1 - v) ^ 2 = 1 - v := sq_sqrt hv1.le
    have p3 : 0 < √3 := sqrt_pos.2 (by norm_num)
    have pv : 0 < √v := sqrt_pos.2 hv0
    have pw : 0 < √(1 - v) := sqrt_pos.2 hv1
    have hcv : cos α = 1 - 3 / 2 * v := by rw [hv]; ring
    apply cell_cols <;> simp only [cons_val]
    · linear_combination a ^ 2 * sv + a ^ 2 * sw
    · linear_combination a ^ 2 * sv + a ^ 2 * sw + (√v * a) ^ 2 / 4 * s3
    · linear_combination a ^ 2 * sv + a ^ 2 * sw + (√v * a) ^ 2 / 4 * s3
    · rw [hcv]; linear_combination a ^ 2 * sw - (√v * a) ^ 2 / 4 * s3 - 1 / 2 * a ^ 2 * sv
    · rw [hcv]; linear_combination a ^ 2 * sw - 1 / 2 * a ^ 2 * sv
    · rw [hcv]; linear_combination a ^ 2 * sw - 1 / 2 * a ^ 2 * sv
    · have : 0 < 3 / 2 * √3 * (√v * a) ^ 2 * (√(1 - v) * a) := by positivity
      linarith
  · intro h
    unfold rhombohedral
    by_cases h1 : a > 0
    swap
    · rw [if_pos h1]
    rw [if_neg (not_not.2 h1)]
    exact if_pos fun h2 => h ⟨h1, h2⟩

/-! Concrete cells. -/

example : Spec.Angles (π / 2) (π / 3) (π / 3) := by
  refine ⟨?_, ?_, ?_, ?_, ?_, ?_, ?_⟩ <;> linarith [pi_pos]

/-- The cell with `α = β + γ` is flat and is rejected. -/
example : triclinic 1 2 3 (2 * π / 3) (π / 3) (π / 3) = .error .assertionError :=
  (C42_triclinic 1 2 3 (2 * π / 3) (π / 3) (π / 3)).2 fun h => by
    have := h.2.2.2.2.2.2.1
    linarith

example : ∃ A, rhombohedral 2 (π / 3) = .ok A ∧ Spec.Cell A 2 2 2 (π / 3) (π / 3) (π / 3) ∧
    Spec.vec A 0 2 = Spec.vec A 1 2 ∧ Spec.vec A 1 2 = Spec.vec A 2 2 :=
  (C42_rhombohedral 2 (π / 3)).1 ⟨by norm_num, by linarith [pi_pos], by linarith [pi_pos]⟩

example : Spec.Cell (sc 3) 3 3 3 (π / 2) (π / 2) (π / 2) := (C42_primitive 3 1 1 1).2.2.2.1 (by norm_num)

/-! ## Centred lattices -/

theorem mulVec_cols (u v w : Fin 3 → ℝ) (n : Fin 3 → ℝ) :
    cols u v w *ᵥ n = fun i => u i * n 0 + v i * n 1 + w i * n 2 := by
  funext i
  simp [mulVec, dotProduct, Fin.sum_univ_three, cols]

/-- Two generated sets agree if every integer combination corresponds to an allowed triple and conversely. -/
theorem points_eq {u v w e0 e1 e2 : Fin 3 → ℝ} {p : (Fin 3 → ℤ) → Prop}
    (f : (Fin 3 → ℤ) → Fin 3 → ℤ) (hf : ∀ n, p (f n)) (hs : ∀ m, p m → ∃ n, f n = m)
    (he : ∀ n i, u i * (n 0 : ℝ) + v i * (n 1 : ℝ) + w i * (n 2 : ℝ) =
      e0 i * ((f n 0 : ℝ) / 2) + e1 i * ((f n 1 : ℝ) / 2) + e2 i * ((f n 2 : ℝ) / 2)) :
    Spec.points (cols u v w) = Spec.centred p (cols e0 e1 e2) := by
  ext x
  constructor
  · rintro ⟨n, rfl⟩
    refine ⟨f n, hf n, ?_⟩
    rw [mulVec_cols, mulVec_cols]
    funext i
    exact he n i
  · rintro ⟨m, hm, rfl⟩
    obtain ⟨n, rfl⟩ := hs m hm
    refine ⟨n, ?_⟩
    rw [mulVec_cols, mulVec_cols]
    funext i
    exact (he n i).symm

theorem face_std (m : Fin 3 → ℤ) (hm : Spec.face m) : ∃ n : Fin 3 → ℤ, ![n 1 + n 2, n 0 + n 2, n 0 + n 1] = m := by
  obtain ⟨k, hk⟩ := hm
  refine ⟨![k - m 0, k - m 1, k - m 2], ?_⟩
  funext i; fin_cases i <;> simp <;> omega

theorem body_std (m : Fin 3 → ℤ) (hm : Spec.body m) :
    ∃ n : Fin 3 → ℤ, ![-n 0 + n 1 + n 2, n 0 - n 1 + n 2, n 0 + n 1 - n 2] = m := by
  obtain ⟨⟨k, hk⟩, l, hl⟩ := hm
  refine ⟨![m 1 - l, m 0 - (k + l), m 0 - k], ?_⟩
  funext i; fin_cases i <;> simp <;> omega

theorem base_std (m : Fin 3 → ℤ) (hm : Spec.base m) : ∃ n : Fin 3 → ℤ, ![n 0 + n 1, -n 0 + n 1, 2 * n 2] = m := by
  obtain ⟨⟨k, hk⟩, l, hl⟩ := hm
  refine ⟨![m 0 - k, k, l], ?_⟩
  funext i; fin_cases i <;> simp <;> omega

/-- The conventional orthogonal cell. -/
def Spec.box (a b c : ℝ) : Mat3 := cols ![a, 0, 0] ![0, b, 0] ![0, 0, c]

/-- C42.  The cubic centred lattices consist of the points of the cubic lattice with centred faces or centred body, and the
vectors are right-handed with volume `a³/4` and `a³/2`. -/
theorem C42_cubic (a : ℝ) :
    Spec.points (fcc a) = Spec.centred Spec.face (Spec.box a a a) ∧ (fcc a).det = a ^ 3 / 4 ∧
    Spec.points (bcc a) = Spec.centred Spec.body (Spec.box a a a) ∧ (bcc a).det = a ^ 3 / 2 := by
  have ef : fcc a = cols ![-a / 2, 0, a / 2] ![0, a / 2, a / 2] ![-a / 2, a / 2, 0] := by
    ext i j; fin_cases i <;> fin_cases j <;> simp [fcc, cols] <;> ring
  have eb : bcc a = cols ![a / 2, a / 2, a / 2] ![-a / 2, a / 2, a / 2] ![-a / 2, -a / 2, a / 2] := by
    ext i j; fin_cases i <;> fin_cases j <;> simp [bcc, cols] <;> ring
  refine ⟨?_, ?_, ?_, ?_⟩
  · rw [ef]
    refine points_eq (fun n => ![-n 0 - n 2, n 1 + n 2, n 0 + n 1]) ?_ ?_ ?_
    · intro n; exact ⟨n 1, by simp; ring⟩
    · rintro m ⟨k, hk⟩
      refine ⟨![k - m 0 - m 1, k, 0] + ![0, 0, 0] + ![m 2 - k - (k - m 0 - m 1), 0, m 1 - k], ?_⟩
      funext i; fin_cases i <;> simp; omega
    · intro n i; fin_cases i <;> simp <;> ring
  · rw [ef, det_cols]; simp; ring
  · rw [eb]
    refine points_eq (fun n => ![n 0 - n 1 - n 2, n 0 + n 1 - n 2, n 0 + n 1 + n 2]) ?_ ?_ ?_
    · intro n; exact ⟨⟨-n 1, by simp; ring⟩, ⟨-n 2, by simp; ring⟩⟩
    · rintro m ⟨⟨k, hk⟩, l, hl⟩
      refine ⟨![m 0 - k - l, -k, -l], ?_⟩
      funext i; fin_cases i <;> simp <;> omega
    · intro n i; fin_cases i <;> simp <;> ring
  · rw [eb, det_cols]; simp; ring

/-- C42.  The orthorhombic and tetragonal centred lattices. -/
theorem C42_centred (a b c : ℝ) (ha : 0 < a) (hb : 0 < b) (hc : 0 < c) :
    (∃ A, orthoBase a b c = .ok A ∧ Spec.points A = Spec.centred Spec.base (Spec.box a b c) ∧ A.det = a * b * c / 2) ∧
    (∃ A, orthoBody a b c = .ok A ∧ Spec.points A = Spec.centred Spec.body (Spec.box a b c) ∧ A.det = a * b * c / 2) ∧
    (∃ A, orthoFace a b c = .ok A ∧ Spec.points A = Spec.centred Spec.face (Spec.box a b c) ∧ A.det = a * b * c / 4) ∧
    (∃ A, tetraBody a c = .ok A ∧ Spec.points A = Spec.centred Spec.body (Spec.box a a c) ∧ A.det = a * a * c / 2) := by
  have h3 : a > 0 ∧ b > 0 ∧ c > 0 := ⟨ha, hb, hc⟩
  have h2 : a > 0 ∧ c > 0 := ⟨ha, hc⟩
  refine ⟨⟨_, if_neg (not_not.2 h3), ?_, ?_⟩, ⟨_, if_neg (not_not.2 h3), ?_, ?_⟩, ⟨_, if_neg (not_not.2 h3), ?_, ?_⟩,
    ⟨_, if_neg (not_not.2 h2), ?_, ?_⟩⟩
  · refine points_eq (fun n => ![n 0 + n 1, -n 0 + n 1, 2 * n 2]) (fun n => ⟨⟨n 1, by simp; ring⟩, ⟨n 2, by simp; ring⟩⟩) base_std ?_
    intro n i; fin_cases i <;> simp <;> ring
  · rw [det_cols]; simp; ring
  · refine points_eq (fun n => ![-n 0 + n 1 + n 2, n 0 - n 1 + n 2, n 0 + n 1 - n 2])
      (fun n => ⟨⟨n 1 - n 0, by simp; ring⟩, ⟨n 2 - n 1, by simp; ring⟩⟩) body_std ?_
    intro n i; fin_cases i <;> simp <;> ring
  · rw [det_cols]; simp; ring
  · refine points_eq (fun n => ![n 1 + n 2, n 0 + n 2, n 0 + n 1]) (fun n => ⟨n 0 + n 1 + n 2, by simp; ring⟩) face_std ?_
    intro n i; fin_cases i <;> simp <;> ring
  · rw [det_cols]; simp; ring
  · refine points_eq (fun n => ![-n 0 + n 1 + n 2, n 0 - n 1 + n 2, n 0 + n 1 - n 2])
      (fun n => ⟨⟨n 1 - n 0, by simp; ring⟩, ⟨n 2 - n 1, by simp; ring⟩⟩) body_std ?_
    intro n i; fin_cases i <;> simp <;> ring
  · rw [det_cols]; simp; ring

/-- C42.  The base-centred monoclinic lattice consists of the points of the primitive monoclinic lattice with the same parameters
and centred `ab` faces. -/
theorem C42_monoclinic_base (a b c β : ℝ) (ha : 0 < a) (hb : 0 < b) (hc : 0 < c) (h1 : 0 < β) (h2 : β < π) :
    ∃ A P, monoclinicBase a b c β = .ok A ∧ monoclinic a b c β = .ok P ∧
      Spec.points A = Spec.centred Spec.base P ∧ A.det = a * b * c * sin β / 2 := by
  have h3 : a > 0 ∧ b > 0 ∧ c > 0 := ⟨ha, hb, hc⟩
  have h4 : π > β ∧ β > 0 := ⟨h2, h1⟩
  refine ⟨_, _, (if_neg (not_not.2 h3)).trans (if_neg (not_not.2 h4)), (if_neg (not_not.2 h3)).trans (if_neg (not_not.2 h4)), ?_, ?_⟩
  · refine points_eq (fun n => ![n 0 + n 1, -n 0 + n 1, 2 * n 2]) (fun n => ⟨⟨n 1, by simp; ring⟩, ⟨n 2, by simp; ring⟩⟩) base_std ?_
    intro n i; fin_cases i <;> simp <;> ring
  · rw [det_cols]; simp; ring

/-- C42.  The centred constructors reject non-positive lengths (and angles out of range) with `AssertionError`; `sc`, `fcc`, `bcc`
and `hexagonal` make no such check, and `hexagonal` divides by `a`. -/
theorem C42_errors (a b c β : ℝ) :
    (¬ (0 < a ∧ 0 < b ∧ 0 < c) → orthoBase a b c = .error .assertionError ∧ orthoBody a b c = .error .assertionError ∧
      orthoFace a b c = .error .assertionError) ∧
    (¬ (0 < a ∧ 0 < c) → tetraBody a c = .error .assertionError) ∧
    (¬ (0 < a ∧ 0 < b ∧ 0 < c ∧ 0 < β ∧ β < π) → monoclinicBase a b c β = .error .assertionError) ∧
    hexagonal 0 c = .error .zeroDivision := by
  refine ⟨fun h => ⟨if_pos h, if_pos h, if_pos h⟩, fun h => if_pos h, fun h => ?_, if_pos rfl⟩
  unfold monoclinicBase
  by_cases h1 : a > 0 ∧ b > 0 ∧ c > 0
  swap
  · rw [if_pos h1]
  rw [if_neg (not_not.2 h1)]
  exact if_pos fun h2 => h ⟨h1.1, h1.2.1, h1.2.2, h2.2, h2.1⟩

example : ![1, 1, 0] ∈ Spec.points (fcc 2) := by
  rw [(C42_cubic 2).1]
  refine ⟨![1, 1, 0], ⟨1, by simp⟩, ?_⟩
  funext i
  rw [Spec.box, mulVec_cols]
  fin_cases i <;> simp

example : (bcc 2).det = 4 := by rw [(C42_cubic 2).2.2.2]; norm_num

/-! ## Density -/

/-- C43.  If the wanted density has the sign of the present one (positive for a right-handed lattice), the scaled lattice has
exactly the wanted density, and it is the old one times one positive number: directions and ratios of lengths are kept. -/
theorem C43_scale (mass unit ρ : ℝ) (A : Mat3) (hm : mass ≠ 0) (hu : unit ≠ 0) (hA : A.det ≠ 0)
    (hρ : 0 < massDensity mass unit A / ρ) :
    ∃ s : ℝ, 0 < s ∧ scaleToDensity mass unit A ρ = some (s • A) ∧ massDensity mass unit (s • A) = ρ := by
  refine ⟨(massDensity mass unit A / ρ) ^ ((1 : ℝ) / 3), rpow_pos_of_pos hρ _, if_neg (not_lt.2 hρ.le), ?_⟩
  set s := (massDensity mass unit A / ρ) ^ ((1 : ℝ) / 3) with hs
  have hs3 : s ^ 3 = massDensity mass unit A / ρ := by
    rw [hs, ← rpow_natCast, ← rpow_mul hρ.le]; norm_num
  have hρ0 : ρ ≠ 0 := by rintro rfl; simp at hρ
  unfold massDensity at hs3 ⊢
  rw [smul_comm, det_smul, Fintype.card_fin, hs3]
  rw [det_smul, Fintype.card_fin]
  field_simp

/-- C43.  Scaling twice to the same density changes nothing the second time. -/
theorem C43_idempotent (mass unit ρ : ℝ) (A B : Mat3) (hm : mass ≠ 0) (hu : unit ≠ 0) (hA : A.det ≠ 0)
    (hρ : 0 < massDensity mass unit A / ρ) (hB : scaleToDensity mass unit A ρ = some B) :
    scaleToDensity mass unit B ρ = some B := by
  obtain ⟨s, hs, h1, h2⟩ := C43_scale mass unit ρ A hm hu hA hρ
  rw [h1, Option.some.injEq] at hB
  subst hB
  have hρ0 : ρ ≠ 0 := by rintro rfl; simp at hρ
  unfold scaleToDensity
  rw [h2, div_self hρ0]
  simp

/-- C43.  A left-handed lattice has a negative mass density, and scaling it to a positive density destroys it (all entries become
NaN) without an exception. -/
theorem C43_left_handed (mass unit ρ : ℝ) (A : Mat3) (hm : 0 < mass) (hu : 0 < unit) (hρ : 0 < ρ) (hA : A.det < 0) :
    massDensity mass unit A < 0 ∧ scaleToDensity mass unit A ρ = none := by
  have h : massDensity mass unit A < 0 := by
    unfold massDensity
    rw [det_smul, Fintype.card_fin]
    exact div_neg_of_pos_of_neg hm (mul_neg_of_pos_of_neg (by positivity) hA)
  exact ⟨h, if_pos (div_neg_of_neg_of_pos h hρ)⟩

example : 0 < massDensity 5 1 (sc 2) / 3 := by
  unfold massDensity
  rw [one_smul, show (sc 2).det = 8 by simp [sc]; norm_num]
  norm_num

example : (cols ![0, 1, 0] ![1, 0, 0] ![0, 0, 1]).det < 0 := by rw [det_cols]; simp

end TB.Lat

import Verif.Model.Bulk
import Mathlib.LinearAlgebra.Matrix.NonsingularInverse
import Mathlib.LinearAlgebra.Matrix.DotProduct
import Mathlib.Algebra.Order.BigOperators.Group.List
import Mathlib.Algebra.BigOperators.Group.List.Basic
import Mathlib.Tactic.Linarith
import Mathlib.Tactic.Ring
import Mathlib.Tactic.FieldSimp
import Mathlib.Tactic.LinearCombination
import Mathlib.Tactic.NormNum
import Mathlib.Tactic.Positivity

/-!
# C39, C40: thermoelectric relations and transport coefficients
-/

namespace TB.Bulk
open Matrix

/-! ## C39 -/

section C39
variable {K : Type} [Field K] {d : ℕ}

/-- Electric current for a field `E` and a temperature gradient `g`. -/
def Spec.je (L0 L1 : Matrix (Fin d) (Fin d) K) (T : K) (E g : Fin d → K) : Fin d → K := L0 *ᵥ E - T⁻¹ • (L1 *ᵥ g)
/-- Heat current for a field `E` and a temperature gradient `g`. -/
def Spec.jq (L1 L2 : Matrix (Fin d) (Fin d) K) (T : K) (E g : Fin d → K) : Fin d → K := L1 *ᵥ E - T⁻¹ • (L2 *ᵥ g)

theorem inv_ok {A : Matrix (Fin d) (Fin d) K} (h : A.det ≠ 0) : inv A = .ok A⁻¹ := if_neg h
theorem inv_err {A : Matrix (Fin d) (Fin d) K} (h : A.det = 0) : inv A = .error .valueError := if_pos h

variable (L0 L1 L2 : Matrix (Fin d) (Fin d) K) (r : List (Matrix (Fin d) (Fin d) K))

theorem seebeck_eq (h : L0.det ≠ 0) (T : K) : seebeck (L0 :: L1 :: r) T = .ok (T⁻¹ • (L0⁻¹ * L1)) := by
  simp only [seebeck, item, List.getElem?_cons_zero, List.getElem?_cons_succ, inv_ok h, bind, Except.bind]

theorem thermal_eq (h : L0.det ≠ 0) (T : K) :
    thermalConductivity (L0 :: L1 :: L2 :: r) T = .ok (T⁻¹ • (L2 - L1 * L0⁻¹ * L1)) := by
  simp only [thermalConductivity, item, List.getElem?_cons_zero, List.getElem?_cons_succ, inv_ok h, bind, Except.bind]

theorem peltier_eq (h : L0.det ≠ 0) : peltier (L0 :: L1 :: r) = .ok (L1 * L0⁻¹) := by
  simp only [peltier, item, List.getElem?_cons_zero, List.getElem?_cons_succ, inv_ok h, bind, Except.bind]

/-- C39.  Seebeck tensor: no electric current flows exactly if `E = S ∇T`. -/
theorem C39_seebeck (h : L0.det ≠ 0) (T : K) :
    ∃ S, seebeck (L0 :: L1 :: r) T = .ok S ∧ ∀ E g, Spec.je L0 L1 T E g = 0 ↔ E = S *ᵥ g := by
  refine ⟨_, seebeck_eq L0 L1 r h T, fun E g => ?_⟩
  have hu : IsUnit L0.det := isUnit_iff_ne_zero.2 h
  unfold Spec.je
  rw [sub_eq_zero, smul_mulVec]
  constructor
  · intro hE
    have : L0⁻¹ *ᵥ (L0 *ᵥ E) = L0⁻¹ *ᵥ (T⁻¹ • (L1 *ᵥ g)) := by rw [hE]
    rwa [mulVec_mulVec, nonsing_inv_mul _ hu, one_mulVec, mulVec_smul, mulVec_mulVec] at this
  · rintro rfl
    rw [mulVec_smul, mulVec_mulVec, ← Matrix.mul_assoc, mul_nonsing_inv _ hu, Matrix.one_mul]

/-- C39.  Thermal conductivity: in open circuit the heat current is `-κ ∇T`. -/
theorem C39_thermal (h : L0.det ≠ 0) (T : K) :
    ∃ κ, thermalConductivity (L0 :: L1 :: L2 :: r) T = .ok κ ∧
      ∀ E g, Spec.je L0 L1 T E g = 0 → Spec.jq L1 L2 T E g = -(κ *ᵥ g) := by
  refine ⟨_, thermal_eq L0 L1 L2 r h T, fun E g hE => ?_⟩
  obtain ⟨S, hS, hiff⟩ := C39_seebeck L0 L1 r h T
  rw [seebeck_eq L0 L1 r h T, Except.ok.injEq] at hS
  rw [hiff, ← hS] at hE
  subst hE
  unfold Spec.jq
  rw [smul_mulVec, smul_mulVec, mulVec_smul, mulVec_mulVec, sub_mulVec, smul_sub, neg_sub, Matrix.mul_assoc]

/-- C39.  Peltier tensor: at uniform temperature the heat current is `P` times the electric current. -/
theorem C39_peltier (h : L0.det ≠ 0) (T : K) :
    ∃ P, peltier (L0 :: L1 :: r) = .ok P ∧ ∀ E, Spec.jq L1 L2 T E 0 = P *ᵥ Spec.je L0 L1 T E 0 := by
  refine ⟨_, peltier_eq L0 L1 r h, fun E => ?_⟩
  have hu : IsUnit L0.det := isUnit_iff_ne_zero.2 h
  unfold Spec.jq Spec.je
  simp only [mulVec_zero, smul_zero, sub_zero]
  rw [mulVec_mulVec, Matrix.mul_assoc, nonsing_inv_mul _ hu, Matrix.mul_one]

/-- C39.  Kelvin relation: for symmetric `L0` and `L1` the Peltier tensor is `T` times the transposed Seebeck tensor. -/
theorem C39_kelvin (h : L0.det ≠ 0) (T : K) (hT : T ≠ 0) (s0 : L0ᵀ = L0) (s1 : L1ᵀ = L1) :
    ∃ P S, peltier (L0 :: L1 :: r) = .ok P ∧ seebeck (L0 :: L1 :: r) T = .ok S ∧ P = T • Sᵀ := by
  refine ⟨_, _, peltier_eq L0 L1 r h, seebeck_eq L0 L1 r h T, ?_⟩
  rw [transpose_smul, transpose_mul, transpose_nonsing_inv, s0, s1, smul_smul, mul_inv_cancel₀ hT, one_smul]

/-- C39.  The conductivity is `L0`: the electric current at uniform temperature is `σ E`. -/
theorem C39_conductivity (T : K) :
    ∃ σ, conductivity (L0 :: r) = .ok σ ∧ ∀ E, Spec.je L0 L1 T E 0 = σ *ᵥ E := by
  refine ⟨L0, rfl, fun E => ?_⟩
  simp [Spec.je]

/-- C39.  A singular `L0` raises `LinAlgError`, a missing coefficient `IndexError`. -/
theorem C39_errors (h : L0.det = 0) (T : K) :
    peltier (L0 :: L1 :: r) = .error .valueError ∧ seebeck (L0 :: L1 :: r) T = .error .valueError ∧
    thermalConductivity (L0 :: L1 :: L2 :: r) T = .error .valueError ∧
    conductivity ([] : List (Matrix (Fin d) (Fin d) K)) = .error .indexError ∧ peltier [L1] = .error .indexError ∧
    thermalConductivity [L0, L1] T = .error .indexError := by
  refine ⟨?_, ?_, ?_, rfl, rfl, rfl⟩
  · simp only [peltier, item, List.getElem?_cons_zero, List.getElem?_cons_succ, inv_err h, bind, Except.bind]
  · simp only [seebeck, item, List.getElem?_cons_zero, inv_err h, bind, Except.bind]
  · simp only [thermalConductivity, item, List.getElem?_cons_zero, List.getElem?_cons_succ, inv_err h, bind, Except.bind]

example : (!![2, 1; 1, 2] : Matrix (Fin 2) (Fin 2) ℚ).det ≠ 0 ∧ (!![2, 1; 1, 2] : Matrix (Fin 2) (Fin 2) ℚ)ᵀ = !![2, 1; 1, 2] := by
  refine ⟨by rw [det_fin_two_of]; norm_num, ?_⟩
  ext i j; fin_cases i <;> fin_cases j <;> rfl

end C39

/-! ## C40 -/

section C40

theorem moment_eq {M : Type} [AddCommGroup M] [Module ℝ M] (a : ℕ) (mu : ℝ) (F : ℝ → List Sample → M) (es : List ℝ)
    (ls : List (List Sample)) (ws : List ℝ) :
    moment a mu (List.zipWith F es ls) es ws =
      ((es.zip (ls.zip ws)).map fun t => (t.2.2 * (t.1 - mu) ^ a) • F t.1 t.2.1).sum := by
  induction es generalizing ls ws with
  | nil => simp [moment]
  | cons e es ih =>
    cases ls with
    | nil => simp [moment]
    | cons l ls =>
      cases ws with
      | nil => simp [moment]
      | cons w ws => simp [moment, ih]

theorem bil_sum (x y : Fin 3 → ℝ) (l : List (Matrix (Fin 3) (Fin 3) ℝ)) :
    x ⬝ᵥ (l.sum *ᵥ y) = (l.map fun M => x ⬝ᵥ (M *ᵥ y)).sum := by
  induction l with
  | nil => simp
  | cons M l ih => simp [add_mulVec, ih]

theorem bil_smul (x y : Fin 3 → ℝ) (t : ℝ) (M : Matrix (Fin 3) (Fin 3) ℝ) : x ⬝ᵥ ((t • M) *ᵥ y) = t * (x ⬝ᵥ (M *ᵥ y)) := by
  rw [smul_mulVec, dotProduct_smul, smul_eq_mul]

theorem bil_outer (x y v : Fin 3 → ℝ) : x ⬝ᵥ (outer v *ᵥ y) = (x ⬝ᵥ v) * (y ⬝ᵥ v) := by
  simp only [outer, dotProduct, mulVec, of_apply, Fin.sum_univ_three]
  ring

theorem bil_ext {M N : Matrix (Fin 3) (Fin 3) ℝ} (h : ∀ x y : Fin 3 → ℝ, x ⬝ᵥ (M *ᵥ y) = x ⬝ᵥ (N *ᵥ y)) : M = N := by
  ext i j
  have := h (Pi.single i 1) (Pi.single j 1)
  simpa using this

/-- The group velocity in SI units of a sample: the energy gradient with respect to the crystal momentum, `10⁻¹⁰ q/(2πħ)` times the
lattice matrix (relative to the density of states) times the stored gradient. -/
noncomputable def Spec.velocity (c : Const) (I : KInt) (A : Matrix (Fin 3) (Fin 3) ℝ) (s : Sample) : Fin 3 → ℝ :=
  (c.q * 1e-10 / (2 * Real.pi * c.hbar)) • ((A * I.A⁻¹) *ᵥ s.v)

/-- The momentum handed to `tau`: `2π (A I.A⁻¹)⁻ᵀ k`. -/
noncomputable def Spec.momentum (I : KInt) (A : Matrix (Fin 3) (Fin 3) ℝ) (s : Sample) : Fin 3 → ℝ :=
  (2 * Real.pi) • ((A * I.A⁻¹)ᵀ⁻¹ *ᵥ s.k)

/-- All pairs of a surface (with its energy and weight at this temperature) and a sample of it. -/
def Spec.terms (I : KInt) (wj : List ℝ) : List (ℝ × ℝ × Sample) :=
  (I.e.zip (I.smp.zip wj)).flatMap fun t => t.2.1.map fun s => (t.1, t.2.2, s)

/-- The weight of a term: weight of the surface, weight of the sample divided by the speed, scattering time. -/
noncomputable def Spec.wt (I : KInt) (A : Matrix (Fin 3) (Fin 3) ℝ) (tau : Tau) (t : ℝ × ℝ × Sample) : ℝ :=
  t.2.1 * (t.2.2.weight / (1e-8 + Real.sqrt (t.2.2.v ⬝ᵥ t.2.2.v))) * tau.at (Spec.momentum I A t.2.2)

theorem physical_v (c : Const) (I : KInt) (A : Matrix (Fin 3) (Fin 3) ℝ) (s : Sample) :
    (physical c (A * I.A⁻¹) s).v = Spec.velocity c I A s := by
  unfold physical Spec.velocity gradTransform
  simp only
  rw [smul_smul, smul_mulVec]
  congr 1
  rw [div_eq_mul_inv, div_eq_mul_inv, div_eq_mul_inv, mul_inv]
  ring

theorem physical_k (c : Const) (I : KInt) (A : Matrix (Fin 3) (Fin 3) ℝ) (s : Sample) :
    (physical c (A * I.A⁻¹) s).k = Spec.momentum I A s := by
  unfold physical Spec.momentum
  simp only
  rw [smul_mulVec]

theorem integrate_ok {M : Type} [AddCommGroup M] [Module ℝ M] (c : Const) (I : KInt) (A : Matrix (Fin 3) (Fin 3) ℝ)
    (hI : I.A.det ≠ 0) (hA : A.det ≠ 0) (g : ℝ → Sample → M) (n : ℕ) :
    integrateDfA c I A g n = .ok (integrateDf I (fun e s => g e (physical c (A * I.A⁻¹) s)) n) := by
  have h2 : (A * I.A⁻¹)ᵀ.det ≠ 0 := by
    rw [det_transpose, det_mul, det_nonsing_inv]
    exact mul_ne_zero hA (by simpa using hI)
  simp only [integrateDfA, inv_ok hI, inv_ok h2, bind, Except.bind]

/-- The list of results in closed form. -/
theorem transport_eq (c : Const) (I : KInt) (A : Matrix (Fin 3) (Fin 3) ℝ) (spin : ℝ) (tau : Tau) (maxA : ℕ) (hq : c.q ≠ 0)
    (hI : I.A.det ≠ 0) (hA : A.det ≠ 0) (ht : tau ≠ .other) :
    transport c I A spin tau maxA = .ok ((List.range (maxA + 1)).map fun a =>
      List.zipWith (fun mu wj => (spin * c.q * (((1e-10 : ℝ) • A).det)⁻¹) •
        moment a mu (List.zipWith (fun _ l => surfSum (fun s => tau.at (physical c (A * I.A⁻¹) s).k • outer (physical c (A * I.A⁻¹) s).v) l) I.e I.smp) I.e wj)
        I.mu I.iw) := by
  have e : ∀ a : ℕ, spin * c.q ^ (2 - (a : ℤ)) * (c.q ^ (1 - (a : ℤ)))⁻¹ = spin * c.q := by
    intro a
    rw [mul_assoc, ← zpow_neg, ← zpow_add₀ hq, show (2 - (a : ℤ)) + -(1 - (a : ℤ)) = 1 by ring, zpow_one]
  have key : ∀ L : List (List (Matrix (Fin 3) (Fin 3) ℝ)),
      (L.mapIdx fun a row => row.map fun m => (spin * c.q ^ (2 - (a : ℤ)) * (c.q ^ (1 - (a : ℤ)))⁻¹ * (((1e-10 : ℝ) • A).det)⁻¹) • m) =
      L.map fun row => row.map fun m => (spin * c.q * (((1e-10 : ℝ) • A).det)⁻¹) • m := by
    intro L
    apply List.ext_getElem (by simp)
    intro i h1 h2
    simp only [List.getElem_mapIdx, List.getElem_map, e]
  unfold transport
  simp only [integrate_ok c I A hI hA, bind, Except.bind, key]
  have fin : (List.map (fun row => List.map (fun m => (spin * c.q * (((1e-10 : ℝ) • A).det)⁻¹) • m) row)
      (integrateDf I (fun _ s => tau.at (physical c (A * I.A⁻¹) s).k • outer (physical c (A * I.A⁻¹) s).v) maxA)) =
      (List.range (maxA + 1)).map fun a =>
      List.zipWith (fun mu wj => (spin * c.q * (((1e-10 : ℝ) • A).det)⁻¹) •
        moment a mu (List.zipWith (fun _ l => surfSum (fun s => tau.at (physical c (A * I.A⁻¹) s).k • outer (physical c (A * I.A⁻¹) s).v) l) I.e I.smp) I.e wj)
        I.mu I.iw := by
    unfold integrateDf
    simp only [List.map_map]
    apply List.map_congr_left
    intro a _
    simp only [Function.comp, List.map_zipWith]
  rw [fin]
  cases tau with
  | other => exact absurd rfl ht
  | none => rfl
  | float _ => rfl
  | fn _ => rfl

theorem zipWith_get {α β γ : Type} (f : α → β → γ) (l : List α) (m : List β) (j : ℕ) (x : α) (y : β) (h1 : l[j]? = some x) (h2 : m[j]? = some y) :
    (List.zipWith f l m)[j]? = some (f x y) := by
  rw [List.getElem?_zipWith, h1, h2]

theorem list_sum_mul_left {α : Type} (l : List α) (t : ℝ) (f : α → ℝ) : (l.map fun x => t * f x).sum = t * (l.map f).sum := by
  induction l with
  | nil => simp
  | cons a l ih => simp [ih, mul_add]

theorem sum_flatMap {α : Type} (l : List α) (f : α → List ℝ) : (l.flatMap f).sum = (l.map fun x => (f x).sum).sum := by
  induction l with
  | nil => simp
  | cons a l ih => simp [ih]

theorem bil_moment (c : Const) (I : KInt) (A : Matrix (Fin 3) (Fin 3) ℝ) (tau : Tau) (a : ℕ) (mu : ℝ) (wj : List ℝ) (x y : Fin 3 → ℝ) :
    x ⬝ᵥ (moment a mu (List.zipWith (fun _ l => surfSum (fun s => tau.at (physical c (A * I.A⁻¹) s).k • outer (physical c (A * I.A⁻¹) s).v) l) I.e I.smp) I.e wj *ᵥ y) =
      ((Spec.terms I wj).map fun t => Spec.wt I A tau t * (t.1 - mu) ^ a *
        ((x ⬝ᵥ Spec.velocity c I A t.2.2) * (y ⬝ᵥ Spec.velocity c I A t.2.2))).sum := by
  rw [moment_eq a mu (fun _ l => surfSum (fun s => tau.at (physical c (A * I.A⁻¹) s).k • outer (physical c (A * I.A⁻¹) s).v) l), bil_sum, List.map_map]
  unfold Spec.terms
  rw [List.map_flatMap, sum_flatMap]
  congr 1
  apply List.map_congr_left
  rintro ⟨e, l, w⟩ _
  simp only [Function.comp, bil_smul, surfSum, bil_sum, List.map_map, physical_v, physical_k]
  rw [← list_sum_mul_left]
  congr 1
  apply List.map_congr_left
  intro s _
  simp only [Function.comp, Spec.wt, Sample.w, bil_smul, bil_outer]
  ring

/-- C40.  What `transport_coefficients` returns: for every order `a ≤ max_a` and temperature `j` a matrix `L` with
`x·L y = spin q/V Σ w (e-μ)^a τ (x·v)(y·v)`, the sum over all samples of all surfaces, `V` the cell volume with sign. -/
theorem C40_formula (c : Const) (I : KInt) (A : Matrix (Fin 3) (Fin 3) ℝ) (spin : ℝ) (tau : Tau) (maxA : ℕ) (hq : c.q ≠ 0)
    (hI : I.A.det ≠ 0) (hA : A.det ≠ 0) (ht : tau ≠ .other) :
    ∃ L, transport c I A spin tau maxA = .ok L ∧ L.length = maxA + 1 ∧
      ∀ (a : ℕ) row, L[a]? = some row → row.length = min I.mu.length I.iw.length ∧
      ∀ (j : ℕ) (mu : ℝ) (wj : List ℝ), I.mu[j]? = some mu → I.iw[j]? = some wj → ∃ m, row[j]? = some m ∧ ∀ x y : Fin 3 → ℝ,
        x ⬝ᵥ (m *ᵥ y) = spin * c.q / (1e-30 * A.det) *
          ((Spec.terms I wj).map fun t => Spec.wt I A tau t * (t.1 - mu) ^ a *
            ((x ⬝ᵥ Spec.velocity c I A t.2.2) * (y ⬝ᵥ Spec.velocity c I A t.2.2))).sum := by
  refine ⟨_, transport_eq c I A spin tau maxA hq hI hA ht, by simp, ?_⟩
  intro a row hrow
  rw [List.getElem?_map] at hrow
  obtain ⟨a', ha', hrow⟩ := Option.map_eq_some_iff.1 hrow
  rw [List.getElem?_eq_some_iff] at ha'
  obtain ⟨hlt, ha'⟩ := ha'
  rw [List.getElem_range] at ha'
  subst ha'
  subst hrow
  refine ⟨by simp, ?_⟩
  intro j mu wj hmu hwj
  refine ⟨_, zipWith_get _ _ _ _ _ _ hmu hwj, fun x y => ?_⟩
  rw [bil_smul, bil_moment, det_smul, Fintype.card_fin]
  congr 1
  rw [div_eq_mul_inv]
  norm_num

/-- C40.  Every returned coefficient is symmetric. -/
theorem C40_symmetric (c : Const) (I : KInt) (A : Matrix (Fin 3) (Fin 3) ℝ) (spin : ℝ) (tau : Tau) (maxA : ℕ) (hq : c.q ≠ 0)
    (hI : I.A.det ≠ 0) (hA : A.det ≠ 0) (ht : tau ≠ .other) :
    ∃ L, transport c I A spin tau maxA = .ok L ∧ ∀ row ∈ L, ∀ m ∈ row, mᵀ = m := by
  obtain ⟨L, h1, -, h2⟩ := C40_formula c I A spin tau maxA hq hI hA ht
  refine ⟨L, h1, fun row hrow m hm => ?_⟩
  obtain ⟨a, ha⟩ := List.mem_iff_getElem?.1 hrow
  obtain ⟨hl, h2⟩ := h2 a row ha
  obtain ⟨j, hj⟩ := List.mem_iff_getElem?.1 hm
  have hjl : j < row.length := (List.getElem?_eq_some_iff.1 hj).1
  have j1 : j < I.mu.length := lt_of_lt_of_le hjl (hl ▸ min_le_left _ _)
  have j2 : j < I.iw.length := lt_of_lt_of_le hjl (hl ▸ min_le_right _ _)
  obtain ⟨m', hm', hb⟩ := h2 j _ _ (List.getElem?_eq_getElem j1) (List.getElem?_eq_getElem j2)
  rw [hj, Option.some.injEq] at hm'
  subst hm'
  apply bil_ext
  intro x y
  rw [mulVec_transpose, dotProduct_comm, ← dotProduct_mulVec, hb, hb]
  congr 2
  apply List.map_congr_left
  intro t _
  ring

/-- Weights, scattering times and samples are not negative. -/
def Spec.Nonneg (I : KInt) (A : Matrix (Fin 3) (Fin 3) ℝ) (tau : Tau) : Prop :=
  (∀ wj ∈ I.iw, ∀ w ∈ wj, 0 ≤ w) ∧ (∀ l ∈ I.smp, ∀ s ∈ l, 0 ≤ s.weight) ∧ ∀ l ∈ I.smp, ∀ s ∈ l, 0 ≤ tau.at (Spec.momentum I A s)

theorem wt_nonneg (I : KInt) (A : Matrix (Fin 3) (Fin 3) ℝ) (tau : Tau) (h : Spec.Nonneg I A tau) (wj : List ℝ) (hw : wj ∈ I.iw)
    (t : ℝ × ℝ × Sample) (ht : t ∈ Spec.terms I wj) : 0 ≤ Spec.wt I A tau t := by
  obtain ⟨h1, h2, h3⟩ := h
  unfold Spec.terms at ht
  rw [List.mem_flatMap] at ht
  obtain ⟨⟨e, l, w⟩, hp, ht⟩ := ht
  rw [List.mem_map] at ht
  obtain ⟨s, hs, rfl⟩ := ht
  have hl := (List.of_mem_zip (List.of_mem_zip hp).2)
  unfold Spec.wt
  have := h1 wj hw w hl.2
  have := h2 l hl.1 s hs
  have := h3 l hl.1 s hs
  simp only
  positivity

/-- C40.  For non-negative weights and scattering times and a right-handed lattice the even coefficients (`L0`, `L2`, …) are
positive semidefinite; for a left-handed lattice they are negative semidefinite, because the volume is used with its sign. -/
theorem C40_semidefinite (c : Const) (I : KInt) (A : Matrix (Fin 3) (Fin 3) ℝ) (spin : ℝ) (tau : Tau) (maxA : ℕ) (hq : 0 < c.q)
    (hs : 0 ≤ spin) (hI : I.A.det ≠ 0) (hA : A.det ≠ 0) (ht : tau ≠ .other) (hn : Spec.Nonneg I A tau) :
    ∃ L, transport c I A spin tau maxA = .ok L ∧ ∀ (a : ℕ) row, L[a]? = some row → Even a → ∀ m ∈ row, ∀ x : Fin 3 → ℝ,
      (0 < A.det → 0 ≤ x ⬝ᵥ (m *ᵥ x)) ∧ (A.det < 0 → x ⬝ᵥ (m *ᵥ x) ≤ 0) := by
  obtain ⟨L, h1, -, h2⟩ := C40_formula c I A spin tau maxA hq.ne' hI hA ht
  refine ⟨L, h1, fun a row ha hev m hm x => ?_⟩
  obtain ⟨hl, h2⟩ := h2 a row ha
  obtain ⟨j, hj⟩ := List.mem_iff_getElem?.1 hm
  have hjl : j < row.length := (List.getElem?_eq_some_iff.1 hj).1
  have j1 : j < I.mu.length := lt_of_lt_of_le hjl (hl ▸ min_le_left _ _)
  have j2 : j < I.iw.length := lt_of_lt_of_le hjl (hl ▸ min_le_right _ _)
  obtain ⟨m', hm', hb⟩ := h2 j _ _ (List.getElem?_eq_getElem j1) (List.getElem?_eq_getElem j2)
  rw [hj, Option.some.injEq] at hm'
  subst hm'
  have hsum : 0 ≤ ((Spec.terms I I.iw[j]).map fun t => Spec.wt I A tau t * (t.1 - I.mu[j]) ^ a *
            ((x ⬝ᵥ Spec.velocity c I A t.2.2) * (x ⬝ᵥ Spec.velocity c I A t.2.2))).sum := by
    apply List.sum_nonneg
    intro z hz
    rw [List.mem_map] at hz
    obtain ⟨t, ht, rfl⟩ := hz
    exact mul_nonneg (mul_nonneg (wt_nonneg I A tau hn _ (List.getElem_mem j2) t ht) (hev.pow_nonneg _)) (mul_self_nonneg _)
  rw [hb]
  constructor
  · intro hA'
    exact mul_nonneg (by positivity) hsum
  · intro hA'
    apply mul_nonpos_of_nonpos_of_nonneg _ hsum
    exact div_nonpos_of_nonneg_of_nonpos (by positivity) (mul_nonpos_of_nonneg_of_nonpos (by norm_num) hA'.le)

/-- C40.  The electronic thermal conductivity computed from the returned coefficients is positive semidefinite at every temperature
`T > 0` (right-handed lattice, non-negative weights, invertible conductivity). -/
theorem C40_thermal (c : Const) (I : KInt) (A : Matrix (Fin 3) (Fin 3) ℝ) (spin T : ℝ) (tau : Tau) (hq : 0 < c.q)
    (hs : 0 ≤ spin) (hT : 0 < T) (hI : I.A.det ≠ 0) (hA : 0 < A.det) (ht : tau ≠ .other) (hn : Spec.Nonneg I A tau) :
    ∃ r0 r1 r2, transport c I A spin tau 2 = .ok [r0, r1, r2] ∧
      ∀ (j : ℕ) L0 L1 L2, r0[j]? = some L0 → r1[j]? = some L1 → r2[j]? = some L2 → L0.det ≠ 0 →
        ∃ κ, thermalConductivity [L0, L1, L2] T = .ok κ ∧ ∀ y : Fin 3 → ℝ, 0 ≤ y ⬝ᵥ (κ *ᵥ y) := by
  obtain ⟨L, h1, hlen, h2⟩ := C40_formula c I A spin tau 2 hq.ne' hI hA.ne' ht
  obtain ⟨L', h1', hsym⟩ := C40_symmetric c I A spin tau 2 hq.ne' hI hA.ne' ht
  rw [h1, Except.ok.injEq] at h1'
  subst h1'
  match L, hlen with
  | [r0, r1, r2], _ =>
  refine ⟨r0, r1, r2, h1, ?_⟩
  intro j L0 L1 L2 hj0 hj1 hj2 hdet
  refine ⟨_, thermal_eq L0 L1 L2 [] hdet T, fun y => ?_⟩
  obtain ⟨hl, g0⟩ := h2 0 r0 rfl
  obtain ⟨-, g1⟩ := h2 1 r1 rfl
  obtain ⟨-, g2⟩ := h2 2 r2 rfl
  have hjl : j < r0.length := (List.getElem?_eq_some_iff.1 hj0).1
  have j1 : j < I.mu.length := lt_of_lt_of_le hjl (hl ▸ min_le_left _ _)
  have j2 : j < I.iw.length := lt_of_lt_of_le hjl (hl ▸ min_le_right _ _)
  obtain ⟨m0, hm0, b0⟩ := g0 j _ _ (List.getElem?_eq_getElem j1) (List.getElem?_eq_getElem j2)
  obtain ⟨m1, hm1, b1⟩ := g1 j _ _ (List.getElem?_eq_getElem j1) (List.getElem?_eq_getElem j2)
  obtain ⟨m2, hm2, b2⟩ := g2 j _ _ (List.getElem?_eq_getElem j1) (List.getElem?_eq_getElem j2)
  rw [hj0, Option.some.injEq] at hm0
  rw [hj1, Option.some.injEq] at hm1
  rw [hj2, Option.some.injEq] at hm2
  subst hm0; subst hm1; subst hm2
  have s0 : L0ᵀ = L0 := hsym r0 (by simp) L0 (List.mem_iff_getElem?.2 ⟨j, hj0⟩)
  have s1 : L1ᵀ = L1 := hsym r1 (by simp) L1 (List.mem_iff_getElem?.2 ⟨j, hj1⟩)
  have hu : IsUnit L0.det := isUnit_iff_ne_zero.2 hdet
  set x : Fin 3 → ℝ := -(L0⁻¹ *ᵥ (L1 *ᵥ y)) with hx
  have hq1 : y ⬝ᵥ ((L2 - L1 * L0⁻¹ * L1) *ᵥ y) = x ⬝ᵥ (L0 *ᵥ x) + 2 * (x ⬝ᵥ (L1 *ᵥ y)) + y ⬝ᵥ (L2 *ᵥ y) := by
    have e1 : L0 *ᵥ x = -(L1 *ᵥ y) := by
      rw [hx, mulVec_neg, mulVec_mulVec, mul_nonsing_inv _ hu, one_mulVec]
    have e2 : y ⬝ᵥ ((L1 * L0⁻¹ * L1) *ᵥ y) = -(x ⬝ᵥ (L1 *ᵥ y)) := by
      rw [← mulVec_mulVec, ← mulVec_mulVec, hx, neg_dotProduct, neg_neg, dotProduct_mulVec, ← mulVec_transpose, s1, dotProduct_comm]
    rw [sub_mulVec, dotProduct_sub, e1, e2, dotProduct_neg]
    ring
  rw [bil_smul, hq1, b0, b1, b2]
  apply mul_nonneg (inv_nonneg.2 hT.le)
  have hC : 0 ≤ spin * c.q / (1e-30 * A.det) := by positivity
  have key : ∀ l : List (ℝ × ℝ × Sample), (∀ t ∈ l, 0 ≤ Spec.wt I A tau t) →
      0 ≤ (l.map fun t => Spec.wt I A tau t * (t.1 - I.mu[j]) ^ 0 * ((x ⬝ᵥ Spec.velocity c I A t.2.2) * (x ⬝ᵥ Spec.velocity c I A t.2.2))).sum +
        2 * (l.map fun t => Spec.wt I A tau t * (t.1 - I.mu[j]) ^ 1 * ((x ⬝ᵥ Spec.velocity c I A t.2.2) * (y ⬝ᵥ Spec.velocity c I A t.2.2))).sum +
        (l.map fun t => Spec.wt I A tau t * (t.1 - I.mu[j]) ^ 2 * ((y ⬝ᵥ Spec.velocity c I A t.2.2) * (y ⬝ᵥ Spec.velocity c I A t.2.2))).sum := by
    intro l hl
    induction l with
    | nil => simp
    | cons t l ih =>
      have hih := ih fun s hs => hl s (List.mem_cons_of_mem _ hs)
      simp only [List.map_cons, List.sum_cons]
      have hw := hl t List.mem_cons_self
      have hsq : 0 ≤ Spec.wt I A tau t * (x ⬝ᵥ Spec.velocity c I A t.2.2 + (t.1 - I.mu[j]) * (y ⬝ᵥ Spec.velocity c I A t.2.2)) ^ 2 :=
        mul_nonneg hw (sq_nonneg _)
      nlinarith [hih, hsq]
  have hk := key (Spec.terms I I.iw[j]) fun t ht => wt_nonneg I A tau hn _ (List.getElem_mem j2) t ht
  have := mul_nonneg hC hk
  linarith

/-- C40.  `drude_factor` is `L0` without scattering time. -/
theorem C40_drude (c : Const) (I : KInt) (A : Matrix (Fin 3) (Fin 3) ℝ) (spin : ℝ) (maxA : ℕ) (hq : c.q ≠ 0) (hI : I.A.det ≠ 0)
    (hA : A.det ≠ 0) :
    ∃ L row, transport c I A spin .none maxA = .ok L ∧ L[0]? = some row ∧ drude c I A spin = .ok row := by
  refine ⟨_, _, transport_eq c I A spin .none maxA hq hI hA (by simp), by rw [List.getElem?_map, List.getElem?_range (Nat.succ_pos _)]; rfl, ?_⟩
  unfold drude
  simp only [integrate_ok c I A hI hA, bind, Except.bind, integrateDf, item]
  simp only [zero_add, List.range_one, List.map_cons, List.map_nil, List.getElem?_cons_zero, List.map_zipWith]
  congr 1
  have : spin * c.q ^ 2 * c.q⁻¹ = spin * c.q := by field_simp
  simp only [this, Tau.at, one_smul]

/-- C40.  A rotation of the lattice rotates the coefficients. -/
theorem C40_rotation (c : Const) (I : KInt) (A R : Matrix (Fin 3) (Fin 3) ℝ) (spin : ℝ) (tau tau' : Tau) (maxA : ℕ) (hq : c.q ≠ 0)
    (hI : I.A.det ≠ 0) (hA : A.det ≠ 0) (ht : tau ≠ .other) (ht' : tau' ≠ .other) (hR : Rᵀ * R = 1) (hR1 : R.det = 1)
    (hτ : ∀ k, tau'.at (R *ᵥ k) = tau.at k) :
    ∃ L, transport c I A spin tau maxA = .ok L ∧
      transport c I (R * A) spin tau' maxA = .ok (L.map fun row => row.map fun m => R * m * Rᵀ) := by
  have hRA : (R * A).det ≠ 0 := by rw [det_mul, hR1, one_mul]; exact hA
  refine ⟨_, transport_eq c I A spin tau maxA hq hI hA ht, ?_⟩
  rw [transport_eq c I (R * A) spin tau' maxA hq hI hRA ht']
  congr 1
  rw [List.map_map]
  apply List.map_congr_left
  intro a _
  simp only [Function.comp, List.map_zipWith]
  congr 1
  funext mu wj
  apply bil_ext
  intro x y
  have hvel : ∀ s, Spec.velocity c I (R * A) s = R *ᵥ Spec.velocity c I A s := by
    intro s
    unfold Spec.velocity
    rw [Matrix.mul_assoc, mulVec_smul, mulVec_mulVec]
  have hRi : R⁻¹ = Rᵀ := inv_eq_left_inv hR
  have hmom : ∀ s, Spec.momentum I (R * A) s = R *ᵥ Spec.momentum I A s := by
    intro s
    unfold Spec.momentum
    rw [Matrix.mul_assoc, transpose_mul, Matrix.mul_inv_rev, ← transpose_nonsing_inv, hRi, transpose_transpose, mulVec_smul, mulVec_mulVec]
  have hdot : ∀ (z v : Fin 3 → ℝ), z ⬝ᵥ (R *ᵥ v) = (Rᵀ *ᵥ z) ⬝ᵥ v := by
    intro z v
    rw [dotProduct_mulVec, mulVec_transpose]
  have hr : x ⬝ᵥ ((R * ((spin * c.q * (((1e-10 : ℝ) • A).det)⁻¹) •
        moment a mu (List.zipWith (fun _ l => surfSum (fun s => tau.at (physical c (A * I.A⁻¹) s).k • outer (physical c (A * I.A⁻¹) s).v) l) I.e I.smp) I.e wj) * Rᵀ) *ᵥ y) =
      (Rᵀ *ᵥ x) ⬝ᵥ (((spin * c.q * (((1e-10 : ℝ) • A).det)⁻¹) •
        moment a mu (List.zipWith (fun _ l => surfSum (fun s => tau.at (physical c (A * I.A⁻¹) s).k • outer (physical c (A * I.A⁻¹) s).v) l) I.e I.smp) I.e wj) *ᵥ (Rᵀ *ᵥ y)) := by
    rw [← mulVec_mulVec, ← mulVec_mulVec, hdot]
  rw [hr, bil_smul, bil_smul, bil_moment, bil_moment, det_smul, det_smul, det_mul, hR1, one_mul]
  congr 2
  apply List.map_congr_left
  intro t _
  unfold Spec.wt
  rw [hvel, hmom, hτ, hdot, hdot]

/-- C40.  Errors: a singular lattice, and a scattering time that is neither missing, a float nor a function. -/
theorem C40_errors (c : Const) (I : KInt) (A : Matrix (Fin 3) (Fin 3) ℝ) (spin : ℝ) (tau : Tau) (maxA : ℕ) :
    (I.A.det = 0 ∨ A.det = 0 → transport c I A spin tau maxA = .error .valueError) ∧
    (I.A.det ≠ 0 → A.det ≠ 0 → I.e ≠ [] → transport c I A spin .other maxA = .error .typeError) := by
  constructor
  · intro h
    by_cases hI : I.A.det = 0
    · simp only [transport, integrateDfA, inv_err hI, bind, Except.bind]
    · have hA : A.det = 0 := h.resolve_left hI
      have h2 : (A * I.A⁻¹)ᵀ.det = 0 := by rw [det_transpose, det_mul, hA, zero_mul]
      simp only [transport, integrateDfA, inv_ok hI, inv_err h2, bind, Except.bind]
  · intro hI hA he
    obtain ⟨e, es, hes⟩ := List.exists_cons_of_ne_nil he
    simp only [transport, integrate_ok c I A hI hA, bind, Except.bind, hes]

/-- One surface with two samples, at one temperature. -/
noncomputable def exInt : KInt where
  e := [1]
  smp := [[⟨![0, 0, 0], ![1, 0, 0], 1, 1⟩, ⟨![0, 0, 0], ![0, 2, 1], 1, 3⟩]]
  mu := [1 / 2]
  iw := [[1]]
  A := 1

example : exInt.A.det ≠ 0 ∧ (1 : Matrix (Fin 3) (Fin 3) ℝ).det > 0 ∧ Spec.Nonneg exInt 1 (.float 2) := by
  refine ⟨by simp [exInt], by simp, ?_, ?_, ?_⟩
  · intro wj h w hw
    simp only [exInt, List.mem_singleton] at h
    subst h
    simp only [List.mem_singleton] at hw
    subst hw
    norm_num
  · intro l hl s hs
    simp only [exInt, List.mem_singleton] at hl
    subst hl
    simp only [List.mem_cons, List.not_mem_nil, or_false] at hs
    rcases hs with rfl | rfl <;> norm_num
  · intro l _ s _
    simp [Tau.at]

example : (Tau.float 2) ≠ .other := by simp

end C40

end TB.Bulk

import Mathlib.Analysis.SpecialFunctions.Trigonometric.Basic
import Mathlib.Tactic.FinCases
import Mathlib.Tactic.IntervalCases
import Mathlib.Tactic.Linarith
import Mathlib.Tactic.LinearCombination
import Mathlib.Tactic.Ring
import Mathlib.Tactic.FieldSimp
import Verif.Model.Icosahedral
import Verif.Props.CyclicGroups

/-!
# Lemmas for C127: coordinates of the icosahedron and how the two rotations permute its vertices
-/

set_option linter.unusedSimpArgs false

namespace TB.Ico
open TB Matrix

/-- `sin 72°`. -/
noncomputable def s5 : ℝ := Real.sin (2 * Real.pi / 5)

theorem q_sq : (√5 : ℝ) ^ 2 = 5 := Real.sq_sqrt (by norm_num)

theorem q_pos : (0 : ℝ) < √5 := Real.sqrt_pos.2 (by norm_num)

theorem cos72 : Real.cos (2 * Real.pi / 5) = (√5 - 1) / 4 := by
  rw [show 2 * Real.pi / 5 = 2 * (Real.pi / 5) by ring, Real.cos_two_mul, Real.cos_pi_div_five]
  linear_combination q_sq / 8

theorem s5_pos : 0 < s5 := by
  apply Real.sin_pos_of_pos_of_lt_pi
  · positivity
  · have := Real.pi_pos; linarith

theorem s5_sq : s5 ^ 2 = (5 + √5) / 8 := by
  have h := Real.sin_sq_add_cos_sq (2 * Real.pi / 5)
  rw [cos72] at h
  rw [s5]
  linear_combination h - q_sq / 16

theorem sin144 : Real.sin (4 * Real.pi / 5) = s5 * (√5 - 1) / 2 := by
  rw [show 4 * Real.pi / 5 = 2 * (2 * Real.pi / 5) by ring, Real.sin_two_mul, cos72, s5]
  ring

theorem cos144 : Real.cos (4 * Real.pi / 5) = -(√5 + 1) / 4 := by
  rw [show 4 * Real.pi / 5 = 2 * (2 * Real.pi / 5) by ring, Real.cos_two_mul, cos72]
  linear_combination q_sq / 8

/-- The twelve vertices: the north pole, the upper ring starting at azimuth 90°, and their opposites. -/
noncomputable def vert : Fin 12 → Fin 3 → ℝ :=
  ![![0, 0, 1],
    ![0, 2 * √5 / 5, √5 / 5],
    ![-(2 * √5 / 5 * s5), 2 * √5 / 5 * ((√5 - 1) / 4), √5 / 5],
    ![-(2 * √5 / 5 * (s5 * (√5 - 1) / 2)), 2 * √5 / 5 * (-(√5 + 1) / 4), √5 / 5],
    ![2 * √5 / 5 * (s5 * (√5 - 1) / 2), 2 * √5 / 5 * (-(√5 + 1) / 4), √5 / 5],
    ![2 * √5 / 5 * s5, 2 * √5 / 5 * ((√5 - 1) / 4), √5 / 5],
    ![0, 0, -1],
    ![0, -(2 * √5 / 5), -(√5 / 5)],
    ![2 * √5 / 5 * s5, -(2 * √5 / 5 * ((√5 - 1) / 4)), -(√5 / 5)],
    ![2 * √5 / 5 * (s5 * (√5 - 1) / 2), -(2 * √5 / 5 * (-(√5 + 1) / 4)), -(√5 / 5)],
    ![-(2 * √5 / 5 * (s5 * (√5 - 1) / 2)), -(2 * √5 / 5 * (-(√5 + 1) / 4)), -(√5 / 5)],
    ![-(2 * √5 / 5 * s5), -(2 * √5 / 5 * ((√5 - 1) / 4)), -(√5 / 5)]]

/-- The fifth part of a turn around the z-axis. -/
noncomputable def rA : Mat ℝ 3 := !![(√5 - 1) / 4, s5, 0; -s5, (√5 - 1) / 4, 0; 0, 0, 1]

/-- The same around the first vertex of the ring. -/
noncomputable def rB : Mat ℝ 3 :=
  !![(√5 - 1) / 4, √5 / 5 * s5, -(2 * √5 / 5 * s5);
     -(√5 / 5 * s5), ((√5 - 1) / 4 + 4) / 5, 2 * (1 - (√5 - 1) / 4) / 5;
     2 * √5 / 5 * s5, 2 * (1 - (√5 - 1) / 4) / 5, (4 * ((√5 - 1) / 4) + 1) / 5]

def pA : Fin 12 → Fin 12 := ![0, 5, 1, 2, 3, 4, 6, 11, 7, 8, 9, 10]
def pB : Fin 12 → Fin 12 := ![2, 1, 10, 11, 3, 0, 8, 7, 4, 5, 9, 6]

theorem q_inv : (√5 : ℝ)⁻¹ = √5 / 5 := by
  have := q_pos.ne'
  field_simp
  linear_combination -q_sq

theorem rA_vert (i : Fin 12) : rA *ᵥ vert i = vert (pA i) := by
  have h2 := q_sq
  have h3 : (√5 : ℝ) ^ 3 = 5 * √5 := by linear_combination √5 * q_sq
  have s2 := s5_sq
  fin_cases i <;> ext j <;> fin_cases j <;>
    simp [rA, vert, pA, Matrix.mulVec, dotProduct, Fin.sum_univ_three] <;> ring_nf <;>
    (try simp only [h2, h3, s2]) <;> ring_nf <;> (try simp only [h2, h3, s2]) <;> (try ring_nf)

theorem rB_vert (i : Fin 12) : rB *ᵥ vert i = vert (pB i) := by
  have h2 := q_sq
  have h3 : (√5 : ℝ) ^ 3 = 5 * √5 := by linear_combination √5 * q_sq
  have h4 : (√5 : ℝ) ^ 4 = 25 := by linear_combination ((√5 : ℝ) ^ 2 + 5) * q_sq
  have s2 := s5_sq
  fin_cases i <;> ext j <;> fin_cases j <;>
    simp [rB, vert, pB, Matrix.mulVec, dotProduct, Fin.sum_univ_three] <;> ring_nf <;>
    (try simp only [h2, h3, h4, s2]) <;> ring_nf <;> (try simp only [h2, h3, h4, s2]) <;> (try ring_nf)

/-! ## The vertices are distinct -/

theorem q_bounds : (223 / 100 : ℝ) < √5 ∧ (√5 : ℝ) < 224 / 100 := by
  constructor
  · apply Real.lt_sqrt_of_sq_lt; norm_num
  · rw [Real.sqrt_lt' (by norm_num)]; norm_num

theorem s5_bounds : (95 / 100 : ℝ) < s5 ∧ s5 < 952 / 1000 := by
  obtain ⟨h1, h2⟩ := q_bounds
  have h := s5_sq
  have hp := s5_pos
  constructor
  · by_contra hc
    have : s5 ≤ 95 / 100 := not_lt.1 hc
    nlinarith
  · by_contra hc
    have : 952 / 1000 ≤ s5 := not_lt.1 hc
    nlinarith

/-- The order of the vertices by `10 z + x`. -/
def ordV : Fin 12 → Fin 12 := ![6, 11, 10, 7, 9, 8, 2, 3, 1, 4, 5, 0]

theorem ordV_mono : StrictMono fun i => 10 * vert (ordV i) 2 + vert (ordV i) 0 := by
  obtain ⟨h1, h2⟩ := q_bounds
  obtain ⟨g1, g2⟩ := s5_bounds
  have h3 := q_sq
  have hx1 : 84 / 100 < 2 * √5 / 5 * s5 := by nlinarith
  have hx2 : 2 * √5 / 5 * s5 < 86 / 100 := by nlinarith
  have e : 2 * √5 / 5 * (s5 * (√5 - 1) / 2) = s5 - 2 * √5 / 5 * s5 / 2 := by linear_combination s5 / 5 * h3
  have hy1 : 1 / 2 < 2 * √5 / 5 * (s5 * (√5 - 1) / 2) := by rw [e]; linarith
  have hy2 : 2 * √5 / 5 * (s5 * (√5 - 1) / 2) < 54 / 100 := by rw [e]; linarith
  rw [Fin.strictMono_iff_lt_succ]
  intro i
  clear e
  unfold vert
  generalize 2 * √5 / 5 * (s5 * (√5 - 1) / 2) = y at *
  generalize 2 * √5 / 5 * s5 = x at *
  fin_cases i
  · show 10 * (-1) + (0 : ℝ) < 10 * (-(√5 / 5)) + -x; linarith
  · show 10 * (-(√5 / 5)) + -x < 10 * (-(√5 / 5)) + -y; linarith
  · show 10 * (-(√5 / 5)) + -y < 10 * (-(√5 / 5)) + 0; linarith
  · show 10 * (-(√5 / 5)) + 0 < 10 * (-(√5 / 5)) + y; linarith
  · show 10 * (-(√5 / 5)) + y < 10 * (-(√5 / 5)) + x; linarith
  · show 10 * (-(√5 / 5)) + x < 10 * (√5 / 5) + -x; linarith
  · show 10 * (√5 / 5) + -x < 10 * (√5 / 5) + -y; linarith
  · show 10 * (√5 / 5) + -y < 10 * (√5 / 5) + 0; linarith
  · show 10 * (√5 / 5) + 0 < 10 * (√5 / 5) + y; linarith
  · show 10 * (√5 / 5) + y < 10 * (√5 / 5) + x; linarith
  · show 10 * (√5 / 5) + x < 10 * 1 + (0 : ℝ); linarith

theorem ordV_surj (i : Fin 12) : ∃ j, ordV j = i := by revert i; decide

theorem vert_inj : Function.Injective vert := by
  intro i j h
  obtain ⟨i', rfl⟩ := ordV_surj i
  obtain ⟨j', rfl⟩ := ordV_surj j
  rw [ordV_mono.injective (a₁ := i') (a₂ := j') (by simp only [h])]

/-! ## The rotations that permute the vertices -/

/-- Rotations that map vertices to vertices. -/
def IsRot (M : Mat ℝ 3) : Prop := M.transpose * M = 1 ∧ M.det = 1 ∧ ∀ i, ∃ j, M *ᵥ vert i = vert j

theorem IsRot.one : IsRot 1 := ⟨by simp, by simp, fun i => ⟨i, by simp⟩⟩

theorem IsRot.mul {M N : Mat ℝ 3} (hM : IsRot M) (hN : IsRot N) : IsRot (M * N) := by
  refine ⟨?_, by rw [Matrix.det_mul, hM.2.1, hN.2.1, one_mul], fun i => ?_⟩
  · rw [Matrix.transpose_mul, Matrix.mul_assoc, ← Matrix.mul_assoc M.transpose, hM.1, Matrix.one_mul, hN.1]
  · obtain ⟨j, hj⟩ := hN.2.2 i
    obtain ⟨k, hk⟩ := hM.2.2 j
    exact ⟨k, by rw [← Matrix.mulVec_mulVec, hj, hk]⟩

theorem orth_comm {M : Mat ℝ 3} (h : M.transpose * M = 1) : M * M.transpose = 1 := mul_eq_one_comm.1 h

theorem IsRot.transpose {M : Mat ℝ 3} (h : IsRot M) : IsRot M.transpose := by
  refine ⟨by rw [Matrix.transpose_transpose]; exact orth_comm h.1, by rw [Matrix.det_transpose, h.2.1], ?_⟩
  choose f hf using h.2.2
  have hinj : Function.Injective f := by
    intro i j hij
    apply vert_inj
    have : M.transpose *ᵥ (M *ᵥ vert i) = M.transpose *ᵥ (M *ᵥ vert j) := by rw [hf, hf, hij]
    simpa [Matrix.mulVec_mulVec, h.1] using this
  intro i
  obtain ⟨j, hj⟩ := Finite.surjective_of_injective hinj i
  exact ⟨j, by rw [← hj, ← hf, Matrix.mulVec_mulVec, h.1, Matrix.one_mulVec]⟩

theorem rA_isRot : IsRot rA := by
  refine ⟨?_, ?_, fun i => ⟨_, rA_vert i⟩⟩
  · ext i j
    fin_cases i <;> fin_cases j <;> simp [rA, Matrix.mul_apply, Fin.sum_univ_three] <;>
      first | linear_combination q_sq / 16 + s5_sq | ring
  · simp [rA, Matrix.det_fin_three]
    linear_combination q_sq / 16 + s5_sq

theorem icoBasis_orth : icoBasis.transpose * icoBasis = 1 := by
  ext i j
  fin_cases i <;> fin_cases j <;> simp [icoBasis, q_inv, Matrix.mul_apply, Fin.sum_univ_three] <;>
    first | linear_combination q_sq / 5 | linear_combination q_sq / 25 | ring

theorem icoBasis_inv : icoBasis⁻¹ = icoBasis.transpose := Matrix.inv_eq_left_inv icoBasis_orth

theorem icoBasis_det : icoBasis.det = 1 := by
  simp [icoBasis, q_inv, Matrix.det_fin_three]
  linear_combination q_sq / 5

theorem conj_rA : icoBasis * rA * icoBasis⁻¹ = rB := by
  have h2 := q_sq
  rw [icoBasis_inv]
  ext i j
  fin_cases i <;> fin_cases j <;>
    simp [icoBasis, q_inv, rA, rB, Matrix.mul_apply, Fin.sum_univ_three] <;> ring_nf <;>
    (try simp only [h2, show (√5 : ℝ) ^ 3 = 5 * √5 by linear_combination √5 * q_sq]) <;> (try ring_nf)
  exact Or.inl trivial

theorem rB_isRot : IsRot rB := by
  refine ⟨?_, ?_, fun i => ⟨_, rB_vert i⟩⟩
  · rw [← conj_rA, icoBasis_inv]
    simp only [Matrix.transpose_mul, Matrix.transpose_transpose]
    have h1 := icoBasis_orth
    have h2 := rA_isRot.1
    have h3 := orth_comm icoBasis_orth
    calc icoBasis * (rA.transpose * icoBasis.transpose) * (icoBasis * rA * icoBasis.transpose)
        = icoBasis * rA.transpose * (icoBasis.transpose * icoBasis) * rA * icoBasis.transpose := by
          simp only [Matrix.mul_assoc]
      _ = icoBasis * (rA.transpose * rA) * icoBasis.transpose := by rw [h1, Matrix.mul_one]; simp only [Matrix.mul_assoc]
      _ = 1 := by rw [h2, Matrix.mul_one, h3]
  · rw [← conj_rA, icoBasis_inv, Matrix.det_mul, Matrix.det_mul, Matrix.det_transpose, icoBasis_det, rA_isRot.2.1]
    norm_num

/-- An orthogonal matrix of determinant 1 that fixes the first two vertices is the identity. -/
theorem eq_one_of_fix {M : Mat ℝ 3} (h : M.transpose * M = 1) (hd : M.det = 1) (h0 : M *ᵥ vert 0 = vert 0)
    (h1 : M *ᵥ vert 1 = vert 1) : M = 1 := by
  have a0 := congrFun h0 0
  have a1 := congrFun h0 1
  have a2 := congrFun h0 2
  have b0 := congrFun h1 0
  have b1 := congrFun h1 1
  have b2 := congrFun h1 2
  simp [vert, Matrix.mulVec, dotProduct, Fin.sum_univ_three] at a0 a1 a2 b0 b1 b2
  have hq := q_pos.ne'
  rw [a0] at b0
  rw [a1] at b1
  rw [a2] at b2
  have c0 : M 0 1 = 0 := by simpa using b0
  have c1 : M 1 1 = 1 := by
    have : 2 * √5 / 5 * (M 1 1 - 1) = 0 := by linear_combination b1
    have := (mul_eq_zero.1 this).resolve_left (by positivity)
    linarith
  have c2 : M 2 1 = 0 := by simpa using b2
  have o1 := congrFun (congrFun h 0) 1
  have o2 := congrFun (congrFun h 0) 2
  simp [Matrix.mul_apply, Fin.sum_univ_three, c0, c1, c2, a0, a1, a2] at o1 o2
  rw [Matrix.det_fin_three, a0, a1, a2, c0, c1, c2, o1, o2] at hd
  have d0 : M 0 0 = 1 := by linarith
  ext i j
  fin_cases i <;> fin_cases j <;> simp [a0, a1, a2, c0, c1, c2, o1, o2, d0]

theorem dot_orth {M : Mat ℝ 3} (h : M.transpose * M = 1) (v w : Fin 3 → ℝ) : (M *ᵥ v) ⬝ᵥ (M *ᵥ w) = v ⬝ᵥ w := by
  rw [Matrix.dotProduct_mulVec, Matrix.vecMul_mulVec, ← Matrix.dotProduct_mulVec]
  rw [h, Matrix.one_mulVec]

/-- Words in the two rotations: `true` is `rA`. -/
noncomputable def wmat (l : List Bool) : Mat ℝ 3 := (l.map fun b => if b then rA else rB).prod

def wperm (l : List Bool) (i : Fin 12) : Fin 12 := l.foldr (fun b i => if b then pA i else pB i) i

theorem wmat_vert (l : List Bool) (i : Fin 12) : wmat l *ᵥ vert i = vert (wperm l i) := by
  induction l with
  | nil => simp [wmat, wperm]
  | cons b l ih =>
    have : wmat (b :: l) = (if b then rA else rB) * wmat l := by simp [wmat]
    rw [this, ← Matrix.mulVec_mulVec, ih]
    cases b
    · simpa [wperm] using rB_vert _
    · simpa [wperm] using rA_vert _

theorem wmat_isRot (l : List Bool) : IsRot (wmat l) := by
  induction l with
  | nil => simpa [wmat] using IsRot.one
  | cons b l ih =>
    have : wmat (b :: l) = (if b then rA else rB) * wmat l := by simp [wmat]
    rw [this]
    cases b
    · exact rB_isRot.mul ih
    · exact rA_isRot.mul ih

theorem wmat_append (l m : List Bool) : wmat (l ++ m) = wmat l * wmat m := by simp [wmat]

/-- A word that leads from the pole to the vertex. -/
def toV : Fin 12 → List Bool :=
  ![[], [true, false], [false], [true, true, true, true, false], [true, true, true, false], [true, true, false],
    [false, false, true, true, true, true, false], [true, true, true, false, false], [true, true, false, false],
    [true, false, false], [false, false], [false, true, true, true, true, false]]

theorem toV_spec (i : Fin 12) : wperm (toV i) 0 = i := by revert i; decide

/-- The sixty words. -/
def words : List (List Bool) :=
  (List.finRange 12).flatMap fun i => (List.range 5).map fun k => toV i ++ List.replicate k true

theorem words_length : words.length = 60 := by decide

theorem words_images : (words.map fun l => (wperm l 0, wperm l 1)).Nodup := by decide

theorem words_nodup : (words.map wmat).Nodup := by
  have h := words_images
  rw [List.nodup_iff_injective_get] at h ⊢
  have h' : ∀ a ∈ words, ∀ b ∈ words, wmat a = wmat b → wperm a 0 = wperm b 0 ∧ wperm a 1 = wperm b 1 := by
    intro a _ b _ hab
    constructor <;> apply vert_inj <;> rw [← wmat_vert, ← wmat_vert, hab]
  intro i j hij
  have hi : i.val < words.length := by simpa using i.isLt
  have hj : j.val < words.length := by simpa using j.isLt
  simp only [List.get_eq_getElem, List.getElem_map] at hij
  have := h' _ (List.getElem_mem hi) _ (List.getElem_mem hj) hij
  have e := @h ⟨i.val, by simpa using hi⟩ ⟨j.val, by simpa using hj⟩ (by
    simp only [List.get_eq_getElem, List.getElem_map]
    exact Prod.ext this.1 this.2)
  exact Fin.ext (by simpa using e)

theorem vert_two (j : Fin 12) (h : vert j 2 = √5 / 5) : ∃ k < 5, wperm (List.replicate k true) 1 = j := by
  have hq := q_bounds
  fin_cases j <;> simp [vert] at h
  all_goals first
    | (exfalso; linarith [hq.1, hq.2])
    | exact ⟨0, by decide, by decide⟩
    | exact ⟨1, by decide, by decide⟩
    | exact ⟨2, by decide, by decide⟩
    | exact ⟨3, by decide, by decide⟩
    | exact ⟨4, by decide, by decide⟩

/-- The rotations that permute the vertices are the sixty words. -/
theorem isRot_iff (M : Mat ℝ 3) : IsRot M ↔ M ∈ words.map wmat := by
  constructor
  · intro h
    obtain ⟨i, hi⟩ := h.2.2 0
    have hw := wmat_isRot (toV i)
    have hN : IsRot ((wmat (toV i)).transpose * M) := hw.transpose.mul h
    have hN0 : ((wmat (toV i)).transpose * M) *ᵥ vert 0 = vert 0 := by
      rw [← Matrix.mulVec_mulVec, hi, ← toV_spec i, ← wmat_vert, Matrix.mulVec_mulVec, toV_spec, hw.1, Matrix.one_mulVec]
    obtain ⟨j, hj⟩ := hN.2.2 1
    have hdot := dot_orth hN.1 (vert 1) (vert 0)
    rw [hN0, hj] at hdot
    obtain ⟨k, hk, hkj⟩ := vert_two j (by simpa [vert, dotProduct, Fin.sum_univ_three] using hdot)
    have hr := wmat_isRot (List.replicate k true)
    have h0 : wperm (List.replicate k true) 0 = 0 := by
      clear hkj hr
      interval_cases k <;> decide
    have e : (wmat (List.replicate k true)).transpose * ((wmat (toV i)).transpose * M) = 1 := by
      have hQ := hr.transpose.mul hN
      refine eq_one_of_fix hQ.1 hQ.2.1 ?_ ?_
      · have := wmat_vert (List.replicate k true) 0
        rw [h0] at this
        rw [← Matrix.mulVec_mulVec, hN0]
        conv_lhs => rw [← this]
        rw [Matrix.mulVec_mulVec, hr.1, Matrix.one_mulVec]
      · rw [← Matrix.mulVec_mulVec, hj, ← hkj, ← wmat_vert, Matrix.mulVec_mulVec, hr.1, Matrix.one_mulVec]
    refine List.mem_map.2 ⟨toV i ++ List.replicate k true, ?_, ?_⟩
    · exact List.mem_flatMap.2 ⟨i, List.mem_finRange i, List.mem_map.2 ⟨k, List.mem_range.2 hk, rfl⟩⟩
    · rw [wmat_append]
      calc wmat (toV i) * wmat (List.replicate k true)
          = wmat (toV i) * wmat (List.replicate k true) *
              ((wmat (List.replicate k true)).transpose * ((wmat (toV i)).transpose * M)) := by rw [e, Matrix.mul_one]
        _ = wmat (toV i) * (wmat (List.replicate k true) * (wmat (List.replicate k true)).transpose) *
              (wmat (toV i)).transpose * M := by simp only [Matrix.mul_assoc]
        _ = M := by rw [orth_comm hr.1, Matrix.mul_one, orth_comm hw.1, Matrix.one_mul]
  · intro h
    obtain ⟨l, -, rfl⟩ := List.mem_map.1 h
    exact wmat_isRot l

end TB.Ico

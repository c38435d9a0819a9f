import Verif.Lemmas.Icosahedral

/-!
# Property C127: the icosahedral group
-/

namespace TB.PropsIco
open TB Matrix TB.Spec TB.Ico

/-! ## Specification -/

/-- The vertex number `k` of the upper ring of the icosahedron of radius 1 around the z-axis, at the azimuth `x + 2 π k / 5`. -/
noncomputable def Spec.ring (x : ℝ) (k : ℤ) : Fin 3 → ℝ :=
  ![2 / √5 * Real.cos (x + 2 * Real.pi * k / 5), 2 / √5 * Real.sin (x + 2 * Real.pi * k / 5), 1 / √5]

/-- The vertices of the icosahedron of radius 1 aligned along the z-axis, whose upper ring has a vertex at the azimuth `x`. -/
def Spec.icosahedron (x : ℝ) : Set (Fin 3 → ℝ) :=
  {v | v = ![0, 0, 1] ∨ v = -![0, 0, 1] ∨ ∃ k : ℤ, v = Spec.ring x k ∨ v = -Spec.ring x k}

/-! ## The vertices of the lemmas are those of the specification -/

theorem ring_mod (x : ℝ) (k : ℤ) : Spec.ring x k = Spec.ring x (k % 5) := by
  have h : x + 2 * Real.pi * (k : ℝ) / 5 = x + 2 * Real.pi * ((k % 5 : ℤ) : ℝ) / 5 + ((k / 5 : ℤ) : ℝ) * (2 * Real.pi) := by
    have : (k : ℝ) = 5 * ((k / 5 : ℤ) : ℝ) + ((k % 5 : ℤ) : ℝ) := by exact_mod_cast (Int.mul_ediv_add_emod k 5).symm
    rw [this]
    ring
  simp only [Spec.ring]
  rw [h, Real.cos_add_int_mul_two_pi, Real.sin_add_int_mul_two_pi]

theorem q2 : 2 / √5 = 2 * √5 / 5 := by rw [div_eq_mul_inv, q_inv]; ring

theorem q1 : 1 / √5 = √5 / 5 := by rw [one_div, q_inv]

theorem ring_0 : Spec.ring (Real.pi / 2) 0 = vert 1 := by
  simp [Spec.ring, vert, q2, q_inv]

theorem ring_1 : Spec.ring (Real.pi / 2) 1 = vert 2 := by
  simp only [Spec.ring, Int.cast_one, mul_one, add_comm (Real.pi / 2), Real.cos_add_pi_div_two, Real.sin_add_pi_div_two, cos72, q2, q1]
  ext i; fin_cases i <;> simp [vert, s5]

theorem ring_2 : Spec.ring (Real.pi / 2) 2 = vert 3 := by
  simp only [Spec.ring, add_comm (Real.pi / 2), Real.cos_add_pi_div_two, Real.sin_add_pi_div_two, q2, q1]
  rw [show 2 * Real.pi * ((2 : ℤ) : ℝ) / 5 = 4 * Real.pi / 5 by push_cast; ring, cos144, sin144]
  ext i; fin_cases i <;> simp [vert]

theorem ring_3 : Spec.ring (Real.pi / 2) 3 = vert 4 := by
  simp only [Spec.ring, add_comm (Real.pi / 2), Real.cos_add_pi_div_two, Real.sin_add_pi_div_two, q2, q1]
  rw [show 2 * Real.pi * ((3 : ℤ) : ℝ) / 5 = 2 * Real.pi - 4 * Real.pi / 5 by push_cast; ring, Real.cos_two_pi_sub,
    Real.sin_two_pi_sub, cos144, sin144]
  ext i; fin_cases i <;> simp [vert]

theorem ring_4 : Spec.ring (Real.pi / 2) 4 = vert 5 := by
  simp only [Spec.ring, add_comm (Real.pi / 2), Real.cos_add_pi_div_two, Real.sin_add_pi_div_two, q2, q1]
  rw [show 2 * Real.pi * ((4 : ℤ) : ℝ) / 5 = 2 * Real.pi - 2 * Real.pi / 5 by push_cast; ring, Real.cos_two_pi_sub,
    Real.sin_two_pi_sub, cos72]
  ext i; fin_cases i <;> simp [vert, s5]

theorem vert_neg (i : Fin 12) : vert (i + 6) = -vert i := by
  fin_cases i <;> ext j <;> fin_cases j <;> simp [vert]

theorem mem_ico (v : Fin 3 → ℝ) : v ∈ Spec.icosahedron (Real.pi / 2) ↔ ∃ i, v = vert i := by
  have h0 : ![0, 0, 1] = vert 0 := rfl
  constructor
  · rintro (rfl | rfl | ⟨k, h⟩)
    · exact ⟨0, rfl⟩
    · exact ⟨6, by rw [h0, ← vert_neg]; rfl⟩
    · have hr : ∃ i, Spec.ring (Real.pi / 2) k = vert i := by
        rw [ring_mod]
        have h1 := Int.emod_nonneg k (show (5 : ℤ) ≠ 0 by norm_num)
        have h2 := Int.emod_lt_of_pos k (show (0 : ℤ) < 5 by norm_num)
        generalize k % 5 = m at *
        interval_cases m
        · exact ⟨_, ring_0⟩
        · exact ⟨_, ring_1⟩
        · exact ⟨_, ring_2⟩
        · exact ⟨_, ring_3⟩
        · exact ⟨_, ring_4⟩
      obtain ⟨i, hi⟩ := hr
      rcases h with rfl | rfl
      · exact ⟨i, hi⟩
      · exact ⟨i + 6, by rw [hi, vert_neg]⟩
  · rintro ⟨i, rfl⟩
    have n : ∀ j : Fin 12, vert (j + 6) = -vert j := vert_neg
    fin_cases i
    · exact Or.inl rfl
    · exact Or.inr (Or.inr ⟨0, Or.inl ring_0.symm⟩)
    · exact Or.inr (Or.inr ⟨1, Or.inl ring_1.symm⟩)
    · exact Or.inr (Or.inr ⟨2, Or.inl ring_2.symm⟩)
    · exact Or.inr (Or.inr ⟨3, Or.inl ring_3.symm⟩)
    · exact Or.inr (Or.inr ⟨4, Or.inl ring_4.symm⟩)
    · exact Or.inr (Or.inl (n 0))
    · exact Or.inr (Or.inr ⟨0, Or.inr (by rw [ring_0]; exact n 1)⟩)
    · exact Or.inr (Or.inr ⟨1, Or.inr (by rw [ring_1]; exact n 2)⟩)
    · exact Or.inr (Or.inr ⟨2, Or.inr (by rw [ring_2]; exact n 3)⟩)
    · exact Or.inr (Or.inr ⟨3, Or.inr (by rw [ring_3]; exact n 4)⟩)
    · exact Or.inr (Or.inr ⟨4, Or.inr (by rw [ring_4]; exact n 5)⟩)

/-! ## The lists -/

theorem mkSym_rot {S : List (Mat ℝ 3)} {inv : Bool} (h0 : S.head? = some 1) (hd : ∀ s ∈ S, s.det = 1) :
    mkSym S inv = .ok ⟨S, inv⟩ := by
  obtain ⟨σ, hσ⟩ := (mkSym_ok_iff (S := S) (inv := inv)).2 ⟨h0, fun s hs => by rw [hd s hs, abs_one]⟩
  have hno : ¬ ∀ s ∈ S, s ∈ S.map fun s => -s := by
    intro h
    have h1 : (1 : Mat ℝ 3) ∈ S := List.mem_of_mem_head? h0
    have h2 := hd _ (mem_map_neg.1 (h _ h1))
    rw [det_neg_odd (by norm_num), Matrix.det_one] at h2
    norm_num at h2
  rw [hσ]
  rcases (mkSym_cases hσ).2.2 with ⟨h, -, -⟩ | ⟨h, -, -⟩ | ⟨-, -, hd, rfl⟩ | ⟨-, -, rfl⟩
  · exact absurd h hno
  · exact absurd h hno
  · omega
  · rfl

theorem rot3_pow (i : ℕ) : rot3 5 i = rA ^ i := by
  induction i with
  | zero =>
    ext a b
    fin_cases a <;> fin_cases b <;> simp [rot3]
  | succ i ih =>
    have h1 : rA = rot3 5 1 := by
      rw [rA, rot3, ← cos72, s5]
      simp
    rw [pow_succ, ← ih, h1]
    have e : ∀ j, rot3 5 j = Cyclic.Spec.R3 ((j : ℝ) * 2 * Real.pi / (5 : ℕ)) := fun j => rfl
    rw [e, e, e, Cyclic.R3_mul]
    congr 1
    push_cast
    ring

/-- The listed generators of `icosahedral`. -/
noncomputable def gens : List (Mat ℝ 3) :=
  (List.range 5).map (rot3 5) ++ ((List.range 5).map (rot3 5)).map fun s => icoBasis * s * icoBasis⁻¹

theorem conj_pow (i : ℕ) : icoBasis * rA ^ i * icoBasis⁻¹ = rB ^ i := by
  have hu : IsUnit icoBasis.det := by rw [icoBasis_det]; exact isUnit_one
  induction i with
  | zero => simp [Matrix.mul_nonsing_inv _ hu]
  | succ i ih =>
    rw [pow_succ, pow_succ, ← ih, ← conj_rA]
    simp only [Matrix.mul_assoc]
    rw [← Matrix.mul_assoc icoBasis⁻¹, Matrix.nonsing_inv_mul _ hu, Matrix.one_mul]

theorem isRot_pow {M : Mat ℝ 3} (h : IsRot M) (i : ℕ) : IsRot (M ^ i) := by
  induction i with
  | zero => simpa using IsRot.one
  | succ i ih => rw [pow_succ]; exact ih.mul h

theorem gens_isRot {g : Mat ℝ 3} (h : g ∈ gens) : IsRot g := by
  rcases List.mem_append.1 h with h | h
  · obtain ⟨i, -, rfl⟩ := List.mem_map.1 h
    rw [rot3_pow]; exact isRot_pow rA_isRot i
  · obtain ⟨s, hs, rfl⟩ := List.mem_map.1 h
    obtain ⟨i, -, rfl⟩ := List.mem_map.1 hs
    rw [rot3_pow, conj_pow]; exact isRot_pow rB_isRot i

theorem rA_gens : rA ∈ gens :=
  List.mem_append_left _ (List.mem_map.2 ⟨1, by simp, by rw [rot3_pow, pow_one]⟩)

theorem rB_gens : rB ∈ gens :=
  List.mem_append_right _ (List.mem_map.2 ⟨rA, List.mem_map.2 ⟨1, by simp, by rw [rot3_pow, pow_one]⟩, conj_rA⟩)

theorem ico_eq (inv : Bool) : Sym.icosahedral inv = fromGenerator gens inv := by
  have ht : Sym.transform ⟨(List.range 5).map (rot3 5), inv⟩ icoBasis =
      .ok ⟨((List.range 5).map (rot3 5)).map fun s => icoBasis * s * icoBasis⁻¹, inv⟩ := by
    rw [Sym.transform, if_neg (by rw [icoBasis_det]; norm_num)]
    refine mkSym_rot ?_ ?_
    · have : icoBasis * rot3 5 0 * icoBasis⁻¹ = 1 := by rw [rot3_pow, conj_pow, pow_zero]
      simp [List.range_succ_eq_map, this]
    · intro s hs
      exact (gens_isRot (List.mem_append_right _ hs)).2.1
  rw [Sym.icosahedral, Cyclic.cyclic_ok 5 (by norm_num)]
  simp only [bind, Except.bind]
  rw [ht]
  simp only [Sym.mul, Bool.or_self, gens]

theorem closure_isRot {M : Mat ℝ 3} (h : M ∈ Submonoid.closure {g | g ∈ gens}) : IsRot M := by
  induction h using Submonoid.closure_induction with
  | mem x hx => exact gens_isRot hx
  | one => exact IsRot.one
  | mul x y _ _ hx hy => exact hx.mul hy

theorem ico_S (inv : Bool) : ∃ S : List (Mat ℝ 3), Sym.icosahedral inv = .ok ⟨S, inv⟩ ∧ S.Nodup ∧ S.length = 60 ∧
    ∀ M, M ∈ S ↔ IsRot M := by
  have hsub : (Submonoid.closure {g | g ∈ gens} : Set (Mat ℝ 3)) ⊆ {M | M ∈ words.map wmat} :=
    fun M hM => (isRot_iff M).1 (closure_isRot hM)
  have hfin : {M : Mat ℝ 3 | M ∈ words.map wmat}.Finite := List.finite_toSet _
  obtain ⟨σ, hσ⟩ := fromGenerator_succeeds (G := gens) (inv := inv) (List.ne_nil_of_mem rA_gens)
    (fun g hg => by rw [(gens_isRot hg).2.1, abs_one]) (hfin.subset hsub) (by
      refine lt_of_le_of_lt (Set.ncard_le_ncard hsub hfin) ?_
      have : {M : Mat ℝ 3 | M ∈ words.map wmat} = ((words.map wmat).toFinset : Set (Mat ℝ 3)) := by ext; simp
      rw [this, Set.ncard_coe_finset, List.toFinset_card_of_nodup words_nodup, List.length_map, words_length]
      norm_num)
  obtain ⟨S, hS, -, -, hnd, h1, hG, hmul, -, hcl⟩ := fromGenerator_ok hσ
  have hmem : ∀ M, M ∈ S ↔ IsRot M := by
    intro M
    refine ⟨fun h => closure_isRot (hcl M h), fun h => ?_⟩
    obtain ⟨l, -, rfl⟩ := List.mem_map.1 ((isRot_iff M).1 h)
    clear h
    induction l with
    | nil => simpa [wmat] using h1
    | cons b l ih =>
      have e : wmat (b :: l) = (if b then rA else rB) * wmat l := by simp [wmat]
      rw [e]
      refine hmul _ ?_ _ ih
      cases b
      · exact hG _ rB_gens
      · exact hG _ rA_gens
  have hok := mkSym_rot (inv := inv) (mkSym_cases hS).1 fun s hs => ((hmem s).1 hs).2.1
  rw [hok] at hS
  refine ⟨S, by rw [ico_eq, hσ, hS], hnd, ?_, hmem⟩
  have hp : S.Perm (words.map wmat) := (List.perm_ext_iff_of_nodup hnd words_nodup).2 fun M => by
    rw [hmem, isRot_iff]
  rw [hp.length_eq, List.length_map, words_length]

theorem isRot_spec (M : Mat ℝ 3) : IsRot M ↔ M.transpose * M = 1 ∧ M.det = 1 ∧
    ∀ v ∈ Spec.icosahedron (Real.pi / 2), M *ᵥ v ∈ Spec.icosahedron (Real.pi / 2) := by
  simp only [mem_ico]
  constructor
  · rintro ⟨h1, h2, h3⟩
    refine ⟨h1, h2, ?_⟩
    rintro _ ⟨i, rfl⟩
    exact h3 i
  · rintro ⟨h1, h2, h3⟩
    exact ⟨h1, h2, fun i => h3 _ ⟨i, rfl⟩⟩

/-! ## Theorems -/

/-- **C127** `icosahedral(inversion)` returns, without and with inversion, a symmetry of 60 and 120 distinct operations, a group.  They are
exactly the rotations (with inversion: all orthogonal matrices) that map the vertices of the icosahedron aligned along the z-axis with an
upper vertex towards the y-axis to vertices. -/
theorem C127_icosahedral (inversion : Bool) : ∃ σ, Sym.icosahedral inversion = .ok σ ∧ σ.inversion = inversion ∧
    σ.len = (if inversion then 120 else 60) ∧ σ.ops.Nodup ∧ IsMatGroup σ.ops ∧
    ∀ M, M ∈ σ.ops ↔ M.transpose * M = 1 ∧ (inversion = true ∨ M.det = 1) ∧
      ∀ v ∈ Spec.icosahedron (Real.pi / 2), M *ᵥ v ∈ Spec.icosahedron (Real.pi / 2) := by
  obtain ⟨S, hS, hnd, hlen, hmem⟩ := ico_S inversion
  have hneg : ∀ M : Mat ℝ 3, (-M).det = -M.det := fun M => det_neg_odd (by norm_num) M
  have hg := (C01_from_generator_group gens inversion ⟨S, inversion⟩ (by rw [← ico_eq, hS])).1
  refine ⟨_, hS, rfl, ?_, ?_, hg, fun M => ?_⟩
  · cases inversion <;> simp [Sym.len, hlen]
  · unfold Sym.ops
    split_ifs
    · refine List.nodup_append.2 ⟨hnd, hnd.map neg_injective, ?_⟩
      rintro a ha b hb rfl
      have h1 := ((hmem _).1 ha).2.1
      have h2 := ((hmem _).1 (mem_map_neg.1 hb)).2.1
      rw [hneg, h1] at h2
      norm_num at h2
    · exact hnd
  · rw [mem_ops]
    simp only [hmem]
    have hin : ∀ v, v ∈ Spec.icosahedron (Real.pi / 2) → -v ∈ Spec.icosahedron (Real.pi / 2) := by
      intro v hv
      obtain ⟨i, rfl⟩ := (mem_ico v).1 hv
      exact (mem_ico _).2 ⟨i + 6, (vert_neg i).symm⟩
    constructor
    · rintro (h | ⟨hi, h⟩)
      · obtain ⟨h1, h2, h3⟩ := (isRot_spec M).1 h
        exact ⟨h1, Or.inr h2, h3⟩
      · obtain ⟨h1, h2, h3⟩ := (isRot_spec (-M)).1 h
        refine ⟨by simpa using h1, Or.inl hi, fun v hv => ?_⟩
        have := hin _ (h3 v hv)
        rwa [Matrix.neg_mulVec, neg_neg] at this
    · rintro ⟨h1, h2, h3⟩
      have hd : M.det = 1 ∨ M.det = -1 := by
        have := congrArg Matrix.det h1
        rw [Matrix.det_mul, Matrix.det_transpose, Matrix.det_one] at this
        exact mul_self_eq_one_iff.1 this
      rcases hd with hd | hd
      · exact Or.inl ((isRot_spec M).2 ⟨h1, hd, h3⟩)
      · rcases h2 with hi | hd'
        · refine Or.inr ⟨hi, (isRot_spec (-M)).2 ⟨by simpa using h1, by rw [hneg, hd, neg_neg], fun v hv => ?_⟩⟩
          rw [Matrix.neg_mulVec]
          exact hin _ (h3 v hv)
        · rw [hd] at hd'; norm_num at hd'

/-- Non-trivial: a rotation that moves the pole is listed. -/
example : ∃ σ, Sym.icosahedral false = .ok σ ∧ rB ∈ σ.ops ∧ rB *ᵥ ![0, 0, 1] ≠ ![0, 0, 1] := by
  obtain ⟨σ, h, -, -, -, -, hm⟩ := C127_icosahedral false
  refine ⟨σ, h, (hm _).2 ?_, ?_⟩
  · obtain ⟨h1, h2, h3⟩ := (isRot_spec rB).1 rB_isRot
    exact ⟨h1, Or.inr h2, h3⟩
  · intro e
    exact absurd (vert_inj (a₁ := pB 0) (a₂ := 0) ((rB_vert 0).symm.trans e)) (by decide)

/-- **C127** Disagreement with the description ("The top off-axis vertex is aligned towards the x-axis"): the operations do not map the
icosahedron with an upper vertex towards the x-axis to itself, and the only images of the z-axis in the plane of the x- and z-axis are the
z-axis itself and its opposite; one image lies in the plane of the y- and z-axis, above the y-axis. -/
theorem C127_defect_axis (inversion : Bool) : ∃ σ, Sym.icosahedral inversion = .ok σ ∧
    (∃ M ∈ σ.ops, ∃ v ∈ Spec.icosahedron 0, M *ᵥ v ∉ Spec.icosahedron 0) ∧
    (∀ M ∈ σ.ops, (M *ᵥ ![0, 0, 1]) 1 = 0 → M *ᵥ ![0, 0, 1] = ![0, 0, 1] ∨ M *ᵥ ![0, 0, 1] = -![0, 0, 1]) ∧
    ∃ M ∈ σ.ops, M *ᵥ ![0, 0, 1] = ![0, 2 / √5, 1 / √5] := by
  obtain ⟨σ, h, -, -, -, -, hm⟩ := C127_icosahedral inversion
  have hrot : ∀ {M}, IsRot M → M ∈ σ.ops := fun {M} hM => by
    obtain ⟨h1, h2, h3⟩ := (isRot_spec M).1 hM
    exact (hm _).2 ⟨h1, Or.inr h2, h3⟩
  have hq := q_bounds
  have hs := s5_bounds
  have h0 : ![0, 0, 1] = vert 0 := rfl
  have hone : wmat [true, false] *ᵥ ![0, 0, 1] = ![0, 2 / √5, 1 / √5] := by
    rw [h0, wmat_vert, q2, q1]
    rfl
  have key : ∀ M ∈ σ.ops, (M *ᵥ ![0, 0, 1]) 1 = 0 → M *ᵥ ![0, 0, 1] = ![0, 0, 1] ∨ M *ᵥ ![0, 0, 1] = -![0, 0, 1] := by
    intro M hM hy
    obtain ⟨i, hi⟩ := (mem_ico _).1 (((hm M).1 hM).2.2 ![0, 0, 1] (Or.inl rfl))
    rw [hi] at hy ⊢
    have y1 : 2 * √5 / 5 * ((√5 - 1) / 4) ≠ 0 := by
      have : 0 < √5 - 1 := by linarith [hq.1]
      have := q_pos
      positivity
    have y2 : 2 * √5 / 5 * (-(√5 + 1) / 4) ≠ 0 := by
      have := q_pos
      rw [neg_div, mul_neg]
      exact neg_ne_zero.2 (by positivity)
    have y0 : 2 * √5 / 5 ≠ 0 := by
      have := q_pos
      positivity
    fin_cases i
    · exact Or.inl rfl
    · exact absurd hy y0
    · exact absurd hy y1
    · exact absurd hy y2
    · exact absurd hy y2
    · exact absurd hy y1
    · exact Or.inr (by rw [h0, ← vert_neg]; rfl)
    · exact absurd (neg_eq_zero.1 hy) y0
    · exact absurd (neg_eq_zero.1 hy) y1
    · exact absurd (neg_eq_zero.1 hy) y2
    · exact absurd (neg_eq_zero.1 hy) y2
    · exact absurd (neg_eq_zero.1 hy) y1
  refine ⟨σ, h, ⟨_, hrot (wmat_isRot [true, false]), ![0, 0, 1], Or.inl rfl, ?_⟩, key, _, hrot (wmat_isRot [true, false]), hone⟩
  rw [hone]
  have hqp := q_pos
  rintro (e | e | ⟨k, e | e⟩)
  · have := congrFun e 1
    simp at this
  · have := congrFun e 1
    simp at this
  · have := congrFun e 1
    simp only [Spec.ring, Matrix.cons_val_one, Matrix.cons_val_zero, zero_add] at this
    have h1 : Real.sin (2 * Real.pi * k / 5) = 1 := by
      have hne : 2 / √5 ≠ 0 := by positivity
      exact (mul_left_cancel₀ hne (by rw [mul_one]; exact this)).symm
    rw [← Real.cos_sub_pi_div_two, Real.cos_eq_one_iff] at h1
    obtain ⟨n, hn⟩ := h1
    have hp := Real.pi_pos.ne'
    have h2 : (5 : ℝ) + 20 * n = 4 * k := by
      have : Real.pi * (5 + 20 * n) = Real.pi * (4 * k) := by linear_combination 10 * hn
      exact mul_left_cancel₀ hp this
    have h3 : (5 : ℤ) + 20 * n = 4 * k := by exact_mod_cast h2
    omega
  · have := congrFun e 2
    simp [Spec.ring] at this
    have h1 : (√5)⁻¹ = 0 := by linarith
    exact hqp.ne' (inv_eq_zero.1 h1)

end TB.PropsIco

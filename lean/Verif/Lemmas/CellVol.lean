import Verif.Lemmas.TetraVol
import Verif.Spec.TetraCell
import Mathlib.MeasureTheory.Group.Measure

/-!
# A cell as the union of six tetrahedra around a diagonal: volumes
-/

namespace TB.Smear

open MeasureTheory Set

/-! ## Maps which preserve the volume -/

theorem shear_preserving : MeasurePreserving (fun p : ℝ × ℝ × ℝ => (p.1, (p.1 + p.2.1, p.1 + p.2.1 + p.2.2))) volume volume := by
  have h1 : MeasurePreserving (fun q : ℝ × ℝ => (q.1, q.1 + q.2)) volume volume := by
    have := (MeasurePreserving.id (volume : Measure ℝ)).skew_product (μc := (volume : Measure ℝ)) (μd := volume)
      (g := fun a b => a + b) (by fun_prop) (ae_of_all _ fun a => map_add_left_eq_self volume a)
    exact this
  have h2 : MeasurePreserving (fun p : ℝ × ℝ × ℝ => (p.1, (p.1, p.1) + p.2)) volume volume := by
    have := (MeasurePreserving.id (volume : Measure ℝ)).skew_product (μc := (volume : Measure (ℝ × ℝ))) (μd := volume)
      (g := fun a b => (a, a) + b) (by fun_prop) (ae_of_all _ fun a =>
        map_add_left_eq_self ((volume : Measure ℝ).prod (volume : Measure ℝ)) ((a, a) : ℝ × ℝ))
    exact this
  have h3 : MeasurePreserving (Prod.map id fun q : ℝ × ℝ => (q.1, q.1 + q.2)) (volume : Measure (ℝ × ℝ × ℝ)) volume :=
    (MeasurePreserving.id (volume : Measure ℝ)).prod h1
  have h4 := h2.comp h3
  refine (Eq.subst (motive := fun f => MeasurePreserving f volume volume) ?_ h4)
  funext p
  simp only [Function.comp, Prod.map, id, Prod.mk_add_mk]
  rw [add_assoc]

theorem swap23_preserving : MeasurePreserving (fun p : ℝ × ℝ × ℝ => (p.1, (p.2.2, p.2.1))) volume volume :=
  (MeasurePreserving.id (volume : Measure ℝ)).prod (Measure.measurePreserving_swap (μ := (volume : Measure ℝ)) (ν := volume))

theorem rotate_preserving : MeasurePreserving (fun p : ℝ × ℝ × ℝ => (p.2.1, (p.2.2, p.1))) volume volume := by
  have h1 : MeasurePreserving (Prod.swap : ℝ × (ℝ × ℝ) → (ℝ × ℝ) × ℝ) volume volume :=
    Measure.measurePreserving_swap (μ := (volume : Measure ℝ)) (ν := (volume : Measure (ℝ × ℝ)))
  exact (measurePreserving_prodAssoc (volume : Measure ℝ) (volume : Measure ℝ) (volume : Measure ℝ)).comp h1

/-- The region of one order of the coordinates (smallest, middle, largest) on which the function is positive. -/
def wset (a0 a p q : ℝ) : Set (ℝ × ℝ × ℝ) :=
  {c | 0 < c.1 ∧ c.1 < c.2.1 ∧ c.2.1 < c.2.2 ∧ c.2.2 ≤ 1 ∧ 0 < a0 + a * c.1 + p * (c.2.1 - c.1) + q * (c.2.2 - c.2.1)}

theorem measurable_wset (a0 a p q : ℝ) : MeasurableSet (wset a0 a p q) := by
  unfold wset
  simp only [ofPred_and]
  refine (measurableSet_lt ?_ ?_).inter ((measurableSet_lt ?_ ?_).inter ((measurableSet_lt ?_ ?_).inter
    ((measurableSet_le ?_ ?_).inter (measurableSet_lt ?_ ?_)))) <;> fun_prop

theorem wset_volume (a0 a p q : ℝ) : volume.real (wset a0 a p q) = Spec.tetra a0 a p q := by
  rw [tetra_measure, ← (shear_preserving.measureReal_preimage (measurable_wset a0 a p q).nullMeasurableSet)]
  congr 1
  ext ⟨s, t, u⟩
  simp only [mem_preimage, wset, tset, mem_ofPred_eq]
  rw [show a0 + a * s + p * (s + t - s) + q * (s + t + u - (s + t)) = a0 + a * s + p * t + q * u by ring]
  constructor
  · rintro ⟨h1, h2, h3, h4, h5⟩
    exact ⟨⟨h1, by linarith⟩, ⟨by linarith, by linarith⟩, ⟨by linarith, by linarith⟩, h5⟩
  · rintro ⟨⟨h1, h2⟩, ⟨h3, h4⟩, ⟨h5, h6⟩, h7⟩
    exact ⟨h1, by linarith, by linarith, by linarith, h7⟩

/-- The two short corners may be given in any order. -/
theorem tetra_swap (a0 a p q : ℝ) : Spec.tetra a0 a p q = Spec.tetra a0 a q p := by
  rw [tetra_measure, tetra_measure, ← (swap23_preserving.measureReal_preimage (measurable_tset a0 a q p).nullMeasurableSet)]
  congr 1
  ext ⟨s, t, u⟩
  simp only [mem_preimage, tset, mem_ofPred_eq]
  rw [show a0 + a * s + q * u + p * t = a0 + a * s + p * t + q * u by ring]
  constructor
  · rintro ⟨⟨h1, h2⟩, ⟨h3, h4⟩, ⟨h5, h6⟩, h7⟩
    exact ⟨⟨h1, h2⟩, ⟨h5, by linarith⟩, ⟨h3, by linarith⟩, h7⟩
  · rintro ⟨⟨h1, h2⟩, ⟨h3, h4⟩, ⟨h5, h6⟩, h7⟩
    exact ⟨⟨h1, h2⟩, ⟨h5, by linarith⟩, ⟨h3, by linarith⟩, h7⟩

/-! ## Points with two equal coordinates -/

/-- Points with two equal coordinates. -/
def ties : Set (ℝ × ℝ × ℝ) := {p | p.1 = p.2.1 ∨ p.2.1 = p.2.2 ∨ p.1 = p.2.2}

theorem diag_null : (volume : Measure (ℝ × ℝ)) {q | q.1 = q.2} = 0 := by
  rw [Measure.volume_eq_prod, Measure.prod_apply (measurableSet_eq_fun (by fun_prop) (by fun_prop))]
  simp

theorem ties_null : (volume : Measure (ℝ × ℝ × ℝ)) ties = 0 := by
  have h23 : (volume : Measure (ℝ × ℝ × ℝ)) {p | p.2.1 = p.2.2} = 0 := by
    rw [show {p : ℝ × ℝ × ℝ | p.2.1 = p.2.2} = univ ×ˢ {q : ℝ × ℝ | q.1 = q.2} from by ext ⟨x, y, z⟩; simp,
      Measure.volume_eq_prod, Measure.prod_prod, diag_null, mul_zero]
  have hm : MeasurableSet {p : ℝ × ℝ × ℝ | p.2.1 = p.2.2} := measurableSet_eq_fun (by fun_prop) (by fun_prop)
  have h31 : (volume : Measure (ℝ × ℝ × ℝ)) {p | p.1 = p.2.2} = 0 := by
    rw [← h23, ← rotate_preserving.measure_preimage hm.nullMeasurableSet]
    congr 1
    ext ⟨x, y, z⟩
    simp [eq_comm]
  have hm' : MeasurableSet {p : ℝ × ℝ × ℝ | p.1 = p.2.2} := measurableSet_eq_fun (by fun_prop) (by fun_prop)
  have h12 : (volume : Measure (ℝ × ℝ × ℝ)) {p | p.1 = p.2.1} = 0 := by
    rw [← h31, ← rotate_preserving.measure_preimage hm'.nullMeasurableSet]
    congr 1
    ext ⟨x, y, z⟩
    simp [eq_comm]
  refine measure_mono_null (t := {p : ℝ × ℝ × ℝ | p.1 = p.2.1} ∪ ({p | p.2.1 = p.2.2} ∪ {p | p.1 = p.2.2})) ?_ ?_
  · rintro p (h | h | h)
    · exact Or.inl h
    · exact Or.inr (Or.inl h)
    · exact Or.inr (Or.inr h)
  · rw [measure_union_null_iff, measure_union_null_iff]
    exact ⟨h12, h23, h31⟩

theorem real_congr_ties {s t : Set (ℝ × ℝ × ℝ)} (h : ∀ p, p ∉ ties → (p ∈ s ↔ p ∈ t)) : volume.real s = volume.real t := by
  refine measureReal_congr ?_
  have : ∀ᵐ p : ℝ × ℝ × ℝ, p ∉ ties := measure_eq_zero_iff_ae_notMem.1 ties_null
  filter_upwards [this] with p hp
  exact propext (h p hp)

/-! ## The six orders of the coordinates -/

theorem preimage_volume {f : ℝ × ℝ × ℝ → ℝ × ℝ × ℝ} (hf : MeasurePreserving f volume volume) (a0 a p q : ℝ) :
    volume.real (f ⁻¹' wset a0 a p q) = Spec.tetra a0 a p q := by
  rw [hf.measureReal_preimage (measurable_wset a0 a p q).nullMeasurableSet, wset_volume]

/-- The part of a cell below a value consists of the parts of the six tetrahedra. -/
theorem cell_volume (v : Fin 8 → ℝ) (e : ℝ) :
    Spec.cellBelow v e =
      Spec.tetra (e - v 0) (v 0 - v 7) (v 0 - v 3) (v 0 - v 1) + Spec.tetra (e - v 0) (v 0 - v 7) (v 0 - v 5) (v 0 - v 1) +
      Spec.tetra (e - v 0) (v 0 - v 7) (v 0 - v 5) (v 0 - v 4) + Spec.tetra (e - v 0) (v 0 - v 7) (v 0 - v 3) (v 0 - v 2) +
      Spec.tetra (e - v 0) (v 0 - v 7) (v 0 - v 6) (v 0 - v 2) + Spec.tetra (e - v 0) (v 0 - v 7) (v 0 - v 6) (v 0 - v 4) := by
  have r1 := rotate_preserving
  have r2 := rotate_preserving.comp rotate_preserving
  have s0 := swap23_preserving
  have s1 := swap23_preserving.comp rotate_preserving
  have s2 := swap23_preserving.comp r2
  set A := ((fun p : ℝ × ℝ × ℝ => (p.1, (p.2.2, p.2.1))) ∘ (fun p : ℝ × ℝ × ℝ => (p.2.1, (p.2.2, p.1))) ∘
    (fun p : ℝ × ℝ × ℝ => (p.2.1, (p.2.2, p.1)))) ⁻¹' wset (e - v 0) (v 0 - v 7) (v 0 - v 3) (v 0 - v 1) with hA
  set B := (fun p : ℝ × ℝ × ℝ => (p.2.1, (p.2.2, p.1))) ⁻¹' wset (e - v 0) (v 0 - v 7) (v 0 - v 5) (v 0 - v 1) with hB
  set C := ((fun p : ℝ × ℝ × ℝ => (p.1, (p.2.2, p.2.1))) ∘ (fun p : ℝ × ℝ × ℝ => (p.2.1, (p.2.2, p.1)))) ⁻¹'
    wset (e - v 0) (v 0 - v 7) (v 0 - v 5) (v 0 - v 4) with hC
  set D := ((fun p : ℝ × ℝ × ℝ => (p.2.1, (p.2.2, p.1))) ∘ (fun p : ℝ × ℝ × ℝ => (p.2.1, (p.2.2, p.1)))) ⁻¹'
    wset (e - v 0) (v 0 - v 7) (v 0 - v 3) (v 0 - v 2) with hD
  set E := (fun p : ℝ × ℝ × ℝ => (p.1, (p.2.2, p.2.1))) ⁻¹' wset (e - v 0) (v 0 - v 7) (v 0 - v 6) (v 0 - v 2) with hE
  set F := wset (e - v 0) (v 0 - v 7) (v 0 - v 6) (v 0 - v 4) with hF
  have mA : MeasurableSet A := s2.measurable (measurable_wset _ _ _ _)
  have mB : MeasurableSet B := r1.measurable (measurable_wset _ _ _ _)
  have mC : MeasurableSet C := s1.measurable (measurable_wset _ _ _ _)
  have mD : MeasurableSet D := r2.measurable (measurable_wset _ _ _ _)
  have mE : MeasurableSet E := s0.measurable (measurable_wset _ _ _ _)
  have mF : MeasurableSet F := measurable_wset _ _ _ _
  have vA : volume.real A = _ := preimage_volume s2 _ _ _ _
  have vB : volume.real B = _ := preimage_volume r1 _ _ _ _
  have vC : volume.real C = _ := preimage_volume s1 _ _ _ _
  have vD : volume.real D = _ := preimage_volume r2 _ _ _ _
  have vE : volume.real E = _ := preimage_volume s0 _ _ _ _
  have vF : volume.real F = _ := wset_volume _ _ _ _
  have iA : ∀ x y z : ℝ, (x, y, z) ∈ A ↔ 0 < z ∧ z < y ∧ y < x ∧ x ≤ 1 ∧
      0 < (e - v 0) + (v 0 - v 7) * z + (v 0 - v 3) * (y - z) + (v 0 - v 1) * (x - y) := fun x y z => Iff.rfl
  have iB : ∀ x y z : ℝ, (x, y, z) ∈ B ↔ 0 < y ∧ y < z ∧ z < x ∧ x ≤ 1 ∧
      0 < (e - v 0) + (v 0 - v 7) * y + (v 0 - v 5) * (z - y) + (v 0 - v 1) * (x - z) := fun x y z => Iff.rfl
  have iC : ∀ x y z : ℝ, (x, y, z) ∈ C ↔ 0 < y ∧ y < x ∧ x < z ∧ z ≤ 1 ∧
      0 < (e - v 0) + (v 0 - v 7) * y + (v 0 - v 5) * (x - y) + (v 0 - v 4) * (z - x) := fun x y z => Iff.rfl
  have iD : ∀ x y z : ℝ, (x, y, z) ∈ D ↔ 0 < z ∧ z < x ∧ x < y ∧ y ≤ 1 ∧
      0 < (e - v 0) + (v 0 - v 7) * z + (v 0 - v 3) * (x - z) + (v 0 - v 2) * (y - x) := fun x y z => Iff.rfl
  have iE : ∀ x y z : ℝ, (x, y, z) ∈ E ↔ 0 < x ∧ x < z ∧ z < y ∧ y ≤ 1 ∧
      0 < (e - v 0) + (v 0 - v 7) * x + (v 0 - v 6) * (z - x) + (v 0 - v 2) * (y - z) := fun x y z => Iff.rfl
  have iF : ∀ x y z : ℝ, (x, y, z) ∈ F ↔ 0 < x ∧ x < y ∧ y < z ∧ z ≤ 1 ∧
      0 < (e - v 0) + (v 0 - v 7) * x + (v 0 - v 6) * (y - x) + (v 0 - v 4) * (z - y) := fun x y z => Iff.rfl
  have fin : ∀ S ∈ [A, B, C, D, E, F], volume S < ⊤ := by
    intro S hS
    refine bounded_lt_top ?_
    rintro ⟨x, y, z⟩ h
    have : 0 ≤ x ∧ 0 ≤ y ∧ 0 ≤ z ∧ x ≤ 1 ∧ y ≤ 1 ∧ z ≤ 1 := by
      simp only [List.mem_cons, List.not_mem_nil, or_false] at hS
      rcases hS with rfl | rfl | rfl | rfl | rfl | rfl
      · obtain ⟨h1, h2, h3, h4, -⟩ := (iA x y z).1 h
        refine ⟨?_, ?_, ?_, ?_, ?_, ?_⟩ <;> linarith
      · obtain ⟨h1, h2, h3, h4, -⟩ := (iB x y z).1 h
        refine ⟨?_, ?_, ?_, ?_, ?_, ?_⟩ <;> linarith
      · obtain ⟨h1, h2, h3, h4, -⟩ := (iC x y z).1 h
        refine ⟨?_, ?_, ?_, ?_, ?_, ?_⟩ <;> linarith
      · obtain ⟨h1, h2, h3, h4, -⟩ := (iD x y z).1 h
        refine ⟨?_, ?_, ?_, ?_, ?_, ?_⟩ <;> linarith
      · obtain ⟨h1, h2, h3, h4, -⟩ := (iE x y z).1 h
        refine ⟨?_, ?_, ?_, ?_, ?_, ?_⟩ <;> linarith
      · obtain ⟨h1, h2, h3, h4, -⟩ := (iF x y z).1 h
        refine ⟨?_, ?_, ?_, ?_, ?_, ?_⟩ <;> linarith
    obtain ⟨h1, h2, h3, h4, h5, h6⟩ := this
    exact ⟨⟨h1, h2, h3⟩, ⟨h4, h5, h6⟩⟩
  have fA := (fin A (by simp)).ne
  have fB := (fin B (by simp)).ne
  have fC := (fin C (by simp)).ne
  have fD := (fin D (by simp)).ne
  have fE := (fin E (by simp)).ne
  have fF := (fin F (by simp)).ne
  have f2 := (measure_union_lt_top fA.lt_top fB.lt_top).ne
  have f3 := (measure_union_lt_top f2.lt_top fC.lt_top).ne
  have f4 := (measure_union_lt_top f3.lt_top fD.lt_top).ne
  have f5 := (measure_union_lt_top f4.lt_top fE.lt_top).ne
  have d2 : Disjoint A B := disjoint_left.2 fun ⟨x, y, z⟩ h h' => by
    obtain ⟨-, h1, h2, -⟩ := (iA x y z).1 h
    obtain ⟨-, g1, g2, -⟩ := (iB x y z).1 h'
    linarith
  have d3 : Disjoint (A ∪ B) C := disjoint_left.2 fun ⟨x, y, z⟩ h h' => by
    obtain ⟨-, g1, g2, -⟩ := (iC x y z).1 h'
    rcases h with h | h
    · obtain ⟨-, h1, h2, -⟩ := (iA x y z).1 h; linarith
    · obtain ⟨-, h1, h2, -⟩ := (iB x y z).1 h; linarith
  have d4 : Disjoint (A ∪ B ∪ C) D := disjoint_left.2 fun ⟨x, y, z⟩ h h' => by
    obtain ⟨-, g1, g2, -⟩ := (iD x y z).1 h'
    rcases h with (h | h) | h
    · obtain ⟨-, h1, h2, -⟩ := (iA x y z).1 h; linarith
    · obtain ⟨-, h1, h2, -⟩ := (iB x y z).1 h; linarith
    · obtain ⟨-, h1, h2, -⟩ := (iC x y z).1 h; linarith
  have d5 : Disjoint (A ∪ B ∪ C ∪ D) E := disjoint_left.2 fun ⟨x, y, z⟩ h h' => by
    obtain ⟨-, g1, g2, -⟩ := (iE x y z).1 h'
    rcases h with ((h | h) | h) | h
    · obtain ⟨-, h1, h2, -⟩ := (iA x y z).1 h; linarith
    · obtain ⟨-, h1, h2, -⟩ := (iB x y z).1 h; linarith
    · obtain ⟨-, h1, h2, -⟩ := (iC x y z).1 h; linarith
    · obtain ⟨-, h1, h2, -⟩ := (iD x y z).1 h; linarith
  have d6 : Disjoint (A ∪ B ∪ C ∪ D ∪ E) F := disjoint_left.2 fun ⟨x, y, z⟩ h h' => by
    obtain ⟨-, g1, g2, -⟩ := (iF x y z).1 h'
    rcases h with (((h | h) | h) | h) | h
    · obtain ⟨-, h1, h2, -⟩ := (iA x y z).1 h; linarith
    · obtain ⟨-, h1, h2, -⟩ := (iB x y z).1 h; linarith
    · obtain ⟨-, h1, h2, -⟩ := (iC x y z).1 h; linarith
    · obtain ⟨-, h1, h2, -⟩ := (iD x y z).1 h; linarith
    · obtain ⟨-, h1, h2, -⟩ := (iE x y z).1 h; linarith
  have hu : volume.real (A ∪ B ∪ C ∪ D ∪ E ∪ F) = volume.real A + volume.real B + volume.real C + volume.real D +
      volume.real E + volume.real F := by
    rw [measureReal_union d6 mF f5 fF, measureReal_union d5 mE f4 fE, measureReal_union d4 mD f3 fD,
      measureReal_union d3 mC f2 fC, measureReal_union d2 mB fA fB]
  rw [← vA, ← vB, ← vC, ← vD, ← vE, ← vF, ← hu, Spec.cellBelow]
  refine real_congr_ties ?_
  rintro ⟨x, y, z⟩ ht
  have n1 : x ≠ y := fun h => ht (Or.inl h)
  have n2 : y ≠ z := fun h => ht (Or.inr (Or.inl h))
  have n3 : x ≠ z := fun h => ht (Or.inr (Or.inr h))
  simp only [mem_union, iA, iB, iC, iD, iE, iF, mem_ofPred_eq, Spec.interp, Spec.path]
  rcases lt_or_gt_of_ne n1 with h1 | h1 <;> rcases lt_or_gt_of_ne n2 with h2 | h2 <;> rcases lt_or_gt_of_ne n3 with h3 | h3
  all_goals try (exfalso; linarith)
  -- x < y < z
  · rw [if_neg (by linarith), if_neg (by linarith), if_neg (by linarith)]
    constructor
    · rintro ⟨⟨p1, p2⟩, ⟨p3, p4⟩, ⟨p5, p6⟩, p7⟩
      exact Or.inr ⟨p1, h1, h2, p6, by linarith⟩
    · rintro (((((h | h) | h) | h) | h) | h)
      all_goals obtain ⟨q1, q2, q3, q4, q5⟩ := h
      all_goals try (exfalso; linarith)
      exact ⟨⟨by linarith, by linarith⟩, ⟨by linarith, by linarith⟩, ⟨by linarith, by linarith⟩, by linarith⟩
  -- x < z < y
  · rw [if_neg (by linarith), if_neg (by linarith), if_pos (by linarith)]
    constructor
    · rintro ⟨⟨p1, p2⟩, ⟨p3, p4⟩, ⟨p5, p6⟩, p7⟩
      exact Or.inl (Or.inr ⟨p1, h3, h2, p4, by linarith⟩)
    · rintro (((((h | h) | h) | h) | h) | h)
      all_goals obtain ⟨q1, q2, q3, q4, q5⟩ := h
      all_goals try (exfalso; linarith)
      exact ⟨⟨by linarith, by linarith⟩, ⟨by linarith, by linarith⟩, ⟨by linarith, by linarith⟩, by linarith⟩
  -- z < x < y
  · rw [if_neg (by linarith), if_pos (by linarith)]
    constructor
    · rintro ⟨⟨p1, p2⟩, ⟨p3, p4⟩, ⟨p5, p6⟩, p7⟩
      exact Or.inl (Or.inl (Or.inr ⟨p5, h3, h1, p4, by linarith⟩))
    · rintro (((((h | h) | h) | h) | h) | h)
      all_goals obtain ⟨q1, q2, q3, q4, q5⟩ := h
      all_goals try (exfalso; linarith)
      exact ⟨⟨by linarith, by linarith⟩, ⟨by linarith, by linarith⟩, ⟨by linarith, by linarith⟩, by linarith⟩
  -- y < x < z
  · rw [if_pos (by linarith), if_neg (by linarith), if_neg (by linarith)]
    constructor
    · rintro ⟨⟨p1, p2⟩, ⟨p3, p4⟩, ⟨p5, p6⟩, p7⟩
      exact Or.inl (Or.inl (Or.inl (Or.inr ⟨p3, h1, h3, p6, by linarith⟩)))
    · rintro (((((h | h) | h) | h) | h) | h)
      all_goals obtain ⟨q1, q2, q3, q4, q5⟩ := h
      all_goals try (exfalso; linarith)
      exact ⟨⟨by linarith, by linarith⟩, ⟨by linarith, by linarith⟩, ⟨by linarith, by linarith⟩, by linarith⟩
  -- y < z < x
  · rw [if_pos (by linarith), if_neg (by linarith), if_pos (by linarith)]
    constructor
    · rintro ⟨⟨p1, p2⟩, ⟨p3, p4⟩, ⟨p5, p6⟩, p7⟩
      exact Or.inl (Or.inl (Or.inl (Or.inl (Or.inr ⟨p3, h2, h3, p2, by linarith⟩))))
    · rintro (((((h | h) | h) | h) | h) | h)
      all_goals obtain ⟨q1, q2, q3, q4, q5⟩ := h
      all_goals try (exfalso; linarith)
      exact ⟨⟨by linarith, by linarith⟩, ⟨by linarith, by linarith⟩, ⟨by linarith, by linarith⟩, by linarith⟩
  -- z < y < x
  · rw [if_pos (by linarith), if_pos (by linarith)]
    constructor
    · rintro ⟨⟨p1, p2⟩, ⟨p3, p4⟩, ⟨p5, p6⟩, p7⟩
      exact Or.inl (Or.inl (Or.inl (Or.inl (Or.inl ⟨p5, h2, h1, p2, by linarith⟩))))
    · rintro (((((h | h) | h) | h) | h) | h)
      all_goals obtain ⟨q1, q2, q3, q4, q5⟩ := h
      all_goals try (exfalso; linarith)
      exact ⟨⟨by linarith, by linarith⟩, ⟨by linarith, by linarith⟩, ⟨by linarith, by linarith⟩, by linarith⟩

end TB.Smear

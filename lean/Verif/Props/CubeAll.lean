import Verif.Lemmas.CubeVol
import Verif.Props.TetraAll
import Verif.Model.Dos

/-!
# Property theorems of C147: the cube method for arbitrary gradients, compared with the tetrahedron method

C44 says which volume `cube_cut_volume` returns: that below a plane whose normal has been clamped.  Here the effect of clamping
is bounded, for every gradient, and the two methods of `DensityOfStates` are compared on cells which are not linear.
-/

namespace TB.PropsCubeAll

open TB.Smear MeasureTheory

/-- Fraction of the cell around the origin on which the linear function with centre value `a0` is below `value`. -/
noncomputable def Spec.fraction (a0 ax ay az value : ℝ) : ℝ :=
  ∫ x in (-1 / 2 : ℝ)..(1 / 2), ∫ y in (-1 / 2 : ℝ)..(1 / 2), ∫ z in (-1 / 2 : ℝ)..(1 / 2),
    if a0 + (ax * x + ay * y + az * z) < value then (1 : ℝ) else 0

theorem fraction_eq (a0 ax ay az value : ℝ) : Spec.fraction a0 ax ay az value = Smear.Spec.below ax ay az (value - a0) := by
  rw [Spec.fraction, Smear.Spec.below]
  have : ∀ x y z : ℝ, (a0 + (ax * x + ay * y + az * z) < value) = (ax * x + ay * y + az * z < value - a0) := by
    intro x y z
    refine propext ⟨fun h => by linarith, fun h => by linarith⟩
  simp only [this]

theorem largest {a b c s : ℝ} (hs : 0 ≤ s) (h : s ^ 2 ≤ a ^ 2 + b ^ 2 + c ^ 2) : s / 2 ≤ |a| ∨ s / 2 ≤ |b| ∨ s / 2 ≤ |c| := by
  by_contra hc
  push Not at hc
  have e : ∀ r : ℝ, |r| < s / 2 → r ^ 2 ≤ s ^ 2 / 4 := by
    intro r hr
    rw [← sq_abs]
    nlinarith [abs_nonneg r]
  rcases eq_or_lt_of_le hs with h0 | h0
  · have := abs_nonneg a
    linarith [hc.1]
  · nlinarith [e a hc.1, e b hc.2.1, e c hc.2.2]

theorem max_sub {r ε : ℝ} (hr : 0 ≤ r) (he : 0 ≤ ε) : |max r ε - r| ≤ ε := by
  rcases le_total r ε with h | h
  · rw [max_eq_right h, abs_of_nonneg (by linarith)]; linarith
  · rw [max_eq_left h, sub_self, abs_zero]; exact he

theorem max_sub' {r ε : ℝ} (h : ε ≤ r) : |max r ε - r| = 0 := by
  rw [max_eq_left h, sub_self, abs_zero]

/-- C147.  `CubesSmearing.volume(value)` of a cell is the fraction of the cell on which the linear interpolation is below the
value, up to `2e-4`, for every gradient of at least `1e-38`: components may be zero or as small as they like. -/
theorem C147_accuracy (value a0 ax ay az : ℝ) (h : 1 / 10 ^ 38 ≤ Real.sqrt (ax ^ 2 + ay ^ 2 + az ^ 2)) :
    |cubeCutVolume (value - a0) (cubePrecomp ax ay az) - Spec.fraction a0 ax ay az value| ≤ 2 / 10 ^ 4 := by
  have hN := (cubePrecomp_ok ax ay az).norm
  have hNe : (cubePrecomp ax ay az).norm = Real.sqrt (ax ^ 2 + ay ^ 2 + az ^ 2) + 1 / 10 ^ 40 := by
    simp only [cubePrecomp, norm3, sq_abs]
  rw [C44_true_volume, fraction_eq]
  set N := (cubePrecomp ax ay az).norm with hNd
  rw [← below_scale ax ay az (value - a0) hN, ← below_abs (ax / N), abs_div, abs_div, abs_div, abs_of_pos hN]
  set s := Real.sqrt (ax ^ 2 + ay ^ 2 + az ^ 2) with hs
  have hs2 : s ^ 2 = ax ^ 2 + ay ^ 2 + az ^ 2 := Real.sq_sqrt (by positivity)
  have hs0 : 0 ≤ s := Real.sqrt_nonneg _
  have hsN : 100 / 101 * N ≤ s := by
    rw [hNe]
    have : (1 : ℝ) / 10 ^ 40 = 1 / 100 * (1 / 10 ^ 38) := by norm_num
    rw [this]
    linarith
  have hbig : ∀ r : ℝ, s ^ 2 ≤ 3 * r ^ 2 → 1 / 2 ≤ |r| / N := by
    intro r hr
    rw [le_div_iff₀ hN]
    by_contra hc
    push Not at hc
    have h1 : r ^ 2 ≤ (1 / 2 * N) ^ 2 := by
      rw [← sq_abs]
      nlinarith [abs_nonneg r]
    nlinarith
  have key : ∃ r, (r = |ax| / N ∨ r = |ay| / N ∨ r = |az| / N) ∧ 1 / 2 ≤ r := by
    rcases le_total (ax ^ 2) (ay ^ 2) with h1 | h1 <;> rcases le_total (ay ^ 2) (az ^ 2) with h2 | h2 <;>
      rcases le_total (ax ^ 2) (az ^ 2) with h3 | h3
    all_goals first
      | exact ⟨_, Or.inl rfl, hbig ax (by linarith)⟩
      | exact ⟨_, Or.inr (Or.inl rfl), hbig ay (by linarith)⟩
      | exact ⟨_, Or.inr (Or.inr rfl), hbig az (by linarith)⟩
  have hx : 0 ≤ |ax| / N := by positivity
  have hy : 0 ≤ |ay| / N := by positivity
  have hz : 0 ≤ |az| / N := by positivity
  rw [show (2 : ℝ) / 10 ^ 4 = 1 / 10 ^ 4 / (1 / 2) by norm_num]
  have m := @max_sub
  obtain ⟨r, hr, h2⟩ := key
  refine below_near (by norm_num) (by norm_num) ?_ ?_
  · rw [abs_of_nonneg hx, abs_of_nonneg hy, abs_of_nonneg hz]
    rcases hr with rfl | rfl | rfl
    · exact Or.inl h2
    · exact Or.inr (Or.inl h2)
    · exact Or.inr (Or.inr h2)
  · have m1 := m hx (show (0 : ℝ) ≤ 1 / 10 ^ 4 by norm_num)
    have m2 := m hy (show (0 : ℝ) ≤ 1 / 10 ^ 4 by norm_num)
    have m3 := m hz (show (0 : ℝ) ≤ 1 / 10 ^ 4 by norm_num)
    have hε : (1 : ℝ) / 10 ^ 4 ≤ 1 / 2 := by norm_num
    rcases hr with rfl | rfl | rfl
    · rw [max_sub' (hε.trans h2)] ; linarith
    · rw [max_sub' (hε.trans h2)] ; linarith
    · rw [max_sub' (hε.trans h2)] ; linarith

/-- The hypothesis covers gradients along one axis, where two components are clamped. -/
example : |cubeCutVolume (1 / 4 - 0) (cubePrecomp 1 0 0) - Spec.fraction 0 1 0 0 (1 / 4)| ≤ 2 / 10 ^ 4 :=
  C147_accuracy _ _ _ _ _ (by norm_num)

/-- C147.  In a cell without gradient everything is below or above the value, unless they agree up to `1.5e-44`; if they agree,
half of the cell is counted. -/
theorem C147_flat (value a0 : ℝ) :
    (value ≤ a0 - 3 / 2 / 10 ^ 44 → cubeCutVolume (value - a0) (cubePrecomp 0 0 0) = 0) ∧
    (a0 + 3 / 2 / 10 ^ 44 ≤ value → cubeCutVolume (value - a0) (cubePrecomp 0 0 0) = 1) ∧
    cubeCutVolume (a0 - a0) (cubePrecomp 0 0 0) = 1 / 2 := by
  have e : (cubePrecomp 0 0 0).norm * ((cubePrecomp 0 0 0).ax + (cubePrecomp 0 0 0).ay + (cubePrecomp 0 0 0).az) / 2 =
      3 / 2 / 10 ^ 44 := by
    norm_num [cubePrecomp, norm3, EPSILON]
  have hr := C44_range (value - a0) 0 0 0
  simp only [e] at hr
  refine ⟨fun h => hr.2.2.1 (by linarith), fun h => hr.2.2.2.1 (by linarith), ?_⟩
  rw [sub_self]
  exact hr.2.2.2.2.1

example : cubeCutVolume (1 - 2) (cubePrecomp 0 0 0) = 0 ∧ cubeCutVolume (2 - 1) (cubePrecomp 0 0 0) = 1 :=
  ⟨(C147_flat 1 2).1 (by norm_num), (C147_flat 2 1).2.1 (by norm_num)⟩

/-! ## Cells which are not linear -/

/-- Value of a linear function, given by centre value and gradient, at a corner of the cell. -/
noncomputable def Spec.corner (m gx gy gz : ℝ) (c : Fin 8) : ℝ :=
  m + gx * (((c.val % 2 : ℕ) : ℝ) - 1 / 2) + gy * (((c.val / 2 % 2 : ℕ) : ℝ) - 1 / 2) + gz * (((c.val / 4 % 2 : ℕ) : ℝ) - 1 / 2)

theorem interp_sub (v w : Fin 8 → ℝ) (x y z : ℝ) :
    Smear.Spec.interp (fun c => v c - w c) x y z = Smear.Spec.interp v x y z - Smear.Spec.interp w x y z := by
  simp only [Smear.Spec.interp, Smear.Spec.path]
  split_ifs <;> ring

theorem interp_linear (m gx gy gz x y z : ℝ) :
    Smear.Spec.interp (Spec.corner m gx gy gz) x y z = m + gx * (x - 1 / 2) + gy * (y - 1 / 2) + gz * (z - 1 / 2) := by
  have h := TB.PropsTetraAll.interp_affine (m - gx / 2 - gy / 2 - gz / 2) gx gy gz x y z
  have e : Spec.corner m gx gy gz = fun c => m - gx / 2 - gy / 2 - gz / 2 + gx * (if c.val % 2 = 1 then 1 else 0) +
      gy * (if c.val / 2 % 2 = 1 then 1 else 0) + gz * (if c.val / 4 % 2 = 1 then 1 else 0) := by
    funext c
    rw [Spec.corner]
    rcases Nat.mod_two_eq_zero_or_one c.val with a | a <;> rcases Nat.mod_two_eq_zero_or_one (c.val / 2) with b | b <;>
      rcases Nat.mod_two_eq_zero_or_one (c.val / 4) with d | d <;> simp [a, b, d] <;> ring
  rw [e, h]
  ring

/-- The fraction of a cell below a value, with the cell moved to the origin. -/
theorem cellBelow_centre (v : Fin 8 → ℝ) (e m : ℝ) : Smear.Spec.cellBelow v e =
    volume.real {p | p ∈ cube ∧ Smear.Spec.interp v (p.1 + 1 / 2) (p.2.1 + 1 / 2) (p.2.2 + 1 / 2) - m < e - m} := by
  have hh : MeasurePreserving (fun x : ℝ => x + 1 / 2) volume volume := measurePreserving_add_right _ _
  have hmp : MeasurePreserving (fun p : ℝ × ℝ × ℝ => p + (1 / 2, 1 / 2, 1 / 2)) volume volume := hh.prod (hh.prod hh)
  have emb : MeasurableEmbedding (fun p : ℝ × ℝ × ℝ => p + (1 / 2, 1 / 2, 1 / 2)) :=
    (MeasurableEquiv.addRight ((1 / 2, 1 / 2, 1 / 2) : ℝ × ℝ × ℝ)).measurableEmbedding
  rw [Smear.Spec.cellBelow, measureReal_def, measureReal_def, ← hmp.measure_preimage_emb emb]
  congr 2
  ext ⟨x, y, z⟩
  simp only [Set.mem_preimage, Prod.mk_add_mk, Set.mem_ofPred_eq, cube]
  constructor
  · rintro ⟨h1, h2, h3, h4⟩
    exact ⟨⟨⟨by linarith, by linarith⟩, ⟨by linarith, by linarith⟩, ⟨by linarith, by linarith⟩⟩, by linarith⟩
  · rintro ⟨⟨h1, h2, h3⟩, h4⟩
    exact ⟨⟨by linarith, by linarith⟩, ⟨by linarith, by linarith⟩, ⟨by linarith, by linarith⟩, by linarith⟩

/-- C147.  For any values at the corners of a cell, `CubesSmearing.volume(value)` is the fraction of the cell on which the
interpolation in six tetrahedra is below the value, up to `2e-4` and the largest deviation of a corner from the linear fit
divided by the slope of the fit. -/
theorem C147_cell (v : Corners) (e η κ : ℝ) (hκ : 1 / 10 ^ 38 ≤ κ)
    (hg : κ ≤ |(cornerFit v).2.1| ∨ κ ≤ |(cornerFit v).2.2.1| ∨ κ ≤ |(cornerFit v).2.2.2|)
    (hη : ∀ c, |v c - Spec.corner (cornerFit v).1 (cornerFit v).2.1 (cornerFit v).2.2.1 (cornerFit v).2.2.2 c| ≤ η) :
    |cubeCutVolume (e - (cornerFit v).1) (cubePrecomp (cornerFit v).2.1 (cornerFit v).2.2.1 (cornerFit v).2.2.2) -
      Smear.Spec.cellBelow v e| ≤ 2 / 10 ^ 4 + η / κ := by
  generalize cornerFit v = q at hg hη ⊢
  obtain ⟨m, gx, gy, gz⟩ := q
  simp only at hg hη ⊢
  have hκ0 : 0 < κ := lt_of_lt_of_le (by norm_num) hκ
  have hη0 : 0 ≤ η := (abs_nonneg _).trans (hη 0)
  have hnorm : 1 / 10 ^ 38 ≤ Real.sqrt (gx ^ 2 + gy ^ 2 + gz ^ 2) := by
    refine hκ.trans (Real.le_sqrt_of_sq_le ?_)
    rcases hg with h | h | h
    · have := sq_le_sq' (by linarith [abs_nonneg gx]) h
      rw [sq_abs] at this
      nlinarith [sq_nonneg gy, sq_nonneg gz]
    · have := sq_le_sq' (by linarith [abs_nonneg gy]) h
      rw [sq_abs] at this
      nlinarith [sq_nonneg gx, sq_nonneg gz]
    · have := sq_le_sq' (by linarith [abs_nonneg gz]) h
      rw [sq_abs] at this
      nlinarith [sq_nonneg gx, sq_nonneg gy]
  have h1 := C147_accuracy e m gx gy gz hnorm
  rw [fraction_eq] at h1
  have h2 : |Smear.Spec.cellBelow v e - Smear.Spec.below gx gy gz (e - m)| ≤ η / κ := by
    rw [cellBelow_centre v e m]
    refine below_close (F := fun p => Smear.Spec.interp v (p.1 + 1 / 2) (p.2.1 + 1 / 2) (p.2.2 + 1 / 2) - m) hη0 hκ0 hg ?_
    rintro ⟨x, y, z⟩ ⟨⟨hx, hx'⟩, ⟨hy, hy'⟩, ⟨hz, hz'⟩⟩
    simp only at hx hx' hy hy' hz hz' ⊢
    have hb := TB.PropsTetraAll.interp_bounds (v := fun c => v c - Spec.corner m gx gy gz c) (l := -η) (u := η)
      (fun c => (abs_le.1 (hη c)).1) (fun c => (abs_le.1 (hη c)).2) (x := x + 1 / 2) (y := y + 1 / 2) (z := z + 1 / 2)
      (by linarith) (by linarith) (by linarith) (by linarith) (by linarith) (by linarith)
    rw [interp_sub, interp_linear] at hb
    rw [abs_le]
    constructor <;> linarith [hb.1, hb.2]
  rw [abs_le] at h1 h2 ⊢
  constructor <;> linarith [h1.1, h1.2, h2.1, h2.2]

/-- C147.  If the values at the corners are those of a linear function, the two methods agree up to `2.005e-4`. -/
theorem C147_agree (m gx gy gz e : ℝ) (hg : 1 / 10 ^ 38 ≤ |gx| ∨ 1 / 10 ^ 38 ≤ |gy| ∨ 1 / 10 ^ 38 ≤ |gz|)
    (hf : TB.PropsTetraAll.Spec.FineCell (Spec.corner m gx gy gz) e) :
    |cubeCutVolume (e - m) (cubePrecomp gx gy gz) - cubeTetraCutVolume (fun c => e - Spec.corner m gx gy gz c)| ≤
      2 / 10 ^ 4 + 5 / 10 ^ 7 := by
  have e1 : cornerFit (Spec.corner m gx gy gz) = (m, gx, gy, gz) := by
    simp only [cornerFit, Spec.corner, Fin.isValue]
    norm_num [Fin.val_ofNat]
    refine ⟨?_, ?_, ?_, ?_⟩ <;> ring
  have h1 := C147_cell (Spec.corner m gx gy gz) e 0 (1 / 10 ^ 38) le_rfl (by rw [e1]; exact hg)
    (by rw [e1]; intro c; rw [sub_self, abs_zero])
  rw [e1, zero_div, add_zero] at h1
  have h2 := TB.PropsTetraAll.C146_cell _ _ hf
  rw [abs_le] at h1 h2 ⊢
  constructor <;> linarith [h1.1, h1.2, h2.1, h2.2]

theorem corner_x : Spec.corner (1 / 2) 1 0 0 = fun c => if c.val % 2 = 1 then (1 : ℝ) else 0 := by
  funext c
  rw [Spec.corner]
  rcases Nat.mod_two_eq_zero_or_one c.val with a | a <;> simp [a]

example : |cubeCutVolume (3 / 4 - 1 / 2) (cubePrecomp 1 0 0) - cubeTetraCutVolume (fun c => 3 / 4 - Spec.corner (1 / 2) 1 0 0 c)| ≤
    2 / 10 ^ 4 + 5 / 10 ^ 7 :=
  C147_agree (1 / 2) 1 0 0 (3 / 4) (Or.inl (by norm_num)) (by rw [corner_x]; exact TB.PropsTetraAll.fine_x _)

/-- A cell with one corner out of line. -/
def bent : Corners := fun c => if c.val = 7 then 11 else if c.val % 2 = 1 then 10 else 0

theorem bent_values : bent 0 = 0 ∧ bent 1 = 10 ∧ bent 2 = 0 ∧ bent 3 = 10 ∧ bent 4 = 0 ∧ bent 5 = 10 ∧ bent 6 = 0 ∧ bent 7 = 11 := by
  refine ⟨?_, ?_, ?_, ?_, ?_, ?_, ?_, ?_⟩ <;> norm_num [bent]

example : (∀ m gx gy gz, bent ≠ Spec.corner m gx gy gz) ∧
    ∀ e, |cubeCutVolume (e - (cornerFit bent).1) (cubePrecomp (cornerFit bent).2.1 (cornerFit bent).2.2.1 (cornerFit bent).2.2.2) -
      Smear.Spec.cellBelow bent e| ≤ 2 / 10 ^ 4 + 1 / 10 := by
  obtain ⟨b0, b1, b2, b3, b4, b5, b6, b7⟩ := bent_values
  have hf : cornerFit bent = (41 / 8, 41 / 4, 1 / 4, 1 / 4) := by
    simp only [cornerFit, b0, b1, b2, b3, b4, b5, b6, b7]
    norm_num
  refine ⟨fun m gx gy gz h => ?_, fun e => ?_⟩
  · have h0 := congrFun h 3
    have h1 := congrFun h 7
    have h2 := congrFun h 1
    have h3 := congrFun h 5
    rw [b3] at h0
    rw [b7] at h1
    rw [b1] at h2
    rw [b5] at h3
    norm_num [Spec.corner, Fin.val_ofNat] at h0 h1 h2 h3
    linarith
  · refine C147_cell bent e 1 10 (by norm_num) (Or.inl (by rw [hf]; norm_num [abs_of_pos])) ?_
    rw [hf]
    intro c
    fin_cases c <;> norm_num [bent, Spec.corner, abs_le]

/-! ## Whole grids -/

/-- Deviation of the corners of a cell from its linear fit is at most the `ρ`-th part of a slope of the fit. -/
def Spec.Flat (ρ : ℝ) (v : Corners) : Prop :=
  ∃ κ, 1 / 10 ^ 38 ≤ κ ∧
    (κ ≤ |(cornerFit v).2.1| ∨ κ ≤ |(cornerFit v).2.2.1| ∨ κ ≤ |(cornerFit v).2.2.2|) ∧
    ∀ c, |v c - Spec.corner (cornerFit v).1 (cornerFit v).2.1 (cornerFit v).2.2.1 (cornerFit v).2.2.2 c| ≤ ρ * κ

theorem mean_close {α : Type} (l : List α) (f g : α → ℝ) {ε : ℝ} (he : 0 ≤ ε) (h : ∀ p ∈ l, |f p - g p| ≤ ε) :
    |Dos.mean (l.map f) - (l.map g).sum / l.length| ≤ ε := by
  have h2 : |(l.map f).sum - (l.map g).sum| ≤ l.length * ε := by
    clear he
    induction l with
    | nil => simp
    | cons p l ih =>
      have a1 := abs_le.1 (h p (by simp))
      have a2 := abs_le.1 (ih fun q hq => h q (by simp [hq]))
      simp only [List.map_cons, List.sum_cons, List.length_cons, Nat.cast_add, Nat.cast_one]
      rw [abs_le]
      constructor <;> linarith [a1.1, a1.2, a2.1, a2.2]
  rw [Dos.mean, List.length_map]
  rcases Nat.eq_zero_or_pos l.length with h0 | h0
  · rw [h0]; norm_num; exact he
  · have hp : (0 : ℝ) < l.length := by exact_mod_cast h0
    rw [← sub_div, abs_div, abs_of_pos hp, div_le_iff₀ hp]
    linarith

/-- C147.  The number of states of a band below an energy, computed with cubes on a periodic grid, is the mean over the cells
of the fraction below the energy, up to `2e-4 + ρ`; and it agrees with the mean of `TetraSmearing.volume` up to
`2.005e-4 + ρ`.  Here `ρ` bounds how far the bands are from linear within a cell, relative to their slope. -/
theorem C147_grid (g : Dos.Grid) (e ρ : ℝ) (hρ : 0 ≤ ρ)
    (h : ∀ i < g.n0, ∀ j < g.n1, ∀ k < g.n2, Spec.Flat ρ fun c =>
      g.get ((i + c.val % 2) % g.n0) ((j + c.val / 2 % 2) % g.n1) ((k + c.val / 4 % 2) % g.n2)) :
    let o : TetraGrid := ⟨g.n0, g.n1, g.n2, true, g.get⟩
    let cells := PropsTetraAll.Spec.cells o
    |(Dos.Band.cubes g).vol e -
      (cells.map fun p => Smear.Spec.cellBelow (PropsTetraAll.Spec.cornersAt o p) e).sum / cells.length| ≤ 2 / 10 ^ 4 + ρ ∧
    ((∀ p ∈ cells, PropsTetraAll.Spec.FineCell (PropsTetraAll.Spec.cornersAt o p) e) →
      |(Dos.Band.cubes g).vol e - (cells.map fun p => o.volume e p.1 p.2.1 p.2.2).sum / cells.length| ≤
        2 / 10 ^ 4 + 5 / 10 ^ 7 + ρ) := by
  intro o cells
  have hp : g.points = cells := rfl
  have h1 : |(Dos.Band.cubes g).vol e -
      (cells.map fun p => Smear.Spec.cellBelow (PropsTetraAll.Spec.cornersAt o p) e).sum / cells.length| ≤ 2 / 10 ^ 4 + ρ := by
    simp only [Dos.Band.cubes]
    rw [hp]
    refine mean_close cells _ _ (by positivity) ?_
    rintro ⟨i, j, k⟩ hm
    have hc : gridCorners g.n0 g.n1 g.n2 g.get i j k = PropsTetraAll.Spec.cornersAt o (i, j, k) := PropsTetraAll.cornersAt_eq o hm
    simp only [cells, PropsTetraAll.Spec.cells, List.mem_flatMap, List.mem_map, List.mem_range, Prod.mk.injEq] at hm
    obtain ⟨i', hi, j', hj, k', hk, rfl, rfl, rfl⟩ := hm
    simp only [hc]
    obtain ⟨κ, hκ, hg, hη⟩ := h _ hi _ hj _ hk
    have := C147_cell (PropsTetraAll.Spec.cornersAt o (i', j', k')) e (ρ * κ) κ hκ hg hη
    rwa [mul_div_cancel_right₀ _ (ne_of_gt (lt_of_lt_of_le (by norm_num) hκ))] at this
  refine ⟨h1, fun hf => ?_⟩
  have h2 := (PropsTetraAll.C146_grid o e hf).2.2
  change |(cells.map _).sum / _ - (cells.map _).sum / _| ≤ _ at h2
  rw [abs_le] at h1 h2 ⊢
  constructor <;> linarith [h1.1, h1.2, h2.1, h2.2]

theorem flat_linear (m gx : ℝ) (h : 1 / 10 ^ 38 ≤ |gx|) : Spec.Flat 0 (Spec.corner m gx 0 0) := by
  have e : cornerFit (Spec.corner m gx 0 0) = (m, gx, 0, 0) := by
    simp only [cornerFit, Spec.corner, Fin.isValue]
    norm_num [Fin.val_ofNat]
    refine ⟨?_, ?_, ?_, ?_⟩ <;> ring
  refine ⟨|gx|, h, Or.inl (by rw [e]), fun c => ?_⟩
  rw [e, sub_self, abs_zero, zero_mul]

/-- A grid with two points along the first axis: up in one cell, down in the other. -/
example : ∀ i < 2, ∀ j < 1, ∀ k < 1, Spec.Flat 0 fun c : Fin 8 =>
    (Dos.Grid.mk 2 1 1 fun i _ _ => (i : ℝ)).get ((i + c.val % 2) % 2) ((j + c.val / 2 % 2) % 1) ((k + c.val / 4 % 2) % 1) := by
  intro i hi j _ k _
  have : i = 0 ∨ i = 1 := by omega
  rcases this with rfl | rfl
  · have e := flat_linear (1 / 2) 1 (by norm_num)
    rw [corner_x] at e
    convert e using 2 with c
    rcases Nat.mod_two_eq_zero_or_one c.val with a | a <;> simp [a]
  · have e := flat_linear (1 / 2) (-1) (by norm_num)
    convert e using 2 with c
    rw [Spec.corner]
    rcases Nat.mod_two_eq_zero_or_one c.val with a | a <;> norm_num [a]

end TB.PropsCubeAll

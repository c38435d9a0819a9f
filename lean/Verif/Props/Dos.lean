import Mathlib.Tactic.Linarith
import Mathlib.Tactic.Ring
import Mathlib.Tactic.NormNum
import Mathlib.Analysis.Calculus.Deriv.Add
import Mathlib.Analysis.Calculus.Deriv.Mul
import Verif.Model.Dos
import Verif.Props.Loss
import Verif.Props.Logger
import Verif.Props.SmearCube
import Verif.Props.SmearKernels

/-!
# C47: counting states
-/

namespace TB.Dos

open TB.Smear

/-- The smearing of a band is a distribution function with a density. -/
structure Spec.Dist (b : Band) : Prop where
  mono : Monotone b.vol
  nonneg : ∀ e, 0 ≤ b.vol e
  le_one : ∀ e, b.vol e ≤ 1
  deriv : ∀ e, HasDerivAt b.vol (b.dvol e) e

theorem foldl_add_eq (d : DoS) (f : Band → ℝ) (s : ℝ) : d.foldl (fun s b => s + f b) s = s + (d.map f).sum := by
  induction d generalizing s with
  | nil => simp
  | cons b d ih => rw [List.foldl_cons, ih]; simp; ring

theorem statesBelow_eq (d : DoS) (e : ℝ) : statesBelow d e = (d.map fun b => b.statesBelow e).sum := by
  rw [statesBelow, foldl_add_eq]; simp

theorem density_eq (d : DoS) (e : ℝ) : density d e = (d.map fun b => b.density e).sum := by
  rw [density, foldl_add_eq]; simp

/-- C47.  `states_density` returns the results of `states_below` and `density`. -/
theorem C47_states_density (d : DoS) (e : ℝ) : statesDensity d e = (statesBelow d e, density d e) := by
  have key : ∀ (d : DoS) (s : ℝ × ℝ), d.foldl (fun s b => if b.lo < e ∧ e < b.hi then (s.1 + b.vol e, s.2 + b.dvol e)
      else if b.hi ≤ e then (s.1 + 1, s.2) else s) s =
      (s.1 + (d.map fun b => b.statesBelow e).sum, s.2 + (d.map fun b => b.density e).sum) := by
    intro d
    induction d with
    | nil => intro s; simp
    | cons b d ih =>
      intro s
      rw [List.foldl_cons, ih, List.map_cons, List.map_cons, List.sum_cons, List.sum_cons, Band.statesBelow, Band.density]
      by_cases h1 : b.lo < e ∧ e < b.hi
      · rw [if_pos h1, if_pos h1, if_pos h1]; simp only [add_assoc]
      · rw [if_neg h1, if_neg h1, if_neg h1]
        by_cases h2 : b.hi ≤ e
        · rw [if_pos h2, if_pos h2]; simp only [add_assoc, zero_add]
        · rw [if_neg h2, if_neg h2]; simp only [zero_add]
  rw [statesDensity, statesBelow_eq, density_eq]
  have := key d (0, 0)
  simp only [zero_add] at this
  exact this

theorem band_range {b : Band} (h : Spec.Dist b) (e : ℝ) : 0 ≤ b.statesBelow e ∧ b.statesBelow e ≤ 1 := by
  rw [Band.statesBelow]
  by_cases h1 : b.lo < e ∧ e < b.hi
  · rw [if_pos h1]; exact ⟨h.nonneg e, h.le_one e⟩
  · rw [if_neg h1]
    by_cases h2 : b.hi ≤ e
    · rw [if_pos h2]; norm_num
    · rw [if_neg h2]; norm_num

theorem band_mono {b : Band} (h : Spec.Dist b) : Monotone b.statesBelow := by
  intro s t hst
  by_cases h1 : b.lo < s ∧ s < b.hi
  · by_cases h2 : b.hi ≤ t
    · have : b.statesBelow t = 1 := by rw [Band.statesBelow, if_neg (fun h => absurd h.2 (not_lt.2 h2)), if_pos h2]
      rw [this]; exact (band_range h s).2
    · push Not at h2
      rw [Band.statesBelow, Band.statesBelow, if_pos h1, if_pos ⟨lt_of_lt_of_le h1.1 hst, h2⟩]
      exact h.mono hst
  · by_cases h2 : b.hi ≤ s
    · have : b.statesBelow t = 1 := by
        rw [Band.statesBelow, if_neg (fun h => absurd h.2 (not_lt.2 (h2.trans hst))), if_pos (h2.trans hst)]
      rw [this]; exact (band_range h s).2
    · have : b.statesBelow s = 0 := by rw [Band.statesBelow, if_neg h1, if_neg h2]
      rw [this]; exact (band_range h t).1

/-- C47.  If every band is smeared with a distribution function: the number of states is between zero and the number of
bands, does not decrease with the energy, is zero below all bands and the number of bands above all bands. -/
theorem C47_count (d : DoS) (h : ∀ b ∈ d, Spec.Dist b) :
    (∀ e, 0 ≤ statesBelow d e ∧ statesBelow d e ≤ d.length) ∧ Monotone (statesBelow d) ∧
    (∀ e, (∀ b ∈ d, e ≤ b.lo ∧ e < b.hi) → statesBelow d e = 0) ∧
    (∀ e, (∀ b ∈ d, b.hi ≤ e) → statesBelow d e = d.length) := by
  refine ⟨fun e => ?_, fun s t hst => ?_, fun e he => ?_, fun e he => ?_⟩
  · rw [statesBelow_eq]
    constructor
    · refine List.sum_nonneg fun x hx => ?_
      obtain ⟨b, hb, rfl⟩ := List.mem_map.1 hx
      exact (band_range (h b hb) e).1
    · have := List.sum_le_card_nsmul (d.map fun b => b.statesBelow e) 1 (fun x hx => by
        obtain ⟨b, hb, rfl⟩ := List.mem_map.1 hx
        exact (band_range (h b hb) e).2)
      simpa using this
  · rw [statesBelow_eq, statesBelow_eq]
    exact List.sum_le_sum fun b hb => band_mono (h b hb) hst
  · rw [statesBelow_eq]
    refine List.sum_eq_zero fun x hx => ?_
    obtain ⟨b, hb, rfl⟩ := List.mem_map.1 hx
    obtain ⟨h1, h2⟩ := he b hb
    rw [Band.statesBelow, if_neg (fun h => absurd h.1 (not_lt.2 h1)), if_neg (not_le.2 h2)]
  · rw [statesBelow_eq]
    have e1 : d.map (fun b => b.statesBelow e) = d.map fun _ => (1 : ℝ) := by
      refine List.map_congr_left fun b hb => ?_
      rw [Band.statesBelow, if_neg (fun h => absurd h.2 (not_lt.2 (he b hb))), if_pos (he b hb)]
    rw [e1]
    simp

/-- C47.  Where no band is cut the number of states is the number of bands that end below the energy; the indices of
the bands that are cut are exactly the reported ones, in order. -/
theorem C47_cut (d : DoS) (e : ℝ) :
    (∀ i, i ∈ cutBandIndices d e ↔ ∃ b, d[i]? = some b ∧ b.lo < e ∧ e < b.hi) ∧
    (cutBandIndices d e).Pairwise (· < ·) ∧
    (cutBandIndices d e = [] → statesBelow d e = d.countP (fun b => b.hi ≤ e) ∧ density d e = 0) := by
  classical
  have key : ∀ (l : List (Band × ℕ)) (acc : List ℕ),
      l.foldl (fun acc p => if p.1.lo < e ∧ e < p.1.hi then acc ++ [p.2] else acc) acc =
      acc ++ (l.filter fun p => decide (p.1.lo < e ∧ e < p.1.hi)).map Prod.snd := by
    intro l
    induction l with
    | nil => intro acc; simp
    | cons p l ih =>
      intro acc
      rw [List.foldl_cons, ih]
      by_cases hp : p.1.lo < e ∧ e < p.1.hi
      · rw [if_pos hp, List.filter_cons_of_pos (by simpa using hp)]; simp
      · rw [if_neg hp, List.filter_cons_of_neg (by simpa using hp)]
  have hc : cutBandIndices d e = (d.zipIdx.filter fun p => decide (p.1.lo < e ∧ e < p.1.hi)).map Prod.snd := by
    rw [cutBandIndices]
    have := key d.zipIdx []
    rw [List.nil_append] at this
    convert this
  have hmem : ∀ i, i ∈ cutBandIndices d e ↔ ∃ b, d[i]? = some b ∧ b.lo < e ∧ e < b.hi := by
    intro i
    rw [hc]
    simp only [List.mem_map, List.mem_filter, decide_eq_true_eq]
    constructor
    · rintro ⟨⟨b, j⟩, ⟨hm, hb⟩, rfl⟩
      exact ⟨b, List.mem_zipIdx_iff_getElem?.1 hm, hb⟩
    · rintro ⟨b, hb, h⟩
      exact ⟨(b, i), ⟨List.mem_zipIdx_iff_getElem?.2 hb, h⟩, rfl⟩
  refine ⟨hmem, ?_, fun hnil => ?_⟩
  · rw [hc]
    refine List.Pairwise.sublist (l₂ := d.zipIdx.map Prod.snd) (List.filter_sublist.map _) ?_
    rw [List.zipIdx_map_snd]
    exact List.pairwise_lt_range'
  · have hno : ∀ b ∈ d, ¬ (b.lo < e ∧ e < b.hi) := by
      intro b hb h
      obtain ⟨i, hi, rfl⟩ := List.getElem_of_mem hb
      have := (hmem i).2 ⟨d[i], List.getElem?_eq_getElem hi, h⟩
      rw [hnil] at this
      simp at this
    clear hmem hc key hnil
    constructor
    · rw [statesBelow_eq]
      induction d with
      | nil => simp
      | cons b d ih =>
        have h0 := hno b (by simp)
        rw [List.map_cons, List.sum_cons, ih fun b hb => hno b (by simp [hb]), Band.statesBelow, if_neg h0]
        by_cases h2 : b.hi ≤ e
        · rw [if_pos h2, List.countP_cons_of_pos (by simpa using h2)]; push_cast; ring
        · rw [if_neg h2, List.countP_cons_of_neg (by simpa using h2)]; ring
    · rw [density_eq]
      refine List.sum_eq_zero fun x hx => ?_
      obtain ⟨b, hb, rfl⟩ := List.mem_map.1 hx
      rw [Band.density, if_neg (hno b hb)]

theorem band_hasDerivAt {b : Band} (h : Spec.Dist b) {e : ℝ} (h1 : e ≠ b.lo) (h2 : e ≠ b.hi) :
    HasDerivAt b.statesBelow (b.density e) e := by
  rcases lt_or_gt_of_ne h2 with hhi | hhi
  · rcases lt_or_gt_of_ne h1 with hlo | hlo
    · rw [Band.density, if_neg (fun h => absurd h.1 (not_lt.2 hlo.le))]
      refine (hasDerivAt_const e (0 : ℝ)).congr_of_eventuallyEq ?_
      filter_upwards [eventually_lt_nhds hlo, eventually_lt_nhds hhi] with x hx hx'
      rw [Band.statesBelow, if_neg (fun h => absurd h.1 (not_lt.2 hx.le)), if_neg (not_le.2 hx')]
    · rw [Band.density, if_pos ⟨hlo, hhi⟩]
      refine (h.deriv e).congr_of_eventuallyEq ?_
      filter_upwards [eventually_gt_nhds hlo, eventually_lt_nhds hhi] with x hx hx'
      rw [Band.statesBelow, if_pos ⟨hx, hx'⟩]
  · rw [Band.density, if_neg (fun h => absurd h.2 (not_lt.2 hhi.le))]
    refine (hasDerivAt_const e (1 : ℝ)).congr_of_eventuallyEq ?_
    filter_upwards [eventually_gt_nhds hhi] with x hx
    rw [Band.statesBelow, if_neg (fun h => absurd h.2 (not_lt.2 hx.le)), if_pos hx.le]

/-- C47.  `density` is not negative, and it is the derivative of `states_below` at every energy that is not
the end of a band. -/
theorem C47_density (d : DoS) (h : ∀ b ∈ d, Spec.Dist b) (e : ℝ) :
    0 ≤ density d e ∧ ((∀ b ∈ d, e ≠ b.lo ∧ e ≠ b.hi) → HasDerivAt (statesBelow d) (density d e) e) := by
  constructor
  · rw [density_eq]
    refine List.sum_nonneg fun x hx => ?_
    obtain ⟨b, hb, rfl⟩ := List.mem_map.1 hx
    rw [Band.density]
    split_ifs with hc
    · rw [← ((h b hb).deriv e).deriv]
      exact (h b hb).mono.deriv_nonneg
    · exact le_rfl
  · intro he
    have e1 : statesBelow d = fun x => (d.map fun b => b.statesBelow x).sum := funext fun x => statesBelow_eq d x
    rw [e1, density_eq]
    exact hasDerivAt_list_sum d (fun b x => b.statesBelow x) (fun b => b.density e) e fun b hb =>
      band_hasDerivAt (h b hb) (he b hb).1 (he b hb).2

/-! ### Smearing with cubes and spheres -/

theorem mean_dist {α : Type} (l : List α) (V D : α → ℝ → ℝ) (hm : ∀ p, Monotone (V p)) (h0 : ∀ p e, 0 ≤ V p e)
    (h1 : ∀ p e, V p e ≤ 1) (hd : ∀ p e, HasDerivAt (V p) (D p e) e) :
    (Monotone fun e => mean (l.map fun p => V p e)) ∧ (∀ e, 0 ≤ mean (l.map fun p => V p e)) ∧
    (∀ e, mean (l.map fun p => V p e) ≤ 1) ∧
    ∀ e, HasDerivAt (fun e => mean (l.map fun p => V p e)) (mean (l.map fun p => D p e)) e := by
  refine ⟨fun s t hst => ?_, fun e => ?_, fun e => ?_, fun e => ?_⟩
  · simp only [mean, List.length_map]
    exact div_le_div_of_nonneg_right (List.sum_le_sum fun p _ => hm p hst) (Nat.cast_nonneg _)
  · refine div_nonneg (List.sum_nonneg fun x hx => ?_) (Nat.cast_nonneg _)
    obtain ⟨p, -, rfl⟩ := List.mem_map.1 hx
    exact h0 p e
  · refine div_le_one_of_le₀ ?_ (Nat.cast_nonneg _)
    have := List.sum_le_card_nsmul (l.map fun p => V p e) 1 (fun x hx => by
      obtain ⟨p, -, rfl⟩ := List.mem_map.1 hx
      exact h1 p e)
    simpa using this
  · simp only [mean, List.length_map]
    exact (hasDerivAt_list_sum l V (fun p => D p e) e fun p _ => hd p e).div_const _

theorem shift_mono {V : ℝ → ℝ} (h : Monotone V) (c : ℝ) : Monotone fun e => V (e - c) :=
  fun _ _ hst => h (sub_le_sub_right hst c)

theorem shift_deriv {V D : ℝ → ℝ} (h : ∀ e, HasDerivAt V (D e) e) (c e : ℝ) :
    HasDerivAt (fun e => V (e - c)) (D (e - c)) e := by
  have := (h (e - c)).comp e ((hasDerivAt_id e).sub_const c)
  rw [mul_one] at this
  exact this

/-- Smearing with cubes gives a distribution function with its density. -/
theorem cubes_dist (g : Grid) : Spec.Dist (Band.cubes g) := by
  obtain ⟨h1, h2, h3, h4⟩ := mean_dist g.points
    (fun p e => cubeCutVolume (e - (cornerFit (gridCorners g.n0 g.n1 g.n2 g.get p.1 p.2.1 p.2.2)).1)
      (cubePrecomp (cornerFit (gridCorners g.n0 g.n1 g.n2 g.get p.1 p.2.1 p.2.2)).2.1
        (cornerFit (gridCorners g.n0 g.n1 g.n2 g.get p.1 p.2.1 p.2.2)).2.2.1
        (cornerFit (gridCorners g.n0 g.n1 g.n2 g.get p.1 p.2.1 p.2.2)).2.2.2))
    (fun p e => cubeCutDvolume (e - (cornerFit (gridCorners g.n0 g.n1 g.n2 g.get p.1 p.2.1 p.2.2)).1)
      (cubePrecomp (cornerFit (gridCorners g.n0 g.n1 g.n2 g.get p.1 p.2.1 p.2.2)).2.1
        (cornerFit (gridCorners g.n0 g.n1 g.n2 g.get p.1 p.2.1 p.2.2)).2.2.1
        (cornerFit (gridCorners g.n0 g.n1 g.n2 g.get p.1 p.2.1 p.2.2)).2.2.2))
    (fun p => shift_mono (C44_monotone _ _ _) _) (fun p e => (C44_range _ _ _ _).1) (fun p e => (C44_range _ _ _ _).2.1)
    (fun p e => shift_deriv (fun x => C45_derivative x _ _ _) _ e)
  exact ⟨h1, h2, h3, h4⟩

/-- Smearing with spheres gives a distribution function with its density. -/
theorem spheres_dist (g : Grid) : Spec.Dist (Band.spheres g) := by
  obtain ⟨h1, h2, h3, h4⟩ := mean_dist g.points
    (fun p e => (unitSphereCut (e - (cornerFit (gridCorners g.n0 g.n1 g.n2 g.get p.1 p.2.1 p.2.2)).1)
      (cornerFit (gridCorners g.n0 g.n1 g.n2 g.get p.1 p.2.1 p.2.2)).2.1
        (cornerFit (gridCorners g.n0 g.n1 g.n2 g.get p.1 p.2.1 p.2.2)).2.2.1
        (cornerFit (gridCorners g.n0 g.n1 g.n2 g.get p.1 p.2.1 p.2.2)).2.2.2).1)
    (fun p e => (unitSphereCut (e - (cornerFit (gridCorners g.n0 g.n1 g.n2 g.get p.1 p.2.1 p.2.2)).1)
      (cornerFit (gridCorners g.n0 g.n1 g.n2 g.get p.1 p.2.1 p.2.2)).2.1
        (cornerFit (gridCorners g.n0 g.n1 g.n2 g.get p.1 p.2.1 p.2.2)).2.2.1
        (cornerFit (gridCorners g.n0 g.n1 g.n2 g.get p.1 p.2.1 p.2.2)).2.2.2).2)
    (fun p => shift_mono (C46_sphere_distribution _ _ _).1 _) (fun p e => ((C46_sphere_distribution _ _ _).2 _).1)
    (fun p e => ((C46_sphere_distribution _ _ _).2 _).2.1)
    (fun p e => shift_deriv (fun x => C46_sphere_derivative x _ _ _) _ e)
  exact ⟨h1, h2, h3, h4⟩

theorem range_spec (g : Grid) (h : 0 < g.n0 ∧ 0 < g.n1 ∧ 0 < g.n2) :
    (∀ v ∈ g.values, g.range.1 ≤ v ∧ v ≤ g.range.2) ∧ g.range.1 ∈ g.values ∧ g.range.2 ∈ g.values := by
  have h0 : g.get 0 0 0 ∈ g.values := by
    simp only [Grid.values, Grid.points, List.mem_map, List.mem_flatMap, List.mem_range]
    exact ⟨(0, 0, 0), ⟨0, h.1, 0, h.2.1, 0, h.2.2, rfl⟩, rfl⟩
  obtain ⟨a1, a2, a3⟩ := foldl_min_le g.values (g.get 0 0 0)
  obtain ⟨b1, b2, b3⟩ := le_foldl_max g.values (g.get 0 0 0)
  refine ⟨fun v hv => ⟨a2 v hv, b2 v hv⟩, ?_, ?_⟩
  · rcases a3 with h | h
    · rw [Grid.range, h]; exact h0
    · exact h
  · rcases b3 with h | h
    · rw [Grid.range, h]; exact h0
    · exact h

/-- C47.  For bands on a grid, smeared with cubes or spheres: the number of states is between zero and the number of bands,
does not decrease, is zero for energies below all band energies, and the number of bands for energies not below any. -/
theorem C47_grid (gs : List Grid) (hg : ∀ g ∈ gs, 0 < g.n0 ∧ 0 < g.n1 ∧ 0 < g.n2) (d : DoS)
    (hd : d = gs.map Band.cubes ∨ d = gs.map Band.spheres) :
    (∀ e, 0 ≤ statesBelow d e ∧ statesBelow d e ≤ gs.length) ∧ Monotone (statesBelow d) ∧
    (∀ e, (∀ g ∈ gs, ∀ v ∈ g.values, e < v) → statesBelow d e = 0) ∧
    (∀ e, (∀ g ∈ gs, ∀ v ∈ g.values, v ≤ e) → statesBelow d e = gs.length) ∧
    (∀ e, 0 ≤ density d e) ∧
    (∀ e, (∀ g ∈ gs, e ∉ g.values) → HasDerivAt (statesBelow d) (density d e) e) := by
  have hlen : d.length = gs.length := by rcases hd with rfl | rfl <;> simp
  have hb : ∀ b ∈ d, Spec.Dist b ∧ ∃ g ∈ gs, b.lo = g.range.1 ∧ b.hi = g.range.2 := by
    intro b hb
    rcases hd with rfl | rfl
    · obtain ⟨g, hg, rfl⟩ := List.mem_map.1 hb
      exact ⟨cubes_dist g, g, hg, rfl, rfl⟩
    · obtain ⟨g, hg, rfl⟩ := List.mem_map.1 hb
      exact ⟨spheres_dist g, g, hg, rfl, rfl⟩
  obtain ⟨h1, h2, h3, h4⟩ := C47_count d fun b h => (hb b h).1
  rw [hlen] at h1 h4
  refine ⟨h1, h2, fun e he => h3 e fun b hbm => ?_, fun e he => h4 e fun b hbm => ?_,
    fun e => (C47_density d (fun b h => (hb b h).1) e).1,
    fun e he => (C47_density d (fun b h => (hb b h).1) e).2 fun b hbm => ?_⟩
  · obtain ⟨-, g, hgm, hlo, hhi⟩ := hb b hbm
    obtain ⟨-, r1, r2⟩ := range_spec g (hg g hgm)
    rw [hlo, hhi]
    exact ⟨(he g hgm _ r1).le, he g hgm _ r2⟩
  · obtain ⟨-, g, hgm, hlo, hhi⟩ := hb b hbm
    obtain ⟨-, r1, r2⟩ := range_spec g (hg g hgm)
    rw [hhi]
    exact he g hgm _ r2
  · obtain ⟨-, g, hgm, hlo, hhi⟩ := hb b hbm
    obtain ⟨-, r1, r2⟩ := range_spec g (hg g hgm)
    rw [hlo, hhi]
    exact ⟨fun h => he g hgm (h ▸ r1), fun h => he g hgm (h ▸ r2)⟩

/-- Two bands on a grid with 2 × 2 × 2 points. -/
def exGrids : List Grid :=
  [⟨2, 2, 2, fun i j k => i + 2 * j + 4 * k⟩, ⟨2, 2, 2, fun i j k => 10 + i * j * k⟩]

theorem exGrids_values : exGrids.map Grid.values = [[0, 4, 2, 6, 1, 5, 3, 7], [10, 10, 10, 10, 10, 10, 10, 11]] := by
  norm_num [exGrids, Grid.values, Grid.points, List.range_succ]

example : (∀ g ∈ exGrids, 0 < g.n0 ∧ 0 < g.n1 ∧ 0 < g.n2) ∧
    statesBelow (exGrids.map Band.cubes) (-1) = 0 ∧ statesBelow (exGrids.map Band.cubes) 12 = 2 ∧
    HasDerivAt (statesBelow (exGrids.map Band.spheres)) (density (exGrids.map Band.spheres) (7 / 2)) (7 / 2) := by
  have hg : ∀ g ∈ exGrids, 0 < g.n0 ∧ 0 < g.n1 ∧ 0 < g.n2 := by simp [exGrids]
  have key := C47_grid exGrids hg (exGrids.map Band.cubes) (Or.inl rfl)
  have hv : ∀ P : ℝ → Prop, (∀ l ∈ exGrids.map Grid.values, ∀ v ∈ l, P v) → ∀ g ∈ exGrids, ∀ v ∈ g.values, P v :=
    fun P h g hgm v hvm => h _ (List.mem_map_of_mem hgm) v hvm
  refine ⟨hg, key.2.2.1 _ (hv _ ?_), ?_, ?_⟩
  · rw [exGrids_values]; norm_num
  · have := key.2.2.2.1 12 (hv _ (by rw [exGrids_values]; norm_num))
    rw [this]; norm_num [exGrids]
  · refine (C47_grid exGrids hg (exGrids.map Band.spheres) (Or.inr rfl)).2.2.2.2.2 _ fun g hgm hmem => ?_
    exact hv (fun v => (7 / 2 : ℝ) ≠ v) (by rw [exGrids_values]; norm_num) g hgm _ hmem rfl

end TB.Dos

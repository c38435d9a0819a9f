import Verif.Lemmas.DosInit
import Mathlib.Tactic.FinCases
import Mathlib.Tactic.NormNum
import Mathlib.Tactic.Positivity
import Mathlib.Data.Real.StarOrdered
import Mathlib.Analysis.Matrix.PosDef
import Mathlib.Analysis.Calculus.Deriv.Pow
import Mathlib.Analysis.Calculus.Deriv.Add
import Mathlib.Analysis.Calculus.Deriv.Mul

/-!
# C122: the constructor of `DensityOfStates`

`Spec`: the points of the grid in terms of the arguments, the band energies there, and periodicity.
-/

namespace TB.PropsDosInit

open TB.DosInit

variable {n : ℕ} {pinv : M3 → M3} {rnd : Fin 20 → V3} {md : Model n} {a : Args} {d : Dos n}

/-- Number of points on each axis: `N`, or `N + 1` if the last point is included. -/
def pts (a : Args) : ℤ := if a.wrap = true ∨ a.midpoint = true then a.N else a.N + 1

theorem pts_eq (a : Args) : pts a = count a.N a.wrap a.midpoint := by
  unfold pts count; simp only [Bool.or_eq_true]

/-- Coordinate of the point with index `i` on an axis with the range `r`: `N` equal steps, shifted by half a step for midpoints. -/
noncomputable def pos (a : Args) (r : ℝ × ℝ) (i : ℕ) : ℝ := r.1 + (i + if a.midpoint then 1 / 2 else 0) * ((r.2 - r.1) / a.N)

/-- **C122** The sampled points: row `(i m + j) m + l` of the points is the point with the indices `i`, `j`, `l`, in reciprocal coordinates
(`crystal @ inv(A)`); the steps and the volume are those of the ranges. -/
theorem C122_grid (h : init pinv rnd md a = .ok d) :
    ∃ rx ry rz m, a.ranges = [rx, ry, rz] ∧ pts a = (m : ℕ) ∧ 2 ≤ m ∧ d.ks.length = m ^ 3 ∧
      (∀ i j l, i < m → j < m → l < m →
        d.ks[(i * m + j) * m + l]? = some (Matrix.vecMul ![pos a rx i, pos a ry j, pos a rz l] a.A⁻¹)) ∧
      d.steps = ![(rx.2 - rx.1) / a.N, (ry.2 - ry.1) / a.N, (rz.2 - rz.1) / a.N] ∧
      d.volume = (rx.2 - rx.1) * (ry.2 - ry.1) * (rz.2 - rz.1) := by
  obtain ⟨rx, ry, rz, hr, hN, hA⟩ := init_ok _ _ _ _ _ h
  rw [init_good _ _ _ _ rx ry rz hr hN hA] at h
  obtain ⟨bands, kind, -, -, rfl, -⟩ := rest_ok h
  refine ⟨rx, ry, rz, (count a.N a.wrap a.midpoint).toNat, hr, by rw [pts_eq]; omega, by omega, ?_, ?_, rfl, rfl⟩
  · exact (TB.DosInit.grid_length _ _ _ _).trans (by simp only [List.length_map, List.length_range]; ring)
  · intro i j l hi hj hl
    have := grid_get a.A ((List.range (count a.N a.wrap a.midpoint).toNat).map (coord a.N a.midpoint rx))
      ((List.range (count a.N a.wrap a.midpoint).toNat).map (coord a.N a.midpoint ry))
      ((List.range (count a.N a.wrap a.midpoint).toNat).map (coord a.N a.midpoint rz)) i j l (pos a rx i) (pos a ry j) (pos a rz l)
      (by simp [hi, pos, coord]) (by simp [hj, pos, coord]) (by simp [hl, pos, coord])
    simp only [List.length_map, List.length_range] at this
    exact this

/-- **C122** The band energies stored are those of the model at the points (of `bands_grad` where gradients are used). -/
theorem C122_bands (h : init pinv rnd md a = .ok d) (hg : ∀ g, md.grad = some g → ∀ k b, (g k b).1 = md.bands k b) :
    d.bands = d.ks.map md.bands ∧ d.ranges.length = n := by
  obtain ⟨rx, ry, rz, hr, hN, hA⟩ := init_ok _ _ _ _ _ h
  rw [init_good _ _ _ _ rx ry rz hr hN hA] at h
  obtain ⟨bands, kind, hb, -, rfl, -⟩ := rest_ok h
  refine ⟨?_, by simp [bandsRange]⟩
  unfold evalBands at hb
  split at hb
  · split at hb
    · exact absurd hb (by simp)
    · rename_i g hmd
      rw [← Except.ok.inj hb]
      exact List.map_congr_left fun k _ => funext fun b => hg g hmd k b
  · exact (Except.ok.inj hb).symm

/-- Two points agree up to a vector of the reciprocal lattice (the rows of `inv(A)`). -/
def Equivalent (A : M3) (k k' : V3) : Prop := ∃ z : Fin 3 → ℤ, k = k' + Matrix.vecMul (fun i => (z i : ℝ)) A⁻¹

theorem mem_ks (h : init pinv rnd md a = .ok d) (rx ry rz : ℝ × ℝ) (hr : a.ranges = [rx, ry, rz]) (k : V3) :
    k ∈ d.ks ↔ ∃ i j l : ℕ, (i : ℤ) < pts a ∧ (j : ℤ) < pts a ∧ (l : ℤ) < pts a ∧
      k = Matrix.vecMul ![pos a rx i, pos a ry j, pos a rz l] a.A⁻¹ := by
  obtain ⟨rx', ry', rz', hr', hN, hA⟩ := init_ok _ _ _ _ _ h
  have he : rx' = rx ∧ ry' = ry ∧ rz' = rz := by rw [hr] at hr'; simpa [eq_comm] using hr'
  obtain ⟨rfl, rfl, rfl⟩ := he
  rw [init_good _ _ _ _ rx' ry' rz' hr hN hA] at h
  obtain ⟨bands, kind, -, -, rfl, -⟩ := rest_ok h
  simp only [ksOf, mem_grid, List.mem_map, List.mem_range, pts_eq]
  constructor
  · rintro ⟨_, ⟨i, hi, rfl⟩, _, ⟨j, hj, rfl⟩, _, ⟨l, hl, rfl⟩, rfl⟩
    exact ⟨i, j, l, by omega, by omega, by omega, rfl⟩
  · rintro ⟨i, j, l, hi, hj, hl, rfl⟩
    exact ⟨_, ⟨i, by omega, rfl⟩, _, ⟨j, by omega, rfl⟩, _, ⟨l, by omega, rfl⟩, rfl⟩

/-- Over a symmetric range of width one the negative of a coordinate is a coordinate up to an integer. -/
theorem pos_neg (hN : 2 ≤ pts a) (i : ℕ) (hi : (i : ℤ) < pts a) :
    ∃ (j : ℕ) (z : ℤ), (j : ℤ) < pts a ∧ -pos a (-1 / 2, 1 / 2) i = pos a (-1 / 2, 1 / 2) j + z := by
  have hp : pts a = a.N ∨ (a.midpoint = false ∧ pts a = a.N + 1) := by
    unfold pts; split
    · exact .inl rfl
    · rename_i hc; right; refine ⟨?_, rfl⟩; simp at hc; exact hc.2
  have hN0 : (a.N : ℝ) ≠ 0 := by
    have : a.N ≠ 0 := by omega
    exact_mod_cast this
  by_cases hm : a.midpoint = true
  · have hpN : pts a = a.N := by rcases hp with h | h; exact h; rw [hm] at h; simp at h
    refine ⟨(a.N - 1 - i).toNat, 0, by omega, ?_⟩
    have hc : (((a.N - 1 - i).toNat : ℕ) : ℝ) = a.N - 1 - i := by
      have : (((a.N - 1 - i).toNat : ℕ) : ℤ) = a.N - 1 - i := Int.toNat_of_nonneg (by omega)
      exact_mod_cast this
    simp only [pos, hm, if_true, hc]
    field_simp; push_cast; ring
  · simp only [Bool.not_eq_true] at hm
    by_cases hi0 : i = 0
    · refine ⟨0, 1, by omega, ?_⟩
      simp only [pos, hm, hi0]; push_cast; norm_num
    · refine ⟨(a.N - i).toNat, 0, by omega, ?_⟩
      have hc : (((a.N - i).toNat : ℕ) : ℝ) = a.N - i := by
        have : (((a.N - i).toNat : ℕ) : ℤ) = a.N - i := Int.toNat_of_nonneg (by omega)
        exact_mod_cast this
      simp only [pos, hm, hc]
      field_simp; push_cast; norm_num; ring

/-- **C122** With the default ranges the sampled points are symmetric under inversion up to reciprocal lattice vectors. -/
theorem C122_inversion (h : init pinv rnd md a = .ok d) (hr : a.ranges = [(-1 / 2, 1 / 2), (-1 / 2, 1 / 2), (-1 / 2, 1 / 2)]) (k : V3) (hk : k ∈ d.ks) :
    ∃ k' ∈ d.ks, Equivalent a.A (-k) k' := by
  obtain ⟨_, _, _, _, hN, _⟩ := init_ok _ _ _ _ _ h
  rw [← pts_eq] at hN
  obtain ⟨i, j, l, hi, hj, hl, rfl⟩ := (mem_ks h _ _ _ hr k).1 hk
  obtain ⟨i', zi, hi', ei⟩ := pos_neg hN i hi
  obtain ⟨j', zj, hj', ej⟩ := pos_neg hN j hj
  obtain ⟨l', zl, hl', el⟩ := pos_neg hN l hl
  refine ⟨_, (mem_ks h _ _ _ hr _).2 ⟨i', j', l', hi', hj', hl', rfl⟩, ![zi, zj, zl], ?_⟩
  rw [← Matrix.add_vecMul, ← Matrix.neg_vecMul]
  congr 1
  funext c
  fin_cases c
  · exact ei
  · exact ej
  · exact el

/-- **C122** On a wrapped grid over ranges of width one, moving all points by one step along an axis gives the same points up to reciprocal
lattice vectors. -/
theorem C122_wrap (h : init pinv rnd md a = .ok d) (hw : a.wrap = true) (rx ry rz : ℝ × ℝ) (hr : a.ranges = [rx, ry, rz]) (hx : rx.2 - rx.1 = 1)
    (hy : ry.2 - ry.1 = 1) (hz : rz.2 - rz.1 = 1) (k : V3) (hk : k ∈ d.ks) (c : Fin 3) :
    ∃ k' ∈ d.ks, Equivalent a.A (k + Matrix.vecMul (Pi.single c (1 / (a.N : ℝ))) a.A⁻¹) k' := by
  obtain ⟨_, _, _, _, hN, _⟩ := init_ok _ _ _ _ _ h
  rw [← pts_eq] at hN
  have hpN : pts a = a.N := by unfold pts; rw [if_pos (.inl hw)]
  have hN0 : (a.N : ℝ) ≠ 0 := by
    have : a.N ≠ 0 := by omega
    exact_mod_cast this
  obtain ⟨i, j, l, hi, hj, hl, rfl⟩ := (mem_ks h _ _ _ hr k).1 hk
  have key : ∀ (r : ℝ × ℝ) (i : ℕ), r.2 - r.1 = 1 → (i : ℤ) < pts a →
      ∃ (i' : ℕ) (z : ℤ), (i' : ℤ) < pts a ∧ pos a r i + 1 / (a.N : ℝ) = pos a r i' + z := by
    intro r i h1 hi
    by_cases hl : (i : ℤ) + 1 < pts a
    · refine ⟨i + 1, 0, by push_cast; exact hl, ?_⟩
      simp only [pos, h1]; push_cast; ring
    · refine ⟨0, 1, by omega, ?_⟩
      have hc : (i : ℝ) = a.N - 1 := by
        have : (i : ℤ) = a.N - 1 := by omega
        exact_mod_cast this
      simp only [pos, h1, hc]; push_cast; field_simp; ring
  fin_cases c
  · obtain ⟨i', z, hi', e⟩ := key rx i hx hi
    refine ⟨_, (mem_ks h _ _ _ hr _).2 ⟨i', j, l, hi', hj, hl, rfl⟩, ![z, 0, 0], ?_⟩
    rw [← Matrix.add_vecMul, ← Matrix.add_vecMul]; congr 1; funext c
    fin_cases c
    · simpa using e
    · simp
    · simp
  · obtain ⟨i', z, hi', e⟩ := key ry j hy hj
    refine ⟨_, (mem_ks h _ _ _ hr _).2 ⟨i, i', l, hi, hi', hl, rfl⟩, ![0, z, 0], ?_⟩
    rw [← Matrix.add_vecMul, ← Matrix.add_vecMul]; congr 1; funext c
    fin_cases c
    · simp
    · simpa using e
    · simp
  · obtain ⟨i', z, hi', e⟩ := key rz l hz hl
    refine ⟨_, (mem_ks h _ _ _ hr _).2 ⟨i, j, i', hi, hj, hi', rfl⟩, ![0, 0, z], ?_⟩
    rw [← Matrix.add_vecMul, ← Matrix.add_vecMul]; congr 1; funext c
    fin_cases c
    · simp
    · simp
    · simpa using e

/-- **C122** The errors caused by the arguments, before the model is used. -/
theorem C122_arguments :
    (a.ranges.length ≠ 3 → init pinv rnd md a = .error .assertionError) ∧
    (a.ranges.length = 3 → pts a < 0 → init pinv rnd md a = .error .valueError) ∧
    (a.ranges.length = 3 → a.midpoint = true → a.N = 0 → init pinv rnd md a = .error .zeroDivision) ∧
    (a.ranges.length = 3 → 0 ≤ pts a → pts a < 2 → ¬ (a.midpoint = true ∧ a.N = 0) → init pinv rnd md a = .error .indexError) ∧
    (a.ranges.length = 3 → 2 ≤ pts a → a.A.det = 0 → init pinv rnd md a = .error .valueError) := by
  have h3 : a.ranges.length = 3 → ∃ rx ry rz, a.ranges = [rx, ry, rz] := fun h => List.length_eq_three.1 h
  simp only [pts_eq]
  refine ⟨?_, ?_, ?_, ?_, ?_⟩
  · intro h
    unfold init
    split
    · rename_i hr; rw [hr] at h; simp at h
    · rfl
  · intro h hn
    obtain ⟨rx, ry, rz, hr⟩ := h3 h
    unfold init; rw [hr]
    simp only [axis_neg _ _ _ _ hn, bind, Except.bind]
  · intro h hm h0
    obtain ⟨rx, ry, rz, hr⟩ := h3 h
    unfold init; rw [hr]
    simp only [hm, h0, axis_zero, bind, Except.bind]
  · intro h h0 h2 hz
    obtain ⟨rx, ry, rz, hr⟩ := h3 h
    obtain ⟨l, hl, hl2⟩ := axis_few a.N a.wrap a.midpoint rx (by omega) h0 hz
    obtain ⟨l', hl', _⟩ := axis_few a.N a.wrap a.midpoint ry (by omega) h0 hz
    obtain ⟨l'', hl'', _⟩ := axis_few a.N a.wrap a.midpoint rz (by omega) h0 hz
    unfold init; rw [hr]
    simp only [hl, hl', hl'', stepOf_few l hl2, bind, Except.bind]
  · intro h hN hA
    obtain ⟨rx, ry, rz, hr⟩ := h3 h
    have hm : 2 ≤ (count a.N a.wrap a.midpoint).toNat := by omega
    unfold init; rw [hr]
    simp only [axis_ok _ _ _ _ hN, stepOf_map _ _ hm, bind, Except.bind, if_pos hA]

/-- **C122** The options, for good arguments: after the check, gradients need `bands_grad` with "spheres" and "cubes", are refused with "tetras"
and "cubes+", and any other smearing is refused in the end. -/
theorem C122_options (h3 : a.ranges.length = 3) (hN : 2 ≤ pts a) (hA : a.A.det ≠ 0) :
    (∀ t e, a.check = some t → periodicCheck md a.A rnd t = .error e → init pinv rnd md a = .error e) ∧
    ((∀ t, a.check = some t → periodicCheck md a.A rnd t = .ok ()) →
      ((∃ d, init pinv rnd md a = .ok d) ↔
        ((a.smearing = "spheres" ∨ a.smearing = "cubes") ∧ (a.useGradients = true → md.grad.isSome = true)) ∨
        ((a.smearing = "tetras" ∨ a.smearing = "cubes+") ∧ a.useGradients = false)) ∧
      ((a.smearing = "tetras" ∨ a.smearing = "cubes+") → a.useGradients = true → init pinv rnd md a = .error .notImplemented) ∧
      ((a.smearing = "spheres" ∨ a.smearing = "cubes") → a.useGradients = true → md.grad = none → init pinv rnd md a = .error .valueError) ∧
      (a.smearing ∉ ["spheres", "cubes", "tetras", "cubes+"] → init pinv rnd md a = .error .valueError)) := by
  obtain ⟨rx, ry, rz, hr⟩ := List.length_eq_three.1 h3
  rw [pts_eq] at hN
  rw [init_good _ _ _ _ rx ry rz hr hN hA]
  refine ⟨?_, fun hc => ?_⟩
  · intro t e ht he
    unfold rest
    simp only [ht, he, bind, Except.bind]
  · have hpre : ∀ ks st, rest pinv rnd md a rx ry rz ks st = (do
        let bands ← evalBands md a.smearing a.useGradients ks
        let kind ← kindOf a.smearing a.useGradients
        .ok ⟨(rx.2 - rx.1) * (ry.2 - ry.1) * (rz.2 - rz.1), st, ks, bands, bandsRange pinv md st ks bands, kind⟩) := by
      intro ks st
      unfold rest
      cases ha : a.check with
      | none => rfl
      | some t => simp only [hc t ha]; rfl
    have hs : ∀ s t : String, s ≠ t → a.smearing = s → a.smearing ≠ t := fun s t h e => e ▸ h
    rw [hpre]
    generalize ksOf a rx ry rz = ks
    unfold evalBands kindOf
    by_cases h1 : a.smearing = "spheres"
    · rw [h1]
      cases hu : a.useGradients <;> cases hg : md.grad <;> simp [bind, Except.bind]
    by_cases h2 : a.smearing = "cubes"
    · rw [h2]
      cases hu : a.useGradients <;> cases hg : md.grad <;> simp [bind, Except.bind]
    by_cases h4 : a.smearing = "tetras"
    · rw [h4]
      cases hu : a.useGradients <;> simp [bind, Except.bind]
    by_cases h5 : a.smearing = "cubes+"
    · rw [h5]
      cases hu : a.useGradients <;> simp [bind, Except.bind]
    simp [h1, h2, h4, h5, bind, Except.bind]

/-- The kind of smearing objects created. -/
theorem C122_kind (h : init pinv rnd md a = .ok d) :
    (a.smearing = "tetras" → d.kind = .tetras) ∧ (a.smearing = "cubes" → d.kind = .cubes a.useGradients) ∧
    (a.smearing = "cubes+" → d.kind = .cubesPlus) ∧ (a.smearing = "spheres" → d.kind = .spheres a.useGradients) := by
  obtain ⟨rx, ry, rz, hr, hN, hA⟩ := init_ok _ _ _ _ _ h
  rw [init_good _ _ _ _ rx ry rz hr hN hA] at h
  obtain ⟨bands, kind, -, hk, rfl, -⟩ := rest_ok h
  refine ⟨?_, ?_, ?_, ?_⟩ <;> intro hs <;> rw [hs] at hk <;> unfold kindOf at hk <;> cases hu : a.useGradients <;> rw [hu] at hk <;>
    simp at hk <;> exact hk.symm

/-! ## `check` -/

/-- The bands repeat with the rows of `inv(A)`. -/
def Periodic (md : Model n) (A : M3) : Prop := ∀ (k : V3) (i : Fin 3) (b : Fin n), md.bands (k + fun c => A⁻¹ i c) b = md.bands k b

/-- **C122** `check` accepts every periodic model for every positive tolerance, whatever points are drawn; it refuses a model that is off by the
tolerance at a drawn point; tolerances that are not positive refuse everything. -/
theorem C122_check (md : Model n) (A : M3) (rnd : Fin 20 → V3) (tol : ℝ) :
    (Periodic md A → 0 < tol → periodicCheck md A rnd tol = .ok ()) ∧
    ((∃ (j : Fin 20) (i : Fin 3) (b : Fin n),
        tol ≤ |md.bands (Matrix.vecMul (Matrix.vecMul (rnd j) A⁻¹) A⁻¹) b -
          md.bands (Matrix.vecMul (Matrix.vecMul (rnd j) A⁻¹) A⁻¹ + fun c => A⁻¹ i c) b|) → periodicCheck md A rnd tol = .error .assertionError) ∧
    (tol ≤ 0 → periodicCheck md A rnd tol = .error .assertionError) := by
  have hrow : ∀ (k : V3) (i : Fin 3), Matrix.vecMul (k + Pi.single i 1) A⁻¹ = Matrix.vecMul k A⁻¹ + fun c => A⁻¹ i c := by
    intro k i
    rw [Matrix.add_vecMul, Matrix.single_one_vecMul]; rfl
  refine ⟨fun hp ht => ?_, fun ⟨j, i, b, hjb⟩ => ?_, fun ht => ?_⟩
  · unfold periodicCheck
    rw [if_pos]
    intro i
    refine lt_of_eq_of_lt (Real.sqrt_eq_zero'.2 (le_of_eq (Finset.sum_eq_zero fun j _ => Finset.sum_eq_zero fun b _ => ?_))) ht
    rw [hrow, hp _ i b, sub_self]; norm_num
  · unfold periodicCheck
    rw [if_neg]
    intro hall
    refine absurd (hall i) (not_lt.2 (hjb.trans ?_))
    rw [← Real.sqrt_sq_eq_abs]
    refine Real.sqrt_le_sqrt ?_
    simp only [hrow]
    refine le_trans ?_ (Finset.single_le_sum (f := fun j => ∑ b, (md.bands (Matrix.vecMul (Matrix.vecMul (rnd j) A⁻¹) A⁻¹) b -
      md.bands (Matrix.vecMul (Matrix.vecMul (rnd j) A⁻¹) A⁻¹ + fun c => A⁻¹ i c) b) ^ 2) (fun _ _ => Finset.sum_nonneg fun _ _ => sq_nonneg _)
      (Finset.mem_univ j))
    exact Finset.single_le_sum (f := fun b => (md.bands (Matrix.vecMul (Matrix.vecMul (rnd j) A⁻¹) A⁻¹) b -
      md.bands (Matrix.vecMul (Matrix.vecMul (rnd j) A⁻¹) A⁻¹ + fun c => A⁻¹ i c) b) ^ 2) (fun _ _ => sq_nonneg _) (Finset.mem_univ b)
  · unfold periodicCheck
    rw [if_neg]
    intro hall
    exact absurd (hall 0) (not_lt.2 (ht.trans (Real.sqrt_nonneg _)))

/-! ## `bands_range` -/

theorem ks_ne_nil (h : init pinv rnd md a = .ok d) : d.ks ≠ [] := by
  obtain ⟨_, _, _, m, _, _, hm, hl, _⟩ := C122_grid h
  intro h0
  rw [h0] at hl
  have : 0 < m ^ 3 := by positivity
  simp at hl; omega

theorem bands_len (h : init pinv rnd md a = .ok d) : d.bands.length = d.ks.length := by
  obtain ⟨rx, ry, rz, hr, hN, hA⟩ := init_ok _ _ _ _ _ h
  rw [init_good _ _ _ _ rx ry rz hr hN hA] at h
  obtain ⟨bands, kind, hb, -, rfl, -⟩ := rest_ok h
  unfold evalBands at hb
  split at hb
  · split at hb
    · exact absurd hb (by simp)
    · rw [← Except.ok.inj hb]; simp
  · rw [← Except.ok.inj hb]; simp

theorem ranges_eq (h : init pinv rnd md a = .ok d) : d.ranges = bandsRange pinv md d.steps d.ks d.bands := by
  obtain ⟨rx, ry, rz, hr, hN, hA⟩ := init_ok _ _ _ _ _ h
  rw [init_good _ _ _ _ rx ry rz hr hN hA] at h
  obtain ⟨bands, kind, hb, -, rfl, -⟩ := rest_ok h
  rfl

/-- The first points where band `i` is lowest and highest. -/
theorem extremal (h : init pinv rnd md a = .ok d) (i : Fin n) :
    ∃ p q vlo vhi, (d.bands.map fun b => b i).getD p 0 = vlo ∧ (d.bands.map fun b => b i).getD q 0 = vhi ∧
      argBest (· < ·) (d.bands.map fun b => b i) = p ∧ argBest (· > ·) (d.bands.map fun b => b i) = q ∧
      p < d.ks.length ∧ q < d.ks.length ∧ vlo ∈ d.bands.map (fun b => b i) ∧ vhi ∈ d.bands.map (fun b => b i) ∧
      (∀ b ∈ d.bands, vlo ≤ b i) ∧ (∀ b ∈ d.bands, b i ≤ vhi) := by
  have hne : d.bands.map (fun b => b i) ≠ [] := by
    intro h0
    have := bands_len h
    rw [List.map_eq_nil_iff.1 h0] at this
    exact ks_ne_nil h (List.length_eq_zero_iff.1 this.symm)
  obtain ⟨b, h1, h2, -⟩ := argMin_spec _ hne
  obtain ⟨c, g1, g2, -⟩ := argMax_spec _ hne
  refine ⟨_, _, b, c, by rw [List.getD_eq_getElem?_getD, h1]; rfl, by rw [List.getD_eq_getElem?_getD, g1]; rfl, rfl, rfl, ?_, ?_,
    List.mem_of_getElem? h1, List.mem_of_getElem? g1, fun x hx => h2 _ (List.mem_map.2 ⟨x, hx, rfl⟩), fun x hx => g2 _ (List.mem_map.2 ⟨x, hx, rfl⟩)⟩
  · have := (List.getElem?_eq_some_iff.1 h1).1
    rw [List.length_map, bands_len h] at this; exact this
  · have := (List.getElem?_eq_some_iff.1 g1).1
    rw [List.length_map, bands_len h] at this; exact this

/-- **C122** Without `bands_grad_hess` the range of a band is the smallest and the largest energy on the grid. -/
theorem C122_range_plain (h : init pinv rnd md a = .ok d) (hm : md.gradHess = none) (i : Fin n) :
    ∃ lo hi, d.ranges[i.val]? = some (lo, hi) ∧ (∃ b ∈ d.bands, b i = lo) ∧ (∃ b ∈ d.bands, b i = hi) ∧ ∀ b ∈ d.bands, lo ≤ b i ∧ b i ≤ hi := by
  obtain ⟨p, q, vlo, vhi, e1, e2, e3, e4, -, -, m1, m2, b1, b2⟩ := extremal h i
  refine ⟨vlo, vhi, ?_, by simpa using m1, by simpa using m2, fun b hb => ⟨b1 b hb, b2 b hb⟩⟩
  rw [ranges_eq h]
  have hfr : (List.finRange n)[i.val]? = some i := by simp
  simp only [bandsRange, hm, List.getElem?_map, hfr, Option.map_some, e3, e4, e1, e2]

/-- The range of a band with `bands_grad_hess`. -/
theorem range_newton_eq (h : init pinv rnd md a = .ok d) (hg : ∀ g, md.grad = some g → ∀ k b, (g k b).1 = md.bands k b)
    (gh : V3 → Fin n → V3 × M3) (hm : md.gradHess = some gh) (i : Fin n) :
    ∃ k1 ∈ d.ks, ∃ k2 ∈ d.ks, (∀ k ∈ d.ks, md.bands k1 i ≤ md.bands k i) ∧ (∀ k ∈ d.ks, md.bands k i ≤ md.bands k2 i) ∧
      d.ranges[i.val]? = some (md.bands (refine pinv d.steps (fun k => gh k i) 1 2 k1) i,
        md.bands (refine pinv d.steps (fun k => gh k i) (-1) 2 k2) i) := by
  obtain ⟨p, q, vlo, vhi, e1, e2, e3, e4, hp, hq, m1, m2, b1, b2⟩ := extremal h i
  have hb := (C122_bands h hg).1
  rw [hb] at e1 e2 b1 b2
  have g1 : (d.ks.map md.bands).map (fun b => b i) = d.ks.map fun k => md.bands k i := by rw [List.map_map]; rfl
  rw [g1] at e1 e2
  rw [List.getD_eq_getElem?_getD, List.getElem?_map, List.getElem?_eq_getElem hp] at e1
  rw [List.getD_eq_getElem?_getD, List.getElem?_map, List.getElem?_eq_getElem hq] at e2
  simp only [Option.map_some, Option.getD_some] at e1 e2
  refine ⟨d.ks[p], List.getElem_mem hp, d.ks[q], List.getElem_mem hq, ?_, ?_, ?_⟩
  · intro k hk; rw [e1]; exact b1 _ (List.mem_map.2 ⟨k, hk, rfl⟩)
  · intro k hk; rw [e2]; exact b2 _ (List.mem_map.2 ⟨k, hk, rfl⟩)
  · rw [ranges_eq h]
    have hfr : (List.finRange n)[i.val]? = some i := by simp
    simp only [bandsRange, hm, List.getElem?_map, hfr, Option.map_some, e3, e4]
    rw [show d.ks.getD p 0 = d.ks[p] by rw [List.getD_eq_getElem?_getD, List.getElem?_eq_getElem hp]; rfl,
      show d.ks.getD q 0 = d.ks[q] by rw [List.getD_eq_getElem?_getD, List.getElem?_eq_getElem hq]; rfl]

/-- Each round moves the point by at most 0.55 steps per coordinate. -/
theorem refine_near (gh : V3 → V3 × M3) (st : V3) (sgn : ℝ) (hst : ∀ c, st c ≠ 0) (m : ℕ) (k : V3) (c : Fin 3) :
    |refine pinv st gh sgn m k c - k c| ≤ m * (11 / 20 * |st c|) := by
  induction m generalizing k with
  | zero => simp [refine]
  | succ m ih =>
    have h0 : (0 : ℝ) ≤ ((m + 1 : ℕ) : ℝ) * (11 / 20 * |st c|) := by positivity
    unfold refine
    split
    · simpa using h0
    · dsimp only
      split
      · simpa using h0
      · rename_i hs
        have hs' := not_lt.1 (fun hc => hs ⟨c, hc⟩)
        rw [abs_div, div_le_iff₀ (abs_pos.2 (hst c))] at hs'
        have := ih (k - (pinv (gh k).2).mulVec (gh k).1)
        have t := abs_sub_le (refine pinv st gh sgn m (k - (pinv (gh k).2).mulVec (gh k).1) c) ((k - (pinv (gh k).2).mulVec (gh k).1) c) (k c)
        have e : |(k - (pinv (gh k).2).mulVec (gh k).1) c - k c| = |(pinv (gh k).2).mulVec (gh k).1 c| := by
          rw [Pi.sub_apply, show k c - (pinv (gh k).2).mulVec (gh k).1 c - k c = -((pinv (gh k).2).mulVec (gh k).1 c) by ring, abs_neg]
        rw [e] at t
        push_cast
        linarith

/-- **C122** With `bands_grad_hess` the ends of the range are energies of the model at points that are at most 1.1 times `step_sizes` away (per
coordinate) from points of the grid where the band is lowest and highest. -/
theorem C122_range_newton (h : init pinv rnd md a = .ok d) (hg : ∀ g, md.grad = some g → ∀ k b, (g k b).1 = md.bands k b)
    (gh : V3 → Fin n → V3 × M3) (hm : md.gradHess = some gh) (hst : ∀ c, d.steps c ≠ 0) (i : Fin n) :
    ∃ k1 ∈ d.ks, ∃ k2 ∈ d.ks, (∀ k ∈ d.ks, md.bands k1 i ≤ md.bands k i) ∧ (∀ k ∈ d.ks, md.bands k i ≤ md.bands k2 i) ∧
      ∃ k1' k2', d.ranges[i.val]? = some (md.bands k1' i, md.bands k2' i) ∧
        ∀ c, |k1' c - k1 c| ≤ 11 / 10 * |d.steps c| ∧ |k2' c - k2 c| ≤ 11 / 10 * |d.steps c| := by
  obtain ⟨k1, m1, k2, m2, a1, a2, e⟩ := range_newton_eq h hg gh hm i
  refine ⟨k1, m1, k2, m2, a1, a2, _, _, e, fun c => ⟨?_, ?_⟩⟩
  · have := refine_near (pinv := pinv) (fun k => gh k i) d.steps 1 hst 2 k1 c
    push_cast at this; linarith
  · have := refine_near (pinv := pinv) (fun k => gh k i) d.steps (-1) hst 2 k2 c
    push_cast at this; linarith

/-- `np.linalg.pinv` of an invertible matrix is its inverse. -/
def PinvSpec (pinv : M3 → M3) : Prop := ∀ M : M3, M.det ≠ 0 → pinv M = M⁻¹

/-- **C122** Near a parabolic minimum the range is exact: if the band is `e0 + (k - c)ᵀ M (k - c) / 2` with `M` positive definite and the lowest
points of the grid are within 0.55 of the steps of `c`, the lower end is `e0`, the minimum of the band over all points. -/
theorem C122_parabola (h : init pinv rnd md a = .ok d) (hg : ∀ g, md.grad = some g → ∀ k b, (g k b).1 = md.bands k b) (hp : PinvSpec pinv)
    (gh : V3 → Fin n → V3 × M3) (hm : md.gradHess = some gh) (i : Fin n) (M : M3) (hM : M.PosDef) (e0 : ℝ) (c : V3)
    (hb : ∀ k, md.bands k i = e0 + (k - c) ⬝ᵥ M.mulVec (k - c) / 2) (hgh : ∀ k, gh k i = (M.mulVec (k - c), M))
    (hc : ∀ k ∈ d.ks, (∀ k' ∈ d.ks, md.bands k i ≤ md.bands k' i) → ∀ x, |(k - c) x / d.steps x| ≤ 11 / 20) :
    ∃ hi, d.ranges[i.val]? = some (e0, hi) ∧ ∀ k, e0 ≤ md.bands k i := by
  obtain ⟨k1, m1, k2, m2, a1, a2, e⟩ := range_newton_eq h hg gh hm i
  have hdet : M.det ≠ 0 := hM.det_pos.ne'
  have hpi : pinv M = M⁻¹ := hp M hdet
  have hinv : ∀ v, M⁻¹.mulVec (M.mulVec v) = v := by
    intro v
    rw [Matrix.mulVec_mulVec, Matrix.nonsing_inv_mul _ (Ne.isUnit hdet), Matrix.one_mulVec]
  have hr : refine pinv d.steps (fun k => gh k i) 1 2 k1 = c := by
    have step : ∀ m k, (∀ x, |(k - c) x / d.steps x| ≤ 11 / 20) →
        refine pinv d.steps (fun k => gh k i) 1 (m + 1) k = refine pinv d.steps (fun k => gh k i) 1 m c := by
      intro m k hk
      have h1 : ((1 : ℝ) • (gh k i).2).PosSemidef := by rw [one_smul, hgh]; exact hM.posSemidef
      rw [refine, if_neg (not_not.2 h1)]
      simp only [hgh, hpi, hinv]
      rw [if_neg (by rintro ⟨x, hx⟩; exact absurd (hk x) (not_le.2 hx)), sub_sub_cancel]
    rw [step 1 k1 (hc k1 m1 a1), step 0 c (fun x => by simp; norm_num)]
    rfl
  rw [hr] at e
  refine ⟨_, by rw [e, hb c, sub_self, zero_dotProduct, zero_div, add_zero], fun k => ?_⟩
  · rw [hb k]
    have := hM.posSemidef.dotProduct_mulVec_nonneg (k - c)
    simp only [star_trivial] at this
    linarith

/-- `gh` holds the derivatives of `bands`. -/
def TrueDerivs (md : Model n) (gh : V3 → Fin n → V3 × M3) : Prop :=
  ∀ (k : V3) (i : Fin n) (x : Fin 3), HasDerivAt (fun t => md.bands (Function.update k x t) i) ((gh k i).1 x) (k x) ∧
    ∀ y, HasDerivAt (fun t => (gh (Function.update k x t) i).1 y) ((gh k i).2 y x) (k x)

/-! ### Witnesses -/

/-- `N = 2` points per axis, wrapped, lattice `A`, smearing "cubes", no check. -/
noncomputable def twoArgs (A : M3) : Args := ⟨2, A, [(-1 / 2, 1 / 2), (-1 / 2, 1 / 2), (-1 / 2, 1 / 2)], true, "cubes", false, false, none⟩

theorem two_init (pinv : M3 → M3) (rnd : Fin 20 → V3) (md : Model n) (A : M3) (hA : A.det ≠ 0) : ∃ d, init pinv rnd md (twoArgs A) = .ok d :=
  (((C122_options (pinv := pinv) (rnd := rnd) (md := md) (a := twoArgs A) rfl (show (2 : ℤ) ≤ 2 from le_rfl) hA).2 (by intro t ht; simp [twoArgs] at ht)).1).2
    (.inl ⟨.inr rfl, by intro h; simp [twoArgs] at h⟩)

theorem two_steps {A : M3} (h : init pinv rnd md (twoArgs A) = .ok d) : d.steps = fun _ => 1 / 2 := by
  obtain ⟨rx, ry, rz, m, hr, -, -, -, -, hs, -⟩ := C122_grid h
  simp only [twoArgs, List.cons.injEq, and_true] at hr
  obtain ⟨rfl, rfl, rfl⟩ := hr
  rw [hs]
  funext c
  fin_cases c <;> simp [twoArgs] <;> norm_num

/-- The points are `crystal @ inv(A)` for the crystal coordinates -1/2 and 0. -/
theorem two_mem {A : M3} (h : init pinv rnd md (twoArgs A) = .ok d) (k : V3) :
    k ∈ d.ks ↔ ∃ c : V3, (∀ x, c x = -1 / 2 ∨ c x = 0) ∧ k = Matrix.vecMul c A⁻¹ := by
  rw [mem_ks h _ _ _ rfl]
  have hpts : pts (twoArgs A) = 2 := rfl
  rw [hpts]
  have key : ∀ i : ℕ, (i : ℤ) < 2 → pos (twoArgs A) (-1 / 2, 1 / 2) i = -1 / 2 ∨ pos (twoArgs A) (-1 / 2, 1 / 2) i = 0 := by
    intro i hi
    have : i = 0 ∨ i = 1 := by omega
    rcases this with rfl | rfl
    · left; simp [pos, twoArgs]
    · right; simp [pos, twoArgs]; norm_num
  have key' : ∀ x : ℝ, x = -1 / 2 ∨ x = 0 → ∃ i : ℕ, (i : ℤ) < 2 ∧ pos (twoArgs A) (-1 / 2, 1 / 2) i = x := by
    rintro x (rfl | rfl)
    · exact ⟨0, by norm_num, by simp [pos, twoArgs]⟩
    · exact ⟨1, by norm_num, by simp [pos, twoArgs]; norm_num⟩
  constructor
  · rintro ⟨i, j, l, hi, hj, hl, rfl⟩
    refine ⟨_, ?_, rfl⟩
    intro x
    fin_cases x
    · exact key i hi
    · exact key j hj
    · exact key l hl
  · rintro ⟨c, hc, rfl⟩
    obtain ⟨i, hi, ei⟩ := key' _ (hc 0)
    obtain ⟨j, hj, ej⟩ := key' _ (hc 1)
    obtain ⟨l, hl, el⟩ := key' _ (hc 2)
    refine ⟨i, j, l, hi, hj, hl, ?_⟩
    congr 1
    funext x
    fin_cases x
    · exact ei.symm
    · exact ej.symm
    · exact el.symm

/-- One round with a diagonal positive Hessian. -/
theorem refine_diag (hp : PinvSpec pinv) (st : V3) (gh : V3 → V3 × M3) (m : ℕ) (k k' g h : V3) (e : gh k = (g, Matrix.diagonal h)) (hh : ∀ x, 0 < h x)
    (hs : ∀ x, |g x / h x / st x| ≤ 11 / 20) (hk : ∀ x, k x - g x / h x = k' x) :
    refine pinv st gh 1 (m + 1) k = refine pinv st gh 1 m k' := by
  have hd : (Matrix.diagonal h).det ≠ 0 := by rw [Matrix.det_diagonal]; exact Finset.prod_ne_zero_iff.2 fun x _ => (hh x).ne'
  have hpi : pinv (Matrix.diagonal h) = Matrix.diagonal fun x => 1 / h x := by
    rw [hp _ hd]
    refine Matrix.inv_eq_right_inv ?_
    rw [Matrix.diagonal_mul_diagonal, ← Matrix.diagonal_one]
    congr 1; funext x; exact mul_one_div_cancel (hh x).ne'
  have hst : (pinv (gh k).2).mulVec (gh k).1 = fun x => g x / h x := by
    rw [e, hpi]; funext x; rw [Matrix.mulVec_diagonal, one_div, div_eq_mul_inv, mul_comm]
  have h1 : ((1 : ℝ) • (gh k).2).PosSemidef := by
    rw [one_smul, e]; exact Matrix.posSemidef_diagonal_iff.2 fun x => (hh x).le
  rw [refine, if_neg (not_not.2 h1)]
  simp only [hst]
  rw [if_neg (by rintro ⟨x, hx⟩; exact absurd (hs x) (not_le.2 hx))]
  congr 1
  funext x; exact hk x

/-- The band `-x/4 + x²/2 + 100 x⁴ + (y² + z²)/2` with its derivatives. -/
noncomputable def quartic : Model 1 where
  bands k _ := -(k 0) / 4 + k 0 ^ 2 / 2 + 100 * k 0 ^ 4 + k 1 ^ 2 / 2 + k 2 ^ 2 / 2
  grad := none
  gradHess := some fun k _ => (![-1 / 4 + k 0 + 400 * k 0 ^ 3, k 1, k 2], Matrix.diagonal ![1 + 1200 * k 0 ^ 2, 1, 1])

theorem deriv_poly (a b c e x : ℝ) : HasDerivAt (fun t : ℝ => a + b * t + c * t ^ 2 + e * t ^ 4) (b + 2 * c * x + 4 * e * x ^ 3) x := by
  have h1 := (hasDerivAt_id x).const_mul b
  have h2 := (hasDerivAt_pow 2 x).const_mul c
  have h4 := (hasDerivAt_pow 4 x).const_mul e
  have := ((h1.const_add a).add h2).add h4
  refine this.congr_deriv ?_
  push_cast; ring

theorem deriv_cubic (a b c x : ℝ) : HasDerivAt (fun t : ℝ => a + b * t + c * t ^ 3) (b + 3 * c * x ^ 2) x := by
  have h1 := (hasDerivAt_id x).const_mul b
  have h3 := (hasDerivAt_pow 3 x).const_mul c
  have := (h1.const_add a).add h3
  refine this.congr_deriv ?_
  push_cast; ring

theorem quartic_derivs : TrueDerivs quartic fun k _ => (![-1 / 4 + k 0 + 400 * k 0 ^ 3, k 1, k 2], Matrix.diagonal ![1 + 1200 * k 0 ^ 2, 1, 1]) := by
  intro k i x
  fin_cases x
  · refine ⟨?_, fun y => ?_⟩
    · refine ((deriv_poly (k 1 ^ 2 / 2 + k 2 ^ 2 / 2) (-1 / 4) (1 / 2) 100 (k 0)).congr_deriv
        (show -1 / 4 + 2 * (1 / 2) * k 0 + 4 * 100 * k 0 ^ 3 = -1 / 4 + k 0 + 400 * k 0 ^ 3 by ring)).congr_of_eventuallyEq
        (Filter.Eventually.of_forall fun t => ?_)
      simp [quartic]; ring
    · fin_cases y
      · refine ((deriv_cubic (-1 / 4) 1 400 (k 0)).congr_deriv (show 1 + 3 * 400 * k 0 ^ 2 = 1 + 1200 * k 0 ^ 2 by ring)).congr_of_eventuallyEq
          (Filter.Eventually.of_forall fun t => ?_)
        simp
      · refine ((hasDerivAt_const (k 0) (k 1)).congr_deriv (by simp [Matrix.diagonal])).congr_of_eventuallyEq
          (Filter.Eventually.of_forall fun t => ?_)
        simp
      · refine ((hasDerivAt_const (k 0) (k 2)).congr_deriv (by simp [Matrix.diagonal])).congr_of_eventuallyEq
          (Filter.Eventually.of_forall fun t => ?_)
        simp
  · refine ⟨?_, fun y => ?_⟩
    · refine ((deriv_poly (-(k 0) / 4 + k 0 ^ 2 / 2 + 100 * k 0 ^ 4 + k 2 ^ 2 / 2) 0 (1 / 2) 0 (k 1)).congr_deriv (by simp)).congr_of_eventuallyEq
        (Filter.Eventually.of_forall fun t => ?_)
      simp [quartic]; ring
    · fin_cases y
      · refine ((hasDerivAt_const (k 1) (-1 / 4 + k 0 + 400 * k 0 ^ 3)).congr_deriv (by simp [Matrix.diagonal])).congr_of_eventuallyEq
          (Filter.Eventually.of_forall fun t => ?_)
        simp
      · refine ((hasDerivAt_id (k 1)).congr_deriv (by simp [Matrix.diagonal])).congr_of_eventuallyEq
          (Filter.Eventually.of_forall fun t => ?_)
        simp
      · refine ((hasDerivAt_const (k 1) (k 2)).congr_deriv (by simp [Matrix.diagonal])).congr_of_eventuallyEq
          (Filter.Eventually.of_forall fun t => ?_)
        simp
  · refine ⟨?_, fun y => ?_⟩
    · refine ((deriv_poly (-(k 0) / 4 + k 0 ^ 2 / 2 + 100 * k 0 ^ 4 + k 1 ^ 2 / 2) 0 (1 / 2) 0 (k 2)).congr_deriv (by simp)).congr_of_eventuallyEq
        (Filter.Eventually.of_forall fun t => ?_)
      simp [quartic]; ring
    · fin_cases y
      · refine ((hasDerivAt_const (k 2) (-1 / 4 + k 0 + 400 * k 0 ^ 3)).congr_deriv (by simp [Matrix.diagonal])).congr_of_eventuallyEq
          (Filter.Eventually.of_forall fun t => ?_)
        simp
      · refine ((hasDerivAt_const (k 2) (k 1)).congr_deriv (by simp [Matrix.diagonal])).congr_of_eventuallyEq
          (Filter.Eventually.of_forall fun t => ?_)
        simp
      · refine ((hasDerivAt_id (k 2)).congr_deriv (by simp [Matrix.diagonal])).congr_of_eventuallyEq
          (Filter.Eventually.of_forall fun t => ?_)
        simp

/-- **C122** (disagreement) The Newton steps can miss: there is a smooth band with correct derivatives for which a point of the grid has a lower
energy than the lower end of `bands_range` (so `states_below` is zero there although the grid holds states). -/
theorem C122_range_misses (hp : PinvSpec pinv) (rnd : Fin 20 → V3) :
    ∃ (md : Model 1) (gh : V3 → Fin 1 → V3 × M3) (d : Dos 1), md.gradHess = some gh ∧ TrueDerivs md gh ∧
      init pinv rnd md (twoArgs 1) = .ok d ∧ ∃ lo hi, d.ranges[0]? = some (lo, hi) ∧ ∃ b ∈ d.bands, b 0 < lo := by
  obtain ⟨d, h⟩ := two_init pinv rnd quartic 1 (by simp)
  have hg : ∀ g, quartic.grad = some g → ∀ k b, (g k b).1 = quartic.bands k b := by intro g h; simp [quartic] at h
  refine ⟨quartic, _, d, rfl, quartic_derivs, h, ?_⟩
  obtain ⟨k1, m1, k2, m2, a1, a2, e⟩ := range_newton_eq h hg _ rfl 0
  have h0 : (0 : V3) ∈ d.ks := (two_mem h 0).2 ⟨0, fun x => .inr rfl, by simp⟩
  have hk1 : k1 = 0 := by
    obtain ⟨c, hc, rfl⟩ := (two_mem h k1).1 m1
    have := a1 0 h0
    simp only [inv_one, Matrix.vecMul_one] at this ⊢
    have h00 : quartic.bands 0 0 = 0 := by simp [quartic]
    rw [h00] at this
    simp only [quartic] at this
    funext x
    rcases hc 0 with e0 | e0 <;> rcases hc 1 with e1 | e1 <;> rcases hc 2 with e2 | e2 <;> rw [e0, e1, e2] at this <;> norm_num at this
    fin_cases x
    · exact e0
    · exact e1
    · exact e2
  refine ⟨_, _, e, quartic.bands 0, ?_, ?_⟩
  · rw [(C122_bands h hg).1]; exact List.mem_map.2 ⟨0, h0, rfl⟩
  · rw [hk1, two_steps h]
    rw [refine_diag hp _ _ 1 0 ![1 / 4, 0, 0] ![-1 / 4, 0, 0] ![1, 1, 1] (by simp) (by intro x; fin_cases x <;> simp)
      (by intro x; fin_cases x <;> simp <;> norm_num [abs_of_pos]) (by intro x; fin_cases x <;> simp <;> norm_num)]
    rw [refine_diag hp _ _ 0 ![1 / 4, 0, 0] ![51 / 304, 0, 0] ![25 / 4, 0, 0] ![76, 1, 1]
      (by
        refine Prod.ext ?_ ?_
        · funext x; fin_cases x <;> simp; norm_num
        · show Matrix.diagonal _ = Matrix.diagonal _
          congr 1
          funext x; fin_cases x <;> simp; norm_num)
      (by intro x; fin_cases x <;> simp) (by intro x; fin_cases x <;> simp <;> norm_num [abs_of_pos])
      (by intro x; fin_cases x <;> simp <;> norm_num)]
    show quartic.bands 0 0 < quartic.bands ![51 / 304, 0, 0] 0
    simp [quartic]
    norm_num

/-- The band `|crystal - (3/20, 0, 0)|²/2` for the lattice `s · 1`, in reciprocal coordinates `crystal / s`. -/
noncomputable def shifted (s : ℝ) : Model 1 where
  bands k _ := (s * k 0 - 3 / 20) ^ 2 / 2 + (s * k 1) ^ 2 / 2 + (s * k 2) ^ 2 / 2
  grad := none
  gradHess := some fun k _ => (![s * (s * k 0 - 3 / 20), s * (s * k 1), s * (s * k 2)], Matrix.diagonal ![s ^ 2, s ^ 2, s ^ 2])

theorem shifted_derivs (s : ℝ) :
    TrueDerivs (shifted s) fun k _ => (![s * (s * k 0 - 3 / 20), s * (s * k 1), s * (s * k 2)], Matrix.diagonal ![s ^ 2, s ^ 2, s ^ 2]) := by
  have lin : ∀ (a b x : ℝ), HasDerivAt (fun t : ℝ => a + b * t) b x := fun a b x => by
    simpa using ((hasDerivAt_id x).const_mul b).const_add a
  intro k i x
  have hc : ∀ (c v : ℝ), HasDerivAt (fun _ : ℝ => c) 0 v := fun c v => hasDerivAt_const v c
  fin_cases x
  · refine ⟨((deriv_poly (9 / 800 + (s * k 1) ^ 2 / 2 + (s * k 2) ^ 2 / 2) (-3 / 20 * s) (s ^ 2 / 2) 0 (k 0)).congr_deriv
      (by simp; ring)).congr_of_eventuallyEq (Filter.Eventually.of_forall fun t => by simp [shifted]; ring), fun y => ?_⟩
    fin_cases y
    · exact ((lin (-3 / 20 * s) (s ^ 2) (k 0)).congr_deriv (by simp [Matrix.diagonal])).congr_of_eventuallyEq
        (Filter.Eventually.of_forall fun t => by simp; ring)
    · exact ((hc (s * (s * k 1)) _).congr_deriv (by simp [Matrix.diagonal])).congr_of_eventuallyEq (Filter.Eventually.of_forall fun t => by simp)
    · exact ((hc (s * (s * k 2)) _).congr_deriv (by simp [Matrix.diagonal])).congr_of_eventuallyEq (Filter.Eventually.of_forall fun t => by simp)
  · refine ⟨((deriv_poly ((s * k 0 - 3 / 20) ^ 2 / 2 + (s * k 2) ^ 2 / 2) 0 (s ^ 2 / 2) 0 (k 1)).congr_deriv
      (by simp; ring)).congr_of_eventuallyEq (Filter.Eventually.of_forall fun t => by simp [shifted]; ring), fun y => ?_⟩
    fin_cases y
    · exact ((hc (s * (s * k 0 - 3 / 20)) _).congr_deriv (by simp [Matrix.diagonal])).congr_of_eventuallyEq (Filter.Eventually.of_forall fun t => by simp)
    · exact ((lin 0 (s ^ 2) (k 1)).congr_deriv (by simp [Matrix.diagonal])).congr_of_eventuallyEq
        (Filter.Eventually.of_forall fun t => by simp; ring)
    · exact ((hc (s * (s * k 2)) _).congr_deriv (by simp [Matrix.diagonal])).congr_of_eventuallyEq (Filter.Eventually.of_forall fun t => by simp)
  · refine ⟨((deriv_poly ((s * k 0 - 3 / 20) ^ 2 / 2 + (s * k 1) ^ 2 / 2) 0 (s ^ 2 / 2) 0 (k 2)).congr_deriv
      (by simp; ring)).congr_of_eventuallyEq (Filter.Eventually.of_forall fun t => by simp [shifted]; ring), fun y => ?_⟩
    fin_cases y
    · exact ((hc (s * (s * k 0 - 3 / 20)) _).congr_deriv (by simp [Matrix.diagonal])).congr_of_eventuallyEq (Filter.Eventually.of_forall fun t => by simp)
    · exact ((hc (s * (s * k 1)) _).congr_deriv (by simp [Matrix.diagonal])).congr_of_eventuallyEq (Filter.Eventually.of_forall fun t => by simp)
    · exact ((lin 0 (s ^ 2) (k 2)).congr_deriv (by simp [Matrix.diagonal])).congr_of_eventuallyEq
        (Filter.Eventually.of_forall fun t => by simp; ring)

theorem scaled_inv (s : ℝ) (hs : s ≠ 0) : (s • (1 : M3))⁻¹ = s⁻¹ • (1 : M3) := by
  refine Matrix.inv_eq_right_inv ?_
  rw [Matrix.smul_mul, Matrix.one_mul, smul_smul, mul_inv_cancel₀ hs, one_smul]

theorem scaled_det (s : ℝ) (hs : s ≠ 0) : (s • (1 : M3)).det ≠ 0 := by
  rw [Matrix.det_smul, Matrix.det_one, mul_one]; exact pow_ne_zero _ hs

theorem shifted_crystal (s : ℝ) (hs : s ≠ 0) (c : V3) :
    (shifted s).bands (Matrix.vecMul c (s • (1 : M3))⁻¹) 0 = (c 0 - 3 / 20) ^ 2 / 2 + c 1 ^ 2 / 2 + c 2 ^ 2 / 2 := by
  rw [scaled_inv s hs]
  simp only [shifted, Matrix.vecMul_smul, Matrix.vecMul_one, Pi.smul_apply, smul_eq_mul]
  field_simp

theorem shifted_lo (hp : PinvSpec pinv) (s : ℝ) (hs : 0 < s) (d : Dos 1) (h : init pinv rnd (shifted s) (twoArgs (s • 1)) = .ok d) :
    ∃ hi, d.ranges[0]? = some (if |3 / 10 / s| ≤ 11 / 20 then 0 else 9 / 800, hi) := by
  have hg : ∀ g, (shifted s).grad = some g → ∀ k b, (g k b).1 = (shifted s).bands k b := by intro g h; simp [shifted] at h
  obtain ⟨k1, m1, k2, m2, a1, a2, e⟩ := range_newton_eq h hg _ rfl 0
  have h0 : (0 : V3) ∈ d.ks := (two_mem h 0).2 ⟨0, fun x => .inr rfl, by simp⟩
  have hk1 : k1 = 0 := by
    obtain ⟨c, hc, rfl⟩ := (two_mem h k1).1 m1
    have := a1 0 h0
    rw [shifted_crystal s hs.ne'] at this
    have h00 : (shifted s).bands 0 0 = 9 / 800 := by simp [shifted]; norm_num
    rw [h00] at this
    have hc0 : c = 0 := by
      funext x
      rcases hc 0 with e0 | e0 <;> rcases hc 1 with e1 | e1 <;> rcases hc 2 with e2 | e2 <;> rw [e0, e1, e2] at this <;> norm_num at this
      fin_cases x
      · exact e0
      · exact e1
      · exact e2
    rw [hc0, Matrix.zero_vecMul]
  refine ⟨_, e.trans (congrArg some (Prod.ext ?_ rfl))⟩
  show (shifted s).bands (refine pinv d.steps _ 1 2 k1) 0 = _
  rw [hk1, two_steps h]
  have hs2 : (0 : ℝ) < s ^ 2 := by positivity
  split
  · rename_i hle
    rw [refine_diag hp _ _ 1 0 ![3 / 20 / s, 0, 0] ![-(3 / 20 * s), 0, 0] ![s ^ 2, s ^ 2, s ^ 2] (by simp; ring_nf)
      (by intro x; fin_cases x <;> exact hs2)
      (by
        intro x
        fin_cases x
        · show |(-(3 / 20 * s)) / s ^ 2 / (1 / 2)| ≤ 11 / 20
          rw [show (-(3 / 20 * s)) / s ^ 2 / (1 / 2) = -(3 / 10 / s) by field_simp; norm_num, abs_neg]
          exact hle
        · simp; norm_num
        · simp; norm_num)
      (by
        intro x
        fin_cases x
        · show 0 - -(3 / 20 * s) / s ^ 2 = 3 / 20 / s
          field_simp; ring
        · simp
        · simp)]
    rw [refine_diag hp _ _ 0 ![3 / 20 / s, 0, 0] ![3 / 20 / s, 0, 0] ![0, 0, 0] ![s ^ 2, s ^ 2, s ^ 2]
      (by
        refine Prod.ext ?_ rfl
        funext x
        fin_cases x
        · show s * (s * (3 / 20 / s) - 3 / 20) = 0
          field_simp; ring
        · simp
        · simp)
      (by intro x; fin_cases x <;> exact hs2) (by intro x; fin_cases x <;> simp <;> norm_num) (by intro x; fin_cases x <;> simp)]
    simp only [refine, shifted]
    simp
    field_simp; ring
  · rename_i hle
    have hd : (Matrix.diagonal ![s ^ 2, s ^ 2, s ^ 2] : M3).det ≠ 0 := by
      rw [Matrix.det_diagonal]; exact Finset.prod_ne_zero_iff.2 fun x _ => by fin_cases x <;> exact hs2.ne'
    have hpi : pinv (Matrix.diagonal ![s ^ 2, s ^ 2, s ^ 2]) = Matrix.diagonal ![1 / s ^ 2, 1 / s ^ 2, 1 / s ^ 2] := by
      rw [hp _ hd]
      refine Matrix.inv_eq_right_inv ?_
      rw [Matrix.diagonal_mul_diagonal, ← Matrix.diagonal_one]
      congr 1; funext x; fin_cases x <;> exact mul_one_div_cancel hs2.ne'
    have hbig : refine pinv (fun _ => 1 / 2)
        (fun k => (![s * (s * k 0 - 3 / 20), s * (s * k 1), s * (s * k 2)], (Matrix.diagonal ![s ^ 2, s ^ 2, s ^ 2] : M3))) 1 2 0 = 0 := by
      rw [refine]
      split
      · rfl
      · dsimp only
        rw [hpi, if_pos]
        refine ⟨0, lt_of_lt_of_eq (not_le.1 hle) ?_⟩
        rw [Matrix.mulVec_diagonal]
        show |3 / 10 / s| = |1 / s ^ 2 * (s * (s * 0 - 3 / 20)) / (1 / 2)|
        rw [show 1 / s ^ 2 * (s * (s * 0 - 3 / 20)) / (1 / 2) = -(3 / 10 / s) by field_simp; norm_num, abs_neg]
    rw [hbig]
    simp [shifted]; norm_num

/-- **C122** (disagreement) `bands_range` depends on the unit of length: the same band as a function of the crystal coordinates, with correct
derivatives in reciprocal coordinates, gives different ranges for the lattices `1` and `1/2`, because the Newton step in reciprocal coordinates is
compared with the step sizes in crystal coordinates. -/
theorem C122_units (hp : PinvSpec pinv) (rnd : Fin 20 → V3) :
    ∃ (s s' : ℝ) (md md' : Model 1) (gh gh' : V3 → Fin 1 → V3 × M3) (d d' : Dos 1), s ≠ 0 ∧ s' ≠ 0 ∧
      md.gradHess = some gh ∧ md'.gradHess = some gh' ∧ TrueDerivs md gh ∧ TrueDerivs md' gh' ∧
      (∀ c, md.bands (Matrix.vecMul c (s • (1 : M3))⁻¹) 0 = md'.bands (Matrix.vecMul c (s' • (1 : M3))⁻¹) 0) ∧
      init pinv rnd md (twoArgs (s • 1)) = .ok d ∧ init pinv rnd md' (twoArgs (s' • 1)) = .ok d' ∧ d.ranges ≠ d'.ranges := by
  obtain ⟨d, h⟩ := two_init pinv rnd (shifted 1) ((1 : ℝ) • 1) (scaled_det 1 one_ne_zero)
  obtain ⟨d', h'⟩ := two_init pinv rnd (shifted (1 / 2)) ((1 / 2 : ℝ) • 1) (scaled_det _ (by norm_num))
  refine ⟨1, 1 / 2, shifted 1, shifted (1 / 2), _, _, d, d', by norm_num, by norm_num, rfl, rfl, shifted_derivs 1, shifted_derivs (1 / 2), ?_, h, h', ?_⟩
  · intro c
    rw [shifted_crystal 1 one_ne_zero, shifted_crystal (1 / 2) (by norm_num)]
  · intro heq
    obtain ⟨hi, e⟩ := shifted_lo hp 1 one_pos d h
    obtain ⟨hi', e'⟩ := shifted_lo hp (1 / 2) (by norm_num) d' h'
    rw [heq, e'] at e
    rw [if_neg (by norm_num [abs_of_pos]), if_pos (by norm_num [abs_of_pos])] at e
    simp at e

/-! ### Instances of the hypotheses -/

/-- `pinv := (·)⁻¹` satisfies the contract. -/
example : PinvSpec fun M => M⁻¹ := fun _ _ => rfl

/-- A successful construction with `N = 2`: eight points. -/
example : ∃ d, init (fun M => M⁻¹) (fun _ => 0) quartic (twoArgs 1) = .ok d ∧ d.ks.length = 8 := by
  obtain ⟨d, h⟩ := two_init (fun M => M⁻¹) (fun _ => 0) quartic 1 (by simp)
  obtain ⟨_, _, _, m, _, hm, _, hl, _⟩ := C122_grid h
  have : (m : ℤ) = 2 := hm.symm
  have : m = 2 := by omega
  exact ⟨d, h, by rw [hl, this]; norm_num⟩

/-- The parabola with its minimum at `(3/20, 0, 0)` is found exactly with the lattice `1`. -/
example (d : Dos 1) (h : init (fun M => M⁻¹) (fun _ => 0) (shifted 1) (twoArgs ((1 : ℝ) • 1)) = .ok d) : ∃ hi, d.ranges[0]? = some (0, hi) := by
  obtain ⟨hi, e⟩ := shifted_lo (fun _ _ => rfl) 1 one_pos d h
  exact ⟨hi, by rw [e, if_pos (by norm_num [abs_of_pos])]⟩

/-- Two periodic bands pass `check`, a linear one does not. -/
example : Periodic (⟨fun _ b => b, none, none⟩ : Model 2) 1 ∧
    periodicCheck (⟨fun k _ => k 0, none, none⟩ : Model 1) 1 (fun _ => 0) (1 / 2) = .error .assertionError := by
  refine ⟨fun k i b => rfl, ((C122_check _ _ _ _).2.1) ⟨0, 0, 0, ?_⟩⟩
  simp; norm_num

end TB.PropsDosInit

import Verif.Props.SmearCube
import Verif.Props.SmearKernels
import Verif.Model.ExtraCubes

/-!
# C138: `ExtraCubesSmearing` on a whole grid
-/

namespace TB.PropsExtraCubes
open TB TB.Smear TB.Smear.ExtraCubes MeasureTheory

theorem extrapolate_two (a b : ℝ) : extrapolatePoly 2 1 [a, b] = (4 * b - a) / 3 := by
  rw [extrapolatePoly, show List.zipWith (fun a b => b + (b - a) / ((2 ^ 2 : ℝ) ^ 1 - 1)) [a, b] [b] =
      [b + (b - a) / ((2 ^ 2 : ℝ) ^ 1 - 1)] from rfl, extrapolatePoly]
  norm_num; ring

theorem volume_eq (o : ExtraCubes) (value : ℝ) (i j k : ℕ) :
    o.volume value i j k = (4 * down (fun i j k => cut value (o.fineFit i j k)) i j k - cut value (o.coarseFit i j k)) / 3 :=
  extrapolate_two _ _

theorem dvolume_eq (o : ExtraCubes) (value : ℝ) (i j k : ℕ) :
    o.dvolume value i j k = (4 * down (fun i j k => dcut value (o.fineFit i j k)) i j k - dcut value (o.coarseFit i j k)) / 3 :=
  extrapolate_two _ _

/-- The distribution function of a cube is the mean of those of its eight halves. -/
theorem g3_split {a b c : ℝ} (ha : a ≠ 0) (hb : b ≠ 0) (hc : c ≠ 0) (t : ℝ) :
    g3 a b c t = (g3 (a / 2) (b / 2) (c / 2) (t + a / 4 + b / 4 + c / 4) + g3 (a / 2) (b / 2) (c / 2) (t - a / 4 + b / 4 + c / 4) +
      g3 (a / 2) (b / 2) (c / 2) (t + a / 4 - b / 4 + c / 4) + g3 (a / 2) (b / 2) (c / 2) (t + a / 4 + b / 4 - c / 4) +
      g3 (a / 2) (b / 2) (c / 2) (t - a / 4 - b / 4 - c / 4) + g3 (a / 2) (b / 2) (c / 2) (t + a / 4 - b / 4 - c / 4) +
      g3 (a / 2) (b / 2) (c / 2) (t - a / 4 + b / 4 - c / 4) + g3 (a / 2) (b / 2) (c / 2) (t - a / 4 - b / 4 + c / 4)) / 8 := by
  unfold g3
  have h : ∀ x : ℝ, x / (6 * (a / 2) * (b / 2) * (c / 2)) = 8 * (x / (6 * a * b * c)) := by
    intro x; field_simp; ring
  simp only [h]
  ring_nf

/-- C138.  The constructor succeeds exactly for at least two points and an even number of cubes per axis. -/
theorem C138_constructor (n0 n1 n2 : ℕ) (wrap : Bool) (v : ℕ → ℕ → ℕ → ℝ) :
    (2 ≤ n0 → 2 ≤ n1 → 2 ≤ n2 → (∀ n ∈ [n0, n1, n2], Even (if wrap then n else n - 1)) →
      ExtraCubes.make n0 n1 n2 wrap v = .ok ⟨n0, n1, n2, wrap, v⟩) ∧
    (n0 < 2 ∨ n1 < 2 ∨ n2 < 2 → ExtraCubes.make n0 n1 n2 wrap v = .error .indexError) ∧
    (2 ≤ n0 → 2 ≤ n1 → 2 ≤ n2 → (∃ n ∈ [n0, n1, n2], ¬ Even (if wrap then n else n - 1)) →
      ExtraCubes.make n0 n1 n2 wrap v = .error .assertionError) := by
  refine ⟨fun h0 h1 h2 h => ?_, fun h => by rw [make, if_pos h], fun h0 h1 h2 h => ?_⟩
  · rw [make, if_neg (by omega), if_pos]
    simp only [List.mem_cons, List.not_mem_nil, or_false, forall_eq_or_imp, forall_eq, Nat.even_iff] at h
    exact h
  · rw [make, if_neg (by omega), if_neg]
    simp only [List.mem_cons, List.not_mem_nil, or_false, exists_eq_or_imp, exists_eq_left, Nat.even_iff] at h
    unfold cubes
    tauto

example : ∃ o, ExtraCubes.make 4 4 6 true (fun i j k => i + j * k) = .ok o :=
  ⟨_, (C138_constructor 4 4 6 true _).1 (by norm_num) (by norm_num) (by norm_num) (by decide)⟩

/-- A cut with an unclamped gradient in closed form. -/
theorem cut_unclamped (value a0 ax ay az : ℝ) (hx : (cubePrecomp ax ay az).norm / 10 ^ 4 ≤ |ax|)
    (hy : (cubePrecomp ax ay az).norm / 10 ^ 4 ≤ |ay|) (hz : (cubePrecomp ax ay az).norm / 10 ^ 4 ≤ |az|) :
    cut value (a0, ax, ay, az) = g3 ax ay az (value - a0) := by
  have hN := (cubePrecomp_ok ax ay az).norm
  have nz : ∀ u : ℝ, (cubePrecomp ax ay az).norm / 10 ^ 4 ≤ |u| → u ≠ 0 := by
    intro u hu h0
    rw [h0, abs_zero] at hu
    have : 0 < (cubePrecomp ax ay az).norm / 10 ^ 4 := by positivity
    linarith
  rw [cut, C44_unclamped_volume value a0 ax ay az hx hy hz, ← below_eq (nz _ hx) (nz _ hy) (nz _ hz), Spec.below]
  have : ∀ x y z : ℝ, (a0 + (ax * x + ay * y + az * z) < value) = (ax * x + ay * y + az * z < value - a0) := by
    intro x y z
    rw [lt_sub_iff_add_lt']
  simp only [this]

theorem norm_double (gx gy gz : ℝ) : (cubePrecomp (2 * gx) (2 * gy) (2 * gz)).norm ≤ 2 * (cubePrecomp gx gy gz).norm := by
  have e : Real.sqrt (|2 * gx| ^ 2 + |2 * gy| ^ 2 + |2 * gz| ^ 2) = 2 * Real.sqrt (|gx| ^ 2 + |gy| ^ 2 + |gz| ^ 2) := by
    rw [show |2 * gx| ^ 2 + |2 * gy| ^ 2 + |2 * gz| ^ 2 = 2 ^ 2 * (|gx| ^ 2 + |gy| ^ 2 + |gz| ^ 2) by simp only [sq_abs]; ring,
      Real.sqrt_mul (by norm_num), Real.sqrt_sq (by norm_num)]
  simp only [cubePrecomp, norm3, e]
  norm_num
  linarith

/-- C138.  Where the data are linear (and the gradient is not nearly parallel to a face), the extrapolated volume of a pair of cells is the
true fraction of the double cell below the value. -/
theorem C138_affine (n0 n1 n2 : ℕ) (wrap : Bool) (v : ℕ → ℕ → ℕ → ℝ) (o : ExtraCubes) (ho : ExtraCubes.make n0 n1 n2 wrap v = .ok o)
    (i j k : ℕ) (hi : 2 * i + 2 < n0) (hj : 2 * j + 2 < n1) (hk : 2 * k + 2 < n2) (α gx gy gz value : ℝ)
    (hv : ∀ a ≤ 2, ∀ b ≤ 2, ∀ c ≤ 2, v (2 * i + a) (2 * j + b) (2 * k + c) = α + gx * a + gy * b + gz * c)
    (hx : (Real.sqrt (gx ^ 2 + gy ^ 2 + gz ^ 2) + 1 / 10 ^ 40) / 10 ^ 4 ≤ |gx|)
    (hy : (Real.sqrt (gx ^ 2 + gy ^ 2 + gz ^ 2) + 1 / 10 ^ 40) / 10 ^ 4 ≤ |gy|)
    (hz : (Real.sqrt (gx ^ 2 + gy ^ 2 + gz ^ 2) + 1 / 10 ^ 40) / 10 ^ 4 ≤ |gz|) :
    o.volume value i j k = ∫ x in (-1 / 2 : ℝ)..(1 / 2), ∫ y in (-1 / 2 : ℝ)..(1 / 2), ∫ z in (-1 / 2 : ℝ)..(1 / 2),
      if (α + gx + gy + gz) + (2 * gx * x + 2 * gy * y + 2 * gz * z) < value then (1 : ℝ) else 0 := by
  have ho' : o = ⟨n0, n1, n2, wrap, v⟩ := by
    rw [make] at ho
    split at ho
    · cases ho
    · split at ho
      · exact (Except.ok.inj ho).symm
      · cases ho
  have hN : (cubePrecomp gx gy gz).norm = Real.sqrt (gx ^ 2 + gy ^ 2 + gz ^ 2) + 1 / 10 ^ 40 := by
    simp only [cubePrecomp, norm3, sq_abs]
  rw [← hN] at hx hy hz
  have hd := norm_double gx gy gz
  have dbl : ∀ u : ℝ, (cubePrecomp gx gy gz).norm / 10 ^ 4 ≤ |u| → (cubePrecomp (2 * gx) (2 * gy) (2 * gz)).norm / 10 ^ 4 ≤ |2 * u| := by
    intro u hu
    rw [abs_mul, abs_two]
    have : (cubePrecomp (2 * gx) (2 * gy) (2 * gz)).norm / 10 ^ 4 ≤ 2 * (cubePrecomp gx gy gz).norm / 10 ^ 4 := by gcongr
    have e : 2 * (cubePrecomp gx gy gz).norm / 10 ^ 4 = 2 * ((cubePrecomp gx gy gz).norm / 10 ^ 4) := by ring
    linarith
  have hcoarse : o.coarseFit i j k = (α + gx + gy + gz, 2 * gx, 2 * gy, 2 * gz) := by
    rw [ho', coarseFit]
    dsimp only
    rw [C58_grid_linear _ _ _ (strided v) α (2 * gx) (2 * gy) (2 * gz) i j k (by omega) (by omega) (by omega) ?_]
    · refine Prod.ext ?_ rfl
      dsimp only; ring
    · intro a ha b hb c hc
      rw [strided, mul_add, mul_add, mul_add, hv _ (by omega) _ (by omega) _ (by omega)]
      push_cast; ring
  have hfine : ∀ p ≤ 1, ∀ q ≤ 1, ∀ r ≤ 1, o.fineFit (2 * i + p) (2 * j + q) (2 * k + r) =
      (α + gx * (p + 1 / 2) + gy * (q + 1 / 2) + gz * (r + 1 / 2), gx, gy, gz) := by
    intro p hp q hq r hr
    rw [ho', fineFit]
    dsimp only
    rw [C58_grid_linear _ _ _ v (α + gx * p + gy * q + gz * r) gx gy gz _ _ _ (by omega) (by omega) (by omega) ?_]
    · refine Prod.ext ?_ rfl
      dsimp only; ring
    · intro a ha b hb c hc
      rw [add_assoc, add_assoc, add_assoc, hv _ (by omega) _ (by omega) _ (by omega)]
      push_cast; ring
  have f0 := hfine 0 (by omega)
  have f1 := hfine 1 (by omega)
  have hc := C44_unclamped_volume value (α + gx + gy + gz) (2 * gx) (2 * gy) (2 * gz) (dbl _ hx) (dbl _ hy) (dbl _ hz)
  have hmean : down (fun i j k => cut value (o.fineFit i j k)) i j k = cut value (o.coarseFit i j k) := by
    have nz : ∀ u : ℝ, (cubePrecomp gx gy gz).norm / 10 ^ 4 ≤ |u| → 2 * u ≠ 0 := by
      intro u hu h0
      rw [mul_eq_zero.1 h0 |>.resolve_left (by norm_num), abs_zero] at hu
      have hp := (cubePrecomp_ok gx gy gz).norm
      have : 0 < (cubePrecomp gx gy gz).norm / 10 ^ 4 := by positivity
      linarith
    rw [hcoarse, cut_unclamped _ _ _ _ _ (dbl _ hx) (dbl _ hy) (dbl _ hz), g3_split (nz _ hx) (nz _ hy) (nz _ hz)]
    have f000 := f0 0 (by omega) 0 (by omega)
    have f100 := f1 0 (by omega) 0 (by omega)
    have f010 := f0 1 (by omega) 0 (by omega)
    have f001 := f0 0 (by omega) 1 (by omega)
    have f111 := f1 1 (by omega) 1 (by omega)
    have f011 := f0 1 (by omega) 1 (by omega)
    have f101 := f1 0 (by omega) 1 (by omega)
    have f110 := f1 1 (by omega) 0 (by omega)
    simp only [add_zero] at f000 f100 f010 f001 f111 f011 f101 f110
    rw [down, f000, f100, f010, f001, f111, f011, f101, f110]
    simp only [cut_unclamped _ _ _ _ _ hx hy hz]
    congr 1
    push_cast
    ring_nf
  rw [volume_eq, hmean, hcoarse, ← hc, cut]
  ring

/-- All values linear with a gradient of equal components: the hypotheses hold. -/
example : ∃ o, ExtraCubes.make 4 4 4 true (fun i j k => (i : ℝ) + j + k) = .ok o ∧
    o.volume 3 0 0 0 = ∫ x in (-1 / 2 : ℝ)..(1 / 2), ∫ y in (-1 / 2 : ℝ)..(1 / 2), ∫ z in (-1 / 2 : ℝ)..(1 / 2),
      if (0 + 1 + 1 + 1) + (2 * 1 * x + 2 * 1 * y + 2 * 1 * z) < (3 : ℝ) then (1 : ℝ) else 0 := by
  have h := (C138_constructor 4 4 4 true fun i j k => (i : ℝ) + j + k).1 (by norm_num) (by norm_num) (by norm_num) (by decide)
  have hs : Real.sqrt (1 ^ 2 + 1 ^ 2 + 1 ^ 2) ≤ 2 := Real.sqrt_le_iff.2 ⟨by norm_num, by norm_num⟩
  have hb : (Real.sqrt (1 ^ 2 + 1 ^ 2 + 1 ^ 2) + 1 / 10 ^ 40) / 10 ^ 4 ≤ |(1 : ℝ)| := by
    generalize Real.sqrt _ = s at hs ⊢
    rw [div_le_iff₀ (by norm_num), abs_one]
    norm_num
    linarith
  exact ⟨_, h, C138_affine 4 4 4 true _ _ h 0 0 0 (by norm_num) (by norm_num) (by norm_num) 0 1 1 1 3
    (fun a _ b _ c _ => by push_cast; ring) hb hb hb⟩

theorem sum_double (m : ℕ) (f : ℕ → ℝ) :
    ((List.range (2 * m)).map f).sum = ((List.range m).map fun i => f (2 * i) + f (2 * i + 1)).sum := by
  induction m with
  | zero => simp
  | succ m ih =>
    rw [show 2 * (m + 1) = 2 * m + 1 + 1 by ring, List.range_succ, List.range_succ, List.range_succ]
    simp only [List.map_append, List.sum_append, ih, List.map_cons, List.map_nil, List.sum_cons, List.sum_nil]
    ring

theorem sum_lin (m : ℕ) (f g : ℕ → ℝ) (a b : ℝ) :
    ((List.range m).map fun i => a * f i + b * g i).sum = a * ((List.range m).map f).sum + b * ((List.range m).map g).sum := by
  induction m with
  | zero => simp
  | succ m ih =>
    rw [List.range_succ]
    simp only [List.map_append, List.sum_append, ih, List.map_cons, List.map_nil, List.sum_cons, List.sum_nil]
    ring

theorem outShape_eq {wrap : Bool} {n : ℕ} (hn : 2 ≤ n) (h : cubes wrap n % 2 = 0) : cubes wrap n = 2 * outShape wrap n ∧ 0 < outShape wrap n := by
  unfold outShape cubes at *
  cases wrap <;> simp at * <;> omega

theorem mean_down (m0 m1 m2 : ℕ) (r : ℕ → ℕ → ℕ → ℝ) : mean m0 m1 m2 (down r) = mean (2 * m0) (2 * m1) (2 * m2) r := by
  have hin : ∀ i j, ((List.range m2).map fun k => down r i j k).sum =
      (((List.range (2 * m2)).map fun k => r (2 * i) (2 * j) k).sum + ((List.range (2 * m2)).map fun k => r (2 * i + 1) (2 * j) k).sum +
        (((List.range (2 * m2)).map fun k => r (2 * i) (2 * j + 1) k).sum +
          ((List.range (2 * m2)).map fun k => r (2 * i + 1) (2 * j + 1) k).sum)) / 8 := by
    intro i j
    simp only [sum_double]
    induction m2 with
    | zero => simp
    | succ m ih =>
      rw [List.range_succ]
      simp only [List.map_append, List.sum_append, ih, List.map_cons, List.map_nil, List.sum_cons, List.sum_nil]
      rw [down]
      ring
  have hmid : ∀ (g : ℕ → ℕ → ℝ) (i : ℕ), ((List.range m1).map fun j => (g (2 * i) (2 * j) + g (2 * i + 1) (2 * j) +
      (g (2 * i) (2 * j + 1) + g (2 * i + 1) (2 * j + 1))) / 8).sum =
      (((List.range (2 * m1)).map fun j => g (2 * i) j).sum + ((List.range (2 * m1)).map fun j => g (2 * i + 1) j).sum) / 8 := by
    intro g i
    simp only [sum_double]
    induction m1 with
    | zero => simp
    | succ m ih =>
      rw [List.range_succ]
      simp only [List.map_append, List.sum_append, ih, List.map_cons, List.map_nil, List.sum_cons, List.sum_nil]
      ring
  have hout : ∀ (g : ℕ → ℝ), ((List.range m0).map fun i => (g (2 * i) + g (2 * i + 1)) / 8).sum = ((List.range (2 * m0)).map g).sum / 8 := by
    intro g
    simp only [sum_double]
    induction m0 with
    | zero => simp
    | succ m ih =>
      rw [List.range_succ]
      simp only [List.map_append, List.sum_append, ih, List.map_cons, List.map_nil, List.sum_cons, List.sum_nil]
      ring
  rw [mean, mean]
  simp only [hin]
  simp only [hmid fun i j => ((List.range (2 * m2)).map fun k => r i j k).sum]
  rw [hout fun i => ((List.range (2 * m1)).map fun j => ((List.range (2 * m2)).map fun k => r i j k).sum).sum, div_div]
  congr 1
  push_cast
  ring

theorem mean_lin (m0 m1 m2 : ℕ) (f g : ℕ → ℕ → ℕ → ℝ) (a b : ℝ) :
    mean m0 m1 m2 (fun i j k => a * f i j k + b * g i j k) = a * mean m0 m1 m2 f + b * mean m0 m1 m2 g := by
  rw [mean, mean, mean]
  simp only [sum_lin]
  ring

/-- C138.  The mean over the returned array (the states below the value) is the extrapolation of the means of `CubesSmearing` over the full grid
and over the grid of every second point. -/
theorem C138_mean (n0 n1 n2 : ℕ) (wrap : Bool) (v : ℕ → ℕ → ℕ → ℝ) (o : ExtraCubes) (ho : ExtraCubes.make n0 n1 n2 wrap v = .ok o)
    (value : ℝ) :
    let m := fun n => if wrap then (n + 1) / 2 else (n + 1) / 2 - 1
    let M := fun n => if wrap then n else n - 1
    let cubesVolume := fun (n0 n1 n2 : ℕ) (v : ℕ → ℕ → ℕ → ℝ) (i j k : ℕ) =>
      let f := cornerFit (gridCorners n0 n1 n2 v i j k)
      cubeCutVolume (value - f.1) (cubePrecomp f.2.1 f.2.2.1 f.2.2.2)
    mean (m n0) (m n1) (m n2) (o.volume value) =
      (4 * mean (M n0) (M n1) (M n2) (cubesVolume n0 n1 n2 v) -
        mean (m n0) (m n1) (m n2) (cubesVolume ((n0 + 1) / 2) ((n1 + 1) / 2) ((n2 + 1) / 2) fun i j k => v (2 * i) (2 * j) (2 * k))) / 3 := by
  intro m M cubesVolume
  rw [make] at ho
  split at ho
  · cases ho
  rename_i h2
  split at ho
  · rename_i he
    cases ho
    have e0 := (outShape_eq (by omega) he.1).1
    have e1 := (outShape_eq (by omega) he.2.1).1
    have e2 := (outShape_eq (by omega) he.2.2).1
    change mean (outShape wrap n0) (outShape wrap n1) (outShape wrap n2) _ = (4 * mean (cubes wrap n0) (cubes wrap n1) (cubes wrap n2) _ -
      mean (outShape wrap n0) (outShape wrap n1) (outShape wrap n2) _) / 3
    rw [e0, e1, e2, ← mean_down]
    have : (ExtraCubes.volume ⟨n0, n1, n2, wrap, v⟩ value) = fun i j k => 4 / 3 * down (cubesVolume n0 n1 n2 v) i j k +
        -1 / 3 * cubesVolume ((n0 + 1) / 2) ((n1 + 1) / 2) ((n2 + 1) / 2) (fun i j k => v (2 * i) (2 * j) (2 * k)) i j k := by
      funext i j k
      rw [volume_eq]
      have key : ∀ x y : ℝ, (4 * x - y) / 3 = 4 / 3 * x + -1 / 3 * y := fun x y => by ring
      exact key _ _
    rw [this, mean_lin]
    ring
  · cases ho

example : ∃ o, ExtraCubes.make 3 3 5 false (fun i j k => (i * j : ℝ) - k) = .ok o :=
  ⟨_, (C138_constructor 3 3 5 false _).1 (by norm_num) (by norm_num) (by norm_num) (by decide)⟩

/-- C138.  The density of every entry is the derivative of its volume, at every value and for all data; `volume_dvolume` returns both. -/
theorem C138_derivative (o : ExtraCubes) (value : ℝ) (i j k : ℕ) :
    HasDerivAt (fun x => o.volume x i j k) (o.dvolume value i j k) value ∧
    o.volumeDvolume value i j k = (o.volume value i j k, o.dvolume value i j k) := by
  have hd : ∀ f : ℝ × ℝ × ℝ × ℝ, HasDerivAt (fun x => cut x f) (dcut value f) value := by
    intro f
    have h := (C45_derivative (value - f.1) f.2.1 f.2.2.1 f.2.2.2).comp value ((hasDerivAt_id value).sub_const f.1)
    rw [mul_one] at h
    exact h
  constructor
  · rw [dvolume_eq]
    simp only [volume_eq, down]
    exact ((((((((((hd _).add (hd _)).add (hd _)).add (hd _)).add (hd _)).add (hd _)).add (hd _)).add (hd _)).div_const 8).const_mul 4
      |>.sub (hd _)).div_const 3
  · have hb : ∀ f, bothCut value f = (cut value f, dcut value f) := fun f => C44_both _ _ _ _
    simp only [volumeDvolume, hb]
    rfl

/-- C138.  Every entry is zero far below the data and one far above. -/
theorem C138_limits (o : ExtraCubes) (i j k : ℕ) : ∃ E : ℝ, ∀ value, (value ≤ -E → o.volume value i j k = 0) ∧ (E ≤ value → o.volume value i j k = 1) := by
  have hl : ∀ f : ℝ × ℝ × ℝ × ℝ, ∃ E : ℝ, ∀ value, (value ≤ -E → cut value f = 0) ∧ (E ≤ value → cut value f = 1) := by
    intro f
    have h := fun a0 => C44_range a0 f.2.1 f.2.2.1 f.2.2.2
    refine ⟨|f.1| + (cubePrecomp f.2.1 f.2.2.1 f.2.2.2).norm * ((cubePrecomp f.2.1 f.2.2.1 f.2.2.2).ax +
      (cubePrecomp f.2.1 f.2.2.1 f.2.2.2).ay + (cubePrecomp f.2.1 f.2.2.1 f.2.2.2).az) / 2, fun value => ⟨fun hv => (h _).2.2.1 ?_,
      fun hv => (h _).2.2.2.1 ?_⟩⟩
    · linarith [neg_abs_le f.1]
    · linarith [le_abs_self f.1]
  have hl3 : ∀ g : ℕ → ℕ → ℕ → ℝ × ℝ × ℝ × ℝ, ∃ E : ℝ, ∀ value,
      (value ≤ -E → down (fun i j k => cut value (g i j k)) i j k = 0) ∧ (E ≤ value → down (fun i j k => cut value (g i j k)) i j k = 1) := by
    intro g
    choose E hE using fun f => hl f
    have hle : ∀ a ∈ ({0, 1} : Finset ℕ), ∀ b ∈ ({0, 1} : Finset ℕ), ∀ c ∈ ({0, 1} : Finset ℕ), E (g (2 * i + a) (2 * j + b) (2 * k + c)) ≤
        ∑ a ∈ ({0, 1} : Finset ℕ), ∑ b ∈ ({0, 1} : Finset ℕ), ∑ c ∈ ({0, 1} : Finset ℕ), |E (g (2 * i + a) (2 * j + b) (2 * k + c))| := by
      intro a ha b hb c hc
      refine (le_abs_self _).trans ?_
      refine le_trans ?_ (Finset.single_le_sum (f := fun a => ∑ b ∈ ({0, 1} : Finset ℕ), ∑ c ∈ ({0, 1} : Finset ℕ), |E (g (2 * i + a) (2 * j + b) (2 * k + c))|)
        (fun _ _ => Finset.sum_nonneg fun _ _ => Finset.sum_nonneg fun _ _ => abs_nonneg _) ha)
      refine le_trans ?_ (Finset.single_le_sum (f := fun b => ∑ c ∈ ({0, 1} : Finset ℕ), |E (g (2 * i + a) (2 * j + b) (2 * k + c))|)
        (fun _ _ => Finset.sum_nonneg fun _ _ => abs_nonneg _) hb)
      exact Finset.single_le_sum (f := fun c => |E (g (2 * i + a) (2 * j + b) (2 * k + c))|) (fun _ _ => abs_nonneg _) hc
    generalize (∑ a ∈ ({0, 1} : Finset ℕ), ∑ b ∈ ({0, 1} : Finset ℕ), ∑ c ∈ ({0, 1} : Finset ℕ), |E (g (2 * i + a) (2 * j + b) (2 * k + c))|) = B at hle
    have h0 : ∀ a ∈ ({0, 1} : Finset ℕ), ∀ b ∈ ({0, 1} : Finset ℕ), ∀ c ∈ ({0, 1} : Finset ℕ), ∀ value,
        (value ≤ -B → cut value (g (2 * i + a) (2 * j + b) (2 * k + c)) = 0) ∧ (B ≤ value → cut value (g (2 * i + a) (2 * j + b) (2 * k + c)) = 1) := by
      intro a ha b hb c hc value
      have h := hle a ha b hb c hc
      exact ⟨fun hv => (hE _ value).1 (by linarith), fun hv => (hE _ value).2 (by linarith)⟩
    simp only [Finset.mem_insert, Finset.mem_singleton, forall_eq_or_imp, forall_eq, add_zero] at h0
    obtain ⟨⟨⟨h1, h2⟩, h3, h4⟩, ⟨h5, h6⟩, h7, h8⟩ := h0
    refine ⟨B, fun value => ⟨fun hv => ?_, fun hv => ?_⟩⟩
    · rw [down, (h1 value).1 hv, (h2 value).1 hv, (h3 value).1 hv, (h4 value).1 hv, (h5 value).1 hv, (h6 value).1 hv, (h7 value).1 hv,
        (h8 value).1 hv]; norm_num
    · rw [down, (h1 value).2 hv, (h2 value).2 hv, (h3 value).2 hv, (h4 value).2 hv, (h5 value).2 hv, (h6 value).2 hv, (h7 value).2 hv,
        (h8 value).2 hv]; norm_num
  obtain ⟨E1, h1⟩ := hl (o.coarseFit i j k)
  obtain ⟨E2, h2⟩ := hl3 o.fineFit
  refine ⟨max E1 E2, fun value => ⟨fun hv => ?_, fun hv => ?_⟩⟩
  · rw [volume_eq, (h1 value).1 (by linarith [le_max_left E1 E2]), (h2 value).1 (by linarith [le_max_right E1 E2])]; norm_num
  · rw [volume_eq, (h1 value).2 (by linarith [le_max_left E1 E2]), (h2 value).2 (by linarith [le_max_right E1 E2])]; norm_num

/-- The data of the defect: zero at one point of a grid of eight, one at the others. -/
noncomputable def dip (i j k : ℕ) : ℝ := if i = 0 ∧ j = 0 ∧ k = 0 then 0 else 1

/-- C138.  The extrapolated volume is not a distribution function for reachable data: for a wrapped grid of eight points with one minimum the
mean number of states is zero at `-1` and `-1/3` at `1/4`, inside of the range of the band. -/
theorem C138_defect_negative : ∃ o, ExtraCubes.make 2 2 2 true dip = .ok o ∧ outShape true 2 = 1 ∧
    mean 1 1 1 (o.volume (-1)) = 0 ∧ mean 1 1 1 (o.volume (1 / 4)) = -1 / 3 ∧ ¬ Monotone fun value => mean 1 1 1 (o.volume value) := by
  have hmk := (C138_constructor 2 2 2 true dip).1 (by norm_num) (by norm_num) (by norm_num) (by decide)
  set o : ExtraCubes := ⟨2, 2, 2, true, dip⟩ with ho
  have hm : ∀ f : ℕ → ℕ → ℕ → ℝ, mean 1 1 1 f = f 0 0 0 := by
    intro f; simp [mean]
  have hcoarse : o.coarseFit 0 0 0 = (0, 0, 0, 0) := by
    simp [coarseFit, ho, gridCorners, cornerFit, strided, dip]
  have hfit : ∀ i ∈ ({0, 1} : Finset ℕ), ∀ j ∈ ({0, 1} : Finset ℕ), ∀ k ∈ ({0, 1} : Finset ℕ),
      (o.fineFit i j k).1 = 7 / 8 ∧ |(o.fineFit i j k).2.1| = 1 / 4 ∧ |(o.fineFit i j k).2.2.1| = 1 / 4 ∧ |(o.fineFit i j k).2.2.2| = 1 / 4 := by
    intro i hi j hj k hk
    simp only [Finset.mem_insert, Finset.mem_singleton] at hi hj hk
    rcases hi with rfl | rfl <;> rcases hj with rfl | rfl <;> rcases hk with rfl | rfl <;>
      (simp [fineFit, ho, gridCorners, cornerFit, dip]; norm_num [abs_div])
  have hcut0 : ∀ value : ℝ, value ≤ -1 → cut value (0, 0, 0, 0) = 0 := by
    intro value hv
    refine (C44_range _ 0 0 0).2.2.1 ?_
    simp only [cubePrecomp, norm3, abs_zero]
    norm_num [EPSILON]
    linarith
  have hcut1 : cut (1 / 4) (0, 0, 0, 0) = 1 := by
    refine (C44_range _ 0 0 0).2.2.2.1 ?_
    simp only [cubePrecomp, norm3, abs_zero]
    norm_num [EPSILON]
  have hfine : ∀ i ∈ ({0, 1} : Finset ℕ), ∀ j ∈ ({0, 1} : Finset ℕ), ∀ k ∈ ({0, 1} : Finset ℕ), ∀ value : ℝ, value ≤ 1 / 4 →
      cut value (o.fineFit i j k) = 0 := by
    intro i hi j hj k hk value hv
    obtain ⟨h0, h1, h2, h3⟩ := hfit i hi j hj k hk
    refine (C44_range _ _ _ _).2.2.1 ?_
    have hN := (cubePrecomp_ok (o.fineFit i j k).2.1 (o.fineFit i j k).2.2.1 (o.fineFit i j k).2.2.2).norm
    have hN1 : 1 / 10 ^ 4 ≤ 1 / 4 / (cubePrecomp (o.fineFit i j k).2.1 (o.fineFit i j k).2.2.1 (o.fineFit i j k).2.2.2).norm := by
      rw [le_div_iff₀ hN]
      simp only [cubePrecomp, norm3, h1, h2, h3]
      have : Real.sqrt ((1 / 4) ^ 2 + (1 / 4) ^ 2 + (1 / 4) ^ 2) ≤ 1 := Real.sqrt_le_iff.2 ⟨by norm_num, by norm_num⟩
      linarith [show (1 / 10 ^ 40 : ℝ) ≤ 1 by norm_num]
    have hax : ∀ u : ℝ, |u| = 1 / 4 → max (|u| / (cubePrecomp (o.fineFit i j k).2.1 (o.fineFit i j k).2.2.1 (o.fineFit i j k).2.2.2).norm) EPSILON =
        1 / 4 / (cubePrecomp (o.fineFit i j k).2.1 (o.fineFit i j k).2.2.1 (o.fineFit i j k).2.2.2).norm := by
      intro u hu
      rw [hu]
      exact max_eq_left hN1
    have ex : (cubePrecomp (o.fineFit i j k).2.1 (o.fineFit i j k).2.2.1 (o.fineFit i j k).2.2.2).ax = _ := hax _ h1
    have ey : (cubePrecomp (o.fineFit i j k).2.1 (o.fineFit i j k).2.2.1 (o.fineFit i j k).2.2.2).ay = _ := hax _ h2
    have ez : (cubePrecomp (o.fineFit i j k).2.1 (o.fineFit i j k).2.2.1 (o.fineFit i j k).2.2.2).az = _ := hax _ h3
    rw [ex, ey, ez, h0]
    generalize (cubePrecomp (o.fineFit i j k).2.1 (o.fineFit i j k).2.2.1 (o.fineFit i j k).2.2.2).norm = N at hN
    have : N * (1 / 4 / N + 1 / 4 / N + 1 / 4 / N) / 2 = 3 / 8 := by
      field_simp; norm_num
    rw [this]
    linarith
  have hdown : ∀ value : ℝ, value ≤ 1 / 4 → down (fun i j k => cut value (o.fineFit i j k)) 0 0 0 = 0 := by
    intro value hv
    rw [down, hfine _ (by simp) _ (by simp) _ (by simp) value hv, hfine _ (by simp) _ (by simp) _ (by simp) value hv,
      hfine _ (by simp) _ (by simp) _ (by simp) value hv, hfine _ (by simp) _ (by simp) _ (by simp) value hv,
      hfine _ (by simp) _ (by simp) _ (by simp) value hv, hfine _ (by simp) _ (by simp) _ (by simp) value hv,
      hfine _ (by simp) _ (by simp) _ (by simp) value hv, hfine _ (by simp) _ (by simp) _ (by simp) value hv]
    norm_num
  have hA : mean 1 1 1 (o.volume (-1)) = 0 := by
    rw [hm, volume_eq, hdown _ (by norm_num), hcoarse, hcut0 _ le_rfl]; norm_num
  have hB : mean 1 1 1 (o.volume (1 / 4)) = -1 / 3 := by
    rw [hm, volume_eq, hdown _ le_rfl, hcoarse, hcut1]; norm_num
  refine ⟨o, hmk, rfl, hA, hB, fun hmono => ?_⟩
  have := hmono (show (-1 : ℝ) ≤ 1 / 4 by norm_num)
  simp only [hA, hB] at this
  norm_num at this

end TB.PropsExtraCubes

import Mathlib.Analysis.SpecialFunctions.Integrals.Basic
import Mathlib.Tactic.Linarith
import Mathlib.Tactic.Ring
import Mathlib.Tactic.NormNum
import Mathlib.Tactic.FieldSimp
import Verif.Props.Dos

/-!
# C62: energy at zero temperature
-/

namespace TB.Dos

open TB.Smear intervalIntegral

/-- A polynomial of degree three. -/
def Spec.cubic (c0 c1 c2 c3 e : ℝ) : ℝ := c0 + c1 * e + c2 * e ^ 2 + c3 * e ^ 3

/-- Its antiderivative. -/
noncomputable def Spec.cubicInt (c0 c1 c2 c3 e : ℝ) : ℝ := c0 * e + c1 * e ^ 2 / 2 + c2 * e ^ 3 / 3 + c3 * e ^ 4 / 4

/-- The energy of the states of a band below `mu`: `∫ e dN(e)` up to the smaller of `mu` and the upper end, by partial
integration. -/
noncomputable def Spec.bandEnergy (b : Band) (mu : ℝ) : ℝ :=
  if b.lo < mu then min b.hi mu * b.statesBelow (min b.hi mu) - ∫ e in b.lo..min b.hi mu, b.statesBelow e else 0

/-- `2 m + 1` equally spaced sample points. -/
def uniform (f : ℝ → ℝ) (x h : ℝ) (m : ℕ) : List (ℝ × ℝ) := (List.range (2 * m + 1)).map fun i : ℕ => (x + i * h, f (x + i * h))

theorem uniform_succ (f : ℝ → ℝ) (x h : ℝ) (m : ℕ) :
    uniform f x h (m + 1) = (x, f x) :: (x + h, f (x + h)) :: uniform f (x + 2 * h) h m := by
  rw [uniform, show 2 * (m + 1) + 1 = (2 * m + 1) + 1 + 1 by ring, List.range_succ_eq_map, List.range_succ_eq_map]
  simp only [List.map_cons, List.map_map, Nat.cast_zero, zero_mul, add_zero, Nat.succ_eq_add_one, Nat.cast_one, zero_add, one_mul,
    uniform, List.cons.injEq, true_and]
  refine List.map_congr_left fun i _ => ?_
  simp only [Function.comp_apply]
  push_cast
  rw [show x + ((i : ℝ) + 1 + 1) * h = x + 2 * h + i * h by ring]

theorem uniform_head (f : ℝ → ℝ) (x h : ℝ) (m : ℕ) : ∃ l, uniform f x h m = (x, f x) :: l ∧
    everySecond (uniform f x h m) = (x, f x) :: (everySecond (uniform f x h m)).tail := by
  cases m with
  | zero => exact ⟨[], by simp [uniform], by simp [uniform, everySecond]⟩
  | succ m => exact ⟨_, uniform_succ f x h m, by rw [uniform_succ, everySecond]; rfl⟩

theorem trapezoid_second (f : ℝ → ℝ) (x h : ℝ) (m : ℕ) (c0 c1 c2 c3 : ℝ)
    (hf : ∀ i : ℕ, i ≤ 2 * m → f (x + i * h) = Spec.cubic c0 c1 c2 c3 (x + i * h)) :
    let t1 := trapezoid (uniform f x h m)
    let t2 := trapezoid (everySecond (uniform f x h m))
    t1 + (t1 - t2) / (4 - 1) = Spec.cubicInt c0 c1 c2 c3 (x + 2 * m * h) - Spec.cubicInt c0 c1 c2 c3 x := by
  induction m generalizing x with
  | zero => simp [uniform, everySecond, trapezoid]
  | succ m ih =>
    have ih := ih (x + 2 * h) (fun i hi => by
      have := hf (i + 2) (by omega)
      push_cast at this
      rw [show x + ((i : ℝ) + 2) * h = x + 2 * h + i * h by ring] at this
      exact this)
    simp only at ih ⊢
    rw [uniform_succ, everySecond]
    obtain ⟨l, hl, hs⟩ := uniform_head f (x + 2 * h) h m
    have e1 : trapezoid ((x, f x) :: (x + h, f (x + h)) :: uniform f (x + 2 * h) h m) =
        (f x + f (x + h)) / 2 * h + ((f (x + h) + f (x + 2 * h)) / 2 * h + trapezoid (uniform f (x + 2 * h) h m)) := by
      rw [hl, trapezoid, trapezoid]
      ring
    have e2 : trapezoid ((x, f x) :: everySecond (uniform f (x + 2 * h) h m)) =
        (f x + f (x + 2 * h)) / 2 * (2 * h) + trapezoid (everySecond (uniform f (x + 2 * h) h m)) := by
      rw [hs, trapezoid]
      ring
    have f0 := hf 0 (by omega)
    have f1 := hf 1 (by omega)
    have f2 := hf 2 (by omega)
    norm_num at f0 f1 f2
    rw [e1, e2]
    have e3 : x + 2 * h + 2 * (m : ℝ) * h = x + 2 * ((m + 1 : ℕ) : ℝ) * h := by push_cast; ring
    rw [e3] at ih
    have e4 : h / 3 * (f x + 4 * f (x + h) + f (x + 2 * h)) =
        Spec.cubicInt c0 c1 c2 c3 (x + 2 * h) - Spec.cubicInt c0 c1 c2 c3 x := by
      rw [f0, f1, f2]
      simp only [Spec.cubic, Spec.cubicInt]
      ring
    linear_combination ih + e4

theorem cubic_integral (a b c0 c1 c2 c3 : ℝ) :
    ∫ e in a..b, Spec.cubic c0 c1 c2 c3 e = Spec.cubicInt c0 c1 c2 c3 b - Spec.cubicInt c0 c1 c2 c3 a := by
  refine integral_eq_sub_of_hasDerivAt (fun e _ => ?_) ?_
  · have h := ((((hasDerivAt_id e).const_mul c0).add (((hasDerivAt_pow 2 e).const_mul c1).div_const 2)).add
      (((hasDerivAt_pow 3 e).const_mul c2).div_const 3)).add (((hasDerivAt_pow 4 e).const_mul c3).div_const 4)
    refine h.congr_deriv ?_
    simp only [Spec.cubic]
    push_cast
    ring
  · refine Continuous.intervalIntegrable ?_ _ _
    unfold Spec.cubic
    fun_prop

/-- C62.  One band of `energy` at zero temperature with the integral of `N` replaced: if the number of states is a
polynomial of degree at most three up to `min(hi, mu)`, the result is `mu N - ∫ N`. -/
theorem energy0_cubic (b : Band) (mu : ℝ) (N : ℕ) (hN : 2 ≤ N) (c0 c1 c2 c3 : ℝ) (hr : b.lo ≤ b.hi)
    (hf : ∀ e, b.lo ≤ e → e ≤ min b.hi mu → b.statesBelow e = Spec.cubic c0 c1 c2 c3 e) (hmu : b.lo < mu) :
    b.energy0 mu N = mu * b.statesBelow (min b.hi mu) - ∫ e in b.lo..min b.hi mu, b.statesBelow e := by
  set m := N / 2 with hm
  have hm1 : 1 ≤ m := by omega
  have hle : b.lo ≤ min b.hi mu := le_min hr hmu.le
  set T := min b.hi mu with hT
  set h := (T - b.lo) / (2 * m) with hh
  have hm0 : (0 : ℝ) < 2 * m := by positivity
  have hh0 : 0 ≤ h := div_nonneg (by linarith) hm0.le
  have hmh : 2 * m * h = T - b.lo := by rw [hh]; field_simp
  have hu : (linspace b.lo T (m * 2 + 1)).map (fun x => (x, b.statesBelow x)) = uniform b.statesBelow b.lo h m := by
    rw [linspace, List.map_map, uniform, show m * 2 + 1 = 2 * m + 1 by ring]
    refine List.map_congr_left fun i _ => ?_
    have : (T - b.lo) / (((2 * m + 1 : ℕ) : ℝ) - 1) = h := by rw [hh]; push_cast; ring
    simp only [Function.comp_apply, this]
  have hlast : (uniform b.statesBelow b.lo h m).getLastD (0, 0) = (T, b.statesBelow T) := by
    rw [uniform, List.range_succ, List.map_append, List.map_cons, List.map_nil]
    simp only [List.getLastD_concat]
    push_cast
    rw [hmh, show b.lo + (T - b.lo) = T by ring]
  have hpts : ∀ i : ℕ, i ≤ 2 * m → b.statesBelow (b.lo + i * h) = Spec.cubic c0 c1 c2 c3 (b.lo + i * h) := by
    intro i hi
    refine hf _ (by nlinarith [mul_nonneg (Nat.cast_nonneg i : (0 : ℝ) ≤ i) hh0]) ?_
    have : (i : ℝ) ≤ 2 * m := by exact_mod_cast hi
    nlinarith [mul_le_mul_of_nonneg_right this hh0]
  have key := trapezoid_second b.statesBelow b.lo h m c0 c1 c2 c3 hpts
  simp only at key
  have hint : ∫ e in b.lo..T, b.statesBelow e = ∫ e in b.lo..T, Spec.cubic c0 c1 c2 c3 e := by
    refine integral_congr fun e he => ?_
    rw [Set.uIcc_of_le hle] at he
    exact hf e he.1 he.2
  rw [Band.energy0, if_pos hmu]
  simp only [← hm, ← hT]
  rw [hu, hlast, key, hmh, show b.lo + (T - b.lo) = T by ring, hint, cubic_integral]

/-- C62.  If `mu` is not above the upper end of the band and the number of states is a polynomial of degree at most three up
to `mu` the energy of the band is exact. -/
theorem C62_partly_filled (b : Band) (mu : ℝ) (N : ℕ) (hN : 2 ≤ N) (c0 c1 c2 c3 : ℝ) (hr : b.lo ≤ b.hi) (hmu : mu ≤ b.hi)
    (hf : ∀ e, b.lo ≤ e → e ≤ mu → b.statesBelow e = Spec.cubic c0 c1 c2 c3 e) :
    b.energy0 mu N = Spec.bandEnergy b mu := by
  by_cases h : b.lo < mu
  · rw [energy0_cubic b mu N hN c0 c1 c2 c3 hr (by rw [min_eq_right hmu]; exact hf) h, Spec.bandEnergy, if_pos h,
      min_eq_right hmu]
  · rw [Band.energy0, if_neg h, Spec.bandEnergy, if_neg h]

/-- C62.  For a full band the energy is too large by the distance of `mu` from the upper end of the band. -/
theorem C62_full_band_excess (b : Band) (mu : ℝ) (N : ℕ) (hN : 2 ≤ N) (c0 c1 c2 c3 : ℝ) (hr : b.lo ≤ b.hi) (hmu : b.hi < mu)
    (hf : ∀ e, b.lo ≤ e → e ≤ b.hi → b.statesBelow e = Spec.cubic c0 c1 c2 c3 e) :
    b.energy0 mu N = Spec.bandEnergy b mu + (mu - b.hi) := by
  have h : b.lo < mu := lt_of_le_of_lt hr hmu
  have h1 : b.statesBelow b.hi = 1 := by
    rw [Band.statesBelow, if_neg (fun h => absurd h.2 (lt_irrefl _)), if_pos le_rfl]
  rw [energy0_cubic b mu N hN c0 c1 c2 c3 hr (by rw [min_eq_left hmu.le]; exact hf) h, Spec.bandEnergy, if_pos h,
    min_eq_left hmu.le, h1]
  ring

/-- C62.  For bands with piecewise cubic state counts the result is the sum of the energies of the bands, times the spin
factor, if no band ends below `mu`; in general every band that ends below `mu` adds its distance from `mu`. -/
theorem C62_total (d : DoS) (mu : ℝ) (N : ℕ) (hN : 2 ≤ N) (spin : ℝ)
    (hd : ∀ b ∈ d, b.lo ≤ b.hi ∧ ∃ c0 c1 c2 c3, ∀ e, b.lo ≤ e → e ≤ min b.hi mu → b.statesBelow e = Spec.cubic c0 c1 c2 c3 e) :
    energy0 d mu N spin = spin * ((d.map fun b => Spec.bandEnergy b mu).sum + (d.map fun b => max 0 (mu - b.hi)).sum) := by
  rw [energy0, mul_comm, ← List.sum_map_add]
  congr 2
  refine List.map_congr_left fun b hb => ?_
  obtain ⟨hr, c0, c1, c2, c3, hf⟩ := hd b hb
  rcases le_or_gt mu b.hi with h | h
  · rw [min_eq_right h] at hf
    rw [C62_partly_filled b mu N hN c0 c1 c2 c3 hr h hf, max_eq_left (by linarith), add_zero]
  · rw [min_eq_left h.le] at hf
    rw [C62_full_band_excess b mu N hN c0 c1 c2 c3 hr h hf, max_eq_right (by linarith)]

/-- A band with constant density between 0 and 1. -/
noncomputable def exBand : Band := ⟨0, 1, fun e => e, fun _ => 1⟩

theorem exBand_states (e : ℝ) (h0 : 0 ≤ e) (h1 : e ≤ 1) : exBand.statesBelow e = Spec.cubic 0 1 0 0 e := by
  rw [Spec.cubic]
  change (if exBand.lo < e ∧ e < exBand.hi then e else if exBand.hi ≤ e then 1 else 0) = _
  by_cases h : exBand.lo < e ∧ e < exBand.hi
  · rw [if_pos h]; ring
  · rw [if_neg h]
    rcases h0.lt_or_eq with h2 | h2
    · have : e = 1 := le_antisymm h1 (not_lt.1 fun h3 => h ⟨h2, h3⟩)
      rw [if_pos (show exBand.hi ≤ e from this.ge), this]; ring
    · rw [if_neg (by rw [← h2]; norm_num [exBand]), ← h2]; ring

/-- Half filled: energy 1/8. -/
example : exBand.energy0 (1 / 2) 10 = Spec.bandEnergy exBand (1 / 2) :=
  C62_partly_filled exBand (1 / 2) 10 (by norm_num) 0 1 0 0 (by norm_num [exBand]) (by norm_num [exBand])
    fun e h0 h1 => exBand_states e h0 (by linarith)

/-- C62.  The full band with constant density between 0 and 1 has the energy 1/2, but with the chemical potential 3
the result is 5/2. -/
theorem C62_full_band_wrong : Spec.bandEnergy exBand 3 = 1 / 2 ∧ energy0 [exBand] 3 100 1 = 5 / 2 := by
  have hf : ∀ e, exBand.lo ≤ e → e ≤ exBand.hi → exBand.statesBelow e = Spec.cubic 0 1 0 0 e := fun e h0 h1 =>
    exBand_states e h0 h1
  have e1 : Spec.bandEnergy exBand 3 = 1 / 2 := by
    have hmin : min exBand.hi 3 = 1 := by norm_num [exBand]
    have hlo : exBand.lo = 0 := rfl
    rw [Spec.bandEnergy, if_pos (by norm_num [exBand]), hmin, exBand_states 1 (by norm_num) le_rfl, hlo]
    have : ∫ e in (0 : ℝ)..1, exBand.statesBelow e = ∫ e in (0 : ℝ)..1, Spec.cubic 0 1 0 0 e := by
      refine integral_congr fun e he => ?_
      rw [Set.uIcc_of_le zero_le_one] at he
      exact hf e he.1 he.2
    rw [this, cubic_integral]
    norm_num [Spec.cubic, Spec.cubicInt]
  refine ⟨e1, ?_⟩
  rw [energy0, List.map_singleton, List.sum_singleton,
    C62_full_band_excess exBand 3 100 (by norm_num) 0 1 0 0 (by norm_num [exBand]) (by norm_num [exBand]) hf, e1]
  norm_num [exBand]

end TB.Dos

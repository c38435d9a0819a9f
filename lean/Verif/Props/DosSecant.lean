import Mathlib.Tactic.Linarith
import Mathlib.Tactic.Ring
import Mathlib.Tactic.NormNum
import Mathlib.Tactic.FieldSimp
import Verif.Model.Dos

/-!
# C65, C67: secant method and the coefficients of the heat capacity
-/

namespace TB.Dos

/-- The zero of the line through `(a, f a - y)` and `(b, f b - y)`. -/
noncomputable def Spec.chord (f : ℝ → ℝ) (y a b : ℝ) : ℝ := a - (f a - y) * (b - a) / (f b - f a)

/-- The points of the secant method: the pair before step `k`. -/
noncomputable def Spec.secantPair (f : ℝ → ℝ) (y a b : ℝ) : ℕ → ℝ × ℝ
  | 0 => (a, b)
  | k + 1 => ((Spec.secantPair f y a b k).2, Spec.chord f y (Spec.secantPair f y a b k).1 (Spec.secantPair f y a b k).2)

theorem secantPair_shift (f : ℝ → ℝ) (y a b : ℝ) (k : ℕ) :
    Spec.secantPair f y b (Spec.chord f y a b) k = Spec.secantPair f y a b (k + 1) := by
  induction k with
  | zero => rfl
  | succ k ih => rw [Spec.secantPair, ih, Spec.secantPair.eq_2 f y a b (k + 1)]

theorem chord_eq (f : ℝ → ℝ) (y a b : ℝ) (h : f b - f a ≠ 0) :
    (a * (f b - y) - b * (f a - y)) / ((f b - y) - (f a - y)) = Spec.chord f y a b := by
  rw [Spec.chord, show (f b - y) - (f a - y) = f b - f a by ring]
  field_simp
  ring

theorem secantLoop_spec (f : ℝ → ℝ) (hf : Function.Injective f) (y tol : ℝ) (n : ℕ) (a b : ℝ) (hab : a ≠ b) :
    ∃ k ≤ n, secantLoop y tol f n a b (f a - y) (f b - y) =
        .ok (Spec.chord f y (Spec.secantPair f y a b k).1 (Spec.secantPair f y a b k).2) ∧
      (k < n → f (Spec.chord f y (Spec.secantPair f y a b k).1 (Spec.secantPair f y a b k).2) = y ∨
        |f (Spec.chord f y (Spec.secantPair f y a b k).1 (Spec.secantPair f y a b k).2) - y| < tol) ∧
      (∀ j < k, tol ≤ |f (Spec.chord f y (Spec.secantPair f y a b j).1 (Spec.secantPair f y a b j).2) - y|) := by
  induction n generalizing a b with
  | zero =>
    have h0 : f b - f a ≠ 0 := fun h => hab (hf (by linarith))
    refine ⟨0, le_rfl, ?_, fun h => absurd h (lt_irrefl _), fun j hj => absurd hj (Nat.not_lt_zero j)⟩
    rw [secantLoop, if_neg (by rw [show (f b - y) - (f a - y) = f b - f a by ring]; exact h0), chord_eq f y a b h0]
    rfl
  | succ n ih =>
    have h0 : f b - f a ≠ 0 := fun h => hab (hf (by linarith))
    rw [secantLoop, if_neg (by rw [show (f b - y) - (f a - y) = f b - f a by ring]; exact h0)]
    simp only [chord_eq f y a b h0]
    set x := Spec.chord f y a b with hx
    by_cases h1 : a = x ∨ b = x
    · rw [if_pos h1]
      refine ⟨0, Nat.zero_le _, rfl, fun _ => Or.inl ?_, fun j hj => absurd hj (Nat.not_lt_zero j)⟩
      change f x = y
      have hba : b - a ≠ 0 := sub_ne_zero.2 hab.symm
      have hdef : (x - a) * (f b - f a) = -(f a - y) * (b - a) := by
        rw [hx, Spec.chord]; field_simp; ring
      rcases h1 with h1 | h1
      · rw [← h1, sub_self, zero_mul] at hdef
        have : f a - y = 0 := by
          rcases mul_eq_zero.1 hdef.symm with h | h
          · linarith
          · exact absurd h hba
        rw [← h1]; linarith
      · rw [← h1] at hdef ⊢
        have : f b - f a = -(f a - y) := by
          have h2 : (b - a) * (f b - f a) = (b - a) * -(f a - y) := by rw [hdef]; ring
          exact mul_left_cancel₀ hba h2
        linarith
    · rw [if_neg h1]
      push Not at h1
      by_cases h2 : |f x - y| < tol ∨ f b - y = f x - y
      · rw [if_pos h2]
        refine ⟨0, Nat.zero_le _, rfl, fun _ => Or.inr ?_, fun j hj => absurd hj (Nat.not_lt_zero j)⟩
        rcases h2 with h2 | h2
        · exact h2
        · exact absurd (hf (by linarith)) h1.2
      · rw [if_neg h2]
        push Not at h2
        obtain ⟨k, hk, e1, e2, e3⟩ := ih b x h1.2
        rw [hx, secantPair_shift] at e1 e2
        refine ⟨k + 1, by omega, e1, fun h => e2 (by omega), fun j hj => ?_⟩
        cases j with
        | zero => exact h2.1
        | succ j =>
          have := e3 j (by omega)
          rw [hx, secantPair_shift] at this
          exact this

/-- C65.  For an injective function (for example a strictly monotonic one) and different start values, `secant` never divides by zero.
It returns the point after some step `k` of the secant method: the first one whose function value is closer to `y` than `tol`,
or a point with function value `y`, or the point after the last step (without any guarantee). -/
theorem C65_secant (f : ℝ → ℝ) (hf : Function.Injective f) (y a b tol : ℝ) (maxI : ℕ) (hab : a ≠ b) :
    ∃ k ≤ maxI, ∃ x, secant y f a b tol maxI = .ok x ∧
      x = Spec.chord f y (Spec.secantPair f y a b k).1 (Spec.secantPair f y a b k).2 ∧
      (k < maxI → f x = y ∨ |f x - y| < tol) ∧
      (∀ j < k, tol ≤ |f (Spec.chord f y (Spec.secantPair f y a b j).1 (Spec.secantPair f y a b j).2) - y|) := by
  obtain ⟨k, h1, h2, h3, h4⟩ := secantLoop_spec f hf y tol maxI a b hab
  exact ⟨k, h1, _, h2, rfl, h3, h4⟩

/-- C65.  Equal function values at the start raise `ZeroDivisionError`. -/
theorem C65_zero_division (f : ℝ → ℝ) (y a b tol : ℝ) (maxI : ℕ) (h : f a = f b) :
    secant y f a b tol maxI = .error .zeroDivision := by
  rw [secant]
  cases maxI with
  | zero => rw [secantLoop, if_pos (by rw [h]; ring)]
  | succ n => rw [secantLoop, if_pos (by rw [h]; ring)]

/-- C65.  The inverse of a linear function is exact for every tolerance and number of steps. -/
theorem C65_linear (m c y a b tol : ℝ) (maxI : ℕ) (hm : m ≠ 0) (hab : a ≠ b) :
    secant y (fun t => m * t + c) a b tol maxI = .ok ((y - c) / m) := by
  have hinj : Function.Injective fun t : ℝ => m * t + c := fun s t h => mul_left_cancel₀ hm (add_right_cancel h)
  have hch : ∀ u v : ℝ, u ≠ v → Spec.chord (fun t => m * t + c) y u v = (y - c) / m := by
    intro u v huv
    have h1 : m * v + c - (m * u + c) = m * (v - u) := by ring
    have h2 : v - u ≠ 0 := sub_ne_zero.2 huv.symm
    rw [Spec.chord, h1]
    field_simp
    ring
  have key : ∀ (n : ℕ) (u v : ℝ), u ≠ v → (∀ s t, Spec.chord (fun t => m * t + c) y s t = (y - c) / m ∨ s = t) →
      secantLoop y tol (fun t => m * t + c) n u v (m * u + c - y) (m * v + c - y) = .ok ((y - c) / m) := by
    intro n
    induction n with
    | zero =>
      intro u v huv _
      obtain ⟨k, hk, h1, -⟩ := secantLoop_spec _ hinj y tol 0 u v huv
      rw [Nat.le_zero.1 hk] at h1
      rw [h1]
      simp only [Spec.secantPair, hch u v huv]
    | succ n ih =>
      intro u v huv h
      have h0 : (fun t => m * t + c) v - (fun t => m * t + c) u ≠ 0 := fun h => huv (hinj (by simp only at h ⊢; linarith))
      have hc := chord_eq (fun t => m * t + c) y u v h0
      rw [hch u v huv] at hc
      rw [secantLoop, if_neg (by intro h; apply h0; simp only; linarith)]
      simp only [hc]
      by_cases h1 : u = (y - c) / m ∨ v = (y - c) / m
      · rw [if_pos h1]
      · rw [if_neg h1]
        push Not at h1
        by_cases h2 : |m * ((y - c) / m) + c - y| < tol ∨ m * v + c - y = m * ((y - c) / m) + c - y
        · rw [if_pos h2]
        · rw [if_neg h2]
          exact ih _ _ h1.2 h
  exact key maxI a b hab fun s t => by
    by_cases h : s = t
    · exact Or.inr h
    · exact Or.inl (hch s t h)

example : secant 7 (fun t => 2 * t + 1) 0 1 (1 / 10 ^ 16) 100 = .ok 3 := by
  rw [C65_linear 2 1 7 0 1 _ _ (by norm_num) (by norm_num)]
  norm_num

example : ∃ x, secant 5 (fun t => t ^ 3) 1 2 (1 / 10 ^ 16) 100 = .ok x := by
  obtain ⟨k, -, x, hx, -⟩ := C65_secant (fun t => t ^ 3) (Odd.strictMono_pow (by decide)).injective 5 1 2 (1 / 10 ^ 16) 100
    (by norm_num)
  exact ⟨x, hx⟩

/-- C67.  On a segment with linear density `rho(e) = y0 + (y1 - y0) (e - e0) / (e1 - e0)` the quadratic polynomial in `x = beta (e - mu)`
used by `heat_capacity` differs from the integrand `rho(e) e (e - mu + seebeck)` by the cubic term around the midpoint. -/
theorem C67_quadratic (mu seebeck beta e0 e1 y0 y1 e : ℝ) (hb : beta ≠ 0) (he : e0 ≠ e1) :
    let c := heatCoeffs mu seebeck beta e0 e1 y0 y1
    let x := beta * (e - mu)
    c.1 * x ^ 2 + c.2.1 * x + c.2.2 =
      (y0 + (y1 - y0) / (e1 - e0) * (e - e0)) * e * (e - mu + seebeck) -
        (y1 - y0) / (e1 - e0) * (e - (e0 + e1) / 2) ^ 3 := by
  intro c x
  have h : e1 - e0 ≠ 0 := sub_ne_zero.2 he.symm
  simp only [c, x, heatCoeffs]
  field_simp
  ring

/-- C67.  Inside of the segment the deviation is at most `|y1 - y0| (e1 - e0)² / 8`, and it vanishes for constant density. -/
theorem C67_deviation (mu seebeck beta e0 e1 y0 y1 e : ℝ) (hb : beta ≠ 0) (he : e0 < e1) (h0 : e0 ≤ e) (h1 : e ≤ e1) :
    let c := heatCoeffs mu seebeck beta e0 e1 y0 y1
    let x := beta * (e - mu)
    |c.1 * x ^ 2 + c.2.1 * x + c.2.2 - (y0 + (y1 - y0) / (e1 - e0) * (e - e0)) * e * (e - mu + seebeck)| ≤
      |y1 - y0| * (e1 - e0) ^ 2 / 8 := by
  intro c x
  have key := C67_quadratic mu seebeck beta e0 e1 y0 y1 e hb he.ne
  simp only at key
  have hd : 0 < e1 - e0 := by linarith
  have e2 : c.1 * x ^ 2 + c.2.1 * x + c.2.2 - (y0 + (y1 - y0) / (e1 - e0) * (e - e0)) * e * (e - mu + seebeck) =
      -((y1 - y0) / (e1 - e0) * (e - (e0 + e1) / 2) ^ 3) := by
    simp only [c, x]; linarith
  rw [e2, abs_neg, abs_mul, abs_div, abs_of_pos hd, abs_pow]
  have h2 : |e - (e0 + e1) / 2| ≤ (e1 - e0) / 2 := abs_le.2 ⟨by linarith, by linarith⟩
  have h3 : |e - (e0 + e1) / 2| ^ 3 ≤ ((e1 - e0) / 2) ^ 3 := pow_le_pow_left₀ (abs_nonneg _) h2 3
  calc |y1 - y0| / (e1 - e0) * |e - (e0 + e1) / 2| ^ 3 ≤ |y1 - y0| / (e1 - e0) * ((e1 - e0) / 2) ^ 3 :=
        mul_le_mul_of_nonneg_left h3 (div_nonneg (abs_nonneg _) hd.le)
    _ = |y1 - y0| * (e1 - e0) ^ 2 / 8 := by field_simp; ring

example : heatCoeffs 1 0 1 0 2 0 2 = (2, 1, 0) := by norm_num [heatCoeffs]

end TB.Dos

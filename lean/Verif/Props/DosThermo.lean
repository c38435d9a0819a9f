import Verif.Props.DosChemical
import Verif.Props.DosInt

/-!
# C108: `DensityOfStates.seebeck` and `DensityOfStates.heat_capacity`
-/

namespace TB.Dos

open MeasureTheory intervalIntegral

/-- The temperatures at which `seebeck` asks for the chemical potential. -/
noncomputable def Spec.pairs (h : ℝ) (Ts : List ℝ) : List ℝ := (Ts.filter fun T => decide (0 < T)).flatMap fun T => [T - h, T + h]

theorem pairs_get (h : ℝ) (l : List ℝ) (k : ℕ) (hk : k < l.length) :
    (l.flatMap fun T => [T - h, T + h])[k * 2]? = some (l[k] - h) ∧ (l.flatMap fun T => [T - h, T + h])[k * 2 + 1]? = some (l[k] + h) := by
  induction l generalizing k with
  | nil => simp at hk
  | cons a l ih =>
    rw [List.flatMap_cons]
    cases k with
    | zero => simp
    | succ k =>
      have := ih k (by simpa using hk)
      rw [show (k + 1) * 2 = k * 2 + 2 by ring]
      simpa using this

theorem filter_get (P : ℝ → Bool) (l : List ℝ) (i : ℕ) (hi : i < l.length) (h : P l[i]) :
    (l.filter P)[((l.take i).filter P).length]? = some l[i] := by
  induction l generalizing i with
  | nil => simp at hi
  | cons a l ih =>
    cases i with
    | zero =>
      simp only [List.getElem_cons_zero] at h
      simp [h]
    | succ i =>
      simp only [List.getElem_cons_succ] at h ⊢
      have := ih i (by simpa using hi) h
      rw [List.take_succ_cons]
      by_cases ha : P a
      · rw [List.filter_cons_of_pos ha, List.filter_cons_of_pos ha, List.length_cons, List.getElem?_cons_succ]
        exact this
      · rw [List.filter_cons_of_neg ha, List.filter_cons_of_neg ha]
        exact this

/-- C108.  `seebeck` asks for the chemical potentials at `T - h` and `T + h` for all positive temperatures in one call.  The result for
a positive temperature is the difference quotient of the two; for the other temperatures it is zero. -/
theorem C108_seebeck (d : DoS) (electrons : ℝ) (Ts : List ℝ) (N : ℕ) (h : ℝ) (hh : h ≠ 0) (hpos : ∃ T ∈ Ts, 0 < T)
    (hmin : ∀ T ∈ Ts, 0 < T → h < T) (mu : List (Option ℝ))
    (hmu : chemicalPotential d electrons (Spec.pairs h Ts) N (1 / 10 ^ 8) 30 = .ok mu) :
    ∃ rs, seebeck d electrons Ts N h = .ok rs ∧ rs.length = Ts.length ∧ ∀ i < Ts.length,
      (Ts.getD i 0 ≤ 0 → rs.getD i none = some 0) ∧
      (0 < Ts.getD i 0 → ∃ k, (Spec.pairs h Ts)[k]? = some (Ts.getD i 0 - h) ∧ (Spec.pairs h Ts)[k + 1]? = some (Ts.getD i 0 + h) ∧
        (∀ a b, mu[k]? = some (some a) → mu[k + 1]? = some (some b) → rs.getD i none = some ((b - a) / (2 * h))) ∧
        ((mu.getD k none = none ∨ mu.getD (k + 1) none = none) → rs.getD i none = none)) := by
  classical
  have hne : (Ts.filter fun T => decide (0 < T)) ≠ [] := by
    obtain ⟨T, h1, h2⟩ := hpos
    exact List.ne_nil_of_mem (List.mem_filter.2 ⟨h1, by simpa using h2⟩)
  obtain ⟨m, hm⟩ : ∃ m, (Ts.filter fun T => decide (0 < T)).min? = some m := by
    cases hq : (Ts.filter fun T => decide (0 < T)).min? with
    | none => exact absurd (List.min?_eq_none_iff.1 hq) hne
    | some m => exact ⟨m, rfl⟩
  have hmem := List.mem_filter.1 (List.min?_mem hm)
  have hlt : h < m := hmin m hmem.1 (by simpa using hmem.2)
  rw [seebeck, hm]
  simp only [not_true_eq_false, hlt, if_false]
  rw [Spec.pairs] at hmu
  rw [hmu]
  refine ⟨_, rfl, by simp, fun i hi => ⟨fun h0 => ?_, fun h0 => ?_⟩⟩
  · rw [List.getD_eq_getElem _ _ (by simpa using hi)]
    simp only [List.getElem_map, List.getElem_range]
    rw [if_neg (by linarith)]
  · have hi' := List.getD_eq_getElem Ts 0 hi
    have hf := filter_get (fun T => decide (0 < T)) Ts i hi (by rw [← hi']; simpa using h0)
    obtain ⟨hk, hk2⟩ := List.getElem?_eq_some_iff.1 hf
    obtain ⟨p1, p2⟩ := pairs_get h _ _ hk
    rw [hk2, ← hi'] at p1 p2
    refine ⟨_, p1, p2, fun a b ha hb => ?_, fun hn => ?_⟩
    · rw [List.getD_eq_getElem _ _ (by simpa using hi)]
      simp only [List.getElem_map, List.getElem_range]
      rw [if_pos h0, ha, hb]
      simp only [Option.getD_some, diffQuot]
      rw [if_neg (by simpa using hh)]
    · rw [List.getD_eq_getElem _ _ (by simpa using hi)]
      simp only [List.getElem_map, List.getElem_range]
      rw [if_pos h0]
      rw [List.getD_eq_getElem?_getD, List.getD_eq_getElem?_getD] at hn
      rcases hn with hn | hn
      · rw [hn]
        cases (mu[((Ts.take i).filter fun T => decide (0 < T)).length * 2 + 1]?.getD none) <;> rfl
      · rw [hn]
        cases (mu[((Ts.take i).filter fun T => decide (0 < T)).length * 2]?.getD none) <;> rfl

/-- C108 (failure).  Without positive temperatures `seebeck` raises `ValueError` instead of returning zeros; a step that is not smaller than
all positive temperatures raises `AssertionError`; errors of `chemical_potential` are passed on. -/
theorem C108_seebeck_errors (d : DoS) (electrons : ℝ) (Ts : List ℝ) (N : ℕ) (h : ℝ) :
    ((∀ T ∈ Ts, T ≤ 0) → seebeck d electrons Ts N h = .error .valueError) ∧
    ((∃ T ∈ Ts, 0 < T ∧ T ≤ h) → seebeck d electrons Ts N h = .error .assertionError) ∧
    (∀ e, (∃ T ∈ Ts, 0 < T) → (∀ T ∈ Ts, 0 < T → h < T) → chemicalPotential d electrons (Spec.pairs h Ts) N (1 / 10 ^ 8) 30 = .error e →
      seebeck d electrons Ts N h = .error e) := by
  classical
  refine ⟨fun h0 => ?_, ?_, ?_⟩
  · have : (Ts.filter fun T => decide (0 < T)) = [] := by
      rw [List.filter_eq_nil_iff]
      intro T hT
      simpa using h0 T hT
    rw [seebeck, this]
    rfl
  · rintro ⟨T, h1, h2, h3⟩
    have hin : T ∈ Ts.filter fun T => decide (0 < T) := List.mem_filter.2 ⟨h1, by simpa using h2⟩
    cases hq : (Ts.filter fun T => decide (0 < T)).min? with
    | none => rw [List.min?_eq_none_iff] at hq; rw [hq] at hin; cases hin
    | some m =>
      have hle : m ≤ T := (List.le_min?_iff hq).1 le_rfl T hin
      rw [seebeck, hq]
      simp only
      rw [if_pos (by linarith)]
  · rintro e ⟨T, h1, h2⟩ hmin hc
    have hin : T ∈ Ts.filter fun T => decide (0 < T) := List.mem_filter.2 ⟨h1, by simpa using h2⟩
    cases hq : (Ts.filter fun T => decide (0 < T)).min? with
    | none => rw [List.min?_eq_none_iff] at hq; rw [hq] at hin; cases hin
    | some m =>
      have hmem := List.mem_filter.1 (List.min?_mem hq)
      have hlt : h < m := hmin m hmem.1 (by simpa using hmem.2)
      rw [seebeck, hq]
      simp only
      rw [if_neg (not_not.2 hlt)]
      rw [Spec.pairs] at hc
      rw [hc]

/-! ## Heat capacity -/

theorem weight_bell (beta t : ℝ) : Spec.weight beta t = beta * Spec.bell (beta * t) := by
  rw [Spec.weight, Spec.bell]; ring

/-- `int_poly` in terms of energies. -/
theorem intPoly_weight (Li2 : ℝ → ℝ) (hL : Spec.IsLi2 Li2) (beta mu e0 e1 a b c : ℝ) (hb : 0 < beta) :
    intPoly Li2 ((e0 - mu) * beta) ((e1 - mu) * beta) a b c =
      ∫ e in e0..e1, (a * (beta * (e - mu)) ^ 2 + b * (beta * (e - mu)) + c) * Spec.weight beta (e - mu) := by
  rw [C66_int_poly Li2 hL]
  have h := intervalIntegral.integral_comp_mul_sub (a := e0) (b := e1)
    (fun t => (a * t ^ 2 + b * t + c) * Spec.bell t) hb.ne' (beta * mu)
  rw [smul_eq_mul, eq_inv_mul_iff_mul_eq₀ hb.ne'] at h
  rw [show (e0 - mu) * beta = beta * e0 - beta * mu by ring, show (e1 - mu) * beta = beta * e1 - beta * mu by ring, ← h,
    ← intervalIntegral.integral_const_mul]
  refine integral_congr fun e _ => ?_
  simp only [weight_bell]
  rw [show beta * e - beta * mu = beta * (e - mu) by ring]
  ring

/-- The sum of a function over the neighbouring pairs of a list. -/
noncomputable def Spec.overSegments (f : ℝ × ℝ → ℝ × ℝ → ℝ) (pts : List (ℝ × ℝ)) : ℝ := (List.zipWith f pts pts.tail).sum

theorem sumSegments_eq (f : ℝ × ℝ → ℝ × ℝ → ℝ) (pts : List (ℝ × ℝ)) : sumSegments f pts = Spec.overSegments f pts := by
  induction pts with
  | nil => rfl
  | cons p l ih =>
    cases l with
    | nil => rfl
    | cons q l =>
      rw [sumSegments, ih]
      simp [Spec.overSegments]

theorem heat_integrand_continuous (pts : List (ℝ × ℝ)) (hs : pts.Pairwise fun p q => p.1 < q.1) (beta mu s : ℝ) :
    Continuous fun e => Spec.pl pts e * e * (e - mu + s) * Spec.weight beta (e - mu) := by
  have h1 := pl_continuous pts hs
  have h2 := weight_continuous beta
  fun_prop

theorem weight_interval_le (beta mu a b : ℝ) : ∫ e in a..b, Spec.weight beta (e - mu) ≤ 1 := by
  have h := integral_eq_sub_of_hasDerivAt (f := fun e => -fermi beta (e - mu)) (f' := fun e => Spec.weight beta (e - mu)) (a := a) (b := b)
    (fun e _ => weight_shift_deriv beta mu e)
    (Continuous.intervalIntegrable ((weight_continuous beta).comp (continuous_id.sub continuous_const)) _ _)
  rw [h]
  have := fermi_mem beta (a - mu)
  have := fermi_mem beta (b - mu)
  linarith

/-- One segment of the heat capacity. -/
theorem heat_segment (Li2 : ℝ → ℝ) (hL : Spec.IsLi2 Li2) (beta mu s : ℝ) (hb : 0 < beta) (p q : ℝ × ℝ) (hpq : p.1 < q.1) :
    |heatSegment Li2 mu s beta p q - ∫ e in p.1..q.1, (p.2 + (q.2 - p.2) / (q.1 - p.1) * (e - p.1)) * e * (e - mu + s) * Spec.weight beta (e - mu)| ≤
      |q.2 - p.2| * (q.1 - p.1) ^ 2 / 8 := by
  have hw := weight_continuous beta
  rw [heatSegment]
  rw [intPoly_weight Li2 hL beta mu p.1 q.1 _ _ _ hb, ← integral_sub (Continuous.intervalIntegrable (by fun_prop) _ _)
    (Continuous.intervalIntegrable (by fun_prop) _ _)]
  set C := |q.2 - p.2| * (q.1 - p.1) ^ 2 / 8 with hC
  have hC0 : 0 ≤ C := by positivity
  have h1 : |∫ e in p.1..q.1, ((heatCoeffs mu s beta p.1 q.1 p.2 q.2).1 * (beta * (e - mu)) ^ 2 +
      (heatCoeffs mu s beta p.1 q.1 p.2 q.2).2.1 * (beta * (e - mu)) + (heatCoeffs mu s beta p.1 q.1 p.2 q.2).2.2) * Spec.weight beta (e - mu) -
      (p.2 + (q.2 - p.2) / (q.1 - p.1) * (e - p.1)) * e * (e - mu + s) * Spec.weight beta (e - mu)| ≤
      ∫ e in p.1..q.1, C * Spec.weight beta (e - mu) := by
    refine (abs_integral_le_integral_abs hpq.le).trans ?_
    refine integral_mono_on hpq.le (Continuous.intervalIntegrable (by fun_prop) _ _) (Continuous.intervalIntegrable (by fun_prop) _ _) ?_
    intro e he
    rw [← sub_mul, abs_mul, abs_of_nonneg (weight_nonneg beta _ hb.le)]
    exact mul_le_mul_of_nonneg_right (C67_deviation mu s beta p.1 q.1 p.2 q.2 e hb.ne' hpq he.1 he.2) (weight_nonneg beta _ hb.le)
  refine h1.trans ?_
  rw [intervalIntegral.integral_const_mul]
  calc C * ∫ e in p.1..q.1, Spec.weight beta (e - mu) ≤ C * 1 :=
        mul_le_mul_of_nonneg_left (weight_interval_le beta mu p.1 q.1) hC0
    _ = C := mul_one C

theorem heat_sum (Li2 : ℝ → ℝ) (hL : Spec.IsLi2 Li2) (beta mu s : ℝ) (hb : 0 < beta) (pts : List (ℝ × ℝ))
    (hs : pts.Pairwise fun p q => p.1 < q.1) (p q : ℝ × ℝ) (hp : pts.head? = some p) (hq : pts.getLast? = some q) :
    |sumSegments (heatSegment Li2 mu s beta) pts - ∫ e in p.1..q.1, Spec.pl pts e * e * (e - mu + s) * Spec.weight beta (e - mu)| ≤
      sumSegments (fun p q => |q.2 - p.2| * (q.1 - p.1) ^ 2 / 8) pts := by
  induction pts generalizing p with
  | nil => cases hp
  | cons a l ih =>
    simp only [List.head?_cons, Option.some.injEq] at hp
    subst hp
    cases l with
    | nil =>
      simp only [List.getLast?_singleton, Option.some.injEq] at hq
      subst hq
      simp [sumSegments]
    | cons b l =>
      have hab : a.1 < b.1 := (List.pairwise_cons.1 hs).1 b (List.mem_cons_self)
      have hs' := (List.pairwise_cons.1 hs).2
      have hq' : (b :: l).getLast? = some q := by rw [List.getLast?_cons_cons] at hq; exact hq
      have hbq : b.1 ≤ q.1 := by
        rcases List.mem_cons.1 (List.mem_of_mem_getLast? hq') with h | h
        · rw [h]
        · exact ((List.pairwise_cons.1 hs').1 q h).le
      have hc := heat_integrand_continuous (a :: b :: l) hs beta mu s
      rw [sumSegments, sumSegments, ← integral_add_adjacent_intervals (hc.intervalIntegrable a.1 b.1) (hc.intervalIntegrable b.1 q.1)]
      have h1 : ∫ e in a.1..b.1, Spec.pl (a :: b :: l) e * e * (e - mu + s) * Spec.weight beta (e - mu) =
          ∫ e in a.1..b.1, (a.2 + (b.2 - a.2) / (b.1 - a.1) * (e - a.1)) * e * (e - mu + s) * Spec.weight beta (e - mu) := by
        refine integral_congr fun e he => ?_
        rw [Set.uIcc_of_le hab.le] at he
        have := (List.isChain_cons_cons.1 (pl_spec (a :: b :: l) hs).1).1.2 e he.1 he.2
        simp only [this]
      have h2 : ∫ e in b.1..q.1, Spec.pl (a :: b :: l) e * e * (e - mu + s) * Spec.weight beta (e - mu) =
          ∫ e in b.1..q.1, Spec.pl (b :: l) e * e * (e - mu + s) * Spec.weight beta (e - mu) := by
        refine integral_congr fun e he => ?_
        rw [Set.uIcc_of_le hbq] at he
        simp only [pl_cons a b l e hab he.1]
      rw [h1, h2]
      have h3 := heat_segment Li2 hL beta mu s hb a b hab
      have h4 := ih hs' b rfl hq'
      rw [abs_le] at h3 h4 ⊢
      constructor <;> linarith [h3.1, h3.2, h4.1, h4.2]

/-- C108.  The heat capacity at positive temperature, for a chemical potential inside of the bands, is up to the stated error
`spin_factor / T` times the integral of `rho(e) e (e - mu + s) (-f'(e - mu))` with the density of states interpolated between `N` samples,
which reach 30 k_B T to both sides of the chemical potential or to the ends of the bands.  Here `mu` is the chemical potential at `T` and
`s / T` its difference quotient for the temperatures `T ± h T`. -/
theorem C108_heat_capacity (Li2 : ℝ → ℝ) (hL : Spec.IsLi2 Li2) (d : DoS) (electrons T : ℝ) (N : ℕ) (spin h : ℝ) (hT : 0 < T) (hN : 3 ≤ N)
    (hh : h ≠ 0) (e0 e1 m0 m1 m2 : ℝ) (hr : energyRange d = .ok (e0, e1)) (h0 : e0 < m1) (h1 : m1 < e1)
    (hmu : chemicalPotential d electrons [T - h * T, T, T + h * T] N (1 / 10 ^ 8) 30 = .ok [some m0, some m1, some m2]) :
    let s := (m2 - m0) / (2 * (h * T)) * T
    ∃ c pts, heatCapacity Li2 d electrons T N spin h = .ok (some c) ∧ pts.length = N ∧ (pts.Pairwise fun p q => p.1 < q.1) ∧
      (∀ p ∈ pts, p.2 = density d p.1) ∧ (pts.map Prod.fst).head? = some (max (m1 - 30 * kB * T) e0) ∧
      (pts.map Prod.fst).getLast? = some (min (m1 + 30 * kB * T) e1) ∧
      |c - spin / T * ∫ e in (max (m1 - 30 * kB * T) e0)..(min (m1 + 30 * kB * T) e1),
          Spec.pl pts e * e * (e - m1 + s) * Spec.weight (1 / (kB * T)) (e - m1)| ≤
        |spin| / T * Spec.overSegments (fun p q => |q.2 - p.2| * (q.1 - p.1) ^ 2 / 8) pts := by
  intro s
  have hk := kB_pos
  have hb : 0 < 1 / (kB * T) := by positivity
  obtain ⟨s1, s2, s3, s4, s5⟩ := samples_spec e0 e1 m1 (1 / (kB * T)) N hb h0 h1
  have h30 : 30 / (1 / (kB * T)) = 30 * kB * T := by field_simp
  rw [h30] at s2 s4
  set en := samples e0 e1 m1 (1 / (kB * T)) N with hen
  set pts := en.map fun e => (e, density d e) with hpts
  have hfst : pts.map Prod.fst = en := by
    rw [hpts, List.map_map]; exact List.map_id en
  have hs : pts.Pairwise fun p q => p.1 < q.1 := by
    rw [hpts, List.pairwise_map]; exact s1
  refine ⟨sumSegments (heatSegment Li2 m1 s (1 / (kB * T))) pts / T * spin, pts, ?_, ?_, hs, ?_, ?_, ?_, ?_⟩
  · rw [heatCapacity, if_neg (by linarith), hr]
    simp only [hmu]
    have hq : diffQuot (some m2) (some m0) (2 * (h * T)) = some ((m2 - m0) / (2 * (h * T))) := by
      rw [diffQuot, if_neg (by simp [hh, hT.ne'])]
    have g0 : ([some m0, some m1, some m2] : List (Option ℝ))[0]?.getD none = some m0 := rfl
    have g1 : ([some m0, some m1, some m2] : List (Option ℝ))[1]?.getD none = some m1 := rfl
    have g2 : ([some m0, some m1, some m2] : List (Option ℝ))[2]?.getD none = some m2 := rfl
    simp only [g0, g1, g2, hq, ← hen]
    rw [if_pos (proper_of_lt s1)]
  · rw [hpts, List.length_map, hen, samples_length]
  · intro p hp
    obtain ⟨e, -, rfl⟩ := List.mem_map.1 hp
    rfl
  · rw [hfst]; exact s2 (by omega)
  · rw [hfst]; exact s4 hN
  · have hhead := s2 (by omega)
    have hlast := s4 hN
    rw [← hfst, List.head?_map, Option.map_eq_some_iff] at hhead
    rw [← hfst, List.getLast?_map, Option.map_eq_some_iff] at hlast
    obtain ⟨p, hp1, hp2⟩ := hhead
    obtain ⟨q, hq1, hq2⟩ := hlast
    have key := heat_sum Li2 hL (1 / (kB * T)) m1 s hb pts hs p q hp1 hq1
    rw [hp2, hq2, sumSegments_eq (fun p q => |q.2 - p.2| * (q.1 - p.1) ^ 2 / 8)] at key
    set X := sumSegments (heatSegment Li2 m1 s (1 / (kB * T))) pts
    set Y := ∫ e in (max (m1 - 30 * kB * T) e0)..(min (m1 + 30 * kB * T) e1),
      Spec.pl pts e * e * (e - m1 + s) * Spec.weight (1 / (kB * T)) (e - m1)
    have e1 : X / T * spin - spin / T * Y = spin / T * (X - Y) := by ring
    rw [e1, abs_mul, abs_div, abs_of_pos hT]
    exact mul_le_mul_of_nonneg_left key (by positivity)

/-- C108.  At temperatures up to zero the heat capacity is zero, for every density of states; at positive temperatures errors are passed on
and results that are not finite stay so. -/
theorem C108_heat_zero (Li2 : ℝ → ℝ) (d : DoS) (electrons T : ℝ) (N : ℕ) (spin h : ℝ) :
    (T ≤ 0 → heatCapacity Li2 d electrons T N spin h = .ok (some 0)) ∧
    (0 < T → d = [] → heatCapacity Li2 d electrons T N spin h = .error .indexError) ∧
    (0 < T → ∀ r, energyRange d = .ok r →
      (∀ e, chemicalPotential d electrons [T - h * T, T, T + h * T] N (1 / 10 ^ 8) 30 = .error e →
        heatCapacity Li2 d electrons T N spin h = .error e) ∧
      (∀ m0 m1 m2, chemicalPotential d electrons [T - h * T, T, T + h * T] N (1 / 10 ^ 8) 30 = .ok [m0, m1, m2] →
        (m0 = none ∨ m1 = none ∨ m2 = none) → heatCapacity Li2 d electrons T N spin h = .ok none)) := by
  refine ⟨fun h0 => by rw [heatCapacity, if_pos h0], ?_, fun h0 r hr => ⟨fun e he => ?_, fun m0 m1 m2 hm hn => ?_⟩⟩
  · rintro h0 rfl
    rw [heatCapacity, if_neg (by linarith)]
    rfl
  · rw [heatCapacity, if_neg (by linarith), hr]
    simp only [he]
  · rw [heatCapacity, if_neg (by linarith), hr]
    simp only [hm]
    have g0 : [m0, m1, m2][0]?.getD none = m0 := rfl
    have g1 : [m0, m1, m2][1]?.getD none = m1 := rfl
    have g2 : [m0, m1, m2][2]?.getD none = m2 := rfl
    rw [g0, g1, g2]
    rcases hn with rfl | rfl | rfl
    · cases m1 <;> cases m2 <;> rfl
    · rfl
    · cases m1 <;> rfl

/-- C108.  With the step `h = 0` both functions divide by zero: no result at a positive temperature is finite. -/
theorem C108_zero_step (Li2 : ℝ → ℝ) (d : DoS) (electrons : ℝ) (Ts : List ℝ) (N : ℕ) :
    (∀ rs, seebeck d electrons Ts N 0 = .ok rs → ∀ i < Ts.length, 0 < Ts.getD i 0 → rs.getD i none = none) ∧
    (∀ T spin c, 0 < T → heatCapacity Li2 d electrons T N spin 0 = .ok c → c = none) := by
  have hq : ∀ a b, diffQuot a b 0 = none := by
    intro a b
    cases a <;> cases b <;> simp [diffQuot]
  refine ⟨fun rs h i hi h0 => ?_, fun T spin c hT h => ?_⟩
  · rw [seebeck] at h
    simp only at h
    split at h
    · cases h
    · split at h
      · cases h
      · split at h
        · cases h
        · obtain rfl := Except.ok.inj h
          rw [List.getD_eq_getElem _ _ (by simpa using hi)]
          simp only [List.getElem_map, List.getElem_range]
          rw [if_pos h0, mul_zero, hq]
  · rw [heatCapacity, if_neg (by linarith)] at h
    split at h
    · cases h
    · split at h
      · cases h
      · rw [zero_mul, mul_zero, hq] at h
        split at h
        · rename_i h1
          cases h1
        · exact (Except.ok.inj h).symm

/-! ## Examples: two bands around a gap from `-1/2` to `1/2` and one electron -/

/-- Two bands, mirror images of each other. -/
noncomputable def exMirror : DoS := [exLogistic (-1) (-1 / 2) (-3 / 4), exLogistic (1 / 2) 1 (3 / 4)]

theorem exMirror_fermi (tol : ℝ) (maxsteps : ℕ) : fermiEnergy exMirror 1 tol maxsteps = .ok 0 := by
  have := (C48_gap exMirror 1 tol maxsteps one_pos (by simp [exMirror]) (by norm_num [exMirror, exLogistic])).1
  norm_num [exMirror, exLogistic] at this ⊢
  exact this

theorem exMirror_range : energyRange exMirror = .ok (-1, 1) := by
  simp [energyRange, exMirror, exLogistic]

theorem exMirror_points : (linspace (-1) 1 3).map (fun e => (e, statesBelow exMirror e)) = [(-1, 0), (0, 1), (1, 2)] := by
  have h : linspace (-1) 1 3 = [-1, 0, 1] := by
    rw [linspace]
    norm_num [List.range_succ]
  have s1 : statesBelow exMirror (-1) = 0 := by
    norm_num [statesBelow, exMirror, Band.statesBelow, exLogistic]
  have s2 : statesBelow exMirror 0 = 1 := by
    norm_num [statesBelow, exMirror, Band.statesBelow, exLogistic]
  have s3 : statesBelow exMirror 1 = 2 := by
    norm_num [statesBelow, exMirror, Band.statesBelow, exLogistic]
  rw [h]
  simp only [List.map_cons, List.map_nil, s1, s2, s3]

theorem exMirror_pl (e : ℝ) : Spec.pl [(-1, 0), (0, 1), (1, 2)] e = 1 + max (-1) (min 1 e) := by
  rw [Spec.pl, Spec.pl, Spec.pl]
  rcases le_total e (-1) with h | h
  · rw [if_pos (by exact h), min_eq_right (by linarith), max_eq_left h]; norm_num
  · rcases le_total e 1 with h2 | h2
    · rw [min_eq_right h2, max_eq_right h]
      by_cases h3 : e ≤ 0
      · by_cases h4 : e ≤ -1
        · rw [if_pos (by exact h4)]; simp only; linarith
        · rw [if_neg (by exact h4), if_pos (by exact h3)]; simp only; ring
      · rw [if_neg (by simp only; linarith), if_neg (by exact h3), if_neg (by exact h3), if_pos (by exact h2)]; simp only; ring
    · rw [min_eq_left h2, max_eq_right (by norm_num), if_neg (by simp only; linarith), if_neg (by simp only; linarith),
        if_neg (by simp only; linarith)]
      by_cases h3 : e ≤ 1
      · have : e = 1 := le_antisymm h3 h2
        rw [if_pos (by exact h3), this]; norm_num
      · rw [if_neg (by exact h3)]; norm_num

theorem exMirror_smear (beta : ℝ) (hb : 0 < beta) : Spec.smear beta (Spec.pl [(-1, 0), (0, 1), (1, 2)]) 0 = 1 := by
  have hw := (weight_integral beta hb).1
  have hi : Integrable fun e => Spec.pl [(-1, 0), (0, 1), (1, 2)] e * Spec.weight beta (e - 0) := by
    simp only [sub_zero]
    refine (hw.const_mul 2).mono' (Continuous.aestronglyMeasurable ?_) (Filter.Eventually.of_forall fun e => ?_)
    · simp only [exMirror_pl]
      have := weight_continuous beta
      fun_prop
    · rw [exMirror_pl, Real.norm_eq_abs, abs_mul, abs_of_nonneg (weight_nonneg beta e hb.le)]
      refine mul_le_mul_of_nonneg_right ?_ (weight_nonneg beta e hb.le)
      rw [abs_le]
      have h1 : -1 ≤ max (-1) (min 1 e) := le_max_left _ _
      have h2 : max (-1) (min 1 e) ≤ 1 := max_le (by norm_num) (min_le_left _ _)
      constructor <;> linarith
  have h := integral_neg_eq_self (fun e => Spec.pl [(-1, 0), (0, 1), (1, 2)] e * Spec.weight beta (e - 0)) volume
  have h2 : (fun e => Spec.pl [(-1, 0), (0, 1), (1, 2)] (-e) * Spec.weight beta (-e - 0)) = fun e => 2 * Spec.weight beta e -
      Spec.pl [(-1, 0), (0, 1), (1, 2)] e * Spec.weight beta (e - 0) := by
    funext e
    have h3 : max (-1) (min 1 (-e)) = -max (-1) (min 1 e) := by
      rcases le_total e (-1) with h | h
      · rw [min_eq_left (by linarith), min_eq_right (by linarith), max_eq_right (by linarith), max_eq_left h, neg_neg]
      · rcases le_total e 1 with h' | h'
        · rw [min_eq_right (by linarith), min_eq_right h', max_eq_right (by linarith), max_eq_right h]
        · rw [min_eq_right (by linarith), min_eq_left h', max_eq_left (by linarith), max_eq_right (by linarith)]
    rw [exMirror_pl, exMirror_pl, h3, sub_zero, sub_zero, weight_even]
    ring
  rw [h2, integral_sub (hw.const_mul 2) hi, MeasureTheory.integral_const_mul, (weight_integral beta hb).2] at h
  rw [Spec.smear]
  linarith

/-- For temperatures above 1451 K the chemical potential of the mirror bands is zero. -/
theorem exMirror_chem (Ts : List ℝ) (hs : Ts.Pairwise (· ≤ ·)) (hne : Ts ≠ []) (hT : ∀ T ∈ Ts, 1451 ≤ T) :
    chemicalPotential exMirror 1 Ts 3 (1 / 10 ^ 8) 30 = .ok (Ts.map fun _ => some 0) := by
  have hk := kB_pos
  obtain ⟨rs, h1, h2, h3⟩ := C107_sorted exMirror 1 Ts 3 (1 / 10 ^ 8) 30 0 (-1) 1 (exMirror_fermi _ _) exMirror_range (by norm_num)
    (by norm_num) le_rfl hs hne
  rw [h1]
  congr 1
  refine List.ext_getElem (by rw [h2, List.length_map]) fun i hi hi' => ?_
  rw [h2] at hi
  have hTi : 1451 ≤ Ts.getD i 0 := by rw [List.getD_eq_getElem _ _ hi]; exact hT _ (List.getElem_mem hi)
  have hL : Spec.linTemperature (-1) 1 0 ≤ Ts.getD i 0 := by
    refine le_trans ?_ hTi
    rw [Spec.linTemperature]
    norm_num [kB]
  have h4 := (h3 i hi).2.1 (by linarith) hL
  have hb : 0 < 1 / (kB * Ts.getD i 0) := by
    have : 0 < Ts.getD i 0 := by linarith
    positivity
  rw [List.getD_eq_getElem _ _ (by rw [h2]; exact hi), exMirror_points] at h4
  rw [h4, List.getElem_map]
  have hz := exMirror_smear _ hb
  have hmono := smear_strictMono _ hb [(-1, 0), (0, 1), (1, 2)] (by norm_num) (-1, 0) (1, 2) rfl rfl (by norm_num)
  have hlt := hmono (show (0 : ℝ) < 0 + 1 / 10 by norm_num)
  rw [hz] at hlt
  have hsec : secant 1 (Spec.smear (1 / (kB * Ts.getD i 0)) (Spec.pl [(-1, 0), (0, 1), (1, 2)])) 0 (0 + 1 / 10) (1 / 10 ^ 8) 30 = .ok 0 := by
    rw [secant, secantLoop, hz, if_neg (by linarith)]
    simp
  rw [hsec]
  rfl

/-- The thermopower at 2000 K and at absolute zero. -/
example : seebeck exMirror 1 [2000, 0] 3 1 = .ok [some 0, some 0] := by
  have hp : Spec.pairs 1 [2000, 0] = [1999, 2001] := by
    rw [Spec.pairs]
    norm_num
  obtain ⟨rs, h1, h2, h3⟩ := C108_seebeck exMirror 1 [2000, 0] 3 1 one_ne_zero ⟨2000, by simp, by norm_num⟩
    (by intro T hT h0; simp at hT; rcases hT with rfl | rfl
        · norm_num
        · exact absurd h0 (lt_irrefl 0)) [some 0, some 0]
    (by rw [hp]; exact exMirror_chem _ (by norm_num) (by simp) (by intro T hT; simp at hT; rcases hT with rfl | rfl <;> norm_num))
  have z := (h3 1 (by norm_num)).1 (by norm_num)
  obtain ⟨k, k1, k2, k3, -⟩ := (h3 0 (by norm_num)).2 (by norm_num)
  rw [hp] at k1 k2
  match rs, h2 with
  | [a, b], _ =>
    simp only [List.getD_cons_succ, List.getD_cons_zero] at z k1 k2 k3
    match k, k1, k2 with
    | 0, _, _ =>
      have := k3 0 0 rfl rfl
      rw [h1, z, this]; norm_num

/-- A step above the temperature, and no positive temperature. -/
example : seebeck exMirror 1 [2000, 1 / 2] 3 1 = .error .assertionError ∧ seebeck exMirror 1 [0] 3 1 = .error .valueError :=
  ⟨(C108_seebeck_errors _ _ _ _ _).2.1 ⟨1 / 2, by simp, by norm_num, by norm_num⟩,
    (C108_seebeck_errors _ _ _ _ _).1 (by intro T hT; simp at hT; simp [hT])⟩

/-- The heat capacity at 2000 K. -/
example (Li2 : ℝ → ℝ) (hL : Spec.IsLi2 Li2) : ∃ c, heatCapacity Li2 exMirror 1 2000 3 2 (1 / 1000) = .ok (some c) := by
  obtain ⟨c, -, h, -⟩ := C108_heat_capacity Li2 hL exMirror 1 2000 3 2 (1 / 1000) (by norm_num) le_rfl (by norm_num) (-1) 1 0 0 0
    exMirror_range (by norm_num) (by norm_num)
    (exMirror_chem _ (by norm_num) (by simp) (by intro T hT; simp at hT; rcases hT with rfl | rfl | rfl <;> norm_num))
  exact ⟨c, h⟩

example (Li2 : ℝ → ℝ) : heatCapacity Li2 exMirror 1 (-3) 3 2 (1 / 1000) = .ok (some 0) ∧
    heatCapacity Li2 [] 0 300 3 2 (1 / 1000) = .error .indexError :=
  ⟨(C108_heat_zero Li2 exMirror 1 (-3) 3 2 (1 / 1000)).1 (by norm_num), (C108_heat_zero Li2 [] 0 300 3 2 (1 / 1000)).2.1 (by norm_num) rfl⟩

example (rs : List (Option ℝ)) (h : seebeck exMirror 1 [2000, 0] 3 0 = .ok rs) : rs.getD 0 none = none :=
  (C108_zero_step (fun x => x) exMirror 1 [2000, 0] 3).1 rs h 0 (by simp) (by norm_num)

end TB.Dos

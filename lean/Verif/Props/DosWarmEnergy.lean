import Verif.Props.DosThermo
import Verif.Props.DosCurve

/-!
# C110: `DensityOfStates.energy` at positive temperatures
-/

namespace TB.Dos

open MeasureTheory intervalIntegral

/-- The occupation at the temperature minus the occupation at zero temperature. -/
noncomputable def Spec.occupationChange (beta mu e : ℝ) : ℝ :=
  open Classical in 1 / (1 + Real.exp (beta * (e - mu))) - if e < mu then 1 else 0

/-- The change of the energy in one segment with constant density. -/
noncomputable def Spec.segmentEnergy (beta mu : ℝ) (p q : ℝ × ℝ) : ℝ :=
  (q.2 - p.2) / (q.1 - p.1) * ∫ e in p.1..q.1, e * Spec.occupationChange beta mu e

theorem occupationChange_eq (beta mu e : ℝ) : Spec.occupationChange beta mu e = fermiStep beta mu e := rfl

theorem intPoly_square (Li2 : ℝ → ℝ) (hL : Spec.IsLi2 Li2) (beta mu e0 e1 : ℝ) (hb : 0 < beta) :
    intPoly Li2 ((e0 - mu) * beta) ((e1 - mu) * beta) (1 / beta ^ 2) (2 * mu / beta) (mu * mu) =
      ∫ e in e0..e1, e ^ 2 * Spec.weight beta (e - mu) := by
  rw [intPoly_weight Li2 hL beta mu e0 e1 _ _ _ hb]
  refine integral_congr fun e _ => ?_
  congr 1
  field_simp
  ring

theorem fermi_shift_cont (beta mu : ℝ) : Continuous fun e => fermi beta (e - mu) :=
  (continuous_iff_continuousAt.2 fun e => (fermi_hasDerivAt beta e).continuousAt).comp (continuous_id.sub continuous_const)

/-- Integration by parts for `e (f - s)`. -/
theorem parts (beta mu s a b : ℝ) :
    ∫ e in a..b, e * (fermi beta (e - mu) - s) =
      b ^ 2 / 2 * (fermi beta (b - mu) - s) - a ^ 2 / 2 * (fermi beta (a - mu) - s) + 1 / 2 * ∫ e in a..b, e ^ 2 * Spec.weight beta (e - mu) := by
  have hc := fermi_shift_cont beta mu
  have hw := weight_continuous beta
  have h := integral_eq_sub_of_hasDerivAt (f := fun e => e ^ 2 / 2 * (fermi beta (e - mu) - s))
    (f' := fun e => e * (fermi beta (e - mu) - s) - 1 / 2 * (e ^ 2 * Spec.weight beta (e - mu))) (a := a) (b := b)
    (fun e _ => by
      have h1 : HasDerivAt (fun e : ℝ => e ^ 2 / 2) e e := by
        have := ((hasDerivAt_id e).pow 2).div_const 2
        simpa using this
      have h2 : HasDerivAt (fun e => fermi beta (e - mu) - s) (-Spec.weight beta (e - mu)) e := by
        have := ((fermi_hasDerivAt beta (e - mu)).comp e ((hasDerivAt_id e).sub_const mu)).sub_const s
        simpa using this
      refine (h1.mul h2).congr_deriv ?_
      ring)
    (Continuous.intervalIntegrable (by fun_prop) _ _)
  rw [integral_sub (Continuous.intervalIntegrable (by fun_prop) _ _) (Continuous.intervalIntegrable (by fun_prop) _ _),
    intervalIntegral.integral_const_mul] at h
  linarith

open Classical in
/-- One segment on one side of the chemical potential. -/
theorem energy_segment (Li2 : ℝ → ℝ) (hL : Spec.IsLi2 Li2) (beta mu : ℝ) (hb : 0 < beta) (p q : ℝ × ℝ) (hpq : p.1 < q.1)
    (hside : q.1 ≤ mu ∨ mu ≤ p.1) :
    energySegment Li2 beta mu p q = Spec.segmentEnergy beta mu p q + p.1 * p.2 * fermiStep beta mu p.1 - q.1 * q.2 * fermiStep beta mu q.1 +
      if q.1 = mu then (q.2 - p.2) / (q.1 - p.1) * mu ^ 2 / 2 else 0 := by
  rw [energySegment, Spec.segmentEnergy]
  simp only
  rw [intPoly_square Li2 hL beta mu p.1 q.1 hb]
  set a := (q.2 - p.2) / (q.1 - p.1) with ha
  have hd : q.1 - p.1 ≠ 0 := by linarith
  have hq : q.2 = p.2 + a * (q.1 - p.1) := by rw [ha]; field_simp; ring
  rcases hside with h | h
  · have hI : ∫ e in p.1..q.1, e * Spec.occupationChange beta mu e = ∫ e in p.1..q.1, e * (fermi beta (e - mu) - 1) := by
      refine integral_congr_Ioo_of_le hpq.le fun e he => ?_
      rw [occupationChange_eq, fermiStep, if_pos (by linarith [he.2])]
    rw [hI, parts]
    have hp : fermiStep beta mu p.1 = fermi beta (p.1 - mu) - 1 := by rw [fermiStep, if_pos (by linarith)]
    by_cases hm : q.1 = mu
    · have hqs : fermiStep beta mu q.1 = fermi beta (q.1 - mu) := by rw [fermiStep, if_neg (by linarith), sub_zero]
      have hz : fermi beta (q.1 - mu) = 1 / 2 := by rw [hm, sub_self, fermi_zero]
      rw [if_pos hm, hp, hqs, hz, hq, ← hm]
      ring
    · have hlt : q.1 < mu := lt_of_le_of_ne h hm
      have hqs : fermiStep beta mu q.1 = fermi beta (q.1 - mu) - 1 := by rw [fermiStep, if_pos hlt]
      rw [if_neg hm, hp, hqs, hq]
      ring
  · have hI : ∫ e in p.1..q.1, e * Spec.occupationChange beta mu e = ∫ e in p.1..q.1, e * (fermi beta (e - mu) - 0) := by
      refine integral_congr_Ioo_of_le hpq.le fun e he => ?_
      rw [occupationChange_eq, fermiStep, if_neg (by linarith [he.1])]
    rw [hI, parts]
    have hp : fermiStep beta mu p.1 = fermi beta (p.1 - mu) := by rw [fermiStep, if_neg (by linarith), sub_zero]
    have hqs : fermiStep beta mu q.1 = fermi beta (q.1 - mu) := by rw [fermiStep, if_neg (by linarith), sub_zero]
    rw [if_neg (by linarith), hp, hqs, hq]
    ring

theorem energy_right (Li2 : ℝ → ℝ) (hL : Spec.IsLi2 Li2) (beta mu : ℝ) (hb : 0 < beta) (pts : List (ℝ × ℝ))
    (hs : pts.Pairwise fun p q => p.1 < q.1) (p q : ℝ × ℝ) (hp : pts.head? = some p) (hq : pts.getLast? = some q) (hmu : mu ≤ p.1) :
    sumSegments (energySegment Li2 beta mu) pts = sumSegments (Spec.segmentEnergy beta mu) pts + p.1 * p.2 * fermiStep beta mu p.1 -
      q.1 * q.2 * fermiStep beta mu q.1 := by
  induction pts generalizing p with
  | nil => cases hp
  | cons a l ih =>
    simp only [List.head?_cons, Option.some.injEq] at hp
    subst hp
    cases l with
    | nil =>
      simp only [List.getLast?_singleton, Option.some.injEq] at hq
      subst hq
      simp [sumSegments]
    | cons b l =>
      have hab : a.1 < b.1 := (List.pairwise_cons.1 hs).1 b (List.mem_cons_self)
      have hq' : (b :: l).getLast? = some q := by rw [List.getLast?_cons_cons] at hq; exact hq
      rw [sumSegments, sumSegments, energy_segment Li2 hL beta mu hb a b hab (Or.inr hmu), if_neg (by linarith),
        ih (List.pairwise_cons.1 hs).2 b rfl hq' (by linarith)]
      ring

theorem energy_sum (Li2 : ℝ → ℝ) (hL : Spec.IsLi2 Li2) (beta mu s : ℝ) (hb : 0 < beta) (pts : List (ℝ × ℝ))
    (hs : pts.Pairwise fun p q => p.1 < q.1) (p q : ℝ × ℝ) (hp : pts.head? = some p) (hq : pts.getLast? = some q) (hmu : p.1 < mu)
    (hmem : (mu, s) ∈ pts) :
    ∃ L m R, pts = L ++ m :: (mu, s) :: R ∧ sumSegments (energySegment Li2 beta mu) pts = sumSegments (Spec.segmentEnergy beta mu) pts +
      p.1 * p.2 * fermiStep beta mu p.1 - q.1 * q.2 * fermiStep beta mu q.1 + (s - m.2) / (mu - m.1) * mu ^ 2 / 2 := by
  induction pts generalizing p with
  | nil => cases hp
  | cons a l ih =>
    simp only [List.head?_cons, Option.some.injEq] at hp
    subst hp
    cases l with
    | nil =>
      rw [List.mem_singleton] at hmem
      rw [← hmem] at hmu
      exact absurd hmu (lt_irrefl _)
    | cons b l =>
      have hab : a.1 < b.1 := (List.pairwise_cons.1 hs).1 b (List.mem_cons_self)
      have hq' : (b :: l).getLast? = some q := by rw [List.getLast?_cons_cons] at hq; exact hq
      have hs' := (List.pairwise_cons.1 hs).2
      have hm' : (mu, s) ∈ b :: l := by
        rcases List.mem_cons.1 hmem with h | h
        · rw [← h] at hmu; exact absurd hmu (lt_irrefl _)
        · exact h
      rcases List.mem_cons.1 hm' with h | h
      · subst h
        refine ⟨[], a, l, rfl, ?_⟩
        rw [sumSegments, sumSegments, energy_segment Li2 hL beta mu hb a (mu, s) hab (Or.inl le_rfl), if_pos rfl,
          energy_right Li2 hL beta mu hb _ hs' (mu, s) q rfl hq' le_rfl]
        ring
      · have hbmu : b.1 < mu := (List.pairwise_cons.1 hs').1 _ h
        obtain ⟨L, m, R, h1, h2⟩ := ih hs' b rfl hq' hbmu hm'
        refine ⟨a :: L, m, R, by rw [h1]; rfl, ?_⟩
        rw [sumSegments, sumSegments, energy_segment Li2 hL beta mu hb a b hab (Or.inl hbmu.le), if_neg hbmu.ne, h2]
        ring

/-- C110.  The energy at a positive temperature for a chemical potential inside of the energy range: the energy at zero temperature, plus
the integral of `e rho(e) (f(e - mu) - f0(e - mu))` over the window of 30 k_B T around `mu` for the states curve interpolated between
`N` samples, plus four error terms: from the upper and the lower end of the window, from the end of the integration 8 k_B T above the
last sample, and half of `mu²` times the difference of the interpolated density below `mu` and the density at `mu`. -/
theorem C110_energy (Li2 : ℝ → ℝ) (hL : Spec.IsLi2 Li2) (d : DoS) (mu T : ℝ) (N : ℕ) (spin : ℝ) (hT : 0 < T) (hN : 3 ≤ N) (e0 e1 : ℝ)
    (hr : energyRange d = .ok (e0, e1)) (h0 : e0 < mu) (h1 : mu < e1) :
    ∃ (es : List ℝ) (L : List ℝ) (m : ℝ) (R : List ℝ) (E0 E : ℝ), es = L ++ m :: mu :: R ∧ es.length = N ∧ es.Pairwise (· < ·) ∧
      es.head? = some (max (mu - 30 * kB * T) e0) ∧ es.getLast? = some (min (mu + 30 * kB * T) e1) ∧
      energy Li2 d mu 0 N spin = .ok (some (spin * E0)) ∧ energy Li2 d mu T N spin = .ok (some (spin * E)) ∧
      let f := fun e => 1 / (1 + Real.exp ((e - mu) / (kB * T)))
      let a := max (mu - 30 * kB * T) e0
      let b := min (mu + 30 * kB * T) e1
      E = E0 + Spec.overSegments (Spec.segmentEnergy (1 / (kB * T)) mu) (Spec.graph (statesBelow d) es) +
        (d.length - statesBelow d b) * b * f b - statesBelow d a * a * (1 - f a) - d.length * (b + 8 * kB * T) * f (b + 8 * kB * T) +
        ((statesBelow d mu - statesBelow d m) / (mu - m) - density d mu) * mu ^ 2 / 2 := by
  have hk := kB_pos
  have hb : 0 < 1 / (kB * T) := by positivity
  have h30 : 30 / (1 / (kB * T)) = 30 * kB * T := by field_simp
  have h8 : 8 / (1 / (kB * T)) = 8 * kB * T := by field_simp
  obtain ⟨s1, s2, s3, s4, s5⟩ := samples_spec e0 e1 mu (1 / (kB * T)) N hb h0 h1
  obtain ⟨l0, l1⟩ := samples_limits e0 e1 mu (1 / (kB * T)) hb h0 h1
  rw [h30] at s2 s4 l0 l1
  have hhead := s2 (by omega)
  have hlast := s4 hN
  set en := samples e0 e1 mu (1 / (kB * T)) N with hen
  set a := max (mu - 30 * kB * T) e0 with ha
  set b := min (mu + 30 * kB * T) e1 with hbb
  have hgs : (Spec.graph (statesBelow d) en).Pairwise fun p q => p.1 < q.1 := by
    rw [Spec.graph, List.pairwise_map]; exact s1
  have hgh : (Spec.graph (statesBelow d) en).head? = some (a, statesBelow d a) := by
    rw [Spec.graph, List.head?_map, hhead]; rfl
  have hgl : (Spec.graph (statesBelow d) en).getLast? = some (b, statesBelow d b) := by
    rw [Spec.graph, List.getLast?_map, hlast]; rfl
  have hgm : (mu, statesBelow d mu) ∈ Spec.graph (statesBelow d) en := List.mem_map.2 ⟨mu, s3 (by omega), rfl⟩
  obtain ⟨L, m, R, k1, k2⟩ := energy_sum Li2 hL (1 / (kB * T)) mu (statesBelow d mu) hb _ hgs _ _ hgh hgl l0 hgm
  have hfst : en = (Spec.graph (statesBelow d) en).map Prod.fst := by
    rw [Spec.graph, List.map_map]; exact (List.map_id en).symm
  have hm2 : m.2 = statesBelow d m.1 := by
    have : m ∈ Spec.graph (statesBelow d) en := by rw [k1]; simp
    obtain ⟨t, -, rfl⟩ := List.mem_map.1 this
    rfl
  refine ⟨en, L.map Prod.fst, m.1, R.map Prod.fst, (d.map fun b => b.energy0 mu N).sum, _, ?_, samples_length _ _ _ _ _, s1, hhead, hlast, ?_, ?_, rfl⟩
  · rw [hfst, k1]; simp
  · rw [energy, hr]
    simp only [le_refl, if_true]
    rw [energy0, mul_comm]
  · rw [energy, hr]
    simp only [if_neg (not_le.2 hT), ← hen, hlast, if_pos (proper_of_lt s1)]
    have hsc : stateCurve d en = Spec.graph (statesBelow d) en := rfl
    rw [hsc, k2, h8, energy_segment Li2 hL (1 / (kB * T)) mu hb (b, d.length) (b + 8 * kB * T, d.length)
      (by simp only; have : 0 < 8 * kB * T := by positivity
          linarith) (Or.inr l1.le), if_neg (by simp only; have : 0 < 8 * kB * T := by positivity
                                               linarith)]
    have hz : Spec.segmentEnergy (1 / (kB * T)) mu (b, (d.length : ℝ)) (b + 8 * kB * T, (d.length : ℝ)) = 0 := by
      rw [Spec.segmentEnergy]; simp
    have hst : ∀ e, mu ≤ e → fermiStep (1 / (kB * T)) mu e = 1 / (1 + Real.exp ((e - mu) / (kB * T))) := fun e he => by
      rw [fermiStep, if_neg (by linarith), sub_zero, fermi, one_div_mul_eq_div]
    have hsa : fermiStep (1 / (kB * T)) mu a = 1 / (1 + Real.exp ((a - mu) / (kB * T))) - 1 := by
      rw [fermiStep, if_pos (by linarith), fermi, one_div_mul_eq_div]
    have h80 : 0 < 8 * kB * T := by positivity
    simp only
    rw [hz, hst b l1.le, hst (b + 8 * kB * T) (by linarith), hsa, ← sumSegments_eq, hm2]
    congr 2
    ring

/-! ## The origin of the energy scale -/

/-- The band with all energies moved by `c`. -/
noncomputable def Spec.shiftBand (c : ℝ) (b : Band) : Band := ⟨b.lo + c, b.hi + c, fun e => b.vol (e - c), fun e => b.dvol (e - c)⟩

/-- All energies moved by `c`. -/
noncomputable def Spec.shift (c : ℝ) (d : DoS) : DoS := d.map (Spec.shiftBand c)

/-- A curve moved by `c`. -/
noncomputable def moved (c : ℝ) (pts : List (ℝ × ℝ)) : List (ℝ × ℝ) := pts.map fun p => (p.1 + c, p.2)

theorem shiftBand_states (c : ℝ) (b : Band) (e : ℝ) : (Spec.shiftBand c b).statesBelow (e + c) = b.statesBelow e := by
  simp only [Band.statesBelow, Spec.shiftBand, add_lt_add_iff_right, add_le_add_iff_right, add_sub_cancel_right]

theorem shiftBand_density (c : ℝ) (b : Band) (e : ℝ) : (Spec.shiftBand c b).density (e + c) = b.density e := by
  simp only [Band.density, Spec.shiftBand, add_lt_add_iff_right, add_sub_cancel_right]

theorem shift_states (c : ℝ) (d : DoS) (e : ℝ) : statesBelow (Spec.shift c d) (e + c) = statesBelow d e := by
  rw [statesBelow_eq, statesBelow_eq, Spec.shift, List.map_map]
  congr 1
  exact List.map_congr_left fun b _ => shiftBand_states c b e

theorem shift_density (c : ℝ) (d : DoS) (e : ℝ) : density (Spec.shift c d) (e + c) = density d e := by
  rw [density_eq, density_eq, Spec.shift, List.map_map]
  congr 1
  exact List.map_congr_left fun b _ => shiftBand_density c b e

theorem shift_range (c : ℝ) (d : DoS) (e0 e1 : ℝ) (h : energyRange d = .ok (e0, e1)) :
    energyRange (Spec.shift c d) = .ok (e0 + c, e1 + c) := by
  rw [energyRange] at h ⊢
  rw [Spec.shift, List.head?_map, List.getLast?_map]
  cases hh : d.head? with
  | none => rw [hh] at h; cases h
  | some a =>
    cases hl : d.getLast? with
    | none => rw [hh, hl] at h; cases h
    | some b =>
      rw [hh, hl] at h
      obtain ⟨rfl, rfl⟩ := Prod.mk.inj (Except.ok.inj h)
      rfl

theorem shift_samples (c e0 e1 mu beta : ℝ) (N : ℕ) :
    samples (e0 + c) (e1 + c) (mu + c) beta N = (samples e0 e1 mu beta N).map (· + c) := by
  have h1 : max (mu + c - 30 / beta) (e0 + c) - (mu + c) = max (mu - 30 / beta) e0 - mu := by
    rw [show mu + c - 30 / beta = mu - 30 / beta + c by ring, max_add_add_right]; ring
  have h2 : min (mu + c + 30 / beta) (e1 + c) - (mu + c) = min (mu + 30 / beta) e1 - mu := by
    rw [show mu + c + 30 / beta = mu + 30 / beta + c by ring, min_add_add_right]; ring
  rw [samples, samples]
  simp only [h1, h2, List.map_map]
  refine List.map_congr_left fun p _ => ?_
  simp only [Function.comp_apply]
  ring

theorem shift_linspace (c a b : ℝ) (N : ℕ) : linspace (a + c) (b + c) N = (linspace a b N).map (· + c) := by
  rw [linspace, linspace, List.map_map]
  refine List.map_congr_left fun i _ => ?_
  simp only [Function.comp_apply]
  ring

theorem moved_trapezoid (c : ℝ) (pts : List (ℝ × ℝ)) : trapezoid (moved c pts) = trapezoid pts := by
  induction pts with
  | nil => rfl
  | cons p l ih =>
    cases l with
    | nil => rfl
    | cons q l =>
      have : moved c (p :: q :: l) = (p.1 + c, p.2) :: (q.1 + c, q.2) :: moved c l := rfl
      rw [this, trapezoid, trapezoid, ← ih]
      simp only [moved, List.map_cons]
      ring

theorem moved_everySecond (c : ℝ) : ∀ pts : List (ℝ × ℝ), everySecond (moved c pts) = moved c (everySecond pts)
  | [] => rfl
  | [_] => rfl
  | a :: b :: l => by
    have h := moved_everySecond c l
    have : moved c (a :: b :: l) = (a.1 + c, a.2) :: (b.1 + c, b.2) :: moved c l := rfl
    rw [this, everySecond, everySecond, h]
    rfl

/-- The states counted by one band in the energy at zero temperature. -/
noncomputable def lastStates (b : Band) (mu : ℝ) (N : ℕ) : ℝ :=
  open Classical in
  if b.lo < mu then (((linspace b.lo (min b.hi mu) (N / 2 * 2 + 1)).map fun x => (x, b.statesBelow x)).getLastD (0, 0)).2 else 0

theorem shift_energy0 (c : ℝ) (b : Band) (mu : ℝ) (N : ℕ) :
    (Spec.shiftBand c b).energy0 (mu + c) N = b.energy0 mu N + c * lastStates b mu N := by
  rw [Band.energy0, Band.energy0, lastStates]
  by_cases h : b.lo < mu
  · have h' : (Spec.shiftBand c b).lo < mu + c := by simpa [Spec.shiftBand] using h
    have hmin : min (Spec.shiftBand c b).hi (mu + c) = min b.hi mu + c := by
      simp only [Spec.shiftBand]; exact min_add_add_right _ _ _
    have hlo : (Spec.shiftBand c b).lo = b.lo + c := rfl
    rw [if_pos h', if_pos h, if_pos h]
    simp only
    rw [hmin, hlo, shift_linspace, List.map_map]
    have hp : ((linspace b.lo (min b.hi mu) (N / 2 * 2 + 1)).map ((fun x => (x, (Spec.shiftBand c b).statesBelow x)) ∘ fun x => x + c)) =
        moved c ((linspace b.lo (min b.hi mu) (N / 2 * 2 + 1)).map fun x => (x, b.statesBelow x)) := by
      rw [moved, List.map_map]
      refine List.map_congr_left fun x _ => ?_
      simp only [Function.comp_apply, shiftBand_states]
    rw [hp]
    set pts := (linspace b.lo (min b.hi mu) (N / 2 * 2 + 1)).map fun x => (x, b.statesBelow x) with hpts
    have hl : ((moved c pts).getLastD (0, 0)).2 = (pts.getLastD (0, 0)).2 := by
      rw [moved, List.getLastD_eq_getLast?, List.getLastD_eq_getLast?, List.getLast?_map]
      cases pts.getLast? <;> rfl
    rw [moved_trapezoid, moved_everySecond, moved_trapezoid, hl]
    ring
  · have h' : ¬ (Spec.shiftBand c b).lo < mu + c := by simpa [Spec.shiftBand] using h
    rw [if_neg h', if_neg h, if_neg h]
    ring

/-- The step function used in `energy`. -/
noncomputable def stepAt (mu e : ℝ) : ℝ := open Classical in if e < mu then 1 else 0

/-- The part of a segment that is linear in the origin. -/
noncomputable def segmentLinear (beta mu : ℝ) (p q : ℝ × ℝ) : ℝ :=
  (q.2 - p.2) / (q.1 - p.1) / 2 * (2 / beta * (intXdf ((q.1 - mu) * beta) - intXdf ((p.1 - mu) * beta)) +
    2 * mu * (intDf ((q.1 - mu) * beta) - intDf ((p.1 - mu) * beta))) -
    (p.2 - p.1 * ((q.2 - p.2) / (q.1 - p.1))) * (fermiStep beta mu q.1 - fermiStep beta mu p.1)

theorem intDf_fermi (t : ℝ) : intDf t = 1 / 2 - 1 / (1 + Real.exp t) := by
  rw [intDf, Real.tanh_eq_sinh_div_cosh, Real.sinh_eq, Real.cosh_eq]
  have h : Real.exp (t / 2) * Real.exp (t / 2) = Real.exp t := by rw [← Real.exp_add]; congr 1; ring
  have h0 := Real.exp_pos (t / 2)
  have h1 := Real.exp_pos t
  rw [Real.exp_neg]
  rw [← h] at h1 ⊢
  field_simp
  ring

theorem segment_shift (Li2 : ℝ → ℝ) (beta mu c : ℝ) (p q : ℝ × ℝ) :
    energySegment Li2 beta (mu + c) (p.1 + c, p.2) (q.1 + c, q.2) = energySegment Li2 beta mu p q + c * segmentLinear beta mu p q +
      c ^ 2 / 2 * ((q.2 - p.2) / (q.1 - p.1) * (stepAt mu p.1 - stepAt mu q.1)) := by
  have hg : ∀ e, fermiStep beta (mu + c) (e + c) = fermiStep beta mu e := fun e => by
    rw [fermiStep, fermiStep]
    simp only [add_lt_add_iff_right, add_sub_add_right_eq_sub]
  have hD : ∀ e, intDf ((e - mu) * beta) = 1 / 2 - (fermiStep beta mu e + stepAt mu e) := fun e => by
    rw [intDf_fermi, fermiStep, stepAt, fermi, mul_comm]
    ring
  rw [energySegment, energySegment, segmentLinear]
  simp only [hg, add_sub_add_right_eq_sub]
  rw [intPoly, intPoly, hD, hD]
  ring

theorem sum_shift (Li2 : ℝ → ℝ) (beta mu c : ℝ) (pts : List (ℝ × ℝ)) :
    sumSegments (energySegment Li2 beta (mu + c)) (moved c pts) = sumSegments (energySegment Li2 beta mu) pts +
      c * sumSegments (segmentLinear beta mu) pts +
      c ^ 2 / 2 * sumSegments (fun p q => (q.2 - p.2) / (q.1 - p.1) * (stepAt mu p.1 - stepAt mu q.1)) pts := by
  induction pts with
  | nil => simp [moved, sumSegments]
  | cons p l ih =>
    cases l with
    | nil => simp [moved, sumSegments]
    | cons q l =>
      have h1 : moved c (p :: q :: l) = (p.1 + c, p.2) :: (q.1 + c, q.2) :: moved c l := rfl
      have h2 : moved c (q :: l) = (q.1 + c, q.2) :: moved c l := rfl
      rw [h2] at ih
      rw [h1, sumSegments, ih, segment_shift, sumSegments, sumSegments, sumSegments]
      ring

theorem step_right (mu : ℝ) (pts : List (ℝ × ℝ)) (h : ∀ p ∈ pts, mu ≤ p.1) :
    sumSegments (fun p q => (q.2 - p.2) / (q.1 - p.1) * (stepAt mu p.1 - stepAt mu q.1)) pts = 0 := by
  induction pts with
  | nil => rfl
  | cons p l ih =>
    cases l with
    | nil => rfl
    | cons q l =>
      have hp := h p (by simp)
      have hq := h q (by simp)
      rw [sumSegments, ih fun x hx => h x (List.mem_cons_of_mem _ hx), stepAt, stepAt, if_neg (by linarith), if_neg (by linarith)]
      ring

theorem step_sum (mu s : ℝ) (pts : List (ℝ × ℝ)) (hs : pts.Pairwise fun p q => p.1 < q.1) (p : ℝ × ℝ) (hp : pts.head? = some p)
    (hmu : p.1 < mu) (hmem : (mu, s) ∈ pts) :
    ∃ L m R, pts = L ++ m :: (mu, s) :: R ∧ m.1 < mu ∧
      sumSegments (fun p q => (q.2 - p.2) / (q.1 - p.1) * (stepAt mu p.1 - stepAt mu q.1)) pts = (s - m.2) / (mu - m.1) := by
  induction pts generalizing p with
  | nil => cases hp
  | cons a l ih =>
    simp only [List.head?_cons, Option.some.injEq] at hp
    subst hp
    cases l with
    | nil =>
      rw [List.mem_singleton] at hmem
      rw [← hmem] at hmu
      exact absurd hmu (lt_irrefl _)
    | cons b l =>
      have hs' := (List.pairwise_cons.1 hs).2
      have hm' : (mu, s) ∈ b :: l := by
        rcases List.mem_cons.1 hmem with h | h
        · rw [← h] at hmu; exact absurd hmu (lt_irrefl _)
        · exact h
      rcases List.mem_cons.1 hm' with h | h
      · subst h
        refine ⟨[], a, l, rfl, hmu, ?_⟩
        rw [sumSegments, step_right mu ((mu, s) :: l) (by
          intro x hx
          rcases List.mem_cons.1 hx with h | h
          · rw [h]
          · exact ((List.pairwise_cons.1 hs').1 x h).le), stepAt, stepAt, if_pos hmu, if_neg (by simp)]
        ring
      · have hbmu : b.1 < mu := (List.pairwise_cons.1 hs').1 _ h
        obtain ⟨L, m, R, h1, h2, h3⟩ := ih hs' b rfl hbmu hm'
        refine ⟨a :: L, m, R, by rw [h1]; rfl, h2, ?_⟩
        rw [sumSegments, h3, stepAt, stepAt, if_pos hmu, if_pos hbmu]
        ring

/-- C110 (failure).  If all energies and the chemical potential are moved by `c` the energy of the electrons has to change by `c` times
their number.  The computed energy contains a term quadratic in `c`: the error grows with the distance of `mu` from the
origin, with the difference of the interpolated density just below `mu` (with the last sample `m` before `mu`) and the density at `mu`
as factor. -/
theorem C110_origin (Li2 : ℝ → ℝ) (d : DoS) (mu T : ℝ) (N : ℕ) (spin : ℝ) (hT : 0 < T) (hN : 3 ≤ N) (e0 e1 : ℝ)
    (hr : energyRange d = .ok (e0, e1)) (h0 : e0 < mu) (h1 : mu < e1) :
    ∃ m M E : ℝ, max (mu - 30 * kB * T) e0 ≤ m ∧ m < mu ∧ ∀ c, energy Li2 (Spec.shift c d) (mu + c) T N spin =
      .ok (some (E + spin * (c * M + c ^ 2 / 2 * ((statesBelow d mu - statesBelow d m) / (mu - m) - density d mu)))) := by
  have hk := kB_pos
  have hb : 0 < 1 / (kB * T) := by positivity
  have h30 : 30 / (1 / (kB * T)) = 30 * kB * T := by field_simp
  obtain ⟨s1, s2, s3, s4, s5⟩ := samples_spec e0 e1 mu (1 / (kB * T)) N hb h0 h1
  obtain ⟨l0, l1⟩ := samples_limits e0 e1 mu (1 / (kB * T)) hb h0 h1
  rw [h30] at s2 s4 l0 l1 s5
  have hhead := s2 (by omega)
  have hlast := s4 hN
  set en := samples e0 e1 mu (1 / (kB * T)) N with hen
  set a := max (mu - 30 * kB * T) e0 with ha
  set b := min (mu + 30 * kB * T) e1 with hbb
  have hgs : (stateCurve d en).Pairwise fun p q => p.1 < q.1 := by
    rw [stateCurve, List.pairwise_map]; exact s1
  have hgh : (stateCurve d en).head? = some (a, statesBelow d a) := by
    rw [stateCurve, List.head?_map, hhead]; rfl
  have hgm : (mu, statesBelow d mu) ∈ stateCurve d en := List.mem_map.2 ⟨mu, s3 (by omega), rfl⟩
  obtain ⟨L, m, R, k1, k2, k3⟩ := step_sum mu (statesBelow d mu) _ hgs _ hgh l0 hgm
  have hmem : m ∈ stateCurve d en := by rw [k1]; simp
  obtain ⟨t, ht, hmt⟩ := List.mem_map.1 hmem
  have hm1 : m.1 = t := by rw [← hmt]
  have hm2 : m.2 = statesBelow d t := by rw [← hmt]
  rw [hm1, hm2] at k3
  rw [hm1] at k2
  refine ⟨t, (d.map fun b => lastStates b mu N).sum + (sumSegments (segmentLinear (1 / (kB * T)) mu) (stateCurve d en) +
    segmentLinear (1 / (kB * T)) mu (b, d.length) (b + 8 / (1 / (kB * T)), d.length)) - density d mu * mu,
    ((d.map fun b => b.energy0 mu N).sum + (sumSegments (energySegment Li2 (1 / (kB * T)) mu) (stateCurve d en) +
      energySegment Li2 (1 / (kB * T)) mu (b, d.length) (b + 8 / (1 / (kB * T)), d.length)) - density d mu * (mu * mu) / 2) * spin,
    (s5 t ht).1, k2, fun c => ?_⟩
  rw [energy, shift_range c d e0 e1 hr]
  simp only [if_neg (not_le.2 hT), shift_samples, ← hen, List.getLast?_map, hlast, Option.map_some]
  rw [if_pos (proper_of_lt (by rw [shift_samples, List.pairwise_map]; exact s1.imp fun h => by linarith))]
  have hcurve : stateCurve (Spec.shift c d) (en.map (· + c)) = moved c (stateCurve d en) := by
    rw [stateCurve, stateCurve, moved, List.map_map, List.map_map]
    refine List.map_congr_left fun e _ => ?_
    simp only [Function.comp_apply, shift_states]
  have hlen : (Spec.shift c d).length = d.length := by rw [Spec.shift, List.length_map]
  have hE : ((Spec.shift c d).map fun b => b.energy0 (mu + c) N).sum = (d.map fun b => b.energy0 mu N).sum + c * (d.map fun b => lastStates b mu N).sum := by
    rw [Spec.shift, List.map_map, ← List.sum_map_mul_left, ← List.sum_map_add]
    congr 1
    exact List.map_congr_left fun b _ => shift_energy0 c b mu N
  have htail := segment_shift Li2 (1 / (kB * T)) mu c (b, (d.length : ℝ)) (b + 8 / (1 / (kB * T)), (d.length : ℝ))
  simp only at htail
  rw [hcurve, hlen, hE, sum_shift, k3, shift_density, show b + c + 8 / (1 / (kB * T)) = b + 8 / (1 / (kB * T)) + c by ring, htail]
  congr 2
  ring

/-- C110 (failure).  At the ends of the energy range the energy at positive temperatures is not a finite number. -/
theorem C110_edges (Li2 : ℝ → ℝ) (d : DoS) (mu T : ℝ) (N : ℕ) (spin : ℝ) (hT : 0 < T) (hN : 3 ≤ N) (e0 e1 : ℝ)
    (hr : energyRange d = .ok (e0, e1)) (h : mu = e0 ∨ mu = e1) : energy Li2 d mu T N spin = .ok none := by
  have hk := kB_pos
  have hb : 0 < 1 / (kB * T) := by positivity
  have himp : ¬ Proper (samples e0 e1 mu (1 / (kB * T)) N) := by
    rcases h with h | h
    · rw [h]; exact samples_lower_improper _ _ _ _ hb hN
    · rw [h]; exact samples_upper_improper _ _ _ _ hb hN
  have hne : samples e0 e1 mu (1 / (kB * T)) N ≠ [] := by
    rw [← List.length_pos_iff, samples_length]; omega
  rw [energy, hr]
  simp only [if_neg (not_le.2 hT), List.getLast?_eq_some_getLast hne, if_neg himp]

/-! ## Example: a band from 0 to 1 with `e²` states below `e` -/

noncomputable def exSquare : DoS := [⟨0, 1, fun e => e ^ 2, fun e => 2 * e⟩]

theorem exSquare_range : energyRange exSquare = .ok (0, 1) := by simp [energyRange, exSquare]

theorem exSquare_states (e : ℝ) (h0 : 0 ≤ e) (h1 : e < 1) : statesBelow exSquare e = e ^ 2 := by
  rcases h0.lt_or_eq with h | h
  · simp [statesBelow, exSquare, Band.statesBelow, h, h1]
  · simp [statesBelow, exSquare, Band.statesBelow, ← h]

example (Li2 : ℝ → ℝ) (hL : Spec.IsLi2 Li2) : ∃ E, energy Li2 exSquare (1 / 2) 300 32 2 = .ok (some (2 * E)) := by
  obtain ⟨-, -, -, -, -, E, -, -, -, -, -, -, h, -⟩ := C110_energy Li2 hL exSquare (1 / 2) 300 32 2 (by norm_num) (by norm_num) 0 1 exSquare_range
    (by norm_num) (by norm_num)
  exact ⟨E, h⟩

/-- The quadratic term does not vanish. -/
example (Li2 : ℝ → ℝ) : ∃ M E Q : ℝ, Q < 0 ∧ ∀ c, energy Li2 (Spec.shift c exSquare) (1 / 2 + c) 300 32 2 =
    .ok (some (E + 2 * (c * M + c ^ 2 / 2 * Q))) := by
  obtain ⟨m, M, E, h1, h2, h3⟩ := C110_origin Li2 exSquare (1 / 2) 300 32 2 (by norm_num) (by norm_num) 0 1 exSquare_range
    (by norm_num) (by norm_num)
  refine ⟨M, E, _, ?_, h3⟩
  have hm : 0 ≤ m := (le_max_right _ _).trans h1
  have hd : density exSquare (1 / 2) = 1 := by norm_num [density, exSquare, Band.density]
  rw [exSquare_states _ (by norm_num) (by norm_num), exSquare_states m hm (by linarith), hd, sub_neg, div_lt_one (by linarith)]
  nlinarith

example (Li2 : ℝ → ℝ) : energy Li2 exSquare 1 300 32 2 = .ok none :=
  C110_edges Li2 exSquare 1 300 32 2 (by norm_num) (by norm_num) 0 1 exSquare_range (Or.inr rfl)

/-- C110.  Failures of `energy`: `IndexError` without bands at every temperature, and `IndexError` without samples at a positive temperature; at zero
temperature, and at positive temperatures with samples, nothing is raised. -/
theorem C110_errors (Li2 : ℝ → ℝ) (d : DoS) (mu T : ℝ) (N : ℕ) (spin : ℝ) :
    (d = [] → energy Li2 d mu T N spin = .error .indexError) ∧ (0 < T → N = 0 → energy Li2 d mu T N spin = .error .indexError) ∧
    (d ≠ [] → (T ≤ 0 ∨ N ≠ 0) → ∃ v, energy Li2 d mu T N spin = .ok v) := by
  refine ⟨?_, ?_, ?_⟩
  · rintro rfl
    simp [energy, energyRange]
  · rintro hT rfl
    unfold energy
    cases hr : energyRange d with
    | error e =>
      unfold energyRange at hr
      split at hr
      · cases hr
      · cases hr; rfl
    | ok r => simp [not_le.2 hT, samples, linspaceOpen, linspace]
  · intro hd h
    obtain ⟨b, l, rfl⟩ := List.exists_cons_of_ne_nil hd
    have hr : ∃ r, energyRange (b :: l) = .ok r := ⟨(b.lo, ((b :: l).getLast (by simp)).hi), by simp [energyRange, List.getLast?_eq_some_getLast]⟩
    obtain ⟨r, hr⟩ := hr
    unfold energy
    rw [hr]
    simp only
    by_cases hT : T ≤ 0
    · rw [if_pos hT]; exact ⟨_, rfl⟩
    · rw [if_neg hT]
      have hN : N ≠ 0 := h.resolve_left hT
      cases hl : (samples r.1 r.2 mu (1 / (kB * T)) N).getLast? with
      | none =>
        rw [List.getLast?_eq_none_iff] at hl
        have := congrArg List.length hl
        simp [samples, linspaceOpen, linspace] at this
        omega
      | some last => exact ⟨_, rfl⟩

/-- C110_errors: one band. -/
example (Li2 : ℝ → ℝ) : energy Li2 [⟨0, 1, fun e => e, fun _ => 1⟩] (1 / 2) 300 0 2 = .error .indexError ∧
    ∃ v, energy Li2 [⟨0, 1, fun e => e, fun _ => 1⟩] (1 / 2) 300 1 2 = .ok v :=
  ⟨(C110_errors Li2 _ _ _ _ _).2.1 (by norm_num) rfl, (C110_errors Li2 _ _ _ _ _).2.2 (by simp) (.inr one_ne_zero)⟩

end TB.Dos

import Verif.Lemmas.DosChemical
import Verif.Props.DosSecant
import Verif.Props.DosFermi

/-!
# C107: `DensityOfStates.chemical_potential`
-/

namespace TB.Dos

open MeasureTheory

/-- The temperature from which on `chemical_potential` uses equally spaced energies. -/
noncomputable def Spec.linTemperature (e0 e1 ef : ℝ) : ℝ := max |e0 - ef| |e1 - ef| / (8 * kB)

theorem tLin_eq (c : ChemArgs) : c.tLin = Spec.linTemperature c.e0 c.e1 c.fermi := by
  rw [ChemArgs.tLin, Spec.linTemperature]
  have := kB_pos
  field_simp
  ring

/-- `pts` are `N` points of the states curve with increasing energies from `a` to `b`, one of them at `mu`. -/
structure Spec.CurvePoints (d : DoS) (N : ℕ) (a mu b : ℝ) (pts : List (ℝ × ℝ)) : Prop where
  length : pts.length = N
  increasing : pts.Pairwise fun p q => p.1 < q.1
  states : ∀ p ∈ pts, p.2 = statesBelow d p.1
  first : (pts.map Prod.fst).head? = some a
  last : (pts.map Prod.fst).getLast? = some b
  middle : mu ∈ pts.map Prod.fst

/-- The number of electrons at the chemical potential `x`, if the states curve is zero before and after the samples up to `e1`, and `n`
above `e1`. -/
noncomputable def Spec.windowCount (beta : ℝ) (pts : List (ℝ × ℝ)) (a b e1 n x : ℝ) : ℝ :=
  (∫ e in a..b, Spec.pl pts e * Spec.weight beta (e - x)) + ∫ e in Set.Ioi e1, n * Spec.weight beta (e - x)

/-- C107.  `_samples(e0, e1, mu, beta, N)` for `e0 < mu < e1` are `N` increasing energies that contain `mu`, start at `e0` and end at `e1`
(or at the distance `30 / beta` from `mu`, if that is closer).  The occupation `1 / (1 + exp(beta (e - mu)))` changes by the same amount
between the samples up to `mu` and by the same amount between the samples from `mu` on. -/
theorem C107_samples (e0 e1 mu beta : ℝ) (N : ℕ) (hb : 0 < beta) (h0 : e0 < mu) (h1 : mu < e1) (hN : 3 ≤ N) :
    let l := samples e0 e1 mu beta N
    l.length = N ∧ l.Pairwise (· < ·) ∧ l.head? = some (max (mu - 30 / beta) e0) ∧ l.getLast? = some (min (mu + 30 / beta) e1) ∧
      l.getD (N / 2) 0 = mu ∧
      (∀ i < N / 2, fermi beta (l.getD i 0 - mu) - fermi beta (l.getD (i + 1) 0 - mu) =
        (fermi beta (max (mu - 30 / beta) e0 - mu) - 1 / 2) / (N / 2 : ℕ)) ∧
      (∀ i, N / 2 ≤ i → i + 1 < N → fermi beta (l.getD i 0 - mu) - fermi beta (l.getD (i + 1) 0 - mu) =
        (1 / 2 - fermi beta (min (mu + 30 / beta) e1 - mu)) / (((N + 1) / 2 : ℕ) - 1)) := by
  intro l
  obtain ⟨s1, s2, s3, s4, s5⟩ := samples_spec e0 e1 mu beta N hb h0 h1
  have hlen : l.length = N := samples_length e0 e1 mu beta N
  obtain ⟨l0, l1⟩ := samples_limits e0 e1 mu beta hb h0 h1
  set a := max (mu - 30 / beta) e0 with ha
  set c := min (mu + 30 / beta) e1 with hc
  have ma := fermi_mem beta (a - mu)
  have mc := fermi_mem beta (c - mu)
  have hfa : 1 / 2 < fermi beta (a - mu) := by
    rw [← fermi_zero beta]; exact fermi_anti beta hb (by linarith)
  have hfc : fermi beta (c - mu) < 1 / 2 := by
    rw [← fermi_zero beta]; exact fermi_anti beta hb (by linarith)
  -- the occupation of an energy computed from `p` is `p`
  have hocc : ∀ p : ℝ, 0 < p → p < 1 → fermi beta (-logit p / beta + mu - mu) = p := by
    intro p h1 h2
    rw [add_sub_cancel_right, fermi, mul_div_cancel₀ _ hb.ne', logit, Real.exp_neg, Real.exp_log (div_pos h1 (by linarith))]
    have : 1 - p ≠ 0 := by linarith
    field_simp
    ring
  have hget : ∀ i < N, l.getD i 0 = -logit (if i < N / 2 then fermi beta (a - mu) + (i : ℝ) * ((1 / 2 - fermi beta (a - mu)) / (N / 2 : ℕ))
      else 1 / 2 + ((i - N / 2 : ℕ) : ℝ) * ((fermi beta (c - mu) - 1 / 2) / (((N + 1) / 2 : ℕ) - 1))) / beta + mu := by
    intro i hi
    have hi' : i < l.length := by rw [hlen]; exact hi
    rw [List.getD_eq_getElem _ _ hi']
    simp only [l, samples, List.getElem_map]
    by_cases h : i < N / 2
    · rw [if_pos h, List.getElem_append_left (by simpa [linspaceOpen] using h)]
      simp [linspaceOpen, ← ha]
    · rw [if_neg h, List.getElem_append_right (by simp only [linspaceOpen, List.length_map, List.length_range]; omega)]
      simp [linspace, linspaceOpen, ← hc]
  have hpos : (0 : ℝ) < (N / 2 : ℕ) := by exact_mod_cast (show 0 < N / 2 by omega)
  have hpos2 : (0 : ℝ) < ((N + 1) / 2 : ℕ) - 1 := by
    have : (2 : ℝ) ≤ ((N + 1) / 2 : ℕ) := by exact_mod_cast (show 2 ≤ (N + 1) / 2 by omega)
    linarith
  have hf1 : ∀ i ≤ N / 2, fermi beta (l.getD i 0 - mu) = fermi beta (a - mu) + (i : ℝ) * ((1 / 2 - fermi beta (a - mu)) / (N / 2 : ℕ)) := by
    intro i hi
    rw [hget i (by omega)]
    by_cases h : i < N / 2
    · rw [if_pos h]
      have hm : fermi beta (a - mu) + (i : ℝ) * ((1 / 2 - fermi beta (a - mu)) / (N / 2 : ℕ)) ∈ linspaceOpen (fermi beta (a - mu)) (1 / 2) (N / 2) :=
        List.mem_map.2 ⟨i, List.mem_range.2 h, rfl⟩
      obtain ⟨k1, k2, -⟩ := mem_linspaceOpen hm hfa.le
      exact hocc _ (by linarith) (by linarith)
    · have : i = N / 2 := by omega
      subst this
      rw [if_neg h, Nat.sub_self, Nat.cast_zero, zero_mul, add_zero, hocc _ (by norm_num) (by norm_num)]
      field_simp
      ring
  have hf2 : ∀ i, N / 2 ≤ i → i < N → fermi beta (l.getD i 0 - mu) =
      1 / 2 + ((i - N / 2 : ℕ) : ℝ) * ((fermi beta (c - mu) - 1 / 2) / (((N + 1) / 2 : ℕ) - 1)) := by
    intro i hi hi2
    rw [hget i hi2, if_neg (by omega)]
    have hm : 1 / 2 + ((i - N / 2 : ℕ) : ℝ) * ((fermi beta (c - mu) - 1 / 2) / (((N + 1) / 2 : ℕ) - 1)) ∈
        linspace (1 / 2) (fermi beta (c - mu)) ((N + 1) / 2) :=
      List.mem_map.2 ⟨i - N / 2, List.mem_range.2 (by omega), rfl⟩
    obtain ⟨k1, k2⟩ := mem_linspace' hm hfc.le
    exact hocc _ (by linarith) (by linarith)
  refine ⟨hlen, s1, s2 (by omega), s4 hN, ?_, fun i hi => ?_, fun i hi hi2 => ?_⟩
  · rw [hget _ (by omega), if_neg (by omega), Nat.sub_self, Nat.cast_zero, zero_mul, add_zero, logit_half]
    simp
  · rw [hf1 i (by omega), hf1 (i + 1) (by omega)]
    push_cast
    field_simp
    ring
  · rw [hf2 i hi (by omega), hf2 (i + 1) (by omega) hi2, show i + 1 - N / 2 = (i - N / 2) + 1 by omega]
    push_cast
    field_simp
    ring

theorem curve_points (d : DoS) (e0 e1 mu beta : ℝ) (N : ℕ) (hb : 0 < beta) (h0 : e0 < mu) (h1 : mu < e1) (hN : 3 ≤ N) :
    Spec.CurvePoints d N (max (mu - 30 / beta) e0) mu (min (mu + 30 / beta) e1) (stateCurve d (samples e0 e1 mu beta N)) := by
  obtain ⟨s1, s2, s3, s4, s5⟩ := samples_spec e0 e1 mu beta N hb h0 h1
  refine ⟨?_, stateCurve_lt _ _ s1, fun p hp => ?_, ?_, ?_, ?_⟩
  · rw [stateCurve, List.length_map, samples_length]
  · obtain ⟨e, -, rfl⟩ := List.mem_map.1 hp
    rfl
  · rw [stateCurve_energies]; exact s2 (by omega)
  · rw [stateCurve_energies]; exact s4 hN
  · rw [stateCurve_energies]; exact s3 (by omega)

theorem convValue_point (beta x : ℝ) (hb : 0 < beta) (pts : List (ℝ × ℝ)) (hs : pts.Pairwise fun p q => p.1 < q.1) (a b e n : ℝ)
    (ha : (pts.map Prod.fst).head? = some a) (hb' : (pts.map Prod.fst).getLast? = some b) :
    convValue beta x pts (.point e n) = Spec.windowCount beta pts a b e n x := by
  rw [List.head?_map, Option.map_eq_some_iff] at ha
  rw [List.getLast?_map, Option.map_eq_some_iff] at hb'
  obtain ⟨p, hp, rfl⟩ := ha
  obtain ⟨q, hq, rfl⟩ := hb'
  rw [convValue, C63_point beta x hb _ pts (pl_spec pts hs).1 p q hp hq, Spec.windowCount]

theorem window_beta (T : ℝ) (hT : 0 < T) : 0 < 1 / 4 / (kB * T) ∧ 30 / (1 / 4 / (kB * T)) = 120 * kB * T := by
  have := kB_pos
  exact ⟨by positivity, by field_simp; ring⟩

/-- C107.  Errors of `fermi_energy` are passed on; no temperatures raise `ValueError`. -/
theorem C107_errors (d : DoS) (electrons : ℝ) (Ts : List ℝ) (N : ℕ) (tol : ℝ) (maxsteps : ℕ) :
    (∀ e, fermiEnergy d electrons tol maxsteps = .error e → chemicalPotential d electrons Ts N tol maxsteps = .error e) ∧
    (∀ ef, fermiEnergy d electrons tol maxsteps = .ok ef → chemicalPotential d electrons [] N tol maxsteps = .error .valueError) := by
  constructor
  · intro e h
    rw [chemicalPotential, h]
  · intro ef h
    have hd : d ≠ [] := by
      rintro rfl
      rw [fermiEnergy] at h
      by_cases h1 : 0 ≤ electrons ∧ electrons ≤ (List.length ([] : DoS) : ℕ)
      · have h2 : electrons = 0 := by
          have := h1.2
          simp only [List.length_nil, Nat.cast_zero] at this
          linarith [h1.1]
        subst h2
        rw [if_neg (not_not.2 h1)] at h
        have h3 : pyRound (0 : ℝ) = 0 := by simpa using pyRound_nat 0
        simp [h3] at h
      · rw [if_pos h1] at h
        cases h
    obtain ⟨b, l, rfl⟩ := List.exists_cons_of_ne_nil hd
    rw [chemicalPotential, h]
    simp [energyRange, List.getLast?_cons]

/-- C107.  For sorted temperatures (as the documentation asks for) nothing is raised and there is one result per temperature: the Fermi
energy for temperatures up to zero; for high temperatures the result of `secant` for the thermal average of the states curve through `N`
equally spaced points; for the other ones the result of `secant` for the thermal count with `N` points of the states curve at most
`120 k_B T'` away from the Fermi energy, where `T'` is the last temperature that differed from the one before by more than 5 percent. -/
theorem C107_sorted (d : DoS) (electrons : ℝ) (Ts : List ℝ) (N : ℕ) (tol : ℝ) (maxsteps : ℕ) (ef e0 e1 : ℝ)
    (hf : fermiEnergy d electrons tol maxsteps = .ok ef) (hr : energyRange d = .ok (e0, e1)) (h0 : e0 < ef) (h1 : ef < e1)
    (hN : 3 ≤ N) (hs : Ts.Pairwise (· ≤ ·)) (hne : Ts ≠ []) :
    ∃ rs, chemicalPotential d electrons Ts N tol maxsteps = .ok rs ∧ rs.length = Ts.length ∧ ∀ i < Ts.length,
      let T := Ts.getD i 0
      (T ≤ 0 → rs.getD i none = some ef) ∧
      (0 < T → Spec.linTemperature e0 e1 ef ≤ T → rs.getD i none =
        (secant electrons (Spec.smear (1 / (kB * T)) (Spec.pl ((linspace e0 e1 N).map fun e => (e, statesBelow d e)))) ef (ef + 1 / 10)
          tol maxsteps).toOption) ∧
      (0 < T → T < Spec.linTemperature e0 e1 ef → ∃ j pts, Spec.Ref Ts i j ∧
        Spec.CurvePoints d N (max (ef - 120 * kB * Ts.getD j 0) e0) ef (min (ef + 120 * kB * Ts.getD j 0) e1) pts ∧
        rs.getD i none = (secant electrons (Spec.windowCount (1 / (kB * T)) pts (max (ef - 120 * kB * Ts.getD j 0) e0)
          (min (ef + 120 * kB * Ts.getD j 0) e1) e1 d.length) ef (ef + kB * T) tol maxsteps).toOption) := by
  have hk := kB_pos
  obtain ⟨s, hl, I⟩ := ChemArgs.loop_spec ⟨d, electrons, N, tol, maxsteps, ef, e0, e1⟩ (by simp only; omega) Ts hs
  refine ⟨s.res, ?_, I.length, fun i hi => ?_⟩
  · rw [chemicalPotential, hf]
    simp only [hr, if_neg hne, hl]
  · have R := I.res i hi
    have ht := tLin_eq ⟨d, electrons, N, tol, maxsteps, ef, e0, e1⟩
    simp only at ht
    intro T
    refine ⟨R.zero, fun hT hL => ?_, fun hT hL => ?_⟩
    · have hb : 0 < 1 / (kB * T) := by positivity
      have := R.high hT (by rw [ht]; exact hL)
      have hsort : (linspace e0 e1 N).Pairwise (· < ·) := pairwise_linspace_up N (by linarith)
      have hlc : ChemArgs.linCurve ⟨d, electrons, N, tol, maxsteps, ef, e0, e1⟩ = stateCurve d (linspace e0 e1 N) := rfl
      have hne' : stateCurve d (linspace e0 e1 N) ≠ [] := by
        rw [← hlc]; exact ChemArgs.linCurve_ne _ (by simp only; omega)
      simp only [hlc] at this
      rw [solve_eq _ _ _ _ _ _ _ _ hne' (by rw [stateCurve_energies]; exact proper_of_lt hsort)] at this
      rw [← Except.ok.inj this]
      have hfun : (fun x => convValue (1 / (kB * T)) x (stateCurve d (linspace e0 e1 N)) .flat) =
          Spec.smear (1 / (kB * T)) (Spec.pl (stateCurve d (linspace e0 e1 N))) :=
        funext fun x => convValue_flat _ x hb _ hne' (stateCurve_lt _ _ hsort)
      rw [hfun]
      rfl
    · have hb : 0 < 1 / (kB * T) := by positivity
      obtain ⟨j, hj, hsol⟩ := R.low hT (by rw [ht]; exact hL)
      obtain ⟨w1, w2⟩ := window_beta (Ts.getD j 0) hj.pos
      have hcp := curve_points d e0 e1 ef (1 / 4 / (kB * Ts.getD j 0)) N w1 h0 h1 hN
      rw [w2] at hcp
      refine ⟨j, _, hj, hcp, ?_⟩
      have hc : ChemArgs.curve ⟨d, electrons, N, tol, maxsteps, ef, e0, e1⟩ (Ts.getD j 0) =
          stateCurve d (samples e0 e1 ef (1 / 4 / (kB * Ts.getD j 0)) N) := rfl
      have hne' : stateCurve d (samples e0 e1 ef (1 / 4 / (kB * Ts.getD j 0)) N) ≠ [] := by
        rw [← hc]; exact ChemArgs.curve_ne _ _ (by simp only; omega)
      rw [hc, solve_eq _ _ _ _ _ _ _ _ hne'
        (by rw [stateCurve_energies]; exact proper_of_lt (samples_spec e0 e1 ef _ N w1 h0 h1).1)] at hsol
      rw [← Except.ok.inj hsol, one_div_one_div]
      have hfun : (fun x => convValue (1 / (kB * Ts.getD i 0)) x (stateCurve d (samples e0 e1 ef (1 / 4 / (kB * Ts.getD j 0)) N))
          (.point e1 d.length)) = Spec.windowCount (1 / (kB * T)) (stateCurve d (samples e0 e1 ef (1 / 4 / (kB * Ts.getD j 0)) N))
            (max (ef - 120 * kB * Ts.getD j 0) e0) (min (ef + 120 * kB * Ts.getD j 0) e1) e1 d.length :=
        funext fun x => convValue_point _ x hb _ hcp.increasing _ _ _ _ hcp.first hcp.last
      rw [hfun]

/-- `x` was accepted by the root search for `f x = y`: the error is below the tolerance, or `x` is the point after the last step. -/
def Spec.Accepted (f : ℝ → ℝ) (y a b tol : ℝ) (maxI : ℕ) (x : ℝ) : Prop :=
  f x = y ∨ |f x - y| < tol ∨ x = Spec.chord f y (Spec.secantPair f y a b maxI).1 (Spec.secantPair f y a b maxI).2

theorem secant_accepted (f : ℝ → ℝ) (hf : Function.Injective f) (y a b tol : ℝ) (maxI : ℕ) (hab : a ≠ b) :
    ∃ x, (secant y f a b tol maxI).toOption = some x ∧ Spec.Accepted f y a b tol maxI x := by
  obtain ⟨k, hk, x, h1, h2, h3, -⟩ := C65_secant f hf y a b tol maxI hab
  refine ⟨x, by rw [h1]; rfl, ?_⟩
  rcases hk.lt_or_eq with h | h
  · rcases h3 h with h | h
    · exact Or.inl h
    · exact Or.inr (Or.inl h)
  · subst h
    exact Or.inr (Or.inr h2)

/-- The ends of the states curve of ordered bands. -/
theorem states_ends (d : DoS) (hd : ∀ b ∈ d, Spec.Dist b) (ho : Spec.Ordered d) (hb : ∀ b ∈ d, b.lo < b.hi) (e0 e1 : ℝ)
    (hr : energyRange d = .ok (e0, e1)) : statesBelow d e0 = 0 ∧ statesBelow d e1 = d.length ∧ e0 < e1 ∧ (0 : ℝ) < d.length := by
  have hne : d ≠ [] := by rintro rfl; cases hr
  obtain ⟨a, b, k1, k2, k3, k4⟩ := (C61_energy_range d ho).2 hne
  rw [k1] at hr
  obtain ⟨rfl, rfl⟩ := Prod.mk.inj (Except.ok.inj hr)
  obtain ⟨c1, c2, c3, c4⟩ := C47_count d hd
  obtain ⟨x, hx, h⟩ := k3
  refine ⟨c3 a fun b hb' => ⟨(k2 b hb').1, (k2 b hb').1.trans_lt (hb b hb')⟩, c4 b fun x hx => (k2 x hx).2, ?_, ?_⟩
  · rw [← h]; exact (hb x hx).trans_le (k2 x hx).2
  · exact_mod_cast List.length_pos_iff.2 hne

/-- C107.  For high temperatures the result is a number at which the thermal average of the interpolated states curve is the number of
electrons up to the tolerance, or the point after the last step of the search. -/
theorem C107_high (d : DoS) (hd : ∀ b ∈ d, Spec.Dist b) (ho : Spec.Ordered d) (hb : ∀ b ∈ d, b.lo < b.hi) (electrons : ℝ) (Ts : List ℝ)
    (N : ℕ) (tol : ℝ) (maxsteps : ℕ) (ef e0 e1 : ℝ)
    (hf : fermiEnergy d electrons tol maxsteps = .ok ef) (hr : energyRange d = .ok (e0, e1)) (h0 : e0 < ef) (h1 : ef < e1)
    (hN : 3 ≤ N) (hs : Ts.Pairwise (· ≤ ·)) (hne : Ts ≠ []) :
    ∃ rs, chemicalPotential d electrons Ts N tol maxsteps = .ok rs ∧ ∀ i < Ts.length,
      0 < Ts.getD i 0 → Spec.linTemperature e0 e1 ef ≤ Ts.getD i 0 → ∃ x, rs.getD i none = some x ∧
        Spec.Accepted (Spec.smear (1 / (kB * Ts.getD i 0)) (Spec.pl ((linspace e0 e1 N).map fun e => (e, statesBelow d e)))) electrons
          ef (ef + 1 / 10) tol maxsteps x := by
  obtain ⟨rs, k1, k2, k3⟩ := C107_sorted d electrons Ts N tol maxsteps ef e0 e1 hf hr h0 h1 hN hs hne
  obtain ⟨n1, n2, n3, n4⟩ := states_ends d hd ho hb e0 e1 hr
  refine ⟨rs, k1, fun i hi hT hL => ?_⟩
  rw [(k3 i hi).2.1 hT hL]
  have hk := kB_pos
  have hsort : (linspace e0 e1 N).Pairwise (· < ·) := pairwise_linspace_up N (by linarith)
  have hmono := smear_strictMono (1 / (kB * Ts.getD i 0)) (by positivity) _ (stateCurve_pairwise d hd _ hsort)
    (e0, statesBelow d e0) (e1, statesBelow d e1)
    (by rw [stateCurve, List.head?_map, linspace_head (by omega)]; rfl)
    (by rw [stateCurve, List.getLast?_map, linspace_last (by omega)]; rfl)
    (by simp only; rw [n1, n2]; exact n4)
  exact secant_accepted _ hmono.injective _ _ _ _ _ (by linarith)

/-- C107.  For the other temperatures the same holds if the sample points reach over all bands. -/
theorem C107_low (d : DoS) (hd : ∀ b ∈ d, Spec.Dist b) (ho : Spec.Ordered d) (hb : ∀ b ∈ d, b.lo < b.hi) (electrons : ℝ) (Ts : List ℝ)
    (N : ℕ) (tol : ℝ) (maxsteps : ℕ) (ef e0 e1 : ℝ)
    (hf : fermiEnergy d electrons tol maxsteps = .ok ef) (hr : energyRange d = .ok (e0, e1)) (h0 : e0 < ef) (h1 : ef < e1)
    (hN : 3 ≤ N) (hs : Ts.Pairwise (· ≤ ·)) (hne : Ts ≠ []) :
    ∃ rs, chemicalPotential d electrons Ts N tol maxsteps = .ok rs ∧ ∀ i < Ts.length,
      0 < Ts.getD i 0 → Ts.getD i 0 < Spec.linTemperature e0 e1 ef →
      (∀ j, Spec.Ref Ts i j → ef - 120 * kB * Ts.getD j 0 ≤ e0 ∧ e1 ≤ ef + 120 * kB * Ts.getD j 0) →
      ∃ pts x, Spec.CurvePoints d N e0 ef e1 pts ∧ rs.getD i none = some x ∧
        Spec.Accepted (Spec.smear (1 / (kB * Ts.getD i 0)) (Spec.pl pts)) electrons ef (ef + kB * Ts.getD i 0) tol maxsteps x := by
  obtain ⟨rs, k1, k2, k3⟩ := C107_sorted d electrons Ts N tol maxsteps ef e0 e1 hf hr h0 h1 hN hs hne
  obtain ⟨n1, n2, n3, n4⟩ := states_ends d hd ho hb e0 e1 hr
  have hk := kB_pos
  refine ⟨rs, k1, fun i hi hT hL hcov => ?_⟩
  obtain ⟨j, pts, hj, hp, hres⟩ := (k3 i hi).2.2 hT hL
  obtain ⟨c1, c2⟩ := hcov j hj
  rw [max_eq_right c1, min_eq_right c2] at hp hres
  have hbeta : 0 < 1 / (kB * Ts.getD i 0) := by positivity
  obtain ⟨p, hp1, hp2⟩ : ∃ p, pts.head? = some p ∧ p.1 = e0 := by
    have := hp.first
    rw [List.head?_map, Option.map_eq_some_iff] at this
    exact this
  obtain ⟨q, hq1, hq2⟩ : ∃ p, pts.getLast? = some p ∧ p.1 = e1 := by
    have := hp.last
    rw [List.getLast?_map, Option.map_eq_some_iff] at this
    exact this
  have hpn : p.2 = 0 := by rw [hp.states p (List.mem_of_mem_head? hp1), hp2, n1]
  have hqn : q.2 = d.length := by rw [hp.states q (List.mem_of_mem_getLast? hq1), hq2, n2]
  have hpw : pts.Pairwise fun p q => p.1 < q.1 ∧ p.2 ≤ q.2 := by
    refine List.Pairwise.imp_of_mem (fun {a b} ha hb' h => ⟨h, ?_⟩) hp.increasing
    rw [hp.states a ha, hp.states b hb']
    exact (C47_count d hd).2.1 h.le
  have hne' : pts ≠ [] := by rintro rfl; cases hp1
  have hfun : Spec.windowCount (1 / (kB * Ts.getD i 0)) pts e0 e1 e1 d.length = Spec.smear (1 / (kB * Ts.getD i 0)) (Spec.pl pts) := by
    funext x
    rw [← convValue_point _ x hbeta pts hp.increasing e0 e1 e1 d.length hp.first hp.last, ← convValue_flat _ x hbeta pts hne' hp.increasing,
      convValue, convValue, convolveDf, convolveDf, hp1, hq1]
    simp only [hpn, hqn, hq2, mul_zero, add_zero]
  rw [hfun] at hres
  have hmono := smear_strictMono (1 / (kB * Ts.getD i 0)) hbeta pts hpw p q hp1 hq1 (by rw [hpn, hqn]; exact n4)
  obtain ⟨x, hx1, hx2⟩ := secant_accepted _ hmono.injective electrons ef (ef + kB * Ts.getD i 0) tol maxsteps
    (by have : 0 < kB * Ts.getD i 0 := by positivity
        linarith)
  exact ⟨pts, x, hp, hres.trans hx1, hx2⟩

/-! ## Failures -/

/-- `samples` does not look beyond the limits. -/
theorem stateCurve_congr (d d' : DoS) (l : List ℝ) (h : ∀ e ∈ l, statesBelow d e = statesBelow d' e) : stateCurve d l = stateCurve d' l :=
  List.map_congr_left fun e he => by rw [h e he]

/-- C107 (failure).  The sample points are not renewed while consecutive temperatures differ by at most 5 percent, however far the
temperature has moved since.  For temperatures increasing in such steps all results depend only on the states at most `120 k_B T₀` away from
the Fermi energy, where `T₀` is the first (lowest) temperature: for another density of states with the same Fermi energy,
the same energy range and the same number of bands, which agrees there, all results are the same. -/
theorem C107_stale_defect (d d' : DoS) (electrons T0 : ℝ) (Ts : List ℝ) (N : ℕ) (tol : ℝ) (maxsteps : ℕ) (ef e0 e1 : ℝ)
    (hf : fermiEnergy d electrons tol maxsteps = .ok ef) (hf' : fermiEnergy d' electrons tol maxsteps = .ok ef)
    (hr : energyRange d = .ok (e0, e1)) (hr' : energyRange d' = .ok (e0, e1)) (hl : d.length = d'.length) (h0 : e0 < ef) (h1 : ef < e1)
    (hN : 3 ≤ N) (hs : (T0 :: Ts).Pairwise (· ≤ ·)) (hT0 : 0 < T0)
    (hsteps : (T0 :: Ts).IsChain fun T T' => T' ≤ 21 / 20 * T) (hlow : ∀ T ∈ T0 :: Ts, T < Spec.linTemperature e0 e1 ef)
    (hagree : ∀ e, |e - ef| ≤ 120 * kB * T0 → statesBelow d e = statesBelow d' e) :
    chemicalPotential d electrons (T0 :: Ts) N tol maxsteps = chemicalPotential d' electrons (T0 :: Ts) N tol maxsteps := by
  have hk := kB_pos
  obtain ⟨s, hl1, I⟩ := ChemArgs.loop_spec ⟨d, electrons, N, tol, maxsteps, ef, e0, e1⟩ (by simp only; omega) (T0 :: Ts) hs
  obtain ⟨s', hl1', I'⟩ := ChemArgs.loop_spec ⟨d', electrons, N, tol, maxsteps, ef, e0, e1⟩ (by simp only; omega) (T0 :: Ts) hs
  have ht := tLin_eq ⟨d, electrons, N, tol, maxsteps, ef, e0, e1⟩
  have ht' := tLin_eq ⟨d', electrons, N, tol, maxsteps, ef, e0, e1⟩
  simp only at ht ht'
  have hge : ∀ i, i < (T0 :: Ts).length → T0 ≤ (T0 :: Ts).getD i 0 := by
    intro i hi
    rw [List.getD_eq_getElem _ _ hi]
    rcases Nat.eq_zero_or_pos i with h | h
    · subst h; exact le_rfl
    · exact (List.pairwise_iff_getElem.1 hs) 0 i (by simp) hi h
  have href : ∀ i j, i < (T0 :: Ts).length → Spec.Ref (T0 :: Ts) i j → j = 0 := by
    intro i j hi hj
    by_contra hj0
    have := hj.le
    rcases hj.start with h | h | h
    · exact hj0 h
    · have := hge (j - 1) (by omega)
      linarith
    · obtain ⟨m, rfl⟩ : ∃ m, j = m + 1 := ⟨j - 1, by omega⟩
      rw [Nat.add_sub_cancel] at h
      have hm := hge m (by omega)
      have hc := (List.isChain_iff_getElem.1 hsteps) m (by omega)
      have ho := (List.pairwise_iff_getElem.1 hs) m (m + 1) (by omega) (by omega) (by omega)
      rw [List.getD_eq_getElem _ _ (by omega), List.getD_eq_getElem _ _ (by omega)] at h
      rw [List.getD_eq_getElem _ _ (by omega)] at hm
      have hpos : 0 < (T0 :: Ts)[m]'(by omega) := by linarith
      have h3 : 0 ≤ (T0 :: Ts)[m + 1]'(by omega) / (T0 :: Ts)[m]'(by omega) - 1 := by
        rw [sub_nonneg, le_div_iff₀ hpos]; linarith
      have h4 : (T0 :: Ts)[m + 1]'(by omega) / (T0 :: Ts)[m]'(by omega) ≤ 21 / 20 := by
        rw [div_le_iff₀ hpos]; exact hc
      rw [abs_of_nonneg h3] at h
      linarith
  have hcurve : ChemArgs.curve ⟨d, electrons, N, tol, maxsteps, ef, e0, e1⟩ T0 =
      ChemArgs.curve ⟨d', electrons, N, tol, maxsteps, ef, e0, e1⟩ T0 := by
    obtain ⟨w1, w2⟩ := window_beta T0 hT0
    refine stateCurve_congr _ _ _ fun e he => hagree e ?_
    obtain ⟨b1, b2⟩ := (samples_spec e0 e1 ef _ N w1 h0 h1).2.2.2.2 e he
    rw [w2] at b1 b2
    rw [abs_le]
    have := le_max_left (ef - 120 * kB * T0) e0
    have := min_le_left (ef + 120 * kB * T0) e1
    constructor <;> linarith
  have hres : s.res = s'.res := by
    refine List.ext_getElem (by rw [I.length, I'.length]) fun i hi hi' => ?_
    rw [I.length] at hi
    have hT : 0 < (T0 :: Ts).getD i 0 := hT0.trans_le (hge i hi)
    have hTL : (T0 :: Ts).getD i 0 < Spec.linTemperature e0 e1 ef := by
      rw [List.getD_eq_getElem _ _ hi]; exact hlow _ (List.getElem_mem hi)
    obtain ⟨j, r1, r2⟩ := (I.res i hi).low hT (by rw [ht]; exact hTL)
    obtain ⟨j', r1', r2'⟩ := (I'.res i hi).low hT (by rw [ht']; exact hTL)
    have := href i j hi r1
    subst this
    have := href i j' hi r1'
    subst this
    simp only [List.getD_cons_zero] at r2 r2'
    rw [hcurve, hl] at r2
    rw [r2] at r2'
    have := Except.ok.inj r2'
    rw [List.getD_eq_getElem _ _ (by rw [I.length]; exact hi), List.getD_eq_getElem _ _ hi'] at this
    exact this
  rw [chemicalPotential, chemicalPotential, hf, hf']
  simp only [hr, hr', hl1, hl1', hres]

/-- The states of bounded monotone bands can be averaged. -/
theorem states_integrable (d : DoS) (hd : ∀ b ∈ d, Spec.Dist b) (beta x : ℝ) (hb : 0 < beta) :
    Integrable fun e => statesBelow d e * Spec.weight beta (e - x) := by
  obtain ⟨c1, c2, -, -⟩ := C47_count d hd
  have hw : Integrable fun e => Spec.weight beta (e - x) := (weight_integral beta hb).1.comp_sub_right x
  have hwc : Continuous fun e => Spec.weight beta (e - x) := (weight_continuous beta).comp (continuous_id.sub continuous_const)
  refine (hw.const_mul (d.length : ℝ)).mono' ((c2.measurable.mul hwc.measurable).aestronglyMeasurable) (Filter.Eventually.of_forall fun e => ?_)
  rw [Real.norm_eq_abs, abs_of_nonneg (mul_nonneg (c1 e).1 (weight_nonneg beta _ hb.le))]
  exact mul_le_mul_of_nonneg_right (c1 e).2 (weight_nonneg beta _ hb.le)

/-- C107 (failure, continued).  If the second density of states of `C107_stale_defect` has more states in some interval and nowhere less,
its exact number of electrons at every temperature and every chemical potential is larger: the common results cannot be right for
both. -/
theorem C107_stale_wrong (d d' : DoS) (hd : ∀ b ∈ d, Spec.Dist b) (hd' : ∀ b ∈ d', Spec.Dist b)
    (hle : ∀ e, statesBelow d e ≤ statesBelow d' e) (l r : ℝ) (hlr : l < r) (hlt : ∀ e, l < e → e < r → statesBelow d e < statesBelow d' e)
    (beta : ℝ) (hb : 0 < beta) (x : ℝ) : Spec.smear beta (statesBelow d) x < Spec.smear beta (statesBelow d') x := by
  have i1 := states_integrable d hd beta x hb
  have i2 := states_integrable d' hd' beta x hb
  rw [Spec.smear, Spec.smear, ← sub_pos, ← integral_sub i2 i1]
  refine (integral_pos_iff_support_of_nonneg (fun e => ?_) (i2.sub i1)).2 ?_
  · simp only [Pi.zero_apply, Pi.sub_apply, ← sub_mul]
    exact mul_nonneg (sub_nonneg.2 (hle e)) (weight_nonneg beta _ hb.le)
  · refine lt_of_lt_of_le ?_ (measure_mono (s := Set.Ioo l r) fun e he => ?_)
    · rw [Real.volume_Ioo]; simpa using hlr
    · rw [Function.mem_support, Pi.sub_apply, ← sub_mul]
      exact mul_ne_zero (sub_pos.2 (hlt e he.1 he.2)).ne' (weight_pos beta _ hb).ne'

/-- C107 (failure).  Temperatures that are not sorted can raise: a high temperature followed by one at most 5 percent below,
for which the equally spaced energies are not used any more, raises `NameError`, as the sample points were never computed. -/
theorem C107_unsorted (d : DoS) (electrons T T' : ℝ) (N : ℕ) (tol : ℝ) (maxsteps : ℕ) (ef e0 e1 : ℝ)
    (hf : fermiEnergy d electrons tol maxsteps = .ok ef) (hr : energyRange d = .ok (e0, e1)) (hN : 1 ≤ N) (hT : 0 < T')
    (hhigh : Spec.linTemperature e0 e1 ef ≤ T) (hlow : T' < Spec.linTemperature e0 e1 ef) (hstep : 19 / 20 * T ≤ T') :
    chemicalPotential d electrons [T, T'] N tol maxsteps = .error .nameError := by
  set c : ChemArgs := ⟨d, electrons, N, tol, maxsteps, ef, e0, e1⟩ with hc
  have ht : c.tLin = Spec.linTemperature e0 e1 ef := tLin_eq c
  have hT0 : 0 < T := by linarith
  obtain ⟨x, hx⟩ := solve_ok c.electrons c.tol c.maxsteps (1 / (kB * T)) c.fermi (c.fermi + 1 / 10) c.linCurve .flat
    (c.linCurve_ne (by simp only [hc]; omega))
  have h1 : c.step ⟨-10000, none, []⟩ T = .ok ⟨1 / (kB * T), none, [x]⟩ := by
    rw [ChemArgs.step, if_neg (by linarith), if_pos (by rw [ht]; exact hhigh), hx]
    rfl
  have hsm : ¬ 5 / 100 < |1 / (kB * T) - 1 / (kB * T')| / (1 / (kB * T')) := by
    rw [beta_change T T' hT0 hT, not_lt, abs_le]
    have h2 : 19 / 20 ≤ T' / T := by rw [le_div_iff₀ hT0]; exact hstep
    have h3 : T' / T ≤ 1 := by rw [div_le_iff₀ hT0]; linarith
    constructor <;> linarith
  have h2 : c.step ⟨1 / (kB * T), none, [x]⟩ T' = .error .nameError := by
    rw [ChemArgs.step, if_neg (by linarith), if_neg (by rw [ht]; linarith)]
    simp only [if_neg hsm]
  rw [chemicalPotential, hf]
  simp only [hr, List.cons_ne_nil, if_false]
  rw [← hc, ChemArgs.loop]
  simp only [List.foldl_cons, List.foldl_nil, h1, h2]

theorem samples_upper_improper (e0 mu beta : ℝ) (N : ℕ) (hb : 0 < beta) (hN : 3 ≤ N) : ¬ Proper (samples e0 mu mu beta N) := by
  intro h
  have hlen := samples_length e0 mu mu beta N
  refine (List.isChain_iff_getElem.1 h) (N / 2) (by rw [hlen]; omega) ?_
  have : min (mu + 30 / beta) mu = mu := min_eq_right (by have : 0 < 30 / beta := by positivity
                                                          linarith)
  simp only [samples, List.getElem_map, this, sub_self, fermi_zero]
  rw [List.getElem_append_right (by simp [linspaceOpen]), List.getElem_append_right (by simp only [linspaceOpen, List.length_map, List.length_range]; omega)]
  simp [linspace]

theorem samples_lower_improper (e1 mu beta : ℝ) (N : ℕ) (hb : 0 < beta) (hN : 3 ≤ N) : ¬ Proper (samples mu e1 mu beta N) := by
  intro h
  have hlen := samples_length mu e1 mu beta N
  refine (List.isChain_iff_getElem.1 h) 0 (by rw [hlen]; omega) ?_
  have : max (mu - 30 / beta) mu = mu := max_eq_right (by have : 0 < 30 / beta := by positivity
                                                          linarith)
  simp only [samples, List.getElem_map, this, sub_self, fermi_zero]
  rw [List.getElem_append_left (by simp only [linspaceOpen, List.length_map, List.length_range]; omega)]
  rcases Nat.lt_or_ge 1 (N / 2) with h1 | h1
  · rw [List.getElem_append_left (by simp only [linspaceOpen, List.length_map, List.length_range]; omega)]
    simp [linspaceOpen]
  · rw [List.getElem_append_right (by simp only [linspaceOpen, List.length_map, List.length_range]; omega)]
    have : N / 2 = 1 := by omega
    simp [linspace, linspaceOpen, this]

/-- C107 (failure).  For empty bands (no electrons) or full bands (as many electrons as bands) no result at positive temperatures below the
limit is a finite number. -/
theorem C107_full (d : DoS) (electrons : ℝ) (Ts : List ℝ) (N : ℕ) (tol : ℝ) (maxsteps : ℕ) (e0 e1 : ℝ)
    (hr : energyRange d = .ok (e0, e1)) (hd : d ≠ []) (he : electrons = 0 ∨ electrons = d.length) (hN : 3 ≤ N)
    (hs : Ts.Pairwise (· ≤ ·)) (hne : Ts ≠ []) :
    ∃ rs, chemicalPotential d electrons Ts N tol maxsteps = .ok rs ∧ rs.length = Ts.length ∧ ∀ i < Ts.length,
      0 < Ts.getD i 0 → Ts.getD i 0 < (e1 - e0) / (8 * kB) → rs.getD i none = none := by
  have hlen : 0 < d.length := List.length_pos_iff.2 hd
  obtain ⟨c1, c2, -⟩ := C48_ends d tol maxsteps hlen
  have hr2 : e0 = d[0].lo ∧ e1 = (d[d.length - 1]'(by omega)).hi := by
    rw [energyRange, List.head?_eq_getElem?, List.getLast?_eq_getElem?, List.getElem?_eq_getElem hlen,
      List.getElem?_eq_getElem (by omega)] at hr
    exact ⟨(Prod.mk.inj (Except.ok.inj hr)).1.symm, (Prod.mk.inj (Except.ok.inj hr)).2.symm⟩
  have hk := kB_pos
  obtain ⟨ef, hf, hef⟩ : ∃ ef, fermiEnergy d electrons tol maxsteps = .ok ef ∧ (ef = e0 ∨ ef = e1) := by
    rcases he with h | h
    · exact ⟨e0, by rw [h, hr2.1]; exact c1, Or.inl rfl⟩
    · exact ⟨e1, by rw [h, hr2.2]; exact c2, Or.inr rfl⟩
  obtain ⟨s, hl1, I⟩ := ChemArgs.loop_spec ⟨d, electrons, N, tol, maxsteps, ef, e0, e1⟩ (by simp only; omega) Ts hs
  have ht := tLin_eq ⟨d, electrons, N, tol, maxsteps, ef, e0, e1⟩
  simp only at ht
  refine ⟨s.res, by rw [chemicalPotential, hf]; simp only [hr, if_neg hne, hl1], I.length, fun i hi hT hL => ?_⟩
  have hL' : Ts.getD i 0 < Spec.linTemperature e0 e1 ef := by
    refine hL.trans_le ?_
    rw [Spec.linTemperature]
    refine div_le_div_of_nonneg_right ?_ (by positivity)
    rcases hef with h | h
    · rw [h]; exact (le_abs_self _).trans (le_max_right _ _)
    · rw [h]
      refine le_trans ?_ (le_max_left _ _)
      rw [abs_sub_comm]; exact le_abs_self _
  obtain ⟨j, hj, hsol⟩ := (I.res i hi).low hT (by rw [ht]; exact hL')
  have hc : ChemArgs.curve ⟨d, electrons, N, tol, maxsteps, ef, e0, e1⟩ (Ts.getD j 0) =
      stateCurve d (samples e0 e1 ef (1 / 4 / (kB * Ts.getD j 0)) N) := rfl
  have hne' : stateCurve d (samples e0 e1 ef (1 / 4 / (kB * Ts.getD j 0)) N) ≠ [] := by
    rw [← hc]; exact ChemArgs.curve_ne _ _ (by simp only; omega)
  obtain ⟨w1, -⟩ := window_beta (Ts.getD j 0) hj.pos
  have himp : ¬ Proper (samples e0 e1 ef (1 / 4 / (kB * Ts.getD j 0)) N) := by
    rcases hef with h | h
    · rw [h]; exact samples_lower_improper _ _ _ _ w1 hN
    · rw [h]; exact samples_upper_improper _ _ _ _ w1 hN
  rw [hc, solve_improper _ _ _ _ _ _ _ _ hne' (by rw [stateCurve_energies]; exact himp)] at hsol
  exact (Except.ok.inj hsol).symm

/-! ## Examples: two bands with a gap from 7 to 10 and one electron -/

/-- A band from `lo` to `hi` with most states around `c`. -/
noncomputable def exLogistic (lo hi c : ℝ) : Band := ⟨lo, hi, fun e => 1 - fermi 1 (e - c), fun e => Spec.weight 1 (e - c)⟩

/-- Two bands; the states of the upper one are around `c`. -/
noncomputable def exTwo (c : ℝ) : DoS := [exLogistic 0 7 3, exLogistic 10 11 c]

theorem exLogistic_dist (lo hi c : ℝ) : Spec.Dist (exLogistic lo hi c) := by
  refine ⟨fun a b hab => ?_, fun e => ?_, fun e => ?_, fun e => ?_⟩
  · have := (fermi_anti 1 one_pos).antitone (show a - c ≤ b - c by linarith)
    simp only [exLogistic]; linarith
  · have := fermi_mem 1 (e - c)
    simp only [exLogistic]; linarith
  · have := fermi_mem 1 (e - c)
    simp only [exLogistic]; linarith
  · have h := ((fermi_hasDerivAt 1 (e - c)).comp e ((hasDerivAt_id e).sub_const c)).const_sub 1
    refine h.congr_deriv ?_
    simp [exLogistic]

theorem exTwo_dist (c : ℝ) : ∀ b ∈ exTwo c, Spec.Dist b := by
  intro b hb
  simp only [exTwo, List.mem_cons, List.not_mem_nil, or_false] at hb
  rcases hb with rfl | rfl <;> exact exLogistic_dist _ _ _

theorem exTwo_ordered (c : ℝ) : Spec.Ordered (exTwo c) ∧ ∀ b ∈ exTwo c, b.lo < b.hi := by
  constructor
  · simp [Spec.Ordered, exTwo, exLogistic]
    norm_num
  · intro b hb
    simp only [exTwo, List.mem_cons, List.not_mem_nil, or_false] at hb
    rcases hb with rfl | rfl <;> norm_num [exLogistic]

theorem exTwo_fermi (c tol : ℝ) (maxsteps : ℕ) : fermiEnergy (exTwo c) 1 tol maxsteps = .ok (17 / 2) := by
  have := (C48_gap (exTwo c) 1 tol maxsteps one_pos (by simp [exTwo]) (by norm_num [exTwo, exLogistic])).1
  norm_num [exTwo, exLogistic] at this ⊢
  exact this

theorem exTwo_range (c : ℝ) : energyRange (exTwo c) = .ok (0, 11) := by
  simp [energyRange, exTwo, exLogistic]

theorem exTwo_lin : Spec.linTemperature 0 11 (17 / 2) = 17 / (16 * kB) ∧ 12000 < Spec.linTemperature 0 11 (17 / 2) ∧
    Spec.linTemperature 0 11 (17 / 2) < 13000 := by
  have h : Spec.linTemperature 0 11 (17 / 2) = 17 / (16 * kB) := by
    rw [Spec.linTemperature, max_eq_left]
    · have := kB_pos
      rw [abs_of_neg (by norm_num)]
      field_simp
      norm_num
    · norm_num [abs_of_neg, abs_of_pos]
  refine ⟨h, ?_, ?_⟩ <;> rw [h, kB] <;> norm_num

theorem exTwo_states (c e : ℝ) : statesBelow (exTwo c) e = (exLogistic 0 7 3).statesBelow e + (exLogistic 10 11 c).statesBelow e := by
  simp [statesBelow, exTwo]

/-- Results at zero temperature, room temperature, 5 and 20 percent above, and at 20000 K. -/
example : ∃ rs, chemicalPotential (exTwo (52 / 5)) 1 [0, 300, 312, 375, 20000] 30 (1 / 10 ^ 8) 30 = .ok rs ∧ rs.length = 5 ∧
    rs.getD 0 none = some (17 / 2) := by
  obtain ⟨rs, h1, h2, h3⟩ := C107_sorted (exTwo (52 / 5)) 1 [0, 300, 312, 375, 20000] 30 (1 / 10 ^ 8) 30 (17 / 2) 0 11 (exTwo_fermi _ _ _)
    (exTwo_range _) (by norm_num) (by norm_num) (by norm_num) (by norm_num) (by simp)
  exact ⟨rs, h1, h2, (h3 0 (by norm_num)).1 (by norm_num)⟩

/-- At 20000 K the equally spaced energies are used. -/
example : ∃ rs, chemicalPotential (exTwo (52 / 5)) 1 [300, 20000] 30 (1 / 10 ^ 8) 30 = .ok rs ∧ ∃ x, rs.getD 1 none = some x := by
  obtain ⟨rs, h1, h2⟩ := C107_high (exTwo (52 / 5)) (exTwo_dist _) (exTwo_ordered _).1 (exTwo_ordered _).2 1 [300, 20000] 30
    (1 / 10 ^ 8) 30 (17 / 2) 0 11 (exTwo_fermi _ _ _) (exTwo_range _) (by norm_num) (by norm_num) (by norm_num) (by norm_num) (by simp)
  obtain ⟨x, h3, -⟩ := h2 1 (by norm_num) (by norm_num) (by have := exTwo_lin.2.2; norm_num; linarith)
  exact ⟨rs, h1, x, h3⟩

/-- At 5000 K the samples reach over all bands. -/
example : ∃ rs, chemicalPotential (exTwo (52 / 5)) 1 [5000] 30 (1 / 10 ^ 8) 30 = .ok rs ∧ ∃ x, rs.getD 0 none = some x := by
  obtain ⟨rs, h1, h2⟩ := C107_low (exTwo (52 / 5)) (exTwo_dist _) (exTwo_ordered _).1 (exTwo_ordered _).2 1 [5000] 30
    (1 / 10 ^ 8) 30 (17 / 2) 0 11 (exTwo_fermi _ _ _) (exTwo_range _) (by norm_num) (by norm_num) (by norm_num) (by norm_num) (by simp)
  obtain ⟨pts, x, -, h3, -⟩ := h2 0 (by norm_num) (by norm_num) (by have := exTwo_lin.2.1; norm_num; linarith) (fun j hj => by
    have : j = 0 := by have := hj.le; omega
    subst this
    norm_num [kB])
  exact ⟨rs, h1, x, h3⟩

/-- The temperatures from 10 K to 3400 K in steps of 5 percent. -/
noncomputable def exTemperatures : List ℝ := (List.range 121).map fun i : ℕ => 10 * (21 / 20 : ℝ) ^ i

theorem exTemperatures_spec : exTemperatures.Pairwise (· ≤ ·) ∧ (exTemperatures.IsChain fun T T' => T' ≤ 21 / 20 * T) ∧
    ∀ T ∈ exTemperatures, T < 12000 := by
  refine ⟨?_, ?_, ?_⟩
  · rw [exTemperatures, List.pairwise_map]
    exact List.pairwise_lt_range.imp fun {i j} h => by
      have := pow_le_pow_right₀ (show (1 : ℝ) ≤ 21 / 20 by norm_num) h.le
      linarith
  · rw [List.isChain_iff_getElem]
    intro i hi
    simp only [exTemperatures, List.getElem_map, List.getElem_range]
    rw [pow_succ]
    linarith
  · intro T hT
    obtain ⟨i, hi, rfl⟩ := List.mem_map.1 hT
    have h := pow_le_pow_right₀ (show (1 : ℝ) ≤ 21 / 20 by norm_num) (show i ≤ 120 by have := List.mem_range.1 hi; omega)
    have h2 : (21 / 20 : ℝ) ^ 120 < 1200 := by norm_num
    linarith

/-- The chemical potentials up to 3400 K do not depend on the shape of the upper band, though the states do at every temperature. -/
example : chemicalPotential (exTwo (53 / 5)) 1 exTemperatures 30 (1 / 10 ^ 8) 30 =
      chemicalPotential (exTwo (52 / 5)) 1 exTemperatures 30 (1 / 10 ^ 8) 30 ∧
    ∀ T > 0, ∀ x, Spec.smear (1 / (kB * T)) (statesBelow (exTwo (53 / 5))) x < Spec.smear (1 / (kB * T)) (statesBelow (exTwo (52 / 5))) x := by
  obtain ⟨t1, t2, t3⟩ := exTemperatures_spec
  have he : exTemperatures = 10 :: (List.range 120).map fun i : ℕ => 10 * (21 / 20 : ℝ) ^ (i + 1) := by
    rw [exTemperatures, List.range_succ_eq_map]
    simp [Function.comp_def]
  rw [he] at t1 t2 t3 ⊢
  constructor
  · refine C107_stale_defect _ _ 1 10 _ 30 _ 30 (17 / 2) 0 11 (exTwo_fermi _ _ _) (exTwo_fermi _ _ _) (exTwo_range _) (exTwo_range _) rfl
      (by norm_num) (by norm_num) (by norm_num) t1 (by norm_num) t2 (fun T hT => (t3 T hT).trans exTwo_lin.2.1) fun e hab => ?_
    rw [abs_le] at hab
    have h1 : 120 * kB * 10 < 1 := by norm_num [kB]
    rw [exTwo_states, exTwo_states]
    congr 1
    rw [Band.statesBelow, Band.statesBelow, if_neg, if_neg, if_neg, if_neg] <;> simp only [exLogistic] <;> first | (intro h; linarith [h.1]) | linarith
  · intro T hT x
    have := kB_pos
    have hf : ∀ e : ℝ, fermi 1 (e - 52 / 5) < fermi 1 (e - 53 / 5) := fun e => fermi_anti 1 one_pos (by linarith)
    refine C107_stale_wrong _ _ (exTwo_dist _) (exTwo_dist _) (fun e => ?_) 10 11 (by norm_num) (fun e h1 h2 => ?_) _ (by positivity) x
    · rw [exTwo_states, exTwo_states]
      refine add_le_add le_rfl ?_
      rw [Band.statesBelow, Band.statesBelow]
      have h3 := hf e
      by_cases h : 10 < e ∧ e < 11
      · rw [if_pos (by exact h), if_pos (by exact h)]
        simp only [exLogistic]
        linarith
      · have h' : ∀ c, ¬ ((exLogistic 10 11 c).lo < e ∧ e < (exLogistic 10 11 c).hi) := fun _ => h
        rw [if_neg (h' _), if_neg (h' _)]
        exact le_rfl
    · rw [exTwo_states, exTwo_states]
      refine add_lt_add_of_le_of_lt le_rfl ?_
      rw [Band.statesBelow, Band.statesBelow, if_pos (by exact ⟨h1, h2⟩), if_pos (by exact ⟨h1, h2⟩)]
      have h3 := hf e
      simp only [exLogistic]
      linarith

/-- Temperatures that are not sorted. -/
example : chemicalPotential (exTwo (52 / 5)) 1 [17 / (16 * kB), 33 / 34 * (17 / (16 * kB))] 30 (1 / 10 ^ 8) 30 = .error .nameError := by
  have hk := kB_pos
  have h : 0 < 17 / (16 * kB) := by positivity
  exact C107_unsorted _ _ _ _ _ _ _ (17 / 2) 0 11 (exTwo_fermi _ _ _) (exTwo_range _) (by norm_num) (by linarith)
    exTwo_lin.1.le (by rw [exTwo_lin.1]; linarith) (by linarith)

/-- Two electrons fill both bands. -/
example : ∃ rs, chemicalPotential (exTwo (52 / 5)) 2 [300] 30 (1 / 10 ^ 8) 30 = .ok rs ∧ rs = [none] := by
  obtain ⟨rs, h1, h2, h3⟩ := C107_full (exTwo (52 / 5)) 2 [300] 30 (1 / 10 ^ 8) 30 0 11 (exTwo_range _) (by simp [exTwo])
    (Or.inr (by simp [exTwo])) (by norm_num) (by simp) (by simp)
  have h4 := h3 0 (by norm_num) (by norm_num) (by norm_num [kB])
  match rs, h2 with
  | [r], _ =>
    simp only [List.getD_cons_zero] at h4
    exact ⟨_, h1, by rw [h4]⟩

example : chemicalPotential (exTwo (52 / 5)) 1 [] 30 (1 / 10 ^ 8) 30 = .error .valueError ∧
    chemicalPotential (exTwo (52 / 5)) 3 [300] 30 (1 / 10 ^ 8) 30 = .error .assertionError :=
  ⟨(C107_errors _ 1 [] 30 _ 30).2 _ (exTwo_fermi _ _ _),
    (C107_errors _ 3 [300] 30 _ 30).1 _ (by rw [fermiEnergy, if_pos (by simp [exTwo]; norm_num)])⟩

/-- The samples for a temperature of about 116 K around zero energy. -/
example : (samples (-1) 2 0 100 7).head? = some (-3 / 10) ∧ (samples (-1) 2 0 100 7).getD 3 0 = 0 := by
  obtain ⟨-, -, h1, -, h2, -⟩ := C107_samples (-1) 2 0 100 7 (by norm_num) (by norm_num) (by norm_num) (by norm_num)
  refine ⟨?_, h2⟩
  rw [h1]
  norm_num

end TB.Dos

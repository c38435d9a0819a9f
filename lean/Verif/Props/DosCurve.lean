import Mathlib.Analysis.Calculus.Deriv.MeanValue
import Verif.Props.DosChemical

/-!
# C109: `DensityOfStates.full_curve` and `DensityOfStates.k_resolved_density`
-/

namespace TB.Dos

open MeasureTheory intervalIntegral

/-- The samples of a function at the given energies. -/
noncomputable def Spec.graph (f : ℝ → ℝ) (es : List ℝ) : List (ℝ × ℝ) := es.map fun e => (e, f e)

theorem curveEnergies_sorted (d : DoS) (N : ℕ) : (curveEnergies d N).Pairwise (· < ·) := by
  classical
  rw [curveEnergies]
  exact Finset.sortedLT_sort _ |>.pairwise

theorem mem_curveEnergies (d : DoS) (N : ℕ) (e : ℝ) : e ∈ curveEnergies d N ↔ ∃ b ∈ d, e ∈ linspace b.lo b.hi N := by
  rw [curveEnergies, Finset.mem_sort, List.mem_toFinset, List.mem_flatMap]

/-- C109.  The curve at zero temperature: the energies are those of `N` equally spaced points in each band, each one once and increasing;
the other two arrays are the states below and the density at these energies. -/
theorem C109_zero (d : DoS) (N : ℕ) :
    ∃ es : List ℝ, fullCurve d N 0 = .ok (es, es.map (statesBelow d), es.map (density d)) ∧ es.Pairwise (· < ·) ∧
      ∀ e, e ∈ es ↔ ∃ b ∈ d, ∃ i < N, e = b.lo + i * ((b.hi - b.lo) / (N - 1)) := by
  refine ⟨curveEnergies d N, ?_, curveEnergies_sorted d N, fun e => ?_⟩
  · rw [fullCurve]
    simp only [if_true, C47_states_density]
  · rw [mem_curveEnergies]
    constructor
    · rintro ⟨b, hb, he⟩
      obtain ⟨i, hi, rfl⟩ := List.mem_map.1 he
      exact ⟨b, hb, i, List.mem_range.1 hi, rfl⟩
    · rintro ⟨b, hb, i, hi, rfl⟩
      exact ⟨b, hb, List.mem_map.2 ⟨i, List.mem_range.2 hi, rfl⟩⟩

theorem mem_linspaceOpen_up {a b : ℝ} {n : ℕ} {p : ℝ} (h : p ∈ linspaceOpen a b n) (hlt : a < b) : a ≤ p ∧ p < b := by
  obtain ⟨i, hi', rfl⟩ := List.mem_map.1 h
  have hi : i < n := List.mem_range.1 hi'
  have hn : (0 : ℝ) < n := by exact_mod_cast (Nat.zero_le i).trans_lt hi
  have h1 : (i : ℝ) < n := by exact_mod_cast hi
  have h0 : (0 : ℝ) ≤ i := Nat.cast_nonneg i
  have e1 : a + (i : ℝ) * ((b - a) / n) = b - (b - a) * ((n - i) / n) := by field_simp; ring
  have p1 : 0 < ((n : ℝ) - i) / n := div_pos (by linarith) hn
  have p2 : 0 ≤ (b - a) / n := div_nonneg (by linarith) hn.le
  constructor
  · nlinarith
  · rw [e1]; nlinarith

theorem pairwise_linspaceOpen_up {a b : ℝ} (n : ℕ) (h : a < b) : (linspaceOpen a b n).Pairwise fun p q => p < q := by
  rw [linspaceOpen, List.pairwise_map]
  refine List.Pairwise.imp_of_mem ?_ List.pairwise_lt_range
  intro i j hi _ hij
  have hn : (0 : ℝ) < n := by exact_mod_cast (Nat.zero_le i).trans_lt (List.mem_range.1 hi)
  have h1 : 0 < (b - a) / n := div_pos (by linarith) hn
  have h2 : (i : ℝ) < j := by exact_mod_cast hij
  nlinarith

/-- A piecewise linear curve stays between the smallest and the largest sample. -/
theorem pl_bounds (pts : List (ℝ × ℝ)) (hne : pts ≠ []) (hs : pts.Pairwise fun p q => p.1 < q.1) (a b : ℝ)
    (h : ∀ p ∈ pts, a ≤ p.2 ∧ p.2 ≤ b) (e : ℝ) : a ≤ Spec.pl pts e ∧ Spec.pl pts e ≤ b := by
  induction pts with
  | nil => exact absurd rfl hne
  | cons p l ih =>
    cases l with
    | nil => exact h p (List.mem_singleton_self p)
    | cons q l =>
      have hpq : p.1 < q.1 := (List.pairwise_cons.1 hs).1 q (List.mem_cons_self)
      obtain ⟨p1, p2⟩ := h p (List.mem_cons_self)
      obtain ⟨q1, q2⟩ := h q (by simp)
      rw [Spec.pl]
      by_cases h1 : e ≤ p.1
      · rw [if_pos h1]; exact ⟨p1, p2⟩
      · rw [if_neg h1]
        by_cases h2 : e ≤ q.1
        · rw [if_pos h2]
          have hd : 0 < q.1 - p.1 := by linarith
          set t := (e - p.1) / (q.1 - p.1) with ht
          have ht0 : 0 ≤ t := div_nonneg (by linarith) hd.le
          have ht1 : t ≤ 1 := (div_le_one hd).2 (by linarith)
          have : p.2 + (q.2 - p.2) / (q.1 - p.1) * (e - p.1) = (1 - t) * p.2 + t * q.2 := by
            rw [ht]; field_simp; ring
          rw [this]
          constructor <;> nlinarith
        · rw [if_neg h2]
          exact ih (by simp) (List.pairwise_cons.1 hs).2 fun x hx => h x (List.mem_cons_of_mem _ hx)

theorem list_bound (l : List ℝ) (f : ℝ → ℝ) : ∃ B, ∀ e ∈ l, f e ≤ B := by
  induction l with
  | nil => exact ⟨0, by simp⟩
  | cons a l ih =>
    obtain ⟨B, hB⟩ := ih
    refine ⟨max (f a) B, fun e he => ?_⟩
    rcases List.mem_cons.1 he with h | h
    · rw [h]; exact le_max_left _ _
    · exact (hB e h).trans (le_max_right _ _)

theorem density_nonneg (d : DoS) (hd : ∀ b ∈ d, Spec.Dist b) (e : ℝ) : 0 ≤ density d e := by
  rw [density_eq]
  refine List.sum_nonneg fun x hx => ?_
  obtain ⟨b, hb, rfl⟩ := List.mem_map.1 hx
  rw [Band.density]
  split_ifs
  · rw [← ((hd b hb).deriv e).deriv]
    exact (hd b hb).mono.deriv_nonneg
  · exact le_rfl

theorem extended_sorted (es : List ℝ) (first last delta : ℝ) (N : ℕ) (hd : 0 < delta) (hs : es.Pairwise (· < ·))
    (hb : ∀ e ∈ es, first ≤ e ∧ e ≤ last) (hfl : first ≤ last) : (extendedEnergies es first last delta N).Pairwise (· < ·) := by
  have hl : ∀ e ∈ linspaceOpen (first - delta) first N, e < first := fun e he => (mem_linspaceOpen_up he (by linarith)).2
  have hr : ∀ e ∈ (linspaceOpen (last + delta) last N).reverse, last < e := fun e he =>
    (mem_linspaceOpen (List.mem_reverse.1 he) (by linarith)).2.2 (by linarith)
  rw [extendedEnergies, List.pairwise_append, List.pairwise_append]
  refine ⟨⟨pairwise_linspaceOpen_up N (by linarith), hs, fun a ha b hb' => (hl a ha).trans_le (hb b hb').1⟩, ?_, ?_⟩
  · rw [List.pairwise_reverse]
    exact pairwise_linspaceOpen N (by linarith)
  · intro a ha b hb'
    rcases List.mem_append.1 ha with h | h
    · have := hl a h; have := hr b hb'; linarith
    · have := (hb a h).2; have := hr b hb'; linarith

theorem sorted_bounds (es : List ℝ) (hs : es.Pairwise (· < ·)) (first last : ℝ) (hf : es.head? = some first)
    (hl : es.getLast? = some last) : ∀ e ∈ es, first ≤ e ∧ e ≤ last := by
  intro e he
  obtain ⟨i, hi, rfl⟩ := List.getElem_of_mem he
  have hf' : es[0]'(by omega) = first := by
    rw [List.head?_eq_getElem?, List.getElem?_eq_getElem (by omega)] at hf
    exact Option.some.inj hf
  have hl' : es[es.length - 1]'(by omega) = last := by
    rw [List.getLast?_eq_getElem?, List.getElem?_eq_getElem (by omega)] at hl
    exact Option.some.inj hl
  constructor
  · rcases Nat.eq_zero_or_pos i with h | h
    · subst h; exact hf'.ge
    · rw [← hf']; exact ((List.pairwise_iff_getElem.1 hs) 0 i (by omega) hi h).le
  · rcases Nat.lt_or_ge i (es.length - 1) with h | h
    · rw [← hl']; exact ((List.pairwise_iff_getElem.1 hs) i (es.length - 1) hi (by omega) h).le
    · have : i = es.length - 1 := by omega
      subst this; exact hl'.le

/-- C109.  The curve at a positive temperature.  `N` points up to `5 k_B T` below the first and above the last energy of the curve at zero
temperature are added.  The states are the thermal averages of the interpolated states at zero temperature (constant outside of the
bands), so that they increase and lie between zero and the number of bands; the densities are the thermal averages of the interpolated
density (zero outside of the bands) and not negative. -/
theorem C109_warm (d : DoS) (hd : ∀ b ∈ d, Spec.Dist b) (N : ℕ) (T : ℝ) (es st de : List ℝ)
    (h0 : fullCurve d N 0 = .ok (es, st, de)) (hT : 0 < T) (first last : ℝ) (hf : es.head? = some first) (hl : es.getLast? = some last) :
    ∃ en st' de' : List ℝ, fullCurve d N T = .ok (en, st', de') ∧ en.Pairwise (· < ·) ∧ en.length = es.length + 2 * N ∧
      (∀ e, e ∈ en ↔ e ∈ es ∨ ∃ i < N, e = first - 5 * kB * T * ((N - i) / N) ∨ e = last + 5 * kB * T * ((N - i) / N)) ∧
      st' = en.map (Spec.smear (1 / (kB * T)) (Spec.pl (Spec.graph (statesBelow d) es))) ∧
      de' = en.map (fun x => ∫ e in first..last, Spec.pl (Spec.graph (density d) es) e * Spec.weight (1 / (kB * T)) (e - x)) ∧
      st'.Pairwise (· ≤ ·) ∧ (∀ s ∈ st', 0 ≤ s ∧ s ≤ d.length) ∧ ∀ s ∈ de', 0 ≤ s := by
  have hk := kB_pos
  have hb : 0 < 1 / (kB * T) := by positivity
  have h5 : 5 / (1 / (kB * T)) = 5 * kB * T := by field_simp
  have h50 : 0 < 5 * kB * T := by positivity
  have hes : curveEnergies d N = es := by
    rw [fullCurve] at h0
    simp only [if_true] at h0
    exact (Prod.mk.inj (Except.ok.inj h0)).1
  have hs := curveEnergies_sorted d N
  rw [hes] at hs
  have hne : es ≠ [] := by rintro rfl; cases hf
  have hbd := sorted_bounds es hs first last hf hl
  have hfl : first ≤ last := (hbd first (List.mem_of_mem_head? hf)).2
  have hg : ∀ f : ℝ → ℝ, es.zip (es.map f) = Spec.graph f es := fun f => by
    rw [Spec.graph]
    have := List.zip_map' (f := id) (g := f) (l := es)
    rw [List.map_id] at this
    exact this
  have hgs : ∀ f : ℝ → ℝ, (Spec.graph f es).Pairwise fun p q => p.1 < q.1 := fun f => by
    rw [Spec.graph, List.pairwise_map]; exact hs
  have hgne : ∀ f : ℝ → ℝ, Spec.graph f es ≠ [] := fun f => by simp [Spec.graph, hne]
  obtain ⟨c1, c2, -, -⟩ := C47_count d hd
  have hmono : Monotone (Spec.pl (Spec.graph (statesBelow d) es)) := pl_mono _ (by
    rw [Spec.graph, List.pairwise_map]
    exact hs.imp fun h => ⟨h, c2 h.le⟩)
  obtain ⟨g, g1, g2, g3⟩ := C63_average (1 / (kB * T)) hb _ _ (hgne (statesBelow d)) (pl_spec _ (hgs _)).1 (pl_spec _ (hgs _)).2
  have hgsm : g = Spec.smear (1 / (kB * T)) (Spec.pl (Spec.graph (statesBelow d) es)) := by
    funext x
    have := (C63_flat (1 / (kB * T)) x hb _ _ (hgne (statesBelow d)) (pl_spec _ (hgs _)).1 (pl_spec _ (hgs _)).2).1
    rw [g1 x] at this
    exact Except.ok.inj this
  have hsorted := extended_sorted es first last (5 * kB * T) N h50 hs hbd hfl
  refine ⟨extendedEnergies es first last (5 * kB * T) N, _, _, ?_, hsorted, ?_, ?_, rfl, rfl, ?_, ?_, ?_⟩
  · rw [fullCurve]
    simp only [if_neg hT.ne', hes, hf, hl, h5, C47_states_density]
    refine congrArg Except.ok (congrArg (Prod.mk _) (congrArg₂ Prod.mk ?_ ?_))
    · refine List.map_congr_left fun x _ => ?_
      rw [hg (fun e => statesBelow d e)]
      exact convValue_flat _ x hb _ (hgne _) (hgs _)
    · refine List.map_congr_left fun x _ => ?_
      rw [hg (fun e => density d e), convValue, C63_samples (1 / (kB * T)) x hb.ne' _ _ (pl_spec _ (hgs (density d))).1 (first, density d first)
        (last, density d last) (by rw [Spec.graph, List.head?_map, hf]; rfl) (by rw [Spec.graph, List.getLast?_map, hl]; rfl)]
  · rw [extendedEnergies]
    simp only [List.length_append, List.length_reverse, linspaceOpen, List.length_map, List.length_range]
    omega
  · intro e
    rw [extendedEnergies]
    simp only [List.mem_append, List.mem_reverse, linspaceOpen, List.mem_map, List.mem_range]
    constructor
    · rintro ((⟨i, hi, rfl⟩ | h) | ⟨i, hi, rfl⟩)
      · have : (N : ℝ) ≠ 0 := by have : N ≠ 0 := by omega
                                 exact_mod_cast this
        exact Or.inr ⟨i, hi, Or.inl (by field_simp; ring)⟩
      · exact Or.inl h
      · have : (N : ℝ) ≠ 0 := by have : N ≠ 0 := by omega
                                 exact_mod_cast this
        exact Or.inr ⟨i, hi, Or.inr (by field_simp; ring)⟩
    · rintro (h | ⟨i, hi, h | h⟩)
      · exact Or.inl (Or.inr h)
      · have : (N : ℝ) ≠ 0 := by have : N ≠ 0 := by omega
                                 exact_mod_cast this
        exact Or.inl (Or.inl ⟨i, hi, by rw [h]; field_simp; ring⟩)
      · have : (N : ℝ) ≠ 0 := by have : N ≠ 0 := by omega
                                 exact_mod_cast this
        exact Or.inr ⟨i, hi, by rw [h]; field_simp; ring⟩
  · rw [← hgsm, List.pairwise_map]
    exact hsorted.imp fun h => g3 hmono h.le
  · intro s hs'
    obtain ⟨x, -, rfl⟩ := List.mem_map.1 hs'
    rw [← hgsm]
    refine g2 0 d.length (fun e => pl_bounds _ (hgne _) (hgs _) _ _ ?_ e) x
    intro p hp
    obtain ⟨e, -, rfl⟩ := List.mem_map.1 hp
    exact c1 e
  · intro s hs'
    obtain ⟨x, -, rfl⟩ := List.mem_map.1 hs'
    refine integral_nonneg hfl fun e _ => mul_nonneg ?_ (weight_nonneg _ _ hb.le)
    obtain ⟨B, hB⟩ := list_bound es (density d)
    refine (pl_bounds (Spec.graph (density d) es) (hgne _) (hgs _) 0 B ?_ e).1
    intro p hp
    obtain ⟨t, ht, rfl⟩ := List.mem_map.1 hp
    exact ⟨density_nonneg d hd t, hB t ht⟩

/-- C109 (failure).  Without points (no bands, or `N = 0`) the curve at zero temperature consists of empty arrays, every other temperature
raises `IndexError`. -/
theorem C109_empty (d : DoS) (N : ℕ) (h : d = [] ∨ N = 0) :
    fullCurve d N 0 = .ok ([], [], []) ∧ ∀ T ≠ 0, fullCurve d N T = .error .indexError := by
  have he : curveEnergies d N = [] := by
    rw [List.eq_nil_iff_forall_not_mem]
    intro e he
    obtain ⟨b, hb, h2⟩ := (mem_curveEnergies d N e).1 he
    obtain ⟨i, hi, -⟩ := List.mem_map.1 h2
    have := List.mem_range.1 hi
    rcases h with rfl | rfl
    · cases hb
    · omega
  constructor
  · rw [fullCurve, he]; simp
  · intro T hT
    rw [fullCurve, he]
    simp [hT]

/-! ## `k_resolved_density` -/

/-- The states in one cell below an energy. -/
noncomputable def Spec.cellStates (cells : List ((ℝ → ℝ) × (ℝ → ℝ))) (e : ℝ) : ℝ := (cells.map fun c => c.1 e).sum

/-- C109.  At zero temperature the density of a cell is the sum over the bands of its `dvolume`; negative temperatures raise. -/
theorem C109_cell_zero (d : DoS) (cells : List ((ℝ → ℝ) × (ℝ → ℝ))) (mu T : ℝ) (N : ℕ) :
    (T = 0 → kResolvedDensity d cells mu T N = .ok (some (cells.map fun c => c.2 mu).sum)) ∧
    (T < 0 → kResolvedDensity d cells mu T N = .error .assertionError) ∧
    (0 < T → d = [] → kResolvedDensity d cells mu T N = .error .indexError) ∧
    (0 < T → N = 0 → kResolvedDensity d cells mu T N = .error .indexError) := by
  refine ⟨fun h => ?_, fun h => ?_, fun h hd => ?_, fun h hN => ?_⟩
  · rw [kResolvedDensity, if_neg (by simp [h]), if_pos h]
  · rw [kResolvedDensity, if_pos (by linarith)]
  · rw [kResolvedDensity, if_neg (by simp [h.le]), if_neg h.ne', hd]
    rfl
  · rw [kResolvedDensity, if_neg (by simp [h.le]), if_neg h.ne']
    cases hr : energyRange d with
    | error e =>
      simp only [energyRange] at hr
      split at hr
      · cases hr
      · rw [← hr]
    | ok r =>
      have : samples r.1 r.2 mu (1 / (kB * T)) N = [] := by
        rw [← List.length_eq_zero_iff, samples_length, hN]
      simp only [this, List.map_nil]
      rfl

/-- C109 (failure).  At positive temperatures the density of a cell is the derivative of the thermal average of its interpolated states
minus `2 (-f'(b - mu)) n`, where `b` is the last sample point (`30 k_B T` above `mu` or the upper end of all bands) and `n` the states in the
cell below it. -/
theorem C109_cell_warm (d : DoS) (cells : List ((ℝ → ℝ) × (ℝ → ℝ))) (mu T : ℝ) (N : ℕ) (hT : 0 < T) (hN : 3 ≤ N) (e0 e1 : ℝ)
    (hr : energyRange d = .ok (e0, e1)) (h0 : e0 < mu) (h1 : mu < e1) :
    ∃ es : List ℝ, es.length = N ∧ es.Pairwise (· < ·) ∧ es.head? = some (max (mu - 30 * kB * T) e0) ∧ mu ∈ es ∧
      es.getLast? = some (min (mu + 30 * kB * T) e1) ∧
      ∃ D r, HasDerivAt (Spec.smear (1 / (kB * T)) (Spec.pl (Spec.graph (Spec.cellStates cells) es))) D mu ∧
        kResolvedDensity d cells mu T N = .ok (some r) ∧
        r = D - 2 * Spec.weight (1 / (kB * T)) (min (mu + 30 * kB * T) e1 - mu) * Spec.cellStates cells (min (mu + 30 * kB * T) e1) := by
  have hk := kB_pos
  have hb : 0 < 1 / (kB * T) := by positivity
  have h30 : 30 / (1 / (kB * T)) = 30 * kB * T := by field_simp
  obtain ⟨s1, s2, s3, s4, s5⟩ := samples_spec e0 e1 mu (1 / (kB * T)) N hb h0 h1
  rw [h30] at s2 s4
  have hhead := s2 (by omega)
  have hlast := s4 hN
  refine ⟨_, samples_length _ _ _ _ _, s1, hhead, s3 (by omega), hlast, ?_⟩
  set en := samples e0 e1 mu (1 / (kB * T)) N with hen
  have hgs : (Spec.graph (Spec.cellStates cells) en).Pairwise fun p q => p.1 < q.1 := by
    rw [Spec.graph, List.pairwise_map]; exact s1
  have hgh : (Spec.graph (Spec.cellStates cells) en).head? = some (max (mu - 30 * kB * T) e0, Spec.cellStates cells (max (mu - 30 * kB * T) e0)) := by
    rw [Spec.graph, List.head?_map, hhead]; rfl
  have hgl : (Spec.graph (Spec.cellStates cells) en).getLast? = some (min (mu + 30 * kB * T) e1, Spec.cellStates cells (min (mu + 30 * kB * T) e1)) := by
    rw [Spec.graph, List.getLast?_map, hlast]; rfl
  have hne : Spec.graph (Spec.cellStates cells) en ≠ [] := by
    intro h; rw [h] at hgh; cases hgh
  obtain ⟨g, g', k1, k2, k3⟩ := (C64_right_part (1 / (kB * T)) hb.ne' (Spec.graph (Spec.cellStates cells) en)).2 _ _ hgh hgl
  have hg : g = Spec.smear (1 / (kB * T)) (Spec.pl (Spec.graph (Spec.cellStates cells) en)) := by
    funext x
    have := (C63_flat (1 / (kB * T)) x hb _ _ hne (pl_spec _ hgs).1 (pl_spec _ hgs).2).1
    rw [k1 x] at this
    exact Except.ok.inj this
  refine ⟨_, g' mu, by rw [← hg]; exact k3 mu, ?_, ?_⟩
  · rw [kResolvedDensity, if_neg (by simp [hT.le]), if_neg hT.ne', hr]
    simp only [← hen]
    have : (en.map fun e => (e, (cells.map fun c => c.1 e).sum)) = Spec.graph (Spec.cellStates cells) en := rfl
    rw [this, k2 mu]
    simp only [if_pos (proper_of_lt s1)]
  · rw [dfermi_eq]
    ring

/-- C109 (failure, continued).  A cell whose states are below all sample points - all its bands are filled, and there is nothing to be seen at
`mu` - gets a negative density. -/
theorem C109_cell_negative (d : DoS) (cells : List ((ℝ → ℝ) × (ℝ → ℝ))) (mu T : ℝ) (N : ℕ) (hT : 0 < T) (hN : 3 ≤ N) (e0 e1 : ℝ)
    (hr : energyRange d = .ok (e0, e1)) (h0 : e0 < mu) (h1 : mu < e1) (n : ℝ) (hn : 0 < n)
    (hfull : ∀ e, mu - 30 * kB * T ≤ e → e ≤ e1 → Spec.cellStates cells e = n) :
    ∃ r < 0, kResolvedDensity d cells mu T N = .ok (some r) := by
  have hk := kB_pos
  have hb : 0 < 1 / (kB * T) := by positivity
  obtain ⟨es, c1, c2, c3, c4, c5, D, r, hD, hres, hrr⟩ := C109_cell_warm d cells mu T N hT hN e0 e1 hr h0 h1
  refine ⟨r, ?_, hres⟩
  have hbd := sorted_bounds es c2 _ _ c3 c5
  have hin : ∀ e ∈ es, Spec.cellStates cells e = n := fun e he =>
    hfull e ((le_max_left _ _).trans (hbd e he).1) ((hbd e he).2.trans (min_le_right _ _))
  have hpl : Spec.pl (Spec.graph (Spec.cellStates cells) es) = fun _ => n := by
    funext e
    have := pl_bounds (Spec.graph (Spec.cellStates cells) es) (by
      intro h
      rw [Spec.graph, List.map_eq_nil_iff] at h
      rw [h] at c4
      cases c4) (by rw [Spec.graph, List.pairwise_map]; exact c2) n n (by
      intro p hp
      obtain ⟨t, ht, rfl⟩ := List.mem_map.1 hp
      simp only
      rw [hin t ht]
      exact ⟨le_rfl, le_rfl⟩) e
    exact le_antisymm this.2 this.1
  have hconst : Spec.smear (1 / (kB * T)) (Spec.pl (Spec.graph (Spec.cellStates cells) es)) = fun _ => n := by
    funext x
    rw [hpl, Spec.smear, MeasureTheory.integral_const_mul, integral_sub_right_eq_self (fun e => Spec.weight (1 / (kB * T)) e),
      (weight_integral _ hb).2, mul_one]
  rw [hconst] at hD
  have hD0 : D = 0 := hD.unique (hasDerivAt_const mu n)
  rw [hrr, hD0, hin _ (List.mem_of_mem_getLast? c5)]
  have := weight_pos (1 / (kB * T)) (min (mu + 30 * kB * T) e1 - mu) hb
  nlinarith

/-! ## Examples -/

/-- Four energies of the curve for two bands with two points each; at 300 K four more. -/
example : ∃ es st de en st' de' : List ℝ, fullCurve (exTwo (52 / 5)) 2 0 = .ok (es, st, de) ∧ 7 ∈ es ∧ 8 ∉ es ∧
    fullCurve (exTwo (52 / 5)) 2 300 = .ok (en, st', de') ∧ en.length = es.length + 4 ∧ 11 + 5 * kB * 300 ∈ en ∧ ∀ s ∈ st', s ≤ 2 := by
  obtain ⟨es, h1, h2, h3⟩ := C109_zero (exTwo (52 / 5)) 2
  have hmem : ∀ e, e ∈ es ↔ e = 0 ∨ e = 7 ∨ e = 10 ∨ e = 11 := by
    intro e
    rw [h3]
    constructor
    · rintro ⟨b, hb, i, hi, rfl⟩
      simp only [exTwo, List.mem_cons, List.not_mem_nil, or_false] at hb
      rcases hb with rfl | rfl <;> interval_cases i <;> norm_num [exLogistic]
    · rintro (h | h | h | h)
      · exact ⟨exLogistic 0 7 3, by simp [exTwo], 0, by norm_num, by norm_num [exLogistic, h]⟩
      · exact ⟨exLogistic 0 7 3, by simp [exTwo], 1, by norm_num, by norm_num [exLogistic, h]⟩
      · exact ⟨exLogistic 10 11 (52 / 5), by simp [exTwo], 0, by norm_num, by norm_num [exLogistic, h]⟩
      · exact ⟨exLogistic 10 11 (52 / 5), by simp [exTwo], 1, by norm_num, by norm_num [exLogistic, h]⟩
  have hne : es ≠ [] := List.ne_nil_of_mem ((hmem 7).2 (by norm_num))
  obtain ⟨first, hf⟩ : ∃ first, es.head? = some first := by
    cases es with
    | nil => exact absurd rfl hne
    | cons a l => exact ⟨a, rfl⟩
  obtain ⟨last, hl⟩ : ∃ last, es.getLast? = some last := ⟨_, List.getLast?_eq_some_getLast hne⟩
  have hl11 : last = 11 := by
    have h4 := (sorted_bounds es h2 first last hf hl 11 ((hmem 11).2 (by norm_num))).2
    rcases (hmem last).1 (List.mem_of_mem_getLast? hl) with h | h | h | h <;> linarith
  obtain ⟨en, st', de', k1, -, k2, k3, -, -, -, k4, -⟩ := C109_warm (exTwo (52 / 5)) (exTwo_dist _) 2 300 es _ _ h1 (by norm_num) first last hf hl
  refine ⟨es, _, _, en, st', de', h1, (hmem 7).2 (by norm_num), ?_, k1, by omega, ?_, fun s hs => ?_⟩
  · intro h; rcases (hmem 8).1 h with h | h | h | h <;> norm_num at h
  · exact (k3 _).2 (Or.inr ⟨0, by norm_num, Or.inr (by rw [hl11]; norm_num)⟩)
  · have := (k4 s hs).2
    simpa [exTwo] using this

example : fullCurve [] 10 0 = .ok ([], [], []) ∧ fullCurve [] 10 300 = .error .indexError :=
  ⟨(C109_empty [] 10 (Or.inl rfl)).1, (C109_empty [] 10 (Or.inl rfl)).2 300 (by norm_num)⟩

example : kResolvedDensity (exTwo (52 / 5)) [(fun e => e / 7, fun _ => 1 / 7)] 4 0 10 = .ok (some (1 / 7)) ∧
    kResolvedDensity (exTwo (52 / 5)) [(fun e => e / 7, fun _ => 1 / 7)] 4 (-1) 10 = .error .assertionError := by
  obtain ⟨h1, h2, -⟩ := C109_cell_zero (exTwo (52 / 5)) [(fun e => e / 7, fun _ => 1 / 7)] 4 0 10
  obtain ⟨-, h3, -⟩ := C109_cell_zero (exTwo (52 / 5)) [(fun e => e / 7, fun _ => 1 / 7)] 4 (-1) 10
  refine ⟨?_, h3 (by norm_num)⟩
  rw [h1 rfl]
  simp

/-- A cell of two bands at 300 K, and a cell with a filled and an empty band. -/
example : (∃ r, kResolvedDensity (exTwo (52 / 5)) [(fun e => e / 7, fun _ => 1 / 7)] 4 300 10 = .ok (some r)) ∧
    ∃ r < 0, kResolvedDensity (exTwo (52 / 5)) [(fun _ => 1, fun _ => 0), (fun _ => 0, fun _ => 0)] 4 300 10 = .ok (some r) := by
  obtain ⟨-, -, -, -, -, -, D, r, -, h, -⟩ := C109_cell_warm (exTwo (52 / 5)) [(fun e => e / 7, fun _ => 1 / 7)] 4 300 10 (by norm_num) (by norm_num)
    0 11 (exTwo_range _) (by norm_num) (by norm_num)
  exact ⟨⟨r, h⟩, C109_cell_negative (exTwo (52 / 5)) _ 4 300 10 (by norm_num) (by norm_num) 0 11 (exTwo_range _) (by norm_num) (by norm_num) 1
    one_pos (fun e _ _ => by simp [Spec.cellStates])⟩

end TB.Dos

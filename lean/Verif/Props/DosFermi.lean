import Mathlib.Tactic.Linarith
import Mathlib.Tactic.Ring
import Mathlib.Tactic.NormNum
import Mathlib.Tactic.FieldSimp
import Mathlib.Data.List.GetD
import Verif.Props.Dos

/-!
# C48, C61: Fermi energy and band gap
-/

namespace TB.Dos

open TB.Smear

/-- Lower and upper ends of the bands increase with the band index. -/
def Spec.Ordered (d : DoS) : Prop := d.Pairwise fun a b => a.lo ≤ b.lo ∧ a.hi ≤ b.hi

/-- The step of the root search at energy `e`. -/
noncomputable def Spec.delta (d : DoS) (electrons e : ℝ) : ℝ := (statesBelow d e - electrons) / density d e

/-- The energies visited by the root search. -/
noncomputable def Spec.visited (d : DoS) (electrons x : ℝ) : ℕ → ℝ
  | 0 => x
  | k + 1 => Spec.visited d electrons x k - Spec.delta d electrons (Spec.visited d electrons x k)

theorem visited_shift (d : DoS) (electrons x : ℝ) (k : ℕ) :
    Spec.visited d electrons (x - Spec.delta d electrons x) k = Spec.visited d electrons x (k + 1) := by
  induction k with
  | zero => rfl
  | succ k ih => rw [Spec.visited, ih, Spec.visited.eq_2 d electrons x (k + 1)]

/-- C48.  The root search returns `E` if and only if one of the first `maxsteps` visited energies has a step of at most
`tol`, all steps before were larger and all densities were not zero; `E` is that energy after the step. -/
theorem C48_newton_iff (d : DoS) (electrons tol : ℝ) (first : Bool) (n : ℕ) (x E : ℝ) :
    newton d electrons tol first n x = .ok E ↔
      ∃ k < n, (∀ j ≤ k, density d (Spec.visited d electrons x j) ≠ 0) ∧
        (∀ j < k, tol < |Spec.delta d electrons (Spec.visited d electrons x j)|) ∧
        |Spec.delta d electrons (Spec.visited d electrons x k)| ≤ tol ∧ E = Spec.visited d electrons x (k + 1) := by
  induction n generalizing x first with
  | zero => cases first <;> simp [newton]
  | succ n ih =>
    rw [newton]
    simp only [C47_states_density]
    by_cases h0 : density d x = 0
    · rw [if_pos h0]
      constructor
      · intro h; split_ifs at h
      · rintro ⟨k, -, hk, -⟩
        exact absurd h0 (hk 0 (Nat.zero_le _))
    · rw [if_neg h0]
      change (if |Spec.delta d electrons x| ≤ tol then Except.ok (x - Spec.delta d electrons x)
        else newton d electrons tol false n (x - Spec.delta d electrons x)) = .ok E ↔ _
      by_cases h1 : |Spec.delta d electrons x| ≤ tol
      · rw [if_pos h1]
        constructor
        · intro h
          refine ⟨0, Nat.succ_pos _, ?_, by simp, h1, ?_⟩
          · intro j hj
            rw [Nat.le_zero.1 hj]
            exact h0
          · rw [Except.ok.injEq] at h
            exact h.symm
        · rintro ⟨k, -, -, hk, -, hE⟩
          cases k with
          | zero => rw [hE]; rfl
          | succ k => exact absurd h1 (not_le.2 (hk 0 (Nat.succ_pos _)))
      · rw [if_neg h1, ih]
        push Not at h1
        constructor
        · rintro ⟨k, hk, h2, h3, h4, h5⟩
          refine ⟨k + 1, by omega, ?_, ?_, ?_, ?_⟩
          · intro j hj
            cases j with
            | zero => exact h0
            | succ j => rw [← visited_shift]; exact h2 j (by omega)
          · intro j hj
            cases j with
            | zero => exact h1
            | succ j => rw [← visited_shift]; exact h3 j (by omega)
          · rw [← visited_shift]; exact h4
          · rw [← visited_shift]; exact h5
        · rintro ⟨k, hk, h2, h3, h4, h5⟩
          cases k with
          | zero => exact absurd h4 (not_le.2 h1)
          | succ k =>
            refine ⟨k, by omega, ?_, ?_, ?_, ?_⟩
            · intro j hj; rw [visited_shift]; exact h2 (j + 1) (by omega)
            · intro j hj; rw [visited_shift]; exact h3 (j + 1) (by omega)
            · rw [visited_shift]; exact h4
            · rw [visited_shift]; exact h5

/-- C48.  When the root search fails, the exception is `ZeroDivisionError` or `ValueError` (or, without any step,
`UnboundLocalError`). -/
theorem C48_newton_errors (d : DoS) (electrons tol : ℝ) (n : ℕ) (x : ℝ) (e : Err)
    (h : newton d electrons tol true n x = .error e) :
    (n = 0 ∧ e = .nameError) ∨ (0 < n ∧ (e = .zeroDivision ∨ e = .valueError)) := by
  have key : ∀ (n : ℕ) (first : Bool) (x : ℝ), (0 < n ∨ first = false) → newton d electrons tol first n x = .error e →
      e = .zeroDivision ∨ e = .valueError := by
    intro n
    induction n with
    | zero =>
      intro first x hf h
      rcases hf with hf | rfl
      · exact absurd hf (lt_irrefl _)
      · simp [newton] at h; exact Or.inr h.symm
    | succ n ih =>
      intro first x _ h
      rw [newton] at h
      simp only at h
      by_cases h0 : (statesDensity d x).2 = 0
      · rw [if_pos h0] at h
        by_cases h1 : cutBandIndices d x = [] ∨ 0 < n
        · rw [if_pos h1] at h; cases h; exact Or.inl rfl
        · rw [if_neg h1] at h; cases h; exact Or.inr rfl
      · rw [if_neg h0] at h
        by_cases h1 : |((statesDensity d x).1 - electrons) / (statesDensity d x).2| ≤ tol
        · rw [if_pos h1] at h; cases h
        · rw [if_neg h1] at h; exact ih false _ (Or.inr rfl) h
  cases n with
  | zero => simp [newton] at h; exact Or.inl ⟨rfl, h.symm⟩
  | succ n => exact Or.inr ⟨Nat.succ_pos _, key _ _ _ (Or.inl (Nat.succ_pos _)) h⟩

theorem pyRound_eq_iff (x : ℝ) : ((pyRound x : ℤ) : ℝ) = x ↔ ∃ z : ℤ, x = z := by
  constructor
  · intro h; exact ⟨_, h.symm⟩
  · rintro ⟨z, rfl⟩
    have : pyRound (z : ℝ) = z := by
      obtain ⟨h1, h2⟩ := pyRound_bounds (K := ℝ) (x := (z : ℝ)) (a := z) (b := z) (by linarith) le_rfl
      omega
    rw [this]

theorem pyRound_nat (n : ℕ) : pyRound (n : ℝ) = (n : ℤ) := by
  have := (pyRound_eq_iff (n : ℝ)).2 ⟨n, by simp⟩
  exact_mod_cast this

/-- Number of states in a gap after `n` bands. -/
theorem states_in_gap (d : DoS) (ho : Spec.Ordered d) (n : ℕ) (h1 : n < d.length) (h0 : 0 < n) (e : ℝ)
    (hlo : d[n - 1].hi ≤ e) (hhi : e ≤ d[n].lo) (hr : d[n].lo ≤ d[n].hi)
    (he : e < d[n].lo ∨ ∀ b ∈ d.drop n, e < b.hi) : statesBelow d e = n := by
  rw [statesBelow_eq, ← List.take_append_drop n d, List.map_append, List.sum_append]
  have e1 : (d.take n).map (fun b => b.statesBelow e) = (d.take n).map fun _ => (1 : ℝ) := by
    refine List.map_congr_left fun b hb => ?_
    obtain ⟨i, hi, rfl⟩ := List.getElem_of_mem hb
    rw [List.getElem_take]
    have hin : i < n := by simp at hi; omega
    have hle : d[i].hi ≤ e := by
      rcases (show i < n - 1 ∨ i = n - 1 by omega) with h | h
      · exact ((List.pairwise_iff_getElem.1 ho) i (n - 1) (by omega) (by omega) h).2.trans hlo
      · simp only [h]; exact hlo
    rw [Band.statesBelow, if_neg (fun h => absurd h.2 (not_lt.2 hle)), if_pos hle]
  have e2 : ((d.drop n).map fun b => b.statesBelow e).sum = 0 := by
    refine List.sum_eq_zero fun x hx => ?_
    obtain ⟨b, hb, rfl⟩ := List.mem_map.1 hx
    have hb' := hb
    obtain ⟨i, hi, rfl⟩ := List.getElem_of_mem hb
    rw [List.getElem_drop] at hb' ⊢
    simp at hi
    have hle : d[n].lo ≤ d[n + i].lo ∧ d[n].hi ≤ d[n + i].hi := by
      rcases Nat.eq_zero_or_pos i with h | h
      · subst h; exact ⟨le_rfl, le_rfl⟩
      · exact (List.pairwise_iff_getElem.1 ho) n (n + i) (by omega) (by omega) (by omega)
    have hlt : e < d[n + i].hi := by
      rcases he with he | he
      · exact lt_of_lt_of_le he (hr.trans hle.2)
      · exact he _ hb'
    rw [Band.statesBelow, if_neg (fun h => absurd h.1 (not_lt.2 (hhi.trans hle.1))), if_neg (not_le.2 hlt)]
  rw [e1, e2]
  simp [h1.le]

/-- C48.  `fermi_energy` raises `AssertionError` if and only if the number of electrons is outside of the range from zero
to the number of bands. -/
theorem C48_assertion (d : DoS) (electrons tol : ℝ) (maxsteps : ℕ) :
    fermiEnergy d electrons tol maxsteps = .error .assertionError ↔ ¬ (0 ≤ electrons ∧ electrons ≤ d.length) := by
  rw [fermiEnergy]
  by_cases h : 0 ≤ electrons ∧ electrons ≤ d.length
  · rw [if_neg (not_not.2 h)]
    simp only [h, and_self, not_true_eq_false, iff_false]
    have hs : (match fermiStart d electrons with
      | .error e => .error e
      | .ok x => newton d electrons tol true maxsteps x : Except Err ℝ) ≠ .error .assertionError := by
      cases hst : fermiStart d electrons with
      | error e =>
        simp only
        rw [fermiStart] at hst
        simp only at hst
        split at hst
        · cases hst; simp
        · cases hst
      | ok x =>
        simp only
        intro hc
        rcases C48_newton_errors d electrons tol maxsteps x _ hc with ⟨-, h⟩ | ⟨-, h | h⟩ <;> cases h
    split_ifs with h1 h2 h3
    · split
      · split_ifs
        · simp
        · exact hs
      · simp
    · split <;> simp
    · split <;> simp
    · exact hs
  · simp [h]

/-- C48.  For an integer number of electrons and a gap between the bands below and above, the result is the middle of
the gap, and if the bands are ordered exactly this number of states lies below it. -/
theorem C48_gap (d : DoS) (n : ℕ) (tol : ℝ) (maxsteps : ℕ) (h0 : 0 < n) (h1 : n < d.length)
    (hgap : d[n - 1].hi < d[n].lo) :
    fermiEnergy d n tol maxsteps = .ok ((d[n - 1].hi + d[n].lo) / 2) ∧
    (Spec.Ordered d → d[n].lo ≤ d[n].hi → statesBelow d ((d[n - 1].hi + d[n].lo) / 2) = n) := by
  constructor
  · rw [fermiEnergy, if_neg (not_not.2 ⟨Nat.cast_nonneg _, by exact_mod_cast h1.le⟩)]
    simp only [pyRound_nat]
    rw [if_pos (by simp), if_pos ⟨by exact_mod_cast h0, by exact_mod_cast h1⟩]
    have t1 : ((n : ℤ) - 1).toNat = n - 1 := by omega
    rw [t1, Int.toNat_natCast, List.getElem?_eq_getElem (by omega), List.getElem?_eq_getElem h1]
    simp only
    rw [if_pos hgap]
  · intro ho hr
    exact states_in_gap d ho n h1 h0 _ (by linarith) (by linarith) hr (Or.inl (by linarith))

/-- C48.  Without electrons the result is the lower end of the first band, with all bands full the upper end of
the last one; if the bands are ordered the number of states there is the number of electrons. -/
theorem C48_ends (d : DoS) (tol : ℝ) (maxsteps : ℕ) (hd : 0 < d.length) :
    fermiEnergy d 0 tol maxsteps = .ok d[0].lo ∧
    fermiEnergy d d.length tol maxsteps = .ok d[d.length - 1].hi ∧
    (Spec.Ordered d → (∀ b ∈ d, b.lo < b.hi) →
      statesBelow d d[0].lo = 0 ∧ statesBelow d d[d.length - 1].hi = d.length) := by
  refine ⟨?_, ?_, fun ho hr => ⟨?_, ?_⟩⟩
  · rw [fermiEnergy, if_neg (not_not.2 ⟨le_rfl, Nat.cast_nonneg _⟩)]
    have := pyRound_nat 0
    rw [Nat.cast_zero] at this
    simp only [this]
    rw [if_pos (by simp), if_neg (by simp), if_pos (by simp), List.head?_eq_getElem?, List.getElem?_eq_getElem hd]
  · rw [fermiEnergy, if_neg (not_not.2 ⟨Nat.cast_nonneg _, le_rfl⟩)]
    simp only [pyRound_nat]
    rw [if_pos (by simp), if_neg (by simp), if_neg (by exact_mod_cast hd.ne'), List.getLast?_eq_getElem?,
      List.getElem?_eq_getElem (by omega)]
  · rw [statesBelow_eq]
    refine List.sum_eq_zero fun x hx => ?_
    obtain ⟨b, hb, rfl⟩ := List.mem_map.1 hx
    have hbr := hr b hb
    obtain ⟨i, hi, rfl⟩ := List.getElem_of_mem hb
    have hle : d[0].lo ≤ d[i].lo := by
      rcases Nat.eq_zero_or_pos i with h | h
      · subst h; exact le_rfl
      · exact ((List.pairwise_iff_getElem.1 ho) 0 i hd hi h).1
    rw [Band.statesBelow, if_neg (fun h => absurd h.1 (not_lt.2 hle)), if_neg (not_le.2 (lt_of_le_of_lt hle hbr))]
  · rw [statesBelow_eq]
    have e1 : d.map (fun b => b.statesBelow d[d.length - 1].hi) = d.map fun _ => (1 : ℝ) := by
      refine List.map_congr_left fun b hb => ?_
      obtain ⟨i, hi, rfl⟩ := List.getElem_of_mem hb
      have hle : d[i].hi ≤ d[d.length - 1].hi := by
        rcases (show i < d.length - 1 ∨ i = d.length - 1 by omega) with h | h
        · exact ((List.pairwise_iff_getElem.1 ho) i (d.length - 1) hi (by omega) h).2
        · simp only [h]; exact le_rfl
      rw [Band.statesBelow, if_neg (fun h => absurd h.2 (not_lt.2 hle)), if_pos hle]
    rw [e1]
    simp

/-- The cases in which the root search is started. -/
def Spec.Searched (d : DoS) (electrons : ℝ) : Prop :=
  0 ≤ electrons ∧ electrons ≤ d.length ∧
    ((∀ n : ℕ, electrons ≠ n) ∨ ∃ n : ℕ, electrons = n ∧ 0 < n ∧ ∃ h : n < d.length, d[n].lo ≤ d[n - 1].hi)

/-- C48.  For all other numbers of electrons (not an integer, or an integer without gap) the result is the one of the
root search from the start energy. -/
theorem C48_search (d : DoS) (electrons tol : ℝ) (maxsteps : ℕ) (h : Spec.Searched d electrons) :
    fermiEnergy d electrons tol maxsteps =
      match fermiStart d electrons with
      | .error e => .error e
      | .ok x => newton d electrons tol true maxsteps x := by
  obtain ⟨h0, h1, h2⟩ := h
  rw [fermiEnergy, if_neg (not_not.2 ⟨h0, h1⟩)]
  simp only
  rcases h2 with h2 | ⟨n, rfl, hn, hl, hg⟩
  · refine (if_neg ?_).trans rfl
    rw [pyRound_eq_iff]
    rintro ⟨z, rfl⟩
    have hz : 0 ≤ z := by exact_mod_cast h0
    exact h2 z.toNat (by exact_mod_cast (Int.toNat_of_nonneg hz).symm)
  · rw [pyRound_nat, if_pos (by simp), if_pos ⟨by exact_mod_cast hn, by exact_mod_cast hl⟩]
    have t1 : ((n : ℤ) - 1).toNat = n - 1 := by omega
    rw [t1, Int.toNat_natCast, List.getElem?_eq_getElem (by omega), List.getElem?_eq_getElem hl]
    simp only
    rw [if_neg (not_lt.2 hg)]
    rfl

/-- C48.  An energy returned by the root search is one step, not longer than `tol`, away from an energy at which the number
of states deviates from the number of electrons by at most `tol` times the density. -/
theorem C48_accuracy (d : DoS) (hd : ∀ b ∈ d, Spec.Dist b) (electrons tol : ℝ) (maxsteps : ℕ) (E : ℝ)
    (hs : Spec.Searched d electrons) (h : fermiEnergy d electrons tol maxsteps = .ok E) :
    ∃ E', |E - E'| ≤ tol ∧ 0 < density d E' ∧ |statesBelow d E' - electrons| ≤ tol * density d E' ∧
      E = E' - (statesBelow d E' - electrons) / density d E' := by
  rw [C48_search d electrons tol maxsteps hs] at h
  cases hst : fermiStart d electrons with
  | error e => rw [hst] at h; simp at h
  | ok x =>
    rw [hst] at h
    simp only at h
    obtain ⟨k, -, h1, -, h3, h4⟩ := (C48_newton_iff d electrons tol true maxsteps x E).1 h
    set E' := Spec.visited d electrons x k with hE'
    have hpos : 0 < density d E' := lt_of_le_of_ne (C47_density d hd E').1 (h1 k le_rfl).symm
    have e0 : E = E' - Spec.delta d electrons E' := by rw [h4, Spec.visited]
    refine ⟨E', ?_, hpos, ?_, e0⟩
    · rw [e0, show E' - Spec.delta d electrons E' - E' = -Spec.delta d electrons E' by ring, abs_neg]; exact h3
    · rw [Spec.delta, abs_div, abs_of_pos hpos, div_le_iff₀ hpos] at h3
      exact h3

theorem mem_curve (d : DoS) (b : Band) (hb : b ∈ d) : b.lo ∈ curveEnergies d 2 ∧ b.hi ∈ curveEnergies d 2 := by
  constructor
  · rw [curveEnergies, Finset.mem_sort, List.mem_toFinset, List.mem_flatMap]
    refine ⟨b, hb, ?_⟩
    norm_num [linspace, List.range_succ]
  · rw [curveEnergies, Finset.mem_sort, List.mem_toFinset, List.mem_flatMap]
    refine ⟨b, hb, ?_⟩
    norm_num [linspace, List.range_succ]

theorem of_mem_curve (d : DoS) (e : ℝ) (he : e ∈ curveEnergies d 2) : ∃ b ∈ d, e = b.lo ∨ e = b.hi := by
  rw [curveEnergies, Finset.mem_sort, List.mem_toFinset, List.mem_flatMap] at he
  obtain ⟨b, hb, he⟩ := he
  refine ⟨b, hb, ?_⟩
  norm_num [linspace, List.range_succ] at he
  exact he

/-- C48.  If the bands are not flat and at least one state is free, the root search starts at the linear interpolation
between two neighbouring band ends `e`, `e'`, with at most `electrons` states below `e` and more below `e'`. -/
theorem C48_start (d : DoS) (hd : ∀ b ∈ d, Spec.Dist b) (hr : ∀ b ∈ d, b.lo < b.hi) (electrons : ℝ)
    (h0 : 0 ≤ electrons) (h1 : electrons < d.length) :
    ∃ x e e', fermiStart d electrons = .ok x ∧ e ∈ curveEnergies d 2 ∧ e' ∈ curveEnergies d 2 ∧ e < e' ∧
      (∀ b ∈ d, (b.lo ≤ e ∨ e' ≤ b.lo) ∧ (b.hi ≤ e ∨ e' ≤ b.hi)) ∧
      statesBelow d e ≤ electrons ∧ electrons < statesBelow d e' ∧ e ≤ x ∧ x < e' ∧
      (x - e) * (statesBelow d e' - statesBelow d e) = (electrons - statesBelow d e) * (e' - e) := by
  obtain ⟨c1, c2, c3, c4⟩ := C47_count d hd
  set l := curveEnergies d 2 with hl
  have hsort : l.Pairwise (· < ·) := (Finset.sortedLT_sort _).pairwise
  have hpos : 0 < d.length := by
    have : (0 : ℝ) < d.length := lt_of_le_of_lt h0 h1
    exact_mod_cast this
  have hne : l ≠ [] := by
    intro h
    have := (mem_curve d d[0] (List.getElem_mem _)).1
    rw [← hl, h] at this
    simp at this
  have hlpos : 0 < l.length := List.length_pos_iff.2 hne
  -- the last energy is above all bands
  have hlast : statesBelow d (l[l.length - 1]) = d.length := by
    refine c4 _ fun b hb => ?_
    obtain ⟨i, hi, he⟩ := List.getElem_of_mem (hl ▸ (mem_curve d b hb).2 : b.hi ∈ l)
    rw [← he]
    rcases (show i < l.length - 1 ∨ i = l.length - 1 by omega) with h | h
    · exact ((List.pairwise_iff_getElem.1 hsort) i (l.length - 1) hi (by omega) h).le
    · simp only [h, le_refl]
  have hfirst : statesBelow d (l[0]) = 0 := by
    refine c3 _ fun b hb => ?_
    have hlo : l[0] ≤ b.lo := by
      obtain ⟨i, hi, he⟩ := List.getElem_of_mem (hl ▸ (mem_curve d b hb).1 : b.lo ∈ l)
      rw [← he]
      rcases Nat.eq_zero_or_pos i with h | h
      · simp only [h, le_refl]
      · exact ((List.pairwise_iff_getElem.1 hsort) 0 i hlpos hi h).le
    exact ⟨hlo, lt_of_le_of_lt hlo (hr b hb)⟩
  set s := l.map fun x => (statesDensity d x).1 with hs
  have hsl : s.length = l.length := by simp [hs]
  have hsg : ∀ i (h : i < l.length), s[i]'(by rw [hsl]; exact h) = statesBelow d l[i] := by
    intro i h
    simp only [hs, List.getElem_map, C47_states_density]
  rw [fermiStart]
  simp only [← hl, ← hs]
  cases hf : s.findIdx? fun x => decide (electrons < x) with
  | none =>
    rw [List.findIdx?_eq_none_iff] at hf
    have := hf (s[l.length - 1]'(by omega)) (List.getElem_mem _)
    rw [hsg _ (by omega), hlast] at this
    simp at this
    exact absurd h1 (not_lt.2 this)
  | some k =>
    rw [List.findIdx?_eq_some_iff_getElem] at hf
    obtain ⟨hk, hk1, hk2⟩ := hf
    rw [hsl] at hk
    rw [hsg k hk] at hk1
    have hk1 := of_decide_eq_true hk1
    cases k with
    | zero => rw [hfirst] at hk1; exact absurd h0 (not_le.2 hk1)
    | succ m =>
      have hm := hk2 m (Nat.lt_succ_self m)
      rw [hsg m (by omega)] at hm
      simp at hm
      have hlt : l[m] < l[m + 1] := (List.pairwise_iff_getElem.1 hsort) m (m + 1) (by omega) hk (Nat.lt_succ_self m)
      have hsplit : ∀ y ∈ l, y ≤ l[m] ∨ l[m + 1] ≤ y := by
        intro y hy
        obtain ⟨i, hi, rfl⟩ := List.getElem_of_mem hy
        rcases (show i < m ∨ i = m ∨ i = m + 1 ∨ m + 1 < i by omega) with h | h | h | h
        · exact Or.inl ((List.pairwise_iff_getElem.1 hsort) i m hi (by omega) h).le
        · subst h; exact Or.inl le_rfl
        · subst h; exact Or.inr le_rfl
        · exact Or.inr ((List.pairwise_iff_getElem.1 hsort) (m + 1) i hk hi h).le
      have p1 : (((m + 1 : ℕ) : ℤ) - 1) = (m : ℤ) := by push_cast; ring
      have g1 : pyGet s (m : ℤ) = statesBelow d l[m] := by
        rw [pyGet, if_pos (Int.natCast_nonneg _), Int.toNat_natCast, List.getD_eq_getElem _ _ (by omega), hsg]
      have g2 : pyGet s ((m : ℤ) + 1) = statesBelow d l[m + 1] := by
        rw [pyGet, if_pos (by omega), show ((m : ℤ) + 1).toNat = m + 1 by omega, List.getD_eq_getElem _ _ (by omega), hsg]
      have g3 : pyGet l (m : ℤ) = l[m] := by
        rw [pyGet, if_pos (Int.natCast_nonneg _), Int.toNat_natCast, List.getD_eq_getElem _ _ (by omega)]
      have g4 : pyGet l ((m : ℤ) + 1) = l[m + 1] := by
        rw [pyGet, if_pos (by omega), show ((m : ℤ) + 1).toNat = m + 1 by omega, List.getD_eq_getElem _ _ hk]
      simp only [p1, g1, g2, g3, g4]
      have hD : 0 < statesBelow d l[m + 1] - statesBelow d l[m] := by linarith
      have hE : 0 < l[m + 1] - l[m] := by linarith
      refine ⟨_, l[m], l[m + 1], rfl, List.getElem_mem _, List.getElem_mem _, hlt,
        fun b hb => ⟨hsplit _ (mem_curve d b hb).1, hsplit _ (mem_curve d b hb).2⟩, hm, hk1, ?_, ?_, ?_⟩
      · have : 0 ≤ (electrons - statesBelow d l[m]) / (statesBelow d l[m + 1] - statesBelow d l[m]) * (l[m + 1] - l[m]) :=
          mul_nonneg (div_nonneg (by linarith) hD.le) hE.le
        linarith
      · have : (electrons - statesBelow d l[m]) / (statesBelow d l[m + 1] - statesBelow d l[m]) < 1 := by
          rw [div_lt_one hD]; linarith
        nlinarith
      · field_simp
        ring

/-- C61.  `bandgap` raises `AssertionError` if and only if the number of electrons is not strictly between zero and the number
of bands; it is zero if the number is not an integer; else the distance between the upper end of the last filled
and the lower end of the first empty band, or zero if they overlap. -/
theorem C61_bandgap (d : DoS) (electrons : ℝ) :
    (bandgap d electrons = .error .assertionError ↔ ¬ (0 < electrons ∧ electrons < d.length)) ∧
    (0 < electrons → electrons < d.length → (∀ n : ℕ, electrons ≠ n) → bandgap d electrons = .ok 0) ∧
    (∀ (n : ℕ) (_ : 0 < n) (h : n < d.length), bandgap d n = .ok (max 0 (d[n].lo - d[n - 1].hi))) := by
  have hnon : 0 ≤ electrons → electrons ≤ d.length → (∀ n : ℕ, electrons ≠ n) → bandgap d electrons = .ok 0 := by
    intro h0 h1 h2
    rw [bandgap, if_neg (not_not.2 ⟨h0, h1⟩)]
    simp only
    refine (if_pos ?_).trans rfl
    rw [Ne, pyRound_eq_iff]
    rintro ⟨z, rfl⟩
    have hz : 0 ≤ z := by exact_mod_cast h0
    exact h2 z.toNat (by exact_mod_cast (Int.toNat_of_nonneg hz).symm)
  have hint : ∀ (n : ℕ) (_ : 0 < n) (h : n < d.length), bandgap d n = .ok (max 0 (d[n].lo - d[n - 1].hi)) := by
    intro n h0 h1
    rw [bandgap, if_neg (not_not.2 ⟨Nat.cast_nonneg _, by exact_mod_cast h1.le⟩)]
    simp only [pyRound_nat]
    rw [if_neg (by simp), if_neg (not_not.2 ⟨by exact_mod_cast h0, by exact_mod_cast h1⟩)]
    have t1 : ((n : ℤ) - 1).toNat = n - 1 := by omega
    rw [t1, Int.toNat_natCast, List.getElem?_eq_getElem (by omega), List.getElem?_eq_getElem h1]
    simp only
    by_cases hg : d[n - 1].hi < d[n].lo
    · rw [if_pos hg, max_eq_right (by linarith)]
    · rw [if_neg hg, max_eq_left (by linarith)]
  refine ⟨?_, fun h0 h1 h2 => hnon h0.le h1.le h2, hint⟩
  by_cases h : 0 ≤ electrons ∧ electrons ≤ d.length
  · by_cases hz : ∃ n : ℕ, electrons = n
    · obtain ⟨n, rfl⟩ := hz
      have hle : n ≤ d.length := by exact_mod_cast h.2
      by_cases hn : 0 < n ∧ n < d.length
      · rw [hint n hn.1 hn.2]
        have : (0 : ℝ) < n ∧ (n : ℝ) < d.length := ⟨by exact_mod_cast hn.1, by exact_mod_cast hn.2⟩
        simp [this]
      · have e1 : bandgap d n = .error .assertionError := by
          rw [bandgap, if_neg (not_not.2 h)]
          simp only [pyRound_nat]
          rw [if_neg (by simp), if_pos]
          rintro ⟨a, b⟩
          exact hn ⟨by exact_mod_cast a, by exact_mod_cast b⟩
        rw [e1]
        simp only [true_iff]
        rintro ⟨a, b⟩
        exact hn ⟨by exact_mod_cast a, by exact_mod_cast b⟩
    · push Not at hz
      rw [hnon h.1 h.2 hz]
      have a : 0 < electrons := lt_of_le_of_ne h.1 (fun h => hz 0 (by simpa using h.symm))
      have b : electrons < d.length := lt_of_le_of_ne h.2 (hz _)
      simp [a, b]
  · have e1 : bandgap d electrons = .error .assertionError := by rw [bandgap, if_pos h]
    rw [e1]
    simp only [true_iff]
    exact fun hc => h ⟨hc.1.le, hc.2.le⟩

/-- C61.  A positive gap is an interval around the Fermi energy, of the returned width, in which no band is cut, the
number of states is the number of electrons and the density is zero (for ordered bands). -/
theorem C61_gap_interval (d : DoS) (ho : Spec.Ordered d) (hr : ∀ b ∈ d, b.lo ≤ b.hi) (electrons g tol : ℝ) (maxsteps : ℕ)
    (h : bandgap d electrons = .ok g) :
    0 ≤ g ∧ (0 < g → ∃ mu, fermiEnergy d electrons tol maxsteps = .ok mu ∧
      ∀ e, mu - g / 2 < e → e < mu + g / 2 → statesBelow d e = electrons ∧ cutBandIndices d e = [] ∧ density d e = 0) := by
  have hin : 0 < electrons ∧ electrons < d.length := by
    by_contra hc
    rw [(C61_bandgap d electrons).1.2 hc] at h
    cases h
  by_cases hz : ∃ n : ℕ, electrons = n
  · obtain ⟨n, rfl⟩ := hz
    have h0 : 0 < n := by exact_mod_cast hin.1
    have h1 : n < d.length := by exact_mod_cast hin.2
    rw [(C61_bandgap d n).2.2 n h0 h1, Except.ok.injEq] at h
    refine ⟨h ▸ le_max_left _ _, fun hg => ?_⟩
    have hgap : d[n - 1].hi < d[n].lo := by
      by_contra hc
      rw [max_eq_left (by linarith)] at h
      exact absurd hg (by rw [← h]; exact lt_irrefl _)
    rw [max_eq_right (by linarith)] at h
    refine ⟨_, (C48_gap d n tol maxsteps h0 h1 hgap).1, fun e he1 he2 => ?_⟩
    have l1 : d[n - 1].hi < e := by linarith
    have l2 : e < d[n].lo := by linarith
    have hcut : cutBandIndices d e = [] := by
      rw [List.eq_nil_iff_forall_not_mem]
      intro i hi
      obtain ⟨b, hb, hb1, hb2⟩ := ((C47_cut d e).1 i).1 hi
      obtain ⟨hid, rfl⟩ := List.getElem?_eq_some_iff.1 hb
      rcases lt_or_ge i n with hin | hin
      · have : d[i].hi ≤ d[n - 1].hi := by
          rcases (show i < n - 1 ∨ i = n - 1 by omega) with h | h
          · exact ((List.pairwise_iff_getElem.1 ho) i (n - 1) (by omega) (by omega) h).2
          · simp only [h, le_refl]
        linarith
      · have : d[n].lo ≤ d[i].lo := by
          rcases hin.lt_or_eq with h | h
          · exact ((List.pairwise_iff_getElem.1 ho) n i (by omega) (by omega) h).1
          · simp only [h, le_refl]
        linarith
    exact ⟨states_in_gap d ho n h1 h0 e l1.le l2.le (hr _ (List.getElem_mem _)) (Or.inl l2), hcut,
      ((C47_cut d e).2.2 hcut).2⟩
  · push Not at hz
    rw [(C61_bandgap d electrons).2.1 hin.1 hin.2 hz, Except.ok.injEq] at h
    exact ⟨h.le, fun hg => absurd hg (by rw [← h]; exact lt_irrefl _)⟩

/-- C61.  For ordered bands `energy_range` contains all bands and is as small as possible; without bands it raises `IndexError`. -/
theorem C61_energy_range (d : DoS) (ho : Spec.Ordered d) :
    (d = [] → energyRange d = .error .indexError) ∧
    (d ≠ [] → ∃ a b, energyRange d = .ok (a, b) ∧ (∀ x ∈ d, a ≤ x.lo ∧ x.hi ≤ b) ∧ (∃ x ∈ d, x.lo = a) ∧ ∃ x ∈ d, x.hi = b) := by
  constructor
  · rintro rfl; rfl
  · intro hne
    have hd : 0 < d.length := List.length_pos_iff.2 hne
    refine ⟨d[0].lo, d[d.length - 1].hi, ?_, fun x hx => ?_, ⟨_, List.getElem_mem _, rfl⟩, ⟨_, List.getElem_mem _, rfl⟩⟩
    · rw [energyRange, List.head?_eq_getElem?, List.getLast?_eq_getElem?, List.getElem?_eq_getElem hd,
        List.getElem?_eq_getElem (by omega)]
    · obtain ⟨i, hi, rfl⟩ := List.getElem_of_mem hx
      constructor
      · rcases Nat.eq_zero_or_pos i with h | h
        · simp only [h, le_refl]
        · exact ((List.pairwise_iff_getElem.1 ho) 0 i hd hi h).1
      · rcases (show i < d.length - 1 ∨ i = d.length - 1 by omega) with h | h
        · exact ((List.pairwise_iff_getElem.1 ho) i (d.length - 1) hi (by omega) h).2
        · simp only [h, le_refl]

/-- Grids on the same points with values ordered at every point give ordered bands (the band energies of a
model are sorted at every k point). -/
theorem grid_ordered (gs : List Grid) (hg : ∀ g ∈ gs, 0 < g.n0 ∧ 0 < g.n1 ∧ 0 < g.n2)
    (hs : gs.Pairwise fun a b => a.points = b.points ∧ ∀ p ∈ a.points, a.get p.1 p.2.1 p.2.2 ≤ b.get p.1 p.2.1 p.2.2) :
    Spec.Ordered (gs.map Band.cubes) ∧ Spec.Ordered (gs.map Band.spheres) := by
  have key : gs.Pairwise fun a b => a.range.1 ≤ b.range.1 ∧ a.range.2 ≤ b.range.2 := by
    refine List.Pairwise.imp_of_mem ?_ hs
    rintro a b ha hb ⟨hp, hv⟩
    obtain ⟨a1, a2, a3⟩ := range_spec a (hg a ha)
    obtain ⟨b1, b2, b3⟩ := range_spec b (hg b hb)
    constructor
    · obtain ⟨p, hpm, he⟩ := List.mem_map.1 b2
      rw [← he]
      rw [← hp] at hpm
      exact (a1 _ (List.mem_map.2 ⟨p, hpm, rfl⟩)).1.trans (hv p hpm)
    · obtain ⟨p, hpm, he⟩ := List.mem_map.1 a3
      rw [← he]
      exact (hv p hpm).trans (b1 _ (List.mem_map.2 ⟨p, hp ▸ hpm, rfl⟩)).2
  exact ⟨List.pairwise_map.2 key, List.pairwise_map.2 key⟩

theorem exGrids_ordered : Spec.Ordered (exGrids.map Band.cubes) := by
  refine (grid_ordered exGrids (by simp [exGrids]) ?_).1
  simp only [exGrids, List.pairwise_cons, List.mem_cons, List.not_mem_nil, or_false, forall_eq, IsEmpty.forall_iff,
    implies_true, List.Pairwise.nil, and_true]
  refine ⟨rfl, ?_⟩
  norm_num [Grid.points, List.range_succ]

theorem exGrids_ranges : (exGrids.map Band.cubes).map (fun b => (b.lo, b.hi)) = [(0, 7), (10, 11)] := by
  have h := exGrids_values
  simp only [exGrids, List.map_cons, List.map_nil, List.cons.injEq, and_true] at h
  simp only [exGrids, List.map_cons, List.map_nil, Band.cubes, Grid.range, h.1, h.2]
  norm_num

/-- One electron in the bands of the example: the gap is from 7 to 10. -/
example : fermiEnergy (exGrids.map Band.cubes) 1 (1 / 10 ^ 6) 20 = .ok (17 / 2) ∧
    statesBelow (exGrids.map Band.cubes) (17 / 2) = 1 ∧ bandgap (exGrids.map Band.cubes) 1 = .ok 3 := by
  have hr := exGrids_ranges
  simp only [exGrids, List.map_cons, List.map_nil, List.cons.injEq, and_true, Prod.mk.injEq] at hr
  have hgap : ((exGrids.map Band.cubes)[0]'(by simp [exGrids])).hi < ((exGrids.map Band.cubes)[1]'(by simp [exGrids])).lo := by
    simp only [exGrids, List.map_cons, List.map_nil, List.getElem_cons_zero, List.getElem_cons_succ]
    rw [hr.1.2, hr.2.1]; norm_num
  have k := C48_gap (exGrids.map Band.cubes) 1 (1 / 10 ^ 6) 20 (by norm_num) (by simp [exGrids]) hgap
  have k2 := (C61_bandgap (exGrids.map Band.cubes) 1).2.2 1 (by norm_num) (by simp [exGrids])
  have k3 := k.2 exGrids_ordered
  simp only [exGrids, List.map_cons, List.map_nil, List.getElem_cons_zero, List.getElem_cons_succ, Nat.sub_self] at k k2 k3
  rw [hr.1.2, hr.2.1] at k k2 k3
  rw [hr.2.2] at k3
  norm_num at k k2 k3
  norm_num [exGrids]
  exact ⟨k.1, k3, k2⟩

end TB.Dos

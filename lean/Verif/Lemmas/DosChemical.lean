import Verif.Lemmas.DosThermal
import Mathlib.Data.List.GetD

/-!
# The loop of `chemical_potential`
-/

namespace TB.Dos

/-- The sample points used for the temperature at position `i` were computed for the temperature at position `j`: from there on no
temperature differs from the one before by more than 5 percent. -/
structure Spec.Ref (Ts : List ℝ) (i j : ℕ) : Prop where
  le : j ≤ i
  pos : 0 < Ts.getD j 0
  small : ∀ m, j ≤ m → m < i → |Ts.getD (m + 1) 0 / Ts.getD m 0 - 1| ≤ 1 / 20
  start : j = 0 ∨ Ts.getD (j - 1) 0 ≤ 0 ∨ 1 / 20 < |Ts.getD j 0 / Ts.getD (j - 1) 0 - 1|

/-- The result of `chemical_potential` for the temperature at position `i`. -/
structure ChemArgs.Result (c : ChemArgs) (Ts : List ℝ) (i : ℕ) (r : Option ℝ) : Prop where
  zero : Ts.getD i 0 ≤ 0 → r = some c.fermi
  high : 0 < Ts.getD i 0 → c.tLin ≤ Ts.getD i 0 →
    solve c.electrons c.tol c.maxsteps (1 / (kB * Ts.getD i 0)) c.fermi (c.fermi + 1 / 10) c.linCurve .flat = .ok r
  low : 0 < Ts.getD i 0 → Ts.getD i 0 < c.tLin → ∃ j, Spec.Ref Ts i j ∧
    solve c.electrons c.tol c.maxsteps (1 / (kB * Ts.getD i 0)) c.fermi (c.fermi + 1 / (1 / (kB * Ts.getD i 0)))
      (c.curve (Ts.getD j 0)) (.point c.e1 c.d.length) = .ok r

theorem getD_append_left' (l : List ℝ) (T : ℝ) (i : ℕ) (h : i < l.length) : (l ++ [T]).getD i 0 = l.getD i 0 := by
  rw [List.getD_append _ _ _ _ h]

theorem getD_append_last (l : List ℝ) (T : ℝ) : (l ++ [T]).getD l.length 0 = T := by
  rw [List.getD_append_right _ _ _ _ le_rfl]; simp

theorem Spec.Ref.append {Ts : List ℝ} {i j : ℕ} (h : Spec.Ref Ts i j) (hi : i < Ts.length) (T : ℝ) : Spec.Ref (Ts ++ [T]) i j := by
  have hj := h.le
  refine ⟨h.le, ?_, fun m h1 h2 => ?_, ?_⟩
  · rw [getD_append_left' _ _ _ (by omega)]; exact h.pos
  · rw [getD_append_left' _ _ _ (by omega), getD_append_left' _ _ _ (by omega)]; exact h.small m h1 h2
  · rw [getD_append_left' _ _ _ (by omega), getD_append_left' _ _ _ (by omega)]; exact h.start

theorem Spec.Ref.next {Ts : List ℝ} {i j : ℕ} (h : Spec.Ref Ts i j) (hi : i + 1 = Ts.length) (T : ℝ)
    (hs : |T / Ts.getD i 0 - 1| ≤ 1 / 20) : Spec.Ref (Ts ++ [T]) (i + 1) j := by
  have hj := h.le
  refine ⟨by omega, ?_, fun m h1 h2 => ?_, ?_⟩
  · rw [getD_append_left' _ _ _ (by omega)]; exact h.pos
  · rcases Nat.lt_or_ge m i with hm | hm
    · rw [getD_append_left' _ _ _ (by omega), getD_append_left' _ _ _ (by omega)]; exact h.small m h1 hm
    · have : m = i := by omega
      subst this
      rw [hi, getD_append_last, getD_append_left' _ _ _ (by omega)]; exact hs
  · rw [getD_append_left' _ _ _ (by omega), getD_append_left' _ _ _ (by omega)]; exact h.start

theorem ChemArgs.Result.append {c : ChemArgs} {Ts : List ℝ} {i : ℕ} {r : Option ℝ} (h : c.Result Ts i r) (hi : i < Ts.length) (T : ℝ) :
    c.Result (Ts ++ [T]) i r := by
  refine ⟨?_, ?_, ?_⟩
  · rw [getD_append_left' _ _ _ hi]; exact h.zero
  · rw [getD_append_left' _ _ _ hi]; exact h.high
  · rw [getD_append_left' _ _ _ hi]
    intro h1 h2
    obtain ⟨j, h3, h4⟩ := h.low h1 h2
    have := h3.le
    refine ⟨j, h3.append hi T, ?_⟩
    rw [getD_append_left' _ _ _ (by omega)]
    exact h4

/-- The loop is processed from left to right. -/
theorem ChemArgs.loop_append (c : ChemArgs) (s : ChemState) (Ts : List ℝ) (T : ℝ) :
    c.loop s (Ts ++ [T]) = match c.loop s Ts with | .error e => .error e | .ok s => c.step s T := by
  rw [ChemArgs.loop, List.foldl_append, List.foldl_cons, List.foldl_nil]
  rfl

/-- What holds after the temperatures `Ts` were processed. -/
structure ChemArgs.Inv (c : ChemArgs) (Ts : List ℝ) (s : ChemState) : Prop where
  length : s.res.length = Ts.length
  res : ∀ i, i < Ts.length → c.Result Ts i (s.res.getD i none)
  none : (∀ T ∈ Ts, T ≤ 0) → s.beta = -10000
  some : ∀ i, i + 1 = Ts.length → 0 < Ts.getD i 0 → Ts.getD i 0 < c.tLin → s.beta = 1 / (kB * Ts.getD i 0) ∧
    ∃ j, Spec.Ref Ts i j ∧ s.curve = .some (c.curve (Ts.getD j 0))

theorem ChemArgs.curve_ne (c : ChemArgs) (T : ℝ) (hN : 0 < c.N) : c.curve T ≠ [] := by
  rw [ChemArgs.curve, stateCurve, Ne, List.map_eq_nil_iff, ← List.length_eq_zero_iff, samples_length]
  omega

theorem ChemArgs.linCurve_ne (c : ChemArgs) (hN : 0 < c.N) : c.linCurve ≠ [] := by
  rw [ChemArgs.linCurve, stateCurve, Ne, List.map_eq_nil_iff, ← List.length_eq_zero_iff, linspace, List.length_map, List.length_range]
  omega

theorem result_snoc {c : ChemArgs} {Ts : List ℝ} {l : List (Option ℝ)} {T : ℝ} {x : Option ℝ} (hl : l.length = Ts.length)
    (h : ∀ i, i < Ts.length → c.Result Ts i (l.getD i none)) (hx : c.Result (Ts ++ [T]) Ts.length x) :
    ∀ i, i < (Ts ++ [T]).length → c.Result (Ts ++ [T]) i ((l ++ [x]).getD i none) := by
  intro i hi
  rw [List.length_append, List.length_singleton] at hi
  rcases Nat.lt_or_ge i Ts.length with h1 | h1
  · rw [List.getD_append _ _ _ _ (by omega)]
    exact (h i h1).append h1 T
  · have : i = Ts.length := by omega
    subst this
    rw [List.getD_append_right _ _ _ _ (by omega)]
    simp only [hl, Nat.sub_self, List.getD_cons_zero]
    exact hx

/-- For sorted temperatures the loop never raises, and the results are those of the specification. -/
theorem ChemArgs.loop_spec (c : ChemArgs) (hN : 0 < c.N) (Ts : List ℝ) (hs : Ts.Pairwise (· ≤ ·)) :
    ∃ s, c.loop ⟨-10000, .none, []⟩ Ts = .ok s ∧ c.Inv Ts s := by
  induction Ts using List.reverseRecOn with
  | nil => exact ⟨_, rfl, rfl, fun i hi => absurd hi (by simp), fun _ => rfl, fun i hi => absurd hi (by simp)⟩
  | append_singleton Ts T ih =>
    rw [List.pairwise_append] at hs
    obtain ⟨hs1, -, hs2⟩ := hs
    have hs3 : ∀ i, i < Ts.length → Ts.getD i 0 ≤ T := fun i hi => by
      rw [List.getD_eq_getElem _ _ hi]
      exact hs2 _ (List.getElem_mem hi) T (List.mem_singleton_self T)
    obtain ⟨s, e1, I⟩ := ih hs1
    rw [ChemArgs.loop_append, e1]
    simp only
    have hlast := getD_append_last Ts T
    rw [ChemArgs.step]
    by_cases hT : T ≤ 0
    · rw [if_pos hT]
      have hx : c.Result (Ts ++ [T]) Ts.length (.some c.fermi) := by
        refine ⟨fun _ => rfl, fun h => absurd h (by rw [hlast]; linarith), fun h => absurd h (by rw [hlast]; linarith)⟩
      refine ⟨_, rfl, ?_, result_snoc I.length I.res hx, ?_, ?_⟩
      · simp [I.length]
      · intro h
        exact I.none fun T' hT' => h T' (List.mem_append_left _ hT')
      · intro i hi h
        have : i = Ts.length := by simpa using hi
        rw [this, hlast] at h
        linarith
    · rw [if_neg hT]
      have hT0 : 0 < T := by linarith
      by_cases hL : c.tLin ≤ T
      · rw [if_pos hL]
        obtain ⟨x, hx⟩ := solve_ok c.electrons c.tol c.maxsteps (1 / (kB * T)) c.fermi (c.fermi + 1 / 10) c.linCurve .flat
          (c.linCurve_ne hN)
        rw [hx]
        have hr : c.Result (Ts ++ [T]) Ts.length x := by
          refine ⟨fun h => absurd h (by rw [hlast]; linarith), fun _ _ => by rw [hlast]; exact hx, fun _ h => absurd h ?_⟩
          rw [hlast]; linarith
        refine ⟨_, rfl, ?_, result_snoc I.length I.res hr, ?_, ?_⟩
        · simp [I.length]
        · intro h
          exact absurd (h T (List.mem_append_right _ (List.mem_singleton_self T))) hT
        · intro i hi _ h
          have : i = Ts.length := by simpa using hi
          rw [this, hlast] at h
          linarith
      · rw [if_neg hL]
        have hL' : T < c.tLin := by linarith
        have hnew : 0 < 1 / (kB * T) := by have := kB_pos; positivity
        -- the curve used
        have hcurve : ∃ j, Spec.Ref (Ts ++ [T]) Ts.length j ∧
            (if 5 / 100 < |s.beta - 1 / (kB * T)| / (1 / (kB * T)) then .some (c.curve T) else s.curve) =
              .some (c.curve ((Ts ++ [T]).getD j 0)) := by
          by_cases hneg : ∀ T' ∈ Ts, T' ≤ 0
          · have hb := I.none hneg
            have h1 : 5 / 100 < |s.beta - 1 / (kB * T)| / (1 / (kB * T)) := by
              rw [hb, lt_div_iff₀ hnew, abs_of_neg (by linarith)]
              linarith
            refine ⟨Ts.length, ⟨le_rfl, by rw [hlast]; exact hT0, fun m h1 h2 => absurd h2 (by omega), ?_⟩, ?_⟩
            · rcases Nat.eq_zero_or_pos Ts.length with h | h
              · exact Or.inl h
              · refine Or.inr (Or.inl ?_)
                rw [getD_append_left' _ _ _ (by omega), List.getD_eq_getElem _ _ (by omega)]
                exact hneg _ (List.getElem_mem _)
            · rw [if_pos h1, hlast]
          · push Not at hneg
            obtain ⟨T', hT', hp⟩ := hneg
            have hlen : 0 < Ts.length := List.length_pos_of_mem hT'
            have hi : Ts.length - 1 + 1 = Ts.length := by omega
            have hTl : 0 < Ts.getD (Ts.length - 1) 0 := by
              obtain ⟨k, hk, rfl⟩ := List.getElem_of_mem hT'
              rw [List.getD_eq_getElem _ _ (by omega)]
              rcases (show k < Ts.length - 1 ∨ k = Ts.length - 1 by omega) with h | h
              · exact hp.trans_le ((List.pairwise_iff_getElem.1 hs1) k _ hk (by omega) h)
              · subst h; exact hp
            have hTl2 : Ts.getD (Ts.length - 1) 0 < c.tLin := (hs3 _ (by omega)).trans_lt hL'
            obtain ⟨b1, j, b2, b3⟩ := I.some _ hi hTl hTl2
            have hch := beta_change (Ts.getD (Ts.length - 1) 0) T hTl hT0
            by_cases hbig : 5 / 100 < |s.beta - 1 / (kB * T)| / (1 / (kB * T))
            · rw [if_pos hbig]
              rw [b1, hch] at hbig
              refine ⟨Ts.length, ⟨le_rfl, by rw [hlast]; exact hT0, fun m h1 h2 => absurd h2 (by omega), ?_⟩, by rw [hlast]⟩
              refine Or.inr (Or.inr ?_)
              rw [hlast, getD_append_left' _ _ _ (by omega)]
              linarith
            · rw [if_neg hbig]
              rw [b1, hch] at hbig
              have hn := b2.next hi T (by linarith)
              rw [hi] at hn
              have hjl := b2.le
              exact ⟨j, hn, by rw [b3, getD_append_left' _ _ _ (by omega)]⟩
        obtain ⟨j, hj, hc⟩ := hcurve
        simp only [hc]
        obtain ⟨x, hx⟩ := solve_ok c.electrons c.tol c.maxsteps (1 / (kB * T)) c.fermi (c.fermi + 1 / (1 / (kB * T)))
          (c.curve ((Ts ++ [T]).getD j 0)) (.point c.e1 c.d.length) (c.curve_ne _ hN)
        rw [hx]
        have hr : c.Result (Ts ++ [T]) Ts.length x := by
          refine ⟨fun h => absurd h (by rw [hlast]; linarith), fun _ h => absurd h (by rw [hlast]; linarith), fun _ _ => ?_⟩
          exact ⟨j, hj, by rw [hlast]; exact hx⟩
        refine ⟨_, rfl, ?_, result_snoc I.length I.res hr, ?_, ?_⟩
        · simp [I.length]
        · intro h
          exact absurd (h T (List.mem_append_right _ (List.mem_singleton_self T))) hT
        · intro i hi _ _
          have : i = Ts.length := by simpa using hi
          subst this
          exact ⟨by rw [hlast], j, hj, rfl⟩

end TB.Dos

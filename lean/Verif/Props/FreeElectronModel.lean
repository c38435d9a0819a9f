import Verif.Model.FreeElectronModel
import Verif.Lemmas.FreeElectronModel
import Verif.Props.SupercellEx
import Verif.Props.TbModel
import Verif.Props.Fourier

/-!
# C98: `free_electron_model_orthogonal`

The bands are compared with the parabola `|k|²` and its translates by the reciprocal lattice.
-/

namespace TB.FE
open Matrix TB.SC

/-! ## Specification -/

/-- One axis of the band of the model with `N - 1` neighbours in each direction: the truncated Fourier series of the parabola. -/
noncomputable def axisEnergy (a : ℝ) (N : ℕ) (q : ℝ) : ℝ :=
  1 / (12 * a ^ 2) + ∑ n ∈ Finset.Ico 1 N, (-1) ^ n / (Real.pi ^ 2 * a ^ 2 * n ^ 2) * Real.cos (2 * Real.pi * (q * a) * n)

noncomputable def energy (v : Fin 3 → ℝ) (N : ℕ) (q : RVec 3) : ℝ := ∑ l, axisEnergy (v l) N (q l)

theorem axis_bound {a q : ℝ} (ha : a ≠ 0) {N : ℕ} (hN : 1 ≤ N) (h : |q * a| ≤ 1 / 2) :
    |axisEnergy a N q - q ^ 2| ≤ 2 / (Real.pi ^ 2 * N) / a ^ 2 := by
  have hb := parabola_bound h hN
  have hpi := Real.pi_pos
  have e : axisEnergy a N q - q ^ 2 = ((∑ n ∈ Finset.Ico 1 N, (-1 : ℝ) ^ n / (n : ℝ) ^ 2 * Real.cos (2 * Real.pi * (q * a) * n))
      - Real.pi ^ 2 * ((q * a) ^ 2 - 1 / 12)) / (Real.pi ^ 2 * a ^ 2) := by
    rw [axisEnergy, sub_div, Finset.sum_div]
    have : ∀ n ∈ Finset.Ico 1 N, (-1 : ℝ) ^ n / (Real.pi ^ 2 * a ^ 2 * n ^ 2) * Real.cos (2 * Real.pi * (q * a) * n) =
        (-1 : ℝ) ^ n / (n : ℝ) ^ 2 * Real.cos (2 * Real.pi * (q * a) * n) / (Real.pi ^ 2 * a ^ 2) := by
      intro n hn
      have : (n : ℝ) ≠ 0 := by have := (Finset.mem_Ico.1 hn).1; positivity
      field_simp
    rw [Finset.sum_congr rfl this, ← Finset.sum_div]
    generalize (∑ n ∈ Finset.Ico 1 N, (-1 : ℝ) ^ n / (n : ℝ) ^ 2 * Real.cos (2 * Real.pi * (q * a) * n)) = S
    field_simp
    ring
  rw [e, abs_div, abs_of_pos (by positivity : 0 < Real.pi ^ 2 * a ^ 2)]
  refine (div_le_div_of_nonneg_right hb (by positivity)).trans (le_of_eq ?_)
  have : (N : ℝ) ≠ 0 := by positivity
  field_simp

/-! ## The one band model -/

variable {a b c : ℝ}

/-- The neighbour `n` on the axis `l`. -/
def axisVec (v : Fin 3 → ℝ) (l : Fin 3) (n : ℤ) : RVec 3 := Pi.single l (v l * n)

theorem axis_vecs (n : ℕ) : [![a * n, 0, 0], ![0, b * n, 0], ![0, 0, c * n]] =
    (List.finRange 3).map fun l => axisVec ![a, b, c] l n := by
  have : List.finRange 3 = [0, 1, 2] := by decide
  rw [this]
  simp only [List.map_cons, List.map_nil, List.cons.injEq, and_true]
  refine ⟨?_, ?_, ?_⟩ <;> (funext i; fin_cases i <;> simp [axisVec])

theorem mem_neighbors {N : ℕ} (hN : 1 ≤ N) (x : RVec 3) :
    x ∈ feNeighbors a b c N ↔ ∃ l, ∃ n : ℕ, n < N ∧ x = axisVec ![a, b, c] l n := by
  simp only [feNeighbors, axis_vecs, List.mem_cons, List.mem_flatMap, List.mem_map, List.mem_range'_1, List.mem_finRange, true_and]
  constructor
  · rintro (rfl | ⟨n, hn, l, rfl⟩)
    · exact ⟨0, 0, by omega, by simp [axisVec]⟩
    · exact ⟨l, n, by omega, rfl⟩
  · rintro ⟨l, n, hn, rfl⟩
    by_cases h0 : n = 0
    · left; subst h0; simp [axisVec]
    · exact .inr ⟨n, by omega, l, rfl⟩

theorem axisVec_inj {v : Fin 3 → ℝ} (hv : ∀ l, v l ≠ 0) {l l' : Fin 3} {n n' : ℤ} (hn : n ≠ 0)
    (h : axisVec v l n = axisVec v l' n') : l = l' ∧ n = n' := by
  have h1 := congrFun h l
  by_cases hl : l = l'
  · subst hl
    simp only [axisVec, Pi.single_eq_same] at h1
    exact ⟨rfl, by exact_mod_cast mul_left_cancel₀ (hv l) h1⟩
  · simp only [axisVec, Pi.single_eq_same, Pi.single_eq_of_ne hl] at h1
    have : (n : ℝ) = 0 := by simpa [hv l] using h1
    exact absurd (by exact_mod_cast this) hn

theorem axisVec_eq_zero {v : Fin 3 → ℝ} (hv : ∀ l, v l ≠ 0) {l : Fin 3} {n : ℤ} (h : axisVec v l n = 0) : n = 0 := by
  by_contra hn
  have := axisVec_inj hv (l' := l) (n' := 0) hn (by rw [h]; simp [axisVec])
  exact hn this.2

theorem neighbors_nodup (hv : ∀ l, (![a, b, c] : Fin 3 → ℝ) l ≠ 0) (N : ℕ) : (feNeighbors a b c N).Nodup := by
  simp only [feNeighbors, axis_vecs]
  refine List.nodup_cons.2 ⟨?_, ?_⟩
  · simp only [List.mem_flatMap, List.mem_map, List.mem_range'_1, not_exists, not_and]
    intro n hn l _ h0
    have := axisVec_eq_zero hv h0
    omega
  · refine List.nodup_flatMap.2 ⟨fun n hn => ?_, ?_⟩
    · refine (List.nodup_finRange 3).map_on fun l _ l' _ h => ?_
      have := List.mem_range'_1.1 hn
      exact (axisVec_inj hv (by omega) h).1
    · refine List.Pairwise.imp_of_mem (fun {n n'} hn _ hne => ?_) (List.nodup_range' : (List.range' 1 (N - 1)).Nodup)
      intro x hx hx'
      obtain ⟨l, -, rfl⟩ := List.mem_map.1 hx
      obtain ⟨l', -, h⟩ := List.mem_map.1 hx'
      have := List.mem_range'_1.1 hn
      have h2 := (axisVec_inj hv (by omega) h.symm).2
      exact hne (by exact_mod_cast h2)

theorem neighbors_halved (hv : ∀ l, (![a, b, c] : Fin 3 → ℝ) l ≠ 0) {N : ℕ} (hN : 1 ≤ N) : Halved (feNeighbors a b c N) := by
  refine ⟨neighbors_nodup hv N, fun r hr hr' => ?_⟩
  obtain ⟨l, n, -, rfl⟩ := (mem_neighbors hN _).1 hr
  obtain ⟨l', n', -, h⟩ := (mem_neighbors hN _).1 hr'
  by_contra h0
  have hn : (n : ℤ) ≠ 0 := fun h => h0 (by rw [h]; simp [axisVec])
  have e : -axisVec ![a, b, c] l n = axisVec ![a, b, c] l (-n : ℤ) := by
    funext i
    by_cases hi : i = l
    · subst hi; simp [axisVec]
    · simp [axisVec, hi]
  rw [e] at h
  have := (axisVec_inj hv (by omega) h).2
  omega

theorem coeff_axis (hv : ∀ l, (![a, b, c] : Fin 3 → ℝ) l ≠ 0) (l : Fin 3) {n : ℕ} (hn : n ≠ 0) :
    feCoeff a b c (axisVec ![a, b, c] l n) = 2 * (-1) ^ n / ((![a, b, c] : Fin 3 → ℝ) l * n) ^ 2 := by
  have ha : a ≠ 0 := hv 0
  have hb : b ≠ 0 := hv 1
  have hc : c ≠ 0 := hv 2
  have hn' : (n : ℝ) ≠ 0 := by exact_mod_cast hn
  fin_cases l <;> simp [feCoeff, axisVec, ha, hb, hc, hn']

theorem mapIdx_const {α β : Type} (f : α → β) (l : List α) : (l.mapIdx fun _ x => f x) = l.map f := by
  induction l with
  | nil => rfl
  | cons x l ih => simp [List.mapIdx_cons, ih]

theorem matrices_eq (N : ℕ) : feMatrices a b c N =
    (scal ((Real.pi ^ 2 * (1 / a ^ 2 + 1 / b ^ 2 + 1 / c ^ 2) / 3 : ℝ) : ℂ)) ::
      (feNeighbors a b c N).tail.map fun x => scal (feCoeff a b c x : ℂ) := by
  rw [feMatrices, feNeighbors, List.mapIdx_cons, List.tail_cons, if_pos rfl]
  simp only [Nat.add_eq_zero_iff, one_ne_zero, and_false, if_false]
  rw [mapIdx_const]

/-- The one band model before `supercell`. -/
noncomputable def base (a b c : ℝ) (N : ℕ) : Tb 3 1 :=
  ⟨⟨(0, scal ((Real.pi ^ 2 * (1 / a ^ 2 + 1 / b ^ 2 + 1 / c ^ 2) / 3 : ℝ) : ℂ)) ::
    (feNeighbors a b c N).tail.map fun x => (x, scal (feCoeff a b c x : ℂ))⟩, ⟨[(0, 1)]⟩⟩

theorem zip_map_self {α β : Type} (f : α → β) (l : List α) : l.zip (l.map f) = l.map fun x => (x, f x) := by
  induction l with
  | nil => rfl
  | cons x l ih => simp [ih]

theorem mkSeries_base (N : ℕ) : mkSeries (feNeighbors a b c N) (feMatrices a b c N) = .ok (base a b c N).H := by
  refine mkSeries_ok.2 ⟨⟨_, rfl⟩, ?_, ?_⟩
  · rw [feMatrices, List.length_mapIdx]
  · rw [matrices_eq, base]
    rw [feNeighbors, List.tail_cons, List.zip_cons_cons, zip_map_self]

theorem base_fst (N : ℕ) : (base a b c N).H.terms.map Prod.fst = feNeighbors a b c N := by
  rw [base, List.map_cons, List.map_map]
  simp [feNeighbors, Function.comp_def]

theorem scal_pair (y r : ℝ) :
    Complex.exp (2 * Real.pi * Complex.I * (y : ℂ)) • scal (r : ℂ) + (Complex.exp (2 * Real.pi * Complex.I * (y : ℂ)) • scal (r : ℂ))ᴴ =
      scal ((r * (2 * Real.cos (2 * Real.pi * y)) : ℝ) : ℂ) := by
  ext i j
  simp only [scal, Matrix.add_apply, Matrix.smul_apply, Matrix.conjTranspose_apply, Matrix.of_apply, smul_eq_mul, star_mul',
    Complex.star_def, Complex.conj_ofReal, ← Complex.exp_conj, map_mul, Complex.conj_I]
  have h2 : (starRingEnd ℂ) 2 = 2 := Complex.conj_ofNat 2
  rw [h2]
  have e1 : 2 * (Real.pi : ℂ) * Complex.I * (y : ℂ) = (2 * Real.pi * y : ℂ) * Complex.I := by ring
  have e2 : 2 * (Real.pi : ℂ) * -Complex.I * (y : ℂ) = -(2 * Real.pi * y : ℂ) * Complex.I := by ring
  push_cast
  rw [e1, e2, Complex.two_cos]
  ring

theorem scal_sum {α : Type} (g : α → ℝ) (l : List α) : (l.map fun x => scal (g x : ℂ)).sum = scal (((l.map g).sum : ℝ) : ℂ) := by
  induction l with
  | nil => ext i j; simp [scal]
  | cons x l ih => rw [List.map_cons, List.map_cons, List.sum_cons, List.sum_cons, ih]; ext i j; simp [scal]

theorem sum_flatMap {α β : Type} (f : α → List β) (g : β → ℝ) (l : List α) :
    ((l.flatMap f).map g).sum = (l.map fun x => ((f x).map g).sum).sum := by
  induction l with
  | nil => rfl
  | cons x l ih => simp [List.flatMap_cons, ih]

theorem base_f (hv : ∀ l, (![a, b, c] : Fin 3 → ℝ) l ≠ 0) (N : ℕ) (q : RVec 3) :
    ((base a b c N).mul (1 / (2 * Real.pi) ^ 2)).H.f q = .ok (scal (energy ![a, b, c] N q : ℂ)) := by
  have h1 : (base a b c N).H.f q = .ok (scal (((2 * Real.pi) ^ 2 * energy ![a, b, c] N q : ℝ) : ℂ)) := by
    rw [base, f_eq, Spec.value, List.map_map]
    have : ∀ x ∈ (feNeighbors a b c N).tail, ((fun t : RVec 3 × CMat 1 => Complex.exp (2 * Real.pi * Complex.I * ((q ⬝ᵥ t.1 : ℝ) : ℂ)) • t.2 +
        (Complex.exp (2 * Real.pi * Complex.I * ((q ⬝ᵥ t.1 : ℝ) : ℂ)) • t.2)ᴴ) ∘ fun x => (x, scal (feCoeff a b c x : ℂ))) x =
        scal ((feCoeff a b c x * (2 * Real.cos (2 * Real.pi * (q ⬝ᵥ x))) : ℝ) : ℂ) := fun x _ => scal_pair _ _
    rw [List.map_congr_left this, scal_sum, feNeighbors, List.tail_cons, sum_flatMap]
    have h2 : ∀ n ∈ List.range' 1 (N - 1), (([![a * n, 0, 0], ![0, b * n, 0], ![0, 0, c * n]] : List (RVec 3)).map fun x =>
        feCoeff a b c x * (2 * Real.cos (2 * Real.pi * (q ⬝ᵥ x)))).sum =
        ∑ l, (2 * Real.pi) ^ 2 * ((-1) ^ n / (Real.pi ^ 2 * (![a, b, c] : Fin 3 → ℝ) l ^ 2 * n ^ 2) *
          Real.cos (2 * Real.pi * (q l * (![a, b, c] : Fin 3 → ℝ) l) * n)) := by
      intro n hn
      have hn0 : n ≠ 0 := by have := List.mem_range'_1.1 hn; omega
      have hn' : (n : ℝ) ≠ 0 := by exact_mod_cast hn0
      rw [axis_vecs, List.map_map, ← List.ofFn_eq_map, List.sum_ofFn]
      refine Finset.sum_congr rfl fun l _ => ?_
      simp only [Function.comp_apply]
      rw [coeff_axis hv l hn0, axisVec, dotProduct_single]
      have := hv l
      have hpi := Real.pi_pos.ne'
      have e : 2 * Real.pi * (q l * ((![a, b, c] : Fin 3 → ℝ) l * ((n : ℤ) : ℝ))) =
        2 * Real.pi * (q l * (![a, b, c] : Fin 3 → ℝ) l) * n := by push_cast; ring
      rw [e]
      field_simp
    rw [List.map_congr_left h2]
    have h3 : ∀ g : ℕ → ℝ, ((List.range' 1 (N - 1)).map g).sum = ∑ n ∈ Finset.Ico 1 N, g n := fun g => rfl
    rw [h3, Finset.sum_comm]
    congr 1
    have hpi := Real.pi_pos.ne'
    have ha : a ≠ 0 := hv 0
    have hb : b ≠ 0 := hv 1
    have hc : c ≠ 0 := hv 2
    have h4 : (2 * Real.pi) ^ 2 * energy ![a, b, c] N q = Real.pi ^ 2 * (1 / a ^ 2 + 1 / b ^ 2 + 1 / c ^ 2) / 3 +
      ∑ l, ∑ n ∈ Finset.Ico 1 N, (2 * Real.pi) ^ 2 * ((-1) ^ n / (Real.pi ^ 2 * (![a, b, c] : Fin 3 → ℝ) l ^ 2 * n ^ 2) *
          Real.cos (2 * Real.pi * (q l * (![a, b, c] : Fin 3 → ℝ) l) * n)) := by
      simp only [energy, axisEnergy, Finset.mul_sum, mul_add, Finset.sum_add_distrib]
      congr 1
      rw [Fin.sum_univ_three]
      simp
      field_simp
      ring
    rw [h4]
    ext i j
    simp [scal]
  have hS : (base a b c N).S.f q = .ok 1 := by rw [base, f_eq]; simp [Spec.value]
  obtain ⟨⟨h5, -⟩, -⟩ := C27_scale _ (1 / (2 * Real.pi) ^ 2) q _ _ ⟨h1, hS⟩
  rw [h5]
  congr 1
  have hpi := Real.pi_pos.ne'
  ext i j
  simp only [scal, Matrix.smul_apply, Matrix.of_apply, smul_eq_mul, ← Complex.ofReal_mul]
  congr 1
  field_simp

/-! ## The supercell -/

theorem mul_fst {d n : ℕ} (t : Tb d n) (r : ℝ) : (t.mul r).H.terms.map Prod.fst = t.H.terms.map Prod.fst := by
  simp [Tb.mul, Function.comp_def]

theorem listed_iff {N : ℕ} (hN : 1 ≤ N) (x : RVec 3) (r : ℝ) :
    Listed ((base a b c N).mul r) x ↔ ∃ l, ∃ n : ℤ, |n| < N ∧ x = axisVec ![a, b, c] l n := by
  have neg : ∀ (l : Fin 3) (n : ℤ), -axisVec ![a, b, c] l n = axisVec ![a, b, c] l (-n) := by
    intro l n
    funext i
    by_cases hi : i = l
    · subst hi; simp [axisVec]
    · simp [axisVec, hi]
  rw [Listed, mul_fst, base_fst, mem_neighbors hN, mem_neighbors hN]
  constructor
  · rintro (⟨l, n, hn, rfl⟩ | ⟨l, n, hn, h⟩)
    · exact ⟨l, n, by rw [abs_of_nonneg (by omega)]; omega, rfl⟩
    · exact ⟨l, -n, by rw [abs_neg, abs_of_nonneg (by omega)]; omega, by rw [← neg, ← h, neg_neg]⟩
  · rintro ⟨l, n, hn, rfl⟩
    rw [abs_lt] at hn
    rcases le_total 0 n with h | h
    · exact .inl ⟨l, n.toNat, by omega, by rw [Int.toNat_of_nonneg h]⟩
    · exact .inr ⟨l, (-n).toNat, by omega, by rw [Int.toNat_of_nonneg (by omega), neg]⟩

theorem diag_mulVec (v : Fin 3 → ℝ) (z : Fin 3 → ℤ) (i : Fin 3) : (Matrix.diagonal v *ᵥ fun i => (z i : ℝ)) i = v i * z i := by
  rw [Matrix.mulVec_diagonal]

theorem diag_axis {v : Fin 3 → ℝ} (hv : ∀ l, v l ≠ 0) (z : Fin 3 → ℤ) (l : Fin 3) (n : ℤ) :
    (Matrix.diagonal v *ᵥ fun i => (z i : ℝ)) = axisVec v l n ↔ z = Pi.single l n := by
  constructor
  · intro h
    funext i
    have hi := congrFun h i
    rw [diag_mulVec, axisVec] at hi
    by_cases e : i = l
    · subst e
      rw [Pi.single_eq_same] at hi ⊢
      exact_mod_cast mul_left_cancel₀ (hv i) hi
    · rw [Pi.single_eq_of_ne e] at hi ⊢
      have : (z i : ℝ) = 0 := by simpa [hv i] using hi
      exact_mod_cast this
  · rintro rfl
    funext i
    rw [diag_mulVec, axisVec]
    by_cases e : i = l
    · subst e; simp
    · simp [e]

theorem div_f {d n : ℕ} (s : Series d n) (f : ℝ) (k : RVec d) : (s.divNeighbors f).f k = s.f fun i => k i / f := by
  have e : ∀ r : RVec d, fi k (fun i => r i / f) = fi (fun i => k i / f) r := by
    intro r
    rw [fi, fi]
    congr 3
    simp only [dotProduct]
    exact Finset.sum_congr rfl fun i _ => by ring
  rw [Series.f, Series.f, Series.divNeighbors]
  cases hs : s.terms with
  | nil => rfl
  | cons t0 rest =>
    simp only [List.map_cons, hsum, List.foldl_map, e]

/-- C98.  `free_electron_model_orthogonal` succeeds exactly if no lattice constant is zero and `bands_per_direction` is not
zero. -/
theorem C98_success_iff (sort : ∀ n, List (RVec 3 × CMat n) → List (RVec 3 × CMat n)) (a b c : ℝ) (nc m : ℕ) :
    (∃ r, freeElectron sort a b c nc m = .ok r) ↔ a ≠ 0 ∧ b ≠ 0 ∧ c ≠ 0 ∧ m ≠ 0 := by
  have h1 : (∃ r, freeElectron sort a b c nc m = .ok r) ↔ ∃ r, freeElectronFull a b c nc m = .ok r := by
    unfold freeElectron
    cases freeElectronFull a b c nc m <;> simp
  rw [h1]
  by_cases hz : a = 0 ∨ b = 0 ∨ c = 0
  · unfold freeElectronFull
    rw [if_pos hz]
    constructor
    · rintro ⟨r, hr⟩; cases hr
    · tauto
  · have h2 : (∃ r, freeElectronFull a b c nc m = .ok r) ↔
        ∃ r, ((base a b c ((nc + 1) * m)).mul (1 / (2 * Real.pi) ^ 2)).supercell (Matrix.diagonal ![a, b, c])
          ((m : ℝ) • Matrix.diagonal ![a, b, c]) = .ok r := by
      unfold freeElectronFull
      rw [if_neg hz, mkSeries_base]
      simp only [mkTb_eq]
      change (∃ r, (match ((base a b c ((nc + 1) * m)).mul (1 / (2 * Real.pi) ^ 2)).supercell (Matrix.diagonal ![a, b, c])
          ((m : ℝ) • Matrix.diagonal ![a, b, c]) with | .error e => _ | .ok r => _) = Except.ok r) ↔ _
      cases ((base a b c ((nc + 1) * m)).mul (1 / (2 * Real.pi) ^ 2)).supercell (Matrix.diagonal ![a, b, c])
          ((m : ℝ) • Matrix.diagonal ![a, b, c]) <;> simp
    rw [h2, C55_success_iff]
    push Not at hz
    have hdet : (Matrix.diagonal ![a, b, c]).det ≠ 0 := by
      rw [Matrix.det_diagonal, Fin.prod_univ_three]
      simp [hz.1, hz.2.1, hz.2.2]
    constructor
    · rintro ⟨-, -, -, Λ, hB, hpos, -⟩
      refine ⟨hz.1, hz.2.1, hz.2.2, ?_⟩
      rintro rfl
      rw [Nat.cast_zero, zero_smul] at hB
      have h3 := congrArg Matrix.det hB
      rw [Matrix.det_mul, Matrix.det_zero, ← show toRM Λ = Λ.map (Int.cast : ℤ → ℝ) from rfl, det_toRM] at h3
      rcases mul_eq_zero.1 h3.symm with h | h
      · exact hdet h
      · have : Λ.det = 0 := by exact_mod_cast h
        omega
    · rintro ⟨-, -, -, hm⟩
      refine ⟨⟨_, _, rfl⟩, by norm_num, hdet, (m : ℤ) • 1, ?_, ?_, fun i => ⟨i, ?_⟩⟩
      · ext i j
        rw [Matrix.diagonal_mul, Matrix.map_apply, Matrix.smul_apply, Matrix.smul_apply, Matrix.one_apply, Matrix.diagonal_apply]
        by_cases h : i = j <;> simp [h, mul_comm]
      · rw [Matrix.det_smul, Matrix.det_one, mul_one]; positivity
      · simp; omega

/-- Matrix `M` has the eigenvalue `E`. -/
def HasEig {n : ℕ} (M : CMat n) (E : ℂ) : Prop := ∃ v, v ≠ 0 ∧ M *ᵥ v = E • v

theorem hasEig_scal (z E : ℂ) : HasEig (scal z) E ↔ E = z := by
  constructor
  · rintro ⟨v, hv, h⟩
    have hv0 : v 0 ≠ 0 := fun h0 => hv (funext fun i => by fin_cases i; exact h0)
    have h1 := congrFun h 0
    simp only [scal, Matrix.mulVec, dotProduct, Finset.univ_unique, Fin.default_eq_zero, Finset.sum_singleton, Matrix.of_apply,
      Pi.smul_apply, smul_eq_mul] at h1
    exact (mul_right_cancel₀ hv0 h1).symm
  · rintro rfl
    refine ⟨1, one_ne_zero, ?_⟩
    funext i
    simp [scal, Matrix.mulVec, dotProduct]

theorem hasEig_smul {n : ℕ} (M : CMat n) (r E : ℂ) (hr : r ≠ 0) : HasEig (r • M) E ↔ HasEig M (E / r) := by
  refine exists_congr fun v => and_congr_right fun _ => ?_
  rw [smul_mulVec]
  constructor
  · intro h
    have : (r⁻¹ * r) • (M *ᵥ v) = (r⁻¹ * E) • v := by rw [mul_smul, h, mul_smul]
    rw [inv_mul_cancel₀ hr, one_smul] at this
    rw [this, div_eq_inv_mul]
  · intro h
    rw [h, smul_smul, mul_div_cancel₀ _ hr]

/-- Before the neighbours are limited, the model has `bands_per_direction³` bands with unit overlap, and its bands at `k`
are exactly `m² e((k + G)/m)` with the reciprocal lattice vectors `G = (g₁/a, g₂/b, g₃/c)`, where `m` is `bands_per_direction`
and `e` the truncated Fourier series of the parabola with `(neighbor_count + 1) m - 1` terms for each axis. -/
theorem full_bands (a b c : ℝ) (ha : a ≠ 0) (hb : b ≠ 0) (hc : c ≠ 0) (nc m : ℕ) (hm : m ≠ 0) :
    ∃ r, freeElectronFull a b c nc m = .ok r ∧ r.1 = m ^ 3 ∧
      r.2.H.terms.map Prod.fst = feNeighbors a b c ((nc + 1) * m) ∧ ∀ k, r.2.S.f k = .ok 1 ∧ ∃ M, r.2.H.f k = .ok M ∧ M.IsHermitian ∧
      ∀ E, HasEig M E ↔ ∃ g : Fin 3 → ℤ,
        E = ((m ^ 2 * energy ![a, b, c] ((nc + 1) * m) fun l => (k l + g l / (![a, b, c] : Fin 3 → ℝ) l) / m : ℝ) : ℂ) := by
  have hv : ∀ l, (![a, b, c] : Fin 3 → ℝ) l ≠ 0 := by intro l; fin_cases l <;> simpa
  set v : Fin 3 → ℝ := ![a, b, c] with hvdef
  set N := (nc + 1) * m with hNdef
  have hN : 1 ≤ N := by
    have : 0 < (nc + 1) * m := Nat.mul_pos (by omega) (Nat.pos_of_ne_zero hm)
    omega
  set t := (base a b c N).mul (1 / (2 * Real.pi) ^ 2) with ht
  have hdet : (Matrix.diagonal v).det ≠ 0 := by
    rw [Matrix.det_diagonal]
    exact Finset.prod_ne_zero_iff.2 fun l _ => hv l
  have h0 : ∃ H0 rest, t.H.terms = (0, H0) :: rest ∧ H0.IsHermitian := ⟨_, _, rfl, by
      ext i j
      simp only [scal, Matrix.conjTranspose_apply, Matrix.smul_apply, Matrix.of_apply, smul_eq_mul, ← Complex.ofReal_mul,
        Complex.star_def, Complex.conj_ofReal]⟩
  have hhalf : Halved (t.H.terms.map Prod.fst) := by rw [ht, mul_fst, base_fst]; exact neighbors_halved hv hN
  have hlat : ∀ x, Listed t x → ∃ z : Fin 3 → ℤ, x = Matrix.diagonal v *ᵥ fun i => (z i : ℝ) := by
    intro x hx
    obtain ⟨l, n, -, rfl⟩ := (listed_iff hN x _).1 hx
    exact ⟨Pi.single l n, ((diag_axis hv _ l n).2 rfl).symm⟩
  have hsolid : ∀ z w : Fin 3 → ℤ, Listed t (Matrix.diagonal v *ᵥ fun i => (z i : ℝ)) →
      (∀ i, (0 ≤ w i ∧ w i ≤ z i) ∨ (z i ≤ w i ∧ w i ≤ 0)) → Listed t (Matrix.diagonal v *ᵥ fun i => (w i : ℝ)) := by
    intro z w hz hw
    obtain ⟨l, n, hn, h⟩ := (listed_iff hN _ _).1 hz
    have hz' := (diag_axis hv z l n).1 h
    refine (listed_iff hN _ _).2 ⟨l, w l, ?_, (diag_axis hv w l _).2 ?_⟩
    · have := hw l
      rw [hz', Pi.single_eq_same] at this
      rw [abs_lt] at hn ⊢
      omega
    · funext i
      by_cases e : i = l
      · subst e; rw [Pi.single_eq_same]
      · have := hw i
        rw [hz', Pi.single_eq_of_ne e] at this
        rw [Pi.single_eq_of_ne e]
        omega
  have hmpos := Nat.pos_of_ne_zero hm
  obtain ⟨r, hr, hr1, hbands⟩ := C55_multiple t (Matrix.diagonal v) m hmpos (by norm_num) hdet h0 hhalf hlat hsolid
  have hex := exact_multiple t (Matrix.diagonal v) m hmpos h0 hhalf hlat hsolid
  have hr' : t.supercell (Matrix.diagonal v) (Matrix.diagonal v * toRM ((m : ℤ) • (1 : Matrix (Fin 3) (Fin 3) ℤ))) = .ok r := by
    rw [← hr]
    congr 1
    ext i j
    rw [toRM, Matrix.diagonal_mul, Matrix.map_apply, Matrix.smul_apply, Matrix.smul_apply, Matrix.one_apply, Matrix.diagonal_apply]
    by_cases h : i = j <;> simp [h, mul_comm]
  have hfull : freeElectronFull a b c nc m =
      .ok ⟨r.1, (⟨r.2.H.divNeighbors m, r.2.S⟩ : Tb 3 r.1).mul ((m : ℝ) ^ 2)⟩ := by
    unfold freeElectronFull
    rw [if_neg (by tauto), mkSeries_base]
    simp only [mkTb_eq]
    have : ((⟨(base a b c ((nc + 1) * m)).H, ⟨[(0, 1)]⟩⟩ : Tb 3 1).mul (1 / (2 * Real.pi) ^ 2)).supercell (diagonal ![a, b, c])
        ((m : ℝ) • diagonal ![a, b, c]) = .ok r := hr
    rw [this]
  have hS := (C55_defect_overlap t t.S _ _).2 r hr
  refine ⟨_, hfull, by rw [hr1, mul_one], ?_, fun k => ⟨hS k, ?_⟩⟩
  · have hfst : r.2.H.terms.map Prod.fst = (feNeighbors a b c N).map (toRM ((m : ℤ) • (1 : Matrix (Fin 3) (Fin 3) ℤ)) *ᵥ ·) := by
      obtain ⟨-, -, -, -, -, rfl⟩ := supercell_ok hr'
      exact superTerms_fst.trans (by rw [ht, mul_fst, base_fst])
    have hid : ∀ x : RVec 3, (fun i => (toRM ((m : ℤ) • (1 : Matrix (Fin 3) (Fin 3) ℤ)) *ᵥ x) i / (m : ℝ)) = x := by
      intro x
      have : toRM ((m : ℤ) • (1 : Matrix (Fin 3) (Fin 3) ℤ)) = (m : ℝ) • (1 : Matrix (Fin 3) (Fin 3) ℝ) := by
        ext i j
        rw [toRM, Matrix.map_apply, Matrix.smul_apply, Matrix.smul_apply, Matrix.one_apply, Matrix.one_apply]
        by_cases h : i = j <;> simp [h]
      rw [this, Matrix.smul_mulVec, Matrix.one_mulVec]
      funext i
      have hm' : (m : ℝ) ≠ 0 := by exact_mod_cast hm
      rw [Pi.smul_apply, smul_eq_mul, mul_div_cancel_left₀ _ hm']
    rw [mul_fst]
    have : (r.2.H.divNeighbors (m : ℝ)).terms.map Prod.fst = (r.2.H.terms.map Prod.fst).map fun x => fun i => x i / (m : ℝ) := by
      simp [Series.divNeighbors, Function.comp_def]
    rw [this, hfst, List.map_map]
    conv_rhs => rw [← List.map_id (feNeighbors a b c N)]
    exact List.map_congr_left fun x _ => hid x
  obtain ⟨H0, rest, hH0, hherm⟩ := super_starts hex hr'
  have hsup : ∀ q, r.2.H.f q = .ok (Spec.value H0 rest q) := by
    intro q
    have : r.2.H = ⟨(0, H0) :: rest⟩ := by rw [← hH0]
    rw [this, f_eq]
  have hM : (⟨r.2.H.divNeighbors m, r.2.S⟩ : Tb 3 r.1).H.f k = .ok (Spec.value H0 rest fun i => k i / m) := by
    rw [div_f, hsup]
  obtain ⟨⟨h5, -⟩, -⟩ := C27_scale (⟨r.2.H.divNeighbors m, r.2.S⟩ : Tb 3 r.1) ((m : ℝ) ^ 2) k _ _ ⟨hM, hS k⟩
  have hm' : (m : ℝ) ≠ 0 := by exact_mod_cast hm
  refine ⟨_, h5, ?_, fun E => ?_⟩
  · have h1 : (Spec.value H0 rest fun i => k i / m).IsHermitian := hherm.add (herm_sum (fi _) rest)
    rw [Matrix.IsHermitian, Matrix.conjTranspose_smul, h1.eq, Complex.star_def, Complex.conj_ofReal]
  · rw [hasEig_smul _ _ _ (by simpa using hm')]
    have h6 := hbands (fun i => k i / m) (E / (((m : ℝ) ^ 2 : ℝ) : ℂ))
    have h7 : (∃ M', r.2.H.f (fun i => k i / m) = .ok M' ∧ HasEig M' (E / (((m : ℝ) ^ 2 : ℝ) : ℂ))) ↔
        HasEig (Spec.value H0 rest fun i => k i / m) (E / (((m : ℝ) ^ 2 : ℝ) : ℂ)) := by
      rw [hsup]
      constructor
      · rintro ⟨M', h, h'⟩; cases h; exact h'
      · intro h; exact ⟨_, rfl, h⟩
    rw [← h7]
    change (∃ M', r.2.H.f (fun i => k i / m) = .ok M' ∧ HasEig M' (E / (((m : ℝ) ^ 2 : ℝ) : ℂ))) ↔ _ at h6
    rw [h6]
    have h8 : ∀ q, (∃ M, t.H.f q = .ok M ∧ ∃ v, v ≠ 0 ∧ M *ᵥ v = (E / (((m : ℝ) ^ 2 : ℝ) : ℂ)) • v) ↔
        E = ((m ^ 2 * energy v N q : ℝ) : ℂ) := by
      intro q
      have hq : t.H.f q = _ := base_f hv N q
      rw [hq]
      have h9 : (∃ M, Except.ok (scal (energy v N q : ℂ)) = (Except.ok M : Except Err (CMat 1)) ∧
          HasEig M (E / (((m : ℝ) ^ 2 : ℝ) : ℂ))) ↔ HasEig (scal (energy v N q : ℂ)) (E / (((m : ℝ) ^ 2 : ℝ) : ℂ)) := by
        constructor
        · rintro ⟨M', h, h'⟩; cases h; exact h'
        · intro h; exact ⟨_, rfl, h⟩
      change (∃ M, Except.ok (scal (energy v N q : ℂ)) = (Except.ok M : Except Err (CMat 1)) ∧
          HasEig M (E / (((m : ℝ) ^ 2 : ℝ) : ℂ))) ↔ _
      rw [h9, hasEig_scal, div_eq_iff (by simpa using hm'), Complex.ofReal_mul, mul_comm]
    simp only [h8]
    constructor
    · rintro ⟨g, hg, rfl⟩
      choose G hG using fun l => hg (Pi.single l 1)
      refine ⟨G, ?_⟩
      congr 3
      funext l
      have h10 := hG l
      have : (fun i => ((Pi.single l (1 : ℤ) : Fin 3 → ℤ) i : ℝ)) = Pi.single l (1 : ℝ) := by
        funext i; by_cases e : i = l
        · subst e; simp
        · simp [e]
      rw [this, Matrix.diagonal_mulVec_single, mul_one, dotProduct_single] at h10
      rw [Pi.add_apply, ← h10]
      have := hv l
      field_simp
    · rintro ⟨G, rfl⟩
      refine ⟨fun l => G l / (v l * m), fun w => ⟨∑ l, G l * w l, ?_⟩, ?_⟩
      · simp only [dotProduct, diag_mulVec]
        rw [Finset.mul_sum]
        push_cast
        refine Finset.sum_congr rfl fun l _ => ?_
        have := hv l
        field_simp
      · congr 3
        funext l
        have := hv l
        rw [Pi.add_apply]
        field_simp

theorem axis_periodic (ha : a ≠ 0) (N : ℕ) (q : ℝ) (z : ℤ) : axisEnergy a N (q + z / a) = axisEnergy a N q := by
  rw [axisEnergy, axisEnergy]
  congr 1
  refine Finset.sum_congr rfl fun n _ => ?_
  congr 1
  have : 2 * Real.pi * ((q + z / a) * a) * n = 2 * Real.pi * (q * a) * n + ((z * n : ℤ) : ℝ) * (2 * Real.pi) := by
    push_cast; field_simp
  rw [this, Real.cos_add_int_mul_two_pi]

theorem energy_bound {v : Fin 3 → ℝ} (hv : ∀ l, v l ≠ 0) {nc m : ℕ} (hm : m ≠ 0) (q : RVec 3) (hq : ∀ l, |q l * v l| ≤ m / 2) :
    |m ^ 2 * energy v ((nc + 1) * m) (fun l => q l / m) - ∑ l, q l ^ 2| ≤
      2 * m / (Real.pi ^ 2 * (nc + 1)) * ∑ l, 1 / v l ^ 2 := by
  have hm' : (0 : ℝ) < m := by exact_mod_cast Nat.pos_of_ne_zero hm
  have hN : 1 ≤ (nc + 1) * m := Nat.mul_pos (by omega) (Nat.pos_of_ne_zero hm)
  rw [energy, Finset.mul_sum, ← Finset.sum_sub_distrib, Finset.mul_sum]
  refine (Finset.abs_sum_le_sum_abs _ _).trans (Finset.sum_le_sum fun l _ => ?_)
  have h1 := axis_bound (hv l) hN (q := q l / m) (by
    rw [div_mul_eq_mul_div, abs_div, abs_of_pos hm', div_le_iff₀ hm']
    linarith [hq l])
  have e : m ^ 2 * axisEnergy (v l) ((nc + 1) * m) (q l / m) - q l ^ 2 =
      m ^ 2 * (axisEnergy (v l) ((nc + 1) * m) (q l / m) - (q l / m) ^ 2) := by
    field_simp
  rw [e, abs_mul, abs_of_pos (by positivity)]
  refine (mul_le_mul_of_nonneg_left h1 (by positivity)).trans (le_of_eq ?_)
  have := hv l
  have := Real.pi_pos.ne'
  push_cast
  field_simp

/-- C98.  The bands are those of free electrons: before the neighbours are limited the matrix at `k` is hermitian of size
`bands_per_direction³`, every eigenvalue lies within `2 m/(π² (neighbor_count + 1)) (1/a² + 1/b² + 1/c²)` of `|k + G|²` for a
reciprocal lattice vector `G` with `k + G` in the enlarged Brillouin zone (`m` times the first one), and every such `G` has
an eigenvalue within this distance. -/
theorem C98_parabola (a b c : ℝ) (ha : a ≠ 0) (hb : b ≠ 0) (hc : c ≠ 0) (nc m : ℕ) (hm : m ≠ 0) :
    ∃ r, freeElectronFull a b c nc m = .ok r ∧ r.1 = m ^ 3 ∧ ∀ k, r.2.S.f k = .ok 1 ∧ ∃ M, r.2.H.f k = .ok M ∧ M.IsHermitian ∧
      (∀ E, HasEig M E → ∃ g : Fin 3 → ℤ, (∀ l, |k l * (![a, b, c] : Fin 3 → ℝ) l + g l| ≤ m / 2) ∧
        ‖E - ((∑ l, (k l + g l / (![a, b, c] : Fin 3 → ℝ) l) ^ 2 : ℝ) : ℂ)‖ ≤
          2 * m / (Real.pi ^ 2 * (nc + 1)) * (1 / a ^ 2 + 1 / b ^ 2 + 1 / c ^ 2)) ∧
      ∀ g : Fin 3 → ℤ, (∀ l, |k l * (![a, b, c] : Fin 3 → ℝ) l + g l| ≤ m / 2) → ∃ E, HasEig M E ∧
        ‖E - ((∑ l, (k l + g l / (![a, b, c] : Fin 3 → ℝ) l) ^ 2 : ℝ) : ℂ)‖ ≤
          2 * m / (Real.pi ^ 2 * (nc + 1)) * (1 / a ^ 2 + 1 / b ^ 2 + 1 / c ^ 2) := by
  obtain ⟨r, hr, hr1, -, h⟩ := full_bands a b c ha hb hc nc m hm
  have hv : ∀ l, (![a, b, c] : Fin 3 → ℝ) l ≠ 0 := by intro l; fin_cases l <;> simpa
  have hsum : (1 / a ^ 2 + 1 / b ^ 2 + 1 / c ^ 2) = ∑ l, 1 / (![a, b, c] : Fin 3 → ℝ) l ^ 2 := by
    rw [Fin.sum_univ_three]; rfl
  have hm' : (0 : ℝ) < m := by exact_mod_cast Nat.pos_of_ne_zero hm
  refine ⟨r, hr, hr1, fun k => ?_⟩
  obtain ⟨hS, M, hM, hherm, hE⟩ := h k
  refine ⟨hS, M, hM, hherm, ?_, ?_⟩
  · intro E hEig
    obtain ⟨g, rfl⟩ := (hE E).1 hEig
    rw [hsum]
    generalize (![a, b, c] : Fin 3 → ℝ) = v at hv
    let z : Fin 3 → ℤ := fun l => round ((k l * v l + g l) / m)
    have hz : ∀ l, |k l * v l + ((g l - m * z l : ℤ) : ℝ)| ≤ m / 2 := by
      intro l
      have h1 := abs_sub_round ((k l * v l + g l) / (m : ℝ))
      have e : k l * v l + ((g l - m * z l : ℤ) : ℝ) = m * ((k l * v l + g l) / m - round ((k l * v l + g l) / (m : ℝ))) := by
        push_cast; field_simp
        simp only [z]; ring
      rw [e, abs_mul, abs_of_pos hm']
      nlinarith
    refine ⟨fun l => g l - m * z l, hz, ?_⟩
    have e : energy v ((nc + 1) * m) (fun l => (k l + g l / v l) / m) =
        energy v ((nc + 1) * m) (fun l => (k l + ((g l - m * z l : ℤ) : ℝ) / v l) / m) := by
      refine Finset.sum_congr rfl fun l _ => ?_
      rw [← axis_periodic (hv l) _ ((k l + ((g l - m * z l : ℤ) : ℝ) / v l) / m) (z l)]
      congr 1
      have := hv l
      push_cast; field_simp; ring
    rw [e, ← Complex.ofReal_sub, Complex.norm_real, Real.norm_eq_abs]
    exact energy_bound hv hm (fun l => k l + ((g l - m * z l : ℤ) : ℝ) / v l) fun l => by
      have := hv l
      have e2 : (k l + ((g l - m * z l : ℤ) : ℝ) / v l) * v l = k l * v l + ((g l - m * z l : ℤ) : ℝ) := by
        field_simp
      rw [e2]; exact hz l
  · intro g hg
    refine ⟨_, (hE _).2 ⟨g, rfl⟩, ?_⟩
    rw [hsum, ← Complex.ofReal_sub, Complex.norm_real, Real.norm_eq_abs]
    generalize (![a, b, c] : Fin 3 → ℝ) = v at hv hg
    exact energy_bound hv hm (fun l => k l + g l / v l) fun l => by
      have := hv l
      have e2 : (k l + g l / v l) * v l = k l * v l + g l := by field_simp
      rw [e2]; exact hg l

theorem neighbors_length (N : ℕ) : (feNeighbors a b c N).length = 3 * (N - 1) + 1 := by
  simp [feNeighbors, List.length_flatMap, Nat.mul_comm]

/-- C98.  The returned model consists of the `3 neighbor_count + 1` terms with the shortest neighbours. -/
theorem C98_limit (sort : ∀ n, List (RVec 3 × CMat n) → List (RVec 3 × CMat n)) (hsort : ∀ n, Spec.IsSort (sort n))
    (a b c : ℝ) (ha : a ≠ 0) (hb : b ≠ 0) (hc : c ≠ 0) (nc m : ℕ) (hm : m ≠ 0) :
    ∃ r t dropped, freeElectronFull a b c nc m = .ok r ∧ freeElectron sort a b c nc m = .ok ⟨r.1, t⟩ ∧ t.S = r.2.S ∧
      Spec.Starts0 t.H ∧ t.H.terms.length = 3 * nc + 1 ∧ (t.H.terms ++ dropped).Perm r.2.H.terms ∧
      ∀ x ∈ t.H.terms, ∀ y ∈ dropped, vnorm x.1 ≤ vnorm y.1 := by
  obtain ⟨r, hr, -, hn, -⟩ := full_bands a b c ha hb hc nc m hm
  have hs : Spec.Starts0 r.2.H := by
    cases hst : r.2.H.terms with
    | nil => rw [hst] at hn; simp [feNeighbors] at hn
    | cons t0 rest =>
      rw [hst, feNeighbors, List.map_cons, List.cons.injEq] at hn
      exact ⟨t0.2, rest, by rw [hst, ← hn.1]⟩
  obtain ⟨s', dropped, h1, h2, h3, h4, h5⟩ := C25_limit_neighbor_count (sort r.1) (hsort r.1) r.2.H hs (nc * 3 + 1) (by omega)
  have hlen : r.2.H.terms.length = 3 * ((nc + 1) * m - 1) + 1 := by
    rw [← List.length_map (f := Prod.fst), hn, neighbors_length]
  have hge : nc + 1 ≤ (nc + 1) * m := Nat.le_mul_of_pos_right _ (Nat.pos_of_ne_zero hm)
  refine ⟨r, ⟨s', r.2.S⟩, dropped, hr, ?_, rfl, h4, ?_, h2, h5⟩
  · rw [freeElectron, hr]
    simp only [h1]
  · rw [h3, hlen]; omega

theorem value_perm {d n : ℕ} {H0 H0' : CMat n} {rest rest' : List (RVec d × CMat n)}
    (hn : (((0 : RVec d), H0) :: rest).map Prod.fst |>.Nodup) (hp : (((0 : RVec d), H0') :: rest').Perm ((0, H0) :: rest)) (k : RVec d) :
    Spec.value H0' rest' k = Spec.value H0 rest k := by
  have h0 : ((0 : RVec d), H0') ∈ (((0 : RVec d), H0) :: rest) := hp.mem_iff.1 (by simp)
  have e : H0' = H0 := by
    rcases List.mem_cons.1 h0 with h | h
    · exact (Prod.mk.inj h).2
    · rw [List.map_cons, List.nodup_cons] at hn
      exact absurd (List.mem_map.2 ⟨_, h, rfl⟩) hn.1
  subst e
  rw [Spec.value, Spec.value, ((hp.cons_inv).map _).sum_eq]

/-- C98.  With one band per direction nothing is dropped: the returned model has the one band
`Σ_l (1/(12 a_l²) + Σ_{n=1}^{nc} (-1)ⁿ/(π² a_l² n²) cos(2π k_l a_l n))`, and in the first Brillouin zone it differs from `|k|²` by
at most `2/(π² (neighbor_count + 1)) (1/a² + 1/b² + 1/c²)`. -/
theorem C98_single (sort : ∀ n, List (RVec 3 × CMat n) → List (RVec 3 × CMat n)) (hsort : ∀ n, Spec.IsSort (sort n))
    (a b c : ℝ) (ha : a ≠ 0) (hb : b ≠ 0) (hc : c ≠ 0) (nc : ℕ) :
    ∃ r, freeElectron sort a b c nc 1 = .ok r ∧ r.1 = 1 ∧ ∀ k, r.2.S.f k = .ok 1 ∧ ∃ (M : CMat r.1) (e : ℝ), r.2.H.f k = .ok M ∧
      M = (e : ℂ) • 1 ∧
      e = ∑ l, (1 / (12 * (![a, b, c] : Fin 3 → ℝ) l ^ 2) + ∑ n ∈ Finset.Ico 1 (nc + 1),
        (-1) ^ n / (Real.pi ^ 2 * (![a, b, c] : Fin 3 → ℝ) l ^ 2 * n ^ 2) *
          Real.cos (2 * Real.pi * (k l * (![a, b, c] : Fin 3 → ℝ) l) * n)) ∧
      ((∀ l, |k l * (![a, b, c] : Fin 3 → ℝ) l| ≤ 1 / 2) →
        |e - ∑ l, k l ^ 2| ≤ 2 / (Real.pi ^ 2 * (nc + 1)) * (1 / a ^ 2 + 1 / b ^ 2 + 1 / c ^ 2)) := by
  have hv : ∀ l, (![a, b, c] : Fin 3 → ℝ) l ≠ 0 := by intro l; fin_cases l <;> simpa
  obtain ⟨r, t, dropped, hr, hlim, hS, ⟨H0', rest', ht0⟩, hlen, hperm, -⟩ := C98_limit sort hsort a b c ha hb hc nc 1 one_ne_zero
  obtain ⟨r', hr', hr1, hn, h⟩ := full_bands a b c ha hb hc nc 1 one_ne_zero
  rw [hr] at hr'
  cases hr'
  obtain ⟨N, u⟩ := r
  simp only at hr1 hn h hS hperm t hlim hlen ht0
  rw [one_pow] at hr1
  subst hr1
  rw [mul_one] at hn h
  have hl2 : u.H.terms.length = 3 * nc + 1 := by
    rw [← List.length_map (f := Prod.fst), hn, neighbors_length]; rfl
  have hd : dropped = [] := by
    have := hperm.length_eq
    rw [List.length_append] at this
    exact List.length_eq_zero_iff.1 (by omega)
  subst hd
  rw [List.append_nil] at hperm
  have hnd : (u.H.terms.map Prod.fst).Nodup := by rw [hn]; exact neighbors_nodup hv _
  obtain ⟨H0, rest, hu⟩ : Spec.Starts0 u.H := by
    cases hst : u.H.terms with
    | nil => rw [hst] at hn; simp [feNeighbors] at hn
    | cons t0 rest =>
      rw [hst, feNeighbors, List.map_cons, List.cons.injEq] at hn
      exact ⟨t0.2, rest, by rw [hst, ← hn.1]⟩
  refine ⟨⟨1, t⟩, hlim, rfl, fun k => ⟨by rw [hS]; exact (h k).1, ?_⟩⟩
  have hf : t.H.f k = u.H.f k := by
    have e1 : t.H = ⟨(0, H0') :: rest'⟩ := by rw [← ht0]
    have e2 : u.H = ⟨(0, H0) :: rest⟩ := by rw [← hu]
    rw [e1, e2, f_eq, f_eq]
    rw [ht0, hu] at hperm
    rw [hu] at hnd
    rw [value_perm hnd hperm]
  obtain ⟨-, M, hM, -, hE⟩ := h k
  have hMs : M = scal (M 0 0) := by ext i j; fin_cases i; fin_cases j; rfl
  have h0 : M 0 0 = (energy ![a, b, c] (nc + 1) k : ℂ) := by
    have h1 : HasEig M ((1 ^ 2 * energy ![a, b, c] (nc + 1) fun l => (k l + (0 : ℤ) / (![a, b, c] : Fin 3 → ℝ) l) / 1 : ℝ) : ℂ) := by
      have := (hE _).2 ⟨0, rfl⟩
      simpa using this
    rw [hMs, hasEig_scal] at h1
    rw [← h1]
    congr 1
    simp
  refine ⟨M, energy ![a, b, c] (nc + 1) k, by rw [hf, hM], ?_, rfl, fun hk => ?_⟩
  · rw [← h0]
    ext i j; fin_cases i; fin_cases j; simp
  · have hb := energy_bound hv (nc := nc) one_ne_zero k (by simpa using hk)
    have hsum : (1 / a ^ 2 + 1 / b ^ 2 + 1 / c ^ 2) = ∑ l, 1 / (![a, b, c] : Fin 3 → ℝ) l ^ 2 := by
      rw [Fin.sum_univ_three]; rfl
    rw [hsum]
    simpa using hb

/-- Non-trivial instances: a lattice with three different constants, three bands per direction, four neighbours. -/
example : ∃ r, freeElectronFull 1 2 (1 / 2) 4 3 = .ok r ∧ r.1 = 27 := by
  obtain ⟨r, h, h', -⟩ := C98_parabola 1 2 (1 / 2) one_ne_zero two_ne_zero (by norm_num) 4 3 (by norm_num)
  exact ⟨r, h, by rw [h']; norm_num⟩

/-- A sort with the contract exists. -/
theorem exists_sorts : ∃ sort : ∀ n, List (RVec 3 × CMat n) → List (RVec 3 × CMat n), ∀ n, Spec.IsSort (sort n) := by
  classical
  refine ⟨fun n l => l.mergeSort fun x y => decide (vnorm x.1 ≤ vnorm y.1), fun n l => ⟨List.mergeSort_perm _ _, ?_⟩⟩
  have := List.pairwise_mergeSort (le := fun (x y : RVec 3 × CMat n) => decide (vnorm x.1 ≤ vnorm y.1))
    (fun x y z h1 h2 => by simp only [decide_eq_true_eq] at *; exact h1.trans h2)
    (fun x y => by simp only [Bool.or_eq_true, decide_eq_true_eq]; exact le_total _ _) l
  exact this.imp fun h => by simpa using h

/-- The cubic lattice with one neighbour in each direction and one band: at `k = 0` the band is `1/4 - 3/π²`, the exact value is 0. -/
example : ∃ sort : ∀ n, List (RVec 3 × CMat n) → List (RVec 3 × CMat n), ∃ r, freeElectron sort 1 1 1 1 1 = .ok r ∧
    ∃ (M : CMat r.1), r.2.H.f 0 = .ok M ∧ M = ((1 / 4 - 3 / Real.pi ^ 2 : ℝ) : ℂ) • 1 := by
  obtain ⟨sort, hs⟩ := exists_sorts
  obtain ⟨r, hr, -, h⟩ := C98_single sort hs 1 1 1 one_ne_zero one_ne_zero one_ne_zero 1
  obtain ⟨-, M, e, hM, hMe, he, -⟩ := h 0
  refine ⟨sort, r, hr, M, hM, ?_⟩
  rw [hMe, he]
  congr 2
  have : Finset.Ico 1 (1 + 1) = {1} := rfl
  rw [Fin.sum_univ_three]
  simp [this]
  ring

open Classical in
/-- C98, limitation.  The neighbours are limited by their length, not by direction: for `a = b = 1`, `c = 10`, one neighbour
"in each direction" and two bands per direction, no neighbour along `z` is kept, so that the bands do not depend on `k_z`. -/
theorem C98_defect_anisotropic (sort : ∀ n, List (RVec 3 × CMat n) → List (RVec 3 × CMat n)) (hsort : ∀ n, Spec.IsSort (sort n)) :
    ∃ r, freeElectron sort 1 1 10 1 2 = .ok r ∧ ∀ k k' : RVec 3, k 0 = k' 0 → k 1 = k' 1 → r.2.H.f k = r.2.H.f k' := by
  obtain ⟨r, t, dropped, hr, hlim, -, -, hlen, hperm, hle⟩ := C98_limit sort hsort 1 1 10 one_ne_zero one_ne_zero (by norm_num) 1 2
    (by norm_num)
  obtain ⟨r', hr', -, hn, -⟩ := full_bands 1 1 10 one_ne_zero one_ne_zero (by norm_num) 1 2 (by norm_num)
  rw [hr] at hr'
  cases hr'
  have key : ∀ x ∈ t.H.terms, x.1 2 = 0 := by
    intro x hx
    by_contra hne
    have hmem : ∀ y ∈ r.2.H.terms, ∃ l, ∃ n : ℕ, n < 4 ∧ y.1 = axisVec ![1, 1, 10] l n := by
      intro y hy
      have : y.1 ∈ feNeighbors 1 1 10 ((1 + 1) * 2) := by rw [← hn]; exact List.mem_map.2 ⟨y, hy, rfl⟩
      exact (mem_neighbors (by norm_num) _).1 this
    have hz : ∀ (l : Fin 3) (n : ℕ), vnorm (axisVec ![1, 1, 10] l n) = (![1, 1, 10] : Fin 3 → ℝ) l * n := by
      intro l n
      rw [vnorm, Fin.sum_univ_three]
      have hn0 : (0 : ℝ) ≤ n := by positivity
      have h10 : (0 : ℝ) ≤ 10 * n := by positivity
      fin_cases l <;> simp [axisVec, Real.sqrt_sq hn0, Real.sqrt_sq h10]
    have hx10 : 10 ≤ vnorm x.1 := by
      obtain ⟨l, n, -, h⟩ := hmem x (hperm.mem_iff.1 (List.mem_append_left _ hx))
      rw [h, hz]
      rw [h] at hne
      have hl : l = 2 := by
        by_contra hl
        exact hne (by rw [axisVec, Pi.single_eq_of_ne (Ne.symm hl)])
      subst hl
      have : (n : ℝ) ≠ 0 := fun h0 => hne (by simp [axisVec, h0])
      have h1 : 1 ≤ n := Nat.one_le_iff_ne_zero.2 (by exact_mod_cast this)
      have : (1 : ℝ) ≤ n := by exact_mod_cast h1
      simp
      linarith
    have hdrop : dropped.countP (fun y => decide (y.1 2 = 0)) = 0 := by
      rw [List.countP_eq_zero]
      intro y hy h0
      simp only [decide_eq_true_eq] at h0
      have h1 := hx10.trans (hle x hx y hy)
      obtain ⟨l, n, hn4, h⟩ := hmem y (hperm.mem_iff.1 (List.mem_append_right _ hy))
      have h4 : (n : ℝ) < 4 := by exact_mod_cast hn4
      rw [h, hz] at h1
      rw [h] at h0
      fin_cases l
      · simp at h1; linarith
      · simp at h1; linarith
      · simp [axisVec] at h0
        rw [h0] at h1
        norm_num at h1
    have hcount : r.2.H.terms.countP (fun y => decide (y.1 2 = 0)) = 7 := by
      have : r.2.H.terms.countP (fun y => decide (y.1 2 = 0)) = (r.2.H.terms.map Prod.fst).countP fun y => decide (y 2 = 0) := by
        rw [List.countP_map]; rfl
      rw [this, hn]
      have c2 : ∀ x y z : ℝ, (![x, y, z] : RVec 3) 2 = z := fun _ _ _ => rfl
      norm_num [feNeighbors, List.range', List.countP_cons, c2]
    have h1 := hperm.countP_eq (fun y => decide (y.1 2 = 0))
    rw [List.countP_append, hdrop, hcount] at h1
    have h2 := List.countP_le_length (p := fun y : RVec 3 × CMat r.1 => decide (y.1 2 = 0)) (l := t.H.terms)
    omega
  refine ⟨⟨r.1, t⟩, hlim, fun k k' h0 h1 => ?_⟩
  have hfi : ∀ x ∈ t.H.terms, fi k x.1 = fi k' x.1 := by
    intro x hx
    rw [fi, fi, dotProduct, dotProduct, Fin.sum_univ_three, Fin.sum_univ_three, key x hx, h0, h1]
    simp
  have hs : ∀ l : List (RVec 3 × CMat r.1), (∀ x ∈ l, fi k x.1 = fi k' x.1) → hsum (fi k) l = hsum (fi k') l := by
    intro l hl
    cases l with
    | nil => rfl
    | cons t0 rest =>
      rw [hsum_cons, hsum_cons, hl t0 (by simp)]
      congr 3
      exact List.map_congr_left fun x hx => by rw [hl x (by simp [hx])]
  exact hs _ hfi

end TB.FE

import Verif.Model.KIntegral
import Mathlib.Algebra.Polynomial.Taylor
import Mathlib.Algebra.Polynomial.Eval.Degree
import Mathlib.LinearAlgebra.Vandermonde
import Mathlib.Algebra.BigOperators.Fin
import Mathlib.Tactic.Linarith
import Mathlib.Tactic.Ring
import Mathlib.Tactic.FieldSimp
import Mathlib.Tactic.NormNum
import Mathlib.Tactic.Positivity

/-!
# C68, C69: the integration rule and the constructor of `KIntegral`
-/

namespace TB.KI
open Matrix Polynomial

/-! ## C68 -/

theorem matX_eq (x : List ℝ) (mu : ℝ) :
    matX x mu = Matrix.diagonal (fun n : Fin x.length => ((Nat.factorial n : ℝ))⁻¹) * (Matrix.vandermonde fun i : Fin x.length => x[i] - mu)ᵀ := by
  ext n i
  rw [diagonal_mul, transpose_apply, vandermonde_apply]
  simp only [matX, of_apply]
  rw [div_eq_mul_inv, mul_comm]

theorem matX_det_ne (x : List ℝ) (mu : ℝ) : (matX x mu).det ≠ 0 ↔ x.Nodup := by
  rw [matX_eq, det_mul, det_diagonal, det_transpose]
  have h1 : (∏ n : Fin x.length, ((Nat.factorial n : ℝ))⁻¹) ≠ 0 := by
    apply Finset.prod_ne_zero_iff.2
    intro n _
    exact inv_ne_zero (by exact_mod_cast Nat.factorial_ne_zero _)
  rw [mul_ne_zero_iff, and_iff_right h1, det_vandermonde_ne_zero_iff, List.nodup_iff_injective_get]
  constructor
  · intro h i j hij
    apply h
    simp only [List.get_eq_getElem] at hij
    simp only [Fin.getElem_fin, hij]
  · intro h i j hij
    apply h
    simp only [Fin.getElem_fin, sub_left_inj] at hij
    simpa using hij

theorem solve_row (b : ℕ → ℝ) (x : List ℝ) (mu beta : ℝ) (hx : x.Nodup) (n : Fin x.length) :
    ∑ i : Fin x.length, ((matX x mu)⁻¹ *ᵥ vecI b beta x.length) i * (x[i] - mu) ^ (n : ℕ) =
      Nat.factorial n * (beta ^ (-((n : ℕ) : ℤ)) * b n) := by
  have hdet := (matX_det_ne x mu).2 hx
  have h : matX x mu *ᵥ ((matX x mu)⁻¹ *ᵥ vecI b beta x.length) = vecI b beta x.length := by
    rw [mulVec_mulVec, mul_nonsing_inv _ (isUnit_iff_ne_zero.2 hdet), one_mulVec]
  have hn := congrFun h n
  rw [mulVec, dotProduct] at hn
  simp only [matX, of_apply, vecI] at hn
  have hf : (Nat.factorial n : ℝ) ≠ 0 := by exact_mod_cast Nat.factorial_ne_zero _
  rw [← hn, Finset.mul_sum]
  apply Finset.sum_congr rfl
  intro i _
  simp only [matX]
  field_simp

/-- C68.  For different points and a temperature that is not (numerically) zero, the weights integrate every polynomial of degree
less than the number of points exactly with respect to the moments: `Σ w_i p(x_i) = Σ_n β^(-n) b_n p⁽ⁿ⁾(μ)`, the Sommerfeld
expansion of `p`. -/
theorem C68_exact (b : ℕ → ℝ) (x : List ℝ) (mu beta : ℝ) (hx : x.Nodup) (hb : beta ≤ 1e16) :
    ∃ w : List ℝ, row b x mu beta = .ok w ∧ w.length = x.length ∧
      ∀ p : ℝ[X], p.natDegree < x.length →
        ((w.zip x).map fun t => t.1 * p.eval t.2).sum =
          ∑ n ∈ Finset.range x.length, beta ^ (-(n : ℤ)) * b n * (derivative^[n] p).eval mu := by
  refine ⟨_, (if_neg (not_lt.2 hb)).trans (if_neg ((matX_det_ne x mu).2 hx)), by simp, fun p hp => ?_⟩
  set v := (matX x mu)⁻¹ *ᵥ vecI b beta x.length with hv
  have e1 : ((List.ofFn v).zip x).map (fun t => t.1 * p.eval t.2) = List.ofFn fun i : Fin x.length => v i * p.eval x[i] := by
    apply List.ext_getElem
    · simp
    · intro i h1 h2
      simp
  rw [e1, List.sum_ofFn]
  have hp' : ∀ t, p.eval t = ∑ n ∈ Finset.range x.length, (taylor mu p).coeff n * (t - mu) ^ n := by
    intro t
    have : p.eval t = (taylor mu p).eval (t - mu) := by rw [taylor_eval, sub_add_cancel]
    rw [this, eval_eq_sum_range' (by rwa [natDegree_taylor])]
  simp only [hp', Finset.mul_sum]
  rw [Finset.sum_comm]
  apply Finset.sum_congr rfl
  intro n hn
  rw [Finset.mem_range] at hn
  have hs := solve_row b x mu beta hx ⟨n, hn⟩
  simp only at hs
  have hd : (derivative^[n] p).eval mu = Nat.factorial n * (taylor mu p).coeff n := by
    rw [taylor_coeff, ← factorial_smul_hasseDeriv]
    simp
  rw [hd]
  calc ∑ i : Fin x.length, v i * ((taylor mu p).coeff n * (x[i] - mu) ^ n)
      = (taylor mu p).coeff n * ∑ i : Fin x.length, v i * (x[i] - mu) ^ n := by
        rw [Finset.mul_sum]; apply Finset.sum_congr rfl; intro i _; ring
    _ = _ := by rw [hv, hs]; ring

/-- C68.  The weights of a row sum to `b 0` (which is 1). -/
theorem C68_sum (b : ℕ → ℝ) (x : List ℝ) (mu beta : ℝ) (hx : x.Nodup) (h0 : x ≠ []) (hb : beta ≤ 1e16) :
    ∃ w, row b x mu beta = .ok w ∧ w.sum = b 0 := by
  obtain ⟨w, h1, h2, h3⟩ := C68_exact b x mu beta hx hb
  refine ⟨w, h1, ?_⟩
  have hl : 0 < x.length := List.length_pos_iff.2 h0
  have := h3 1 (by simpa using hl)
  have e : (w.zip x).map (fun t => t.1 * (1 : ℝ[X]).eval t.2) = w := by
    simp only [eval_one, mul_one]
    exact List.map_fst_zip (by rw [h2])
  rw [e] at this
  rw [this, Finset.sum_eq_single 0]
  · simp
  · intro n _ hn
    have : derivative^[n] (1 : ℝ[X]) = 0 := iterate_derivative_one (Nat.pos_of_ne_zero hn)
    simp [this]
  · intro h; simp at h; exact absurd h h0

/-- C68.  Two equal points raise `LinAlgError`. -/
theorem C68_duplicate (b : ℕ → ℝ) (x : List ℝ) (mu beta : ℝ) (hx : ¬ x.Nodup) (hb : beta ≤ 1e16) :
    row b x mu beta = .error .valueError := by
  refine (if_neg (not_lt.2 hb)).trans (if_pos ?_)
  by_contra h
  exact hx ((matX_det_ne x mu).1 h)

theorem argmin_spec (l : List ℝ) (h : l ≠ []) : argmin l < l.length ∧ ∀ a ∈ l, l.getD (argmin l) 0 ≤ a := by
  induction l with
  | nil => exact absurd rfl h
  | cons a l ih =>
    cases l with
    | nil => simp [argmin]
    | cons c l =>
      obtain ⟨h1, h2⟩ := ih (by simp)
      rw [argmin]
      by_cases hc : a ≤ (c :: l).getD (argmin (c :: l)) 0
      · rw [if_pos hc]
        refine ⟨by simp, ?_⟩
        intro y hy
        rw [List.mem_cons] at hy
        rcases hy with rfl | hy
        · simp
        · simpa using hc.trans (h2 y hy)
      · rw [if_neg hc]
        refine ⟨by simpa using h1, ?_⟩
        intro y hy
        rw [List.mem_cons] at hy
        rw [List.getD_cons_succ]
        rcases hy with rfl | hy
        · exact (not_le.1 hc).le
        · exact h2 y hy

/-- C68.  At (numerically) zero temperature the row has weight 1 at one point closest to `mu`, which is within `1e-10`, and 0
elsewhere; without such a point `AssertionError` is raised. -/
theorem C68_zero (b : ℕ → ℝ) (x : List ℝ) (mu beta : ℝ) (h0 : x ≠ []) (hb : 1e16 < beta) :
    ((∃ y ∈ x, |y - mu| < 1e-10) → ∃ i, ∃ hi : i < x.length, row b x mu beta = .ok ((List.replicate x.length (0 : ℝ)).set i 1) ∧
        |x[i] - mu| < 1e-10 ∧ ∀ y ∈ x, |x[i] - mu| ≤ |y - mu|) ∧
    ((∀ y ∈ x, ¬ |y - mu| < 1e-10) → row b x mu beta = .error .assertionError) := by
  have hne : (x.map fun y => |y - mu|) ≠ [] := by simpa using h0
  obtain ⟨h1, h2⟩ := argmin_spec _ hne
  rw [List.length_map] at h1
  set i := argmin (x.map fun y => |y - mu|) with hi
  have hg : (x.map fun y => |y - mu|).getD i 0 = |x[i] - mu| := by
    rw [List.getD_eq_getElem?_getD, List.getElem?_map, List.getElem?_eq_getElem h1]; rfl
  have hg' : x.getD i 0 = x[i] := by
    rw [List.getD_eq_getElem?_getD, List.getElem?_eq_getElem h1]; rfl
  have hmin : ∀ y ∈ x, |x[i] - mu| ≤ |y - mu| := by
    intro y hy
    rw [← hg]
    exact h2 _ (List.mem_map_of_mem hy)
  constructor
  · rintro ⟨y, hy, hlt⟩
    have hlt' : |x[i] - mu| < 1e-10 := lt_of_le_of_lt (hmin y hy) hlt
    refine ⟨i, h1, (if_pos hb).trans ?_, hlt', hmin⟩
    simp only [← hi]
    rw [hg']
    exact if_pos hlt'
  · intro h
    refine (if_pos hb).trans ?_
    simp only [← hi]
    rw [hg']
    exact if_neg (h _ (List.getElem_mem h1))

theorem maxL_ge (l : List ℝ) (a : ℝ) (ha : a ∈ l) : a ≤ maxL l := by
  induction l with
  | nil => simp at ha
  | cons c l ih =>
    cases l with
    | nil => rw [List.mem_singleton] at ha; rw [ha]; rfl
    | cons e l =>
      rw [maxL]
      rw [List.mem_cons] at ha
      rcases ha with rfl | ha
      · exact le_max_left _ _
      · exact (ih ha).trans (le_max_right _ _)

/-- C68.  What `_integration_weights` returns: the same selection of indices is applied to the points and to every row.  A kept
point lies strictly inside the energy range; a point inside the range that is left out has, at every temperature, a weight of at
most `rtol·N` times the largest weight of that temperature. -/
theorem C68_filter (b : ℕ → ℝ) (x beta mu : List ℝ) (Emin Emax rtol : ℝ) (xs : List ℝ) (ws : List (List ℝ))
    (h : integrationWeights b x beta mu Emin Emax rtol = .ok (some (xs, ws))) :
    ∃ (w : List (List ℝ)) (sel : List ℕ), (mu.zip beta).mapM (fun p => row b x p.1 p.2) = .ok w ∧ sel.Pairwise (· < ·) ∧ (∀ i ∈ sel, i < x.length) ∧
      xs = sel.map (fun i => x.getD i 0) ∧ ws = w.map (fun r => sel.map fun i => r.getD i 0) ∧
      (∀ y ∈ xs, Emin < y ∧ y < Emax) ∧
      ∀ i, i < x.length → i ∉ sel → Emin < x.getD i 0 → x.getD i 0 < Emax → ∀ r ∈ w, 0 < maxL r →
        r.getD i 0 ≤ rtol * x.length * maxL r := by
  unfold integrationWeights at h
  by_cases h1 : x.length % 2 ≠ 1
  · rw [if_pos h1] at h; cases h
  rw [if_neg h1] at h
  by_cases h2 : x.length = 1
  · rw [if_pos h2] at h; cases h
  rw [if_neg h2] at h
  by_cases h3 : beta.length ≠ mu.length
  · rw [if_pos h3] at h; cases h
  rw [if_neg h3] at h
  cases hw : (mu.zip beta).mapM (fun p => row b x p.1 p.2) with
  | error e => rw [hw] at h; cases h
  | ok w =>
    rw [hw] at h
    simp only [bind, Except.bind, Except.ok.injEq, Option.some.injEq, Prod.mk.injEq] at h
    obtain ⟨rfl, rfl⟩ := h
    classical
    refine ⟨w, (List.range x.length).filter fun i => decide (keep x w Emin Emax rtol i), rfl, ?_, ?_, ?_, ?_, ?_, ?_⟩
    · exact List.pairwise_lt_range.filter _
    · intro i hi
      exact List.mem_range.1 (List.mem_filter.1 hi).1
    · unfold pick; congr!
    · unfold pick; congr!
    · intro y hy
      unfold pick at hy
      rw [List.mem_map] at hy
      obtain ⟨i, hi, rfl⟩ := hy
      have := (List.mem_filter.1 hi).2
      rw [decide_eq_true_eq] at this
      exact this.2
    · intro i hi hn hmin hmax r hr hpos
      have hk : ¬ keep x w Emin Emax rtol i := by
        intro hk
        exact hn (List.mem_filter.2 ⟨List.mem_range.2 hi, by rw [decide_eq_true_eq]; exact hk⟩)
      have : ¬ maxL (w.map fun r => r.getD i 0 / maxL r) > rtol * x.length := fun hgt => hk ⟨hgt, hmin, hmax⟩
      have hle : r.getD i 0 / maxL r ≤ rtol * x.length :=
        (maxL_ge _ _ (List.mem_map_of_mem (f := fun r : List ℝ => r.getD i 0 / maxL r) hr)).trans (not_lt.1 this)
      exact (div_le_iff₀ hpos).1 hle

/-- Three points, degree two. -/
example : ([-1, 0, 1] : List ℝ).Nodup ∧ (2 : ℝ) ≤ 1e16 ∧ (X ^ 2 : ℝ[X]).natDegree < ([-1, 0, 1] : List ℝ).length := by
  refine ⟨by norm_num, by norm_num, by simp⟩

/-! ## C69 -/

/-- C69.  Negative temperatures and even `N` are refused with `AssertionError`. -/
theorem C69_assert (kB : ℝ) (b : ℕ → ℝ) (roots : ℝ → ℝ → ℤ → List ℝ) (D : DosData) (T : List ℝ) (N : Option ℤ) (rtol : ℝ) :
    ((∃ t ∈ T, t < 0) → init kB b roots D T N rtol = .error .assertionError) ∧
    (∀ n, N = some n → n % 2 = 0 → init kB b roots D T N rtol = .error .assertionError) := by
  constructor
  · rintro ⟨t, ht, h⟩
    exact if_pos fun hall => absurd (hall t ht) (not_le.2 h)
  · rintro n rfl hn
    unfold init
    by_cases h : ¬ ∀ t ∈ T, t ≥ 0
    · rw [if_pos h]
    · rw [if_neg h]
      refine if_pos ?_
      simp only [Option.getD_some]
      omega

theorem defaultN_odd (T : List ℝ) : defaultN T % 2 = 1 := by
  unfold defaultN
  split
  · split <;> norm_num
  · norm_num

theorem init_eq (kB : ℝ) (b : ℕ → ℝ) (roots : ℝ → ℝ → ℤ → List ℝ) (D : DosData) (T : List ℝ) (N : Option ℤ) (rtol : ℝ)
    (hT : ∀ t ∈ T, 0 ≤ t) (hN : ∀ n, N = some n → n % 2 = 1) :
    init kB b roots D T N rtol =
      match T.filter fun t => decide (t > 0) with
      | t :: ts =>
        if D.gap = 0 then do
          let x ← integrationPoints roots D.eF (ts.foldl min t) (maxL T) (N.getD (defaultN T))
          match ← integrationWeights b x (T.map fun t => 1 / (kB * t + 1e-20)) D.mu D.Emin D.Emax rtol with
          | none => .error .valueError
          | some r => .ok r
        else .error .notImplemented
      | [] =>
        if D.gap = 0 then .ok ([D.eF], [[1]])
        else .error .attributeError := by
  unfold init
  rw [if_neg (not_not.2 hT)]
  simp only
  have : N.getD (defaultN T) % 2 = 1 := by
    cases N with
    | none => exact defaultN_odd T
    | some n => exact hN n rfl
  rw [if_neg (not_not.2 this)]
  congr!

theorem filter_pos {T : List ℝ} (h : ∃ t ∈ T, 0 < t) : ∃ s ss, (T.filter fun t => decide (t > 0)) = s :: ss := by
  obtain ⟨t, ht, hp⟩ := h
  cases hf : T.filter fun t => decide (t > 0) with
  | nil => exact absurd (List.filter_eq_nil_iff.1 hf t ht) (by simpa using hp)
  | cons s ss => exact ⟨s, ss, rfl⟩

theorem filter_zero {T : List ℝ} (h : ∀ t ∈ T, t = 0) : (T.filter fun t => decide (t > 0)) = [] := by
  rw [List.filter_eq_nil_iff]
  intro t ht
  simp [h t ht]

/-- C69.  For an insulator (a band gap) the constructor always raises: `NotImplementedError` if some temperature is positive, and
`AttributeError` if all are zero (the documented "all integrals are empty" case), because `e_smpl` is never set. -/
theorem C69_insulator (kB : ℝ) (b : ℕ → ℝ) (roots : ℝ → ℝ → ℤ → List ℝ) (D : DosData) (T : List ℝ) (N : Option ℤ) (rtol : ℝ)
    (hT : ∀ t ∈ T, 0 ≤ t) (hN : ∀ n, N = some n → n % 2 = 1) (hg : D.gap ≠ 0) :
    ((∃ t ∈ T, 0 < t) → init kB b roots D T N rtol = .error .notImplemented) ∧
    ((∀ t ∈ T, t = 0) → init kB b roots D T N rtol = .error .attributeError) := by
  rw [init_eq kB b roots D T N rtol hT hN]
  constructor
  · intro h
    obtain ⟨s, ss, hf⟩ := filter_pos h
    rw [hf]
    exact if_neg hg
  · intro h
    rw [filter_zero h]
    exact if_neg hg

/-- C69.  For a metal at temperature zero there is one Fermi surface with weight one – also if several (zero) temperatures were
given: the table has a single row. -/
theorem C69_zero (kB : ℝ) (b : ℕ → ℝ) (roots : ℝ → ℝ → ℤ → List ℝ) (D : DosData) (T : List ℝ) (N : Option ℤ) (rtol : ℝ)
    (hT : ∀ t ∈ T, t = 0) (hN : ∀ n, N = some n → n % 2 = 1) (hg : D.gap = 0) :
    init kB b roots D T N rtol = .ok ([D.eF], [[1]]) := by
  rw [init_eq kB b roots D T N rtol (fun t ht => (hT t ht).ge) hN, filter_zero hT]
  exact if_pos hg

/-- C69.  For a metal at a positive temperature `N = 1` raises `ValueError` (the single returned array cannot be unpacked), a
negative `N` raises `AssertionError`. -/
theorem C69_one (kB : ℝ) (b : ℕ → ℝ) (roots : ℝ → ℝ → ℤ → List ℝ) (D : DosData) (T : List ℝ) (n : ℤ) (rtol : ℝ)
    (hT : ∀ t ∈ T, 0 ≤ t) (hp : ∃ t ∈ T, 0 < t) (hg : D.gap = 0) :
    init kB b roots D T (some 1) rtol = .error .valueError ∧
    (n < 0 → init kB b roots D T (some n) rtol = .error .assertionError) := by
  obtain ⟨s, ss, hf⟩ := filter_pos hp
  constructor
  · rw [init_eq kB b roots D T (some 1) rtol hT (by rintro n h; cases h; norm_num), hf]
    simp only [if_pos hg, Option.getD_some]
    have : integrationPoints roots D.eF (ss.foldl min s) (maxL T) 1 = .ok [D.eF] := by
      unfold integrationPoints
      rw [if_neg (by norm_num), if_pos rfl]
    rw [this]
    have h2 : integrationWeights b [D.eF] (T.map fun t => 1 / (kB * t + 1e-20)) D.mu D.Emin D.Emax rtol = .ok none := by
      unfold integrationWeights
      rw [if_neg (by simp), if_pos (by simp)]
    simp only [bind, Except.bind, h2]
  · intro hn
    by_cases h2 : n % 2 = 1
    · rw [init_eq kB b roots D T (some n) rtol hT (by rintro m h; cases h; exact h2), hf]
      simp only [if_pos hg, Option.getD_some]
      have : integrationPoints roots D.eF (ss.foldl min s) (maxL T) n = .error .assertionError := by
        unfold integrationPoints
        rw [if_pos (by omega)]
      rw [this]
      rfl
    · exact (C69_assert kB b roots D T (some n) rtol).2 n rfl (by omega)

theorem foldl_min_le (l : List ℝ) (s : ℝ) : l.foldl min s ≤ s := by
  induction l generalizing s with
  | nil => exact le_rfl
  | cons a l ih => exact (ih _).trans (min_le_left _ _)

/-- C69.  For a metal with a positive temperature, odd `N ≥ 3` and `N` different points whose energy lies in the allowed range (any
chemical potential for temperatures that are not numerically zero), the constructor succeeds and the result is that of
`_integration_weights`. -/
theorem C69_metal (kB : ℝ) (b : ℕ → ℝ) (roots : ℝ → ℝ → ℤ → List ℝ) (D : DosData) (T : List ℝ) (N : Option ℤ) (rtol : ℝ)
    (hT : ∀ t ∈ T, 0 < t) (hT0 : T ≠ []) (hN : ∀ n, N = some n → n % 2 = 1 ∧ 3 ≤ n) (hg : D.gap = 0) (hmu : D.mu.length = T.length)
    (hr : ∀ a c n, 3 ≤ n → (roots a c n).Nodup ∧ ((roots a c n).length : ℤ) = n) (hβ : ∀ t ∈ T, 1 / (kB * t + 1e-20) ≤ (1e16 : ℝ)) :
    ∃ x xs ws, init kB b roots D T N rtol = .ok (xs, ws) ∧ ws.length = T.length ∧ x.Nodup ∧
      integrationWeights b x (T.map fun t => 1 / (kB * t + 1e-20)) D.mu D.Emin D.Emax rtol = .ok (some (xs, ws)) := by
  obtain ⟨t0, ts0, hTe⟩ := List.exists_cons_of_ne_nil hT0
  have hp : ∃ t ∈ T, 0 < t := ⟨t0, by rw [hTe]; simp, hT _ (by rw [hTe]; simp)⟩
  have hNv : N.getD (defaultN T) % 2 = 1 ∧ 3 ≤ N.getD (defaultN T) := by
    cases N with
    | some n => exact hN n rfl
    | none =>
      refine ⟨defaultN_odd T, ?_⟩
      simp only [Option.getD_none]
      unfold defaultN
      split
      · rename_i t
        rw [if_neg (hT t (by simp)).ne']
        norm_num
      · norm_num
  obtain ⟨s, ss, hf⟩ := filter_pos hp
  have hs : s ∈ T := (List.mem_filter.1 (hf ▸ List.mem_cons_self : s ∈ T.filter fun t => decide (t > 0))).1
  rw [init_eq kB b roots D T N rtol (fun t ht => (hT t ht).le) (fun n hn => (hN n hn).1), hf]
  simp only [if_pos hg]
  set n := N.getD (defaultN T) with hn
  have hpts : integrationPoints roots D.eF (ss.foldl min s) (maxL T) n = .ok (roots (ss.foldl min s) (maxL T) n) := by
    unfold integrationPoints
    rw [if_neg (by omega), if_neg (by omega), if_neg, if_neg (by omega)]
    exact not_not.2 ((foldl_min_le ss s).trans (maxL_ge T s hs))
  obtain ⟨hnd, hlen⟩ := hr (ss.foldl min s) (maxL T) n hNv.2
  set x := roots (ss.foldl min s) (maxL T) n with hx
  have hrows : ∀ l : List (ℝ × ℝ), (∀ p ∈ l, p.2 ≤ 1e16) → ∃ w, l.mapM (fun p => row b x p.1 p.2) = .ok w ∧ w.length = l.length := by
    intro l hl
    induction l with
    | nil => exact ⟨[], rfl, rfl⟩
    | cons p l ih =>
      obtain ⟨w, hw, hwl⟩ := ih fun q hq => hl q (List.mem_cons_of_mem _ hq)
      obtain ⟨r, hr, -⟩ := C68_exact b x p.1 p.2 hnd (hl p List.mem_cons_self)
      refine ⟨r :: w, ?_, by simp [hwl]⟩
      rw [List.mapM_cons, hr, hw]
      rfl
  obtain ⟨w, hw, hwl⟩ := hrows (D.mu.zip (T.map fun t => 1 / (kB * t + 1e-20))) (by
    intro p hp
    have := (List.of_mem_zip hp).2
    rw [List.mem_map] at this
    obtain ⟨t, ht, hpt⟩ := this
    rw [← hpt]
    exact hβ t ht)
  have hiw : integrationWeights b x (T.map fun t => 1 / (kB * t + 1e-20)) D.mu D.Emin D.Emax rtol =
      .ok (some (pick x w D.Emin D.Emax rtol x, w.map (pick x w D.Emin D.Emax rtol))) := by
    unfold integrationWeights
    rw [if_neg (by omega), if_neg (by omega), if_neg (by simp [hmu]), hw]
    rfl
  refine ⟨x, pick x w D.Emin D.Emax rtol x, w.map (pick x w D.Emin D.Emax rtol), ?_, ?_, hnd, hiw⟩
  · rw [hpts]
    simp only [bind, Except.bind, hiw]
  · rw [List.length_map, hwl, List.length_zip, List.length_map, hmu, min_self]

example : defaultN [300] = 13 ∧ defaultN [0] = 1 ∧ defaultN [0, 300] = 11 := by
  refine ⟨?_, ?_, rfl⟩
  · simp [defaultN]
  · simp [defaultN]

/-- Points as required by `C69_metal` exist. -/
example : ∃ roots : ℝ → ℝ → ℤ → List ℝ, ∀ a c n, 3 ≤ n → (roots a c n).Nodup ∧ ((roots a c n).length : ℤ) = n := by
  refine ⟨fun _ _ n => (List.range n.toNat).map fun i : ℕ => (i : ℝ), fun a c n hn => ⟨?_, ?_⟩⟩
  · exact List.nodup_range.map Nat.cast_injective
  · simp; omega

end TB.KI

import Mathlib.Tactic.NormNum
import Verif.Lemmas.Fourier

/-!
# C20 - C25: `HermitianFourierSeries`

`Spec.value H0 rest k` is `H0 + Σ (e^{2πi k·r} H_r + adjoint)`; `Spec.Starts0 s` says that the first neighbour is zero,
which the constructor guarantees (`mkSeries_starts`) and all methods keep (`C25_invariant`).
-/

set_option linter.unusedSectionVars false

namespace TB
open Matrix

variable {d n m : ℕ}

/-- C20.  `f(k)` returns `H_0 + Σ_{r ≠ first} (e^{2πi k·r} H_r + h.c.)`. -/
theorem C20_value (N : List (RVec d)) (H : List (CMat n)) (s : Series d n) (h : mkSeries N H = .ok s) :
    ∃ H0 Hs, H = H0 :: Hs ∧ ∀ k, s.f k = .ok (Spec.value H0 ((N.drop 1).zip Hs) k) := by
  obtain ⟨⟨rest, rfl⟩, hl, rfl⟩ := mkSeries_ok.1 h
  cases H with
  | nil => simp at hl
  | cons H0 Hs => exact ⟨H0, Hs, rfl, fun k => f_eq _ _ _⟩

/-- C20.  `f(k)` is hermitian for every `k` if the coefficient at zero is hermitian, and if `f(k)` is hermitian for a
single `k` then the coefficient at zero is. -/
theorem C20_hermitian (N : List (RVec d)) (H0 : CMat n) (Hs : List (CMat n)) (s : Series d n)
    (h : mkSeries N (H0 :: Hs) = .ok s) (k : RVec d) :
    ∃ M, s.f k = .ok M ∧ (M.IsHermitian ↔ H0.IsHermitian) := by
  obtain ⟨H0', Hs', he, hf⟩ := C20_value N _ s h
  simp only [List.cons.injEq] at he
  obtain ⟨rfl, rfl⟩ := he
  refine ⟨_, hf k, ?_⟩
  have hh := herm_sum (fi k) ((N.drop 1).zip Hs)
  constructor
  · intro hM
    have : H0 = Spec.value H0 ((N.drop 1).zip Hs) k -
        (((N.drop 1).zip Hs).map fun t => fi k t.1 • t.2 + (fi k t.1 • t.2)ᴴ).sum := by
      rw [Spec.value]; exact (add_sub_cancel_right _ _).symm
    rw [this]
    exact hM.sub hh
  · intro h0; exact h0.add hh

/-- C21.  For integer neighbours, `f`, `df` and `ddf` are periodic in `k` with every integer vector as period. -/
theorem C21_periodic (s : Series d n) (hint : ∀ t ∈ s.terms, ∀ i, ∃ z : ℤ, t.1 i = z) (k : RVec d) (g : Fin d → ℤ) :
    s.f (k + fun i => (g i : ℝ)) = s.f k ∧ (∀ a, s.df (k + fun i => (g i : ℝ)) a = s.df k a) ∧
    ∀ a b, s.ddf (k + fun i => (g i : ℝ)) a b = s.ddf k a b := by
  have hz : ∀ t ∈ s.terms, fi (k + fun i => (g i : ℝ)) t.1 = fi k t.1 := by
    intro t ht
    choose z hz using hint t ht
    refine fi_periodic k _ t.1 (∑ i, g i * z i) ?_
    rw [dotProduct]; push_cast
    exact Finset.sum_congr rfl fun i _ => by rw [hz i]
  have key : ∀ c c' : RVec d → ℂ, (∀ t ∈ s.terms, c t.1 = c' t.1) → hsum c s.terms = hsum c' s.terms := by
    intro c c' hc
    cases hs : s.terms with
    | nil => rfl
    | cons t0 rest =>
      rw [hs] at hc
      rw [hsum_cons, hsum_cons, hc t0 (by simp)]
      congr 3
      exact List.map_congr_left fun t ht => by rw [hc t (by simp [ht])]
  refine ⟨key _ _ hz, fun a => key _ _ fun t ht => ?_, fun a b => key _ _ fun t ht => ?_⟩
  · rw [dfi_eq, dfi_eq, hz t ht]
  · rw [ddfi_eq, ddfi_eq, hz t ht]

/-- C22.  For a series whose first neighbour is zero there are functions `F`, `DF`, `DDF` returned by `f`, `df`, `ddf`
such that for every point `k` and every direction `v` the derivative of `t ↦ F(k + t v)` at zero is `Σ_a v_a DF_a(k)`
and the derivative of `t ↦ DF_a(k + t v)` is `Σ_b v_b DDF_ab(k)` (entry by entry).  `DDF` is symmetric, `DF` and `DDF`
are hermitian matrices. -/
theorem C22_derivatives (s : Series d n) (hs : Spec.Starts0 s) :
    ∃ (F : RVec d → CMat n) (DF : RVec d → Fin d → CMat n) (DDF : RVec d → Fin d → Fin d → CMat n),
      (∀ k, s.f k = .ok (F k)) ∧ (∀ k a, s.df k a = .ok (DF k a)) ∧ (∀ k a b, s.ddf k a b = .ok (DDF k a b)) ∧
      (∀ k v i j, HasDerivAt (fun t : ℝ => F (k + t • v) i j) (∑ a, (v a : ℂ) * DF k a i j) 0) ∧
      (∀ k v a i j, HasDerivAt (fun t : ℝ => DF (k + t • v) a i j) (∑ b, (v b : ℂ) * DDF k a b i j) 0) ∧
      (∀ k a b, DDF k a b = DDF k b a) ∧ (∀ k a, (DF k a).IsHermitian) ∧ (∀ k a b, (DDF k a b).IsHermitian) := by
  obtain ⟨H0, rest, hs⟩ := hs
  obtain ⟨terms⟩ := s
  simp only at hs
  subst hs
  refine ⟨_, _, _, fun k => f_eq H0 rest k, fun k a => df_eq H0 rest k a, fun k a b => ddf_eq H0 rest k a b, ?_, ?_, ?_,
    ?_, ?_⟩
  · intro k v i j
    have := hsum_hasDerivAt (fun t => fi (k + t • v)) _ (fun r => fi_hasDerivAt k v r) rest i j
    rw [sum_smul_terms v (fun r a => dfi k r a)] at this
    exact (this.const_add (H0 i j))
  · intro k v a i j
    have := hsum_hasDerivAt (fun t r => dfi (k + t • v) r a) _ (fun r => dfi_hasDerivAt k v r a) rest i j
    rw [sum_smul_terms v (fun r b => ddfi k r a b)] at this
    exact this
  · intro k a b
    have : ∀ r : RVec d, ddfi k r a b = ddfi k r b a := fun r => by rw [ddfi_eq, ddfi_eq]; ring
    simp only [this]
  · intro k a; exact herm_sum (fun r => dfi k r a) rest
  · intro k a b; exact herm_sum (fun r => ddfi k r a b) rest

theorem zero_terms (c : RVec d → ℂ) (l : List (RVec d × CMat n)) (h : ∀ t ∈ l, t.2 = 0) :
    (l.map fun t => c t.1 • t.2 + (c t.1 • t.2)ᴴ).sum = 0 := by
  induction l with
  | nil => simp
  | cons t l ih =>
    rw [List.map_cons, List.sum_cons, h t (by simp), ih fun u hu => h u (by simp [hu])]
    simp

/-- C23.  `unit_matrix(neighbors, n)` succeeds exactly if the first neighbour is zero; then its value is the identity
for every `k`, and its first and second derivatives vanish. -/
theorem C23_unit_matrix (N : List (RVec d)) (n : ℕ) :
    ((∃ s, Series.unitMatrix N n = .ok s) ↔ ∃ rest, N = 0 :: rest) ∧
    ∀ s, Series.unitMatrix N n = .ok s → ∀ k, s.f k = .ok 1 ∧ (∀ a, s.df k a = .ok 0) ∧ ∀ a b, s.ddf k a b = .ok 0 := by
  constructor
  · constructor
    · rintro ⟨s, hs⟩; exact (mkSeries_ok.1 hs).1
    · intro h; exact ⟨_, mkSeries_ok.2 ⟨h, by simp, rfl⟩⟩
  · intro s hs k
    obtain ⟨⟨rest, rfl⟩, -, rfl⟩ := mkSeries_ok.1 hs
    have e : (0 :: rest : List (RVec d)).zip ((0 :: rest : List (RVec d)).mapIdx fun i _ => if i = 0 then (1 : CMat n) else 0)
        = (0, 1) :: rest.map fun r => (r, 0) := by
      rw [List.mapIdx_cons]
      simp only [List.zip_cons_cons, if_true, Nat.add_eq_zero_iff, one_ne_zero, and_false, if_false]
      congr 1
      apply List.ext_getElem
      · simp
      · intro i h1 h2; simp
    have hz : ∀ t ∈ rest.map fun r => (r, (0 : CMat n)), t.2 = 0 := by
      intro t ht; obtain ⟨r, -, rfl⟩ := List.mem_map.1 ht; rfl
    rw [e]
    refine ⟨?_, fun a => ?_, fun a b => ?_⟩
    · rw [Series.f, hsum_cons, zero_terms _ _ hz, fi_zero]; simp
    · rw [Series.df, hsum_cons, zero_terms (fun r => dfi k r a) _ hz, dfi_zero]; simp
    · rw [Series.ddf, hsum_cons, zero_terms (fun r => ddfi k r a b) _ hz, ddfi_zero]; simp

/-! ## C24 -/

/-- A position counts as listed when it is closer than `1e-5` to one of the neighbours. -/
def Spec.Listed (s : Series d n) (r : RVec d) : Prop := ∃ t ∈ s.terms, vnorm (t.1 - r) < 1e-5

open Classical in
theorem addCheck_spec (listed : List (RVec d)) (hl : listed ≠ []) (single : Bool) (new : List (RVec d)) :
    addCheck listed single new = if ∃ r ∈ new, ∃ q ∈ listed, vnorm (q - r) < 1e-5
      then some (if single then .ok () else .error .valueError) else none := by
  induction new with
  | nil => simp [addCheck]
  | cons r new ih =>
    rw [addCheck, if_neg hl]
    by_cases h : ∃ q ∈ listed, vnorm (q - r) < 1e-5
    · have h2 : ∃ r' ∈ r :: new, ∃ q ∈ listed, vnorm (q - r') < 1e-5 := ⟨r, by simp, h⟩
      rw [if_pos h, if_pos h2]; cases single <;> rfl
    · rw [if_neg h, ih]
      simp only [List.mem_cons, exists_eq_or_imp, h, false_or]

/-- C24.  If none of the added positions is listed, the call succeeds, the series has the old terms followed by the new
positions with coefficient zero, and `f`, `df`, `ddf` are unchanged for every `k`. -/
theorem C24_add_new (s : Series d n) (hs : s.terms ≠ []) (new : List (RVec d)) (hnew : ∀ r ∈ new, ¬ Spec.Listed s r) :
    ∃ s', s.addNeighbors new = (s', .ok ()) ∧ s'.terms = s.terms ++ new.map (fun r => (r, 0)) ∧
      (∀ k, s'.f k = s.f k) ∧ (∀ k a, s'.df k a = s.df k a) ∧ ∀ k a b, s'.ddf k a b = s.ddf k a b := by
  have hc : addCheck (s.terms.map Prod.fst) (new.length == 1) new = none := by
    rw [addCheck_spec _ (by simpa using hs), if_neg]
    rintro ⟨r, hr, q, hq, hqr⟩
    obtain ⟨t, ht, rfl⟩ := List.mem_map.1 hq
    exact hnew r hr ⟨t, ht, hqr⟩
  have key : ∀ c : RVec d → ℂ, hsum c (s.terms ++ new.map fun r => (r, 0)) = hsum c s.terms := by
    intro c
    obtain ⟨t0, rest, hr⟩ := List.exists_cons_of_ne_nil hs
    rw [hr, List.cons_append, hsum_cons, hsum_cons, List.map_append, List.sum_append]
    rw [zero_terms c (new.map fun r => (r, 0)) (by simp), add_zero]
  refine ⟨⟨s.terms ++ new.map fun r => (r, 0)⟩, ?_, rfl, fun k => key _, fun k a => key _, fun k a b => key _⟩
  rw [Series.addNeighbors, hc]

/-- C24.  If one of the added positions is listed the series is left as it is: a call with a single position returns
normally (after printing a warning), a call with several positions raises `ValueError`. -/
theorem C24_add_listed (s : Series d n) (new : List (RVec d)) (h : ∃ r ∈ new, Spec.Listed s r) :
    s.addNeighbors new = (s, if new.length = 1 then .ok () else .error .valueError) := by
  obtain ⟨r, hr, t, ht, htr⟩ := h
  have hne : s.terms.map Prod.fst ≠ [] := by
    intro h0; rw [List.map_eq_nil_iff] at h0; rw [h0] at ht; simp at ht
  rw [Series.addNeighbors, addCheck_spec _ hne, if_pos ⟨r, hr, t.1, List.mem_map_of_mem ht, htr⟩]
  by_cases h1 : new.length = 1
  · simp [h1]
  · simp [h1]

/-- C24, the limit of the check: duplicates inside the added list are not noticed.  The call with the same new position
twice succeeds and the position is then listed twice. -/
theorem C24_duplicates_accepted (s : Series d n) (hs : s.terms ≠ []) (r : RVec d) (hr : ¬ Spec.Listed s r) :
    s.addNeighbors [r, r] = (⟨s.terms ++ [(r, 0), (r, 0)]⟩, .ok ()) := by
  obtain ⟨s', h1, h2, -⟩ := C24_add_new s hs [r, r] (by simp [hr])
  rw [h1]
  congr 1
  cases s'
  simp only at h2
  simp [h2]

/-! ## C25 -/

theorem filter_zero (c : RVec d → ℂ) (p : RVec d × CMat n → Bool) (l : List (RVec d × CMat n)) :
    (l.map fun t => c t.1 • t.2 + (c t.1 • t.2)ᴴ).sum =
      ((l.filter p).map fun t => c t.1 • t.2 + (c t.1 • t.2)ᴴ).sum +
      ((l.filter fun t => !p t).map fun t => c t.1 • t.2 + (c t.1 • t.2)ᴴ).sum := by
  induction l with
  | nil => simp
  | cons t l ih => cases hp : p t <;> simp only [List.filter_cons, hp, List.map_cons, List.sum_cons, ih, Bool.not_true, Bool.not_false, if_true, Bool.false_eq_true, if_false] <;> abel

/-- Euclidean length of a vector. -/
noncomputable def Spec.length (r : RVec d) : ℝ := Real.sqrt (∑ i, r i ^ 2)

/-- Frobenius norm of a matrix. -/
noncomputable def Spec.frobenius (H : CMat n) : ℝ := Real.sqrt (∑ i, ∑ j, ‖H i j‖ ^ 2)

open Classical in
theorem limit_neighbors_aux (s : Series d n) (L : ℝ) :
    (0 ≤ L → ∃ s' dropped, s.limitNeighbors L = (s', .ok dropped) ∧
      s'.terms = s.terms.filter (fun t => decide (vnorm t.1 ≤ L + 1e-8)) ∧
      s'.terms.length + dropped = s.terms.length ∧
      (∀ H0 rest, s.terms = (0, H0) :: rest → ∃ rest', s'.terms = (0, H0) :: rest' ∧
        ∀ k, s.f k = .ok (Spec.value H0 rest' k +
          Spec.value 0 (rest.filter fun t => decide (L + 1e-8 < vnorm t.1)) k))) ∧
    (L < 0 → s.limitNeighbors L = (s, .error .assertionError)) := by
  constructor
  · intro hL
    refine ⟨_, _, by rw [Series.limitNeighbors, if_neg (not_not.2 hL)], rfl, ?_, ?_⟩
    · exact Nat.add_sub_cancel' (List.length_filter_le _ _)
    · intro H0 rest hr
      have h0 : vnorm (0 : RVec d) ≤ L + 1e-8 := by rw [vnorm_eq_zero.2 rfl]; positivity
      refine ⟨rest.filter fun t => decide (vnorm t.1 ≤ L + 1e-8), ?_, fun k => ?_⟩
      · simp only [hr]
        rw [List.filter_cons_of_pos (by simpa using h0)]
      · obtain ⟨terms⟩ := s
        simp only at hr
        subst hr
        rw [f_eq, Spec.value, Spec.value, Spec.value]
        have := filter_zero (fi k) (fun t => decide (vnorm t.1 ≤ L + 1e-8)) rest
        simp only [fi, ← decide_not, not_le] at this
        rw [this]
        congr 1
        rw [zero_add, add_assoc]
  · intro hL
    rw [Series.limitNeighbors, if_pos (not_le.2 hL)]

open Classical in
/-- C25.  `limit_neighbors(L)` with `L ≥ 0` keeps exactly the terms whose neighbour has length at most `L + 1e-8`, in
their order, and returns how many were dropped; the first neighbour stays zero and `f` changes by exactly the dropped
terms.  A negative `L` raises `AssertionError` and changes nothing. -/
theorem C25_limit_neighbors (s : Series d n) (L : ℝ) :
    (0 ≤ L → ∃ s' dropped, s.limitNeighbors L = (s', .ok dropped) ∧
      s'.terms = s.terms.filter (fun t => decide (Spec.length t.1 ≤ L + 1e-8)) ∧
      s'.terms.length + dropped = s.terms.length ∧
      (∀ H0 rest, s.terms = (0, H0) :: rest → ∃ rest', s'.terms = (0, H0) :: rest' ∧
        ∀ k, s.f k = .ok (Spec.value H0 rest' k +
          Spec.value 0 (rest.filter fun t => decide (L + 1e-8 < Spec.length t.1)) k))) ∧
    (L < 0 → s.limitNeighbors L = (s, .error .assertionError)) := limit_neighbors_aux s L

open Classical in
theorem cleanup_neighbors_aux (s : Series d n) (hs : Spec.Starts0 s) (minNorm : ℝ) :
    ∃ H0 rest s' dropped, s.terms = (0, H0) :: rest ∧ s.cleanup minNorm = (s', .ok dropped) ∧
      s'.terms = (0, H0) :: rest.filter (fun t => decide (minNorm ≤ mnorm t.2)) ∧
      s'.terms.length + dropped = s.terms.length ∧
      ∀ k, ∃ M, s'.f k = .ok M ∧
        s.f k = .ok (M + Spec.value 0 (rest.filter fun t => decide (mnorm t.2 < minNorm)) k) := by
  obtain ⟨H0, rest, hr⟩ := hs
  obtain ⟨terms⟩ := s
  simp only at hr
  subst hr
  refine ⟨H0, rest, _, _, rfl, rfl, rfl, ?_, fun k => ⟨_, f_eq _ _ _, ?_⟩⟩
  · have := List.length_filter_le (fun t : RVec d × CMat n => decide (minNorm ≤ mnorm t.2)) rest
    simp only [List.length_cons, ge_iff_le]; omega
  · rw [f_eq, Spec.value, Spec.value, Spec.value]
    have := filter_zero (fi k) (fun t => decide (minNorm ≤ mnorm t.2)) rest
    simp only [fi, ← decide_not, not_le] at this
    rw [this]
    congr 1
    rw [zero_add, add_assoc]

open Classical in
/-- C25.  `cleanup_neighbors(m)` keeps exactly the first term and the terms with coefficient norm at least `m`, in
their order, and returns how many were dropped; `f` changes by exactly the dropped terms. -/
theorem C25_cleanup_neighbors (s : Series d n) (hs : Spec.Starts0 s) (minNorm : ℝ) :
    ∃ H0 rest s' dropped, s.terms = (0, H0) :: rest ∧ s.cleanup minNorm = (s', .ok dropped) ∧
      s'.terms = (0, H0) :: rest.filter (fun t => decide (minNorm ≤ Spec.frobenius t.2)) ∧
      s'.terms.length + dropped = s.terms.length ∧
      ∀ k, ∃ M, s'.f k = .ok M ∧
        s.f k = .ok (M + Spec.value 0 (rest.filter fun t => decide (Spec.frobenius t.2 < minNorm)) k) := cleanup_neighbors_aux s hs minNorm

/-- Contract of sorting by length: a rearrangement of the list with non-decreasing lengths. -/
def Spec.IsSort (sort : List (RVec d × CMat n) → List (RVec d × CMat n)) : Prop :=
  ∀ l, (sort l).Perm l ∧ (sort l).Pairwise fun a b => vnorm a.1 ≤ vnorm b.1

theorem sort_head {sort : List (RVec d × CMat n) → List (RVec d × CMat n)} (hsort : Spec.IsSort sort) (s : Series d n)
    (hs : Spec.Starts0 s) : ∃ H0 rest, sort s.terms = (0, H0) :: rest := by
  obtain ⟨H0, rest, hr⟩ := hs
  obtain ⟨hp, hpw⟩ := hsort s.terms
  cases hq : sort s.terms with
  | nil => rw [hq, hr] at hp; exact absurd hp.symm.eq_nil (by simp)
  | cons t l =>
    refine ⟨t.2, l, ?_⟩
    rw [hq] at hp hpw
    have h0 : ((0 : RVec d), H0) ∈ t :: l := hp.mem_iff.2 (by rw [hr]; simp)
    have hle : vnorm t.1 ≤ 0 := by
      rcases List.mem_cons.1 h0 with h | h
      · rw [← h]; exact (vnorm_eq_zero.2 rfl).le
      · have := (List.pairwise_cons.1 hpw).1 _ h
        rwa [vnorm_eq_zero.2 rfl] at this
    have : t.1 = 0 := vnorm_eq_zero.1 (le_antisymm hle (vnorm_nonneg _))
    rw [← this]

theorem limit_neighbor_count_aux (sort : List (RVec d × CMat n) → List (RVec d × CMat n)) (hsort : Spec.IsSort sort)
    (s : Series d n) (hs : Spec.Starts0 s) (c : ℕ) (hc : 1 ≤ c) :
    ∃ s' dropped, s.limitCount sort c = (s', .ok dropped.length) ∧ (s'.terms ++ dropped).Perm s.terms ∧
      s'.terms.length = min c s.terms.length ∧ Spec.Starts0 s' ∧
      ∀ t ∈ s'.terms, ∀ u ∈ dropped, vnorm t.1 ≤ vnorm u.1 := by
  obtain ⟨hp, hpw⟩ := hsort s.terms
  have e : pySliceTo (sort s.terms) (c : ℤ) = (sort s.terms).take c := by
    simp [pySliceTo]
  have hlen := hp.length_eq
  refine ⟨⟨(sort s.terms).take c⟩, (sort s.terms).drop c, ?_, ?_, ?_, ?_, ?_⟩
  · rw [Series.limitCount, e]
    simp only [List.length_take, List.length_drop, hlen]
    congr 2; omega
  · simp only [List.take_append_drop]; exact hp
  · simp [hlen]
  · obtain ⟨H0, rest, hr⟩ := sort_head hsort s hs
    obtain ⟨c, rfl⟩ := Nat.exists_eq_add_of_le' hc
    exact ⟨H0, rest.take c, by simp [hr]⟩
  · intro t ht u hu
    rw [← List.take_append_drop c (sort s.terms)] at hpw
    exact (List.pairwise_append.1 hpw).2.2 t ht u hu

/-- C25.  `limit_neighbor_count(c)` with `c ≥ 1` keeps `min(c, count)` terms, none of the kept neighbours is longer than
a dropped one, nothing else is lost, the number of dropped terms is returned and the first neighbour is zero
afterwards. -/
theorem C25_limit_neighbor_count (sort : List (RVec d × CMat n) → List (RVec d × CMat n)) (hsort : Spec.IsSort sort)
    (s : Series d n) (hs : Spec.Starts0 s) (c : ℕ) (hc : 1 ≤ c) :
    ∃ s' dropped, s.limitCount sort c = (s', .ok dropped.length) ∧ (s'.terms ++ dropped).Perm s.terms ∧
      s'.terms.length = min c s.terms.length ∧ Spec.Starts0 s' ∧
      ∀ t ∈ s'.terms, ∀ u ∈ dropped, Spec.length t.1 ≤ Spec.length u.1 := limit_neighbor_count_aux sort hsort s hs c hc

/-- C25, outside that range: `limit_neighbor_count(0)` removes everything, and `f` then raises `IndexError`. -/
theorem C25_limit_count_zero (sort : List (RVec d × CMat n) → List (RVec d × CMat n)) (s : Series d n) (k : RVec d) :
    (s.limitCount sort 0).1.f k = .error .indexError := by
  simp [Series.limitCount, pySliceTo, Series.f, hsum]

/-- C25.  `limit_neighbor_count(-c)` does not raise but drops the `c` longest neighbours. -/
theorem C25_limit_count_negative (sort : List (RVec d × CMat n) → List (RVec d × CMat n)) (hsort : Spec.IsSort sort)
    (s : Series d n) (c : ℕ) (hc : 1 ≤ c) :
    ∃ s' dropped, s.limitCount sort (-c) = (s', .ok dropped.length) ∧ (s'.terms ++ dropped).Perm s.terms ∧
      dropped.length = min c s.terms.length ∧ ∀ t ∈ s'.terms, ∀ u ∈ dropped, vnorm t.1 ≤ vnorm u.1 := by
  obtain ⟨hp, hpw⟩ := hsort s.terms
  have hlen := hp.length_eq
  have e : pySliceTo (sort s.terms) (-c : ℤ) = (sort s.terms).take (s.terms.length - c) := by
    rw [pySliceTo, if_neg (by omega)]; simp [hlen]
  refine ⟨⟨(sort s.terms).take (s.terms.length - c)⟩, (sort s.terms).drop (s.terms.length - c), ?_, ?_, ?_, ?_⟩
  · rw [Series.limitCount, e]
    simp only [List.length_take, List.length_drop, hlen]
    congr 2; omega
  · simp only [List.take_append_drop]; exact hp
  · simp [hlen]; omega
  · intro t ht u hu
    rw [← List.take_append_drop (s.terms.length - c) (sort s.terms)] at hpw
    exact (List.pairwise_append.1 hpw).2.2 t ht u hu

/-- The calls that change the neighbours of a series. -/
inductive SeriesOp (d : ℕ)
  | add (new : List (RVec d))
  | limit (maxLength : ℝ)
  | count (maxCount : ℤ)
  | cleanup (minNorm : ℝ)

/-- The series after one call (whether it returned or raised). -/
noncomputable def SeriesOp.run (sort : List (RVec d × CMat n) → List (RVec d × CMat n)) (s : Series d n) :
    SeriesOp d → Series d n
  | .add new => (s.addNeighbors new).1
  | .limit L => (s.limitNeighbors L).1
  | .count c => (s.limitCount sort c).1
  | .cleanup m => (s.cleanup m).1

/-- C25.  After every sequence of these calls, raising or not, as long as `limit_neighbor_count` is called with a
positive count, the first neighbour is zero, so `f` can be evaluated; every coefficient is one of the initial ones at
its initial neighbour or zero; and if the initial neighbours are distinct and every added list is free of duplicates,
the neighbours are distinct. -/
theorem C25_invariant (sort : List (RVec d × CMat n) → List (RVec d × CMat n)) (hsort : Spec.IsSort sort)
    (s : Series d n) (hs : Spec.Starts0 s) (ops : List (SeriesOp d))
    (hops : ∀ c, SeriesOp.count c ∈ ops → 1 ≤ c) :
    Spec.Starts0 (ops.foldl (SeriesOp.run sort) s) ∧
    (∀ k, ∃ M, (ops.foldl (SeriesOp.run sort) s).f k = .ok M) ∧
    (∀ t ∈ (ops.foldl (SeriesOp.run sort) s).terms, t ∈ s.terms ∨ t.2 = 0) ∧
    ((s.terms.map Prod.fst).Nodup → (∀ new, SeriesOp.add new ∈ ops → new.Nodup) →
      ((ops.foldl (SeriesOp.run sort) s).terms.map Prod.fst).Nodup) := by
  suffices h : Spec.Starts0 (ops.foldl (SeriesOp.run sort) s) ∧
      (∀ t ∈ (ops.foldl (SeriesOp.run sort) s).terms, t ∈ s.terms ∨ t.2 = 0) ∧
      ((s.terms.map Prod.fst).Nodup → (∀ new, SeriesOp.add new ∈ ops → new.Nodup) →
      ((ops.foldl (SeriesOp.run sort) s).terms.map Prod.fst).Nodup) by
    refine ⟨h.1, fun k => ?_, h.2⟩
    obtain ⟨H0, rest, hr⟩ := h.1
    exact ⟨_, by rw [Series.f, hr, hsum_cons]⟩
  induction ops generalizing s with
  | nil => exact ⟨hs, fun t ht => .inl ht, fun h _ => h⟩
  | cons op ops ih =>
    rw [List.foldl_cons]
    have step : Spec.Starts0 (SeriesOp.run sort s op) ∧
        (∀ t ∈ (SeriesOp.run sort s op).terms, t ∈ s.terms ∨ t.2 = 0) ∧
        ((s.terms.map Prod.fst).Nodup → (∀ new, op = SeriesOp.add new → new.Nodup) →
          ((SeriesOp.run sort s op).terms.map Prod.fst).Nodup) := by
      cases op with
      | add new =>
        have hne : s.terms ≠ [] := by obtain ⟨H0, rest, hr⟩ := hs; simp [hr]
        by_cases h : ∃ r ∈ new, Spec.Listed s r
        · rw [SeriesOp.run, C24_add_listed s new h]; exact ⟨hs, fun t ht => .inl ht, fun h _ => h⟩
        · push Not at h
          obtain ⟨s', h1, h2, -⟩ := C24_add_new s hne new h
          rw [SeriesOp.run, h1]
          obtain ⟨H0, rest, hr⟩ := hs
          refine ⟨⟨H0, rest ++ new.map fun r => (r, 0), by simp [h2, hr]⟩, fun t ht => ?_, fun hnd hnew => ?_⟩
          · simp only at ht
            rw [h2, List.mem_append] at ht
            rcases ht with ht | ht
            · exact .inl ht
            · obtain ⟨r, -, rfl⟩ := List.mem_map.1 ht; exact .inr rfl
          · simp only
            rw [h2, List.map_append, List.nodup_append]
            refine ⟨hnd, ?_, ?_⟩
            · rw [List.map_map]
              have : (Prod.fst ∘ fun r : RVec d => (r, (0 : CMat n))) = id := rfl
              rw [this, List.map_id]
              exact hnew new rfl
            · rintro a ha b hb rfl
              rw [List.map_map] at hb
              obtain ⟨r, hr', rfl⟩ := List.mem_map.1 hb
              obtain ⟨t, ht, hta⟩ := List.mem_map.1 ha
              refine h r hr' ⟨t, ht, ?_⟩
              have : t.1 - r = 0 := sub_eq_zero.2 hta
              rw [this, vnorm_eq_zero.2 rfl]; norm_num
      | limit L =>
        by_cases hL : 0 ≤ L
        · obtain ⟨s', dr, h1, h2, -, h4⟩ := (C25_limit_neighbors s L).1 hL
          rw [SeriesOp.run, h1]
          obtain ⟨H0, rest, hr⟩ := hs
          obtain ⟨rest', hr', -⟩ := h4 H0 rest hr
          refine ⟨⟨H0, rest', hr'⟩, fun t ht => .inl ?_, fun hnd _ => ?_⟩
          · simp only at ht; rw [h2] at ht; exact List.mem_of_mem_filter ht
          · simp only; rw [h2]; exact hnd.sublist (List.Sublist.map _ List.filter_sublist)
        · rw [SeriesOp.run, (C25_limit_neighbors s L).2 (not_le.1 hL)]; exact ⟨hs, fun t ht => .inl ht, fun h _ => h⟩
      | count c =>
        have hc := hops c (by simp)
        obtain ⟨c', rfl⟩ := Int.eq_ofNat_of_zero_le (by omega : 0 ≤ c)
        obtain ⟨s', dr, h1, h2, -, h4, -⟩ := C25_limit_neighbor_count sort hsort s hs c' (by omega)
        rw [SeriesOp.run, h1]
        refine ⟨h4, fun t ht => .inl (h2.mem_iff.1 (List.mem_append_left _ ht)), fun hnd _ => ?_⟩
        have := (h2.map Prod.fst).nodup_iff.2 hnd
        rw [List.map_append] at this
        exact this.of_append_left
      | cleanup mn =>
        obtain ⟨H0, rest, s', dr, h0, h1, h2, -⟩ := C25_cleanup_neighbors s hs mn
        rw [SeriesOp.run, h1]
        refine ⟨⟨H0, _, h2⟩, fun t ht => .inl ?_, fun hnd _ => ?_⟩
        · simp only at ht
          rw [h2] at ht
          rw [h0]
          rcases List.mem_cons.1 ht with h | h
          · rw [h]; simp
          · exact List.mem_cons_of_mem _ (List.mem_of_mem_filter h)
        · simp only
          rw [h2]
          rw [h0] at hnd
          exact hnd.sublist (List.Sublist.map _ (List.Sublist.cons_cons _ List.filter_sublist))
    obtain ⟨h1, h2, h3⟩ := ih (SeriesOp.run sort s op) step.1 fun c hc => hops c (by simp [hc])
    refine ⟨h1, fun t ht => ?_, fun hnd hnew => ?_⟩
    · rcases h2 t ht with h | h
      · exact step.2.1 t h
      · exact .inr h
    · exact h3 (step.2.2 hnd fun new h => hnew new (by simp [h])) fun new h => hnew new (by simp [h])

/-! ### examples -/

/-- One dimensional chain: on site energy 1, hopping `i` to the right neighbour. -/
noncomputable def exChain : Series 1 1 := ⟨[(0, !![1]), (![1], !![Complex.I])]⟩

theorem exChain_ok : mkSeries [0, ![1]] [!![1], !![Complex.I]] = .ok exChain :=
  mkSeries_ok.2 ⟨⟨_, rfl⟩, rfl, rfl⟩

-- the hypotheses of C20 hold for the chain, whose constant term is hermitian
example (k : RVec 1) : ∃ M, exChain.f k = .ok M ∧ M.IsHermitian := by
  obtain ⟨M, h1, h2⟩ := C20_hermitian _ _ _ _ exChain_ok k
  refine ⟨M, h1, h2.2 ?_⟩
  ext i j; fin_cases i; fin_cases j; simp

-- its neighbours are integers (C21), it starts with zero (C22, C25)
example : ∀ t ∈ exChain.terms, ∀ i, ∃ z : ℤ, t.1 i = z := by
  intro t ht i
  simp only [exChain, List.mem_cons, List.not_mem_nil, or_false] at ht
  rcases ht with rfl | rfl
  · exact ⟨0, by simp⟩
  · exact ⟨1, by fin_cases i; simp⟩

example : Spec.Starts0 exChain := mkSeries_starts exChain_ok

-- C24: the position 2 is not listed, the position 1 is
example : ¬ Spec.Listed exChain ![2] := by
  rintro ⟨t, ht, h⟩
  simp only [exChain, List.mem_cons, List.not_mem_nil, or_false] at ht
  have e : vnorm (t.1 - ![2]) = |t.1 0 - 2| := by simp [vnorm, Real.sqrt_sq_eq_abs]
  rw [e] at h
  rcases ht with rfl | rfl
  · simp at h; norm_num at h
  · simp at h; norm_num at h

example : Spec.Listed exChain ![1] := by
  refine ⟨(![1], !![Complex.I]), by simp [exChain], ?_⟩
  simp only [sub_self]
  rw [vnorm_eq_zero.2 rfl]; norm_num

open Classical in
-- the contract of sorting can be met: insertion sort by length
example : Spec.IsSort (d := d) (n := n) (List.insertionSort fun a b => vnorm a.1 ≤ vnorm b.1) := fun l =>
  have : Std.Total (fun a b : RVec d × CMat n => vnorm a.1 ≤ vnorm b.1) := ⟨fun _ _ => le_total _ _⟩
  have : IsTrans (RVec d × CMat n) (fun a b => vnorm a.1 ≤ vnorm b.1) := ⟨fun _ _ _ h1 h2 => le_trans h1 h2⟩
  ⟨List.perm_insertionSort _ l, List.pairwise_insertionSort _ l⟩

end TB

import Mathlib.Tactic.FinCases
import Verif.Lemmas.TightBinding
import Verif.Props.SimpleBands

/-!
# C105: `TightBindingModel`

`Spec.trig` is the documented sum of cosines and sines, `Spec.Fits` says that the parameters of an object are those matrices, and
`Spec.Good` in addition that they are hermitian.  The results are compared with `HermitianFourierSeries` (`mkSeries`), the class used by
`AsymTightBindingModel`.
-/

set_option linter.unusedSectionVars false

namespace TB
open Matrix Filter Topology

variable {d n : ℕ}

/-- `P0 + Σ_r ((cos 2πk·r - 1) A_r + sin 2πk·r B_r)`. -/
noncomputable def Spec.trig (P0 : CMat n) (rest : List (RVec d)) (A B : List (CMat n)) (k : RVec d) : CMat n :=
  P0 + (((rest.zip A).map fun p => ((Real.cos (2 * Real.pi * (k ⬝ᵥ p.1)) - 1 : ℝ) : ℂ) • p.2).sum +
    ((rest.zip B).map fun p => ((Real.sin (2 * Real.pi * (k ⬝ᵥ p.1)) : ℝ) : ℂ) • p.2).sum)

/-- The object has the neighbours `0 :: rest` and the parameters `P0`, `A` (cosines) and `B` (sines). -/
structure Spec.Fits (t : TBM d n) (rest : List (RVec d)) (P0 : CMat n) (A B : List (CMat n)) : Prop where
  nbrs : t.nbrs = 0 :: rest
  params : t.params = P0 :: (A ++ B)
  lenA : A.length = rest.length
  lenB : B.length = rest.length

/-- The parameters fit and are hermitian. -/
structure Spec.Good (t : TBM d n) (rest : List (RVec d)) (P0 : CMat n) (A B : List (CMat n)) : Prop extends Spec.Fits t rest P0 A B where
  herm0 : P0.IsHermitian
  hermA : ∀ X ∈ A, X.IsHermitian
  hermB : ∀ X ∈ B, X.IsHermitian

theorem mapM_mem {α β : Type} {f : α → Except Err β} {l : List α} {r : List β} (h : l.mapM f = .ok r) : ∀ y ∈ r, ∃ x ∈ l, f x = .ok y := by
  induction l generalizing r with
  | nil =>
    rw [List.mapM_nil] at h
    cases h
    simp
  | cons a l ih =>
    rw [List.mapM_cons] at h
    cases ha : f a with
    | error e => rw [ha] at h; cases h
    | ok b =>
      rw [ha] at h
      cases hl : l.mapM f with
      | error e => rw [hl] at h; cases h
      | ok r' =>
        rw [hl] at h
        cases h
        intro y hy
        rcases List.mem_cons.1 hy with rfl | hy
        · exact ⟨a, by simp, ha⟩
        · obtain ⟨x, hx, hx2⟩ := ih hl y hy
          exact ⟨x, by simp [hx], hx2⟩

/-- Without inversion, `symmetrizer` of two or more operations raises. -/
theorem symmetrizer_no_inversion (ρ : UR.Rep ℝ ℂ d n) (hi : ρ.sym.inversion = false) (hU : 2 ≤ ρ.U.length) (ns : List (RVec d)) :
    ∃ e, ρ.symmetrizer ns = .error e := by
  rw [UR.Rep.symmetrizer, if_neg (by omega)]
  by_cases h1 : ρ.sym.S.length ≠ ρ.U.length
  · rw [if_pos h1]; exact ⟨_, rfl⟩
  rw [if_neg h1]
  cases hr : ns.mapM (UR.taskRow ρ.sym.inversion ρ.sym.S ns) with
  | error e => exact ⟨e, rfl⟩
  | ok rows =>
    have hc : ∀ r' j, UR.classify ρ.sym.inversion ns r' ≠ .ok (j, .center) := by
      intro r' j h
      rw [UR.classify, hi] at h
      cases hn : UR.neighbor ns r' with
      | error e => rw [hn] at h; cases h
      | ok p =>
        obtain ⟨j', m⟩ := p
        rw [hn] at h
        cases m <;> simp at h
    have hrow : ∀ row ∈ rows, ∀ p ∈ row, p.2 ≠ .center := by
      intro row hrow p hp hp2
      obtain ⟨r, -, hr2⟩ := mapM_mem hr row hrow
      obtain ⟨s, -, hs⟩ := mapM_mem hr2 p hp
      obtain ⟨j, k⟩ := p
      simp only at hp2
      subst hp2
      exact hc _ _ hs
    have h0 : UR.tasksOf .center rows = [] := by
      rw [UR.tasksOf, List.flatMap_eq_nil_iff]
      rintro ⟨row, i⟩ hx
      have hrm := List.fst_mem_of_mem_zipIdx hx
      simp only
      rw [List.filterMap_eq_nil_iff]
      rintro ⟨p, m⟩ hy
      exact if_neg (hrow row hrm p (List.fst_mem_of_mem_zipIdx hy))
    simp only [h0]
    split_ifs
    · exact ⟨_, rfl⟩
    · exact ⟨_, rfl⟩

/-- C105.  Although the class is made for models with symmetry, an object can be created exactly for representations of the trivial group (one matrix, no
inversion): the first neighbour has to be zero and given parameters need one matrix for the first and two for every other neighbour.  Missing
parameters are zero.  The symmetrizer of the object is the identity. -/
theorem C105_constructor (ρ : UR.Rep ℝ ℂ d n) (nbrs : List (RVec d)) (params : Option (List (CMat n))) (t : TBM d n) :
    mkTBM ρ nbrs params = .ok t ↔ (∃ rest, nbrs = 0 :: rest) ∧ ρ.U.length = 1 ∧ ρ.sym.inversion = false ∧ t.nbrs = nbrs ∧ (∀ P, t.symm P = .ok P) ∧
      t.params.length + 1 = 2 * nbrs.length ∧ (params = some t.params ∨ params = none ∧ ∀ X ∈ t.params, X = 0) := by
  cases nbrs with
  | nil => simp [mkTBM]
  | cons r0 rest =>
    rw [mkTBM]
    by_cases h0 : r0 = 0
    · subst h0
      rw [if_neg (not_not.2 (vnorm_eq_zero.2 rfl))]
      by_cases hi : ρ.sym.inversion = true
      · constructor
        · intro h
          cases hs : ρ.symmetrizer (0 :: rest) with
          | error e => rw [hs] at h; cases h
          | ok s => rw [hs] at h; simp [hi] at h
        · rintro ⟨-, -, h, -⟩; rw [hi] at h; cases h
      · have hi' : ρ.sym.inversion = false := by simpa using hi
        by_cases hU : ρ.U.length ≤ 1
        · have hs : ρ.symmetrizer (0 :: rest) = .ok .ok := by rw [UR.Rep.symmetrizer, if_pos hU]
          rw [hs]
          simp only [hi']
          by_cases hU0 : ρ.U = []
          · simp [hU0]
          · have h1 : ρ.U.length = 1 := by
              have := List.length_pos_iff.2 hU0
              omega
            rw [if_neg (by simp), if_neg hU0]
            have hrest : (∃ r, (0 : RVec d) :: rest = 0 :: r) := ⟨_, rfl⟩
            cases params with
            | some P =>
              simp only
              by_cases hP : P.length = (0 :: rest : List (RVec d)).length * 2 - 1
              · rw [if_pos hP]
                constructor
                · intro h
                  cases h
                  exact ⟨hrest, h1, trivial, rfl, fun _ => rfl, by simp only [List.length_cons] at *; omega, .inl rfl⟩
                · rintro ⟨-, -, -, h2, h3, -, h4⟩
                  obtain ⟨tn, tp, ts⟩ := t
                  simp only at h2 h3 h4
                  obtain rfl : ts = .ok := funext h3
                  rcases h4 with h4 | ⟨h4, -⟩
                  · cases h4; rw [h2]
                  · cases h4
              · rw [if_neg hP]
                constructor
                · intro h; cases h
                · rintro ⟨-, -, -, -, -, h5, h4⟩
                  rcases h4 with h4 | ⟨h4, -⟩
                  · cases h4
                    simp only [List.length_cons] at *
                    omega
                  · cases h4
            | none =>
              simp only
              constructor
              · intro h
                cases h
                refine ⟨hrest, h1, trivial, rfl, fun _ => rfl, ?_, .inr ⟨trivial, fun X hX => List.eq_of_mem_replicate hX⟩⟩
                rw [List.length_replicate]; simp only [List.length_cons]; omega
              · rintro ⟨-, -, -, h2, h3, h5, h4⟩
                obtain ⟨tn, tp, ts⟩ := t
                simp only at h2 h3 h4 h5
                obtain rfl : ts = .ok := funext h3
                rcases h4 with h4 | ⟨-, h4⟩
                · cases h4
                · rw [h2, ← List.eq_replicate_iff.2 ⟨?_, h4⟩]
                  simp only [List.length_cons] at *
                  omega
        · obtain ⟨e, he⟩ := symmetrizer_no_inversion ρ hi' (by omega) (0 :: rest)
          rw [he]
          constructor
          · intro h; cases h
          · rintro ⟨-, h, -⟩; omega
    · rw [if_pos (fun h => h0 (vnorm_eq_zero.1 h))]
      constructor
      · intro h; cases h
      · rintro ⟨⟨r, hr⟩, -⟩
        cases hr
        exact absurd rfl h0

/-- Every object has fitting parameters. -/
theorem fits_of_constructor {ρ : UR.Rep ℝ ℂ d n} {nbrs : List (RVec d)} {params : Option (List (CMat n))} {t : TBM d n}
    (h : mkTBM ρ nbrs params = .ok t) : ∃ rest P0 A B, Spec.Fits t rest P0 A B := by
  obtain ⟨⟨rest, rfl⟩, -, -, h1, -, h2, -⟩ := (C105_constructor _ _ _ _).1 h
  cases hp : t.params with
  | nil => rw [hp] at h2; simp at h2; omega
  | cons P0 P =>
    rw [hp] at h2
    simp only [List.length_cons] at h2
    refine ⟨rest, P0, P.take rest.length, P.drop rest.length, h1, by rw [List.take_append_drop, hp], ?_, ?_⟩
    · rw [List.length_take]; omega
    · rw [List.length_drop]; omega

theorem fits_f {t : TBM d n} {rest : List (RVec d)} {P0 : CMat n} {A B : List (CMat n)} (h : Spec.Fits t rest P0 A B) (k : RVec d) :
    t.f k = .ok (Spec.trig P0 rest A B k) := by
  have := msum_pick t 0 rest P0 A B h.nbrs h.params h.lenA h.lenB 1 (fun r => ((Real.cos (phase k r) - 1 : ℝ) : ℂ)) (fun r => ((Real.sin (phase k r) : ℝ) : ℂ))
  rw [one_smul] at this
  exact this

/-- C105.  For every object there are matrices `P0`, `A_r` and `B_r`, one pair for every neighbour but the first, namely the parameters in
this order, such that `f(k)` is `P0 + Σ_r ((cos 2πk·r - 1) A_r + sin 2πk·r B_r)` for every `k`; in particular `f(0)` is the first parameter. -/
theorem C105_value (ρ : UR.Rep ℝ ℂ d n) (nbrs : List (RVec d)) (params : Option (List (CMat n))) (t : TBM d n) (h : mkTBM ρ nbrs params = .ok t) :
    ∃ P0 A B, t.params = P0 :: (A ++ B) ∧ A.length + 1 = nbrs.length ∧ B.length = A.length ∧
      (∀ k, t.f k = .ok (Spec.trig P0 (nbrs.drop 1) A B k)) ∧ t.f 0 = .ok P0 := by
  obtain ⟨rest, P0, A, B, hf⟩ := fits_of_constructor h
  obtain ⟨-, -, -, hn, -⟩ := (C105_constructor _ _ _ _).1 h
  have hd : nbrs = 0 :: rest := hn.symm.trans hf.nbrs
  subst hd
  refine ⟨P0, A, B, hf.params, by rw [hf.lenA]; rfl, hf.lenB.trans hf.lenA.symm, fun k => fits_f hf k, ?_⟩
  rw [fits_f hf 0]
  simp [Spec.trig]

theorem sum_hasDerivAt (c : ℝ → RVec d → ℂ) (c' : RVec d → ℂ) (h : ∀ r, HasDerivAt (fun t => c t r) (c' r) 0)
    (l : List (RVec d × CMat n)) (i j : Fin n) :
    HasDerivAt (fun t => (l.map fun p => c t p.1 • p.2).sum i j) ((l.map fun p => c' p.1 • p.2).sum i j) 0 := by
  induction l with
  | nil => simpa using hasDerivAt_const (0 : ℝ) (0 : ℂ)
  | cons p l ih =>
    simp only [List.map_cons, List.sum_cons, Matrix.add_apply, Matrix.smul_apply, smul_eq_mul]
    exact ((h p.1).mul_const _).add ih

theorem sum_dir (v : RVec d) (D : RVec d → Fin d → ℂ) (l : List (RVec d × CMat n)) (i j : Fin n) :
    (l.map fun p => (∑ a, (v a : ℂ) * D p.1 a) • p.2).sum i j = ∑ a, (v a : ℂ) * (l.map fun p => D p.1 a • p.2).sum i j := by
  induction l with
  | nil => simp
  | cons p l ih =>
    simp only [List.map_cons, List.sum_cons, Matrix.add_apply, Matrix.smul_apply, smul_eq_mul, ih, mul_add, Finset.sum_add_distrib, Finset.sum_mul, mul_assoc]

theorem sum_dir_deriv (c : ℝ → RVec d → ℂ) (D : RVec d → Fin d → ℂ) (v : RVec d) (h : ∀ r, HasDerivAt (fun t => c t r) (∑ a, (v a : ℂ) * D r a) 0)
    (l : List (RVec d × CMat n)) (i j : Fin n) :
    HasDerivAt (fun t => (l.map fun p => c t p.1 • p.2).sum i j) (∑ a, (v a : ℂ) * (l.map fun p => D p.1 a • p.2).sum i j) 0 := by
  rw [← sum_dir]
  exact sum_hasDerivAt c _ h l i j

theorem phase_deriv (k v r : RVec d) : HasDerivAt (fun t : ℝ => phase (k + t • v) r) (2 * Real.pi * (v ⬝ᵥ r)) 0 := by
  have h : (fun t : ℝ => phase (k + t • v) r) = fun t => 2 * Real.pi * (k ⬝ᵥ r) + t * (2 * Real.pi * (v ⬝ᵥ r)) := by
    funext t
    rw [phase, add_dotProduct, smul_dotProduct, smul_eq_mul]; ring
  rw [h]
  simpa using ((hasDerivAt_id (0 : ℝ)).mul_const (2 * Real.pi * (v ⬝ᵥ r))).const_add (2 * Real.pi * (k ⬝ᵥ r))

theorem dir_real (v : RVec d) (r : RVec d) (c : ℝ) (g : ℝ) (hg : g = c * (2 * Real.pi * (v ⬝ᵥ r))) :
    (g : ℂ) = ∑ a, (v a : ℂ) * ((c * (2 * Real.pi) * r a : ℝ) : ℂ) := by
  rw [hg, dotProduct]
  push_cast
  rw [Finset.mul_sum, Finset.mul_sum]
  exact Finset.sum_congr rfl fun a _ => by ring

/-- C105.  `df` and `ddf` return the first and second derivatives of `f` with respect to `k`: for every point and direction, entry by entry; the second
derivative is symmetric. -/
theorem C105_derivatives (ρ : UR.Rep ℝ ℂ d n) (nbrs : List (RVec d)) (params : Option (List (CMat n))) (t : TBM d n) (h : mkTBM ρ nbrs params = .ok t) :
    ∃ (F : RVec d → CMat n) (DF : RVec d → Fin d → CMat n) (DDF : RVec d → Fin d → Fin d → CMat n),
      (∀ k, t.f k = .ok (F k)) ∧ (∀ k a, t.df k a = .ok (DF k a)) ∧ (∀ k a b, t.ddf k a b = .ok (DDF k a b)) ∧
      (∀ k v i j, HasDerivAt (fun s : ℝ => F (k + s • v) i j) (∑ a, (v a : ℂ) * DF k a i j) 0) ∧
      (∀ k v a i j, HasDerivAt (fun s : ℝ => DF (k + s • v) a i j) (∑ b, (v b : ℂ) * DDF k a b i j) 0) ∧
      (∀ k a b, DDF k a b = DDF k b a) := by
  obtain ⟨rest, P0, A, B, hf⟩ := fits_of_constructor h
  have hm := msum_pick t 0 rest P0 A B hf.nbrs hf.params hf.lenA hf.lenB
  refine ⟨_, _, _, fun k => hm 1 _ _, fun k a => hm 0 _ _, fun k a b => hm 0 _ _, ?_, ?_, ?_⟩
  · intro k v i j
    simp only [Matrix.add_apply, Matrix.smul_apply, smul_eq_mul, zero_mul, zero_add, mul_add, Finset.sum_add_distrib]
    refine HasDerivAt.const_add _ (HasDerivAt.add ?_ ?_)
    · refine sum_dir_deriv (fun s r => ((Real.cos (phase (k + s • v) r) - 1 : ℝ) : ℂ)) (fun r a => ((-(2 * Real.pi * Real.sin (phase k r) * r a) : ℝ) : ℂ)) v (fun r => ?_) _ i j
      have h1 := (((phase_deriv k v r).cos).sub_const 1).ofReal_comp
      have e : phase (k + (0 : ℝ) • v) r = phase k r := by simp
      rw [e] at h1
      convert h1 using 1
      rw [dir_real v r (-Real.sin (phase k r)) _ rfl]
      exact Finset.sum_congr rfl fun a _ => by congr 2; ring
    · refine sum_dir_deriv (fun s r => ((Real.sin (phase (k + s • v) r) : ℝ) : ℂ)) (fun r a => ((2 * Real.pi * Real.cos (phase k r) * r a : ℝ) : ℂ)) v (fun r => ?_) _ i j
      have h1 := ((phase_deriv k v r).sin).ofReal_comp
      have e : phase (k + (0 : ℝ) • v) r = phase k r := by simp
      rw [e] at h1
      convert h1 using 1
      rw [dir_real v r (Real.cos (phase k r)) _ rfl]
      exact Finset.sum_congr rfl fun a _ => by congr 2; ring
  · intro k v a i j
    simp only [Matrix.add_apply, Matrix.smul_apply, smul_eq_mul, zero_mul, zero_add, mul_add, Finset.sum_add_distrib]
    refine HasDerivAt.add ?_ ?_
    · refine sum_dir_deriv (fun s r => ((-(2 * Real.pi * Real.sin (phase (k + s • v) r) * r a) : ℝ) : ℂ)) (fun r b => ((-(Real.cos (phase k r) * ((2 * Real.pi) ^ 2 * (r a * r b))) : ℝ) : ℂ)) v (fun r => ?_) _ i j
      have h1 := (((((phase_deriv k v r).sin).const_mul (2 * Real.pi)).mul_const (r a)).neg).ofReal_comp
      have e : phase (k + (0 : ℝ) • v) r = phase k r := by simp
      rw [e] at h1
      simp only [Pi.neg_apply] at h1
      convert h1 using 1
      rw [dir_real v r (-(2 * Real.pi * Real.cos (phase k r) * r a)) _ (by ring)]
      exact Finset.sum_congr rfl fun a _ => by congr 2; ring
    · refine sum_dir_deriv (fun s r => ((2 * Real.pi * Real.cos (phase (k + s • v) r) * r a : ℝ) : ℂ)) (fun r b => ((-(Real.sin (phase k r) * ((2 * Real.pi) ^ 2 * (r a * r b))) : ℝ) : ℂ)) v (fun r => ?_) _ i j
      have h1 := ((((phase_deriv k v r).cos).const_mul (2 * Real.pi)).mul_const (r a)).ofReal_comp
      have e : phase (k + (0 : ℝ) • v) r = phase k r := by simp
      rw [e] at h1
      convert h1 using 1
      rw [dir_real v r (-(2 * Real.pi * Real.sin (phase k r) * r a)) _ (by ring)]
      exact Finset.sum_congr rfl fun a _ => by congr 2; ring
  · intro k a b
    simp only [mul_comm]

/-! ## hermitian parameters: the same as `HermitianFourierSeries` -/

theorem trig_fi (k r : RVec d) : fi k r = ((Real.cos (phase k r) : ℝ) : ℂ) + ((Real.sin (phase k r) : ℝ) : ℂ) * Complex.I := by
  rw [fi, Complex.ofReal_cos, Complex.ofReal_sin, ← Complex.exp_mul_I, phase]
  congr 1
  push_cast
  ring

theorem sum_cos_sub (g : RVec d → ℝ) (rest : List (RVec d)) (A : List (CMat n)) (hA : A.length = rest.length) :
    ((rest.zip A).map fun p => ((g p.1 - 1 : ℝ) : ℂ) • p.2).sum = ((rest.zip A).map fun p => (g p.1 : ℂ) • p.2).sum - A.sum := by
  induction rest generalizing A with
  | nil => cases A with
    | nil => simp
    | cons a A => simp at hA
  | cons r rest ih =>
    cases A with
    | nil => simp at hA
    | cons a A =>
      simp only [List.zip_cons_cons, List.map_cons, List.sum_cons, ih A (by simpa using hA)]
      push_cast
      module

/-- The coefficients of the Fourier series. -/
noncomputable def Spec.coeffs (P0 : CMat n) (A B : List (CMat n)) : List (CMat n) :=
  (P0 - A.sum) :: List.zipWith (fun a b => (1 / 2 : ℂ) • (a - Complex.I • b)) A B

theorem good_series {t : TBM d n} {rest : List (RVec d)} {P0 : CMat n} {A B : List (CMat n)} (h : Spec.Good t rest P0 A B) :
    ∃ s, mkSeries t.nbrs (Spec.coeffs P0 A B) = .ok s ∧ (∀ k, t.f k = s.f k) ∧ (∀ k a, t.df k a = s.df k a) ∧ ∀ k a b, t.ddf k a b = s.ddf k a b := by
  refine ⟨⟨t.nbrs.zip (Spec.coeffs P0 A B)⟩, mkSeries_ok.2 ⟨⟨rest, h.nbrs⟩, ?_, rfl⟩, ?_, ?_, ?_⟩
  · rw [h.nbrs, Spec.coeffs]; simp [h.lenA, h.lenB]
  · intro k
    rw [fits_f h.toFits, h.nbrs, Spec.coeffs, List.zip_cons_cons, f_eq]
    refine congrArg Except.ok ?_
    have h1 := trig_sum (fi k) (fun r => Real.cos (phase k r)) (fun r => Real.sin (phase k r)) (trig_fi k) rest A B h.lenA h.lenB h.hermA h.hermB
    have h2 := sum_cos_sub (fun r => Real.cos (phase k r)) rest A h.lenA
    change P0 + (((rest.zip A).map fun p => ((Real.cos (phase k p.1) - 1 : ℝ) : ℂ) • p.2).sum +
      ((rest.zip B).map fun p => ((Real.sin (phase k p.1) : ℝ) : ℂ) • p.2).sum) =
      P0 - A.sum + ((rest.zip (List.zipWith (fun a b => (1 / 2 : ℂ) • (a - Complex.I • b)) A B)).map fun p => fi k p.1 • p.2 + (fi k p.1 • p.2)ᴴ).sum
    rw [← h1, h2]
    abel
  · intro k a
    rw [TBM.df, show t.dfi k a = t.pick 0 _ _ from rfl, msum_pick t 0 rest P0 A B h.nbrs h.params h.lenA h.lenB, h.nbrs, Spec.coeffs, List.zip_cons_cons, df_eq,
      ← trig_sum (fun r => dfi k r a) (fun r => -(2 * Real.pi * Real.sin (phase k r) * r a)) (fun r => 2 * Real.pi * Real.cos (phase k r) * r a) (fun r => by
        rw [dfi_eq, trig_fi]; push_cast; linear_combination (2 * (Real.pi : ℂ) * Complex.sin (phase k r) * r a) * Complex.I_mul_I)
        rest A B h.lenA h.lenB h.hermA h.hermB, zero_smul, zero_add]
  · intro k a b
    rw [TBM.ddf, show t.ddfi k a b = t.pick 0 _ _ from rfl, msum_pick t 0 rest P0 A B h.nbrs h.params h.lenA h.lenB, h.nbrs, Spec.coeffs, List.zip_cons_cons, ddf_eq,
      ← trig_sum (fun r => ddfi k r a b) (fun r => -(Real.cos (phase k r) * ((2 * Real.pi) ^ 2 * (r a * r b))))
        (fun r => -(Real.sin (phase k r) * ((2 * Real.pi) ^ 2 * (r a * r b)))) (fun r => by
        rw [ddfi_eq, trig_fi]; push_cast
        linear_combination ((2 * (Real.pi : ℂ)) ^ 2 * (Complex.cos (phase k r) + Complex.sin (phase k r) * Complex.I) * (r a * r b)) * Complex.I_mul_I)
        rest A B h.lenA h.lenB h.hermA h.hermB, zero_smul, zero_add]

theorem good_of_constructor {ρ : UR.Rep ℝ ℂ d n} {nbrs : List (RVec d)} {P : List (CMat n)} {t : TBM d n}
    (h : mkTBM ρ nbrs (some P) = .ok t) (hP : ∀ X ∈ P, X.IsHermitian) : ∃ rest P0 A B, Spec.Good t rest P0 A B := by
  obtain ⟨rest, P0, A, B, hf⟩ := fits_of_constructor h
  obtain ⟨-, -, -, -, -, -, hp⟩ := (C105_constructor _ _ _ _).1 h
  have e : P = P0 :: (A ++ B) := by
    rcases hp with hp | ⟨hp, -⟩
    · rw [Option.some.inj hp, hf.params]
    · cases hp
  rw [e] at hP
  exact ⟨rest, P0, A, B, hf, hP _ (by simp), fun X hX => hP X (by simp [hX]), fun X hX => hP X (by simp [hX])⟩

/-- C105.  An object with hermitian parameters `P0`, `A_r`, `B_r` has the same `f`, `df` and `ddf` as the `HermitianFourierSeries` on the same neighbours with the
coefficients `P0 - Σ A_r` and `(A_r - i B_r)/2`; `f(k)` is hermitian, and periodic for integer neighbours. -/
theorem C105_fourier (ρ : UR.Rep ℝ ℂ d n) (nbrs : List (RVec d)) (P : List (CMat n)) (t : TBM d n) (h : mkTBM ρ nbrs (some P) = .ok t)
    (hP : ∀ X ∈ P, X.IsHermitian) :
    ∃ P0 A B s, P = P0 :: (A ++ B) ∧ A.length = B.length ∧
      mkSeries nbrs ((P0 - A.sum) :: List.zipWith (fun a b => (1 / 2 : ℂ) • (a - Complex.I • b)) A B) = .ok s ∧
      (∀ k, t.f k = s.f k) ∧ (∀ k a, t.df k a = s.df k a) ∧ (∀ k a b, t.ddf k a b = s.ddf k a b) ∧
      (∀ k, ∃ M, t.f k = .ok M ∧ M.IsHermitian) ∧
      ((∀ r ∈ nbrs, ∀ i, ∃ z : ℤ, r i = z) → ∀ k (g : Fin d → ℤ), t.f (k + fun i => (g i : ℝ)) = t.f k) := by
  obtain ⟨rest, P0, A, B, hg⟩ := good_of_constructor h hP
  obtain ⟨s, hs, h1, h2, h3⟩ := good_series hg
  obtain ⟨-, -, -, hn, -, -, hp⟩ := (C105_constructor _ _ _ _).1 h
  have e : P = P0 :: (A ++ B) := by
    rcases hp with hp | ⟨hp, -⟩
    · rw [Option.some.inj hp, hg.params]
    · cases hp
  rw [hn, Spec.coeffs] at hs
  refine ⟨P0, A, B, s, e, hg.lenA.trans hg.lenB.symm, hs, h1, h2, h3, fun k => ?_, fun hint k g => ?_⟩
  · obtain ⟨M, hM, hM2⟩ := C20_hermitian _ _ _ s hs k
    refine ⟨M, by rw [h1, hM], hM2.2 (hg.herm0.sub ?_)⟩
    clear hs hM hM2 h1 h2 h3 e hp
    have hA := hg.hermA
    generalize A = A at hA
    induction A with
    | nil => exact isHermitian_zero
    | cons a A ih => rw [List.sum_cons]; exact (hA a (by simp)).add (ih fun X hX => hA X (by simp [hX]))
  · rw [h1, h1]
    refine (C21_periodic s (fun x hx i => hint x.1 ?_ i) k g).1
    obtain ⟨-, -, rfl⟩ := mkSeries_ok.1 hs
    exact (List.of_mem_zip hx).1

/-! ## `set_from_complex`, `params_complex` -/

theorem herm_plus (X : CMat n) : ((2 : ℂ) • ((1 / 2 : ℂ) • (X + Xᴴ))).IsHermitian := by
  have e : (2 : ℂ) • ((1 / 2 : ℂ) • (X + Xᴴ)) = X + Xᴴ := by module
  rw [e]
  exact isHermitian_add_transpose_self X

theorem herm_minus (X : CMat n) : ((2 : ℂ) • ((1 / 2 : ℂ) • (Complex.I • (X - Xᴴ)))).IsHermitian := by
  have e : (2 : ℂ) • ((1 / 2 : ℂ) • (Complex.I • (X - Xᴴ))) = Complex.I • (X - Xᴴ) := by module
  rw [e, IsHermitian, conjTranspose_smul, conjTranspose_sub, conjTranspose_conjTranspose, Complex.star_def, Complex.conj_I]
  module

theorem herm_list_sum (l : List (CMat n)) (h : ∀ X ∈ l, X.IsHermitian) : l.sum.IsHermitian := by
  induction l with
  | nil => exact isHermitian_zero
  | cons a A ih => rw [List.sum_cons]; exact (h a (by simp)).add (ih fun X hX => h X (by simp [hX]))

theorem coeffs_set (H0 : CMat n) (Hs : List (CMat n)) :
    Spec.coeffs ((1 / 2 : ℂ) • (H0 + H0ᴴ) + (2 : ℂ) • (Hs.map fun X => (1 / 2 : ℂ) • (X + Xᴴ)).sum)
      ((Hs.map fun X => (1 / 2 : ℂ) • (X + Xᴴ)).map fun X => (2 : ℂ) • X)
      ((Hs.map fun X => (1 / 2 : ℂ) • (Complex.I • (X - Xᴴ))).map fun X => (2 : ℂ) • X) = (1 / 2 : ℂ) • (H0 + H0ᴴ) :: Hs := by
  rw [Spec.coeffs, List.smul_sum, add_sub_cancel_right, List.map_map, List.map_map]
  congr 1
  induction Hs with
  | nil => rfl
  | cons X Hs ih =>
    rw [List.map_cons, List.map_cons, List.zipWith_cons_cons, ih]
    congr 1
    simp only [Function.comp]
    ext i j
    simp only [Matrix.smul_apply, Matrix.sub_apply, Matrix.add_apply, smul_eq_mul]
    linear_combination (-(1 / 2) * (X i j - Xᴴ i j)) * Complex.I_mul_I

theorem set_good (t : TBM d n) (rest : List (RVec d)) (hn : t.nbrs = 0 :: rest) (H0 : CMat n) (Hs : List (CMat n)) (hl : Hs.length = rest.length) :
    ∃ P0 A B, (t.setFromComplex (H0 :: Hs)).1.nbrs = t.nbrs ∧ (t.setFromComplex (H0 :: Hs)).1.symm = t.symm ∧ (t.setFromComplex (H0 :: Hs)).2 = .ok () ∧
      Spec.Good (t.setFromComplex (H0 :: Hs)).1 rest P0 A B ∧ Spec.coeffs P0 A B = (1 / 2 : ℂ) • (H0 + H0ᴴ) :: Hs := by
  refine ⟨_, _, _, rfl, rfl, rfl, ⟨⟨hn, ?_, ?_, ?_⟩, ?_, ?_, ?_⟩, coeffs_set H0 Hs⟩
  · rw [← List.map_append]; rfl
  · simp [hl]
  · simp [hl]
  · refine IsHermitian.add ?_ ?_
    · have := isHermitian_add_transpose_self H0
      rw [IsHermitian, conjTranspose_smul, this]
      simp
    · rw [List.smul_sum, List.map_map]
      refine herm_list_sum _ fun X hX => ?_
      obtain ⟨Y, -, rfl⟩ := List.mem_map.1 hX
      exact herm_plus Y
  · intro X hX
    rw [List.map_map] at hX
    obtain ⟨Y, -, rfl⟩ := List.mem_map.1 hX
    exact herm_plus Y
  · intro X hX
    rw [List.map_map] at hX
    obtain ⟨Y, -, rfl⟩ := List.mem_map.1 hX
    exact herm_minus Y

theorem normalize_id (t : TBM d n) (h : ∀ P, t.symm P = .ok P) : t.normalize = (t, .ok ()) := by rw [TBM.normalize, h]

theorem pick_error (t : TBM d n) (one : ℂ) (fc fs : RVec d → ℂ) (i : ℕ) (e : Err) (h : t.pick one fc fs i = .error e) : e = .indexError := by
  rw [TBM.pick] at h
  by_cases h0 : i = 0
  · rw [if_pos h0] at h; cases h
  · rw [if_neg h0] at h
    simp only at h
    cases hx : t.nbrs[i % t.nbrs.length + i / t.nbrs.length]? with
    | none => rw [hx] at h; exact (Except.error.inj h).symm
    | some r => rw [hx] at h; cases h

/-- C105.  After `set_from_complex(H_r)` with one matrix for every neighbour the object has the `f`, `df` and `ddf` of the `HermitianFourierSeries` with the hermitian part
of the first matrix and the other matrices unchanged; so for a hermitian first matrix all bands and derivatives agree with those of
`AsymTightBindingModel(H_r)`.  The object is one which the constructor returns for hermitian parameters, so the other theorems apply to it. -/
theorem C105_set_from_complex (ρ : UR.Rep ℝ ℂ d n) (nbrs : List (RVec d)) (params : Option (List (CMat n))) (t : TBM d n)
    (h : mkTBM ρ nbrs params = .ok t) (H0 : CMat n) (Hs : List (CMat n)) (hl : (H0 :: Hs).length = nbrs.length) :
    ∃ t' s, t.setFromComplex (H0 :: Hs) = (t', .ok ()) ∧ mkSeries nbrs ((1 / 2 : ℂ) • (H0 + H0ᴴ) :: Hs) = .ok s ∧
      (H0.IsHermitian → mkSeries nbrs (H0 :: Hs) = .ok s) ∧
      (∀ k, t'.f k = s.f k) ∧ (∀ k a, t'.df k a = s.df k a) ∧ (∀ k a b, t'.ddf k a b = s.ddf k a b) ∧ (t'.normalize = (t', .ok ())) ∧
      mkTBM ρ nbrs (some t'.params) = .ok t' ∧ ∀ X ∈ t'.params, X.IsHermitian := by
  obtain ⟨⟨rest, rfl⟩, hU, hinv, hn, hsym, -⟩ := (C105_constructor _ _ _ _).1 h
  obtain ⟨P0, A, B, h1, h2, h3, h4, h5⟩ := set_good t rest hn H0 Hs (by simpa using hl)
  obtain ⟨s, hs, h6⟩ := good_series h4
  rw [h1, hn, h5] at hs
  refine ⟨_, s, Prod.ext rfl h3, hs, fun hH => ?_, h6.1, h6.2.1, h6.2.2, ?_, ?_, ?_⟩
  · rw [← hs, hH.eq]; congr 2; module
  · exact normalize_id _ hsym
  · refine (C105_constructor _ _ _ _).2 ⟨⟨rest, rfl⟩, hU, hinv, hn, hsym, ?_, .inl rfl⟩
    have h7 := h4.lenA
    have h8 := h4.lenB
    change (t.setFromComplex (H0 :: Hs)).1.params.length + 1 = _
    rw [h4.params]
    simp only [List.length_cons, List.length_append]
    omega
  · intro X hX
    change X ∈ (t.setFromComplex (H0 :: Hs)).1.params at hX
    rw [h4.params] at hX
    rcases List.mem_cons.1 hX with rfl | hX
    · exact h4.herm0
    · rcases List.mem_append.1 hX with hX | hX
      · exact h4.hermA X hX
      · exact h4.hermB X hX

/-- C105.  `params_complex` returns the coefficients of `f` in no case: with three or more neighbours it raises `ValueError`; with two it returns `P0/2` and
`(A + iB)/2`, which is the adjoint of the coefficient, and with one neighbour half of the constant. -/
theorem C105_params_complex (ρ : UR.Rep ℝ ℂ d n) (nbrs : List (RVec d)) (params : Option (List (CMat n))) (t : TBM d n)
    (h : mkTBM ρ nbrs params = .ok t) (H0 : CMat n) (Hs : List (CMat n)) (hl : (H0 :: Hs).length = nbrs.length) (hH : H0.IsHermitian) :
    (3 ≤ nbrs.length → t.paramsComplex = .error .valueError) ∧
    (∀ H1, Hs = [H1] → (t.setFromComplex (H0 :: Hs)).1.paramsComplex = .ok [(1 / 2 : ℂ) • H0 + (1 / 2 : ℂ) • (H1 + H1ᴴ), H1ᴴ]) ∧
    (Hs = [] → (t.setFromComplex (H0 :: Hs)).1.paramsComplex = .ok [(1 / 2 : ℂ) • H0]) := by
  refine ⟨fun h3 => ?_, ?_, ?_⟩
  · obtain ⟨rest, P0, A, B, hf⟩ := fits_of_constructor h
    obtain ⟨-, -, -, hn, -, hlen, -⟩ := (C105_constructor _ _ _ _).1 h
    have e1 : (t.params.length + 1) / 2 = nbrs.length := by omega
    rw [TBM.paramsComplex]
    simp only [e1, List.length_map, List.length_drop]
    rw [if_neg (by omega)]
    have hl2 : (List.map (fun P : CMat n => Complex.I • P) (List.drop nbrs.length (List.map (fun P => (1 / 2 : ℂ) • P) t.params))).length = nbrs.length - 1 := by
      simp only [List.length_map, List.length_drop]; omega
    generalize (List.map (fun P : CMat n => Complex.I • P) (List.drop nbrs.length (List.map (fun P => (1 / 2 : ℂ) • P) t.params))) = l at hl2
    match l, hl2 with
    | [], _ => rfl
    | [x], h' => simp at h'; omega
    | x :: y :: l, _ => rfl
  · rintro H1 rfl
    rw [TBM.paramsComplex]
    simp only [TBM.setFromComplex, hH.eq, List.map_cons, List.map_nil, List.sum_cons, List.sum_nil, List.cons_append, List.nil_append, List.length_cons,
      List.length_nil]
    norm_num
    constructor
    · module
    · ext i j
      simp only [Matrix.smul_apply, Matrix.sub_apply, Matrix.add_apply, smul_eq_mul]
      linear_combination ((1 / 2) * (H1 i j - H1ᴴ i j)) * Complex.I_mul_I
  · rintro rfl
    rw [TBM.paramsComplex]
    simp only [TBM.setFromComplex, hH.eq, List.map_nil, List.sum_nil, List.append_nil, List.map_cons, List.length_cons, List.length_nil]
    norm_num
    module

/-- C105.  `set_from_complex` does not check the number of matrices: with more matrices than neighbours it succeeds and afterwards `f` raises `IndexError` for every `k`;
with fewer, the sine matrices are used with the cosine of other neighbours. -/
theorem C105_set_length (ρ : UR.Rep ℝ ℂ d n) (nbrs : List (RVec d)) (params : Option (List (CMat n))) (t : TBM d n)
    (h : mkTBM ρ nbrs params = .ok t) (H0 : CMat n) (Hs : List (CMat n)) :
    (t.setFromComplex (H0 :: Hs)).2 = .ok () ∧
    (nbrs.length < (H0 :: Hs).length → ∀ k, (t.setFromComplex (H0 :: Hs)).1.f k = .error .indexError) ∧
    (∀ r1 r2 H1, nbrs = [0, r1, r2] → Hs = [H1] → ∀ k, (t.setFromComplex (H0 :: Hs)).1.f k = .ok ((1 / 2 : ℂ) • (H0 + H0ᴴ) + (H1 + H1ᴴ) +
      ((Real.cos (2 * Real.pi * (k ⬝ᵥ r1)) - 1 : ℝ) : ℂ) • (H1 + H1ᴴ) +
      ((Real.cos (2 * Real.pi * (k ⬝ᵥ r2)) - 1 : ℝ) : ℂ) • (Complex.I • (H1 - H1ᴴ)))) := by
  obtain ⟨⟨rest, rfl⟩, -, -, hn, -⟩ := (C105_constructor _ _ _ _).1 h
  refine ⟨rfl, fun hl k => ?_, ?_⟩
  · set t' := (t.setFromComplex (H0 :: Hs)).1 with ht'
    have hn' : t'.nbrs = 0 :: rest := hn
    have hp : ∃ P L, t'.params = P :: L ∧ L.length = 2 * Hs.length := ⟨_, _, rfl, by simp; ring⟩
    obtain ⟨P, L, hP, hL⟩ := hp
    rw [TBM.f, TBM.msum, if_neg (by rw [hP]; simp)]
    refine foldlM_error _ _ _ _ 0 ?_ ⟨2 * rest.length + 1, ?_, ?_⟩
    · intro i e' he
      exact pick_error _ _ _ _ _ _ he
    · rw [hP, List.length_cons, hL]
      simp only [List.length_cons] at hl
      omega
    · rw [TBM.fi, TBM.pick, if_neg (by omega), hn']
      have e1 : (0 + (2 * rest.length + 1)) = rest.length + (0 :: rest : List (RVec d)).length := by simp only [List.length_cons]; ring
      simp only
      rw [e1, Nat.add_mod_right, Nat.add_div_right _ (by simp), Nat.mod_eq_of_lt (by simp), Nat.div_eq_of_lt (by simp)]
      have : (0 :: rest : List (RVec d))[rest.length + Nat.succ 0]? = none := by simp
      rw [this]
  · rintro r1 r2 H1 he rfl k
    rw [List.cons.injEq] at he
    obtain ⟨-, rfl⟩ := he
    have := foldlM_smul ((t.setFromComplex [H0, H1]).1.fi k)
      (fun i => if i = 0 then 1 else if i = 1 then ((Real.cos (phase k r1) - 1 : ℝ) : ℂ) else ((Real.cos (phase k r2) - 1 : ℝ) : ℂ))
      (t.setFromComplex [H0, H1]).1.params 0 0 (fun i hi => by
        have hi : i < 3 := hi
        rw [TBM.fi, TBM.pick, show (t.setFromComplex [H0, H1]).1.nbrs = [0, r1, r2] from hn]
        interval_cases i <;> simp)
    rw [TBM.f, TBM.msum, if_neg (by simp [TBM.setFromComplex]), this]
    congr 1
    simp only [TBM.setFromComplex, List.map_cons, List.map_nil, List.zipIdx_cons, List.zipIdx_nil, List.sum_cons, List.sum_nil, List.cons_append, List.nil_append, phase]
    simp only [if_true, Nat.zero_add, one_ne_zero, if_false, Nat.reduceAdd, Nat.reduceEqDiff, OfNat.ofNat_ne_zero]
    module

/-! ## derivatives of the bands -/

theorem exists_gap (e : Fin n → ℝ) (i : Fin n) (h : ∀ j, j ≠ i → e j ≠ e i) : ∃ eps > 0, ∀ j, j ≠ i → eps ≤ |e j - e i| := by
  by_cases hne : (Finset.univ.filter fun j => j ≠ i).Nonempty
  · obtain ⟨m, hm, hmin⟩ := Finset.exists_min_image _ (fun j => |e j - e i|) hne
    refine ⟨|e m - e i|, abs_pos.2 (sub_ne_zero.2 (h m (Finset.mem_filter.1 hm).2)), fun j hj => hmin j (by simp [hj])⟩
  · refine ⟨1, one_pos, fun j hj => absurd ⟨j, by simp [hj]⟩ hne⟩

theorem tbmHess_eq (e : Fin n → ℝ) (ev dHp dHq ddH : CMat n) (i : Fin n) (eps : ℝ) (hpos : 0 < eps) (h : ∀ j, j ≠ i → eps ≤ |e j - e i|) :
    tbmHess e ev dHp dHq ddH i = eighHess eps e ev dHp dHq ddH i := by
  rw [tbmHess, eighHess]
  congr 3
  refine Finset.sum_congr rfl fun k _ => ?_
  by_cases hk : k = i
  · subst hk
    simp [hpos]
  · rw [if_neg hk, if_neg (not_lt.2 (h k hk))]

/-- C105.  `bands_grad` and `bands_grad_hess` of an object with hermitian parameters: let `bands` and `ev` be what `np.linalg.eigh` returns for `f` near `k`.  If band `i` is simple at `k`,
the band is differentiable along every line through `k` with a derivative which is again differentiable at `k`; the gradient of both methods and the hessian, contracted
with the direction, are these derivatives. -/
theorem C105_bands_grad_hess (ρ : UR.Rep ℝ ℂ d n) (nbrs : List (RVec d)) (P : List (CMat n)) (t : TBM d n) (h : mkTBM ρ nbrs (some P) = .ok t)
    (hP : ∀ X ∈ P, X.IsHermitian) (k u : RVec d) (bands : RVec d → Fin n → ℝ) (ev : RVec d → CMat n)
    (hg : ∀ᶠ q in 𝓝 k, ∀ H, t.f q = .ok H → Spec.IsGeigh H 1 (bands q) (ev q))
    (dH : Fin d → CMat n) (ddH : Fin d → Fin d → CMat n) (hdH : ∀ a, t.df k a = .ok (dH a))
    (hddH : ∀ a b, t.ddf k a b = .ok (ddH a b)) (i : Fin n) (hi : ∀ j, j ≠ i → bands k j ≠ bands k i) :
    ∃ g : ℝ → ℝ, (∀ᶠ s in 𝓝 0, HasDerivAt (fun s : ℝ => bands (k + s • u) i) (g s) s) ∧
      g 0 = ∑ a, u a * tbmGrad (ev k) (dH a) i ∧
      HasDerivAt g (∑ a, ∑ b, u a * u b * tbmHess (bands k) (ev k) (dH a) (dH b) (ddH a b) i) 0 := by
  obtain ⟨P0, A, B, s, -, -, hs, h1, h2, h3, -⟩ := C105_fourier ρ nbrs P t h hP
  obtain ⟨eps, heps, hgap⟩ := exists_gap (bands k) i hi
  obtain ⟨g, hg1, hg2, hg3⟩ := C52_bands_hess_simple (⟨s, s⟩ : Tb d n) (mkSeries_starts hs) k u bands ev
    (hg.mono fun q hq H hH => hq H (by rw [h1]; exact hH)) dH ddH (fun a => by rw [← hdH a, h2]) (fun a b => by rw [← hddH a b, h3]) i eps heps hgap
  refine ⟨g, hg1, hg2, ?_⟩
  convert hg3 using 1
  exact Finset.sum_congr rfl fun a _ => Finset.sum_congr rfl fun b _ => by rw [tbmHess_eq _ _ _ _ _ _ eps heps hgap]

/-! ## examples -/

/-- The representation of the trivial group on `n` orbitals. -/
noncomputable def exTriv (d n : ℕ) : UR.Rep ℝ ℂ d n := ⟨⟨[1], false⟩, [1], n⟩

/-- A chain with hopping `2` and `3 i`. -/
noncomputable def exTbm : TBM 1 1 := ⟨[0, ![1]], [!![5], !![4], !![-6]], .ok⟩

theorem exTbm_ok : mkTBM (exTriv 1 1) [0, ![1]] (some [!![5], !![4], !![-6]]) = .ok exTbm :=
  (C105_constructor _ _ _ _).2 ⟨⟨_, rfl⟩, rfl, rfl, rfl, fun _ => rfl, rfl, .inl rfl⟩

theorem exTbm_herm : ∀ X ∈ ([!![5], !![4], !![-6]] : List (CMat 1)), X.IsHermitian := by
  intro X hX
  simp only [List.mem_cons, List.not_mem_nil, or_false] at hX
  rcases hX with rfl | rfl | rfl <;> (ext i j; fin_cases i; fin_cases j; simp)

/-- C105_constructor: no object for two operations, none with inversion. -/
example (t : TBM 1 1) : mkTBM ⟨⟨[1, -1], false⟩, [1, -1], 1⟩ [0, ![1]] none ≠ .ok t ∧ mkTBM ⟨⟨[1], true⟩, [1], 1⟩ [0, ![1]] none ≠ .ok t := by
  constructor <;> intro h <;> have := (C105_constructor _ _ _ _).1 h
  · exact absurd this.2.1 (by decide)
  · exact absurd this.2.2.1 (by simp)

/-- C105_value at `k = 1/4`: `5 + (0 - 1) 4 + 1 (-6)`. -/
example : exTbm.f ![1 / 4] = .ok !![-5] := by
  obtain ⟨P0, A, B, h1, h2, h3, h4, -⟩ := C105_value _ _ _ _ exTbm_ok
  have h1' : ([!![5], !![4], !![-6]] : List (CMat 1)) = P0 :: (A ++ B) := h1
  match A, B, h2, h3 with
  | [a], [b], _, _ =>
    simp only [List.cons_append, List.nil_append, List.cons.injEq, and_true] at h1'
    obtain ⟨rfl, rfl, rfl⟩ := h1'
    rw [h4]
    congr 1
    have e1 : Real.cos (2 * Real.pi * (1 / 4)) = 0 := by rw [show 2 * Real.pi * (1 / 4) = Real.pi / 2 by ring]; exact Real.cos_pi_div_two
    have e2 : Real.sin (2 * Real.pi * (1 / 4)) = 1 := by rw [show 2 * Real.pi * (1 / 4) = Real.pi / 2 by ring]; exact Real.sin_pi_div_two
    ext i j
    fin_cases i; fin_cases j
    simp only [Spec.trig, List.drop_one, List.tail_cons, List.zip_cons_cons, List.zip_nil_right, List.map_cons, List.map_nil, List.sum_cons, List.sum_nil, dotProduct,
      Fin.sum_univ_one, cons_val_zero, mul_one, e1, e2]
    norm_num [Matrix.add_apply]

/-- C105_fourier, C105_derivatives for the chain. -/
example : (∃ M, exTbm.f ![1 / 3] = .ok M ∧ M.IsHermitian) ∧ exTbm.f (![1 / 3] + fun _ => ((2 : ℤ) : ℝ)) = exTbm.f ![1 / 3] := by
  obtain ⟨P0, A, B, s, -, -, -, -, -, -, h1, h2⟩ := C105_fourier _ _ _ _ exTbm_ok exTbm_herm
  refine ⟨h1 _, h2 ?_ _ fun _ => 2⟩
  intro r hr i
  simp only [List.mem_cons, List.not_mem_nil, or_false] at hr
  fin_cases i
  rcases hr with rfl | rfl
  · exact ⟨0, by simp⟩
  · exact ⟨1, by simp⟩

/-- C105_set_from_complex, C105_params_complex, C105_set_length: the coefficients `1` and `2 + 3i` of a chain; `params_complex` returns `5/2` and `2 - 3i`; with a third matrix `f` raises. -/
example : (∃ t' s, exTbm.setFromComplex [!![1], !![2 + 3 * Complex.I]] = (t', .ok ()) ∧ mkSeries [0, ![1]] [!![1], !![2 + 3 * Complex.I]] = .ok s ∧ ∀ k, t'.f k = s.f k) ∧
    (exTbm.setFromComplex [!![1], !![2 + 3 * Complex.I]]).1.paramsComplex = .ok [!![5 / 2], !![2 - 3 * Complex.I]] ∧
    (exTbm.setFromComplex [!![1], !![2], !![3]]).1.f ![0] = .error .indexError := by
  have hH : (!![1] : CMat 1).IsHermitian := by ext i j; fin_cases i; fin_cases j; simp
  refine ⟨?_, ?_, (C105_set_length _ _ _ _ exTbm_ok _ _).2.1 (by simp) _⟩
  · obtain ⟨t', s, h1, -, h2, h3, -⟩ := C105_set_from_complex _ _ _ _ exTbm_ok !![1] [!![2 + 3 * Complex.I]] rfl
    exact ⟨t', s, h1, h2 hH, h3⟩
  · rw [(C105_params_complex _ _ _ _ exTbm_ok !![1] [!![2 + 3 * Complex.I]] rfl hH).2.1 _ rfl]
    congr 2
    · ext i j; fin_cases i; fin_cases j; simp; ring
    · congr 1; ext i j; fin_cases i; fin_cases j; simp; ring

/-- C105_bands_grad_hess for the chain: the single band and the vector `1`. -/
example (k : RVec 1) : ∃ (bands : RVec 1 → Fin 1 → ℝ) (g : ℝ → ℝ), (∀ q, exTbm.f q = .ok !![(bands q 0 : ℂ)]) ∧
    ∀ᶠ s in 𝓝 0, HasDerivAt (fun s : ℝ => bands (k + s • ![1]) 0) (g s) s := by
  obtain ⟨F, DF, DDF, h1, h2, h3, -⟩ := C105_derivatives _ _ _ _ exTbm_ok
  obtain ⟨P0, A, B, s, -, -, -, -, -, -, hh, -⟩ := C105_fourier _ _ _ _ exTbm_ok exTbm_herm
  have hF : ∀ q, F q = !![((F q 0 0).re : ℂ)] := by
    intro q
    obtain ⟨M, hM, hM2⟩ := hh q
    rw [h1] at hM
    cases hM
    ext i j
    fin_cases i; fin_cases j
    have := congrFun (congrFun hM2 0) 0
    exact (Complex.conj_eq_iff_re.1 this).symm
  obtain ⟨g, hg, -⟩ := C105_bands_grad_hess _ _ _ _ exTbm_ok exTbm_herm k ![1] (fun q _ => (F q 0 0).re) (fun _ => 1)
    (Eventually.of_forall fun q H hH => by
      rw [h1] at hH
      cases hH
      refine ⟨by simp [rot], ?_, fun _ _ _ => le_refl _⟩
      rw [rot, conjTranspose_one, Matrix.one_mul, Matrix.mul_one]
      ext i j
      fin_cases i; fin_cases j
      have := congrFun (congrFun (hF q) 0) 0
      simpa using this)
    (DF k) (DDF k) (fun a => h2 k a) (fun a b => h3 k a b) 0 (fun j hj => absurd (Subsingleton.elim j 0) hj)
  exact ⟨fun q _ => (F q 0 0).re, g, fun q => by rw [h1, ← hF q], hg⟩

/-- C105.  Which exceptions are raised: `AssertionError` without neighbours, for a first neighbour other than zero and (once the representation is
accepted) for a wrong number of parameters; `IndexError` for an empty list of matrices.  `set_from_complex` of an empty list raises `ValueError` and leaves an object without parameters, for
which `f`, `df` and `ddf` raise `IndexError`.  `copy` raises `TypeError`. -/
theorem C105_errors (ρ : UR.Rep ℝ ℂ d n) (nbrs : List (RVec d)) (params : Option (List (CMat n))) :
    ((¬ ∃ rest, nbrs = 0 :: rest) → mkTBM ρ nbrs params = .error .assertionError) ∧
    ((∃ rest, nbrs = 0 :: rest) → ρ.U = [] → ρ.sym.inversion = false → mkTBM ρ nbrs params = .error .indexError) ∧
    ((∃ rest, nbrs = 0 :: rest) → ρ.U.length ≤ 1 → ρ.sym.inversion = true → mkTBM ρ nbrs params = .error .attributeError) ∧
    (∀ P, (∃ rest, nbrs = 0 :: rest) → ρ.U.length = 1 → ρ.sym.inversion = false → params = some P → P.length + 1 ≠ 2 * nbrs.length →
      mkTBM ρ nbrs params = .error .assertionError) ∧
    ∀ t, mkTBM ρ nbrs params = .ok t → t.copy = .error .typeError ∧ (t.setFromComplex []).2 = .error .valueError ∧
      (∀ k, (t.setFromComplex []).1.f k = .error .indexError) ∧ (∀ k a, (t.setFromComplex []).1.df k a = .error .indexError) ∧
      ∀ k a b, (t.setFromComplex []).1.ddf k a b = .error .indexError := by
  have hsym : ∀ rest, ρ.U.length ≤ 1 → ρ.symmetrizer (0 :: rest) = .ok .ok := fun rest h => by rw [UR.Rep.symmetrizer, if_pos h]
  refine ⟨?_, ?_, ?_, ?_, ?_⟩
  · intro h
    cases nbrs with
    | nil => rfl
    | cons r0 rest =>
      rw [mkTBM, if_pos]
      intro h0
      exact h ⟨rest, by rw [vnorm_eq_zero.1 h0]⟩
  · rintro ⟨rest, rfl⟩ hU hi
    rw [mkTBM, if_neg (not_not.2 (vnorm_eq_zero.2 rfl)), hsym rest (by simp [hU])]
    simp [hi, hU]
  · rintro ⟨rest, rfl⟩ hU hi
    rw [mkTBM, if_neg (not_not.2 (vnorm_eq_zero.2 rfl)), hsym rest hU]
    simp [hi]
  · rintro P ⟨rest, rfl⟩ hU hi rfl hP
    rw [mkTBM, if_neg (not_not.2 (vnorm_eq_zero.2 rfl)), hsym rest hU.le]
    have hne : ρ.U ≠ [] := by intro h; rw [h] at hU; simp at hU
    simp only [hi]
    rw [if_neg (by simp), if_neg hne, if_neg]
    simp only [List.length_cons] at *
    omega
  · intro t _
    have h0 : (t.setFromComplex []).1.params = [] := rfl
    exact ⟨rfl, rfl, fun k => by rw [TBM.f, TBM.msum, if_pos h0], fun k a => by rw [TBM.df, TBM.msum, if_pos h0],
      fun k a b => by rw [TBM.ddf, TBM.msum, if_pos h0]⟩

/-- C105_errors: no neighbours, and the chain after `set_from_complex([])`. -/
example (ρ : UR.Rep ℝ ℂ 1 1) : mkTBM ρ [] none = .error .assertionError ∧ (exTbm.setFromComplex []).1.f ![0] = .error .indexError :=
  ⟨(C105_errors ρ [] none).1 (by simp), ((C105_errors _ _ _).2.2.2.2 _ exTbm_ok).2.2.1 _⟩

end TB

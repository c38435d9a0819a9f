import Mathlib.Analysis.Calculus.Deriv.Star
import Mathlib.Analysis.Calculus.Deriv.Add
import Verif.Lemmas.BandStructure

/-!
# C73: `df` and `ddf` of `BandStructureModel` are the gradient and the hessian of `f`
-/

namespace TB.BS
open Matrix TB

variable {d n m : ℕ}

theorem hasDerivAt_hsum (b : BSM d n) (c : ℝ → ℕ → ℂ) (c' : ℕ → ℂ) (τ : ℝ)
    (h : ∀ i, HasDerivAt (fun x => c x i) (c' i) τ) (i j : Fin n) :
    HasDerivAt (fun x => b.hsum (c x) i j) (b.hsum c' i j) τ := by
  have hs : ∀ i j : Fin n, HasDerivAt (fun x => ∑ l ∈ Finset.range b.Ps.length, c x (l + 1) * (b.Ps.getD l 0) i j)
      (∑ l ∈ Finset.range b.Ps.length, c' (l + 1) * (b.Ps.getD l 0) i j) τ := by
    intro i j
    exact HasDerivAt.fun_sum fun l _ => (h (l + 1)).mul_const _
  have e : ∀ (g : ℕ → ℂ), b.hsum g i j = (∑ l ∈ Finset.range b.Ps.length, g (l + 1) * (b.Ps.getD l 0) i j) +
      star (∑ l ∈ Finset.range b.Ps.length, g (l + 1) * (b.Ps.getD l 0) j i) + g 0 * b.P0 i j := by
    intro g
    simp only [BSM.hsum, Matrix.add_apply, conjTranspose_apply, Matrix.sum_apply, Matrix.smul_apply, smul_eq_mul]
  simp only [e]
  exact ((hs i j).add (hs j i).star).add ((h 0).mul_const _)

theorem hasDerivAt_cexp (x : ℝ) :
    HasDerivAt (fun x : ℝ => Complex.exp (Complex.I * x)) (Complex.I * Complex.exp (Complex.I * x)) x := by
  have h : HasDerivAt (fun x : ℝ => Complex.I * (x : ℂ)) Complex.I x := by
    simpa using (Complex.ofRealCLM.hasDerivAt (x := x)).const_mul Complex.I
  have := h.cexp
  rwa [mul_comm] at this

theorem hasDerivAt_ccos (x : ℝ) : HasDerivAt (fun x : ℝ => ((Real.cos x : ℝ) : ℂ)) (-(Real.sin x : ℂ)) x := by
  have := (Real.hasDerivAt_cos x).ofReal_comp
  simpa using this

theorem hasDerivAt_csin (x : ℝ) : HasDerivAt (fun x : ℝ => ((Real.sin x : ℝ) : ℂ)) (Real.cos x : ℂ) x :=
  (Real.hasDerivAt_sin x).ofReal_comp

theorem hasDerivAt_func (t : TBData d) (p : ℕ) (x : ℝ) : HasDerivAt (fun x => t.func p x) (t.dfunc p x) x := by
  unfold TBData.func TBData.dfunc
  split_ifs
  · exact (hasDerivAt_cexp x).sub_const 1
  · exact hasDerivAt_cexp x
  · exact (hasDerivAt_ccos x).sub_const 1
  · exact hasDerivAt_ccos x
  · exact (hasDerivAt_ccos x).sub_const 1
  · exact hasDerivAt_ccos x
  · exact hasDerivAt_csin x

theorem hasDerivAt_dfunc (t : TBData d) (p : ℕ) (x : ℝ) : HasDerivAt (fun x => t.dfunc p x) (-t.negddfunc p x) x := by
  unfold TBData.dfunc TBData.negddfunc
  split_ifs
  · have := (hasDerivAt_cexp x).const_mul Complex.I
    rwa [← mul_assoc, Complex.I_mul_I, neg_one_mul] at this
  · exact (hasDerivAt_csin x).fun_neg
  · exact (hasDerivAt_csin x).fun_neg
  · exact hasDerivAt_ccos x

/-- `k + τ u`. -/
theorem hasDerivAt_arg (k u r : RVec d) (τ : ℝ) :
    HasDerivAt (fun τ => 2 * Real.pi * ((k + τ • u) ⬝ᵥ r)) (2 * Real.pi * (u ⬝ᵥ r)) τ := by
  have : (fun τ : ℝ => 2 * Real.pi * ((k + τ • u) ⬝ᵥ r)) = fun τ => 2 * Real.pi * (k ⬝ᵥ r + τ * (u ⬝ᵥ r)) := by
    funext τ; rw [add_dotProduct, smul_dotProduct, smul_eq_mul]
  rw [this]
  simpa using (((hasDerivAt_id τ).mul_const (u ⬝ᵥ r)).const_add (k ⬝ᵥ r)).const_mul (2 * Real.pi)

theorem hasDerivAt_list {α : Type} (l : List α) (g : α → ℝ → ℂ) (g' : α → ℂ) (τ : ℝ)
    (h : ∀ s, HasDerivAt (g s) (g' s) τ) : HasDerivAt (fun x => (l.map fun s => g s x).sum) (l.map g').sum τ := by
  induction l with
  | nil => simpa using hasDerivAt_const τ (0 : ℂ)
  | cons s l ih =>
    simp only [List.map_cons, List.sum_cons]
    exact (h s).add ih

theorem sum_list_comm {α : Type} (l : List α) (u : Fin d → ℂ) (g : α → Fin d → ℂ) :
    ∑ a, u a * (l.map fun s => g s a).sum = (l.map fun s => ∑ a, u a * g s a).sum := by
  induction l with
  | nil => simp
  | cons s l ih => simp only [List.map_cons, List.sum_cons, mul_add, Finset.sum_add_distrib, ih]

theorem hasDerivAt_fi (t : TBData d) (k u : RVec d) (i : ℕ) (τ : ℝ) :
    HasDerivAt (fun τ => t.fi (k + τ • u) i) (∑ a, (u a : ℂ) * t.dfi (k + τ • u) i a) τ := by
  by_cases hi : i = 0
  · simp only [TBData.fi, TBData.dfi, if_pos hi, mul_zero, Finset.sum_const_zero]
    exact hasDerivAt_const τ (1 : ℂ)
  · simp only [TBData.fi, TBData.dfi, if_neg hi, foldl_add_sum, zero_add]
    have e : (∑ a, (u a : ℂ) * ((t.S.map fun s => t.dfunc (i / t.neighbors.length)
          (2 * Real.pi * ((k + τ • u) ⬝ᵥ s.mulVec (t.rOrig i))) * (s.mulVec (t.rOrig i) a : ℝ)).sum *
          ((2 * Real.pi : ℝ) : ℂ))) =
        (t.S.map fun s => ((2 * Real.pi * (u ⬝ᵥ s.mulVec (t.rOrig i)) : ℝ) : ℂ) * t.dfunc (i / t.neighbors.length)
          (2 * Real.pi * ((k + τ • u) ⬝ᵥ s.mulVec (t.rOrig i)))).sum := by
      simp only [mul_comm _ ((2 * Real.pi : ℝ) : ℂ), mul_left_comm _ ((2 * Real.pi : ℝ) : ℂ)]
      rw [← Finset.mul_sum, sum_list_comm, ← List.sum_map_mul_left]
      refine congrArg List.sum (List.map_congr_left fun s _ => ?_)
      generalize t.dfunc _ _ = D
      rw [show ((2 * Real.pi * (u ⬝ᵥ s.mulVec (t.rOrig i)) : ℝ) : ℂ) =
        ((2 * Real.pi : ℝ) : ℂ) * ∑ a, (u a : ℂ) * (s.mulVec (t.rOrig i) a : ℂ) by simp [dotProduct]]
      rw [Finset.mul_sum, Finset.mul_sum, Finset.sum_mul]
      exact Finset.sum_congr rfl fun a _ => by ring
    rw [e]
    refine hasDerivAt_list _ _ _ _ fun s => ?_
    have := (hasDerivAt_func t (i / t.neighbors.length) (2 * Real.pi * ((k + τ • u) ⬝ᵥ s.mulVec (t.rOrig i)))).scomp τ
      (hasDerivAt_arg k u (s.mulVec (t.rOrig i)) τ)
    exact this

theorem hasDerivAt_dfi (t : TBData d) (k u : RVec d) (i : ℕ) (a : Fin d) (τ : ℝ) :
    HasDerivAt (fun τ => t.dfi (k + τ • u) i a) (∑ a', (u a' : ℂ) * t.ddfi (k + τ • u) i a a') τ := by
  by_cases hi : i = 0
  · simp only [TBData.ddfi, TBData.dfi, if_pos hi, mul_zero, Finset.sum_const_zero]
    exact hasDerivAt_const τ (0 : ℂ)
  · simp only [TBData.ddfi, TBData.dfi, if_neg hi, foldl_add_sum, foldl_sub_sum, zero_add, zero_sub]
    have e : (∑ a', (u a' : ℂ) * (-(t.S.map fun s => t.negddfunc (i / t.neighbors.length)
          (2 * Real.pi * ((k + τ • u) ⬝ᵥ s.mulVec (t.rOrig i))) *
            ((s.mulVec (t.rOrig i) a * s.mulVec (t.rOrig i) a' : ℝ) : ℂ)).sum *
          (((2 * Real.pi) ^ 2 : ℝ) : ℂ))) =
        (t.S.map fun s => ((2 * Real.pi * (u ⬝ᵥ s.mulVec (t.rOrig i)) : ℝ) : ℂ) * -t.negddfunc (i / t.neighbors.length)
          (2 * Real.pi * ((k + τ • u) ⬝ᵥ s.mulVec (t.rOrig i))) * (s.mulVec (t.rOrig i) a : ℝ)).sum *
            ((2 * Real.pi : ℝ) : ℂ) := by
      have : ∀ X Y : ℂ, ∀ z : ℂ, z * (-X * Y) = (-Y) * (z * X) := fun X Y z => by ring
      simp only [this]
      rw [← Finset.mul_sum, sum_list_comm, ← List.sum_map_mul_left, ← List.sum_map_mul_right]
      refine congrArg List.sum (List.map_congr_left fun s _ => ?_)
      generalize t.negddfunc _ _ = D
      rw [show ((2 * Real.pi * (u ⬝ᵥ s.mulVec (t.rOrig i)) : ℝ) : ℂ) =
        ((2 * Real.pi : ℝ) : ℂ) * ∑ a, (u a : ℂ) * (s.mulVec (t.rOrig i) a : ℂ) by simp [dotProduct]]
      push_cast
      simp only [Finset.mul_sum, Finset.sum_mul]
      exact Finset.sum_congr rfl fun a _ => by ring
    rw [e]
    refine (hasDerivAt_list _ _ _ _ fun s => ?_).mul_const _
    have := (hasDerivAt_dfunc t (i / t.neighbors.length) (2 * Real.pi * ((k + τ • u) ⬝ᵥ s.mulVec (t.rOrig i)))).scomp τ
      (hasDerivAt_arg k u (s.mulVec (t.rOrig i)) τ)
    exact this.mul_const _

theorem hsum_dir (b : BSM d n) (u : RVec d) (c : ℕ → Fin d → ℂ) (i j : Fin n) :
    b.hsum (fun l => ∑ a, (u a : ℂ) * c l a) i j = ∑ a, (u a : ℂ) * b.hsum (fun l => c l a) i j := by
  simp only [BSM.hsum, Matrix.add_apply, conjTranspose_apply, Matrix.sum_apply, Matrix.smul_apply, smul_eq_mul,
    Finset.sum_mul, mul_add, Finset.sum_add_distrib, star_sum, star_mul', Finset.mul_sum]
  congr 1
  · congr 1
    · rw [Finset.sum_comm]
      exact Finset.sum_congr rfl fun a _ => Finset.sum_congr rfl fun l _ => by ring
    · rw [Finset.sum_comm]
      refine Finset.sum_congr rfl fun a _ => Finset.sum_congr rfl fun l _ => ?_
      have : star (u a : ℂ) = u a := Complex.conj_ofReal _
      rw [this]; ring
  · exact Finset.sum_congr rfl fun a _ => by ring

/-- **C73.** For every model of `init_tight_binding` with whatever matrices, the derivative of each entry of `f` in
direction `u` is `Σ_a u_a df_a`, and that of each entry of `df_a` is `Σ_b u_b ddf_ab`. -/
theorem C73_derivatives (b : BSM d n) (t : TBData d) (hb : b.coeff = .tb t) (k u : RVec d) (i j : Fin n) (τ : ℝ) :
    HasDerivAt (fun τ : ℝ => b.f (k + τ • u) i j) (∑ a, (u a : ℂ) * b.df (k + τ • u) a i j) τ ∧
    ∃ D : RVec d → Fin d → Fin d → CMat n, (∀ k a a', b.ddf k a a' = .ok (D k a a')) ∧
      ∀ a, HasDerivAt (fun τ : ℝ => b.df (k + τ • u) a i j) (∑ a', (u a' : ℂ) * D (k + τ • u) a a' i j) τ := by
  constructor
  · have h := hasDerivAt_hsum b (fun τ => t.fi (k + τ • u)) _ τ (fun i => hasDerivAt_fi t k u i τ) i j
    rw [hsum_dir] at h
    simpa only [BSM.f, BSM.df, hb, Coeff.fi, Coeff.dfi] using h
  · refine ⟨fun k a a' => b.hsum fun i => t.ddfi k i a a', fun k a a' => ?_, fun a => ?_⟩
    · simp only [BSM.ddf, hb, Coeff.ddfi]
    · have h := hasDerivAt_hsum b (fun τ i => t.dfi (k + τ • u) i a) _ τ (fun i => hasDerivAt_dfi t k u i a τ) i j
      rw [hsum_dir] at h
      simpa only [BSM.df, hb, Coeff.dfi] using h

example : ∃ b : BSM 1 1, ∃ t, b.coeff = .tb t ∧ t.neighbors = [0, fun _ => 1] ∧ b.Ps = [1] :=
  ⟨⟨.tb ⟨[1], false, [0, fun _ => 1], false, true⟩, 0, [1], none⟩, _, rfl, rfl, rfl⟩

/-- **C73.** The same for custom coefficient functions, if `df_i` and `ddf_i` are the gradient and hessian of `f_i`. -/
theorem C73_custom (b : BSM d n) (f : RVec d → ℕ → ℂ) (g : RVec d → ℕ → Fin d → ℂ)
    (h : RVec d → ℕ → Fin d → Fin d → ℂ) (hb : b.coeff = .custom f g (some h))
    (hg : ∀ k u i τ, HasDerivAt (fun τ : ℝ => f (k + τ • u) i) (∑ a, (u a : ℂ) * g (k + τ • u) i a) τ)
    (hh : ∀ k u i a τ, HasDerivAt (fun τ : ℝ => g (k + τ • u) i a) (∑ a', (u a' : ℂ) * h (k + τ • u) i a a') τ)
    (k u : RVec d) (i j : Fin n) (τ : ℝ) :
    HasDerivAt (fun τ : ℝ => b.f (k + τ • u) i j) (∑ a, (u a : ℂ) * b.df (k + τ • u) a i j) τ ∧
    ∃ D : RVec d → Fin d → Fin d → CMat n, (∀ k a a', b.ddf k a a' = .ok (D k a a')) ∧
      ∀ a, HasDerivAt (fun τ : ℝ => b.df (k + τ • u) a i j) (∑ a', (u a' : ℂ) * D (k + τ • u) a a' i j) τ := by
  constructor
  · have h := hasDerivAt_hsum b (fun τ => f (k + τ • u)) _ τ (fun i => hg k u i τ) i j
    rw [hsum_dir] at h
    simpa only [BSM.f, BSM.df, hb, Coeff.fi, Coeff.dfi] using h
  · refine ⟨fun k a a' => b.hsum fun i => h k i a a', fun k a a' => ?_, fun a => ?_⟩
    · simp only [BSM.ddf, hb, Coeff.ddfi]
    · have h := hasDerivAt_hsum b (fun τ i => g (k + τ • u) i a) _ τ (fun i => hh k u i a τ) i j
      rw [hsum_dir] at h
      simpa only [BSM.df, hb, Coeff.dfi] using h

/-- Custom functions with these derivatives: `f_i(k) = Σ_a k_a`. -/
example : ∃ (f : RVec 2 → ℕ → ℂ) (g : RVec 2 → ℕ → Fin 2 → ℂ),
    (∀ k u i τ, HasDerivAt (fun τ : ℝ => f (k + τ • u) i) (∑ a, (u a : ℂ) * g (k + τ • u) i a) τ) ∧
    ∀ k, f k 1 = ((k 0 + k 1 : ℝ) : ℂ) := by
  refine ⟨fun k _ => ((k 0 + k 1 : ℝ) : ℂ), fun _ _ _ => 1, fun k u i τ => ?_, fun k => rfl⟩
  have h : ∀ a : Fin 2, HasDerivAt (fun τ : ℝ => (k + τ • u) a) (u a) τ := fun a => by
    simpa using ((hasDerivAt_id τ).mul_const (u a)).const_add (k a)
  have := ((h 0).add (h 1)).ofReal_comp
  simpa [Fin.sum_univ_two] using this

/-- C73: `ddf` raises `AssertionError` exactly if no second derivatives were given. -/
theorem C73_ddf_missing (b : BSM d n) (k : RVec d) (a a' : Fin d) :
    b.ddf k a a' = .error .assertionError ↔ ∃ f g, b.coeff = .custom f g none := by
  rw [BSM.ddf]
  cases h : b.coeff with
  | tb t => simp [Coeff.ddfi]
  | custom f g o => cases o <;> simp [Coeff.ddfi]

example : (⟨.custom (fun _ _ => 1) (fun _ _ _ => 0) none, 0, [], none⟩ : BSM 1 1).ddf 0 0 0 = .error .assertionError :=
  (C73_ddf_missing _ _ _ _).2 ⟨_, _, rfl⟩

end TB.BS

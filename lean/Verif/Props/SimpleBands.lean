import Verif.Lemmas.SimpleEigen

/-!
# C52, without assumptions on eigenvectors: simple bands are differentiable and `bands_grad`, `bands_grad_hess` return
their derivatives

`SE.hasDerivAt_band` and `SE.exists_branch` (Lemmas/SimpleEigen.lean) show that a simple sorted eigenvalue is differentiable and
has a differentiable eigenvector, so the hypotheses on branches in `C52_gradient`, `C52_bands_grad` and `C52_hessian`
disappear.  What remains is the contract of the library routine (`Spec.IsGeigh`) and that the band is not degenerate at
the point.
-/

namespace TB
open Matrix Filter Topology

variable {d n : ℕ}

/-- C52.  The sorted eigenvalue number `i` of a differentiable pair `(H(t), S(t))`, as returned by `geigh` near `x`, is
differentiable at `x` if it is simple there, and `geigh_grad` returns the derivative. -/
theorem C52_simple (H S V : ℝ → CMat n) (dH dS : CMat n) (e : ℝ → Fin n → ℝ) (x : ℝ)
    (hg : ∀ᶠ t in 𝓝 x, Spec.IsGeigh (H t) (S t) (e t) (V t)) (hH : Spec.MDeriv H dH x) (hS : Spec.MDeriv S dS x)
    (i : Fin n) (hi : ∀ j, j ≠ i → e x j ≠ e x i) :
    HasDerivAt (fun t => e t i) (geighGrad (e x) (V x) dH dS i) x := SE.hasDerivAt_band hg hH hS i hi

theorem line_tendsto (k u : RVec d) : Tendsto (fun s : ℝ => k + s • u) (𝓝 0) (𝓝 k) := by
  have : Continuous fun s : ℝ => k + s • u := by fun_prop
  simpa using this.tendsto 0

theorem sum_smul_apply (u : RVec d) (D : Fin d → CMat n) (i j : Fin n) :
    (∑ a, (u a : ℂ) • D a) i j = ∑ a, (u a : ℂ) * D a i j := by simp [Matrix.sum_apply]

theorem geighGrad_sum (e : Fin n → ℝ) (ev : CMat n) (u : RVec d) (dH dS : Fin d → CMat n) (i : Fin n) :
    geighGrad e ev (∑ a, (u a : ℂ) • dH a) (∑ a, (u a : ℂ) • dS a) i = ∑ a, u a * geighGrad e ev (dH a) (dS a) i := by
  rw [geighGrad]
  have hr : ∀ D : Fin d → CMat n, (rot ev (∑ a, (u a : ℂ) • D a) i i).re = ∑ a, u a * (rot ev (D a) i i).re := by
    intro D
    rw [rot, Finset.mul_sum, Finset.sum_mul, Matrix.sum_apply, Complex.re_sum]
    refine Finset.sum_congr rfl fun a _ => ?_
    rw [Matrix.mul_smul, Matrix.smul_mul, Matrix.smul_apply, smul_eq_mul, Complex.re_ofReal_mul]
    rfl
  rw [hr, hr, Finset.sum_mul, ← Finset.sum_sub_distrib]
  exact Finset.sum_congr rfl fun a _ => by rw [geighGrad]; ring

/-- Derivative along a line away from its start. -/
theorem line_deriv {F : RVec d → ℂ} {DF : RVec d → Fin d → ℂ}
    (h : ∀ k v, HasDerivAt (fun t : ℝ => F (k + t • v)) (∑ a, (v a : ℂ) * DF k a) 0) (k u : RVec d) (s : ℝ) :
    HasDerivAt (fun t : ℝ => F (k + t • u)) (∑ a, (u a : ℂ) * DF (k + s • u) a) s := by
  have h1 := h (k + s • u) u
  have h2 : HasDerivAt (fun t : ℝ => t - s) 1 s := (hasDerivAt_id s).sub_const s
  have h3 := HasDerivAt.scomp s (h := fun t : ℝ => t - s) (g₁ := fun t : ℝ => F (k + s • u + t • u)) (by simpa using h1) h2
  rw [one_smul] at h3
  refine h3.congr_of_eventuallyEq (Eventually.of_forall fun t => ?_)
  simp only [Function.comp]
  congr 1
  rw [add_assoc, ← add_smul]; congr 2; ring

/-- C52.  `bands_grad` of a tight-binding model: where band `i` is simple, the band has a derivative along every line `k + s u`
and the returned gradient, contracted with `u`, is that derivative. -/
theorem C52_bands_simple (t : Tb d n) (hH : Spec.Starts0 t.H) (hS : Spec.Starts0 t.S) (k u : RVec d)
    (bands : RVec d → Fin n → ℝ) (ev : RVec d → CMat n)
    (hg : ∀ᶠ q in 𝓝 k, ∀ H S, Spec.At t q H S → Spec.IsGeigh H S (bands q) (ev q))
    (dH dS : Fin d → CMat n) (hdH : ∀ a, t.H.df k a = .ok (dH a)) (hdS : ∀ a, t.S.df k a = .ok (dS a))
    (i : Fin n) (hi : ∀ j, j ≠ i → bands k j ≠ bands k i) :
    HasDerivAt (fun s : ℝ => bands (k + s • u) i) (∑ a, u a * geighGrad (bands k) (ev k) (dH a) (dS a) i) 0 := by
  obtain ⟨F, DF, -, hF, hDF, -, hFd, -⟩ := C22_derivatives t.H hH
  obtain ⟨G, DG, -, hG, hDG, -, hGd, -⟩ := C22_derivatives t.S hS
  have e1 : ∀ a, DF k a = dH a := fun a => Except.ok.inj ((hDF k a).symm.trans (hdH a))
  have e2 : ∀ a, DG k a = dS a := fun a => Except.ok.inj ((hDG k a).symm.trans (hdS a))
  have hk : k + (0 : ℝ) • u = k := by simp
  have h := C52_simple (fun s => F (k + s • u)) (fun s => G (k + s • u)) (fun s => ev (k + s • u)) (∑ a, (u a : ℂ) • dH a)
    (∑ a, (u a : ℂ) • dS a) (fun s => bands (k + s • u)) 0
    (((line_tendsto k u).eventually hg).mono fun s hs => hs _ _ ⟨hF _, hG _⟩)
    (fun i j => by rw [sum_smul_apply]; simp only [← e1]; exact hFd k u i j)
    (fun i j => by rw [sum_smul_apply]; simp only [← e2]; exact hGd k u i j) i (by simpa [hk] using hi)
  simp only [hk] at h
  rw [geighGrad_sum] at h
  exact h

/-- C52.  `bands_grad_hess` of an orthogonal tight-binding model (overlap `1`): where band `i` is at distance at least
`eps > 0` from the other bands, the band is differentiable near `k` along every line with a derivative which is again differentiable; the
returned gradient and hessian, contracted with `u`, are these two derivatives. -/
theorem C52_bands_hess_simple (t : Tb d n) (hH : Spec.Starts0 t.H) (k u : RVec d)
    (bands : RVec d → Fin n → ℝ) (ev : RVec d → CMat n)
    (hg : ∀ᶠ q in 𝓝 k, ∀ H, t.H.f q = .ok H → Spec.IsGeigh H 1 (bands q) (ev q))
    (dH : Fin d → CMat n) (ddH : Fin d → Fin d → CMat n) (hdH : ∀ a, t.H.df k a = .ok (dH a))
    (hddH : ∀ a b, t.H.ddf k a b = .ok (ddH a b)) (i : Fin n) (eps : ℝ) (heps : 0 < eps)
    (hi : ∀ j, j ≠ i → eps ≤ |bands k j - bands k i|) :
    ∃ g : ℝ → ℝ, (∀ᶠ s in 𝓝 0, HasDerivAt (fun s : ℝ => bands (k + s • u) i) (g s) s) ∧
      g 0 = ∑ a, u a * asymHessGrad (ev k) (dH a) i ∧
      HasDerivAt g (∑ a, ∑ b, u a * u b * eighHess eps (bands k) (ev k) (dH a) (dH b) (ddH a b) i) 0 := by
  obtain ⟨F, DF, DDF, hF, hDF, hDDF, hFd, hDFd, -, hDFh, -⟩ := C22_derivatives t.H hH
  have e1 : ∀ a, DF k a = dH a := fun a => Except.ok.inj ((hDF k a).symm.trans (hdH a))
  have e2 : ∀ a b, DDF k a b = ddH a b := fun a b => Except.ok.inj ((hDDF k a b).symm.trans (hddH a b))
  have hk : k + (0 : ℝ) • u = k := by simp
  set H1 : ℝ → CMat n := fun s => ∑ a, (u a : ℂ) • DF (k + s • u) a with hH1
  have hHd : ∀ s : ℝ, Spec.MDeriv (fun s => F (k + s • u)) (H1 s) s := by
    intro s a b
    rw [hH1]; simp only; rw [sum_smul_apply]
    exact line_deriv (F := fun q => F q a b) (DF := fun q c => DF q c a b) (fun k v => hFd k v a b) k u s
  have hgl : ∀ᶠ s : ℝ in 𝓝 0, Spec.IsGeigh (F (k + s • u)) 1 (bands (k + s • u)) (ev (k + s • u)) :=
    ((line_tendsto k u).eventually hg).mono fun s hs => hs _ (hF _)
  have hi' : ∀ j, j ≠ i → bands k j ≠ bands k i := by
    intro j hj h
    have := hi j hj
    rw [h, sub_self, abs_zero] at this
    linarith
  have hi0 : ∀ j, j ≠ i → bands (k + (0 : ℝ) • u) j ≠ bands (k + (0 : ℝ) • u) i := by simpa [hk] using hi'
  have hone : ∀ s, Spec.MDeriv (fun _ => (1 : CMat n)) 0 s := fun s a b => hasDerivAt_const _ _
  have hsimple := SE.eventually_simple (H := fun s => F (k + s • u)) (S := fun _ => 1) (V := fun s => ev (k + s • u))
    (e := fun s => bands (k + s • u)) (x := 0) hgl (fun a b => (hHd 0 a b).continuousAt) (fun _ _ => continuousAt_const) i hi0
  set g : ℝ → ℝ := fun s => geighGrad (bands (k + s • u)) (ev (k + s • u)) (H1 s) 0 i with hgdef
  have hgd : ∀ᶠ s in 𝓝 (0 : ℝ), HasDerivAt (fun s : ℝ => bands (k + s • u) i) (g s) s := by
    filter_upwards [hgl.eventually_nhds, hsimple] with s h1 h2
    exact C52_simple (fun s => F (k + s • u)) (fun _ => 1) (fun s => ev (k + s • u)) (H1 s) 0 (fun s => bands (k + s • u)) s h1
      (hHd s) (hone s) i h2
  obtain ⟨v, v1, b1, b2, b3, b4⟩ := SE.exists_branch (H := fun s => F (k + s • u)) (V := fun s => ev (k + s • u))
    (e := fun s => bands (k + s • u)) (x := 0) hgl H1 (Eventually.of_forall hHd) i hi0
  have h0 := hg.self_of_nhds _ (hF k)
  have hnorm : (ev k)ᴴ * ev k = 1 := by have := h0.norm; rwa [rot, Matrix.mul_one] at this
  refine ⟨g, hgd, ?_, ?_⟩
  · have := geighGrad_sum (bands k) (ev k) u dH (fun _ => 0) i
    simp only [hgdef, hk]
    rw [hH1]; simp only [hk, e1]
    have hz : (∑ a, (u a : ℂ) • (0 : CMat n)) = 0 := by simp
    rw [hz] at this
    rw [this]
    refine Finset.sum_congr rfl fun a _ => ?_
    rw [geighGrad, asymHessGrad]; simp [rot]
  · have hD1 : H1 0 = ∑ a, (u a : ℂ) • dH a := by rw [hH1]; simp only [hk, e1]
    have hH2 : Spec.MDeriv H1 (∑ a, ∑ b, ((u a * u b : ℝ) : ℂ) • ddH a b) 0 := by
      intro p q
      have h1 : ∀ s, H1 s p q = ∑ a, (u a : ℂ) * DF (k + s • u) a p q := fun s => by rw [hH1]; simp only; rw [sum_smul_apply]
      simp only [h1]
      have h2 : (∑ a, ∑ b, ((u a * u b : ℝ) : ℂ) • ddH a b) p q = ∑ a, (u a : ℂ) * ∑ b, (u b : ℂ) * DDF k a b p q := by
        simp only [Matrix.sum_apply, Matrix.smul_apply, smul_eq_mul, Finset.mul_sum, e2]
        refine Finset.sum_congr rfl fun a _ => Finset.sum_congr rfl fun b _ => ?_
        push_cast; ring
      rw [h2]
      exact HasDerivAt.fun_sum fun a _ => (hDFd k u a p q).const_mul _
    exact C52_hessian (fun s => F (k + s • u)) H1 dH ddH u (Eventually.of_forall hHd) hD1 hH2
      (hgl.mono fun s hs => (SE.isHermitian_of_geigh hs).1) (fun a => e1 a ▸ hDFh k a)
      (fun s => bands (k + s • u) i) g v v1 hgd b1 b2 b3 (bands k) (ev k) hnorm (by simpa [hk] using h0.diag) i
      (by simpa [hk] using b4) eps heps hi

/-! ### examples -/

/-- A chain with two orbitals per cell which mix with `cos 2πk`, energies `0` and `2`. -/
noncomputable def exTwo : Tb 1 2 := ⟨⟨[(0, !![0, 0; 0, 2]), (![1], !![0, 1 / 2; 1 / 2, 0])]⟩, ⟨[(0, 1)]⟩⟩

open scoped ComplexOrder in
/-- The library routine on this model: results with the contract exist at every k, and the two bands differ everywhere, so
`C52_bands_simple` and `C52_bands_hess_simple` apply at every point and every band of it. -/
example : ∃ bands : RVec 1 → Fin 2 → ℝ,
    (∀ k i, ∃ v, HasDerivAt (fun s : ℝ => bands (k + s • 1) i) v 0) ∧
    ∀ k i, ∃ (g : ℝ → ℝ) (w : ℝ), (∀ᶠ s in 𝓝 0, HasDerivAt (fun s : ℝ => bands (k + s • 1) i) (g s) s) ∧ HasDerivAt g w 0 := by
  have hH : Spec.Starts0 exTwo.H := ⟨_, _, rfl⟩
  have hS : Spec.Starts0 exTwo.S := ⟨_, _, rfl⟩
  obtain ⟨F, DF, DDF, hF, hDF, hDDF, -⟩ := C22_derivatives exTwo.H hH
  obtain ⟨G, DG, -, hG, hDG, -⟩ := C22_derivatives exTwo.S hS
  have hG1 : ∀ q, G q = 1 := by
    intro q
    have h1 : exTwo.S.f q = .ok 1 := by
      rw [show exTwo.S = (⟨(0, 1) :: []⟩ : Series 1 2) from rfl, f_eq]; simp [Spec.value]
    exact Except.ok.inj ((hG q).symm.trans h1)
  have hval : ∀ q, F q = Spec.value !![0, 0; 0, 2] [(![1], !![0, 1 / 2; 1 / 2, 0])] q := by
    intro q
    have h1 : exTwo.H.f q = .ok (Spec.value !![0, 0; 0, 2] [(![1], !![0, 1 / 2; 1 / 2, 0])] q) := by
      rw [show exTwo.H = (⟨(0, !![0, 0; 0, 2]) :: [(![1], !![0, 1 / 2; 1 / 2, 0])]⟩ : Series 1 2) from rfl, f_eq]
    exact Except.ok.inj ((hF q).symm.trans h1)
  have hherm : ∀ q, (F q).IsHermitian := by
    intro q
    rw [hval]
    refine IsHermitian.add ?_ (herm_sum (fi q) _)
    ext i j; fin_cases i <;> fin_cases j <;> simp
  have h00 : ∀ q, F q 0 0 = 0 ∧ F q 1 1 = 2 := by
    intro q; rw [hval]; simp [Spec.value]
  choose bands ev hge using fun q => SE.exists_geigh (hherm q) (PosDef.one (n := Fin 2) (R := ℂ))
  have hne : ∀ q, bands q 0 ≠ bands q 1 := by
    intro q h
    have h1 := hge q
    have hn := h1.norm
    rw [rot, Matrix.mul_one] at hn
    have hn' := mul_eq_one_comm.1 hn
    have hd := h1.diag
    have hs : (diagonal fun i => (bands q i : ℂ)) = (bands q 0 : ℂ) • (1 : CMat 2) := by
      ext i j; fin_cases i <;> fin_cases j <;> simp [h]
    rw [hs, rot] at hd
    have : F q = (bands q 0 : ℂ) • (1 : CMat 2) := by
      calc F q = (ev q * (ev q)ᴴ) * F q * (ev q * (ev q)ᴴ) := by rw [hn', Matrix.one_mul, Matrix.mul_one]
        _ = ev q * ((ev q)ᴴ * F q * ev q) * (ev q)ᴴ := by simp only [Matrix.mul_assoc]
        _ = _ := by rw [hd, Matrix.mul_smul, Matrix.smul_mul, Matrix.mul_one, hn']
    have g0 := (h00 q).1
    have g1 := (h00 q).2
    rw [this] at g0 g1
    simp at g0 g1
    rw [g0] at g1
    norm_num at g1
  have hne' : ∀ q (i j : Fin 2), j ≠ i → bands q j ≠ bands q i := by
    intro q i j hij
    fin_cases i <;> fin_cases j
    · exact absurd rfl hij
    · exact (hne q).symm
    · exact hne q
    · exact absurd rfl hij
  refine ⟨bands, fun k i => ⟨_, C52_bands_simple exTwo hH hS k 1 bands ev (Eventually.of_forall fun q H S h => ?_) (DF k) (DG k) (hDF k)
    (hDG k) i (hne' k i)⟩, fun k i => ?_⟩
  · clear k i
    have a1 : F q = H := Except.ok.inj ((hF q).symm.trans h.1)
    have a2 : G q = S := Except.ok.inj ((hG q).symm.trans h.2)
    rw [← a1, ← a2, hG1]
    exact hge q
  · have hpos : 0 < |bands k 0 - bands k 1| := abs_pos.2 (sub_ne_zero.2 (hne k))
    obtain ⟨g, h1, -, h2⟩ := C52_bands_hess_simple exTwo hH k 1 bands ev (Eventually.of_forall fun q H h => by
      have a1 : F q = H := Except.ok.inj ((hF q).symm.trans h)
      rw [← a1]; exact hge q) (DF k) (DDF k) (hDF k) (hDDF k) i _ hpos (by
        intro j hj
        fin_cases i <;> fin_cases j
        · exact absurd rfl hj
        · exact (abs_sub_comm _ _).le
        · exact le_rfl
        · exact absurd rfl hj)
    exact ⟨g, _, h1, h2⟩

end TB

import Mathlib.Analysis.Calculus.Deriv.Mul
import Mathlib.Analysis.Calculus.Deriv.Add
import Mathlib.Analysis.Complex.RealDeriv
import Mathlib.Analysis.SpecialFunctions.Trigonometric.Deriv
import Verif.Model.EigGrad
import Verif.Props.TbModel

/-!
# C52: gradients and hessians of bands (Hellmann-Feynman and second order perturbation theory)
-/

set_option linter.unusedSectionVars false

namespace TB
open Matrix Filter Topology

variable {d n m : ℕ}

/-- Entrywise derivative of a matrix valued function. -/
def Spec.MDeriv (F : ℝ → CMat n) (F' : CMat n) (x : ℝ) : Prop :=
  ∀ i j, HasDerivAt (fun t => F t i j) (F' i j) x

/-- Componentwise derivative of a vector valued function. -/
def Spec.VDeriv (v : ℝ → Fin n → ℂ) (v' : Fin n → ℂ) (x : ℝ) : Prop := ∀ i, HasDerivAt (fun t => v t i) (v' i) x

theorem MDeriv.mulVec {F : ℝ → CMat n} {F' : CMat n} {v : ℝ → Fin n → ℂ} {v' : Fin n → ℂ} {x : ℝ}
    (hF : Spec.MDeriv F F' x) (hv : Spec.VDeriv v v' x) :
    Spec.VDeriv (fun t => (F t).mulVec (v t)) (F'.mulVec (v x) + (F x).mulVec v') x := by
  intro i
  have : HasDerivAt (fun t => ∑ j, F t i j * v t j) (∑ j, (F' i j * v x j + F x i j * v' j)) x :=
    HasDerivAt.fun_sum fun j _ => (hF i j).mul (hv j)
  rw [Finset.sum_add_distrib] at this
  exact this

theorem VDeriv.smul {e : ℝ → ℝ} {e' : ℝ} {v : ℝ → Fin n → ℂ} {v' : Fin n → ℂ} {x : ℝ}
    (he : HasDerivAt e e' x) (hv : Spec.VDeriv v v' x) :
    Spec.VDeriv (fun t => (e t : ℂ) • v t) ((e' : ℂ) • v x + (e x : ℂ) • v') x := by
  intro i
  exact (he.ofReal_comp).mul (hv i)

theorem VDeriv.star_dot {v w : ℝ → Fin n → ℂ} {v' w' : Fin n → ℂ} {x : ℝ}
    (hv : Spec.VDeriv v v' x) (hw : Spec.VDeriv w w' x) :
    HasDerivAt (fun t => star (v t) ⬝ᵥ w t) (star v' ⬝ᵥ w x + star (v x) ⬝ᵥ w') x := by
  have : HasDerivAt (fun t => ∑ j, star (v t j) * w t j) (∑ j, (star (v' j) * w x j + star (v x j) * w' j)) x :=
    HasDerivAt.fun_sum fun j _ => ((hv j).star).mul (hw j)
  rw [Finset.sum_add_distrib] at this
  exact this

theorem VDeriv.unique {v w : ℝ → Fin n → ℂ} {v' w' : Fin n → ℂ} {x : ℝ}
    (hv : Spec.VDeriv v v' x) (hw : Spec.VDeriv w w' x) (h : ∀ᶠ t in 𝓝 x, v t = w t) : v' = w' := by
  ext i
  refine HasDerivAt.unique (hv i) ((hw i).congr_of_eventuallyEq ?_)
  exact h.mono fun t ht => congrFun ht i

theorem star_mulVec_herm {H : CMat n} (hH : H.IsHermitian) (v w : Fin n → ℂ) :
    star v ⬝ᵥ H.mulVec w = star (H.mulVec v) ⬝ᵥ w := by
  rw [star_mulVec, hH.eq, dotProduct_mulVec]

theorem rot_apply (ev M : CMat n) (i k : Fin n) :
    rot ev M i k = star (fun j => ev j i) ⬝ᵥ M.mulVec fun j => ev j k := by
  rw [rot, Matrix.mul_assoc, mul_apply_eq_vecMul]
  rfl

/-- The first order identity, before taking real parts. -/
theorem hf_core (H S : ℝ → CMat n) (dH dS : CMat n) (e : ℝ → ℝ) (e' : ℝ) (v : ℝ → Fin n → ℂ) (v' : Fin n → ℂ) (x : ℝ)
    (hH : Spec.MDeriv H dH x) (hS : Spec.MDeriv S dS x) (he : HasDerivAt e e' x) (hv : Spec.VDeriv v v' x)
    (heq : ∀ᶠ t in 𝓝 x, (H t).mulVec (v t) = (e t : ℂ) • (S t).mulVec (v t)) :
    dH.mulVec (v x) + (H x).mulVec v' =
      (e' : ℂ) • (S x).mulVec (v x) + (e x : ℂ) • (dS.mulVec (v x) + (S x).mulVec v') := by
  have h1 := MDeriv.mulVec hH hv
  have h2 := MDeriv.mulVec hS hv
  have h3 := VDeriv.smul (v := fun t => (S t).mulVec (v t)) he h2
  exact VDeriv.unique (v := fun t => (H t).mulVec (v t)) (w := fun t => (e t : ℂ) • (S t).mulVec (v t)) h1 h3 heq

/-- C52.  Whenever an eigenvalue `e(t)` with eigenvector `v(t)` of a hermitian pair `(H(t), S(t))` is differentiable at
`x`, and `v(x)` is column `i` of the returned eigenvector matrix, normalised by `v† S v = 1` as `scipy.linalg.eigh`
does, the number computed by `geigh_grad` is the derivative of the eigenvalue. -/
theorem C52_gradient (H S : ℝ → CMat n) (dH dS : CMat n) (e : ℝ → ℝ) (e' : ℝ) (v : ℝ → Fin n → ℂ) (v' : Fin n → ℂ)
    (x : ℝ) (hH : Spec.MDeriv H dH x) (hS : Spec.MDeriv S dS x) (he : HasDerivAt e e' x) (hv : Spec.VDeriv v v' x)
    (heq : ∀ᶠ t in 𝓝 x, (H t).mulVec (v t) = (e t : ℂ) • (S t).mulVec (v t))
    (hHh : (H x).IsHermitian) (hSh : (S x).IsHermitian)
    (bands : Fin n → ℝ) (ev : CMat n) (i : Fin n) (hcol : ∀ j, ev j i = v x j) (hband : bands i = e x)
    (hnorm : rot ev (S x) i i = 1) : geighGrad bands ev dH dS i = e' := by
  have hcore := hf_core H S dH dS e e' v v' x hH hS he hv heq
  have hx := heq.self_of_nhds
  have hcol' : (fun j => ev j i) = v x := funext hcol
  have h1 := congrArg (fun w => star (v x) ⬝ᵥ w) hcore
  simp only [dotProduct_add, dotProduct_smul, smul_eq_mul] at h1
  rw [star_mulVec_herm hHh, hx, star_smul, smul_dotProduct, ← star_mulVec_herm hSh] at h1
  rw [rot_apply, hcol'] at hnorm
  rw [hnorm] at h1
  simp only [Complex.star_def, Complex.conj_ofReal, smul_eq_mul] at h1
  have h2 : star (v x) ⬝ᵥ dH.mulVec (v x) = (e' : ℂ) + (e x : ℂ) * (star (v x) ⬝ᵥ dS.mulVec (v x)) := by
    linear_combination h1
  rw [geighGrad, rot_apply, rot_apply, hcol', hband, h2]
  simp
  ring

/-- C52.  The same along any direction `u` in k space for the matrices of a tight-binding model: the gradient vector
returned by `bands_grad`, contracted with `u`, is the directional derivative of the band. -/
theorem C52_bands_grad (t : Tb d n) (hH : Spec.Starts0 t.H) (hS : Spec.Starts0 t.S) (k u : RVec d)
    (Hk Sk : CMat n) (hk : Spec.At t k Hk Sk) (hHh : Hk.IsHermitian) (hSh : Sk.IsHermitian)
    (dH dS : Fin d → CMat n) (hdH : ∀ a, t.H.df k a = .ok (dH a)) (hdS : ∀ a, t.S.df k a = .ok (dS a))
    (e : ℝ → ℝ) (e' : ℝ) (v : ℝ → Fin n → ℂ) (v' : Fin n → ℂ) (he : HasDerivAt e e' 0) (hv : Spec.VDeriv v v' 0)
    (heq : ∀ᶠ s : ℝ in 𝓝 0, ∀ H S, Spec.At t (k + s • u) H S → H.mulVec (v s) = (e s : ℂ) • S.mulVec (v s))
    (bands : Fin n → ℝ) (ev : CMat n) (i : Fin n) (hcol : ∀ j, ev j i = v 0 j) (hband : bands i = e 0)
    (hnorm : rot ev Sk i i = 1) : ∑ a, u a * geighGrad bands ev (dH a) (dS a) i = e' := by
  obtain ⟨F, DF, -, hF, hDF, -, hFd, -⟩ := C22_derivatives t.H hH
  obtain ⟨G, DG, -, hG, hDG, -, hGd, -⟩ := C22_derivatives t.S hS
  have e1 : ∀ a, DF k a = dH a := fun a => Except.ok.inj ((hDF k a).symm.trans (hdH a))
  have e2 : ∀ a, DG k a = dS a := fun a => Except.ok.inj ((hDG k a).symm.trans (hdS a))
  have e3 : F k = Hk := Except.ok.inj ((hF k).symm.trans hk.1)
  have e4 : G k = Sk := Except.ok.inj ((hG k).symm.trans hk.2)
  have hmd : ∀ (D : Fin d → CMat n) (i j : Fin n), (∑ a, (u a : ℂ) • D a) i j = ∑ a, (u a : ℂ) * D a i j := by
    intro D i j; simp [Matrix.sum_apply]
  have h := C52_gradient (fun s => F (k + s • u)) (fun s => G (k + s • u)) (∑ a, (u a : ℂ) • dH a)
    (∑ a, (u a : ℂ) • dS a) e e' v v' 0
    (fun i j => by rw [hmd]; simp only [← e1]; exact hFd k u i j)
    (fun i j => by rw [hmd]; simp only [← e2]; exact hGd k u i j)
    he hv (heq.mono fun s hs => hs _ _ ⟨hF _, hG _⟩) (by simpa [e3] using hHh) (by simpa [e4] using hSh)
    bands ev i hcol hband (by simpa [e4] using hnorm)
  rw [← h, geighGrad]
  have hr : ∀ D : Fin d → CMat n, (rot ev (∑ a, (u a : ℂ) • D a) i i).re = ∑ a, u a * (rot ev (D a) i i).re := by
    intro D
    rw [rot, Finset.mul_sum, Finset.sum_mul, Matrix.sum_apply, Complex.re_sum]
    refine Finset.sum_congr rfl fun a _ => ?_
    rw [Matrix.mul_smul, Matrix.smul_mul, Matrix.smul_apply, smul_eq_mul, Complex.re_ofReal_mul]
    rfl
  rw [hr, hr, Finset.sum_mul, ← Finset.sum_sub_distrib]
  exact Finset.sum_congr rfl fun a _ => by rw [geighGrad]; ring

/-- C52.  Second derivative.  Let `H(t)` be hermitian matrices with first derivative `H1(t)` near `0` and second
derivative at `0`, given by `dH p` and `ddH p q` in the direction `u`; let `e(t)` be an eigenvalue with normalised,
differentiable eigenvector `v(t)`.  If at `t = 0` the spectrum is not degenerate at band `i` (all other eigenvalues at
distance at least `eps > 0`), the hessian computed by `eigh_grad_hess` contracted with `u` gives the second derivative
of the band. -/
theorem C52_hessian (H H1 : ℝ → CMat n) (dH : Fin m → CMat n) (ddH : Fin m → Fin m → CMat n) (u : Fin m → ℝ)
    (hHd : ∀ᶠ t in 𝓝 (0 : ℝ), Spec.MDeriv H (H1 t) t) (hH1 : H1 0 = ∑ p, (u p : ℂ) • dH p)
    (hH2 : Spec.MDeriv H1 (∑ p, ∑ q, ((u p * u q : ℝ) : ℂ) • ddH p q) 0)
    (hherm : ∀ᶠ t in 𝓝 (0 : ℝ), (H t).IsHermitian) (hherm1 : ∀ p, (dH p).IsHermitian)
    (e e1 : ℝ → ℝ) (v v1 : ℝ → Fin n → ℂ) (he : ∀ᶠ t in 𝓝 (0 : ℝ), HasDerivAt e (e1 t) t)
    (hv : ∀ᶠ t in 𝓝 (0 : ℝ), Spec.VDeriv v (v1 t) t) (hn : ∀ᶠ t in 𝓝 (0 : ℝ), star (v t) ⬝ᵥ v t = 1)
    (heq : ∀ᶠ t in 𝓝 (0 : ℝ), (H t).mulVec (v t) = (e t : ℂ) • v t)
    (bands : Fin n → ℝ) (ev : CMat n) (hev : evᴴ * ev = 1)
    (hdiag : rot ev (H 0) = diagonal fun k => (bands k : ℂ)) (i : Fin n) (hcol : ∀ j, ev j i = v 0 j)
    (eps : ℝ) (heps : 0 < eps) (hgap : ∀ k, k ≠ i → eps ≤ |bands k - bands i|) :
    HasDerivAt e1 (∑ p, ∑ q, u p * u q * eighHess eps bands ev (dH p) (dH q) (ddH p q) i) 0 := by
  have hcol' : (fun j => ev j i) = v 0 := funext hcol
  set D := H1 0 with hD
  set DD : CMat n := ∑ p, ∑ q, ((u p * u q : ℝ) : ℂ) • ddH p q with hDD
  have hDh : D.IsHermitian := by
    rw [hH1, IsHermitian, conjTranspose_sum]
    exact Finset.sum_congr rfl fun p _ => by rw [conjTranspose_smul, (hherm1 p).eq]; simp
  have hone : ∀ x, Spec.MDeriv (fun _ => (1 : CMat n)) 0 x := fun x i j => hasDerivAt_const _ _
  -- first derivative near zero
  have hfirst : ∀ᶠ t in 𝓝 (0 : ℝ), e1 t = (star (v t) ⬝ᵥ (H1 t).mulVec (v t)).re := by
    filter_upwards [hHd.eventually_nhds, he, hv, hn, heq.eventually_nhds, hherm] with t h1 h2 h3 h4 h5 h6
    have hcore := hf_core H (fun _ => 1) (H1 t) 0 e (e1 t) v (v1 t) t h1.self_of_nhds (hone t) h2 h3
      (h5.mono fun s hs => by rw [one_mulVec]; exact hs)
    have hx := congrArg (fun w => star (v t) ⬝ᵥ w) hcore
    simp only [dotProduct_add, dotProduct_smul, smul_eq_mul, one_mulVec, zero_mulVec, h4, zero_add] at hx
    rw [star_mulVec_herm h6, h5.self_of_nhds, star_smul, smul_dotProduct] at hx
    simp only [Complex.star_def, Complex.conj_ofReal, smul_eq_mul, mul_one] at hx
    have : star (v t) ⬝ᵥ (H1 t).mulVec (v t) = (e1 t : ℂ) := by linear_combination hx
    rw [this, Complex.ofReal_re]
  set w := v1 0 with hw
  have hv0 : Spec.VDeriv v w 0 := hv.self_of_nhds
  -- derivative of that expression
  have hderiv : HasDerivAt (fun t => (star (v t) ⬝ᵥ (H1 t).mulVec (v t)).re)
      (star w ⬝ᵥ D.mulVec (v 0) + star (v 0) ⬝ᵥ (DD.mulVec (v 0) + D.mulVec w)).re 0 := by
    have := VDeriv.star_dot hv0 (MDeriv.mulVec hH2 hv0)
    have h2 := Complex.reCLM.hasFDerivAt.comp_hasDerivAt (0 : ℝ) this
    exact h2
  refine (hderiv.congr_of_eventuallyEq hfirst).congr_deriv ?_
  -- algebra at zero
  have hbi : bands i = e 0 := by
    have h0 := congrFun (congrFun hdiag i) i
    rw [diagonal_apply_eq, rot_apply, hcol', heq.self_of_nhds, dotProduct_smul, hn.self_of_nhds] at h0
    simpa using h0.symm
  have hcore := hf_core H (fun _ => 1) D 0 e (e1 0) v w 0 hHd.self_of_nhds (hone 0) he.self_of_nhds hv0
    (heq.mono fun s hs => by rw [one_mulVec]; exact hs)
  simp only [one_mulVec, zero_mulVec, zero_add] at hcore
  set c : Fin n → ℂ := evᴴ.mulVec w with hc
  have hev' : ev * evᴴ = 1 := mul_eq_one_comm.1 hev
  have hwc : w = ev.mulVec c := by rw [hc, mulVec_mulVec, hev', one_mulVec]
  have hG : ∀ k, (evᴴ.mulVec (D.mulVec (v 0))) k = rot ev D k i := by
    intro k; rw [rot_apply, ← hcol']; rfl
  have hck : ∀ k, k ≠ i → c k = - (rot ev D k i / ((bands k - bands i : ℝ) : ℂ)) := by
    intro k hk
    have h1 := congrFun (congrArg evᴴ.mulVec hcore) k
    rw [mulVec_add, mulVec_add, mulVec_smul, mulVec_smul] at h1
    simp only [Pi.add_apply, Pi.smul_apply, smul_eq_mul] at h1
    rw [hG] at h1
    have h2 : (evᴴ.mulVec ((H 0).mulVec w)) k = (bands k : ℂ) * c k := by
      rw [hwc, mulVec_mulVec, mulVec_mulVec, ← rot, hdiag, mulVec_diagonal]
    have h3 : (evᴴ.mulVec (v 0)) k = 0 := by
      have := congrFun (congrFun hev k) i
      rw [one_apply_ne hk] at this
      rw [← hcol']; exact this
    rw [h2, h3, mul_zero, zero_add, ← hc, ← hbi] at h1
    have hne : ((bands k - bands i : ℝ) : ℂ) ≠ 0 := by
      have := hgap k hk
      have h4 : bands k - bands i ≠ 0 := fun h0 => by rw [h0, abs_zero] at this; linarith
      exact_mod_cast h4
    rw [eq_neg_iff_add_eq_zero, ← sub_neg_eq_add, sub_eq_zero, ← neg_div, eq_div_iff hne]
    push_cast
    linear_combination h1
  have hci : (c i).re = 0 := by
    have h1 : HasDerivAt (fun t => star (v t) ⬝ᵥ v t) (star w ⬝ᵥ v 0 + star (v 0) ⬝ᵥ w) 0 :=
      VDeriv.star_dot hv0 hv0
    have h2 : star w ⬝ᵥ v 0 + star (v 0) ⬝ᵥ w = 0 :=
      h1.unique ((hasDerivAt_const (0 : ℝ) (1 : ℂ)).congr_of_eventuallyEq hn)
    have h3 : star (v 0) ⬝ᵥ w = c i := by rw [hc, ← hcol']; rfl
    have h4 : star w ⬝ᵥ v 0 = star (c i) := by
      rw [← h3]
      simp only [dotProduct, star_sum, star_mul', Pi.star_apply, star_star]
      exact Finset.sum_congr rfl fun j _ => mul_comm _ _
    rw [h3, h4] at h2
    have := congrArg Complex.re h2
    simp at this
    linarith
  have hGii : (rot ev D i i).im = 0 := by
    have : (rot ev D).IsHermitian := isHermitian_conjTranspose_mul_mul ev hDh
    have h2 := congrFun (congrFun this i) i
    rw [conjTranspose_apply] at h2
    exact Complex.conj_eq_iff_im.1 h2
  have hvDw : star (v 0) ⬝ᵥ D.mulVec w = ∑ k, rot ev D i k * c k := by
    rw [hwc, ← hcol']
    show _ = (rot ev D).mulVec c i
    rw [rot, ← mulVec_mulVec, ← mulVec_mulVec]
    rfl
  have hwDv : (star w ⬝ᵥ D.mulVec (v 0)).re = (star (v 0) ⬝ᵥ D.mulVec w).re := by
    rw [star_mulVec_herm hDh]
    have : star (D.mulVec w) ⬝ᵥ v 0 = star (star (v 0) ⬝ᵥ D.mulVec w) := by
      simp only [dotProduct, star_sum, star_mul', Pi.star_apply, star_star]
      exact Finset.sum_congr rfl fun j _ => mul_comm _ _
    rw [this]; simp
  have hterm : ∀ k, (rot ev D i k * c k).re =
      - (rot ev D i k * (if |bands k - bands i| < eps then 0 else rot ev D k i / ((bands k - bands i : ℝ) : ℂ))).re := by
    intro k
    by_cases hk : k = i
    · subst hk
      rw [sub_self, abs_zero, if_pos heps, mul_zero, Complex.mul_re, hci, hGii]; simp
    · rw [if_neg (not_lt.2 (hgap k hk)), hck k hk, mul_neg, Complex.neg_re]
  have hfinal : (star w ⬝ᵥ D.mulVec (v 0) + star (v 0) ⬝ᵥ (DD.mulVec (v 0) + D.mulVec w)).re =
      eighHess eps bands ev D D DD i := by
    rw [Complex.add_re, dotProduct_add, Complex.add_re, hwDv, hvDw, eighHess, rot_apply ev DD, hcol', Complex.re_sum,
      Complex.re_sum]
    simp only [hterm, Finset.sum_neg_distrib]
    ring
  rw [hfinal, eighHess]
  have hrot : ∀ a b, rot ev D a b = ∑ p, (u p : ℂ) * rot ev (dH p) a b := by
    intro a b
    rw [hH1, rot, Finset.mul_sum, Finset.sum_mul, Matrix.sum_apply]
    refine Finset.sum_congr rfl fun p _ => ?_
    rw [Matrix.mul_smul, Matrix.smul_mul, Matrix.smul_apply, smul_eq_mul]; rfl
  have hrot2 : (rot ev DD i i).re = ∑ p, ∑ q, u p * u q * (rot ev (ddH p q) i i).re := by
    rw [hDD, rot, Finset.mul_sum, Finset.sum_mul, Matrix.sum_apply, Complex.re_sum]
    refine Finset.sum_congr rfl fun p _ => ?_
    rw [Finset.mul_sum, Finset.sum_mul, Matrix.sum_apply, Complex.re_sum]
    refine Finset.sum_congr rfl fun q _ => ?_
    rw [Matrix.mul_smul, Matrix.smul_mul, Matrix.smul_apply, smul_eq_mul, Complex.re_ofReal_mul]; rfl
  have hquad : (∑ k, rot ev D i k * (if |bands k - bands i| < eps then 0
      else rot ev D k i / ((bands k - bands i : ℝ) : ℂ))).re =
      ∑ p, ∑ q, u p * u q * (∑ k, rot ev (dH p) i k * (if |bands k - bands i| < eps then 0
        else rot ev (dH q) k i / ((bands k - bands i : ℝ) : ℂ))).re := by
    have h1 : ∀ k, rot ev D i k * (if |bands k - bands i| < eps then 0
        else rot ev D k i / ((bands k - bands i : ℝ) : ℂ)) =
        ∑ p, ∑ q, ((u p * u q : ℝ) : ℂ) * (rot ev (dH p) i k * (if |bands k - bands i| < eps then 0
        else rot ev (dH q) k i / ((bands k - bands i : ℝ) : ℂ))) := by
      intro k
      by_cases hk : |bands k - bands i| < eps
      · simp [hk]
      · simp only [if_neg hk]
        rw [hrot i k, hrot k i, Finset.sum_div, Finset.sum_mul_sum]
        refine Finset.sum_congr rfl fun p _ => Finset.sum_congr rfl fun q _ => ?_
        push_cast; ring
    simp only [h1]
    rw [Finset.sum_comm, Complex.re_sum]
    refine Finset.sum_congr rfl fun p _ => ?_
    rw [Finset.sum_comm, Complex.re_sum]
    refine Finset.sum_congr rfl fun q _ => ?_
    rw [← Finset.mul_sum, Complex.re_ofReal_mul]
  rw [hrot2, hquad, Finset.mul_sum, ← Finset.sum_sub_distrib]
  refine Finset.sum_congr rfl fun p _ => ?_
  rw [Finset.mul_sum, ← Finset.sum_sub_distrib]
  refine Finset.sum_congr rfl fun q _ => ?_
  rw [eighHess]; ring


/-- The gradient that `AsymTightBindingModel.bands_grad_hess` returns ignores the derivative of the overlap (the code has a
TODO): for `H = 1`, `S(k) = 1 + cos(2πk)/2` the band is `1/S(k)`; at `k = 1/4` its derivative is `π`, `bands_grad`
returns that, and `bands_grad_hess` returns `0`, for every eigenvector matrix. -/
theorem C52_hess_ignores_overlap : ∃ (t : Tb 1 1) (k : RVec 1) (dH dS : CMat 1) (e : ℝ → ℝ),
    Spec.Starts0 t.H ∧ Spec.Starts0 t.S ∧ t.H.df k 0 = .ok dH ∧ t.S.df k 0 = .ok dS ∧
    (∀ s : ℝ, ∃ H S, Spec.At t (k + s • 1) H S ∧ H.mulVec 1 = (e s : ℂ) • S.mulVec 1) ∧
    HasDerivAt e Real.pi 0 ∧ geighGrad (fun _ => e 0) 1 dH dS 0 = Real.pi ∧ ∀ ev, asymHessGrad ev dH 0 = 0 := by
  have hone : ∀ k : RVec 1, k ⬝ᵥ ![1] = k 0 := fun k => by simp [dotProduct]
  have hent : ∀ c : RVec 1 → ℂ, (([(![1], !![1 / 4])] : List (RVec 1 × CMat 1)).map fun t =>
      c t.1 • t.2 + (c t.1 • t.2)ᴴ).sum 0 0 = c ![1] * (1 / 4) + (starRingEnd ℂ) (c ![1]) * (1 / 4) := by
    intro c; simp
  have hS : ∀ k : RVec 1, (⟨[(0, 1), (![1], !![1 / 4])]⟩ : Series 1 1).f k =
      .ok !![((1 + Real.cos (2 * Real.pi * k 0) / 2 : ℝ) : ℂ)] := by
    intro k
    have h1 : fi k ![1] = Complex.exp ((2 * Real.pi * k 0 : ℝ) * Complex.I) := by
      rw [fi, hone]; congr 1; push_cast; ring
    have h2 : (starRingEnd ℂ) (fi k ![1]) = Complex.exp (-(2 * Real.pi * k 0 : ℝ) * Complex.I) := by
      rw [h1, ← Complex.exp_conj, map_mul, Complex.conj_ofReal, Complex.conj_I]; congr 1; ring
    rw [f_eq]; congr 1; ext i j; fin_cases i; fin_cases j
    have := hent (fi k)
    rw [h2, h1] at this
    refine (congrArg (fun z => (1 : CMat 1) 0 0 + z) this).trans ?_
    simp [Complex.cos]
    ring
  have hdS : (⟨[(0, 1), (![1], !![1 / 4])]⟩ : Series 1 1).df (fun _ => 1 / 4) 0 = .ok !![-(Real.pi : ℂ)] := by
    have h1 : dfi (fun _ : Fin 1 => (1 / 4 : ℝ)) ![1] 0 = -(2 * Real.pi) := by
      have : Complex.exp (2 * Real.pi * Complex.I * ((1 / 4 : ℝ) : ℂ)) = Complex.I := by
        rw [show (2 * Real.pi * Complex.I * ((1 / 4 : ℝ) : ℂ)) = Real.pi / 2 * Complex.I by push_cast; ring,
          Complex.exp_pi_div_two_mul_I]
      rw [dfi, hone, this]
      have := Complex.I_mul_I
      simp only [cons_val_zero, Complex.ofReal_one, mul_one]
      linear_combination (2 * Real.pi : ℂ) * this
    rw [df_eq]; congr 1; ext i j; fin_cases i; fin_cases j
    have := hent fun r => dfi (fun _ : Fin 1 => (1 / 4 : ℝ)) r 0
    rw [h1] at this
    refine this.trans ?_
    have h2 : (starRingEnd ℂ) 2 = 2 := map_ofNat _ 2
    simp [h2]
    ring
  refine ⟨⟨⟨[(0, 1)]⟩, ⟨[(0, 1), (![1], !![1 / 4])]⟩⟩, fun _ => 1 / 4, 0, !![-(Real.pi : ℂ)],
    fun s => (1 + Real.cos (2 * Real.pi * (1 / 4 + s)) / 2)⁻¹, ⟨1, _, rfl⟩, ⟨1, _, rfl⟩, ?_, hdS, ?_, ?_, ?_, ?_⟩
  · rw [df_eq]; simp
  · intro s
    refine ⟨1, _, ⟨by rw [f_eq]; simp [Spec.value], hS _⟩, ?_⟩
    have hpos : (1 + Real.cos (2 * Real.pi * (1 / 4 + s)) / 2) ≠ 0 := by
      have := Real.neg_one_le_cos (2 * Real.pi * (1 / 4 + s))
      intro h; linarith
    ext i; fin_cases i
    simp only [one_mulVec]
    have hpos' : ((1 + Real.cos (2 * Real.pi * (1 / 4 + s)) / 2 : ℝ) : ℂ) ≠ 0 := by exact_mod_cast hpos
    rw [Complex.ofReal_inv]
    show (1 : ℂ) = (((1 + Real.cos (2 * Real.pi * (1 / 4 + s)) / 2 : ℝ) : ℂ))⁻¹ *
      (∑ j : Fin 1, !![((1 + Real.cos (2 * Real.pi * (1 / 4 + s * 1)) / 2 : ℝ) : ℂ)] 0 j * 1)
    rw [mul_one s]
    simp only [Fin.sum_univ_one, mul_one]
    exact (inv_mul_cancel₀ hpos').symm
  · have hc : Real.cos (2 * Real.pi * (1 / 4 + 0)) = 0 := by
      rw [show 2 * Real.pi * (1 / 4 + 0) = Real.pi / 2 by ring, Real.cos_pi_div_two]
    have hs : Real.sin (2 * Real.pi * (1 / 4 + 0)) = 1 := by
      rw [show 2 * Real.pi * (1 / 4 + 0) = Real.pi / 2 by ring, Real.sin_pi_div_two]
    have h1 : HasDerivAt (fun s : ℝ => 1 + Real.cos (2 * Real.pi * (1 / 4 + s)) / 2)
        (-Real.sin (2 * Real.pi * (1 / 4 + 0)) * (2 * Real.pi * 1) / 2) 0 :=
      (((((hasDerivAt_id (0:ℝ)).const_add (1 / 4)).const_mul (2 * Real.pi)).cos).div_const 2).const_add 1
    have h2 := h1.inv (by rw [hc]; norm_num)
    refine h2.congr_deriv ?_
    rw [hc, hs]; ring
  · have hc : Real.cos (2 * Real.pi * (1 / 4 + 0)) = 0 := by
      rw [show 2 * Real.pi * (1 / 4 + 0) = Real.pi / 2 by ring, Real.cos_pi_div_two]
    simp only [geighGrad, rot, hc]; simp
  · intro ev; simp [asymHessGrad, rot]


/-- The hypotheses of `C52_gradient` and `C52_hessian` hold for `H(t) = v(t) v(t)†` with the rotating eigenvector
`v(t) = (cos t, sin t)`: the band is constant, `H'` mixes the bands and `v† H'' v = -2`, so the second order term of
the hessian matters. -/
noncomputable def exH (t : ℝ) : CMat 2 :=
  !![(Real.cos t : ℂ) * Real.cos t, (Real.cos t : ℂ) * Real.sin t; (Real.sin t : ℂ) * Real.cos t, (Real.sin t : ℂ) * Real.sin t]

example : HasDerivAt (fun _ : ℝ => (0 : ℝ)) (∑ _p : Fin 1, ∑ _q : Fin 1, (1 : ℝ) * 1 *
      eighHess 1 ![1, 0] 1 !![0, 1; 1, 0] !![0, 1; 1, 0] !![-2, 0; 0, 2] 0) 0 ∧
    eighHess 1 ![1, 0] 1 !![0, 1; 1, 0] !![0, 1; 1, 0] !![-2, 0; 0, 2] 0 = 0 ∧
    geighGrad ![1, 0] 1 !![0, 1; 1, 0] 0 0 = 0 := by
  have hc : ∀ t : ℝ, HasDerivAt (fun s : ℝ => (Real.cos s : ℂ)) ((-Real.sin t : ℝ) : ℂ) t := fun t =>
    (Real.hasDerivAt_cos t).ofReal_comp
  have hs : ∀ t : ℝ, HasDerivAt (fun s : ℝ => (Real.sin s : ℂ)) ((Real.cos t : ℝ) : ℂ) t := fun t =>
    (Real.hasDerivAt_sin t).ofReal_comp
  let H1 : ℝ → CMat 2 := fun t => !![-2 * ((Real.cos t : ℂ) * Real.sin t), (Real.cos t : ℂ) * Real.cos t - Real.sin t * Real.sin t;
    (Real.cos t : ℂ) * Real.cos t - Real.sin t * Real.sin t, 2 * ((Real.cos t : ℂ) * Real.sin t)]
  have hH : ∀ t, Spec.MDeriv exH (H1 t) t := by
    intro t i j
    fin_cases i <;> fin_cases j
    · exact ((hc t).mul (hc t)).congr_deriv (by simp [H1]; ring)
    · exact ((hc t).mul (hs t)).congr_deriv (by simp [H1]; ring)
    · exact ((hs t).mul (hc t)).congr_deriv (by simp [H1]; ring)
    · exact ((hs t).mul (hs t)).congr_deriv (by simp [H1]; ring)
  have hH1 : Spec.MDeriv H1 !![-2, 0; 0, 2] 0 := by
    intro i j
    fin_cases i <;> fin_cases j
    · exact (((hc 0).mul (hs 0)).const_mul (-2)).congr_deriv (by simp)
    · exact (((hc 0).mul (hc 0)).sub ((hs 0).mul (hs 0))).congr_deriv (by simp)
    · exact (((hc 0).mul (hc 0)).sub ((hs 0).mul (hs 0))).congr_deriv (by simp)
    · exact (((hc 0).mul (hs 0)).const_mul 2).congr_deriv (by simp)
  have hpyth : ∀ t : ℝ, (Real.cos t : ℂ) * Real.cos t + Real.sin t * Real.sin t = 1 := by
    intro t
    have := Real.cos_sq_add_sin_sq t
    have h2 : ((Real.cos t ^ 2 + Real.sin t ^ 2 : ℝ) : ℂ) = 1 := by rw [this]; simp
    rw [← h2]; push_cast; ring
  have hv : ∀ t : ℝ, Spec.VDeriv (fun s : ℝ => ![(Real.cos s : ℂ), Real.sin s]) ![((-Real.sin t : ℝ) : ℂ), Real.cos t] t := by
    intro t i
    fin_cases i
    · exact hc t
    · exact hs t
  have hgap : ∀ k : Fin 2, k ≠ 0 → (1 : ℝ) ≤ |![(1 : ℝ), 0] k - ![(1 : ℝ), 0] 0| := by
    intro k hk; fin_cases k
    · exact absurd rfl hk
    · simp
  have hdiag : rot 1 (exH 0) = diagonal fun k => ((![(1 : ℝ), 0] k : ℝ) : ℂ) := by
    ext i j; fin_cases i <;> fin_cases j <;> simp [rot, exH]
  have heq : ∀ t : ℝ, (exH t).mulVec ![(Real.cos t : ℂ), Real.sin t] = ((1 : ℝ) : ℂ) • ![(Real.cos t : ℂ), Real.sin t] := by
    intro t
    ext i; fin_cases i
    · simp only [exH, mulVec, dotProduct, Fin.sum_univ_two]
      simp [-Complex.ofReal_cos, -Complex.ofReal_sin]
      linear_combination (Real.cos t : ℂ) * (hpyth t)
    · simp only [exH, mulVec, dotProduct, Fin.sum_univ_two]
      simp [-Complex.ofReal_cos, -Complex.ofReal_sin]
      linear_combination (Real.sin t : ℂ) * (hpyth t)
  have hhess := C52_hessian (m := 1) exH H1 (fun _ => !![0, 1; 1, 0]) (fun _ _ => !![-2, 0; 0, 2]) 1
    (Eventually.of_forall hH) (by ext i j; fin_cases i <;> fin_cases j <;> simp [H1])
    (by simpa using hH1)
    (Eventually.of_forall fun t => by
      ext i j; fin_cases i <;> fin_cases j <;> simp [exH, -Complex.ofReal_cos, -Complex.ofReal_sin, mul_comm])
    (fun _ => by ext i j; fin_cases i <;> fin_cases j <;> simp)
    (fun _ => 1) (fun _ => 0) (fun s : ℝ => ![(Real.cos s : ℂ), Real.sin s]) _
    (Eventually.of_forall fun t => hasDerivAt_const _ _) (Eventually.of_forall hv)
    (Eventually.of_forall fun t => by
      simp only [dotProduct, Fin.sum_univ_two]
      simpa [-Complex.ofReal_cos, -Complex.ofReal_sin] using hpyth t)
    (Eventually.of_forall heq) ![1, 0] 1 (by simp) hdiag 0
    (by intro j; fin_cases j <;> simp [Matrix.one_apply]) 1 one_pos hgap
  refine ⟨hhess, ?_, ?_⟩
  · have := (hhess.unique (hasDerivAt_const _ _))
    simpa using this
  · exact C52_gradient exH (fun _ => 1) !![0, 1; 1, 0] 0 (fun _ => 1) 0 (fun s : ℝ => ![(Real.cos s : ℂ), Real.sin s]) _ 0
      (by have := hH 0
          have h2 : H1 0 = !![0, 1; 1, 0] := by ext i j; fin_cases i <;> fin_cases j <;> simp [H1]
          rwa [h2] at this)
      (fun i j => hasDerivAt_const _ _) (hasDerivAt_const _ _) (hv 0)
      (Eventually.of_forall fun t => by rw [one_mulVec]; exact heq t)
      (by ext i j; fin_cases i <;> fin_cases j <;> simp [exH]) isHermitian_one ![1, 0] 1 0
      (by intro j; fin_cases j <;> simp [Matrix.one_apply]) rfl (by simp [rot])

end TB

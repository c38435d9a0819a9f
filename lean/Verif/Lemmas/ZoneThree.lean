import Verif.Lemmas.Zone
import Verif.Model.Lattice
import Verif.Model.KPoints
import Mathlib.LinearAlgebra.Matrix.DotProduct
import Mathlib.Topology.Instances.Real.Lemmas
import Mathlib.Topology.MetricSpace.ProperSpace.Real
import Mathlib.Topology.Order.Compact
import Mathlib.Topology.Algebra.Ring.Real

/-!
# Lemmas on three-dimensional Brillouin zones and on `_hsp`
-/

namespace TB.Zone
open Matrix Lat

theorem comb_cols (b0 b1 b2 : Fin 3 → ℝ) (n : Fin 3 → ℤ) :
    comb (cols b0 b1 b2) n = (n 0 : ℝ) • b0 + (n 1 : ℝ) • b1 + (n 2 : ℝ) • b2 := by
  funext i
  simp only [comb, mulVec, dotProduct, Fin.sum_univ_three, cols, transpose_apply, of_apply, Pi.add_apply, Pi.smul_apply, smul_eq_mul]
  simp [mul_comm]

/-- `b` is the reciprocal basis of `A`, and `v` is a basis of the same lattice which is obtuse together with minus its sum. -/
structure Sell (A : Matrix (Fin 3) (Fin 3) ℝ) (b0 b1 b2 v0 v1 v2 : Fin 3 → ℝ) : Prop where
  dual : Aᵀ * cols b0 b1 b2 = 1
  int : ∀ n0 n1 n2 : ℤ, ∃ m0 m1 m2 : ℤ, (n0 : ℝ) • b0 + (n1 : ℝ) • b1 + (n2 : ℝ) • b2 = (m0 : ℝ) • v0 + (m1 : ℝ) • v1 + (m2 : ℝ) • v2
  h01 : v0 ⬝ᵥ v1 ≤ 0
  h02 : v0 ⬝ᵥ v2 ≤ 0
  h12 : v1 ⬝ᵥ v2 ≤ 0
  h03 : 0 ≤ v0 ⬝ᵥ (v0 + v1 + v2)
  h13 : 0 ≤ v1 ⬝ᵥ (v0 + v1 + v2)
  h23 : 0 ≤ v2 ⬝ᵥ (v0 + v1 + v2)

/-- The seven pairs of inequalities. -/
def Seven (v0 v1 v2 k : Fin 3 → ℝ) : Prop :=
  |2 * (k ⬝ᵥ v0)| ≤ v0 ⬝ᵥ v0 ∧ |2 * (k ⬝ᵥ v1)| ≤ v1 ⬝ᵥ v1 ∧ |2 * (k ⬝ᵥ v2)| ≤ v2 ⬝ᵥ v2 ∧
  |2 * (k ⬝ᵥ (v0 + v1))| ≤ (v0 + v1) ⬝ᵥ (v0 + v1) ∧ |2 * (k ⬝ᵥ (v0 + v2))| ≤ (v0 + v2) ⬝ᵥ (v0 + v2) ∧
  |2 * (k ⬝ᵥ (v1 + v2))| ≤ (v1 + v2) ⬝ᵥ (v1 + v2) ∧ |2 * (k ⬝ᵥ (v0 + v1 + v2))| ≤ (v0 + v1 + v2) ⬝ᵥ (v0 + v1 + v2)

theorem Sell.special {A : Matrix (Fin 3) (Fin 3) ℝ} {b0 b1 b2 v0 v1 v2 : Fin 3 → ℝ} (S : Sell A b0 b1 b2 v0 v1 v2) {k : Fin 3 → ℝ}
    {ns : List (Fin 3 → ℤ)} (h7 : Seven v0 v1 v2 k)
    (hp : ∀ n ∈ ns, 2 * (k ⬝ᵥ comb (cols b0 b1 b2) n) = comb (cols b0 b1 b2) n ⬝ᵥ comb (cols b0 b1 b2) n)
    (l : List ℝ) (hl : k = (List.zipWith (fun (x : ℝ) n => x • comb (cols b0 b1 b2) n) l ns).sum) : Special A k ns := by
  refine special_of S.dual (fun n => ?_) hp l hl
  rw [comb_cols]
  obtain ⟨m0, m1, m2, e⟩ := S.int (n 0) (n 1) (n 2)
  rw [e]
  obtain ⟨k0, k1, k2, k01, k02, k12, k3⟩ := h7
  exact selling S.h01 S.h02 S.h12 S.h03 S.h13 S.h23 k0 k1 k2 k01 k02 k12 k3 m0 m1 m2

/-- The lattice with the axes exchanged by `σ`. -/
theorem special_perm {A : Matrix (Fin 3) (Fin 3) ℝ} {k : Fin 3 → ℝ} {ns : List (Fin 3 → ℤ)} (hs : Special A k ns) (σ : Fin 3 → Fin 3) (hσ : σ.Involutive) :
    Special (A.submatrix σ id) (k ∘ σ) ns := by
  have hσ' := hσ.bijective
  have dd : ∀ v w : Fin 3 → ℝ, (v ∘ σ) ⬝ᵥ (w ∘ σ) = v ⬝ᵥ w := by
    intro v w
    exact Equiv.sum_comp (hσ.toPerm σ) fun i => v i * w i
  have m1 : ∀ n G, Miller A n G → Miller (A.submatrix σ id) n (G ∘ σ) := by
    intro n G h j
    rw [← h j]
    exact dd G fun i => A i j
  have m2 : ∀ n G, Miller (A.submatrix σ id) n G → Miller A n (G ∘ σ) := by
    intro n G h j
    rw [← h j, ← dd]
    congr 1
    funext i; simp [hσ i]
  have ss : ∀ v : Fin 3 → ℝ, (v ∘ σ) ∘ σ = v := by intro v; funext i; simp [hσ i]
  have o1 : ∀ k n, On A k n → On (A.submatrix σ id) (k ∘ σ) n := by
    rintro k n ⟨G, hG, hk⟩
    refine ⟨G ∘ σ, m1 n G hG, ?_⟩
    rw [dd, hk]; exact (dd (k - G) (k - G)).symm
  have o2 : ∀ k n, On (A.submatrix σ id) k n → On A (k ∘ σ) n := by
    rintro k n ⟨G, hG, hk⟩
    refine ⟨G ∘ σ, m2 n G hG, ?_⟩
    rw [dd, hk]; exact (dd (k - G) (k - G)).symm
  obtain ⟨hz, hp, hm⟩ := hs
  refine ⟨?_, fun n hn => o1 k n (hp n hn), fun k' hk' => ?_⟩
  · rintro G ⟨n, hG⟩
    have := hz _ ⟨n, m2 n G hG⟩
    rw [dd, ← ss G]
    exact this.trans_eq (dd (k - G ∘ σ) (k - G ∘ σ)).symm
  · rw [dd, ← dd k' k']
    exact hm _ fun n hn => o2 _ n (hk' n hn)

/-! ## The least squares routine -/

theorem solves_iff {rows : List (Fin 3 → ℝ)} {x y : Fin 3 → ℝ} (h : Solves rows (rows.map (· ⬝ᵥ x)) y) : ∀ a ∈ rows, a ⬝ᵥ y = a ⬝ᵥ x :=
  List.map_inj_left.1 h

theorem exists_minNorm (rows : List (Fin 3 → ℝ)) (b : List ℝ) :
    ∃ y, ∀ x, Solves rows b x → Solves rows b y ∧ y ⬝ᵥ y ≤ x ⬝ᵥ x := by
  by_cases hx : ∃ x, Solves rows b x
  · obtain ⟨x0, h0⟩ := hx
    have cont : Continuous fun x : Fin 3 → ℝ => x ⬝ᵥ x := by
      simp only [vec3_dotProduct]
      fun_prop
    have hb : b = rows.map (· ⬝ᵥ x0) := h0.symm
    let K : Set (Fin 3 → ℝ) := {x | (∀ a ∈ rows, a ⬝ᵥ x = a ⬝ᵥ x0) ∧ x ⬝ᵥ x ≤ x0 ⬝ᵥ x0}
    have hcl : IsClosed K := by
      have e : K = (⋂ a ∈ rows, {x | a ⬝ᵥ x = a ⬝ᵥ x0}) ∩ {x | x ⬝ᵥ x ≤ x0 ⬝ᵥ x0} := by
        ext x; simp [K]
      rw [e]
      have hc : ∀ a : Fin 3 → ℝ, Continuous fun x : Fin 3 → ℝ => a ⬝ᵥ x := by
        intro a
        simp only [vec3_dotProduct]
        fun_prop
      refine IsClosed.inter ?_ (isClosed_le cont continuous_const)
      exact isClosed_biInter fun a _ => isClosed_eq (hc a) continuous_const
    have hbd : Bornology.IsBounded K := by
      refine (Metric.isBounded_closedBall (x := (0 : Fin 3 → ℝ)) (r := x0 ⬝ᵥ x0 + 1)).subset fun x hx => ?_
      rw [mem_closedBall_zero_iff, pi_norm_le_iff_of_nonneg (by linarith [dot_self_nonneg x0])]
      intro i
      rw [Real.norm_eq_abs]
      have h1 : x i * x i ≤ x ⬝ᵥ x := Finset.single_le_sum (f := fun i => x i * x i) (fun _ _ => mul_self_nonneg _) (Finset.mem_univ i)
      have h2 := hx.2
      have h3 := abs_mul_abs_self (x i)
      nlinarith [sq_nonneg (|x i| - 1), abs_nonneg (x i)]
    have hK : IsCompact K := Metric.isCompact_of_isClosed_isBounded hcl hbd
    obtain ⟨y, hy, hmin⟩ := hK.exists_isMinOn ⟨x0, fun _ _ => rfl, le_rfl⟩ cont.continuousOn
    refine ⟨y, fun x hx => ?_⟩
    refine ⟨?_, ?_⟩
    · rw [hb]; exact List.map_inj_left.2 hy.1
    · by_cases hle : x ⬝ᵥ x ≤ x0 ⬝ᵥ x0
      · rw [hb] at hx
        exact hmin ⟨List.map_inj_left.1 hx, hle⟩
      · exact hy.2.trans (le_of_lt (not_le.1 hle))
  · exact ⟨0, fun x h => (hx ⟨x, h⟩).elim⟩

/-- The requirement can be met. -/
theorem minNorm_satisfiable : ∃ lstsq, MinNorm lstsq := by
  choose f hf using exists_minNorm
  exact ⟨f, hf⟩

/-- The points of `_hsp` for half reciprocal lattice vectors. -/
theorem hsp_eq {lstsq} (hl : MinNorm lstsq) {B : Matrix (Fin 3) (Fin 3) ℝ} {k : Fin 3 → ℝ} {ns : List (Fin 3 → ℤ)}
    (hp : ∀ n ∈ ns, 2 * (k ⬝ᵥ comb B n) = comb B n ⬝ᵥ comb B n) (l : List ℝ)
    (hk : k = (List.zipWith (fun (x : ℝ) n => x • comb B n) l ns).sum) {rows : List (Fin 3 → ℝ)} (hr : rows = ns.map fun n => (1 / 2 : ℝ) • comb B n) :
    KPts.hsp lstsq rows = k := by
  have hb : (rows.map fun a => a ⬝ᵥ a) = rows.map (· ⬝ᵥ k) := by
    rw [hr, List.map_map, List.map_map]
    refine List.map_inj_left.2 fun n hn => ?_
    simp only [Function.comp, smul_dotProduct, dotProduct_smul, smul_eq_mul]
    rw [← hp n hn, dotProduct_comm k]; ring
  have hk' : Solves rows (rows.map fun a => a ⬝ᵥ a) k := by rw [hb]; rfl
  obtain ⟨h1, h2⟩ := hl rows _ k hk'
  set y := lstsq rows (rows.map fun a => a ⬝ᵥ a) with hy
  have h3 : ∀ a ∈ rows, a ⬝ᵥ y = a ⬝ᵥ k := by rw [hb] at h1; exact solves_iff h1
  have key : ∀ (l : List ℝ) (ns : List (Fin 3 → ℤ)), (∀ n ∈ ns, (y - k) ⬝ᵥ comb B n = 0) →
      (y - k) ⬝ᵥ (List.zipWith (fun (x : ℝ) n => x • comb B n) l ns).sum = 0 := by
    intro l
    induction l with
    | nil => intro ns _; simp
    | cons x l ih =>
      intro ns hn
      cases ns with
      | nil => simp
      | cons n ns =>
        rw [List.zipWith_cons_cons, List.sum_cons, dotProduct_add, dotProduct_smul, hn n (by simp), ih ns fun m hm => hn m (by simp [hm])]
        simp
  have h4 : (y - k) ⬝ᵥ k = 0 := by
    have := key l ns fun n hn => by
      have := h3 ((1 / 2 : ℝ) • comb B n) (by rw [hr]; exact List.mem_map_of_mem hn)
      simp only [smul_dotProduct, smul_eq_mul] at this
      rw [sub_dotProduct, dotProduct_comm y, dotProduct_comm k]; linarith
    rwa [← hk] at this
  have h5 : (y - k) ⬝ᵥ (y - k) ≤ 0 := by
    rw [sub_dotProduct] at h4
    rw [sub_dotProduct, dotProduct_sub, dotProduct_sub, dotProduct_comm k y]
    linarith
  have h6 : y - k = 0 := by
    rw [← dotProduct_self_eq_zero]
    exact le_antisymm h5 (dot_self_nonneg _)
  exact sub_eq_zero.1 h6

/-- A point of `_hsp` is special as soon as the point described by `k` is. -/
theorem Sell.hsp {lstsq} (hl : MinNorm lstsq) {A : Matrix (Fin 3) (Fin 3) ℝ} {b0 b1 b2 v0 v1 v2 : Fin 3 → ℝ} (S : Sell A b0 b1 b2 v0 v1 v2)
    (k : Fin 3 → ℝ) {ns : List (Fin 3 → ℤ)} (h7 : Seven v0 v1 v2 k)
    (hp : ∀ n ∈ ns, 2 * (k ⬝ᵥ comb (cols b0 b1 b2) n) = comb (cols b0 b1 b2) n ⬝ᵥ comb (cols b0 b1 b2) n)
    (l : List ℝ) (hk : k = (List.zipWith (fun (x : ℝ) n => x • comb (cols b0 b1 b2) n) l ns).sum) {rows : List (Fin 3 → ℝ)}
    (hr : rows = ns.map fun n => (1 / 2 : ℝ) • comb (cols b0 b1 b2) n) : Special A (KPts.hsp lstsq rows) ns := by
  rw [hsp_eq hl hp l hk hr]
  exact S.special h7 hp l hk

end TB.Zone

import Verif.Spec.Zone
import Mathlib.LinearAlgebra.Matrix.NonsingularInverse
import Mathlib.LinearAlgebra.Matrix.Notation
import Mathlib.Algebra.BigOperators.Fin
import Mathlib.Algebra.Order.BigOperators.Group.Finset
import Mathlib.Data.Fintype.BigOperators
import Mathlib.Tactic.Linarith
import Mathlib.Tactic.Ring
import Mathlib.Tactic.LinearCombination
import Mathlib.Tactic.NormNum
import Mathlib.Tactic.FinCases

/-!
# Lemmas on Brillouin zones

In a basis whose vectors, together with minus their sum, have no positive mutual scalar products, a zone is cut out by seven pairs of planes (Selling).
-/

namespace TB.Zone
open Matrix

variable {d : ℕ} {A B : Matrix (Fin d) (Fin d) ℝ}

theorem dist_iff (k G : Fin d → ℝ) : k ⬝ᵥ k ≤ (k - G) ⬝ᵥ (k - G) ↔ 2 * (k ⬝ᵥ G) ≤ G ⬝ᵥ G := by
  have : (k - G) ⬝ᵥ (k - G) = k ⬝ᵥ k - 2 * (k ⬝ᵥ G) + G ⬝ᵥ G := by
    rw [sub_dotProduct, dotProduct_sub, dotProduct_sub, dotProduct_comm G k]; ring
  rw [this]; constructor <;> intro h <;> linarith

theorem dist_eq_iff (k G : Fin d → ℝ) : k ⬝ᵥ k = (k - G) ⬝ᵥ (k - G) ↔ 2 * (k ⬝ᵥ G) = G ⬝ᵥ G := by
  have : (k - G) ⬝ᵥ (k - G) = k ⬝ᵥ k - 2 * (k ⬝ᵥ G) + G ⬝ᵥ G := by
    rw [sub_dotProduct, dotProduct_sub, dotProduct_sub, dotProduct_comm G k]; ring
  rw [this]; constructor <;> intro h <;> linarith

/-- The vector with the indices `n`, for the dual basis `B`. -/
def comb (B : Matrix (Fin d) (Fin d) ℝ) (n : Fin d → ℤ) : Fin d → ℝ := B *ᵥ fun i => (n i : ℝ)

theorem miller_iff (h : Aᵀ * B = 1) (n : Fin d → ℤ) (G : Fin d → ℝ) : Miller A n G ↔ G = comb B n := by
  have e : ∀ G : Fin d → ℝ, Miller A n G ↔ Aᵀ *ᵥ G = fun i => (n i : ℝ) := by
    intro G
    rw [funext_iff]
    refine forall_congr' fun j => ?_
    rw [dotProduct_comm]; rfl
  rw [e]
  constructor
  · intro hG
    have h' := mul_eq_one_comm.1 h
    rw [comb, ← hG, mulVec_mulVec, h', one_mulVec]
  · rintro rfl
    rw [comb, mulVec_mulVec, h, one_mulVec]

theorem on_iff (h : Aᵀ * B = 1) (k : Fin d → ℝ) (n : Fin d → ℤ) : On A k n ↔ 2 * (k ⬝ᵥ comb B n) = comb B n ⬝ᵥ comb B n := by
  constructor
  · rintro ⟨G, hG, hk⟩
    rw [(miller_iff h n G).1 hG, dist_eq_iff] at hk
    exact hk
  · intro hk
    exact ⟨_, (miller_iff h n _).2 rfl, (dist_eq_iff _ _).2 hk⟩

theorem zone_iff (h : Aᵀ * B = 1) (k : Fin d → ℝ) : k ∈ firstZone A ↔ ∀ n, 2 * (k ⬝ᵥ comb B n) ≤ comb B n ⬝ᵥ comb B n := by
  constructor
  · intro hk n
    exact (dist_iff _ _).1 (hk _ ⟨n, (miller_iff h n _).2 rfl⟩)
  · rintro hk G ⟨n, hG⟩
    rw [(miller_iff h n G).1 hG]
    exact (dist_iff _ _).2 (hk n)

theorem dot_self_nonneg (v : Fin d → ℝ) : 0 ≤ v ⬝ᵥ v := Finset.sum_nonneg fun _ _ => mul_self_nonneg _

/-- A point in the zone on the given planes which is a combination of their normals is special. -/
theorem special_of (h : Aᵀ * B = 1) {k : Fin d → ℝ} {ns : List (Fin d → ℤ)} (hz : ∀ n, 2 * (k ⬝ᵥ comb B n) ≤ comb B n ⬝ᵥ comb B n)
    (hp : ∀ n ∈ ns, 2 * (k ⬝ᵥ comb B n) = comb B n ⬝ᵥ comb B n) (l : List ℝ)
    (hl : k = (List.zipWith (fun (x : ℝ) n => x • comb B n) l ns).sum) : Special A k ns := by
  refine ⟨(zone_iff h k).2 hz, fun n hn => (on_iff h k n).2 (hp n hn), fun k' hk' => ?_⟩
  have key : ∀ (l : List ℝ) (ns : List (Fin d → ℤ)), (∀ n ∈ ns, (k' - k) ⬝ᵥ comb B n = 0) →
      (k' - k) ⬝ᵥ (List.zipWith (fun (x : ℝ) n => x • comb B n) l ns).sum = 0 := by
    intro l
    induction l with
    | nil => intro ns _; simp
    | cons x l ih =>
      intro ns hn
      cases ns with
      | nil => simp
      | cons n ns =>
        rw [List.zipWith_cons_cons, List.sum_cons, dotProduct_add, dotProduct_smul, hn n (by simp), ih ns fun m hm => hn m (by simp [hm])]
        simp
  have h0 : (k' - k) ⬝ᵥ k = 0 := by
    have := key l ns fun n hn => by
      have h1 := (on_iff h k' n).1 (hk' n hn)
      have h2 := hp n hn
      rw [sub_dotProduct]; linarith
    rwa [← hl] at this
  have h1 := dot_self_nonneg (k' - k)
  rw [sub_dotProduct] at h0
  rw [sub_dotProduct, dotProduct_sub, dotProduct_sub, dotProduct_comm k k'] at h1
  linarith

/-- Multiples of a lattice. -/
theorem special_smul {k : Fin d → ℝ} {ns : List (Fin d → ℤ)} (hs : Special A k ns) {a : ℝ} (ha : a ≠ 0) : Special (a • A) (a⁻¹ • k) ns := by
  have m1 : ∀ n G, Miller (a • A) n G ↔ Miller A n (a • G) := by
    intro n G
    refine forall_congr' fun j => ?_
    have : (G ⬝ᵥ fun i => (a • A) i j) = ((a • G) ⬝ᵥ fun i => A i j) := by
      simp only [dotProduct, Matrix.smul_apply, Pi.smul_apply, smul_eq_mul]
      exact Finset.sum_congr rfl fun i _ => by ring
    rw [this]
  have e : ∀ (x : ℝ) (v : Fin d → ℝ), (x • v) ⬝ᵥ (x • v) = x ^ 2 * (v ⬝ᵥ v) := by
    intro x v; rw [smul_dotProduct, dotProduct_smul, smul_eq_mul, smul_eq_mul]; ring
  have ip : 0 < a⁻¹ ^ 2 := by positivity
  have ap : 0 < a ^ 2 := by positivity
  have o1 : ∀ k n, On (a • A) (a⁻¹ • k) n ↔ On A k n := by
    intro k n
    constructor
    · rintro ⟨G, hG, hk⟩
      refine ⟨a • G, (m1 n G).1 hG, ?_⟩
      have : a⁻¹ • k - G = a⁻¹ • (k - a • G) := by rw [smul_sub, smul_smul, inv_mul_cancel₀ ha, one_smul]
      rw [this, e, e] at hk
      exact mul_left_cancel₀ ip.ne' hk
    · rintro ⟨G, hG, hk⟩
      refine ⟨a⁻¹ • G, (m1 n _).2 (by rwa [smul_smul, mul_inv_cancel₀ ha, one_smul]), ?_⟩
      rw [← smul_sub, e, e, hk]
  obtain ⟨hz, hp, hm⟩ := hs
  refine ⟨?_, fun n hn => (o1 k n).2 (hp n hn), fun k' hk' => ?_⟩
  · rintro G ⟨n, hG⟩
    have := hz _ ⟨n, (m1 n G).1 hG⟩
    have e2 : a⁻¹ • k - G = a⁻¹ • (k - a • G) := by rw [smul_sub, smul_smul, inv_mul_cancel₀ ha, one_smul]
    rw [e2, e, e]
    exact mul_le_mul_of_nonneg_left this ip.le
  · have e3 : k' = a⁻¹ • (a • k') := by rw [smul_smul, inv_mul_cancel₀ ha, one_smul]
    rw [e3, e, e]
    refine mul_le_mul_of_nonneg_left (hm _ fun n hn => (o1 _ n).1 ?_) ip.le
    rw [← e3]; exact hk' n hn

/-! ## Selling's inequalities -/

section Selling

variable {ι : Type*} [Fintype ι]

/-- A linear form which is bounded by the cut function on every set is bounded by the total variation. -/
theorem cut_bound (p : ι → ι → ℝ) (κ : ι → ℝ)
    (hc : ∀ s : ι → Bool, ∑ i, (if s i then κ i else 0) ≤ ∑ i, ∑ j, if s i ≠ s j then p i j else 0) :
    ∀ (T : ℕ) (m : ι → ℕ), (∀ i, m i ≤ T) → ∑ i, (m i : ℝ) * κ i ≤ ∑ i, ∑ j, p i j * |((m i : ℤ) - m j : ℤ)| := by
  intro T
  induction T with
  | zero =>
    intro m hm
    have : ∀ i, m i = 0 := fun i => Nat.le_zero.1 (hm i)
    simp [this]
  | succ T ih =>
    intro m hm
    have h1 := ih (fun i => min (m i) T) fun i => min_le_right _ _
    have h2 := hc fun i => decide (m i = T + 1)
    have e1 : ∑ i, (m i : ℝ) * κ i = ∑ i, ((min (m i) T : ℕ) : ℝ) * κ i + ∑ i, if decide (m i = T + 1) = true then κ i else 0 := by
      rw [← Finset.sum_add_distrib]
      refine Finset.sum_congr rfl fun i _ => ?_
      by_cases h : m i = T + 1
      · rw [if_pos (by simpa using h), h, min_eq_right (Nat.le_succ T)]; push_cast; ring
      · have : m i ≤ T := by have := hm i; omega
        rw [if_neg (by simpa using h), min_eq_left this, add_zero]
    have e2 : ∑ i, ∑ j, p i j * |((m i : ℤ) - m j : ℤ)| = ∑ i, ∑ j, p i j * |(((min (m i) T : ℕ) : ℤ) - ((min (m j) T : ℕ) : ℤ) : ℤ)| +
        ∑ i, ∑ j, if decide (m i = T + 1) ≠ decide (m j = T + 1) then p i j else 0 := by
      rw [← Finset.sum_add_distrib]
      refine Finset.sum_congr rfl fun i _ => ?_
      rw [← Finset.sum_add_distrib]
      refine Finset.sum_congr rfl fun j _ => ?_
      have hi := hm i
      have hj := hm j
      have : |((m i : ℤ) - m j : ℤ)| = |(((min (m i) T : ℕ) : ℤ) - ((min (m j) T : ℕ) : ℤ) : ℤ)| +
          if decide (m i = T + 1) ≠ decide (m j = T + 1) then 1 else 0 := by
        by_cases h : m i = T + 1 <;> by_cases h' : m j = T + 1
        · simp [h, h']
        · have : m j ≤ T := by omega
          simp only [h, h', min_eq_left this]
          rw [min_eq_right (Nat.le_succ T)]
          simp only [decide_true, decide_false, ne_eq, Bool.true_eq_false, not_false_eq_true, if_true]
          push_cast
          rw [abs_of_nonneg (by linarith [(Nat.cast_le (α := ℤ)).2 this]), abs_of_nonneg (by linarith [(Nat.cast_le (α := ℤ)).2 this])]
          ring
        · have : m i ≤ T := by omega
          simp only [h, h', min_eq_left this]
          rw [min_eq_right (Nat.le_succ T)]
          simp only [decide_true, decide_false, ne_eq, Bool.false_eq_true, not_false_eq_true, if_true]
          push_cast
          rw [abs_of_nonpos (by linarith [(Nat.cast_le (α := ℤ)).2 this]), abs_of_nonpos (by linarith [(Nat.cast_le (α := ℤ)).2 this])]
          ring
        · have hi' : m i ≤ T := by omega
          have hj' : m j ≤ T := by omega
          simp [h, h', min_eq_left hi', min_eq_left hj']
      rw [this]
      split_ifs <;> push_cast <;> ring
    rw [e1, e2]
    push_cast at h1 h2 ⊢
    exact add_le_add h1 h2

end Selling

/-- Seven pairs of planes are enough for a basis which is obtuse together with minus its sum. -/
theorem selling {v0 v1 v2 k : Fin d → ℝ} (h01 : v0 ⬝ᵥ v1 ≤ 0) (h02 : v0 ⬝ᵥ v2 ≤ 0) (h12 : v1 ⬝ᵥ v2 ≤ 0)
    (h03 : 0 ≤ v0 ⬝ᵥ (v0 + v1 + v2)) (h13 : 0 ≤ v1 ⬝ᵥ (v0 + v1 + v2)) (h23 : 0 ≤ v2 ⬝ᵥ (v0 + v1 + v2))
    (k0 : |2 * (k ⬝ᵥ v0)| ≤ v0 ⬝ᵥ v0) (k1 : |2 * (k ⬝ᵥ v1)| ≤ v1 ⬝ᵥ v1) (k2 : |2 * (k ⬝ᵥ v2)| ≤ v2 ⬝ᵥ v2)
    (k01 : |2 * (k ⬝ᵥ (v0 + v1))| ≤ (v0 + v1) ⬝ᵥ (v0 + v1)) (k02 : |2 * (k ⬝ᵥ (v0 + v2))| ≤ (v0 + v2) ⬝ᵥ (v0 + v2))
    (k12 : |2 * (k ⬝ᵥ (v1 + v2))| ≤ (v1 + v2) ⬝ᵥ (v1 + v2))
    (k3 : |2 * (k ⬝ᵥ (v0 + v1 + v2))| ≤ (v0 + v1 + v2) ⬝ᵥ (v0 + v1 + v2)) (m0 m1 m2 : ℤ) :
    2 * (k ⬝ᵥ ((m0 : ℝ) • v0 + (m1 : ℝ) • v1 + (m2 : ℝ) • v2)) ≤
      ((m0 : ℝ) • v0 + (m1 : ℝ) • v1 + (m2 : ℝ) • v2) ⬝ᵥ ((m0 : ℝ) • v0 + (m1 : ℝ) • v1 + (m2 : ℝ) • v2) := by
  simp only [dotProduct_add, add_dotProduct, smul_dotProduct, dotProduct_smul, smul_eq_mul, abs_le, dotProduct_comm v1 v0, dotProduct_comm v2 v0,
    dotProduct_comm v2 v1] at *
  generalize v0 ⬝ᵥ v0 = a0 at *
  generalize v1 ⬝ᵥ v1 = a1 at *
  generalize v2 ⬝ᵥ v2 = a2 at *
  generalize v0 ⬝ᵥ v1 = b01 at *
  generalize v0 ⬝ᵥ v2 = b02 at *
  generalize v1 ⬝ᵥ v2 = b12 at *
  generalize k ⬝ᵥ v0 = x0 at *
  generalize k ⬝ᵥ v1 = x1 at *
  generalize k ⬝ᵥ v2 = x2 at *
  let p : Fin 4 → Fin 4 → ℝ := ![![0, -b01, -b02, a0 + b01 + b02], ![0, 0, -b12, a1 + b01 + b12], ![0, 0, 0, a2 + b02 + b12], ![0, 0, 0, 0]]
  let κ : Fin 4 → ℝ := ![2 * x0, 2 * x1, 2 * x2, -(2 * x0 + 2 * x1 + 2 * x2)]
  have hc : ∀ s : Fin 4 → Bool, ∑ i, (if s i then κ i else 0) ≤ ∑ i, ∑ j, if s i ≠ s j then p i j else 0 := by
    intro s
    simp only [Fin.sum_univ_four, p, κ, cons_val]
    obtain ⟨k01l, k01r⟩ := k01
    obtain ⟨k02l, k02r⟩ := k02
    obtain ⟨k12l, k12r⟩ := k12
    obtain ⟨k3l, k3r⟩ := k3
    obtain ⟨k0l, k0r⟩ := k0
    obtain ⟨k1l, k1r⟩ := k1
    obtain ⟨k2l, k2r⟩ := k2
    cases s 0 <;> cases s 1 <;> cases s 2 <;> cases s 3 <;> norm_num <;> linarith
  let m : Fin 4 → ℤ := ![m0, m1, m2, 0]
  let c : ℤ := |m0| + |m1| + |m2|
  have h0 := neg_abs_le m0
  have h1 := neg_abs_le m1
  have h2 := neg_abs_le m2
  have n0 := abs_nonneg m0
  have n1 := abs_nonneg m1
  have n2 := abs_nonneg m2
  have hm : ∀ i, 0 ≤ m i + c := by
    intro i
    fin_cases i <;> simp [m, c] <;> linarith
  have hcast : ∀ i, (((m i + c).toNat : ℕ) : ℤ) = m i + c := fun i => Int.toNat_of_nonneg (hm i)
  have hcr : ∀ i, (((m i + c).toNat : ℕ) : ℝ) = (m i : ℝ) + c := fun i => by
    have := congrArg (Int.cast : ℤ → ℝ) (hcast i)
    push_cast at this ⊢
    exact this
  obtain ⟨T, hT⟩ : ∃ T : ℕ, ∀ i, (m i + c).toNat ≤ T := ⟨∑ i, (m i + c).toNat, fun i => Finset.single_le_sum (f := fun i => (m i + c).toNat) (fun _ _ => Nat.zero_le _) (Finset.mem_univ i)⟩
  have key := cut_bound p κ hc T (fun i => (m i + c).toNat) hT
  have e1 : ∑ i, (((m i + c).toNat : ℕ) : ℝ) * κ i = 2 * ((m0 : ℝ) * x0 + m1 * x1 + m2 * x2) := by
    simp only [hcr, Fin.sum_univ_four, m, κ, cons_val]
    push_cast; ring
  have e2 : ∀ i j, |((((m i + c).toNat : ℕ) : ℤ) - (((m j + c).toNat : ℕ) : ℤ) : ℤ)| = |m i - m j| := by
    intro i j; rw [hcast, hcast]; congr 1; ring
  rw [e1] at key
  simp only [e2] at key
  have sq : ∀ z : ℤ, ((|z| : ℤ) : ℝ) ≤ (z : ℝ) ^ 2 := by
    intro z
    have : |z| ≤ z ^ 2 := by
      rw [← sq_abs]
      have := abs_nonneg z
      rcases eq_or_lt_of_le this with h | h
      · rw [← h]; norm_num
      · nlinarith [Int.add_one_le_iff.2 h]
    exact_mod_cast this
  have hp : ∀ i j, 0 ≤ p i j := by
    intro i j
    fin_cases i <;> fin_cases j <;> simp [p] <;> linarith
  have key2 : ∑ i, ∑ j, p i j * ((|m i - m j| : ℤ) : ℝ) ≤ ∑ i, ∑ j, p i j * (((m i - m j : ℤ)) : ℝ) ^ 2 :=
    Finset.sum_le_sum fun i _ => Finset.sum_le_sum fun j _ => mul_le_mul_of_nonneg_left (sq _) (hp i j)
  have e3 : ∑ i, ∑ j, p i j * (((m i - m j : ℤ)) : ℝ) ^ 2 =
      (m0 : ℝ) * (m0 * a0) + 2 * m0 * m1 * b01 + 2 * m0 * m2 * b02 + m1 * (m1 * a1) + 2 * m1 * m2 * b12 + m2 * (m2 * a2) := by
    simp only [Fin.sum_univ_four, m, p, cons_val]
    push_cast; ring
  rw [e3] at key2
  push_cast at key key2 ⊢
  linarith

end TB.Zone

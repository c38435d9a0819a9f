import Verif.Model.KIntegral
import Mathlib.Analysis.Calculus.Deriv.Pow
import Mathlib.Analysis.Calculus.Deriv.Add
import Mathlib.Analysis.Calculus.Deriv.Mul
import Mathlib.Data.List.Sort
import Mathlib.Tactic.Linarith
import Mathlib.Tactic.Ring
import Mathlib.Tactic.NormNum

/-!
# C70: `FreeElectrons`
-/

namespace TB.KI
open Matrix

/-- A sorted list with the same elements. -/
def Spec.IsSort (sort : List ℝ → List ℝ) : Prop := ∀ l, (sort l).Perm l ∧ (sort l).Pairwise (· ≤ ·)
/-- A permutation of the indices that sorts. -/
def Spec.IsArgsort (argsort : List ℝ → List ℕ) : Prop :=
  ∀ l, (argsort l).Perm (List.range l.length) ∧ ((argsort l).map fun i => l.getD i 0).Pairwise (· ≤ ·)

theorem exists_sort : ∃ s, Spec.IsSort s := by
  classical
  exact ⟨fun l => l.mergeSort (fun a b => decide (a ≤ b)), fun l => ⟨List.mergeSort_perm _ _,
    by
      have := List.pairwise_mergeSort (le := fun a b : ℝ => decide (a ≤ b)) (fun a b c h1 h2 => by
        simp only [decide_eq_true_eq] at *; exact h1.trans h2) (fun a b => by simpa using le_total a b) l
      simpa using this⟩⟩

theorem exists_argsort : ∃ s, Spec.IsArgsort s := by
  classical
  refine ⟨fun l => (List.range l.length).mergeSort (fun a b => decide (l.getD a 0 ≤ l.getD b 0)), fun l => ⟨List.mergeSort_perm _ _, ?_⟩⟩
  have := List.pairwise_mergeSort (le := fun a b : ℕ => decide (l.getD a 0 ≤ l.getD b 0)) (fun a b c h1 h2 => by
        simp only [decide_eq_true_eq] at *; exact h1.trans h2) (fun a b => by simpa using le_total (l.getD a 0) (l.getD b 0)) (List.range l.length)
  rw [List.pairwise_map]
  simpa using this

/-- The free electron energies of a point: `fac |k - G|²` for every reciprocal lattice vector. -/
noncomputable def Spec.energies (fac : ℝ) (nb : List (Fin 3 → ℝ)) (k : Fin 3 → ℝ) : List ℝ :=
  nb.map fun G => fac * ((k 0 - G 0) ^ 2 + (k 1 - G 1) ^ 2 + (k 2 - G 2) ^ 2)

theorem sq_eq (k G : Fin 3 → ℝ) : sq k G = (k 0 - G 0) ^ 2 + (k 1 - G 1) ^ 2 + (k 2 - G 2) ^ 2 := by
  simp only [sq, dotProduct, Fin.sum_univ_three, Pi.sub_apply]; ring

/-- C70.  Without a limit, the bands are the sorted free electron energies; with a limit `n > 0` they are the first `n` of them. -/
theorem C70_bands (sort : List ℝ → List ℝ) (hs : Spec.IsSort sort) (fac : ℝ) (nb : List (Fin 3 → ℝ)) (k : Fin 3 → ℝ) :
    (feCall sort fac nb none k).Perm (Spec.energies fac nb k) ∧ (feCall sort fac nb none k).Pairwise (· ≤ ·) ∧
    (∀ n : ℕ, 0 < n → feCall sort fac nb (some n) k = (feCall sort fac nb none k).take n) ∧
    feCall sort fac nb (some 0) k = feCall sort fac nb none k := by
  have e : (nb.map fun G => fac * sq k G) = Spec.energies fac nb k := by
    unfold Spec.energies; simp only [sq_eq]
  refine ⟨?_, ?_, ?_, ?_⟩
  · rw [← e]; exact (hs _).1
  · exact (hs _).2
  · intro n hn
    simp only [feCall, limited]
    rw [if_neg (by omega), if_pos (by omega), Int.toNat_natCast]
  · simp [feCall, limited]

theorem perm_range_map {α β : Type} (l : List α) (d : α) (f : α → β) (o : List ℕ) (h : o.Perm (List.range l.length)) :
    (o.map fun i => f (l.getD i d)).Perm (l.map f) := by
  have h1 := h.map fun i => f (l.getD i d)
  have h2 : (List.range l.length).map (fun i => f (l.getD i d)) = l.map f := by
    apply List.ext_getElem
    · simp
    · intro i h1 h2
      simp at h1
      simp [h1]
  rwa [h2] at h1

theorem zip_maps {α β : Type} (o : List ℕ) (f : ℕ → α) (g : ℕ → β) : (o.map f).zip (o.map g) = o.map fun i => (f i, g i) := by
  induction o with
  | nil => rfl
  | cons a o ih => simp [ih]

/-- C70.  `bands_grad` without limit returns, sorted by energy, exactly the pairs of energy and gradient. -/
theorem C70_grad (argsort : List ℝ → List ℕ) (hs : Spec.IsArgsort argsort) (fac : ℝ) (hf : 0 ≤ fac) (nb : List (Fin 3 → ℝ)) (k : Fin 3 → ℝ) :
    let r := feGrad argsort fac nb none k
    r.1.length = r.2.length ∧ (r.1.zip r.2).Perm (nb.map fun G => (fac * sq k G, fun i => fac * (2 * (k i - G i)))) ∧
      r.1.Pairwise (· ≤ ·) := by
  intro r
  obtain ⟨hp, hsrt⟩ := hs (nb.map fun G => sq k G)
  refine ⟨by simp [r, feGrad], ?_, ?_⟩
  · have e : r.1.zip r.2 = (argsort (nb.map fun G => sq k G)).map fun i =>
        (fac * (nb.map fun G => sq k G).getD i 0, fac • (nb.map fun G => (2 : ℝ) • (k - G)).getD i 0) := by
      simp only [r, feGrad, limited]
      rw [zip_maps]
    rw [e]
    rw [List.length_map] at hp
    have h1 := hp.map fun i => (fac * (nb.map fun G => sq k G).getD i 0, fac • (nb.map fun G => (2 : ℝ) • (k - G)).getD i 0)
    refine h1.trans (List.Perm.of_eq ?_)
    apply List.ext_getElem
    · simp
    · intro i h1 h2
      simp only [List.length_map, List.length_range] at h1
      simp only [List.getElem_map, List.getElem_range]
      refine Prod.ext ?_ ?_
      · simp [h1]
      · funext j
        simp [h1]
  · simp only [r, feGrad, limited]
    rw [List.pairwise_map] at hsrt ⊢
    exact hsrt.imp fun h => mul_le_mul_of_nonneg_left h hf

/-- C70.  The gradient is the derivative of the energy in every direction. -/
theorem C70_derivative (fac : ℝ) (G k u : Fin 3 → ℝ) :
    HasDerivAt (fun t : ℝ => fac * sq (fun i => k i + t * u i) G) ((fun i => fac * (2 * (k i - G i))) ⬝ᵥ u) 0 := by
  have h : ∀ i : Fin 3, HasDerivAt (fun t : ℝ => (k i + t * u i - G i) ^ 2) (2 * (k i - G i) * u i) 0 := by
    intro i
    have h1 : HasDerivAt (fun t : ℝ => k i + t * u i - G i) (u i) 0 := by
      have := (((hasDerivAt_id (0 : ℝ)).mul_const (u i)).const_add (k i)).sub_const (G i)
      simpa using this
    have := h1.fun_pow 2
    simpa using this
  have e : (fun t : ℝ => fac * sq (fun i => k i + t * u i) G) =
      fun t : ℝ => fac * ((k 0 + t * u 0 - G 0) ^ 2 + (k 1 + t * u 1 - G 1) ^ 2 + (k 2 + t * u 2 - G 2) ^ 2) := by
    funext t; rw [sq_eq]
  rw [e]
  have := (((h 0).add (h 1)).add (h 2)).const_mul fac
  refine this.congr_deriv ?_
  simp only [dotProduct, Fin.sum_univ_three]
  ring

/-- C70.  With a limit smaller than the number of vectors `bands_grad_hess` returns more hessians than bands. -/
theorem C70_hess (argsort : List ℝ → List ℕ) (hs : Spec.IsArgsort argsort) (fac : ℝ) (nb : List (Fin 3 → ℝ)) (n : ℕ) (hn : 0 < n)
    (hlt : n < nb.length) (k : Fin 3 → ℝ) :
    let r := feHess argsort fac nb (some n) k
    r.1.length = n ∧ r.2.1.length = n ∧ r.2.2.length = nb.length ∧ ∀ h ∈ r.2.2, h = (2 * fac) • (1 : Matrix (Fin 3) (Fin 3) ℝ) := by
  intro r
  have hl : (argsort (nb.map fun G => sq k G)).length = nb.length := by
    rw [(hs _).1.length_eq]; simp
  refine ⟨?_, ?_, by simp [r, feHess], ?_⟩
  · simp only [r, feHess, feGrad, limited]
    rw [if_neg (by omega), if_pos (by omega)]
    simp [hl]; omega
  · simp only [r, feHess, feGrad, limited]
    rw [if_neg (by omega), if_pos (by omega)]
    simp [hl]; omega
  · intro h hh
    simp only [r, feHess, List.mem_map] at hh
    obtain ⟨_, _, rfl⟩ := hh
    rw [smul_smul, mul_comm]

example : ∃ argsort, Spec.IsArgsort argsort := exists_argsort
example : (1 : ℕ) < [![0, 0, 0], ![1, 0, 0]].length := by simp

end TB.KI

import Mathlib.LinearAlgebra.Matrix.NonsingularInverse
import Mathlib.Data.Finset.Card
import Mathlib.Data.Finset.Dedup

/-!
# Specification vocabulary: finite matrix groups given as lists

Nothing here refers to the model.
-/

namespace TB.Spec

variable {K : Type} [CommRing K] {d : ℕ}

/-- A list of matrices is (the list of all elements of) a group under matrix multiplication. -/
structure IsMatGroup (ops : List (Matrix (Fin d) (Fin d) K)) : Prop where
  one_mem : 1 ∈ ops
  mul_mem : ∀ a ∈ ops, ∀ b ∈ ops, a * b ∈ ops
  inv_mem : ∀ a ∈ ops, ∃ b ∈ ops, a * b = 1 ∧ b * a = 1

/-- The number of different entries of a list. -/
def distinctCount {α : Type} [DecidableEq α] (l : List α) : ℕ := l.toFinset.card

end TB.Spec

import Mathlib.LinearAlgebra.Matrix.NonsingularInverse

/-!
# Specification vocabulary: affine maps as matrices with one more row and column

Nothing here refers to the model.
-/

namespace TB.Spec

variable {K : Type} [Field K] {d : ℕ}

/-- The matrix with linear part `R` and translation `t` in the last column. -/
def aff (R : Matrix (Fin d) (Fin d) K) (t : Fin d → K) : Matrix (Fin (d + 1)) (Fin (d + 1)) K := Matrix.of fun i j =>
  Fin.lastCases (Fin.lastCases 1 (fun _ => 0) j) (fun i => Fin.lastCases (t i) (fun j => R i j) j) i

/-- The same in the dual space: the last row instead of the last column. -/
def coaff (R : Matrix (Fin d) (Fin d) K) (r : Fin d → K) : Matrix (Fin (d + 1)) (Fin (d + 1)) K := (aff R.transpose r).transpose

/-- The linear part. -/
def linear (M : Matrix (Fin (d + 1)) (Fin (d + 1)) K) : Matrix (Fin d) (Fin d) K := Matrix.of fun i j => M i.castSucc j.castSucc

/-- The translation. -/
def shift (M : Matrix (Fin (d + 1)) (Fin (d + 1)) K) : Fin d → K := fun i => M i.castSucc (Fin.last d)

/-- The affine map `x ↦ R x + t`. -/
def act (M : Matrix (Fin (d + 1)) (Fin (d + 1)) K) (x : Fin d → K) : Fin d → K := (linear M).mulVec x + shift M

/-- The projective action: append a one, multiply, divide by the last component. -/
def projAct (M : Matrix (Fin (d + 1)) (Fin (d + 1)) K) (x : Fin d → K) : Fin d → K := fun i =>
  M.mulVec (Fin.snoc x 1) i.castSucc / M.mulVec (Fin.snoc x 1) (Fin.last d)

/-- A list of affine maps is a space group modulo the translations `L`. -/
def ClosedMod (L : Set (Fin d → K)) (S : List (Matrix (Fin (d + 1)) (Fin (d + 1)) K)) : Prop :=
  ∀ a ∈ S, ∀ b ∈ S, ∃ c ∈ S, ∃ l ∈ L, a * b = aff 1 l * c

end TB.Spec

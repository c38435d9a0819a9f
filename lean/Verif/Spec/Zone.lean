import Mathlib.Data.Matrix.Mul
import Mathlib.Data.Real.Basic

/-!
# Specification: the first Brillouin zone and its faces, edges and vertices

Wave vectors are without the factor 2π, as in the code: a reciprocal lattice vector has integer scalar products with the lattice vectors.
-/

namespace TB.Zone
open Matrix

variable {d : ℕ}

/-- `G` has the scalar products `n` with the lattice vectors (the columns of `A`). -/
def Miller (A : Matrix (Fin d) (Fin d) ℝ) (n : Fin d → ℤ) (G : Fin d → ℝ) : Prop := ∀ j, (G ⬝ᵥ fun i => A i j) = n j

/-- The reciprocal lattice. -/
def Recip (A : Matrix (Fin d) (Fin d) ℝ) : Set (Fin d → ℝ) := {G | ∃ n, Miller A n G}

/-- The first Brillouin zone: the points which are not nearer to another reciprocal lattice point than to the origin. -/
def firstZone (A : Matrix (Fin d) (Fin d) ℝ) : Set (Fin d → ℝ) := {k | ∀ G ∈ Recip A, k ⬝ᵥ k ≤ (k - G) ⬝ᵥ (k - G)}

/-- `k` is equally far from the origin and from the reciprocal lattice point with the indices `n`. -/
def On (A : Matrix (Fin d) (Fin d) ℝ) (k : Fin d → ℝ) (n : Fin d → ℤ) : Prop := ∃ G, Miller A n G ∧ k ⬝ᵥ k = (k - G) ⬝ᵥ (k - G)

/-- `k` belongs to the zone and is the point nearest to the origin among the points which lie on all the planes `ns`: the centre of a face for one
plane, the foot of the perpendicular on an edge for two, a vertex for three. -/
def Special (A : Matrix (Fin d) (Fin d) ℝ) (k : Fin d → ℝ) (ns : List (Fin d → ℤ)) : Prop :=
  k ∈ firstZone A ∧ (∀ n ∈ ns, On A k n) ∧ ∀ k', (∀ n ∈ ns, On A k' n) → k ⬝ᵥ k ≤ k' ⬝ᵥ k'

/-- `x` solves the system with the given rows. -/
def Solves (rows : List (Fin 3 → ℝ)) (b : List ℝ) (x : Fin 3 → ℝ) : Prop := rows.map (· ⬝ᵥ x) = b

/-- What is asked of `np.linalg.lstsq`: for a system which has a solution it returns the solution of smallest norm. -/
def MinNorm (lstsq : List (Fin 3 → ℝ) → List ℝ → (Fin 3 → ℝ)) : Prop :=
  ∀ rows b x, Solves rows b x → Solves rows b (lstsq rows b) ∧ lstsq rows b ⬝ᵥ lstsq rows b ≤ x ⬝ᵥ x

end TB.Zone

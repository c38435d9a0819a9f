import Verif.Model.UnitaryRep

/-!
# Specification: unitary representations

What it means that an object of the class `UnitaryRepresentation` is a (unitary) representation, independent of the code.
-/

namespace TB.Spec

variable {K : Type} [Field K] [LinearOrder K] {d : ℕ}
variable {F : Type} [Field F] [StarRing F] {N : ℕ}

/-- The matrices are assigned one to one to different operations, the assignment is multiplicative with `1 ↦ 1` on a set
that is closed under products, and (with inversion) basis states of different parity are not mixed. -/
structure IsRep (ρ : UR.Rep K F d N) : Prop where
  len : ρ.sym.S.length = ρ.U.length
  nodup : ρ.sym.S.Nodup
  one : (1, 1) ∈ ρ.sym.S.zip ρ.U
  mul : ∀ p ∈ ρ.sym.S.zip ρ.U, ∀ q ∈ ρ.sym.S.zip ρ.U, (p.1 * q.1, p.2 * q.2) ∈ ρ.sym.S.zip ρ.U
  parity : ρ.sym.inversion = true → ∀ u ∈ ρ.U, ∀ a b : Fin N, ¬ (a.val < ρ.invSplit ↔ b.val < ρ.invSplit) → u a b = 0
  split : ρ.invSplit ≤ N

/-- Every matrix is unitary. -/
def IsUnitary (ρ : UR.Rep K F d N) : Prop := ∀ u ∈ ρ.U, u * u.conjTranspose = 1

end TB.Spec

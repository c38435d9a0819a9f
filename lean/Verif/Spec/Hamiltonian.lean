import Verif.Model.HamiltonianSymmetry
import Verif.Spec.Representation
import Verif.Lemmas.Symmetry

/-!
# Specification: lattice sums of matrices with symmetry

What it means that a list of matrices `R` at the positions `ns` (half of the terms of the Fourier series; the other half is
given by `R_(-r) = R_r^*`) has the symmetry, independent of the code.
-/

namespace TB.Spec

open Matrix HS

variable {K : Type} [Field K] [LinearOrder K] [IsStrictOrderedRing K] {d m : ℕ}
variable {F : Type} [Field F] [StarRing F]

/-- The coefficient of `exp(2πi k x)` for any position `x`: the listed matrix, or the adjoint of the one listed at `-x`,
or zero. -/
def coeff {o : Fin m → Orb K F d} (ns : List (Fin d → K)) (R : List (BMat o)) (x : Fin d → K) : BMat o := fun a b =>
  if x ∈ ns then R.getD (ns.idxOf x) 0 a b
  else if -x ∈ ns then (R.getD (ns.idxOf (-x)) 0 b a).conjTranspose
  else 0

/-- The vector from an orbital `a` to the orbital `b` in the cell `x` is `x + r_b - r_a`; the operation `s` turns this vector,
and the new cell index follows by subtracting `r_b - r_a` again. -/
def moved (o : Fin m → Orb K F d) (s : Mat K d) (a b : Fin m) (x : Fin d → K) : Fin d → K :=
  s.mulVec (x + ((o b).pos - (o a).pos)) - ((o b).pos - (o a).pos)

/-- The parity of an orbital under inversion. -/
def paritySign (o : Orb K F d) : F := if o.rep.invSplit = 0 then -1 else 1

/-- The object is usable: its symmetry was made by the constructor and every appended item is a unitary representation of this
same symmetry with uniform parity. -/
structure Valid (h : HSym K F d) : Prop where
  sym : h.sym.Constructed
  rep : ∀ o ∈ h.orbs, IsRep o.rep ∧ IsUnitary o.rep ∧ o.rep.sym = h.sym ∧ (o.rep.invSplit = 0 ∨ o.rep.invSplit = o.N)

/-- The list has the rotational symmetry: all coefficients, listed or not. -/
def Covariant (h : HSym K F d) (ns : List (Fin d → K)) (R : List (BMat h.orbs.get)) : Prop :=
  ∀ (k : ℕ) (hk : k < h.sym.S.length) (a b : Fin h.orbs.length) (x : Fin d → K),
    coeff ns R (moved h.orbs.get h.sym.S[k] a b x) a b =
      (h.orbs.get a).rep.U.getD k 0 * coeff ns R x a b * ((h.orbs.get b).rep.U.getD k 0).conjTranspose

/-- The list has the inversion symmetry. -/
def InvCovariant (h : HSym K F d) (ns : List (Fin d → K)) (R : List (BMat h.orbs.get)) : Prop :=
  ∀ (a b : Fin h.orbs.length) (x : Fin d → K),
    coeff ns R (moved h.orbs.get (-1) a b x) a b = (paritySign (h.orbs.get a) * paritySign (h.orbs.get b)) • coeff ns R x a b

/-- The series is Hermitian for every `k`. -/
def HermitianCoeff {o : Fin m → Orb K F d} (ns : List (Fin d → K)) (R : List (BMat o)) : Prop :=
  ∀ (a b : Fin m) (x : Fin d → K), coeff ns R (-x) a b = (coeff ns R x b a).conjTranspose

end TB.Spec

namespace TB.Spec

open Matrix HS

variable {K : Type} [Field K] [LinearOrder K] [IsStrictOrderedRing K] {d m : ℕ}
variable {F : Type} [Field F] [StarRing F]

/-- All positions of the series: the listed ones and their negatives. -/
def positions (ns : List (Fin d → K)) : Finset (Fin d → K) := (ns ++ ns.map fun r => -r).toFinset

/-- The operator at the wave vector `k`: `H(k) = sum_r H_r exp(2πi k r)` over all positions of the series; `e x` stands for
`exp(2πi x)`. -/
def series (e : K → F) {o : Fin m → Orb K F d} (ns : List (Fin d → K)) (R : List (BMat o)) (k : Fin d → K) : BMat o :=
  fun a b => ∑ x ∈ positions ns, e (k ⬝ᵥ x) • coeff ns R x a b

end TB.Spec

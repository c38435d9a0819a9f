import Mathlib.Analysis.SpecialFunctions.Exp
import Mathlib.Analysis.SpecialFunctions.Pow.Real
import Mathlib.Analysis.Real.Sqrt
import Mathlib.LinearAlgebra.Matrix.ConjTranspose
import Mathlib.Data.Matrix.Mul
import Mathlib.Data.List.Sort
import Verif.Model.Linalg

/-!
# Model of `tight_binding_asym.py`: `HermitianFourierSeries` and `AsymTightBindingModel`

Numbers are exact real and complex numbers.  The spatial dimension `d` and the matrix size `n` are type parameters, so
the shape assertions of `__init__` (lines 25-27) hold by construction.  The arrays `neighbors` and `H_r`, which have the
same length, are one list of pairs.  Methods that change the object return the object afterwards together with the
return value or the exception, so that the state after an exception is visible.
Every method is modelled for one k point; the code treats the points of an array of k points independently.
-/

namespace TB
open Matrix

/-- A position or k point. -/
abbrev RVec (d : ℕ) := Fin d → ℝ
/-- A complex square matrix. -/
abbrev CMat (n : ℕ) := Matrix (Fin n) (Fin n) ℂ

/-- `np.linalg.norm` of a position. -/
noncomputable def vnorm {d : ℕ} (r : RVec d) : ℝ := Real.sqrt (∑ i, r i ^ 2)

/-- `np.linalg.norm(H, axis=(-1,-2))`: Frobenius norm. -/
noncomputable def mnorm {n : ℕ} (H : CMat n) : ℝ := Real.sqrt (∑ i, ∑ j, ‖H i j‖ ^ 2)

/-- Object state of `HermitianFourierSeries` (tight_binding_asym.py 22-29): pairs of neighbour and coefficient. -/
structure Series (d n : ℕ) where
  terms : List (RVec d × CMat n)

variable {d n m : ℕ}

open Classical in
/-- `HermitianFourierSeries.__init__` (tight_binding_asym.py 22-29). -/
noncomputable def mkSeries (neighbors : List (RVec d)) (H : List (CMat n)) : Except Err (Series d n) :=
  match neighbors with
  | [] => .error .indexError
  | r0 :: _ =>
    if vnorm r0 ≠ 0 then .error .assertionError
    else if neighbors.length ≠ H.length then .error .assertionError
    else .ok ⟨neighbors.zip H⟩

/-- `f_i` (tight_binding_asym.py 38-43) for the neighbour `r`: `exp(2πi k·r)`. -/
noncomputable def fi (k r : RVec d) : ℂ := Complex.exp (2 * Real.pi * Complex.I * ((k ⬝ᵥ r : ℝ) : ℂ))

/-- `df_i` (tight_binding_asym.py 45-50), component `a`. -/
noncomputable def dfi (k r : RVec d) (a : Fin d) : ℂ :=
  2 * Real.pi * Complex.I * Complex.exp (2 * Real.pi * Complex.I * ((k ⬝ᵥ r : ℝ) : ℂ)) * (r a : ℂ)

/-- `ddf_i` (tight_binding_asym.py 52-58), component `a, b`. -/
noncomputable def ddfi (k r : RVec d) (a b : Fin d) : ℂ :=
  (2 * Real.pi * Complex.I) ^ 2 * Complex.exp (2 * Real.pi * Complex.I * ((k ⬝ᵥ r : ℝ) : ℂ)) *
    ((r a : ℂ) * (r b : ℂ))

/-- The common shape of `f`, `df`, `ddf` (lines 62-69, 73-79, 83-90): sum the terms after the first one with the scalar
function `c` of the neighbour, add the adjoint, add the first term. An empty series raises `IndexError`
(`self.H_r[0]`). -/
noncomputable def hsum (c : RVec d → ℂ) : List (RVec d × CMat n) → Except Err (CMat n)
  | [] => .error .indexError
  | t0 :: rest =>
    let mat := rest.foldl (fun mat t => mat + c t.1 • t.2) 0
    .ok (mat + matᴴ + c t0.1 • t0.2)

/-- `HermitianFourierSeries.f` (tight_binding_asym.py 60-69). -/
noncomputable def Series.f (s : Series d n) (k : RVec d) : Except Err (CMat n) := hsum (fi k) s.terms

/-- `HermitianFourierSeries.df` (tight_binding_asym.py 71-79), component `a`. -/
noncomputable def Series.df (s : Series d n) (k : RVec d) (a : Fin d) : Except Err (CMat n) :=
  hsum (fun r => dfi k r a) s.terms

/-- `HermitianFourierSeries.ddf` (tight_binding_asym.py 81-90), component `a, b`. -/
noncomputable def Series.ddf (s : Series d n) (k : RVec d) (a b : Fin d) : Except Err (CMat n) :=
  hsum (fun r => ddfi k r a b) s.terms

/-- `HermitianFourierSeries.unit_matrix` (tight_binding_asym.py 95-109): zeros except `H_r[0] = eye(n)`. -/
noncomputable def Series.unitMatrix (neighbors : List (RVec d)) (n : ℕ) : Except Err (Series d n) :=
  mkSeries neighbors (neighbors.mapIdx fun i _ => if i = 0 then 1 else 0)

open Classical in
/-- `HermitianFourierSeries.direct_sum` (tight_binding_asym.py 111-114).  Neighbour lists of different length are
taken to differ (numpy ≥ 1.25 raises another exception in that case unless one has length one). -/
noncomputable def Series.directSum (s : Series d n) (t : Series d m) : Except Err (Series d (n + m)) :=
  if s.terms.map Prod.fst ≠ t.terms.map Prod.fst then .error .notImplemented
  else mkSeries (s.terms.map Prod.fst) (List.zipWith (fun a b => dsum a.2 b.2) s.terms t.terms)

open Classical in
/-- `HermitianFourierSeries.__add__` (tight_binding_asym.py 180-185); lists of different length as above. -/
noncomputable def Series.add (s : Series d n) (t : Series d m) : Except Err (Series d (n + m)) :=
  if s.terms.map Prod.fst = t.terms.map Prod.fst then
    mkSeries (s.terms.map Prod.fst) (List.zipWith (fun a b => dsum a.2 b.2) s.terms t.terms)
  else .error .assertionError

open Classical in
/-- The loop of `add_neighbors` (tight_binding_asym.py 122-128): `none` when it runs to the end, otherwise what the
call does at the first neighbour which is already listed.  `np.min` of an empty array raises `ValueError`. -/
noncomputable def addCheck (listed : List (RVec d)) (single : Bool) : List (RVec d) → Option (Except Err Unit)
  | [] => none
  | r :: rest =>
    if listed = [] then some (.error .valueError)
    else if ∃ q ∈ listed, vnorm (q - r) < 1e-5 then
      if single then some (.ok ()) else some (.error .valueError)
    else addCheck listed single rest

/-- `add_neighbors` (tight_binding_asym.py 116-130). -/
noncomputable def Series.addNeighbors (s : Series d n) (new : List (RVec d)) : Series d n × Except Err Unit :=
  match addCheck (s.terms.map Prod.fst) (new.length == 1) new with
  | some res => (s, res)
  | none => (⟨s.terms ++ new.map fun r => (r, 0)⟩, .ok ())

open Classical in
/-- `limit_neighbors` (tight_binding_asym.py 132-146). -/
noncomputable def Series.limitNeighbors (s : Series d n) (maxLength : ℝ) : Series d n × Except Err ℕ :=
  if ¬ 0 ≤ maxLength then (s, .error .assertionError)
  else
    let kept := s.terms.filter fun t => decide (vnorm t.1 ≤ maxLength + 1e-8)
    (⟨kept⟩, .ok (s.terms.length - kept.length))

/-- `l[:c]` of a Python list or array; a negative `c` counts from the end. -/
def pySliceTo {α : Type} (l : List α) (c : ℤ) : List α :=
  if 0 ≤ c then l.take c.toNat else l.take (l.length - (-c).toNat)

/-- `limit_neighbor_count` (tight_binding_asym.py 148-162).  `sort` is the list sorted by `np.argsort` of the lengths;
numpy's default sort does not specify the order of equal lengths, so it is a parameter (contract `Spec.IsSort`). -/
def Series.limitCount (sort : List (RVec d × CMat n) → List (RVec d × CMat n)) (s : Series d n) (maxCount : ℤ) :
    Series d n × Except Err ℕ :=
  let kept := pySliceTo (sort s.terms) maxCount
  (⟨kept⟩, .ok (s.terms.length - kept.length))

open Classical in
/-- `cleanup_neighbors` (tight_binding_asym.py 164-178); `keep[0] = True` raises `IndexError` on an empty series. -/
noncomputable def Series.cleanup (s : Series d n) (minNorm : ℝ) : Series d n × Except Err ℕ :=
  match s.terms with
  | [] => (s, .error .indexError)
  | t0 :: rest =>
    let kept := t0 :: rest.filter fun t => decide (mnorm t.2 ≥ minNorm)
    (⟨kept⟩, .ok (s.terms.length - kept.length))

/-! ## AsymTightBindingModel -/

/-- Object state of `AsymTightBindingModel` (tight_binding_asym.py 193-197): Hamiltonian and overlap. -/
structure Tb (d n : ℕ) where
  H : Series d n
  S : Series d n

/-- `AsymTightBindingModel.__init__` (tight_binding_asym.py 193-197) without overlap. -/
noncomputable def mkTb (H : Series d n) : Except Err (Tb d n) := do
  let S ← Series.unitMatrix [(0 : RVec d)] n
  return ⟨H, S⟩

/-- `permute` (tight_binding_asym.py 734-741): `H_r[i][order][:, order]`; `order` is an index array of length `n`. -/
def Tb.permute (t : Tb d n) (order : Fin n → Fin n) : Tb d n :=
  ⟨⟨t.H.terms.map fun x => (x.1, x.2.submatrix order order)⟩, ⟨t.S.terms.map fun x => (x.1, x.2.submatrix order order)⟩⟩

/-- `transform` (tight_binding_asym.py 743-752): `einsum("ji,ni->nj", A, neighbors)`. -/
def Tb.transform (t : Tb d n) (A : Matrix (Fin d) (Fin d) ℝ) : Tb d n :=
  ⟨⟨t.H.terms.map fun x => (A.mulVec x.1, x.2)⟩, ⟨t.S.terms.map fun x => (A.mulVec x.1, x.2)⟩⟩

/-- `self.X.H_r[0] = (self.X.H_r[0] + self.X.H_r[0].T.conj()) / 2` (tight_binding_asym.py 700-701). -/
noncomputable def Series.herm0 (s : Series d n) : Except Err (Series d n) :=
  match s.terms with
  | [] => .error .indexError
  | t0 :: rest => .ok ⟨(t0.1, (1 / 2 : ℂ) • (t0.2 + t0.2ᴴ)) :: rest⟩

/-- `einsum("ji,njk,kl->nil", conj(L), H_r, L)` (tight_binding_asym.py 707-708, 715-716). -/
def Series.conj (s : Series d n) (L : CMat n) : Series d n := ⟨s.terms.map fun x => (x.1, Lᴴ * x.2 * L)⟩

/-- `normalize` (tight_binding_asym.py 694-716).  `eigh` is the library routine (eigenvalues, matrix of eigenvectors),
`sorting` the permutation of line 713 as a function of `ev`.  Returns the new object; an empty series raises before
anything is changed.  `la**-.5` is the real power (numpy gives `nan`/`inf` when an eigenvalue is not positive). -/
noncomputable def Tb.normalize (eigh : CMat n → (Fin n → ℝ) × CMat n) (sorting : CMat n → Equiv.Perm (Fin n))
    (t : Tb d n) : Except Err (Tb d n) := do
  let H ← t.H.herm0
  let S ← t.S.herm0
  let S0 ← S.f 0
  let (la, ev) := eigh S0
  let L : CMat n := ev * diagonal (fun i => ((la i ^ (-(1/2) : ℝ) : ℝ) : ℂ)) * evᴴ
  let H := H.conj L
  let S := S.conj L
  let H0 ← H.f 0
  let (_, ev) := eigh H0
  let ev : CMat n := fun i j => ev i (sorting ev j)
  return ⟨H.conj ev, S.conj ev⟩

/-- `__add__` for two models (tight_binding_asym.py 876-879). -/
noncomputable def Tb.add (t : Tb d n) (u : Tb d m) : Except Err (Tb d (n + m)) := do
  let H ← t.H.add u.H
  let S ← t.S.add u.S
  return ⟨H, S⟩

/-- `__add__` with a number (tight_binding_asym.py 880-885): `H.H_r[0] += self.S.H_r[0] * float(other)`.
`copy` raises on an empty series. -/
noncomputable def Tb.shift (t : Tb d n) (c : ℝ) : Except Err (Tb d n) :=
  match t.H.terms, t.S.terms with
  | h0 :: hs, s0 :: _ => .ok ⟨⟨(h0.1, h0.2 + (c : ℂ) • s0.2) :: hs⟩, t.S⟩
  | _, _ => .error .indexError

/-- `__mul__` (tight_binding_asym.py 887-888). -/
noncomputable def Tb.mul (t : Tb d n) (c : ℝ) : Tb d n := ⟨⟨t.H.terms.map fun x => (x.1, (c : ℂ) • x.2)⟩, t.S⟩

end TB

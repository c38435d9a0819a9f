import Mathlib.LinearAlgebra.Matrix.ConjTranspose
import Mathlib.LinearAlgebra.Matrix.Determinant.Basic
import Verif.Model.SymmetryPoints
import Verif.Model.NamedReps

/-!
# Model of `hamiltonian_symmetry.py`: class `HamiltonianSymmetry`

Numbers as in the model of `unitary_representations.py`.  A matrix of the full dimension is stored cut into the blocks that the
code cuts with `[n1:n1+d1, n2:n2+d2]`: block `(a, b)` belongs to the `a`-th and `b`-th appended representation.  Projective
symmetries (`ignore_translation`, line 45) and the unused attribute `translation` are not modelled.
-/

namespace TB.HS

open Matrix TB.UR

variable {K : Type} [Field K] [LinearOrder K] [IsStrictOrderedRing K] {d : ℕ}
variable {F : Type} [Field F] [StarRing F] [DecidableEq F]

/-- One appended representation with its position and name (the entries of `self.U`, `self.pos`, `self.names`,
hamiltonian_symmetry.py 46-48). -/
structure Orb (K F : Type) (d : ℕ) where
  N : ℕ
  rep : Rep K F d N
  pos : Fin d → K
  name : String

/-- Object state (hamiltonian_symmetry.py 45-48). -/
structure HSym (K F : Type) (d : ℕ) where
  sym : Sym K d
  orbs : List (Orb K F d)

/-- `HamiltonianSymmetry.__init__` (hamiltonian_symmetry.py 33-50) for a symmetry without translations. -/
def HSym.init (σ : Sym K d) : HSym K F d := ⟨σ, []⟩

/-- `HamiltonianSymmetry.dim` (hamiltonian_symmetry.py 52-58). -/
def HSym.dim (h : HSym K F d) : ℕ := (h.orbs.map Orb.N).sum

/-- `HamiltonianSymmetry.copy` (hamiltonian_symmetry.py 60-66): the argument `self.sym.copy()` is evaluated first, then the
constructor is called with one argument too many. -/
def HSym.copy (h : HSym K F d) : Except Err (HSym K F d) :=
  match h.sym.copy with
  | .error e => .error e
  | .ok _ => .error .typeError

/-- `HamiltonianSymmetry.append` (hamiltonian_symmetry.py 71-91).  The length of the position agrees by typing (line 83). -/
def HSym.append (h : HSym K F d) {N : ℕ} (ρ : Rep K F d N) (pos : Fin d → K) (name : String) :
    HSym K F d × Except Err Unit :=
  if ¬ (ρ.invSplit = 0 ∨ ρ.invSplit = N) then (h, .error .valueError)       -- lines 85-86
  else match ρ.copy with                                                    -- line 87
    | .error e => (h, .error e)
    | .ok ρ0 => match ρ0.matchSym h.sym with                                -- line 88
      | (_, .error e) => (h, .error e)
      | (ρ1, .ok _) => (⟨h.sym, h.orbs ++ [⟨N, ρ1, pos, name⟩]⟩, .ok ())    -- lines 89-91

/-- `HamiltonianSymmetry.append_s` (hamiltonian_symmetry.py 93-103). -/
def HSym.appendS (h : HSym K F d) (pos : Fin d → K) (name : String) : HSym K F d × Except Err Unit :=
  h.append (UR.init h.sym 1) pos name

/-- `HamiltonianSymmetry.append_p` (hamiltonian_symmetry.py 131-144); `ι` converts the numbers of `S` to numbers of `U`. -/
def HSym.appendP (ι : K →+* F) (h : HSym K F d) (pos : Fin d → K) (name : String) : HSym K F d × Except Err Unit :=
  h.append (N := d) ⟨h.sym, h.sym.S.map fun s => s.map ι, 0⟩ pos name

/-- `HamiltonianSymmetry.append_d3` (hamiltonian_symmetry.py 186-201). -/
def HSym.appendD3 (ι : K →+* F) (h : HSym K F d) (pos : Fin d → K) (name : String) : HSym K F d × Except Err Unit :=
  h.append (N := d) ⟨h.sym, h.sym.S.map fun s => (s.det⁻¹ • s).map ι, d⟩ pos name

/-- `swap` (hamiltonian_symmetry.py 113-114, 157-158, 214-215): `einsum("nij,j->n", S, [1,1,1])` is the sum of all entries; the
test `abs(abs(s - 1) - 2) > 1e-5` is idealised to `≠ 0`. -/
def swaps (s : Mat K 3) : Bool := decide (|(|(∑ i, ∑ j, s i j) - 1| - 2)| ≠ 0)

/-- `append` twice, as in the branches with inversion: an exception in the first call ends the method. -/
def HSym.append2 (h : HSym K F d) {N M : ℕ} (ρ : Rep K F d N) (n1 : String) (τ : Rep K F d M) (n2 : String) (pos : Fin d → K) :
    HSym K F d × Except Err Unit :=
  match h.append ρ pos n1 with
  | (h1, .error e) => (h1, .error e)
  | (h1, .ok _) => h1.append τ pos n2

/-- `HamiltonianSymmetry.append_diamond_s` (hamiltonian_symmetry.py 105-129). -/
def HSym.appendDiamondS (h : HSym K F 3) (pos : Fin 3 → K) (name : String) : HSym K F 3 × Except Err Unit :=
  if h.sym.inversion then
    h.append2 (N := 1) ⟨h.sym, h.sym.S.map fun _ => 1, 0⟩ (name ++ "0")
      (M := 1) ⟨h.sym, h.sym.S.map fun s => if swaps s then -1 else 1, 1⟩ (name ++ "1") pos
  else
    h.append (N := 2) ⟨h.sym, h.sym.S.map fun s => if swaps s then !![0, 1; 1, 0] else 1, 2⟩ pos name

/-- The block matrix of lines 168-170 / 225-227: `urepr * 2`, permuted to the order "first copy, second copy", the rows of the
two copies exchanged for `swap`. -/
def diamond2 (ι : K →+* F) (s : Mat K 3) : Mat F 6 :=
  (Matrix.kroneckerMap (· * ·) (if swaps s then !![0, 1; 1, 0] else (1 : Mat F 2)) (s.map ι)).submatrix
    (finProdFinEquiv (m := 2) (n := 3)).symm (finProdFinEquiv (m := 2) (n := 3)).symm

/-- `HamiltonianSymmetry.append_diamond_p` (hamiltonian_symmetry.py 146-171). -/
def HSym.appendDiamondP (ι : K →+* F) (h : HSym K F 3) (pos : Fin 3 → K) (name : String) : HSym K F 3 × Except Err Unit :=
  if h.sym.inversion then
    h.append2 (N := 3) ⟨h.sym, h.sym.S.map fun s => s.map ι, 3⟩ (name ++ "0")
      (M := 3) ⟨h.sym, h.sym.S.map fun s => if swaps s then -(s.map ι) else s.map ι, 0⟩ (name ++ "1") pos
  else
    -- lines 168-171: `urepr * 2` copies the symmetry (`mulNat`); then `permute` and the exchange
    match h.sym.copy with
    | .error e => (h, .error e)
    | .ok σ => h.append (N := 6) ⟨σ, h.sym.S.map (diamond2 ι), 0⟩ pos name

/-- `HamiltonianSymmetry.append_diamond_d3` (hamiltonian_symmetry.py 203-228). -/
def HSym.appendDiamondD3 (ι : K →+* F) (h : HSym K F 3) (pos : Fin 3 → K) (name : String) : HSym K F 3 × Except Err Unit :=
  if h.sym.inversion then
    h.append2 (N := 3) ⟨h.sym, h.sym.S.map fun s => s.map ι, 0⟩ (name ++ "0")
      (M := 3) ⟨h.sym, h.sym.S.map fun s => if swaps s then -(s.map ι) else s.map ι, 3⟩ (name ++ "1") pos
  else
    match h.sym.copy with
    | .error e => (h, .error e)
    | .ok σ => h.append (N := 6) ⟨σ, h.sym.S.map (diamond2 ι), 6⟩ pos name

/-- `HamiltonianSymmetry.append_d2` (hamiltonian_symmetry.py 173-184); `w` is the number `sqrt(3)` used by
`UnitaryRepresentation.d3`. -/
def HSym.appendD2 (w : F) (h : HSym ℚ F 3) (pos : Fin 3 → ℚ) (name : String) : HSym ℚ F 3 × Except Err Unit :=
  match d3 false h.sym.inversion w with
  | .error e => (h, .error e)
  | .ok ρ => h.append ρ pos name

/-- The loop of `get_band_name` (hamiltonian_symmetry.py 230-238). -/
def bandName : List (ℕ × String) → ℤ → Except Err String
  | [], _ => .error .indexError
  | (n, name) :: l, i =>
    if i < n then .ok (if n = 1 then name else name ++ toString i) else bandName l (i - n)

/-- `HamiltonianSymmetry.get_band_name` (hamiltonian_symmetry.py 230-238). -/
def HSym.getBandName (h : HSym K F d) (i : ℤ) : Except Err String := bandName (h.orbs.map fun o => (o.N, o.name)) i

/-! ## `symmetrize` -/

variable {m : ℕ}

/-- A matrix of the full dimension, cut into blocks. -/
abbrev BMat (o : Fin m → Orb K F d) : Type := (a b : Fin m) → Matrix (Fin (o a).N) (Fin (o b).N) F

/-- `np.conj(h.T)`. -/
def conjT {o : Fin m → Orb K F d} (M : BMat o) : BMat o := fun a b => (M b a).conjTranspose

/-- `neighbor_func(x)` and the following lines `h = H_r[j]; if mirror: h = conj(h.T)` (hamiltonian_symmetry.py 334-338,
374-378). -/
def fetch {o : Fin m → Orb K F d} (ns : List (Fin d → K)) (H : List (BMat o)) (x : Fin d → K) : Option (BMat o) :=
  match tryNeighbor ns x with
  | none => none
  | some (j, mirror) => some (if mirror then conjT (H.getD j 0) else H.getD j 0)

/-- Lines 317-320: the matrix at the first position that is zero is made Hermitian. -/
def hermOrigin {o : Fin m → Orb K F d} (ns : List (Fin d → K)) (H : List (BMat o)) : List (BMat o) :=
  if 0 ∈ ns then H.set (ns.idxOf 0) ((2 : F)⁻¹ • (H.getD (ns.idxOf 0) 0 + conjT (H.getD (ns.idxOf 0) 0))) else H

/-- `1 if u.inv_split > 0 else -1` (hamiltonian_symmetry.py 329, 333). -/
def parity (o : Orb K F d) : F := if 0 < o.rep.invSplit then 1 else -1

/-- Lines 322-345: the symmetrisation with the inversion. -/
def invStep (o : Fin m → Orb K F d) (ns : List (Fin d → K)) (H : List (BMat o)) : List (BMat o) :=
  ns.zipIdx.map fun (r, i) => (2 : F)⁻¹ • (H.getD i 0 + fun a b =>
    match fetch ns H (-r - (2 : K) • ((o b).pos - (o a).pos)) with
    | some h => (parity (o a) * parity (o b)) • h a b
    | none => -(H.getD i 0 a b))

/-- The loop over the operations for one block (lines 370-382): `p = 0; break` if an image is missing. -/
def accBlock (o : Fin m → Orb K F d) (ns : List (Fin d → K)) (H : List (BMat o)) (r : Fin d → K) (a b : Fin m) :
    List (Mat K d × ℕ) → Matrix (Fin (o a).N) (Fin (o b).N) F → Matrix (Fin (o a).N) (Fin (o b).N) F
  | [], p => p
  | (s, k) :: ks, p =>
    match fetch ns H (s.mulVec (r + (o b).pos - (o a).pos) - (o b).pos + (o a).pos) with
    | some h => accBlock o ns H r a b ks
        (p + ((o a).rep.U.getD k 0).conjTranspose * h a b * (o b).rep.U.getD k 0)
    | none => 0

/-- Lines 359-386: the mean over the operations `S`. -/
def meanStep (S : List (Mat K d)) (o : Fin m → Orb K F d) (ns : List (Fin d → K)) (H : List (BMat o)) : List (BMat o) :=
  ns.map fun r => (S.length : F)⁻¹ • fun a b => accBlock o ns H r a b S.zipIdx 0

/-- `HamiltonianSymmetry.symmetrize` (hamiltonian_symmetry.py 284-386). `neighbors[0]` of an empty list raises `IndexError`
(line 312). -/
def HSym.symmetrize (h : HSym K F d) (H : List (BMat h.orbs.get)) (ns : List (Fin d → K)) :
    Except Err (List (BMat h.orbs.get)) :=
  if ns.length ≠ H.length then .error .assertionError
  else if ns.isEmpty then .error .indexError
  else
    let H1 := hermOrigin ns H
    let H2 := if h.sym.inversion then invStep h.orbs.get ns H1 else H1
    .ok (meanStep h.sym.S h.orbs.get ns H2)

/-! ## `symmetrizer` -/

/-- One entry of `inv_table`: `(i, i1, i2, j, mirror, inv)` (hamiltonian_symmetry.py 436-441). -/
structure InvEntry (F : Type) (m : ℕ) where
  i : ℕ
  a : Fin m
  b : Fin m
  j : ℕ
  mirror : Bool
  inv : F

/-- One entry of `total_table`: `(i, k, i1, i2, j, mirror, fac)` (hamiltonian_symmetry.py 466). -/
structure SymEntry (m : ℕ) where
  i : ℕ
  k : ℕ
  a : Fin m
  b : Fin m
  j : ℕ
  mirror : Bool
  fac : ℕ

/-- The key in `s_table` (line 453): index, mirror flag and the two matrices (rounded to four digits in the code, exact here). -/
abbrev Key (o : Fin m → Orb K F d) (a b : Fin m) : Type := (ℕ × Bool) × (Mat F (o a).N × Mat F (o b).N)

/-- Lines 454-459: insertion in the dictionary `s_table` (kept in insertion order), counting equal keys. -/
def mergeEntry {α : Type} [DecidableEq α] (T : List (α × (ℕ × ℕ))) (key : α) (k : ℕ) : List (α × (ℕ × ℕ)) :=
  if key ∈ T.map Prod.fst then T.map fun e => if e.1 = key then (e.1, (e.2.1, e.2.2 + 1)) else e
  else T ++ [(key, (k, 1))]

/-- Lines 442-464: the table of one block at one position; emptied if an image is missing. -/
def sTable (o : Fin m → Orb K F d) (ns : List (Fin d → K)) (r : Fin d → K) (a b : Fin m) :
    List (Mat K d × ℕ) → List (Key o a b × (ℕ × ℕ)) → List (Key o a b × (ℕ × ℕ))
  | [], T => T
  | (s, k) :: ks, T =>
    match tryNeighbor ns (s.mulVec (r - (o a).pos + (o b).pos) + (o a).pos - (o b).pos) with
    | some jm => sTable o ns r a b ks (mergeEntry T (jm, ((o a).rep.U.getD k 0, (o b).rep.U.getD k 0)) k)
    | none => []

/-- `total_table` (hamiltonian_symmetry.py 426-466). -/
def totalTable (S : List (Mat K d)) (o : Fin m → Orb K F d) (ns : List (Fin d → K)) : List (SymEntry m) :=
  ns.zipIdx.flatMap fun (r, i) => (List.finRange m).flatMap fun a => (List.finRange m).flatMap fun b =>
    (sTable o ns r a b S.zipIdx []).map fun e => ⟨i, e.2.1, a, b, e.1.1.1, e.1.1.2, e.2.2⟩

/-- `inv_table` (hamiltonian_symmetry.py 426-441) for a symmetry with inversion. -/
def invTable (o : Fin m → Orb K F d) (ns : List (Fin d → K)) : List (InvEntry F m) :=
  ns.zipIdx.flatMap fun (r, i) => (List.finRange m).flatMap fun a => (List.finRange m).map fun b =>
    match tryNeighbor ns (-(r - (o a).pos + (o b).pos) + (o a).pos - (o b).pos) with
    | some (j, mirror) => ⟨i, a, b, j, mirror, parity (o a) * parity (o b)⟩
    | none => ⟨i, a, b, i, false, -1⟩

/-- `origin` (hamiltonian_symmetry.py 425-428): the last position that is zero. -/
def originOf (ns : List (Fin d → K)) : Option ℕ :=
  ns.zipIdx.foldl (fun acc p => if p.1 = 0 then some p.2 else acc) none

/-- `result[i, start1:end1, start2:end2] += X`. -/
def addBlock {o : Fin m → Orb K F d} (res : ℕ → BMat o) (i : ℕ) (a b : Fin m) (X : Matrix (Fin (o a).N) (Fin (o b).N) F) :
    ℕ → BMat o :=
  fun i' a' b' => if h : i' = i ∧ a' = a ∧ b' = b then res i' a' b' + (by rw [h.2.1, h.2.2]; exact X) else res i' a' b'

/-- Lines 482-485: the matrix with the index `origin` is made Hermitian. -/
def hermAt {o : Fin m → Orb K F d} (origin : Option ℕ) (H : List (BMat o)) : List (BMat o) :=
  match origin with
  | some i => H.set i ((2 : F)⁻¹ • (H.getD i 0 + conjT (H.getD i 0)))
  | none => H

/-- The function returned by `symmetrizer` (hamiltonian_symmetry.py 480-516). -/
def symmetrizerFunc (σ : Sym K d) (o : Fin m → Orb K F d) (n : ℕ) (origin : Option ℕ) (invT : List (InvEntry F m))
    (symT : List (SymEntry m)) (H : List (BMat o)) : Except Err (List (BMat o)) :=
  if n ≠ H.length then .error .assertionError
  else
    let H1 := hermAt origin H
    let H2 := if σ.inversion then
        let f := invT.foldl (fun res e => addBlock res e.i e.a e.b
          (e.inv • (if e.mirror then conjT (H1.getD e.j 0) else H1.getD e.j 0) e.a e.b)) fun i => H1.getD i 0
        (List.range n).map fun i => (2 : F)⁻¹ • f i
      else H1
    let f := symT.foldl (fun res e => addBlock res e.i e.a e.b
      (((e.fac : F) • ((o e.a).rep.U.getD e.k 0).conjTranspose) *
        (if e.mirror then conjT (H2.getD e.j 0) else H2.getD e.j 0) e.a e.b * (o e.b).rep.U.getD e.k 0)) 0
    .ok ((List.range n).map fun i => (σ.S.length : F)⁻¹ • f i)

/-- `HamiltonianSymmetry.symmetrizer` (hamiltonian_symmetry.py 388-517). -/
def HSym.symmetrizer (h : HSym K F d) (ns : List (Fin d → K)) : List (BMat h.orbs.get) → Except Err (List (BMat h.orbs.get)) :=
  symmetrizerFunc h.sym h.orbs.get ns.length (originOf ns) (if h.sym.inversion then invTable h.orbs.get ns else [])
    (totalTable h.sym.S h.orbs.get ns)

/-! ## `apply`, `realize_symmetric` -/

/-- The row (or column) number of entry `i` of block `a` in the uncut matrix. -/
def flat (o : Fin m → Orb K F d) (a : Fin m) (i : ℕ) : ℕ := (((List.finRange m).take a).map fun b => (o b).N).sum + i

/-- The product of the signs that lines 258-265 put on row (column) number `x`: `n1` is never increased in this loop, so each
odd representation of dimension `d1` negates the rows and columns `0, …, d1 - 1`. -/
def rowSign (o : Fin m → Orb K F d) (x : ℕ) : F :=
  ((List.finRange m).map fun a => if ¬ 0 < (o a).rep.invSplit ∧ x < (o a).N then (-1 : F) else 1).prod

/-- `HamiltonianSymmetry.apply` (hamiltonian_symmetry.py 240-282) with `s_index = q` in the range; `e x` stands for
`exp(2πi x)`. The argument `inversion` is not used by the code. -/
def HSym.apply (e : K → F) (h : HSym K F d) (k : Fin d → K) (H : BMat h.orbs.get) (q : ℕ) (_inversion : Bool) :
    BMat h.orbs.get :=
  let o := h.orbs.get
  let Hinv : BMat o := fun a b => Matrix.of fun i j => rowSign o (flat o a i) * rowSign o (flat o b j) * H a b i j
  let s := h.sym.S.getD q 0
  fun a b =>
    (e (k ⬝ᵥ ((o a).pos - s.mulVec (o b).pos)) * e (-(k ⬝ᵥ ((o b).pos - s.mulVec (o a).pos)))) •
      ((o a).rep.U.getD q 0 * Hinv a b * ((o b).rep.U.getD q 0).conjTranspose)

/-- The inner loops of `realize_symmetric` (hamiltonian_symmetry.py 537-551) for one point `k ≠ 0` with the sign `inv`. -/
def realizeStep (e : K → F) (h : HSym K F d) (k : Fin d → K) (H : BMat h.orbs.get) (inv : K)
    (st : List (Fin d → K) × List ((Fin d → K) × BMat h.orbs.get)) (p : Mat K d × ℕ) :
    List (Fin d → K) × List ((Fin d → K) × BMat h.orbs.get) :=
  let k' := inv • p.1.mulVec k
  if k' ∈ st.1 then st else (st.1 ++ [k'], st.2 ++ [(k', h.apply e k H p.2 (decide (inv < 0)))])

/-- `HamiltonianSymmetry.realize_symmetric` (hamiltonian_symmetry.py 519-563) before the final reordering: the pairs of point
and matrix. The comparison within `1e-6` is idealised to equality. -/
def HSym.realizeSymmetric (e : K → F) (h : HSym K F d) (ks : List ((Fin d → K) × BMat h.orbs.get)) :
    List ((Fin d → K) × BMat h.orbs.get) :=
  ks ++ ks.flatMap fun kH => if kH.1 = 0 then []
    else ((if h.sym.inversion then [1, -1] else [1]).foldl
      (fun st (inv : K) => h.sym.S.zipIdx.foldl (realizeStep e h kH.1 kH.2 inv) st) ([kH.1], [])).2

end TB.HS

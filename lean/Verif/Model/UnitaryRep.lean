import Mathlib.LinearAlgebra.Matrix.Kronecker
import Mathlib.LinearAlgebra.Matrix.ConjTranspose
import Mathlib.Algebra.Star.Rat
import Mathlib.Logic.Equiv.Fin.Basic
import Verif.Model.Symmetry

/-!
# Model of `unitary_representations.py`: class `UnitaryRepresentation`

Numbers: the operations `S` live in a linearly ordered field `K` (as in the model of `symmetry.py`), the matrices `U` in a
field `F` with conjugation.  Comparisons `norm(a - b) < 1e-7` (and `sum((a-b)**2) < 1e-14`) are idealised to `a = b`,
the search of a neighbour within the distance `1e-4` to equality (with the first of equal neighbours).
Arrays of stacked matrices are lists.
-/

namespace TB.UR

open Matrix

variable {K : Type} [Field K] [LinearOrder K] [IsStrictOrderedRing K] {d : ℕ}
variable {F : Type} [Field F] [StarRing F] [DecidableEq F] {N M : ℕ}

/-- Object state of `UnitaryRepresentation` (unitary_representations.py 20-24): `sym`, `U` and `inv_split`.
The dimension `N` of the matrices (`dim()`, lines 26-31) is part of the type. -/
structure Rep (K F : Type) (d N : ℕ) where
  sym : Sym K d
  U : List (Mat F N)
  invSplit : ℕ
  deriving DecidableEq

/-- `UnitaryRepresentation.__init__` (unitary_representations.py 20-24). -/
def init (σ : Sym K d) (N : ℕ) : Rep K F d N := ⟨σ, σ.S.map fun _ => 1, N⟩

/-- `UnitaryRepresentation.copy` (unitary_representations.py 33-37); `self.sym.copy()` calls the constructor again. -/
def Rep.copy (ρ : Rep K F d N) : Except Err (Rep K F d N) :=
  match ρ.sym.copy with
  | .error e => .error e
  | .ok σ => .ok ⟨σ, ρ.U, ρ.invSplit⟩

/-! ## `from_generator` -/

section
variable {A B : Type} [DecidableEq A] [DecidableEq B] [Mul A] [Mul B]

/-- Body of the loop at lines 66-74: insertion into the dictionary `S` (kept as list in insertion order) keyed by the
matrix `s`; for an existing key the assertion that the matrices `u` agree. -/
def insertPair (D : List (A × B)) (p : A × B) : Except Err (List (A × B)) :=
  match D.find? (fun q => decide (q.1 = p.1)) with
  | some q => if q.2 = p.2 then .ok D else .error .assertionError
  | none => .ok (D ++ [p])

/-- Lines 59-80: all products of pairs (row major), reduced by the dictionary. -/
def genStep (P : List (A × B)) : Except Err (List (A × B)) :=
  (P.flatMap fun p => P.map fun q => (p.1 * q.1, p.2 * q.2)).foldlM insertPair []

/-- The loop `for _ in range(1000)` (unitary_representations.py 58-83); the first argument is the number of rounds left. -/
def pairLoop : ℕ → List (A × B) → Except Err (List (A × B))
  | 0, P => .ok P
  | n + 1, P =>
    match genStep P with
    | .error e => .error e
    | .ok P' =>
      if 1000 ≤ P'.length then .error .assertionError                 -- line 81
      else if P'.length ≤ P.length then .ok P'                        -- lines 82-83
      else pairLoop n P'

end

/-- `UnitaryRepresentation.from_generator` (unitary_representations.py 39-87).  Simplified: `S_G` and `U_G` come as one list
of pairs, i.e. they have the same length. `S_G[0]` of an empty list raises `IndexError` (line 53). -/
def fromGenerator (G : List (Mat K d × Mat F N)) (inversion negate : Bool) : Except Err (Rep K F d N) :=
  if G.isEmpty then .error .indexError
  else match pairLoop 1000 G with
    | .error e => .error e
    | .ok P =>
      match mkSym (P.map Prod.fst) inversion with                     -- line 84
      | .error e => .error e
      | .ok σ => .ok ⟨σ, P.map Prod.snd, if negate then 0 else N⟩     -- lines 85-87

/-! ## `match_sym`, `check` -/

/-- Lines 108-119: for each operation of the given symmetry the index of the (first) nearest operation of `self`; a nearest
operation at a distance different from zero raises `ValueError`. -/
def matchOrder (S : List (Mat K d)) : List (Mat K d) → Except Err (List ℕ)
  | [] => .ok []
  | p :: ps =>
    if p ∈ S then
      match matchOrder S ps with
      | .error e => .error e
      | .ok l => .ok (S.idxOf p :: l)
    else .error .valueError

/-- `UnitaryRepresentation.match_sym` (unitary_representations.py 89-121); the object is returned with the outcome.
The dimensions agree by typing (line 101). `self.U[order]` with an index beyond the end of `U` raises `IndexError` after
`self.sym` has been replaced (lines 120-121). -/
def Rep.matchSym (ρ : Rep K F d N) (σ : Sym K d) : Rep K F d N × Except Err Unit :=
  if σ.S.length ≠ ρ.sym.S.length then (ρ, .error .valueError)         -- lines 99-100
  else if σ.S.isEmpty then (ρ, .error .indexError)                    -- line 101
  else if σ.inversion ≠ ρ.sym.inversion then (ρ, .error .valueError)  -- lines 103-104
  else match matchOrder ρ.sym.S σ.S with
    | .error e => (ρ, .error e)
    | .ok order =>
      if ¬ order.Nodup then (ρ, .error .valueError)                   -- lines 118-119
      else match order.mapM (fun i => ρ.U[i]?) with
        | none => ({ ρ with sym := σ }, .error .indexError)
        | some U => (⟨σ, U, ρ.invSplit⟩, .ok ())

/-- `np.diag([1] * inv_split + [-1] * (N - inv_split))` (unitary_representations.py 146), the matrix of the inversion, for
`inv_split ≤ N`. -/
def invOp (N k : ℕ) : Mat F N := Matrix.diagonal fun i => if i.val < k then 1 else -1

/-- The innermost loop of `check` (lines 132-142) for one product `(s, u)`: `found`, or an early `return False`. -/
def checkProd (Z : List (Mat K d × Mat F N)) (s : Mat K d) (u : Mat F N) : Bool :=
  (Z.all fun p => !(decide (p.1 = s)) || decide (p.2 = u)) && (Z.any fun p => decide (p.1 = s))

/-- `UnitaryRepresentation.check` (unitary_representations.py 125-150), without the printed messages. `inv_split ≤ N`. -/
def Rep.check (ρ : Rep K F d N) : Bool :=
  let Z := ρ.sym.S.zip ρ.U
  (Z.all fun p => Z.all fun q => checkProd Z (p.1 * q.1) (p.2 * q.2)) &&
  (!ρ.sym.inversion || ρ.U.all fun u => decide (invOp N ρ.invSplit * u = u * invOp N ρ.invSplit))

/-! ## `symmetrize` -/

/-- `p[:k,k:] = 0; p[k:,:k] = 0` (unitary_representations.py 193-194). -/
def zeroBlocks (k : ℕ) (p : Mat F N) : Mat F N :=
  fun i j => if decide (i.val < k) = decide (j.val < k) then p i j else 0

/-- `p[:k,k:] *= -1; p[k:,:k] *= -1` (unitary_representations.py 199-200). -/
def flipBlocks (k : ℕ) (p : Mat F N) : Mat F N :=
  fun i j => if decide (i.val < k) = decide (j.val < k) then p i j else -(p i j)

/-- `neighbor_function(neighbors)(r)` (symmetry.py 12-35): index and whether only the mirrored position was found. -/
def neighbor (ns : List (Fin d → K)) (r : Fin d → K) : Except Err (ℕ × Bool) :=
  if r ∈ ns then .ok (ns.idxOf r, false)
  else if -r ∈ ns then .ok (ns.idxOf (-r), true)
  else .error .valueError

/-- One summand of `symmetrize` (unitary_representations.py 188-215), before conjugation with `u`. -/
def summand (k : ℕ) (inv : Bool) (ns : List (Fin d → K)) (H : List (Mat F N)) (r' : Fin d → K) : Except Err (Mat F N) :=
  match neighbor ns r' with
  | .error e => .error e
  | .ok (j, mirror) =>
    let p := H.getD j 0
    if inv then
      if r' = 0 then .ok (zeroBlocks k p)
      else if mirror then .ok (flipBlocks k p)
      else .ok p
    else .ok p

/-- The sum over the group for one position (unitary_representations.py 188-215). -/
def groupSum (k : ℕ) (inv : Bool) (Z : List (Mat K d × Mat F N)) (ns : List (Fin d → K)) (H : List (Mat F N))
    (r : Fin d → K) : Except Err (Mat F N) :=
  Z.foldlM (fun acc p =>
    match summand k inv ns H (p.1.mulVec r) with
    | .error e => .error e
    | .ok q => .ok (acc + p.2.conjTranspose * q * p.2)) 0

/-- `UnitaryRepresentation.symmetrize` (unitary_representations.py 156-216).  An empty neighbour list is rejected by the
search tree in SciPy; it is not treated specially here. -/
def Rep.symmetrize (ρ : Rep K F d N) (ns : List (Fin d → K)) (H : List (Mat F N)) : Except Err (List (Mat F N)) :=
  if ρ.U.length ≤ 1 then .ok H                                        -- lines 181-182
  else if ns.length ≠ H.length then .error .assertionError            -- line 185
  else if ρ.sym.S.length ≠ ρ.U.length then .error .assertionError     -- line 186
  else match ns.mapM (groupSum ρ.invSplit ρ.sym.inversion (ρ.sym.S.zip ρ.U) ns H) with
    | .error e => .error e
    | .ok R => .ok (R.map fun p => (ρ.U.length : F)⁻¹ • p)            -- line 216

/-! ## `symmetrizer` -/

/-- The three cases of lines 263-282. -/
inductive Kind | center | mirrored | normal
  deriving DecidableEq

/-- The case distinction for `r_ = s @ r` (unitary_representations.py 263-276). -/
def classify (inv : Bool) (ns : List (Fin d → K)) (r' : Fin d → K) : Except Err (ℕ × Kind) :=
  match neighbor ns r' with
  | .error e => .error e
  | .ok (j, mirror) =>
    if inv && decide (r' = 0) then .ok (j, .center)
    else if mirror && inv then .ok (j, .mirrored)
    else if mirror then .error .assertionError                        -- line 276
    else .ok (j, .normal)

/-- The tasks `(i, j, m)` with their kinds, row `i` (the inner loop, lines 260-281). -/
def taskRow (inv : Bool) (S : List (Mat K d)) (ns : List (Fin d → K)) (r : Fin d → K) : Except Err (List (ℕ × Kind)) :=
  S.mapM fun s => classify inv ns (s.mulVec r)

/-- The dictionary `rep_class` of row `i` (lines 259, 271-273, 277-280) as a function of the key. -/
def repClass (i : ℕ) (row : List (ℕ × Kind)) : ℕ → Option (ℕ × Bool) :=
  (row.zipIdx).foldl (fun D t => match t with
    | ((_, .center), _) => D
    | ((j, .mirrored), m) => if j ≠ i ∧ D j = none then (fun x => if x = j then some (m, true) else D x) else D
    | ((j, .normal), m) => if j ≠ i then (fun x => if x = j then some (m, false) else D x) else D) (fun _ => none)

/-- The representatives (keys of `classes`) and the covered indices (lines 282-284), for rows `i, i+1, …`. -/
def classLoop : ℕ → List (List (ℕ × Kind)) → (List ℕ × (ℕ → Bool)) → (List ℕ × (ℕ → Bool))
  | _, [], st => st
  | i, row :: rows, (classes, covered) =>
    classLoop (i + 1) rows
      (if covered i then classes else classes ++ [i], fun x => covered x || (repClass i row x).isSome)

/-- All tasks as triples of one kind (`task_list_r0`, `task_list_rinv`, `task_list_r`). -/
def tasksOf (kind : Kind) (rows : List (List (ℕ × Kind))) : List (ℕ × ℕ × ℕ) :=
  rows.zipIdx.flatMap fun (row, i) => row.zipIdx.filterMap fun (t, m) => if t.2 = kind then some (i, t.1, m) else none

/-- `class_invcopy` (`mirrored = true`) and `class_copy` (`mirrored = false`), lines 299-306: entries `(i, j, m)`. -/
def copies (mirrored : Bool) (n : ℕ) (classes : List ℕ) (rows : List (List (ℕ × Kind))) : List (ℕ × ℕ × ℕ) :=
  classes.flatMap fun i => (List.range n).filterMap fun j =>
    match repClass i (rows.getD i []) j with
    | some (m, b) => if b = mirrored then some (i, j, m) else none
    | none => none

/-- `np.add.at(result, i, conj(u.T) @ params[j] @ u)` with `u = U[m]` (lines 321-323, 328-330). -/
def addAt (U : List (Mat F N)) (H : List (Mat F N)) (tasks : List (ℕ × ℕ × ℕ)) (res : ℕ → Mat F N) : ℕ → Mat F N :=
  fun x => res x + ((tasks.filter fun t => decide (t.1 = x)).map fun t =>
    (U.getD t.2.2 0).conjTranspose * H.getD t.2.1 0 * U.getD t.2.2 0).sum

/-- `result[j] = post(u @ result[i] @ conj(u.T))` for the entries of a copy list (lines 332-344); of several entries with
the same `j` the last one is stored. -/
def copyTo (U : List (Mat F N)) (post : Mat F N → Mat F N) (cs : List (ℕ × ℕ × ℕ)) (res : ℕ → Mat F N) : ℕ → Mat F N :=
  fun x => match cs.reverse.find? (fun c => decide (c.2.1 = x)) with
    | some (i, _, m) => post (U.getD m 0 * res i * (U.getD m 0).conjTranspose)
    | none => res x

/-- The function returned by `symmetrizer` (lines 310-346), given the prepared lists. -/
def symmetrizerFunc (U : List (Mat F N)) (k n r0 : ℕ) (rinv rnorm invcopy copy : List (ℕ × ℕ × ℕ))
    (H : List (Mat F N)) : Except Err (List (Mat F N)) :=
  if n ≠ H.length then .error .assertionError                         -- line 312
  else
    let res0 : ℕ → Mat F N := fun x =>                                -- lines 315-319
      if x = r0 then zeroBlocks k ((U.map fun u => u.conjTranspose * H.getD r0 0 * u).sum) else 0
    let res1 := addAt U H rinv res0                                   -- lines 321-323
    let res2 : ℕ → Mat F N := fun x => flipBlocks k (res1 x)          -- lines 325-326
    let res3 := addAt U H rnorm res2                                  -- lines 328-330
    let res4 := copyTo U (flipBlocks k) invcopy res3                  -- lines 333-339
    let res5 := copyTo U id copy res4                                 -- lines 341-344
    .ok ((List.range n).map fun x => (U.length : F)⁻¹ • res5 x)       -- line 345

/-- `UnitaryRepresentation.symmetrizer` (unitary_representations.py 221-346): the prepared function. -/
def Rep.symmetrizer (ρ : Rep K F d N) (ns : List (Fin d → K)) :
    Except Err (List (Mat F N) → Except Err (List (Mat F N))) :=
  if ρ.U.length ≤ 1 then .ok .ok                                      -- lines 242-243
  else if ρ.sym.S.length ≠ ρ.U.length then .error .assertionError     -- line 244
  else match ns.mapM (taskRow ρ.sym.inversion ρ.sym.S ns) with
    | .error e => .error e
    | .ok rows =>
      let targets := rows.flatten.map Prod.fst
      -- lines 264, 285-287
      if (List.range ns.length).any fun j => decide (targets.count j ≠ ρ.sym.S.length) then .error .valueError
      else
        let classes := (classLoop 0 rows ([], fun _ => false)).1
        let t0 := tasksOf .center rows
        -- lines 289-291: with no central task the index `task_list_r0[0][0]` raises `IndexError`
        match t0 with
        | [] => .error .indexError
        | (r0, _, _) :: _ =>
          if t0.any (fun t => decide (t.1 ≠ t.2.1)) || t0.any (fun t => decide (t.1 ≠ r0)) then .error .assertionError
          -- lines 293-296: an empty task list gives an empty float array as index, which raises `IndexError`
          else if (tasksOf .mirrored rows).isEmpty || (tasksOf .normal rows).isEmpty then .error .indexError
          else
            .ok (symmetrizerFunc ρ.U ρ.invSplit ns.length r0
              ((tasksOf .mirrored rows).filter fun t => decide (t.1 ∈ classes))
              ((tasksOf .normal rows).filter fun t => decide (t.1 ∈ classes))
              (copies true ns.length classes rows) (copies false ns.length classes rows))

/-! ## `symmetrize2`, `realize_symmetric_matrices`, `check_symmetry` -/

/-- `UnitaryRepresentation.symmetrize2` (unitary_representations.py 350-374) for one position `r` with its matrix: the mean
over the operations that leave `r` fixed; the sign `-1` is treated first, its sum is multiplied with the inversion. The
test `|(±s - 1) r|^2 < 1e-7` is idealised to `± s r = r`. -/
def Rep.symmetrize2 (ρ : Rep K F d N) (r : Fin d → K) (H : Mat F N) : Mat F N :=
  let Z := ρ.sym.S.zip ρ.U
  let part (sign : K) := Z.filter fun p => decide ((sign • p.1).mulVec r = r)
  let add (acc : Mat F N) (p : Mat K d × Mat F N) := acc + p.2 * H * p.2.conjTranspose
  let neg := if ρ.sym.inversion then part (-1) else []
  let res1 := neg.foldl add 0
  let res2 := flipBlocks ρ.invSplit res1
  let res3 := (part 1).foldl add res2
  ((neg.length + (part 1).length : ℕ) : F)⁻¹ • res3

/-- The two inner loops of `realize_symmetric_matrices` (unitary_representations.py 389-403) for one point `k ≠ 0`: the used
points and the appended pairs. -/
def realizeStep (inverse : Bool) (data : Mat F N) (k : Fin d → K) (sign : K)
    (st : List (Fin d → K) × List ((Fin d → K) × Mat F N)) (p : Mat K d × Mat F N) :
    List (Fin d → K) × List ((Fin d → K) × Mat F N) :=
  let k' := sign • p.1.mulVec k
  if k' ∈ st.1 then st
  else (st.1 ++ [k'], st.2 ++ [(k', if inverse then p.2 * data * p.2.conjTranspose else p.2.conjTranspose * data * p.2)])

/-- The points appended for one given point (lines 383-403); nothing for the origin. -/
def Rep.realizeOne (ρ : Rep K F d N) (inverse : Bool) (k : Fin d → K) (data : Mat F N) : List ((Fin d → K) × Mat F N) :=
  if k = 0 then []
  else ((if ρ.sym.inversion then [1, -1] else [1]).foldl
    (fun st (sign : K) => (ρ.sym.S.zip ρ.U).foldl (realizeStep inverse data k sign) st) ([k], [])).2

/-- `UnitaryRepresentation.realize_symmetric_matrices` (unitary_representations.py 379-411) with `sorted=False`; result:
the list of pairs (point, matrix). With `sorted=True` the same pairs are returned in another order. -/
def Rep.realizeMatrices (ρ : Rep K F d N) (inverse : Bool) (ks : List ((Fin d → K) × Mat F N)) :
    List ((Fin d → K) × Mat F N) :=
  ks ++ ks.flatMap fun kd => ρ.realizeOne inverse kd.1 kd.2

/-- `UnitaryRepresentation.check_symmetry` (unitary_representations.py 413-437): line 425 replaces the random sample by one
point.  A standard deviation of zero means that all values agree. For `d ≠ 3` the product `s @ k` raises `ValueError`. -/
def Rep.checkSymmetry (ρ : Rep K F d N) (h : (Fin d → K) → Mat F N) : Except Err Bool :=
  if d ≠ 3 then .error .valueError
  else
    let k : Fin d → K := fun i => if i.val = 1 then 1 / 2 else 0
    let values := (ρ.sym.S.zip ρ.U).map fun p => p.2.conjTranspose * h (p.1.mulVec k) * p.2
    .ok (values.all fun v => decide (some v = values.head?))

/-! ## `permute`, `+`, `*` -/

/-- `UnitaryRepresentation.permute` (unitary_representations.py 451-458) with an index array of the length of the
dimension. -/
def Rep.permute (ρ : Rep K F d N) (order : Fin N → Fin N) : Rep K F d N × Except Err Unit :=
  if (List.finRange N).all fun i => decide (i.val < ρ.invSplit) == decide ((order i).val < ρ.invSplit) then
    ({ ρ with U := ρ.U.map fun u => u.submatrix order order }, .ok ())
  else (ρ, .error .assertionError)

/-- `direct_sum(a, b)` as matrix of dimension `N + M`. -/
def dsumL (a : Mat F N) (b : Mat F M) : Mat F (N + M) :=
  (Matrix.fromBlocks a 0 0 b).submatrix finSumFinEquiv.symm finSumFinEquiv.symm

/-- `direct_sum(b, a)` as matrix of dimension `N + M` (the dimension is `M + N` up to commutativity). -/
def dsumR (a : Mat F N) (b : Mat F M) : Mat F (N + M) :=
  (dsumL b a).submatrix (finCongr (Nat.add_comm N M)) (finCongr (Nat.add_comm N M))

/-- `UnitaryRepresentation.__add__` (unitary_representations.py 461-485).  The new matrices are stored in the array
`np.eye(...)` of floats: `flt` is the conversion of one entry (the identity on real numbers; the imaginary part is
discarded with a warning). -/
def Rep.add (flt : F → F) (ρ : Rep K F d N) (τ : Rep K F d M) : Except Err (Rep K F d (N + M)) :=
  match τ.copy with
  | .error e => .error e
  | .ok τ0 =>
    match τ0.matchSym ρ.sym with
    | (_, .error e) => .error e
    | (τ1, .ok _) =>
      let right := List.zipWith (fun a b => (dsumR a b).map flt) ρ.U τ1.U
      let left := List.zipWith (fun a b => (dsumL a b).map flt) ρ.U τ1.U
      let k := ρ.invSplit + τ1.invSplit
      if ρ.invSplit = 0 then .ok ⟨ρ.sym, right, k⟩
      else if ρ.invSplit = N then .ok ⟨ρ.sym, left, k⟩
      else if τ1.invSplit = 0 then .ok ⟨ρ.sym, left, k⟩
      else if τ1.invSplit = M then .ok ⟨ρ.sym, right, k⟩
      else .error .valueError

/-- `UnitaryRepresentation.__mul__` with an integer `n ≥ 0` (unitary_representations.py 490-497). -/
def Rep.mulNat (ρ : Rep K F d N) (n : ℕ) : Except Err (Rep K F d (N * n)) :=
  match ρ.copy with
  | .error e => .error e
  | .ok ρ0 => .ok ⟨ρ0.sym,
      ρ0.U.map fun u => (Matrix.kroneckerMap (· * ·) u (1 : Mat F n)).submatrix finProdFinEquiv.symm finProdFinEquiv.symm,
      ρ0.invSplit * n⟩

/-- `UnitaryRepresentation.__mul__` with another representation (unitary_representations.py 498-524): `len(res)` of an
object without `__len__` raises `TypeError` (lines 506 and 517) before anything is computed. -/
def Rep.mulRep (ρ : Rep K F d N) (τ : Rep K F d M) : Except Err (Rep K F d (N * M)) :=
  match τ.copy with
  | .error e => .error e
  | .ok τ0 =>
    match τ0.matchSym ρ.sym with
    | (_, .error e) => .error e
    | (_, .ok _) =>
      if τ.invSplit = 0 ∨ τ.invSplit = M then .error .typeError
      else if ρ.invSplit = 0 ∨ ρ.invSplit = N then .error .typeError
      else .error .valueError

/-! ## Named representations of the cubic group -/

/-- `np.where(abs(trace) == 1 & prod(diag) == 0, -1, 1)` (unitary_representations.py 553, 563). -/
def quarterSign (s : Mat K 3) : K :=
  if |s.trace| = 1 ∧ (∏ i, s i i) = 0 then -1 else 1

end TB.UR

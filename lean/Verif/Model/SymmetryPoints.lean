import Mathlib.LinearAlgebra.Matrix.Determinant.Basic
import Mathlib.Algebra.Order.Floor.Ring
import Mathlib.Data.List.Sort
import Mathlib.Data.Sign.Basic
import Verif.Model.Symmetry

/-!
# Model of `symmetry.py`: acting on points, data and tensors

Same idealisations as in `Verif.Model.Symmetry`.  The rounding functions that the code uses in sort keys are kept
as parameters: `κ` stands for `x ↦ np.round(x + np.pi, 4)` (lines 577-579, 658-660) and `ρ` for
`x ↦ np.round(x, 2)` (lines 668-669).
-/

namespace TB

variable {K : Type} [Field K] [LinearOrder K] [IsStrictOrderedRing K] {d : ℕ}

/-- Points of the (reciprocal) space. -/
abbrev Vec (K : Type) (d : ℕ) := Fin d → K

/-- `[-1, 1] if self.inversion else [1]` (symmetry.py 776, 795). -/
def Sym.signs (σ : Sym K d) : List K := if σ.inversion then [-1, 1] else [1]

/-- `Symmetry.r_class_size` for one point (symmetry.py 782-799).  Python's division by zero cannot happen for a
constructed symmetry because the identity always counts. -/
def Sym.rClassSize (σ : Sym K d) (k : Vec K d) : K :=
  (σ.len : K) / (((σ.signs.map fun sg =>
    σ.S.countP fun s => decide ((sg • s - 1).mulVec k = 0)).sum : ℕ) : K)

/-- `pingpong_distance` (symmetry.py 773-774). -/
def pingpong [FloorRing K] (x : K) : K := 1 / 2 - |Int.fract x - 1 / 2|

/-- `Symmetry.k_weight` for one point (symmetry.py 760-780); `< 1e-7` idealised to `= 0`. -/
def Sym.kWeight [FloorRing K] (σ : Sym K d) (k : Vec K d) : K :=
  1 / (((σ.signs.map fun sg =>
    σ.S.countP fun s => decide (∑ i, pingpong ((sg • s - 1).mulVec k i) = 0)).sum : ℕ) : K)

/-- The images `s @ k * inv` in the order of the two nested loops (symmetry.py 554-556; also 681-683). -/
def Sym.images (σ : Sym K d) (k : Vec K d) : List (Vec K d) :=
  (if σ.inversion then [(1 : K), -1] else [1]).flatMap fun inv =>
    σ.S.map fun s => inv • s.mulVec k

/-- The points appended to `full_k` for one input point (symmetry.py 550-562): images that were not used yet;
`scale == 0` skips the point. -/
def Sym.orbitNew (σ : Sym K d) (k : Vec K d) : List (Vec K d) :=
  if k = 0 then [] else ((σ.images k).foldl addNew [k]).drop 1

/-- `full_k`, `order` before sorting (symmetry.py 545-564), as a list of pairs (point, source index). -/
def Sym.fullK (σ : Sym K d) (ks : List (Vec K d)) : List (Vec K d × ℕ) :=
  ks.zipIdx ++ ks.zipIdx.flatMap fun p => (σ.orbitNew p.1).map fun x => (x, p.2)

/-- Folding into `[-0.5, 0.5[` (symmetry.py 565-573), all tolerances idealised. -/
def wrapCell [FloorRing K] (x : K) : K := Int.fract (x + 1 / 2) - 1 / 2

/-- Stable sort by a key (`np.argsort(..., kind='stable')`); any stable sort gives the same list. -/
def stableSort {α β : Type} [LinearOrder β] (key : α → β) (l : List α) : List α :=
  l.insertionSort fun a b => key a ≤ key b

/-- The loop `for i in range(len(k_smpl[0]))` of stable sorts (symmetry.py 575-581): first by coordinate 0, last by
coordinate `d-1`. -/
def sortCoords {α : Type} (κ : K → K) (pt : α → Vec K d) (l : List α) : List α :=
  (List.finRange d).foldl (fun l i => stableSort (fun a => κ (pt a i)) l) l

/-- Removal of adjacent duplicates, keeping the first (symmetry.py 584-604 with
`collect_bad_duplicates=False`): entry `i` is dropped when it equals entry `i-1` of the sorted list. -/
def dedupAdj {α : Type} (pt : α → Vec K d) : α → List α → List α
  | _, [] => []
  | prev, x :: l => if pt prev = pt x then dedupAdj pt x l else x :: dedupAdj pt x l

/-- `Symmetry.realize_symmetric` (symmetry.py 526-613) with `collect_bad_duplicates=False`; result: list of pairs
(point, source index). An empty input raises `IndexError` (line 575). Only a warning is issued for duplicates. -/
def Sym.realize [FloorRing K] (σ : Sym K d) (κ : K → K) (unitCell : Bool) (ks : List (Vec K d)) :
    Except Err (List (Vec K d × ℕ)) :=
  if ks.isEmpty then .error .indexError
  else
    let full := (σ.fullK ks).map fun p => if unitCell then (fun i => wrapCell (p.1 i), p.2) else p
    match sortCoords κ Prod.fst full with
    | [] => .error .indexError
    | x :: l => .ok (x :: dedupAdj Prod.fst x l)

/-- `Symmetry.realize_symmetric_data` (symmetry.py 615-637), `average_bad_duplicates=False`: fancy indexing
`data[order]` raises `IndexError` for an index out of range. -/
def Sym.realizeData [FloorRing K] {D : Type} (σ : Sym K d) (κ : K → K) (unitCell : Bool)
    (ks : List (Vec K d)) (data : List D) : Except Err (List (Vec K d × D)) :=
  match σ.realize κ unitCell ks with
  | .error e => .error e
  | .ok l => l.mapM fun p => match data[p.2]? with
    | some v => .ok (p.1, v)
    | none => .error .indexError

/-- squared euclidean norm -/
def sqNorm (v : Vec K d) : K := ∑ i, v i ^ 2

/-- `Symmetry.is_orthogonal` (symmetry.py 126-128) for real matrices. -/
def Sym.isOrthogonal (σ : Sym K d) : Bool := σ.S.all fun s => decide (s * s.transpose = 1)

/-- The inner `while j < len(reduced_k)` loop (symmetry.py 687-698): scan the points after `k`, stop at the first
one with `norm > scale * 1.0001`, delete those equal to the image `k_`, raise if `checked` and the data differs. -/
def delImage {D : Type} [DecidableEq D] (checked : Bool) (k : Vec K d) (v : D) (k' : Vec K d) :
    List (Vec K d × D) → Except Err (List (Vec K d × D))
  | [] => .ok []
  | p :: l =>
    if sqNorm k * (10001 / 10000) ^ 2 < sqNorm p.1 then .ok (p :: l)
    else if p.1 = k' then
      if checked && decide (p.2 ≠ v) then .error .valueError else delImage checked k v k' l
    else match delImage checked k v k' l with
      | .error e => .error e
      | .ok l' => .ok (p :: l')

/-- The two image loops (symmetry.py 681-698): images equal to `k` itself are skipped. -/
def delImages {D : Type} [DecidableEq D] (checked : Bool) (k : Vec K d) (v : D) :
    List (Vec K d) → List (Vec K d × D) → Except Err (List (Vec K d × D))
  | [], l => .ok l
  | k' :: is, l =>
    if k = k' then delImages checked k v is l
    else match delImage checked k v k' l with
      | .error e => .error e
      | .ok l' => delImages checked k v is l'

/-- The outer `while i < len(reduced_k)` loop (symmetry.py 673-698); the first argument bounds the number of
iterations (the list of remaining points shrinks, so its length suffices). -/
def Sym.reduceLoop {D : Type} [DecidableEq D] (σ : Sym K d) (checked : Bool) :
    ℕ → List (Vec K d × D) → Except Err (List (Vec K d × D))
  | _, [] => .ok []
  | 0, l => .ok l
  | n + 1, p :: l =>
    match (if p.1 = 0 then .ok l else delImages checked p.1 p.2 (σ.images p.1) l) with
    | .error e => .error e
    | .ok l' => match σ.reduceLoop checked n l' with
      | .error e => .error e
      | .ok r => .ok (p :: r)

/-- `Symmetry.reduce_symmetric_data` (symmetry.py 639-699) on the list of pairs (point, data). -/
def Sym.reduce {D : Type} [DecidableEq D] (σ : Sym K d) (κ ρ : K → K) (checked : Bool)
    (ks : List (Vec K d × D)) : Except Err (List (Vec K d × D)) :=
  if ks.isEmpty then .error .indexError
  else
    let l := sortCoords κ Prod.fst ks
    if !σ.isOrthogonal then .error .assertionError
    else
      let l := stableSort (fun p => ρ (sqNorm p.1)) l
      σ.reduceLoop checked l.length l

/-- `next((x for x in n if abs(x) > 1e-7), 1) > 0` (symmetry.py 722-723). -/
def firstPositive (v : Vec K d) : Bool :=
  match (List.finRange d).find? (fun i => decide (v i ≠ 0)) with
  | some i => decide (0 < v i)
  | none => true

/-- `Symmetry.complete_neighbors` (symmetry.py 701-729) with `return_order=True`. -/
def Sym.completeNeighbors [FloorRing K] (σ : Sym K d) (κ : K → K) (ns : List (Vec K d)) :
    Except Err (List (Vec K d × ℕ)) :=
  match σ.transpose with
  | .error e => .error e
  | .ok τ => match τ.realize κ false ns with
    | .error e => .error e
    | .ok l =>
      -- lines 715-720: keep the first of equal positions
      let l1 := l.foldl (fun acc p => if p.1 ∈ acc.map Prod.fst then acc else acc ++ [p]) []
      -- lines 721-723: drop the negative versions
      let l2 := l1.filter fun p => firstPositive p.1
      -- line 724: `sorted` is stable
      .ok (stableSort (fun p => sqNorm p.1) l2)

/-- `neighbor_function` / `try_neighbor_function` (symmetry.py 12-62): KD-tree query with tolerance idealised to
exact lookup; of several equal positions the first one is returned. -/
def tryNeighbor (ns : List (Vec K d)) (r : Vec K d) : Option (ℕ × Bool) :=
  match ns.findIdx? (fun n => decide (n = r)) with
  | some j => some (j, false)
  | none => match ns.findIdx? (fun n => decide (n = -r)) with
    | some j => some (j, true)
    | none => none

/-- `neighbor_function` (symmetry.py 12-34). -/
def neighbor (ns : List (Vec K d)) (r : Vec K d) : Except Err (ℕ × Bool) :=
  match tryNeighbor ns r with
  | some p => .ok p
  | none => .error .valueError

/-- `Symmetry.find_classes` (symmetry.py 801-825): state is the list of (representative, class) and the covered
indices.  A class is the set of indices of images that are listed (`argmin` gives the first such index). -/
def Sym.classOf (σ : Sym K d) (pts : List (Vec K d)) (r : Vec K d) : List ℕ :=
  σ.S.filterMap fun s => pts.findIdx? fun p => decide (p = s.mulVec r)

/-- loop of `find_classes` (symmetry.py 814-824) -/
def Sym.findClasses (σ : Sym K d) (pts : List (Vec K d)) : List (ℕ × List ℕ) :=
  (pts.zipIdx.foldl (fun (st : List (ℕ × List ℕ) × List ℕ) p =>
    let c := σ.classOf pts p.1
    (if p.2 ∈ st.2 then st.1 else st.1 ++ [(p.2, c)], st.2 ++ c)) ([], [])).1

/-- The inner scan of `equivalence_classes` (symmetry.py 874-878): from the end of `rem` to its start, related
elements are moved to `unique`. `rem` is represented reversed (last element first), so the scan runs from the
front: first component = moved elements in order, second = remaining (still reversed). -/
def scanClass {α : Type} (rel : α → α → Bool) (s : α) : List α → List α × List α
  | [] => ([], [])
  | x :: l =>
    let r := scanClass rel s l
    if rel s x then (x :: r.1, r.2) else (r.1, x :: r.2)

/-- `Symmetry.equivalence_classes` (symmetry.py 856-880) on the reversed list `rem`; the first argument bounds the
number of iterations. -/
def eqClassesLoop {α : Type} (rel : α → α → Bool) : ℕ → List α → List (List α)
  | _, [] => []
  | 0, _ :: _ => []
  | n + 1, s :: rem =>
    let r := scanClass rel s rem
    (s :: r.1) :: eqClassesLoop rel n r.2

/-- `Symmetry.equivalence_classes` (symmetry.py 856-880). -/
def Sym.equivalenceClasses (σ : Sym K d) (rel : Mat K d → Mat K d → Bool) : List (List (Mat K d)) :=
  eqClassesLoop rel σ.ops.length σ.ops.reverse

/-- `conjugated` (symmetry.py 888-893). -/
def Sym.conjugated (σ : Sym K d) (a b : Mat K d) : Bool :=
  σ.S.any fun s => decide (s * a * minv s = b)

/-- `Symmetry.conjugacy_classes` (symmetry.py 882-894). -/
def Sym.conjugacyClasses (σ : Sym K d) : List (List (Mat K d)) :=
  σ.equivalenceClasses σ.conjugated

/-- Components of the transformed tensor in `Symmetry.symmetrize` (symmetry.py 843-852): for the first `p` indices a
factor `inv_s[out, in]`, for the others `s[in, out]`, times the sign for pseudo tensors.  (The code's letter trick
limits the rank to 13; the model does not.) -/
def tensorTransform {n : ℕ} (p : ℕ) (pseudo : Bool) (s : Mat K d)
    (T : (Fin n → Fin d) → K) (out : Fin n → Fin d) : K :=
  ∑ inn : Fin n → Fin d,
    (∏ i : Fin n, if i.val < p then minv s (out i) (inn i) else s (inn i) (out i)) *
      (T inn * (if pseudo then (SignType.sign s.det : K) else 1))

/-- `Symmetry.symmetrize` (symmetry.py 827-854) for a tensor with `p` left and `n-p` right indices. -/
def Sym.symmetrizeTensor {n : ℕ} (σ : Sym K d) (p : ℕ) (pseudo : Bool)
    (T : (Fin n → Fin d) → K) (out : Fin n → Fin d) : K :=
  (σ.S.map fun s => tensorTransform p pseudo s T out).sum / (σ.S.length : K)

end TB

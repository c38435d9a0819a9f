import Mathlib.Analysis.Real.Sqrt
import Mathlib.Algebra.BigOperators.Intervals
import Verif.Model.Err

/-!
# Model of `kpaths.py`: `KPath`

Points are lists of real numbers (any dimension).  A point argument is a name, a number array, or a plain number (which is
what the elements of a tuple such as `(0, 0, 0)` are).  The texts produced for unnamed points are given by the
parameters `fmt0` (`str(np.array(..))`, line 56) and `fmt` (line 76).
Plotting and `__str__` are not modelled.
-/

namespace TB

/-- A point in k space. -/
abbrev Pt := List ℝ

/-- `a - b`, `a + b` and `t * a` on arrays of equal length. -/
def Pt.sub (a b : Pt) : Pt := List.zipWith (fun x y => x - y) a b
@[inherit_doc Pt.sub] def Pt.add (a b : Pt) : Pt := List.zipWith (fun x y => x + y) a b
@[inherit_doc Pt.sub] def Pt.smul (t : ℝ) (a : Pt) : Pt := a.map fun x => t * x

/-- `np.linalg.norm`. -/
noncomputable def Pt.norm (a : Pt) : ℝ := Real.sqrt (a.map fun x => x ^ 2).sum

/-- An argument which describes a point. -/
inductive PArg
  | str (s : String)
  | arr (p : Pt)
  | num (x : ℝ)

/-- The dictionary of named points with their display names. -/
abbrev Points := String → Option (Pt × String)

/-- Object state of `KPath` (kpaths.py 45-57). -/
structure KPath where
  path : List Pt
  indices : List ℕ
  names : List String

/-- Texts for unnamed points. -/
structure Fmt where
  fmt0 : Pt → String
  fmt : Pt → String

/-- Lines 71-78 of `to` (kpaths.py): the names afterwards, and the point or the exception. -/
def resolve (F : Fmt) (D : Points) (names : List String) (p : PArg) (name : Option String) :
    List String × Except Err Pt :=
  match p, name with
  | .str s, some nm =>
    match D s with
    | none => (names ++ [nm], .error .keyError)
    | some q => (names ++ [nm], .ok q.1)
  | .str s, none =>
    match D s with
    | none => (names, .error .keyError)
    | some q => (names ++ [q.2], .ok q.1)
  | .arr q, nm => (names ++ [nm.getD (F.fmt q)], .ok q)
  | .num x, some nm => (names ++ [nm], .ok [x])
  | .num _, none => (names, .error .typeError)

/-- The points of lines 81-82: `t = i / N + 1 / N`, `last + t * (point - last)`. -/
noncomputable def segment (last point : Pt) (N : ℕ) : List Pt :=
  (List.range N).map fun i : ℕ => last.add (Pt.smul ((i : ℝ) / N + 1 / N) (point.sub last))

/-- `KPath.to` (kpaths.py 60-84). -/
noncomputable def KPath.to (F : Fmt) (D : Points) (s : KPath) (p : PArg) (name : Option String) (N : ℤ) :
    KPath × Except Err Unit :=
  let r := resolve F D s.names p name
  let s1 := { s with names := r.1 }
  match r.2 with
  | .error e => (s1, .error e)
  | .ok q =>
    if q.length ≠ (s.path.headD []).length then (s1, .error .assertionError)
    else if N < 0 then (s1, .error .valueError)
    else if N = 0 then (s1, .error .zeroDivision)
    else
      let path := s.path ++ segment (s.path.getLastD []) q N.toNat
      ({ s1 with path := path, indices := s.indices ++ [path.length - 1] }, .ok ())

/-- The argument `start` of the constructor: one point, or a list or tuple of points. -/
inductive StartArg
  | one (p : PArg)
  | many (l : List PArg)

/-- Lines 51-56 of the constructor (kpaths.py). -/
def startPath (F : Fmt) (D : Points) (start : PArg) (name : Option String) : Except Err KPath :=
  match start with
  | .str s =>
    match D s with
    | none => .error .keyError
    | some q => .ok ⟨[q.1], [0], [name.getD q.2]⟩
  | .arr p => .ok ⟨[p], [0], [name.getD (F.fmt0 p)]⟩
  | .num x => .ok ⟨[[x]], [0], [name.getD (F.fmt0 [x])]⟩

/-- The loop of lines 57-58 with the default `N = 32`; the first exception ends it. -/
noncomputable def addAll (F : Fmt) (D : Points) (s : KPath) : List PArg → Except Err KPath
  | [] => .ok s
  | p :: ps =>
    match s.to F D p none 32 with
    | (_, .error e) => .error e
    | (s', .ok _) => addAll F D s' ps

/-- `KPath.__init__` (kpaths.py 34-58). -/
noncomputable def KPath.new (F : Fmt) (D : Points) (start : StartArg) (name : Option String) : Except Err KPath :=
  match start with
  | .one p => startPath F D p name
  | .many [] => .error .indexError
  | .many (p :: ps) =>
    match startPath F D p name with
    | .error e => .error e
    | .ok s => addAll F D s ps

/-- `KPath.x` (kpaths.py 86-95). -/
noncomputable def KPath.x (s : KPath) : List ℝ :=
  (List.range (s.path.length - 1)).foldl (fun x i =>
    x ++ [x.getLastD 0 + ((s.path.getD (i + 1) []).sub (s.path.getD i [])).norm]) [0]

/-- `KPath.sym_x` (kpaths.py 97-112). -/
noncomputable def KPath.symX (s : KPath) : List ℝ :=
  ((List.range (s.path.length - 1)).foldl (fun (acc : ℝ × List ℝ) i =>
    let l := acc.1 + ((s.path.getD (i + 1) []).sub (s.path.getD i [])).norm
    (l, if i + 1 ∈ s.indices then acc.2 ++ [l] else acc.2)) (0, if 0 ∈ s.indices then [0] else [])).2

end TB

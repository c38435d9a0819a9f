import Verif.Model.SymmetryPoints

/-!
# Model of `Symmetry.__truediv__`, `Symmetry.subgroup` (symmetry.py)

Matrix equality up to `1e-7` is idealised to equality.
-/

namespace TB

variable {K : Type} [Field K] [LinearOrder K] [IsStrictOrderedRing K] {d : ℕ}

/-- `left(a, b)` (symmetry.py 984-990): `a⁻¹ b` is listed in `rhs.S`. -/
def leftRel (H : List (Mat K d)) (a b : Mat K d) : Bool := H.contains (minv a * b)

/-- Lines 1003-1010: increasing powers of all elements of the class until one of them is the identity; those are kept.
The first argument is the number of remaining rounds of `range(len(self.S) + 1)`; pairs (power, element). -/
def ordSelect : ℕ → List (Mat K d × Mat K d) → List (Mat K d)
  | 0, _ => []
  | n + 1, l =>
    let l' := l.map fun p => (p.1 * p.2, p.2)
    let c := (l'.filter fun p => decide (p.1 = 1)).map Prod.snd
    if c.isEmpty then ordSelect n l' else c

/-- Lines 1000-1010 for one class.  An empty class (left by an earlier round) makes the broadcast
`np.zeros_like(base) + np.eye(d)[None]` raise `ValueError`. -/
def selectClass (n : ℕ) (c : List (Mat K d)) : Except Err (List (Mat K d)) :=
  if c.isEmpty then .error .valueError else .ok (ordSelect n (c.map fun a => (1, a)))

/-- `while True` (symmetry.py 998-1034); the first argument bounds the number of rounds, `none` = still running. -/
def divLoop (N : ℕ) : ℕ → List (List (Mat K d)) → Option (Except Err (List (List (Mat K d))))
  | 0, _ => none
  | n + 1, cs =>
    match cs.mapM (selectClass N) with
    | .error e => some (.error e)
    | .ok cs =>
      match cs.find? (fun c => decide (1 < c.length)) with
      | none => some (.ok cs)
      | some [] => some (.ok cs)  -- not reachable, the class found has at least two elements
      | some (b :: _) => divLoop N n (cs.map fun c => (c.map fun s => minv b * s).foldl addNew [])

/-- `classes[0][0]`, `c[0]` (symmetry.py 1036-1037): `IndexError` for an empty class. -/
def firstOf : List (Mat K d) → Except Err (Mat K d)
  | [] => .error .indexError
  | a :: _ => .ok a

/-- `Symmetry.__truediv__` (symmetry.py 977-1041).  The result `none` stands for a computation that needs more than
`fuel` rounds of the `while` loop. -/
def Sym.div (fuel : ℕ) (σ rhs : Sym K d) : Option (Except Err (Sym K d)) :=
  if !((σ.inversion || !rhs.inversion) && decide (σ.S.length % rhs.S.length = 0)) then some (.error .assertionError)
  else
    let classes := σ.equivalenceClasses (leftRel rhs.S)
    if classes.length ≠ σ.len / rhs.len then some (.error .assertionError)
    else match divLoop (σ.S.length + 1) fuel classes with
      | none => none
      | some (.error e) => some (.error e)
      | some (.ok cs) =>
        match cs.mapM firstOf with
        | .error e => some (.error e)
        | .ok [] => some (.error .indexError)
        | .ok (x0 :: xs) =>
          match mkSym ((x0 :: xs).map fun x => x * minv x0) (σ.inversion && rhs.inversion) with
          | .error e => some (.error e)
          | .ok τ => match τ.check with
            | .error e => some (.error e)
            | .ok false => some (.error .valueError)
            | .ok true => some (.ok τ)

/-- `Symmetry.subgroup` (symmetry.py 896-915); the class function has values in `V`, closeness is idealised to
equality.  `abs(invariant_func(-self.S[0]) - value)` requires scalar values; the model only needs equality. -/
def Sym.subgroup {V : Type} [DecidableEq V] (σ : Sym K d) (f : Mat K d → V) : Except Err (Sym K d) :=
  match σ.S with
  | [] => .error .indexError
  | s0 :: rest =>
    match mkSym (s0 :: rest.filter fun s => decide (f s = f s0)) (σ.inversion && decide (f (-s0) = f s0)) with
    | .error e => .error e
    | .ok τ => match τ.check with
      | .error e => .error e
      | .ok false => .error .assertionError
      | .ok true => .ok τ

end TB

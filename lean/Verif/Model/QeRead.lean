import Mathlib.Data.Complex.Basic
import Mathlib.Data.Int.Interval
import Verif.Model.Err

/-!
# Model of readers of `qespresso_interface.py`

`QECrystal.read_bandx_raw` (431-447), `read_projections_order_spilling` (574-603), `read_projections` (606-666), `read_valence_electrons`
(673-691), `set_cutoff_from_pseudopotentials` (694-708).

Not modelled: the splitting of the files into numbers, names and XML elements; the files are given by these.
-/

namespace TB.QeRead
open TB

/-! ## `read_bandx_raw` -/

/-- `np.array(numbers).reshape(-1, width)` with `width > 0`. -/
def reshape (width : ℕ) : ℕ → List ℝ → Except Err (List (List ℝ))
  | 0, _ => .ok []
  | _ + 1, [] => .ok []
  | n + 1, x :: l => do
    if (x :: l).length < width then .error .valueError
    else do
      let r ← reshape width n ((x :: l).drop width)
      pure ((x :: l).take width :: r)

/-- `read_bandx_raw` (431-447): `nbnd` is the number in the header (`none`: there is none, `IndexError`), `lines` are the numbers of the
further lines.  The header `nbnd = -3` (zero columns) and below is a `ValueError` of `reshape`. -/
def readBandxRaw (nbnd : Option ℤ) (lines : List (List ℝ)) : Except Err (List (List ℝ) × List (List ℝ)) :=
  match nbnd with
  | none => .error .indexError
  | some nb => do
    let numbers := lines.foldl (fun a l => a ++ l) []          -- lines 439-443
    if nb + 3 ≤ 0 then .error .valueError
    else do
      let rows ← reshape (nb + 3).toNat numbers.length numbers
      pure (rows.map fun r => r.take 3, rows.map fun r => r.drop 3)

/-! ## `read_projections_order_spilling` -/

/-- `if self.types:` for a numpy array of strings: an empty array is false, one non-empty string is true, more raise `ValueError`. -/
def truth : List String → Except Err Bool
  | [] => .ok false
  | [t] => .ok (t ≠ "")
  | _ => .error .valueError

/-- `x[i]` for a Python index. -/
def pyItem {α : Type} (l : List α) (i : ℤ) : Except Err α :=
  if 0 ≤ i then (match l[i.toNat]? with | some x => .ok x | none => .error .indexError)
  else if 0 ≤ i + l.length then (match l[(i + l.length).toNat]? with | some x => .ok x | none => .error .indexError)
  else .error .indexError

/-- Line 597: `"charge" not in key and key not in ["p", "d", "f"]`. -/
def wanted (hasCharge : String → Bool) (key : String) : Bool := !hasCharge key && !(["p", "d", "f"].contains key)

/-- The inner loop (592-601) over the keys of one atom. -/
def keyLoop (types : List String) (hasCharge : String → Bool) (index : ℤ) : List String → List String → Except Err (List String)
  | [], order => .ok order
  | key :: l, order =>
    if wanted hasCharge key then do
      let b ← truth types
      if b then do
        let t ← pyItem types (index - 1)
        keyLoop types hasCharge index l (order ++ [toString index ++ t ++ "_" ++ key])
      else keyLoop types hasCharge index l (order ++ [toString index ++ "_" ++ key])
    else keyLoop types hasCharge index l order

/-- `read_projections_order_spilling` (574-603): `atoms` are the index and the keys of the blocks "Atom #", `spilling` the number. -/
def readOrder (types : List String) (hasCharge : String → Bool) (atoms : List (ℤ × List String)) (spilling : ℝ) :
    Except Err (List String × ℝ) := do
  let order ← atoms.foldlM (fun o a => keyLoop types hasCharge a.1 a.2 o) []
  pure (order, spilling)

/-! ## `read_projections` -/

/-- An element `ATOMIC_WFC`. -/
structure Wfc where
  index : ℤ
  spin : ℤ
  data : List ℝ

/-- The document: attributes of `HEADER`, and the elements `K-POINT`, `E`, `PROJS`, `OVPS`. -/
structure ProjFile where
  fermi : ℝ
  electrons : ℝ
  bands : ℕ
  ks : ℕ
  spins : ℕ
  wfcs : ℕ
  kList : List (List ℝ)
  eList : List (List ℝ)
  projList : List (List Wfc)
  overlapList : List (List ℝ)

/-- The position of a Python index in an axis of length `n`. -/
def axis (n : ℕ) (i : ℤ) : Except Err ℕ :=
  if 0 ≤ i ∧ i < n then .ok i.toNat else if i < 0 ∧ 0 ≤ i + n then .ok (i + n).toNat else .error .indexError

/-- A row assigned to an axis of length `n`: a row of length one is repeated. -/
def fill {α : Type} (n : ℕ) (l : List α) : Except Err (List α) :=
  if l.length = n then .ok l
  else match l with
    | [x] => .ok (List.replicate n x)
    | _ => .error .valueError

/-- `data[::2] + 1j*data[1::2]` (an odd number of numbers is taken as `ValueError`; broadcasting could save the lengths 1 and 3). -/
def pairs : List ℝ → Except Err (List ℂ)
  | [] => .ok []
  | [_] => .error .valueError
  | x :: y :: l => (pairs l).map fun r => ⟨x, y⟩ :: r

abbrev Arr2 := ℕ → ℕ → ℝ
abbrev Arr3 := ℕ → ℕ → ℕ → ℂ
abbrev Arr4 := ℕ → ℕ → ℕ → ℕ → ℂ

/-- `a[i] = row` for a real array with `n` rows of length `m`. -/
def setRow (n m i : ℕ) (row : List ℝ) (a : Arr2) : Except Err Arr2 := do
  let i ← axis n i
  let r ← fill m row
  pure fun i' j => if i' = i then r.getD j 0 else a i' j

/-- `projections[i, :, spin_index, index] = …` (650-654). -/
def setWfc (f : ProjFile) (i : ℕ) (a : Arr4) (w : Wfc) : Except Err Arr4 := do
  let z ← pairs w.data
  let i ← axis f.ks i
  let s ← axis f.spins (w.spin - 1)
  let x ← axis f.wfcs (w.index - 1)
  let r ← fill f.bands z
  pure fun i' b s' x' => if i' = i ∧ s' = s ∧ x' = x then r.getD b 0 else a i' b s' x'

/-- The loop over the k-points (647-654) from number `i` on. -/
def kLoop (f : ProjFile) : ℕ → List (List ℝ) → List (List ℝ) → List (List Wfc) → Arr2 × Arr2 × Arr4 → Except Err (Arr2 × Arr2 × Arr4)
  | i, k :: ks, e :: es, p :: ps, (a, b, c) => do
    let a ← setRow f.ks 3 i k a
    let b ← setRow f.ks f.bands i e b
    let c ← p.foldlM (setWfc f i) c
    kLoop f (i + 1) ks es ps (a, b, c)
  | _, _, _, _, r => .ok r

/-- The loop over the overlaps (659-662): `overlaps[i].ravel()` is a view, the sum is written to row `x`, column `y` from place `x*n + y`. -/
def overlapLoop (f : ProjFile) : ℕ → List (List ℝ) → Arr3 → Except Err Arr3
  | _, [], o => .ok o
  | i, d :: l, o => do
    let z ← pairs d
    let j ← axis f.ks i
    let r ← fill ((f.spins * f.wfcs) * (f.spins * f.wfcs)) z
    overlapLoop f (i + 1) l fun i' x y =>
      if i' = j ∧ x < f.spins * f.wfcs ∧ y < f.spins * f.wfcs then o i' x y + r.getD (x * (f.spins * f.wfcs) + y) 0 else o i' x y

/-- The returned tuple; `overlaps` only if there are such elements. -/
structure Projections where
  k : Arr2
  bands : Arr2
  proj : Arr4
  overlaps : Option Arr3
  fermi : ℝ
  electrons : ℝ

/-- `read_projections` (606-666); `ry` is `to_eV`. -/
def readProjections (ry : ℝ) (f : ProjFile) : Except Err Projections := do
  let (a, b, c) ← kLoop f 0 f.kList f.eList f.projList (fun _ _ => 0, fun _ _ => 0, fun _ _ _ _ => 0)
  if f.overlapList ≠ [] then do
    let o ← overlapLoop f 0 f.overlapList fun _ _ _ => 0
    pure ⟨a, fun i j => b i j * ry, c, some o, f.fermi * ry, f.electrons⟩
  else pure ⟨a, fun i j => b i j * ry, c, none, f.fermi * ry, f.electrons⟩

/-! ## `read_valence_electrons`, `set_cutoff_from_pseudopotentials` -/

/-- A pseudo potential file: `z_valence` and `wfc_cutoff` of `PP_HEADER`. -/
structure Pseudo where
  zValence : ℚ
  wfcCutoff : ℚ

/-- `{ t: pp_files[t] for t in self.types }`: the types in the order of their first occurrence. -/
def subset (pp : String → Option Pseudo) : List String → Except Err (List (String × Pseudo))
  | [] => .ok []
  | t :: l =>
    match pp t with
    | none => .error .keyError
    | some p => (subset pp l).map fun r => (t, p) :: r.filter fun x => x.1 ≠ t

/-- The loop of lines 682-690. -/
def valenceLoop : List (String × Pseudo) → Except Err (List (String × ℤ))
  | [] => .ok []
  | (t, p) :: l =>
    if p.zValence.den ≠ 1 then .error .assertionError           -- `assert z_valence == int(z_valence)`
    else (valenceLoop l).map fun r => (t, p.zValence.num) :: r

/-- One term of the sum of line 691: `valence[t]`. -/
def addValence (v : List (String × ℤ)) (a : ℤ) (t : String) : Except Err ℤ :=
  match v.lookup t with
  | some z => .ok (a + z)
  | none => .error .keyError

/-- `read_valence_electrons` (673-691). -/
def readValence (pp : String → Option Pseudo) (types : List String) : Except Err ℤ := do
  let sub ← subset pp types
  let v ← valenceLoop sub
  types.foldlM (addValence v) 0

/-- `max(wfc_cutoffs)`. -/
def pyMax : List ℚ → Except Err ℚ
  | [] => .error .valueError
  | x :: l => .ok (l.foldl max x)

/-- `set_cutoff_from_pseudopotentials` (694-708): the new `kinetic_energy_cutoff`. -/
def cutoff (pp : String → Option Pseudo) (types : List String) : Except Err ℚ := do
  let sub ← subset pp types
  pyMax (sub.map fun x => x.2.wfcCutoff)

end TB.QeRead

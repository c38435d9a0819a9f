import Mathlib.Data.List.Sort
import Verif.Model.InitRef
import Verif.Model.Naive
import Verif.Model.NamedReps
import Verif.Model.TightBinding

/-!
# Model of `TightBindingModel.init_from_ref` (tight_binding.py 51-158)

Numbers are exact.  `set` iterates in an unspecified order, `np.random.shuffle` and `random_hermitian` draw random numbers: the order of the set is
the argument `setOrder`, the shuffling the argument `shuffle` (number of the list, list), the numbers drawn for the matrix `i + 1` are `rnd i`.
Left out: the printing (`verbose`).  A row of `ref_bands` is a list of numbers.
-/

namespace TB.TbmInit
open Matrix TB

variable {d e n : ℕ}

/-- `np.round(x, 5)` (tight_binding.py 67). -/
noncomputable def round5 (x : ℝ) : ℝ := (Naive.pyRound (x * 100000) : ℝ) / 100000

/-- `model_bands[g] = s` for an array of booleans `g` (tight_binding.py 110, 144). -/
def setMask (bands : Fin n → ℝ) (g : List Bool) (s : ℝ) : Fin n → ℝ := fun i => if g.getD i.val false then s else bands i

/-- `model_bands`, the lists of groups left (`groups2`), and `additional_left`. -/
structure St (n : ℕ) where
  bands : Fin n → ℝ
  groups : List (List (List Bool))
  left : ℤ

/-- The loop over `model_sym_size_i` (tight_binding.py 104-118), from the size `m` on, for the value `s` of degeneracy `di + 1`: the group used,
the lists of groups left and the new `additional_left`. -/
def seek (di : ℕ) (left : ℤ) : ℕ → List (List (List Bool)) → Except Err (List Bool × List (List (List Bool)) × ℤ)
  | _, [] => .error .valueError
  | m, msym :: rest =>
    if (m : ℤ) - di > left then .error .valueError
    else match msym with
    | [] => (seek di left (m + 1) rest).map fun r => (r.1, [] :: r.2.1, r.2.2)
    | g :: gs => .ok (g, gs :: rest, left - max 0 ((m : ℤ) - di))

/-- One round of the loop over `dsym` (tight_binding.py 102-118) for the index `p.1` of the degeneracy and the value `p.2`. -/
def place (st : St n) (p : ℕ × ℝ) : Except Err (St n) :=
  match seek p.1 st.left 0 st.groups with
  | .error e => .error e
  | .ok (g, gs, left) => .ok ⟨setMask st.bands g p.2, gs, left⟩

open Classical in
/-- The values in the order of the two loops (tight_binding.py 71-73, 99-102), with the index of the degeneracy: `unique` is the order of the set. -/
noncomputable def items (dim : ℕ) (row unique : List ℝ) : List (ℕ × ℝ) :=
  (List.range dim).flatMap fun i => (unique.filter fun b => row.count b == i + 1).map fun b => (i, b)

/-- `groups2` after shuffling (tight_binding.py 79, 96-97). -/
def sized (shuffle : ℕ → List (List Bool) → List (List Bool)) (dim : ℕ) (groups : List (List Bool)) (counts : List ℕ) : List (List (List Bool)) :=
  (List.range dim).map fun i => shuffle i (((groups.zip counts).filter fun p => p.2 == i + 1).map Prod.fst)

/-- The branch `not use_repr_order` (tight_binding.py 94-118). -/
noncomputable def assignFree (shuffle : ℕ → List (List Bool) → List (List Bool)) (dim : ℕ) (row unique : List ℝ) (groups : List (List Bool))
    (counts : List ℕ) (base : Fin n → ℝ) (left : ℤ) : Except Err (Fin n → ℝ) :=
  ((items dim row unique).foldlM place (⟨base, sized shuffle dim groups counts, left⟩ : St n)).map St.bands

open Classical in
/-- One round of the loop of the branch `use_repr_order` (tight_binding.py 131-144); `i` is the index of the pair of value and group. -/
noncomputable def placeOrdered (row : List ℝ) (last : ℤ) (st : (Fin n → ℝ) × ℤ) (p : (ℝ × List Bool) × ℕ) : Except Err ((Fin n → ℝ) × ℤ) :=
  let data : ℕ := row.count p.1.1
  let model : ℕ := p.1.2.count true
  if p.2 = 0 ∨ (p.2 : ℤ) = last then
    if (model : ℤ) - data > st.2 then .error .valueError
    else .ok (setMask st.1 p.1.2 p.1.1, st.2 - max 0 ((model : ℤ) - data))
  else if data ≠ model then .error .valueError
  else .ok (setMask st.1 p.1.2 p.1.1, st.2)

/-- The branch `use_repr_order` (tight_binding.py 119-144).  `np.argmax` of a group times `n, n-1, ..., 1` is the position of its first member. -/
noncomputable def assignOrdered (row unique : List ℝ) (groups : List (List Bool)) (base : Fin n → ℝ) (left : ℤ) : Except Err (Fin n → ℝ) :=
  let groups := groups.insertionSort fun a b => a.idxOf true ≤ b.idxOf true
  let sorted := unique.insertionSort (· ≤ ·)
  let last : ℤ := (min sorted.length groups.length : ℕ) - 1
  ((sorted.zip groups).zipIdx.foldlM (placeOrdered row last) (base, left)).map Prod.fst

open Classical in
/-- `model_bands` (tight_binding.py 66-145) from the bands `row` at `k = 0` after rounding. -/
noncomputable def modelBands (ρ : UR.Rep ℝ ℂ d n) (setOrder : List ℝ → List ℝ) (shuffle : ℕ → List (List Bool) → List (List Bool)) (row : List ℝ)
    (useOrder : Bool) : Except Err (Fin n → ℝ) :=
  match ρ.subspaces with
  | .error e => .error e
  | .ok (groups, counts) =>
    if groups.length < (setOrder row).length then .error .assertionError
    else match row.min? with
    | none => .error .valueError
    | some m =>
      if useOrder then assignOrdered row (setOrder row) groups (fun _ => m - 1 / 100) ((n : ℤ) - row.length)
      else assignFree shuffle d row (setOrder row) groups counts (fun _ => m - 1 / 100) ((n : ℤ) - row.length)

/-- `param_count` (tight_binding.py 54-58). -/
def paramCount (inversion : Bool) (len : ℕ) : ℕ := if inversion then len else len * 2 - 1

/-- `params` (tight_binding.py 152-153). -/
noncomputable def startParams (count : ℕ) (bands : Fin n → ℝ) (rnd : ℕ → Matrix (Fin n) (Fin n) ℝ × Matrix (Fin n) (Fin n) ℝ) : List (CMat n) :=
  InitRef.asymHr count bands rnd

open Classical in
/-- `TightBindingModel.init_from_ref` (tight_binding.py 51-158).  `np.max` of an empty array raises `ValueError`. -/
noncomputable def initFromRef (ρ : UR.Rep ℝ ℂ d n) (setOrder : List ℝ → List ℝ) (shuffle : ℕ → List (List Bool) → List (List Bool))
    (rnd : ℕ → Matrix (Fin n) (Fin n) ℝ × Matrix (Fin n) (Fin n) ℝ) (N : List (RVec d)) (ks : List (RVec e)) (ref : List (List ℝ))
    (useOrder : Bool) : Except Err (TBM d n) :=
  match ks, N with
  | [], _ => .error .indexError
  | _, [] => .error .indexError
  | _, r0 :: _ =>
    if e ≠ d then .error .assertionError
    else if vnorm r0 ≠ 0 then .error .assertionError
    else do
      let row ← InitRef.zeroRow ks ref
      let bands ← modelBands ρ setOrder shuffle (row.map round5) useOrder
      if n = 0 then .error .valueError
      else do
        let t ← mkTBM ρ N (some (startParams (paramCount ρ.sym.inversion N.length) bands rnd))
        match t.normalize with
        | (_, .error e) => .error e
        | (t', .ok ()) => .ok t'

end TB.TbmInit

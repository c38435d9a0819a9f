import Mathlib.Algebra.BigOperators.Group.List.Basic
import Verif.Model.Err

/-!
# Model of `merge_axes` (linalg.py 47-55)

An array is its shape and its entries in C order.
-/

namespace TB.MergeAxes

/-- An array: the shape and the entries in C order (last axis fastest). -/
structure Arr (α : Type) where
  shape : List ℕ
  data : List α

/-- Position of an index in C order. -/
def ravel : List ℕ → List ℕ → ℕ
  | _ :: ss, i :: is => i * ss.prod + ravel ss is
  | _, _ => 0

/-- `arr[idx]` for an index with all axes. -/
def Arr.entry {α : Type} (a : Arr α) (idx : List ℕ) : Option α := a.data[ravel a.shape idx]?

/-- `np.reshape(arr, shape)` for a shape without `-1`. -/
def reshape {α : Type} (a : Arr α) (shape : List ℕ) : Except Err (Arr α) :=
  if shape.prod = a.data.length then .ok ⟨shape, a.data⟩ else .error .valueError

/-- `del l[i:j]` for `i ≥ 0`, `j ≥ 0`. -/
def del (l : List ℕ) (i j : ℕ) : List ℕ := l.take i ++ l.drop (max i j)

/-- `merge_axes(arr, start_axis, count)` (linalg.py 47-55). -/
def mergeAxes {α : Type} (a : Arr α) (start : ℤ) (count : ℤ) : Except Err (Arr α) :=
  if ¬ 1 ≤ count then .error .assertionError
  else
    let st := if 0 ≤ start then start else a.shape.length + start
    if ¬ (0 ≤ st ∧ st < a.shape.length) then .error .assertionError
    else
      let k := st.toNat
      let c := count.toNat
      reshape a (del (a.shape.set k ((a.shape.drop k).take c).prod) (k + 1) (k + c))

end TB.MergeAxes

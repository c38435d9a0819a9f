import Mathlib.Data.List.Basic

/-!
# Python exceptions as values

Every modelled Python function that can raise returns `Except Err _`.  Only the exception class is kept,
the message text is dropped.
-/

namespace TB

/-- The Python exception classes raised by the modelled code. -/
inductive Err
  | valueError
  | indexError
  | typeError
  | attributeError
  | assertionError
  | notImplemented
  | zeroDivision
  | keyError
  | runtimeError
  | nameError
  deriving DecidableEq, Repr

/-- Used in examples only: the call returned and the result satisfies `p`. -/
def okAnd {α : Type} (x : Except Err α) (p : α → Bool) : Bool :=
  match x with
  | .ok a => p a
  | .error _ => false

theorem okAnd_iff {α : Type} {x : Except Err α} {p : α → Bool} :
    okAnd x p = true ↔ ∃ a, x = .ok a ∧ p a = true := by
  cases x <;> simp [okAnd]

end TB

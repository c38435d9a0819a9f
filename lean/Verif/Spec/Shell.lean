/-!
# File names that are safe in a shell command
-/

namespace TB.Spec.Shell

/-- Letters, digits, dot and minus: the characters listed in the source. -/
def safeChar (c : Char) : Prop :=
  ('a' ≤ c ∧ c ≤ 'z') ∨ ('A' ≤ c ∧ c ≤ 'Z') ∨ ('0' ≤ c ∧ c ≤ '9') ∨ c = '.' ∨ c = '-'

/-- A name that cannot be anything else than one argument. -/
def safe (name : List Char) : Prop := name ≠ [] ∧ ∀ c ∈ name, safeChar c

end TB.Spec.Shell

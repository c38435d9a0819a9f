import Mathlib.Data.List.Infix
import Mathlib.Data.Real.Basic
import Verif.Spec.Cards

/-!
# What a table of numbers in a text says

Lines and words as in `Spec/Cards.lean`; a line is found by a phrase that it contains.
-/

namespace TB.Spec.QeOutput
open TB.Spec.Cards

/-- Other white space counts as blanks. -/
def blank (t : List Char) : List Char := t.map fun c => if c = '\t' ∨ c = '\r' ∨ c = '\x0b' ∨ c = '\x0c' then ' ' else c

/-- The words are read as these numbers. -/
def Numbers (flt : List Char → Option ℝ) (ws : List (List Char)) (xs : List ℝ) : Prop := List.Forall₂ (fun w x => flt w = some x) ws xs

/-- The table of the text has these rows of numbers. -/
def Rows (flt : List Char → Option ℝ) (t : List Char) (rows : List (List ℝ)) : Prop := List.Forall₂ (Numbers flt) (table (blank t)) rows

/-- The lines that contain a phrase. -/
def linesWith (mark t : List Char) : List (List Char) := (splitAt '\n' t).filter fun l => mark <:+: l

/-- The last word of the line. -/
def LastWord (l w : List Char) : Prop := (words (blank l)).getLast? = some w

end TB.Spec.QeOutput

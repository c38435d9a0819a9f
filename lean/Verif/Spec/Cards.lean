/-!
# Reading a text as a table: lines, and words separated by blanks
-/

namespace TB.Spec.Cards

/-- Parts between the characters `c` (there is always at least one part). -/
def splitAt (c : Char) : List Char → List (List Char)
  | [] => [[]]
  | x :: l =>
    if x = c then [] :: splitAt c l
    else match splitAt c l with
      | [] => [[x]]
      | w :: ws => (x :: w) :: ws

/-- The words of a line. -/
def words (l : List Char) : List (List Char) := (splitAt ' ' l).filter fun w => w ≠ []

/-- The non-empty lines of a text, as words. -/
def table (t : List Char) : List (List (List Char)) := ((splitAt '\n' t).map words).filter fun l => l ≠ []

/-- A word: not empty, without blank and newline. -/
def Word (w : List Char) : Prop := w ≠ [] ∧ ' ' ∉ w ∧ '\n' ∉ w

end TB.Spec.Cards

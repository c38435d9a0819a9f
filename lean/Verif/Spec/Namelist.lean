import Verif.Spec.Cards

/-!
# Reading a Fortran namelist: the pairs `key = value` of a group, and the cards behind it

Blanks have no meaning; commas or line breaks separate the pairs; a line which starts with `!` is a comment.
-/

namespace TB.Spec.Namelist
open TB.Spec.Cards

/-- Without blanks. -/
def squeeze (t : List Char) : List Char := t.filter fun c => c ≠ ' '

/-- `key=value`, split at the first `=`. -/
def pair (p : List Char) : Option (List Char × List Char) :=
  match p.dropWhile fun c => c ≠ '=' with
  | [] => none
  | _ :: v => some (p.takeWhile fun c => c ≠ '=', v)

/-- The pairs of a line. -/
def pairs (l : List Char) : List (List Char × List Char) :=
  if (squeeze l).head? = some '!' then [] else (splitAt ',' (squeeze l)).filterMap pair

/-- The lines behind the header `&g`. -/
def after (g : List Char) (ls : List (List Char)) : List (List Char) := (ls.dropWhile fun l => squeeze l ≠ '&' :: g).tail

/-- The pairs of the group `g`, which ends with `/`. -/
def settings (g : List Char) (t : List Char) : List (List Char × List Char) :=
  (((after g (splitAt '\n' t)).takeWhile fun l => squeeze l ≠ ['/']).map pairs).flatten

/-- The words of the lines behind the end of the group `g`, empty lines left out. -/
def cards (g : List Char) (t : List Char) : List (List (List Char)) :=
  ((((after g (splitAt '\n' t)).dropWhile fun l => squeeze l ≠ ['/']).tail).map words).filter fun l => l ≠ []

end TB.Spec.Namelist

import Mathlib.Algebra.Order.Field.Rat
import Verif.Model.Err

/-!
# Model of the element tables and `QECrystal._mass_per_cell`

`qespresso_interface.py` 78-79 (`element_masses`, `element_numbers`) and 392-395.  The decimal numbers of the source are rationals.
-/

namespace TB.Elements
open TB

/-- `element_masses` (78). -/
def elementMasses : List ℚ :=
  [1008 / 1000, 40026 / 10000, 7, 9012183 / 1000000, 1081 / 100, 12011 / 1000, 14007 / 1000, 15999 / 1000, 1899840316 / 100000000, 2018 / 100, 229897693 / 10000000, 24305 / 1000,
   26981538 / 1000000, 28085 / 1000, 30973762 / 1000000, 3207 / 100, 3545 / 100, 399 / 10, 390983 / 10000, 4008 / 100, 4495591 / 100000, 47867 / 1000, 509415 / 10000, 51996 / 1000,
   5493804 / 100000, 5584 / 100, 5893319 / 100000, 58693 / 1000, 6355 / 100, 654 / 10, 69723 / 1000, 7263 / 100, 7492159 / 100000, 7897 / 100, 799 / 10, 838 / 10,
   85468 / 1000, 8762 / 100, 8890584 / 100000, 9122 / 100, 9290637 / 100000, 9595 / 100, 9690636 / 100000, 1011 / 10, 1029055 / 10000, 10642 / 100, 107868 / 1000, 11241 / 100,
   114818 / 1000, 11871 / 100, 12176 / 100, 1276 / 10, 1269045 / 10000, 13129 / 100, 132905452 / 1000000, 13733 / 100, 1389055 / 10000, 140116 / 1000, 14090766 / 100000, 14424 / 100,
   14491276 / 100000, 1504 / 10, 151964 / 1000, 1572 / 10, 15892535 / 100000, 1625 / 10, 16493033 / 100000, 16726 / 100, 16893422 / 100000, 17305 / 100, 1749668 / 10000, 17849 / 100,
   1809479 / 10000, 18384 / 100, 186207 / 1000, 1902 / 10, 19222 / 100, 19508 / 100, 19696657 / 100000, 20059 / 100, 204383 / 1000, 207, 2089804 / 10000, 20898243 / 100000,
   20998715 / 100000, 22201758 / 100000, 22301973 / 100000, 22602541 / 100000, 22702775 / 100000, 232038 / 1000, 23103588 / 100000, 2380289 / 10000, 237048172 / 1000000, 2440642 / 10000, 24306138 / 100000, 24707035 / 100000,
   24707031 / 100000, 25107959 / 100000, 252083 / 1000, 25709511 / 100000, 25809843 / 100000, 259101 / 1000, 26612 / 100, 267122 / 1000, 268126 / 1000, 269128 / 1000, 270133 / 1000, 2691336 / 10000,
   277154 / 1000, 282166 / 1000, 282169 / 1000, 286179 / 1000, 286182 / 1000, 290192 / 1000, 290196 / 1000, 293205 / 1000, 294211 / 1000, 295216 / 1000]

/-- `element_numbers` (79), a dictionary. -/
def elementNumbers : List (String × ℕ) :=
  [("H", 0), ("He", 1), ("Li", 2), ("Be", 3), ("B", 4), ("C", 5), ("N", 6), ("O", 7), ("F", 8), ("Ne", 9),
   ("Na", 10), ("Mg", 11), ("Al", 12), ("Si", 13), ("P", 14), ("S", 15), ("Cl", 16), ("Ar", 17), ("K", 18), ("Ca", 19),
   ("Sc", 20), ("Ti", 21), ("V", 22), ("Cr", 23), ("Mn", 24), ("Fe", 25), ("Co", 26), ("Ni", 27), ("Cu", 28), ("Zn", 29),
   ("Ga", 30), ("Ge", 31), ("As", 32), ("Se", 33), ("Br", 34), ("Kr", 35), ("Rb", 36), ("Sr", 37), ("Y", 38), ("Zr", 39),
   ("Nb", 40), ("Mo", 41), ("Tc", 42), ("Ru", 43), ("Rh", 44), ("Pd", 45), ("Ag", 46), ("Cd", 47), ("In", 48), ("Sn", 49),
   ("Sb", 50), ("Te", 51), ("I", 52), ("Xe", 53), ("Cs", 54), ("Ba", 55), ("La", 56), ("Ce", 57), ("Pr", 58), ("Nd", 59),
   ("Pm", 60), ("Sm", 61), ("Eu", 62), ("Gd", 63), ("Tb", 64), ("Dy", 65), ("Ho", 66), ("Er", 67), ("Tm", 68), ("Yb", 69),
   ("Lu", 70), ("Hf", 71), ("Ta", 72), ("W", 73), ("Re", 74), ("Os", 75), ("Ir", 76), ("Pt", 77), ("Au", 78), ("Hg", 79),
   ("Tl", 80), ("Pb", 81), ("Bi", 82), ("Po", 83), ("At", 84), ("Rn", 85), ("Fr", 86), ("Ra", 87), ("Ac", 88), ("Th", 89),
   ("Pa", 90), ("U", 91), ("Np", 92), ("Pu", 93), ("Am", 94), ("Cm", 95), ("Bk", 96), ("Cf", 97), ("Es", 98), ("Fm", 99),
   ("Md", 100), ("No", 101), ("Lr", 102), ("Rf", 103), ("Db", 104), ("Sg", 105), ("Bh", 106), ("Hs", 107), ("Mt", 108), ("Ds", 109),
   ("Rg", 110), ("Cn", 111), ("Nh", 112), ("Fl", 113), ("Mc", 114), ("Lv", 115), ("Ts", 116), ("Og", 117)]

/-- `element_numbers[t]`. -/
def number (t : String) : Except Err ℕ :=
  match elementNumbers.lookup t with
  | some i => .ok i
  | none => .error .keyError

/-- `element_masses[element_numbers[t]]`. -/
def mass (t : String) : Except Err ℚ :=
  match elementNumbers.lookup t with
  | some i => match elementMasses[i]? with
    | some m => .ok m
    | none => .error .indexError
  | none => .error .keyError

/-- `sum(f(t) for t in types)`. -/
def sumOver (f : String → Except Err ℚ) : List String → ℚ → Except Err ℚ
  | [], a => .ok a
  | t :: l, a =>
    match f t with
    | .ok x => sumOver f l (a + x)
    | .error e => .error e

/-- `_mass_per_cell` (392-395), in kg. -/
def massPerCell (types : List String) : Except Err ℚ :=
  match sumOver mass types 0 with
  | .error e => .error e
  | .ok nuclei =>
    match sumOver (fun t => (number t).map fun i => (i : ℚ)) types 0 with
    | .error e => .error e
    | .ok electrons => .ok (91093837 / 10 ^ 38 * electrons + 166053907 / 10 ^ 35 * nuclei)

end TB.Elements

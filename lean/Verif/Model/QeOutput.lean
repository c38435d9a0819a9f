import Mathlib.Data.Complex.Basic
import Verif.Model.QeCards

/-!
# Model of the readers of the texts written by Quantum Espresso

`qespresso_interface.py`: `version` (284-292), `QECrystal.read_bandx` (449-464), `read_dos` (827-843), `read_dielectric_function` (1137-1141), with
`np.loadtxt` as far as it is used: comments behind `#`, words separated by white space, empty lines left out, `skiprows`, `unpack`, and the axes of
length 1 removed.

A text is a list of characters (`TB.Cards.Text`), the files are a function from names.  `float` is a parameter (`none`: `ValueError`); line ends are `\n`;
white space is the white space of ASCII.  `NaN` and infinite numbers are left out.
-/

namespace TB.QeOutput
open TB TB.Cards

/-- What can be raised: an exception of Python, `FileNotFoundError`, `IOError`. -/
inductive RErr
  | py (e : Err)
  | notFound
  | io
  deriving DecidableEq

abbrev Files := Text → Option Text

/-- `open(name, "r")`. -/
def openFile (files : Files) (name : Text) : Except RErr Text :=
  match files name with
  | none => .error .notFound
  | some t => .ok t

def isSpace (c : Char) : Bool := c = ' ' || c = '\t' || c = '\n' || c = '\r' || c = '\x0b' || c = '\x0c'

/-- The lines of a file with their line ends, as the loop `for line in file` (456) and `readline` (839) see them. -/
def fileLines : Text → List Text
  | [] => []
  | c :: t =>
    if c = '\n' then ['\n'] :: fileLines t
    else match fileLines t with
      | [] => [[c]]
      | l :: ls => (c :: l) :: ls

/-- The parts between the characters with `p`: `str.split` with one character (291, 840, 841). -/
def splitBy (p : Char → Bool) : Text → List Text
  | [] => [[]]
  | c :: t =>
    if p c then [] :: splitBy p t
    else match splitBy p t with
      | [] => [[c]]
      | w :: ws => (c :: w) :: ws

/-- `str.split()` (458, 460). -/
def split (t : Text) : List Text := (splitBy isSpace t).filter fun w => w ≠ []

/-- `str.strip()` (291, 460, 840). -/
def strip (t : Text) : Text := ((t.dropWhile isSpace).reverse.dropWhile isSpace).reverse

/-- `pat in t` (457, 459, 840). -/
def contains (pat : Text) : Text → Bool
  | [] => pat.isPrefixOf []
  | c :: t => pat.isPrefixOf (c :: t) || contains pat t

/-- `t.split(pat)[0]` (291) for a text `pat` that is not empty. -/
def before (pat : Text) : Text → Text
  | [] => []
  | c :: t => if pat.isPrefixOf (c :: t) then [] else c :: before pat t

/-- `float(w)`. -/
def toFloat (flt : Text → Option ℝ) (w : Text) : Except RErr ℝ :=
  match flt w with
  | none => .error (.py .valueError)
  | some x => .ok x

/-- `l[i]` for `i ≥ 0`. -/
def item (l : List Text) (i : ℕ) : Except RErr Text :=
  match l[i]? with
  | none => .error (.py .indexError)
  | some w => .ok w

/-- `l[-1 - i]`. -/
def itemBack (l : List Text) (i : ℕ) : Except RErr Text := item l.reverse i

/-! ## `np.loadtxt` -/

/-- An array of numpy with at most two axes; a matrix is given by its rows. -/
inductive Arr
  | scalar (x : ℝ)
  | vec (l : List ℝ)
  | mat (rows : List (List ℝ))

/-- One row of numbers. -/
def parseRow (flt : Text → Option ℝ) : List Text → Except RErr (List ℝ)
  | [] => .ok []
  | w :: ws => do
    let x ← toFloat flt w
    let r ← parseRow flt ws
    return x :: r

/-- The rows of `np.loadtxt`; `width` is the number of columns if a row was read before. -/
def loadRows (flt : Text → Option ℝ) (width : Option ℕ) : List Text → Except RErr (List (List ℝ))
  | [] => .ok []
  | l :: ls =>
    match split (l.takeWhile fun c => c ≠ '#') with
    | [] => loadRows flt width ls
    | w :: ws =>
      if (width.getD (w :: ws).length) ≠ (w :: ws).length then .error (.py .valueError)
      else do
        let r ← parseRow flt (w :: ws)
        let rest ← loadRows flt (some (w :: ws).length) ls
        return r :: rest

/-- `arr.squeeze()`, done by `np.loadtxt`. -/
def squeeze (rows : List (List ℝ)) : Arr :=
  match rows with
  | [] => .vec []
  | [[x]] => .scalar x
  | [r] => .vec r
  | r :: rs => if r.length = 1 then .vec ((r :: rs).map fun s => s.getD 0 0) else .mat (r :: rs)

/-- `arr.T`. -/
def Arr.transpose : Arr → Arr
  | .mat rows => .mat ((List.range (rows.headD []).length).map fun j => rows.map fun r => r.getD j 0)
  | a => a

/-- `np.loadtxt(name, skiprows=skip, unpack=unpack)` (463, 842, 1139, 1140). -/
def loadtxt (flt : Text → Option ℝ) (files : Files) (name : Text) (skip : ℕ) (unpack : Bool) : Except RErr Arr := do
  let t ← openFile files name
  let rows ← loadRows flt none ((fileLines t).drop skip)
  return if unpack then (squeeze rows).transpose else squeeze rows

/-! ## The readers -/

def pointMark : Text := "high-symmetry point".toList
def plotMark : Text := "Plottable bands (eV) written to file".toList

/-- Lines 457-458. -/
def bandxPoint (flt : Text → Option ℝ) (line : Text) (symX : List ℝ) : Except RErr (List ℝ) :=
  if contains pointMark line then do
    let w ← itemBack (split line) 0
    let x ← toFloat flt w
    return symX ++ [x]
  else .ok symX

/-- Lines 459-460. -/
def bandxPlot (line : Text) (datafile : Option Text) : Except RErr (Option Text) :=
  if contains plotMark line then do
    let w ← itemBack (split line) 0
    return some (strip w)
  else .ok datafile

/-- The loop (456-460). -/
def bandxLoop (flt : Text → Option ℝ) : List Text → List ℝ → Option Text → Except RErr (List ℝ × Option Text)
  | [], symX, datafile => .ok (symX, datafile)
  | line :: ls, symX, datafile => do
    let symX ← bandxPoint flt line symX
    let datafile ← bandxPlot line datafile
    bandxLoop flt ls symX datafile

/-- Lines 461-464. -/
def bandxData (flt : Text → Option ℝ) (files : Files) (symX : List ℝ) : Option Text → Except RErr (List ℝ × Arr)
  | none => .error .io
  | some f => do
    let z ← loadtxt flt files f 0 true
    return (symX, z)

/-- `QECrystal.read_bandx` (449-464). -/
def readBandx (flt : Text → Option ℝ) (files : Files) (name : Text) : Except RErr (List ℝ × Arr) := do
  let t ← openFile files (name ++ ".bandx.out".toList)
  let s ← bandxLoop flt (fileLines t) [] none
  bandxData flt files s.1 s.2

/-- Lines 839-841. -/
def dosFermi (flt : Text → Option ℝ) (header : Text) : Except RErr (Option ℝ) :=
  if contains "EFermi".toList header then do
    let last ← itemBack (splitBy (fun c => c = ' ') header) 0
    if strip last = "eV".toList then do
      let w ← itemBack (splitBy (fun c => c = ' ') header) 1
      let x ← toFloat flt w
      return some x
    else .ok none
  else .ok none

/-- `QECrystal.read_dos` (827-843). -/
def readDos (flt : Text → Option ℝ) (files : Files) (name : Text) : Except RErr (Arr × Option ℝ) := do
  let t ← openFile files (name ++ ".Dos.dat".toList)
  let fermi ← dosFermi flt ((fileLines t).headD [])
  let d ← loadtxt flt files (name ++ ".Dos.dat".toList) 0 true
  return (d, fermi)

/-- `data_r[:,1:] + data_i[:,1:] * 1j` (1141) for two rows, with the rule of numpy for rows of length 1. -/
def addRow (r i : List ℝ) : Except RErr (List ℂ) :=
  if r.length = i.length then .ok (List.zipWith (fun x y => (⟨x, y⟩ : ℂ)) r i)
  else if i.length = 1 then .ok (r.map fun x => (⟨x, i.getD 0 0⟩ : ℂ))
  else if r.length = 1 then .ok (i.map fun y => (⟨r.getD 0 0, y⟩ : ℂ))
  else .error (.py .valueError)

/-- The sum (1141) row by row; both have at least two rows, so that the numbers of rows have to agree. -/
def addRows : List (List ℝ) → List (List ℝ) → Except RErr (List (List ℂ))
  | [], [] => .ok []
  | r :: rs, i :: is => do
    let a ← addRow (r.drop 1) (i.drop 1)
    let rest ← addRows rs is
    return a :: rest
  | _, _ => .error (.py .valueError)

/-- Line 1141: `[:,0]` of an array without second axis is an `IndexError`. -/
def dielectricSum : Arr → Arr → Except RErr (List ℝ × List (List ℂ))
  | .mat r, .mat i => do
    let s ← addRows r i
    return (r.map fun x => x.getD 0 0, s)
  | _, _ => .error (.py .indexError)

/-- `QECrystal.read_dielectric_function` (1137-1141). -/
def readDielectric (flt : Text → Option ℝ) (files : Files) (name : Text) : Except RErr (List ℝ × List (List ℂ)) := do
  let r ← loadtxt flt files ("epsr_".toList ++ name ++ ".dat".toList) 3 false
  let i ← loadtxt flt files ("epsi_".toList ++ name ++ ".dat".toList) 3 false
  dielectricSum r i

/-- `version` (284-292); `out` is what `pw.x` printed. -/
def version (out : Text) : Except RErr Text := do
  let line ← item (splitBy (fun c => c = '\n') out) 1
  let v ← item (splitBy (fun c => c = 'v') (before "starts".toList line)) 1
  return 'v' :: strip v

end TB.QeOutput

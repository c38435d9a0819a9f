import Verif.Model.Formats
import Verif.Model.BandStructure
import Verif.Model.Symmetry

/-!
# Model of the files of models: `AsymTightBindingModel.save/load` and `BandStructureModel.save/load`

tight_binding_asym.py 251-307 and bandstructure.py 655-750.  A file system is a function from names to contents, `none` if the
file cannot be opened for reading.  The state of the program that the calls touch is this function together with numpy's
global print options, of any type `PO`.  A function that writes returns the state afterwards together with the return value
or the exception, so the state after an exception is visible.  Loading does not change the state.

The library `Lib` holds the routines from outside: what can be opened for writing, how `json` and `repr` write values and
how `json`, `eval` and the readers of the Wannier90 formats read them (the latter are modelled in `Formats.lean`).
File names are lists of characters.
-/

namespace TB.Files
open Matrix TB

/-- File names. -/
abbrev Name := List Char

/-- `OSError` of `open`, or another exception. -/
inductive IOErr
  | os
  | py (e : Err)
  deriving DecidableEq, Repr

/-- The tuple written to and read from files of the format "python": `H_r, neighbors, S, inversion`. -/
structure PyData where
  n : ℕ
  d : ℕ
  e : ℕ
  H : List (CMat n)
  neighbors : List (RVec d)
  S : List (Matrix (Fin e) (Fin e) ℝ)
  inversion : Bool

/-- Routines from outside; `C` is the type of file contents, `PO` that of print options. -/
structure Lib (C PO : Type) where
  /-- `open(name, "w")` succeeds. -/
  canWrite : Name → Bool
  /-- The content of a file after `open(name, "w")`. -/
  empty : C
  /-- `np.set_printoptions(precision=None, suppress=False, floatmode="unique", threshold=100000, legacy='1.21')`; it keeps
  the other options. -/
  saveOptions : PO → PO
  /-- `json.dump`. -/
  dump : Fmt.Json ℝ → C
  /-- `json.load` and the look-up of the keys. -/
  parse : C → Except Err (Fmt.Json ℝ)
  /-- The four `repr` under the print options. -/
  repr : PO → PyData → C
  /-- `eval(text.replace("array", "np.array"))` and unpacking of the result. -/
  eval : C → Except Err PyData
  /-- Sorting by length in `json_tb_format.load`. -/
  sort : List (List ℝ × (ℕ → ℕ → Fmt.Cx ℝ)) → List (List ℝ × (ℕ → ℕ → Fmt.Cx ℝ))
  /-- `load_hr` (`true`) and `load_tb` (`false`): number of bands, neighbours and matrices. -/
  wannier : Bool → C → Except Err ((n : ℕ) × (List (RVec 3) × List (CMat n)))
  /-- Lines 287-293 of tight_binding_asym.py (`r_class_size`, `complete_neighbors`, constructors). -/
  complete : PyData → Except Err Unit

/-- The state touched by saving. -/
structure World (C PO : Type) where
  files : Name → Option C
  options : PO

variable {C PO : Type} {d n : ℕ}

/-- `np.set_printoptions`. -/
def World.setOptions (w : World C PO) (o : PO) : World C PO := { w with options := o }

/-- Replaces the content of a file. -/
def World.write (w : World C PO) (name : Name) (c : C) : World C PO :=
  { w with files := fun x => if x = name then some c else w.files x }

/-- An exception. -/
def raise {α : Type} (e : Err) : Except IOErr α := .error (.py e)

/-- A Python exception becomes an exception of the call. -/
def lift {α : Type} : Except Err α → Except IOErr α
  | .ok a => .ok a
  | .error e => .error (.py e)

/-- `".json"`. -/
def dotJson : Name := ['.', 'j', 's', 'o', 'n']
/-- `".repr"`. -/
def dotRepr : Name := ['.', 'r', 'e', 'p', 'r']
/-- `".dat"`. -/
def dotDat : Name := ['.', 'd', 'a', 't']
/-- `"tb.dat"`. -/
def tbDat : Name := ['t', 'b', '.', 'd', 'a', 't']
/-- `"hr.dat"`. -/
def hrDat : Name := ['h', 'r', '.', 'd', 'a', 't']

/-- `json_tb_format.save(filename, neighbors, params)` (json_tb_format.py 25-36): the file is opened, and with that
emptied, before `params[0]` is used.  `self.params_complex()` and other arguments are computed before. -/
noncomputable def jsonSave (L : Lib C PO) (w : World C PO) (name : Name) (N : List (RVec d)) (H : List (CMat n)) :
    World C PO × Except IOErr Unit :=
  if L.canWrite name then
    match Fmt.save (N.map List.ofFn) (H.map fun M i j => ((M i j).re, (M i j).im)) with
    | .ok j => (w.write name (L.dump j), .ok ())
    | .error e => (w.write name L.empty, raise e)
  else (w, .error .os)

/-- `open(name, "r")` and reading. -/
def readFile (w : World C PO) (name : Name) : Except IOErr C :=
  match w.files name with
  | some c => .ok c
  | none => .error .os

/-- Arrays read by `json_tb_format.load`: number of bands, dimension, neighbours, matrices. -/
structure Arrays where
  n : ℕ
  d : ℕ
  neighbors : List (RVec d)
  H : List (CMat n)

/-- `json_tb_format.load(filename)` (json_tb_format.py 9-23). -/
noncomputable def jsonLoad (L : Lib C PO) (w : World C PO) (name : Name) : Except IOErr Arrays := do
  let c ← readFile w name
  let j ← lift (L.parse c)
  let r ← lift (Fmt.load L.sort j)
  let d := (r.headD ([], fun _ _ => (0, 0))).1.length
  return ⟨j.bandCount, d, r.map fun x a => x.1.getD a 0, r.map fun x i k => ⟨(x.2 i k).1, (x.2 i k).2⟩⟩

/-! ## AsymTightBindingModel -/

/-- The last line of both `save`: the print options are reset, unless an exception was raised. -/
def restore (opt : PO) : World C PO × Except IOErr Unit → World C PO × Except IOErr Unit
  | (w, .error e) => (w, .error e)
  | (w, .ok _) => (w.setOptions opt, .ok ())

/-- The format of `save` (tight_binding_asym.py 252-256); `none`: `ValueError`. -/
def asymSaveFormat (name : Name) : Option String → Option String
  | some f => some f
  | none => if dotJson <:+ name then some "json" else none

/-- `AsymTightBindingModel.save` (tight_binding_asym.py 251-266). -/
noncomputable def asymSave (L : Lib C PO) (w : World C PO) (t : Tb d n) (name : Name) (format : Option String) :
    World C PO × Except IOErr Unit :=
  match asymSaveFormat name format with
  | none => (w, raise .valueError)
  | some f =>
    if f ≠ "json" then (w, raise .valueError)
    else
      let opt := w.options
      let w := w.setOptions (L.saveOptions w.options)
      restore opt (jsonSave L w name (t.H.terms.map Prod.fst) (t.H.terms.map Prod.snd))

/-- The format of the ending of the name (tight_binding_asym.py 270-279, bandstructure.py 709-718). -/
def nameFormat (name : Name) : Option String → Option String
  | some f => some f
  | none =>
    if dotRepr <:+ name then some "python"
    else if dotJson <:+ name then some "json"
    else if tbDat <:+ name then some "wannier90tb"
    else if hrDat <:+ name then some "wannier90hr"
    else none

/-- The format of `load` (tight_binding_asym.py 270-281, bandstructure.py 709-720); `none`: `ValueError`. -/
def loadFormat (name : Name) (format : Option String) : Option String :=
  match nameFormat name format with
  | none => none
  | some f => if f = "python" ∨ f = "json" ∨ f = "wannier90hr" ∨ f = "wannier90tb" then some f else none

/-- `AsymTightBindingModel(HermitianFourierSeries(neighbors, H_r))`. -/
noncomputable def asymOf (N : List (RVec d)) (H : List (CMat n)) : Except Err ((d : ℕ) × (n : ℕ) × Tb d n) := do
  let s ← mkSeries N H
  let t ← mkTb s
  return ⟨d, n, t⟩

open Classical in
/-- `AsymTightBindingModel.load` (tight_binding_asym.py 268-307). -/
noncomputable def asymLoad (L : Lib C PO) (w : World C PO) (name : Name) (format : Option String) :
    Except IOErr ((d : ℕ) × (n : ℕ) × Tb d n) :=
  match loadFormat name format with
  | none => raise .valueError
  | some f =>
    if f = "python" then do
      let c ← readFile w name
      let v ← lift (L.eval c)
      let sym ← lift (mkSym v.S v.inversion)
      if 1 < sym.len then
        let _ ← lift (L.complete v)
        raise .valueError
      else lift (asymOf v.neighbors v.H)
    else if f = "json" then do
      let a ← jsonLoad L w name
      lift (asymOf a.neighbors a.H)
    else do
      let c ← readFile w name
      let r ← lift (L.wannier (f == "wannier90hr") c)
      lift (asymOf r.2.1 r.2.2)

/-! ## BandStructureModel -/

/-- A default tight binding model together with the dimension `e` of its symmetry, which need not be that of its neighbours
(`Symmetry.none()` has dimension 3). -/
structure BsObj where
  d : ℕ
  e : ℕ
  n : ℕ
  S : List (Matrix (Fin e) (Fin e) ℝ)
  inversion : Bool
  neighbors : List (RVec d)
  cosReduced : Bool
  exp : Bool
  P0 : CMat n
  Ps : List (CMat n)

/-- The model if the dimensions agree. -/
def BsObj.bsm (o : BsObj) (h : o.e = o.d) : BS.BSM o.d o.n :=
  ⟨.tb ⟨o.S.map fun s => s.submatrix (Fin.cast h.symm) (Fin.cast h.symm), o.inversion, o.neighbors, o.cosReduced, o.exp⟩,
    o.P0, o.Ps, none⟩

/-- `f(k)` (bandstructure.py 158-172): with other dimensions `s @ r_orig` (line 959) raises `ValueError` as soon as a
coefficient function other than the first one is used; a symmetry has at least one matrix. -/
noncomputable def BsObj.f (o : BsObj) (k : RVec o.d) : Except Err (CMat o.n) :=
  if h : o.e = o.d then .ok ((o.bsm h).f k)
  else if o.Ps.isEmpty then .ok o.P0
  else .error .valueError

/-- `init_tight_binding(Symmetry, neighbors, len(H_r[0]), cos_reduced, exp)` and `set_params_complex(H_r)`; neither of them
uses the dimension of the symmetry or its matrices. -/
noncomputable def bsOf (e : ℕ) (S : List (Matrix (Fin e) (Fin e) ℝ)) (inversion : Bool) (N : List (RVec d)) (H : List (CMat n))
    (cosReduced exp : Bool) : Except Err BsObj := do
  if H.isEmpty then throw .indexError
  let b ← BS.init ⟨[], inversion, N, cosReduced, exp⟩ n
  let r := b.setParamsComplex H
  let _ ← r.2
  return ⟨d, e, n, S, inversion, N, cosReduced, exp, r.1.P0, r.1.Ps⟩

/-- The format of `save` (bandstructure.py 671-679); `none`: `ValueError`. -/
def bsSaveFormat (name : Name) : Option String → Option String
  | some f => some f
  | none =>
    if dotRepr <:+ name then some "python"
    else if dotJson <:+ name then some "json"
    else if dotDat <:+ name then some "wannier90"
    else none

/-- What `save` does for a supported format (bandstructure.py 685-702). -/
noncomputable def bsWrite (L : Lib C PO) (w : World C PO) (b : BS.BSM d n) (t : BS.TBData d) (name : Name) (f : String) :
    World C PO × Except IOErr Unit :=
  if f = "python" then
    if L.canWrite name then
      match b.paramsComplex with
      | .error e => (w.write name L.empty, raise e)
      | .ok H => (w.write name (L.repr w.options ⟨n, d, d, H, t.neighbors, t.S, t.inversion⟩), .ok ())
    else (w, .error .os)
  else
    match b.paramsComplex with
    | .error e => (w, raise e)
    | .ok H =>
      if f = "wannier90" then (w, lift Fmt.saveHr)
      else jsonSave L w name t.neighbors H

/-- `BandStructureModel.save` (bandstructure.py 655-706); `save_hr` raises `NotImplementedError`. -/
noncomputable def bsSave (L : Lib C PO) (w : World C PO) (b : BS.BSM d n) (name : Name) (format : Option String) :
    World C PO × Except IOErr Unit :=
  match b.coeff with
  | .custom _ _ _ => (w, raise .valueError)
  | .tb t =>
    match bsSaveFormat name format with
    | none => (w, raise .valueError)
    | some f =>
      if ¬ (f = "python" ∨ f = "json" ∨ f = "wannier90") then (w, raise .valueError)
      else
        let opt := w.options
        let w := w.setOptions (L.saveOptions w.options)
        restore opt (bsWrite L w b t name f)

open Classical in
/-- `BandStructureModel.load` (bandstructure.py 708-750). -/
noncomputable def bsLoad (L : Lib C PO) (w : World C PO) (name : Name) (format : Option String) (cosReduced exp : Bool) :
    Except IOErr BsObj :=
  match loadFormat name format with
  | none => raise .valueError
  | some f =>
    if f = "python" then do
      let c ← readFile w name
      let v ← lift (L.eval c)
      let sym ← lift (mkSym v.S v.inversion)
      lift (bsOf v.e sym.S sym.inversion v.neighbors v.H true false)
    else if f = "json" then do
      let a ← jsonLoad L w name
      lift (bsOf 3 [1] false a.neighbors a.H cosReduced exp)
    else do
      let c ← readFile w name
      let r ← lift (L.wannier (f == "wannier90hr") c)
      lift (bsOf 3 [1] false r.2.1 r.2.2 cosReduced exp)

end TB.Files

import Verif.Model.QeCards

/-!
# Model of the methods of `QECrystal` which write an input file and run a program (qespresso_interface.py 864-1097, 1115-1135, 1143-1156,
1260-1284, 1340-1351)

A text is a list of characters.  The templates are given line by line; a line is given by its pieces between commas.  Messages
printed on the screen are left out; `ibrav` is 0 as set in the constructor (315), so no `celldm(1)` is written.  The file system is a function from names to texts, the shell a list of commands.
-/

namespace TB.QeInput
open TB TB.Cards

/-- Fields of a `QECrystal` used here. -/
structure Crystal where
  name : Text
  cell : Cell
  cutoff : ℝ
  T : ℝ
  relativistic : Bool
  nk : ℤ
  nd : ℤ
  nt : ℤ

/-- Formats, tables, the order of `set(self.types)`, `mpi_run` (83) and whether `platform == "win32"`. -/
structure Env where
  F : Fmt
  mass : Text → Option ℝ
  pp : Text → Option Text
  order : List Text
  mpiRun : Text
  win : Bool

/-- Files and executed commands. -/
structure World where
  files : Text → Option Text
  commands : List Text

/-- The pieces of a line with commas between them; an empty last piece is a comma at the end. -/
def commas : List Text → Text
  | [] => []
  | [p] => p
  | p :: q :: r => p ++ ',' :: commas (q :: r)

/-- `key=value`. -/
def asg (k v : Text) : Text := k ++ '=' :: v

/-- `'value'` -/
def quoted (v : Text) : Text := '\'' :: (v ++ ['\''])

/-- A Fortran namelist. -/
structure Group where
  name : Text
  lines : List (List Text)

/-- Header, lines with indentation, end. -/
def Group.text (ind : Text) (g : Group) : List Text := ('&' :: g.name) :: (g.lines.map (fun l => ind ++ commas l) ++ [['/']])

/-- Lines with line breaks. -/
def unlines (ls : List Text) : Text := (ls.map (· ++ nl)).flatten

/-- A file with namelists; `start` is the empty first line of most templates. -/
def namelists (start : List Text) (ind : Text) (gs : List Group) : Text := unlines (start ++ (gs.map (Group.text ind)).flatten)

def ind4 : Text := [' ', ' ', ' ', ' ']

/-- First line of `&system` (897, 934, 981, 1051, 1082). -/
def systemLine (E : Env) (c : Crystal) : List Text :=
  [asg "ibrav ".toList (' ' :: E.F.nat 0), asg " nat".toList (E.F.nat c.cell.basis.length),
    asg " ntyp".toList (' ' :: E.F.nat E.order.length), []]

/-- The line `ecutwfc` (898, 935, 1052, 1083). -/
def cutoffLine (E : Env) (c : Crystal) : List Text := [asg "ecutwfc ".toList (' ' :: E.F.num c.cutoff), []]

open Classical in
/-- The line of the occupations (899, 936, 1055, 1087), in `scf` with a comma at the end. -/
noncomputable def smearingLine (E : Env) (c : Crystal) (comma : Bool) : List Text :=
  [asg "occupations".toList "'smearing'".toList,
    asg " smearing".toList (quoted (if c.T = 0 then "marzari-vanderbilt".toList else "fermi-dirac".toList)),
    asg " degauss".toList (E.F.num (if c.T = 0 then 0.02 else c.T * 6.3336231269e-6))] ++ (if comma then [[]] else [])

/-- The line for spin-orbit coupling (900, 937, 983, 1056, 1088); empty without it. -/
def spinLine (c : Crystal) : List Text :=
  if c.relativistic then [asg "lspinorb".toList ".true.".toList, asg " noncolin".toList ".true.".toList, []] else [[]]

/-- `calculation='…'`, `pseudo_dir`, `outdir`, `prefix` (888-891, 925-928, 974-977, 1041-1044, 1072-1075). -/
def controlHead (c : Crystal) (kind : Text) : List (List Text) :=
  [[asg "calculation".toList (quoted kind), []], [asg "pseudo_dir ".toList " './pseudo/'".toList, []],
    [asg "outdir".toList "'./qe-data/'".toList, []], [asg "prefix".toList (quoted c.name), []]]

/-- The two outputs `tstress` and `tprnfor` with the given value (892-893, 1016-1017, 1045-1046, 1076-1077). -/
def outputs (v : Text) : List (List Text) := [[asg "tstress ".toList v, []], [asg "tprnfor ".toList v, []]]

def diskLine : List Text := [asg "disk_io".toList "'low'".toList, []]
def davidLine : List Text := [asg "diagonalization".toList "'david'".toList, []]
def verboseLine : List Text := [asg "verbosity".toList "'high'".toList, []]
def thrLine (v : Text) : List Text := [asg "conv_thr ".toList v, []]
def betaLine : List Text := [asg "mixing_beta ".toList " 0.7".toList, []]

/-- Namelists of `scf` (887-907). -/
noncomputable def scfGroups (E : Env) (c : Crystal) : List Group :=
  [⟨"control".toList, controlHead c "scf".toList ++ outputs " .true.".toList ++ [diskLine]⟩,
    ⟨"system".toList, [systemLine E c, cutoffLine E c, smearingLine E c true, spinLine c]⟩,
    ⟨"electrons".toList, [davidLine, thrLine " 1.0e-8".toList, [asg "electron_maxstep ".toList " 100".toList, []], betaLine]⟩]

/-- Namelists of `relax` (924-956).  Line 930 ends with two commas. -/
noncomputable def relaxGroups (E : Env) (c : Crystal) (fixVolume : Bool) : List Group :=
  [⟨"control".toList, controlHead c "vc-relax".toList ++ [[asg "tstress ".toList " .true.".toList, []],
      [asg "tprnfor ".toList " .true.".toList, [], []], diskLine]⟩,
    ⟨"system".toList, [systemLine E c, cutoffLine E c, smearingLine E c false, spinLine c]⟩,
    ⟨"electrons".toList, [davidLine, thrLine " 1.0e-5".toList, betaLine]⟩,
    ⟨"ions".toList, [[asg "ion_dynamics".toList "\"bfgs\"".toList, []], [asg "ion_temperature".toList "\"rescaling\"".toList, []],
      [asg "tempw".toList (E.F.num c.T), []], [asg "tolp".toList "20".toList, []], [asg "nraise".toList "1".toList, []]]⟩,
    ⟨"cell".toList, [[asg "cell_dynamics".toList "\"bfgs\"".toList, []], [asg "press".toList "0.001".toList, []],
      [asg "press_conv_thr".toList "0.0005".toList, []],
      [asg "cell_dofree".toList ("\"ibrav".toList ++ (if fixVolume then "shape".toList else []) ++ "\"".toList), []]]⟩]

/-- Namelists of `bands` (973-987). -/
noncomputable def bandsGroups (E : Env) (c : Crystal) (bandCount : ℤ) : List Group :=
  [⟨"control".toList, controlHead c "bands".toList ++ [diskLine]⟩,
    ⟨"system".toList, [systemLine E c,
      [asg "ecutwfc ".toList (' ' :: E.F.num c.cutoff), asg " nbnd ".toList (' ' :: E.F.nat bandCount), []], spinLine c]⟩,
    ⟨"electrons".toList, [davidLine]⟩]

/-- Namelists of `nscf` (1040-1061). -/
noncomputable def nscfGroups (E : Env) (c : Crystal) (bandCount : ℤ) : List Group :=
  [⟨"control".toList, controlHead c "nscf".toList ++ outputs " true".toList ++ [diskLine, verboseLine]⟩,
    ⟨"system".toList, [systemLine E c, cutoffLine E c, [asg "nbnd".toList (E.F.nat bandCount), []],
      [asg "force_symmorphic ".toList " true".toList, []], smearingLine E c false, spinLine c]⟩,
    ⟨"electrons".toList, [davidLine, thrLine " 1.0e-8".toList]⟩]

/-- Namelists of `nscf_nosym` (1071-1093). -/
noncomputable def nosymGroups (E : Env) (c : Crystal) (bandCount : ℤ) : List Group :=
  [⟨"control".toList, controlHead c "nscf".toList ++ outputs " true".toList ++ [diskLine, verboseLine]⟩,
    ⟨"system".toList, [systemLine E c, cutoffLine E c, [asg "nosym ".toList " true".toList, []], [asg "noinv ".toList " true".toList, []],
      [asg "nbnd".toList (E.F.nat bandCount)], smearingLine E c false, spinLine c]⟩,
    ⟨"electrons".toList, [davidLine, thrLine " 1.0e-8".toList]⟩]

/-- Namelist of `bandx` (1000-1004), lines without indentation and commas. -/
def bandxGroups (c : Crystal) : List Group :=
  [⟨"BANDS".toList, [[asg "prefix".toList (quoted c.name)], [asg "outdir".toList "'./qe-data/'".toList],
    [asg "filband".toList (quoted (c.name ++ ".Bandx.dat".toList))]]⟩]

/-- Namelists of `dos` (1014-1025). -/
def dosGroups (c : Crystal) : List Group :=
  [⟨"control".toList, [[asg "calculation".toList "'nscf'".toList, []]] ++ outputs " .true.".toList⟩,
    ⟨"dos".toList, [[asg "prefix".toList (quoted c.name), []], [asg "bz_sum".toList "'tetrahedra_opt'".toList, []],
      [asg "outdir".toList "'./qe-data/'".toList, []], [asg "deltae ".toList "  1e-02".toList, []],
      [asg "fildos ".toList (' ' :: quoted (c.name ++ ".Dos.dat".toList)), []]]⟩]

/-- Namelist of `projections` (1148-1152); a boolean prints as `True` or `False`. -/
def projGroups (c : Crystal) (overlaps : Bool) : List Group :=
  [⟨"projwfc".toList, [[asg "prefix".toList (quoted c.name)], [asg "outdir".toList "'./qe-data/'".toList],
    [asg "lwrite_overlaps".toList (if overlaps then "True".toList else "False".toList)]]⟩]

/-- Namelist of `fermi_surface` (1345-1348). -/
def fsGroups (c : Crystal) : List Group :=
  [⟨"fermi".toList, [[asg "prefix".toList (quoted c.name)], [asg "outdir".toList "'./qe-data/'".toList]]⟩]

/-- Namelists, `_crystal()` and k-points: the text of a file for `pw.x`. -/
def pwText (E : Env) (c : Crystal) (start : List Text) (gs : List Group) (k : Text) : Except Err Text := do
  let cr ← crystal E.F E.mass E.pp E.order c.cell
  pure (namelists start ind4 gs ++ (cr ++ nl ++ (k ++ nl)))

/-- Remove `./` at the beginning of a path; `after` tells that one was removed, so that further slashes count once. -/
def strip (after : Bool) : Text → Text
  | '.' :: '/' :: t => strip true t
  | '/' :: t => if after then strip true t else '/' :: t
  | t => t

/-- The file meant by a path (1012, 1038, 1069 use `./`). -/
def path : Text → Text := strip false

/-- `open(file, "w")` and `write(text)`: the file is emptied before the text is put together. -/
def write (file : Text) (text : Except Err Text) (w : World) : World × Except Err Unit :=
  match text with
  | .ok t => ({ w with files := fun f => if f = path file then some t else w.files f }, .ok ())
  | .error e => ({ w with files := fun f => if f = path file then some [] else w.files f }, .error e)

/-- The suffix of programs (865, 868, 1135). -/
def exe (E : Env) : Text := if E.win then [] else ".x".toList

/-- `_run` (864-865). -/
def runCommand (E : Env) (c : Crystal) (program name : Text) : Text :=
  E.mpiRun ++ (program ++ exe E ++ " -nk ".toList ++ E.F.nat c.nk ++ " -nd ".toList ++ E.F.nat c.nd ++ " -nt ".toList ++ E.F.nat c.nt ++
    " -in ".toList ++ c.name ++ ('.' :: name) ++ ".in | tee ".toList ++ c.name ++ ('.' :: name) ++ ".out".toList)

/-- Write the file, then run the program; an exception while writing ends the method. -/
def job (E : Env) (c : Crystal) (pre program name : Text) (text : Except Err Text) (w : World) : World × Except Err Unit :=
  match write (pre ++ c.name ++ ('.' :: name) ++ ".in".toList) text w with
  | (w', .error e) => (w', .error e)
  | (w', .ok ()) => ({ w' with commands := w'.commands ++ [runCommand E c program name] }, .ok ())

/-- `scf` (870-912). -/
noncomputable def scf (E : Env) (c : Crystal) (size : ℤ) (size2 size3 : Option ℤ) : World → World × Except Err Unit :=
  job E c [] "pw".toList "scf".toList (pwText E c [] (scfGroups E c) (kGrid E.F size (some (size2.getD size)) (some (size3.getD size))))

/-- `relax` (914-961). -/
noncomputable def relax (E : Env) (c : Crystal) (size : ℤ) (fixVolume : Bool) : World → World × Except Err Unit :=
  job E c [] "pw".toList "relax".toList (pwText E c [[]] (relaxGroups E c fixVolume) (kGrid E.F size none none))

/-- `bands` (963-992). -/
noncomputable def bands (E : Env) (c : Crystal) (bandCount : ℤ) (k : Text) : World → World × Except Err Unit :=
  job E c [] "pw".toList "band".toList (pwText E c [[]] (bandsGroups E c bandCount) k)

/-- `bandx` (994-1008). -/
def bandx (E : Env) (c : Crystal) : World → World × Except Err Unit :=
  job E c [] "bands".toList "bandx".toList (.ok (namelists [[]] [] (bandxGroups c)))

/-- `dos` (1010-1027). -/
def dos (E : Env) (c : Crystal) : World → World × Except Err Unit :=
  job E c "./".toList "dos".toList "dos".toList (.ok (namelists [[]] ind4 (dosGroups c)))

/-- `nscf` (1029-1065). -/
noncomputable def nscf (E : Env) (c : Crystal) (k : Text) (bandCount : ℤ) : World → World × Except Err Unit :=
  job E c "./".toList "pw".toList "nscf".toList (pwText E c [] (nscfGroups E c bandCount) k)

/-- `nscf_nosym` (1067-1097). -/
noncomputable def nscfNosym (E : Env) (c : Crystal) (k : Text) (bandCount : ℤ) : World → World × Except Err Unit :=
  job E c "./".toList "pw".toList "nscf".toList (pwText E c [[]] (nosymGroups E c bandCount) k)

/-- `projections` (1143-1156). -/
def projections (E : Env) (c : Crystal) (overlaps : Bool) : World → World × Except Err Unit :=
  job E c [] "projwfc".toList "projwfc".toList (.ok (namelists [[]] [] (projGroups c overlaps)))

/-- `fermi_surface` (1340-1351). -/
def fermiSurface (E : Env) (c : Crystal) (w : World) : World × Except Err Unit :=
  match job E c [] "fs".toList "fs".toList (.ok (namelists [[]] [] (fsGroups c))) w with
  | (w', .error e) => (w', .error e)
  | (w', .ok ()) => ({ w' with commands := w'.commands ++ ["xcrysden --bxsf ".toList ++ c.name ++ "_fs.bxsf > /dev/null".toList] }, .ok ())

/-- Namelists of `dielectric_function` (1118-1132), with an empty line between them. -/
def epsText (E : Env) (c : Crystal) (nw : ℤ) : Text :=
  namelists [[]] "  ".toList [⟨"inputpp".toList, [[asg "prefix".toList (quoted c.name)], [asg "outdir".toList "'./qe-data/'".toList],
    [asg "calculation ".toList " \"eps\"".toList]]⟩] ++
  namelists [[]] "  ".toList [⟨"energy_grid".toList, [[asg "smeartype ".toList " \"gauss\"".toList], [asg "intersmear ".toList " 0.2".toList],
    [asg "wmin ".toList "  0.0".toList], [asg "wmax ".toList (' ' :: E.F.num c.cutoff)], [asg "nw ".toList (' ' :: E.F.nat nw)]]⟩]

/-- `dielectric_function` (1115-1135); the input is redirected. -/
def dielectricFunction (E : Env) (c : Crystal) (nw : ℤ) (w : World) : World × Except Err Unit :=
  match write (c.name ++ ".epsilon.in".toList) (.ok (epsText E c nw)) w with
  | (w', .error e) => (w', .error e)
  | (w', .ok ()) => ({ w' with commands := w'.commands ++ [E.mpiRun ++ ("epsilon".toList ++ exe E ++ " < ".toList ++ c.name ++ ".epsilon.in | tee ".toList ++
      c.name ++ ".epsilon.out".toList)] }, .ok ())

/-- Namelist of `overlaps_for_wannier` (1264-1274); the header ends with a blank, one line is a comment. -/
def pw2wanGroups (c : Crystal) (useSym : Bool) : List Group :=
  [⟨"inputpp ".toList, [[asg "outdir".toList "'./qe-data/'".toList], [asg "prefix ".toList (' ' :: quoted c.name)], [asg "seedname ".toList (' ' :: quoted c.name)],
    [asg "!spin_component ".toList " 'none'".toList], [asg "wan_mode ".toList " 'standalone'".toList], [asg "write_mmn ".toList " true".toList],
    [asg "write_amn ".toList " true".toList]] ++
    (if useSym then [[asg "write_dmn ".toList " true".toList], [asg "read_sym ".toList " true".toList]] else [[[]]])⟩]

/-- `overlaps_for_wannier` (1260-1276). -/
def overlapsForWannier (E : Env) (c : Crystal) (useSym : Bool) : World → World × Except Err Unit :=
  job E c [] "pw2wannier90".toList "pw2wan".toList (.ok (namelists [[]] "   ".toList (pw2wanGroups c useSym)))

/-- `wannier` (1280-1284) with `_run_simple` (867-868). -/
def wannier (E : Env) (c : Crystal) (w : World) : World × Except Err Unit :=
  ({ w with commands := w.commands ++ ["wannier90".toList ++ exe E ++ sp ++ c.name ++ " | tee ".toList ++ (c.name ++ ".wout".toList)] }, .ok ())

end TB.QeInput

import Verif.Model.Err

/-!
# Model of `qe_prepare` (qespresso_interface.py 85-117)

The world is the set of directories, the files in `./pseudo`, the module variable `pp_files` and a log of what the function does: commands
given to the shell (in `./pseudo`) and printed lines.  A dictionary is its list of items; the values may be `None`.  What a command does to
the files and whether its output contains "Not Found" are parameters.  Dictionaries are shared: the argument is the dictionary that
`pp_files` refers to afterwards, so one list stands for both.
-/

namespace TB.QePrepare

abbrev Text := List Char
abbrev Dict := List (Text × Option Text)

/-- What the function does, in order. -/
inductive Event where
  | mkdir (name : Text)
  | run (command : Text)
  | skipped (file : Text)
  | notFound (file : Text)

structure World where
  dirs : Text → Bool
  pseudo : Text → Bool
  ppFiles : Dict
  log : List Event

/-- The shell: files afterwards and whether "Not Found" is in the output. -/
structure Shell where
  files : Text → (Text → Bool) → (Text → Bool)
  notFound : Text → (Text → Bool) → Bool

/-- `os.mkdir` if it does not exist (86-89). -/
def ensureDir (name : Text) (w : World) : World :=
  if w.dirs name then w else { w with dirs := fun n => n == name || w.dirs n, log := w.log ++ [.mkdir name] }

/-- `re.match(r"[a-zA-Z0-9\.\-]", file) is not None` (112): `match` looks at the beginning only. -/
def matches_ (file : Text) : Bool :=
  match file with
  | [] => false
  | c :: _ => ('a' ≤ c && c ≤ 'z') || ('A' ≤ c && c ≤ 'Z') || ('0' ≤ c && c ≤ '9') || c == '.' || c == '-'

/-- `d[name] = file` for a key of the dictionary. -/
def setItem (name : Text) (file : Text) : Dict → Dict
  | [] => []
  | (n, f) :: l => if n = name then (n, some file) :: l else (n, f) :: setItem name file l

/-- Line 108. -/
def defaultFile (name : Text) : Text := name ++ ".rel-pbesol-n-kjpaw_psl.1.0.0.UPF".toList

/-- Line 115. -/
def command (file : Text) : Text := "wget https://pseudopotentials.quantum-espresso.org/upf_files/".toList ++ file

/-- Lines 110-117 for one file. -/
def fetch (sh : Shell) (file : Text) (w : World) : World :=
  if w.pseudo file then w
  else if !matches_ file then { w with log := w.log ++ [.skipped file] }
  else
    let w' : World := { w with pseudo := sh.files (command file) w.pseudo, log := w.log ++ [.run (command file)] }
    if sh.notFound (command file) w.pseudo then { w' with log := w'.log ++ [.notFound file] } else w'

/-- The loop (100-117) over a copy of the items. -/
def loop (sh : Shell) : Dict → World → World
  | [], w => w
  | (name, none) :: l, w => loop sh l (fetch sh (defaultFile name) { w with ppFiles := setItem name (defaultFile name) w.ppFiles })
  | (_, some file) :: l, w => loop sh l (fetch sh file w)

/-- `qe_prepare` (85-117). -/
def qePrepare (sh : Shell) (arg : Option Dict) (w : World) : World :=
  let w := ensureDir "./pseudo".toList (ensureDir "./qe-data".toList w)
  let w := match arg with
    | none => w
    | some d => { w with ppFiles := d }
  loop sh w.ppFiles w

end TB.QePrepare

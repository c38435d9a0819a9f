import Mathlib.Algebra.Order.Floor.Ring
import Mathlib.Algebra.Order.Field.Basic
import Verif.Model.Err

/-!
# Model of `logger.py`: `OptimisationLogger`

Losses and errors are elements of an ordered field, iterations are integers.  Printed text is not modelled, except for
the line of error characters, since building it can raise.  `count` and `aborted` are public attributes; assigning
`count` is one of the calls a history may contain.
-/

namespace TB

variable {K : Type} [Field K] [LinearOrder K]

/-- One element of `self.stream`: a message or a data triple. -/
inductive Entry (K : Type)
  | msg (s : String)
  | data (iteration : ℤ) (loss : K) (maxErr : List K)
  deriving DecidableEq

/-- Object state of `OptimisationLogger` (logger.py 7-15). -/
structure Logger (K : Type) where
  stream : List (Entry K)
  iterations : List ℤ
  loss : List K
  printLoss : Bool
  updateLine : Bool
  verbose : Bool
  count : Bool
  aborted : Bool
  deriving DecidableEq

/-- `__init__` (logger.py 7-15). -/
def Logger.new (printLoss updateLine verbose : Bool) : Logger K := ⟨[], [], [], printLoss, updateLine, verbose, false, false⟩

/-- `add_message` (logger.py 17-23). -/
def Logger.addMessage (g : Logger K) (m : String) : Logger K := { g with stream := g.stream ++ [.msg m] }

/-- `abort` (logger.py 25-29). -/
def Logger.abort (g : Logger K) : Logger K × Except Err Unit :=
  if g.aborted then (g, .error .valueError) else ({ g.addMessage "aborted" with aborted := true }, .ok ())

/-- `iteration_count` (logger.py 50-53). -/
def Logger.iterationCount (g : Logger K) : ℤ := g.iterations.getLastD (-1)

/-- `last_loss` (logger.py 55-56). -/
def Logger.lastLoss (g : Logger K) : Except Err K :=
  match g.loss.getLast? with
  | none => .error .indexError
  | some l => .ok l

/-- Python's `round` of a number to an integer: half to even. -/
def pyRound [FloorRing K] (x : K) : ℤ :=
  let f := ⌊x⌋
  if x - f < 1 / 2 then f else if 1 / 2 < x - f then f + 1 else if f % 2 = 0 then f else f + 1

/-- The error characters of lines 44-46, as code points.  `np.max` of an empty array raises `ValueError`; if the maximum
is zero every quotient is `nan` (`0.0 / 0.0` of numpy floats), which is not `<= 1/16`, and `round(nan)` raises
`ValueError`. -/
def errorVis [FloorRing K] (maxErr : List K) : Except Err (List ℤ) :=
  match maxErr with
  | [] => .error .valueError
  | e :: es =>
    let scale := es.foldl max e
    if scale = 0 then .error .valueError
    else .ok (maxErr.map fun err => if err / scale ≤ 1 / 16 then 0x20 else 0x2581 + pyRound (err / scale * 8 - 1))

/-- `add_data` (logger.py 31-48); returns the printed error characters, if any. -/
def Logger.addData [FloorRing K] (g : Logger K) (iteration : ℤ) (loss : K) (maxErr : List K) :
    Logger K × Except Err (Option (List ℤ)) :=
  let g1 := { g with
    stream := g.stream ++ [.data iteration loss maxErr]
    iterations := g.iterations ++ [if g.count then g.iterationCount + 1 else iteration]
    loss := g.loss ++ [loss] }
  if g.printLoss then
    match errorVis maxErr with
    | .error e => (g1, .error e)
    | .ok v => (g1, .ok (some v))
  else (g1, .ok none)

/-- The calls that change a logger. -/
inductive LogCall (K : Type)
  | message (m : String)
  | abort
  | data (iteration : ℤ) (loss : K) (maxErr : List K)
  | setCount (b : Bool)

/-- The logger after one call (also if the call raised and the caller went on). -/
def Logger.step [FloorRing K] (g : Logger K) : LogCall K → Logger K
  | .message m => g.addMessage m
  | .abort => g.abort.1
  | .data i l e => (g.addData i l e).1
  | .setCount b => { g with count := b }

end TB

import Verif.Model.DiscreteHilbert
import Mathlib.Data.Rat.Defs
import Mathlib.Algebra.Order.Ring.Rat

/-! Models of `netket/logging/json_log.py` and `netket/logging/state_log.py`.

Clock readings are explicit rational arguments.  The accumulated data and their serialisation are
arbitrary functions: `accum` is `RuntimeLog.__call__` (see `Model/History.lean`), `dumps` is
`orjson.dumps(..., default=default)`.  Files are byte strings (or absent). -/

namespace Verif.Log
open Verif.Hilbert (Err)

/-- json_log.py:73-147: the attributes of a `JsonLog` together with the two files it writes. -/
structure JsonLog (Data β : Type) where
  data : Data
  oldStep : Int
  writeEvery : Nat
  saveParamsEvery : Nat
  nWrite : Nat
  nPars : Nat
  saveParams : Bool
  cost : Rat
  lastFlushTime : Rat
  lastRuntime : Rat
  logFile : Option (List β)
  parFile : Option (List β)

/-- modes of json_log.py:102-114 and state_log.py:74-86 after expansion of the shorthands. -/
inductive Mode
  | write
  | append
  | fail
  deriving DecidableEq

/-- json_log.py:102-108, state_log.py:74-80: shorthands of the mode, then the check 110-114 / 82-86. -/
def parseMode (s : String) : Except Err Mode :=
  if s = "w" ∨ s = "write" then .ok .write
  else if s = "a" ∨ s = "append" then .ok .append
  else if s = "x" ∨ s = "fail" then .ok .fail
  else .error .valueError

section
variable {Data P β I : Type}

/-- json_log.py:73-147: the constructor; the files may exist already (27-28, 119-125).  They are not touched. -/
def mkJsonLog (empty : Data) (mode : String) (saveParamsEvery writeEvery : Nat) (saveParams : Bool)
    (cost now : Rat) (logFile parFile : Option (List β)) : Except Err (JsonLog Data β) :=
  match parseMode mode with
  | .error e => .error e
  | .ok .append => .error .valueError
  | .ok m =>
    if (logFile.isSome ∨ parFile.isSome) ∧ m = .fail then .error .valueError
    else .ok {
      data := empty, oldStep := 0, writeEvery := writeEvery, saveParamsEvery := saveParamsEvery
      nWrite := 0, nPars := 0, saveParams := saveParams, cost := cost, lastFlushTime := now
      lastRuntime := 0, logFile := logFile, parFile := parFile }

/-- json_log.py:174-183: `_flush_log`, started at time `t0`, finished at `t1`.  The file is truncated
    by `open(..., "wb")` before the data are serialised. -/
def flushLog (dumps : Data → Except Err (List β)) (l : JsonLog Data β) (t0 t1 : Rat) :
    JsonLog Data β × Option Err :=
  match dumps l.data with
  | .error e => ({ l with lastFlushTime := t0, logFile := some [] }, some e)
  | .ok bs => ({ l with lastFlushTime := t0, logFile := some bs, nWrite := 0,
                        lastRuntime := t1 - t0 }, none)

/-- json_log.py:176-178: the contents of the file while `_flush_log` runs: empty after `open`, then the
    bytes written so far. -/
def flushStates (dumps : Data → Except Err (List β)) (l : JsonLog Data β) : List (List β) :=
  match dumps l.data with
  | .error _ => [[]]
  | .ok bs => (List.range (bs.length + 1)).map fun k => bs.take k

/-- json_log.py:185-196: `_flush_params`; serialisation precedes the opening of the file. -/
def flushParams (toBytes : P → List β) (l : JsonLog Data β) (vars : P) : JsonLog Data β :=
  if ¬l.saveParams then l
  else { l with parFile := some (toBytes vars), nPars := 0 }

/-- json_log.py:155-163: the decision to flush the log; `now` is the time read in line 155.  A zero elapsed
    time raises in line 156, `write_every = 0` in line 159. -/
def wantsFlush (l : JsonLog Data β) (oldStep step : Int) (now : Rat) : Except Err Bool :=
  if now - l.lastFlushTime = 0 then .error .zeroDivision
  else if l.writeEvery = 0 then .error .zeroDivision
  else .ok (decide (l.nWrite % l.writeEvery = 0) || decide (step = oldStep - 1)
    || decide (l.lastRuntime / (now - l.lastFlushTime) < l.cost))

/-- json_log.py:164-168: the decision to write the parameters. -/
def wantsParams (l : JsonLog Data β) (oldStep step : Int) : Except Err Bool :=
  if l.saveParamsEvery = 0 then .error .zeroDivision
  else .ok (decide (l.nPars % l.saveParamsEvery = 0) || decide (step = oldStep - 1))

/-- json_log.py:170-172: bookkeeping at the end of a call. -/
def finishCall (l : JsonLog Data β) (step : Int) : JsonLog Data β :=
  { l with oldStep := step, nWrite := l.nWrite + 1, nPars := l.nPars + 1 }

/-- json_log.py:164-172: the second half of a call. -/
def callParams (toBytes : P → List β) (l : JsonLog Data β) (oldStep step : Int) (vars : P) :
    JsonLog Data β × Option Err :=
  match wantsParams l oldStep step with
  | .error e => (l, some e)
  | .ok true => (finishCall (flushParams toBytes l vars) step, none)
  | .ok false => (finishCall l step, none)

/-- json_log.py:149-172 (and runtime_log.py:33-35): `logger(step, item, state)`. -/
def call (accum : Data → Int → I → Except Err Data) (dumps : Data → Except Err (List β))
    (toBytes : P → List β) (l : JsonLog Data β) (step : Int) (item : I) (vars : P)
    (now t0 t1 : Rat) : JsonLog Data β × Option Err :=
  match accum l.data step item with
  | .error e => (l, some e)
  | .ok d =>
    match wantsFlush { l with data := d, oldStep := step } l.oldStep step now with
    | .error e => ({ l with data := d, oldStep := step }, some e)
    | .ok true =>
      match flushLog dumps { l with data := d, oldStep := step } t0 t1 with
      | (l', some e) => (l', some e)
      | (l', none) => callParams toBytes l' l.oldStep step vars
    | .ok false => callParams toBytes { l with data := d, oldStep := step } l.oldStep step vars

/-- json_log.py:198-208: `flush(state)`; without a state the parameters are not written. -/
def flush (dumps : Data → Except Err (List β)) (toBytes : P → List β) (l : JsonLog Data β)
    (vars : Option P) (t0 t1 : Rat) : JsonLog Data β × Option Err :=
  match flushLog dumps l t0 t1 with
  | (l', some e) => (l', some e)
  | (l', none) => match vars with
    | none => (l', none)
    | some v => (flushParams toBytes l' v, none)

/-- the operations on a logger (json_log.py:149, 198). -/
inductive Op (I P : Type)
  | call (step : Int) (item : I) (vars : P) (now t0 t1 : Rat)
  | flush (vars : Option P) (t0 t1 : Rat)

/-- one operation (json_log.py:149-208). -/
def step (accum : Data → Int → I → Except Err Data) (dumps : Data → Except Err (List β))
    (toBytes : P → List β) (l : JsonLog Data β) : Op I P → JsonLog Data β × Option Err
  | .call s i v now t0 t1 => call accum dumps toBytes l s i v now t0 t1
  | .flush v t0 t1 => flush dumps toBytes l v t0 t1

/-- a sequence of operations up to the first exception (json_log.py:149-208). -/
def run (accum : Data → Int → I → Except Err Data) (dumps : Data → Except Err (List β))
    (toBytes : P → List β) (l : JsonLog Data β) : List (Op I P) → JsonLog Data β × Option Err
  | [] => (l, none)
  | o :: r => match step accum dumps toBytes l o with
    | (l', none) => run accum dumps toBytes l' r
    | (l', some e) => (l', some e)

end

/-! ## StateLog -/

/-- a file or member name: `stem.mpack`, matched by the glob `*.mpack` (state_log.py:140, 144), or any other. -/
inductive Name
  | mpack (stem : String)
  | other (name : String)
  deriving DecidableEq

/-- the output of a `StateLog`: the members of the folder or of the tar archive in order, under their
    names (state_log.py:137-147, 127-135).  `none` for an archive or folder that does not exist. -/
abbrev Store (B : Type) := Option (List (Name × B))

/-- state_log.py:47-118: the attributes of a `StateLog` and its output. -/
structure StateLog (B : Type) where
  mode : Mode
  tar : Bool
  saveEvery : Nat
  oldStep : Int
  nNotSaved : Nat
  init : Bool
  fileStep : Int
  store : Store B

section
variable {B : Type}

/-- state_log.py:47-118: the constructor.  For a folder `os.makedirs(dirname)` (101-103) creates the folder
    itself, because the prefix ends with a slash. -/
def mkStateLog (mode : String) (saveEvery : Nat) (tar : Bool) (store : Store B) :
    Except Err (StateLog B) :=
  match parseMode mode with
  | .error e => .error e
  | .ok m =>
    if store.isSome ∧ m = .fail then .error .valueError
    else .ok {
      mode := m, tar := tar, saveEvery := saveEvery, oldStep := 0, nNotSaved := 0, init := false
      fileStep := 0
      store := if tar then store else some (store.getD []) }

/-- `name[:-6]` (state_log.py:133, 145). -/
def stem : Name → String
  | .mpack s => s
  | .other n => String.ofList (n.toList.take (n.length - 6))

/-- state_log.py:140, 144: files matched by the glob `*.mpack`. -/
def isMpack : Name → Bool
  | .mpack _ => true
  | .other _ => false

/-- state_log.py:133-135, 145-147: the numbers of the given names; `int(...)` raises ValueError. -/
def numbers (intOf : String → Option Int) : List Name → Except Err (List Int)
  | [] => .ok []
  | f :: r => match intOf (stem f) with
    | none => .error .valueError
    | some n => match numbers intOf r with
      | .error e => .error e
      | .ok ns => .ok (n :: ns)

/-- state_log.py:134-135, 146-147: `sorted(numbers)[-1] + 1`, IndexError for no number. -/
def nextNumber : List Int → Except Err Int
  | [] => .error .indexError
  | n :: ns => .ok (ns.foldl max n + 1)

/-- state_log.py:132-135, 144-147. -/
def appendStart (intOf : String → Option Int) (names : List Name) : Except Err Int :=
  match numbers intOf names with
  | .error e => .error e
  | .ok ns => nextNumber ns

/-- state_log.py:127-135: `_create_tar_file`; `TarFile(name, mode[0])` accepts the modes `w` and `a`
    (creating the archive if needed) but not `f`. -/
def createTar (intOf : String → Option Int) (l : StateLog B) : Except Err (StateLog B) :=
  match l.mode with
  | .fail => .error .valueError
  | .write => .ok { l with store := some [], fileStep := 0 }
  | .append =>
    match appendStart intOf ((l.store.getD []).map Prod.fst) with
    | .error e => .error e
    | .ok n => .ok { l with store := some (l.store.getD []), fileStep := n }

/-- state_log.py:137-147: `_check_output_folder`. -/
def checkFolder (intOf : String → Option Int) (l : StateLog B) : Except Err (StateLog B) :=
  match l.mode with
  | .fail => .ok { l with fileStep := 0 }
  | .write =>
    .ok { l with store := some ((l.store.getD []).filter fun p => !isMpack p.1), fileStep := 0 }
  | .append =>
    match appendStart intOf (((l.store.getD []).map Prod.fst).filter isMpack) with
    | .error e => .error e
    | .ok n => .ok { l with fileStep := n }

/-- state_log.py:120-125: `_init_output`. -/
def initOutput (intOf : String → Option Int) (l : StateLog B) : Except Err (StateLog B) :=
  match (if l.tar then createTar intOf l else checkFolder intOf l) with
  | .error e => .error e
  | .ok l' => .ok { l' with init := true }

/-- the name of the file number `n` (state_log.py:171, 174). -/
def fileName (n : Int) : Name := .mpack (toString n)

/-- state_log.py:174: `open(name, "wb")` replaces the contents of an existing file. -/
def putFile (name : Name) (b : B) : List (Name × B) → List (Name × B)
  | [] => [(name, b)]
  | (k, c) :: r => if k = name then (k, b) :: r else (k, c) :: putFile name b r

/-- state_log.py:168-178: writing the variables; a tar archive gets one more member. -/
def writeState (l : StateLog B) (b : B) : StateLog B :=
  { l with
    store := some (if l.tar then l.store.getD [] ++ [(fileName l.fileStep, b)]
      else putFile (fileName l.fileStep) b (l.store.getD []))
    fileStep := l.fileStep + 1 }

/-- state_log.py:163-178: `_save_variables`. -/
def saveVariables (intOf : String → Option Int) (l : StateLog B) (b : B) : Except Err (StateLog B) :=
  if l.init then .ok (writeState l b)
  else match initOutput intOf l with
    | .error e => .error e
    | .ok l' => .ok (writeState l' b)

/-- state_log.py:154-161: `logger(step, item, state)`; `save_every = 0` raises in line 157. -/
def stateCall (intOf : String → Option Int) (l : StateLog B) (step : Int) (b : B) :
    Except Err (StateLog B) :=
  if l.saveEvery = 0 then .error .zeroDivision
  else if l.nNotSaved % l.saveEvery = 0 ∨ step = l.oldStep - 1 then
    match saveVariables intOf l b with
    | .error e => .error e
    | .ok l' => .ok { l' with oldStep := step, nNotSaved := l'.nNotSaved + 1 }
  else .ok { l with oldStep := step, nNotSaved := l.nNotSaved + 1 }

/-- a sequence of calls (state_log.py:154-161). -/
def stateRun (intOf : String → Option Int) (l : StateLog B) : List (Int × B) → Except Err (StateLog B)
  | [] => .ok l
  | (s, b) :: r => match stateCall intOf l s b with
    | .error e => .error e
    | .ok l' => stateRun intOf l' r

end
end Verif.Log

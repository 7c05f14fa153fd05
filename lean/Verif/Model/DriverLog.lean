import Verif.Model.Driver
import Verif.Model.Logging

/-! Model of `AbstractVariationalDriver.run` with its observables, callbacks, loggers and exceptions
(`netket/driver/abstract_variational_driver.py`).

`Model/Driver.lean` models the order of events of `run`; here the log data are computed, passed through the callbacks and given to
the loggers, each of which is a state machine of its own, and every call may raise.  The variational state with the optimizer is
an arbitrary type `W`, statistics are an arbitrary type `V`, names are natural numbers.  Not modelled: the progress bar, pytrees of
observables other than dictionaries and lists, callbacks which modify the driver, loggers which modify the log data. -/

namespace Verif.DriverLog
open Verif.Hilbert (Err)
open Verif.Driver (Env rangeLen)

variable {W D V S : Type}

/-- abstract_variational_driver.py:223-224, 291-303: the argument `obs`: a dictionary of observables (None is the empty one) or a
    list of them.  An observable is the function from states to statistics `_estimate_stats`. -/
inductive Obs (W V : Type)
  | dict (l : List (Nat × (W → V)))
  | list (l : List (W → V))

/-- abstract_variational_driver.py:254: `log_data`, of the same structure as the observables. -/
inductive Data (V : Type)
  | dict (l : List (Nat × V))
  | list (l : List V)
  deriving DecidableEq

/-- abstract_variational_driver.py:291-303: `estimate`. -/
def estimate : Obs W V → W → Data V
  | .dict l, w => .dict (l.map fun p => (p.1, p.2 w))
  | .list l, w => .list (l.map fun f => f w)

/-- `log_data[name] = v` (abstract_variational_driver.py:259) on the items of a dictionary: an existing key keeps its place. -/
def setItem (name : Nat) (v : V) : List (Nat × V) → List (Nat × V)
  | [] => [(name, v)]
  | p :: r => if p.1 = name then (name, v) :: r else p :: setItem name v r

/-- abstract_variational_driver.py:257-259: the loss is added if there is one; a list does not accept a string as index. -/
def addLoss (name : Nat) : Option V → Data V → Except Err (Data V)
  | none, d => .ok d
  | some v, .dict l => .ok (.dict (setItem name v l))
  | some _, .list _ => .error .typeError

/-- a callback (abstract_variational_driver.py:263): from the number of the turn (standing for its own state), the step, the log
    data and the state to its answer and the log data it leaves behind. -/
abbrev Callback (W V : Type) := Nat → Int → Data V → W → Except Err (Bool × Data V)

/-- abstract_variational_driver.py:262-264: the callbacks in order; the first component tells whether one asked to stop. -/
def runCallbacks (b : Nat) (step : Int) (w : W) : List (Callback W V) → Bool → Data V → Except Err (Bool × Data V)
  | [], stop, d => .ok (stop, d)
  | c :: r, stop, d => match c b step d w with
    | .error e => .error e
    | .ok (ans, d') => runCallbacks b step w r (if ans then stop else true) d'

/-- a kind of logger (abstract_variational_driver.py:267, 288): what calling and flushing do to its state. -/
structure Logger (S V W : Type) where
  call : S → Int → Data V → W → S × Option Err
  flush : S → W → S × Option Err

/-- abstract_variational_driver.py:266-267, 287-288: the loggers in order until one raises. -/
def each (f : S → S × Option Err) : List S → List S × Option Err
  | [] => ([], none)
  | s :: r => match f s with
    | (s', some e) => (s' :: r, some e)
    | (s', none) => (s' :: (each f r).1, (each f r).2)

/-- abstract_variational_driver.py:28-40, 232-244: what a `for` loop sees of an argument that passed `_to_iterable`: a container
    can be iterated again and again, an iterator (a generator, `map`, `zip`, ...) only once. -/
inductive Iterable
  | container
  | iterator
  deriving DecidableEq

/-- abstract_variational_driver.py:262, 266, 287: whether a loop sees the elements, if the argument was (not) iterated before. -/
def sees : Iterable → Bool → Bool
  | .container, _ => true
  | .iterator, used => !used

/-- abstract_variational_driver.py:216-289: the arguments of `run` and the driver's own ingredients. -/
structure Args (W D V S : Type) where
  env : Env W D
  lossName : Nat
  /-- `_loss_stats` after `_forward_and_backward` -/
  loss : W → Option V
  obs : Obs W V
  callbacks : List (Callback W V)
  cbKind : Iterable
  logger : Logger S V W
  logKind : Iterable
  /-- the flags of the other ranks in each turn -/
  others : Nat → Bool

/-- the state of a run (abstract_variational_driver.py:246-288): step count, variational state, loggers, and whether the loops over
    loggers and callbacks were entered already. -/
structure Run (W S : Type) where
  step : Int
  world : W
  logs : List S
  used : Bool
  deriving DecidableEq

/-- abstract_variational_driver.py:167-172 for the remaining updates of a turn. -/
def inner (env : Env W D) : Nat → Run W S → Run W S
  | 0, r => r
  | k + 1, r => inner env k { r with step := r.step + 1, world := env.upd (env.fwd r.world).1 (env.fwd r.world).2 }

/-- abstract_variational_driver.py:254-264: the log data of a turn and whether a callback asked to stop; `w` is the state after
    `_forward_and_backward`. -/
def turnData (a : Args W D V S) (b : Nat) (used : Bool) (step : Int) (w : W) : Except Err (Bool × Data V) :=
  match addLoss a.lossName (a.loss w) (estimate a.obs w) with
  | .error e => .error e
  | .ok d => runCallbacks b step w (if sees a.cbKind used then a.callbacks else []) false d

/-- abstract_variational_driver.py:266-267: the loggers of a turn. -/
def turnLogs (a : Args W D V S) (used : Bool) (step : Int) (d : Data V) (w : W) (logs : List S) : List S × Option Err :=
  if sees a.logKind used then each (fun s => a.logger.call s step d w) logs else (logs, none)

/-- abstract_variational_driver.py:269-271: whether the loop is left; iterators have no length. -/
def leaves (a : Args W D V S) (b : Nat) (stop : Bool) : Except Err Bool :=
  match a.cbKind with
  | .iterator => .error .typeError
  | .container => .ok (decide (0 < a.callbacks.length) && (stop || a.others b))

/-- abstract_variational_driver.py:252-271: one turn up to the decision to leave the loop; the gradient is returned for the update. -/
def report (a : Args W D V S) (b : Nat) (r : Run W S) : Run W S × Except Err Bool :=
  match turnData a b r.used r.step (a.env.fwd r.world).1 with
  | .error e => ({ r with world := (a.env.fwd r.world).1, used := true }, .error e)
  | .ok (stop, d) => match turnLogs a r.used r.step d (a.env.fwd r.world).1 r.logs with
    | (logs, some e) => ({ r with world := (a.env.fwd r.world).1, logs := logs, used := true }, .error e)
    | (logs, none) => ({ r with world := (a.env.fwd r.world).1, logs := logs, used := true }, leaves a b stop)

/-- abstract_variational_driver.py:171-172: the update at the end of the first inner iteration, with the gradient of that turn. -/
def finish (env : Env W D) (w0 : W) (r : Run W S) : Run W S :=
  { r with step := r.step + 1, world := env.upd r.world (env.fwd w0).2 }

/-- abstract_variational_driver.py:252-280 with 165-172: the turns. -/
def loop (a : Args W D V S) (step : Nat) : Nat → Nat → Run W S → Run W S × Option Err
  | 0, _, r => (r, none)
  | k + 1, b, r =>
    if step = 0 then loop a step k (b + 1) r
    else match report a b r with
      | (r', .error e) => (r', some e)
      | (r', .ok true) => (r', none)
      | (r', .ok false) => loop a step k (b + 1) (inner a.env (step - 1) (finish a.env r.world r'))

/-- abstract_variational_driver.py:218: the argument `n_iter`. -/
inductive NIter
  | int (n : Int)
  | float
  | other

/-- abstract_variational_driver.py:285-288: flush at the end. -/
def flushAll (a : Args W D V S) (r : Run W S) : Run W S × Option Err :=
  if sees a.logKind r.used then
    match each (fun s => a.logger.flush s r.world) r.logs with
    | (logs, e) => ({ r with logs := logs }, e)
  else (r, none)

/-- abstract_variational_driver.py:183-289: `run(n_iter, step_size=step)` of the root rank with the given loggers. -/
def runLoggers (a : Args W D V S) (n : NIter) (step : Int) (r : Run W S) : Run W S × Option Err :=
  match n with
  | .other => (r, some .valueError)
  | .float => (r, some .typeError)
  | .int n => match rangeLen n step with
    | .error e => (r, some e)
    | .ok k => match loop a step.toNat k 0 r with
      | (r', some e) => (r', some e)
      | (r', none) => flushAll a r'

/-- abstract_variational_driver.py:233-242: what becomes of `out`: only the root logs (232, 240-242). -/
def runRank (a : Args W D V S) (root : Bool) (n : NIter) (step : Int) (r : Run W S) : Run W S × Option Err :=
  if root then runLoggers a n step { r with used := false }
  else
    match runLoggers { a with logKind := .container } n step { r with logs := [], used := false } with
    | (r', e) => ({ r' with logs := r.logs }, e)

/-! ## The default logger -/

section
variable {Acc P β : Type}

/-- a `JsonLog` with the future readings of the clock (json_log.py:155, 175, 181) and the number of readings so far. -/
structure Timed (Acc β : Type) where
  log : Verif.Log.JsonLog Acc β
  clock : Nat → Rat
  read : Nat

/-- json_log.py:149-208 as a logger of a run; `vars` extracts the variables of the state. -/
def jsonLogger (accum : Acc → Int → Data V → Except Err Acc) (dumps : Acc → Except Err (List β)) (toBytes : P → List β)
    (vars : W → P) : Logger (Timed Acc β) V W where
  call := fun s step d w =>
    ({ s with
        log := (Verif.Log.call accum dumps toBytes s.log step d (vars w) (s.clock s.read) (s.clock (s.read + 1))
          (s.clock (s.read + 2))).1
        read := s.read + 3 },
      (Verif.Log.call accum dumps toBytes s.log step d (vars w) (s.clock s.read) (s.clock (s.read + 1))
          (s.clock (s.read + 2))).2)
  flush := fun s w =>
    ({ s with
        log := (Verif.Log.flush dumps toBytes s.log (some (vars w)) (s.clock s.read) (s.clock (s.read + 1))).1
        read := s.read + 2 },
      (Verif.Log.flush dumps toBytes s.log (some (vars w)) (s.clock s.read) (s.clock (s.read + 1))).2)

/-- abstract_variational_driver.py:234-236: `JsonLog(out, "w", save_params_every, write_every)` on the files that exist (the
    defaults of json_log.py:81-82 for the other arguments: parameters are saved, `autoflush_cost` is `cost`). -/
def defaultLogger (empty : Acc) (saveEvery writeEvery : Nat) (cost now : Rat) (clock : Nat → Rat)
    (logFile parFile : Option (List β)) : Except Err (Timed Acc β) :=
  match Verif.Log.mkJsonLog empty "w" saveEvery writeEvery true cost now logFile parFile with
  | .error e => .error e
  | .ok l => .ok ⟨l, clock, 0⟩

/-- abstract_variational_driver.py:234-236, 249-289: `run(n, out=<str>)` on the root. -/
def runPath (a : Args W D V (Timed Acc β)) (empty : Acc) (saveEvery writeEvery : Nat) (cost now : Rat)
    (clock : Nat → Rat) (logFile parFile : Option (List β)) (n : NIter) (step : Int) (start : Int) (w : W) :
    Except Err (Run W (Timed Acc β) × Option Err) :=
  match defaultLogger empty saveEvery writeEvery cost now clock logFile parFile with
  | .error e => .error e
  | .ok s => .ok (runLoggers { a with logKind := .container } n step ⟨start, w, [s], false⟩)

end

end Verif.DriverLog

import Verif.Model.DiscreteHilbert
import Mathlib.Algebra.Order.Field.Basic

/-! Models of `netket/driver/abstract_variational_driver.py` (iter, advance, run), of the callbacks
`netket/callbacks/earlystopping.py`, `netket/callbacks/timeout.py` and of
`netket/optimizer/preconditioner.py`.

The variational state together with the optimizer state is an arbitrary type `W`.  The answers of the callbacks and the
flags of the other MPI ranks are explicit arguments, so the theorems hold for all of them.  Not modelled: exceptions raised
inside callbacks and loggers, the progress bar, the default JSON logger (see `Model/Logging.lean`), observables. -/

namespace Verif.Driver
open Verif.Hilbert (Err)

/-! ## The driver -/

/-- what happens during a run, in order.  A logger call records the step and the state it was given
(netket/driver/abstract_variational_driver.py:152-289). -/
inductive Event (W : Type)
  | forward
  | update
  | callback (i : Nat) (step : Int)
  | log (i : Nat) (step : Int) (w : W)
  | flush (i : Nat) (w : W)
  deriving DecidableEq

/-- abstract_variational_driver.py:66-96: the mutable part of a driver and the events so far. -/
structure Drv (W : Type) where
  stepCount : Int
  world : W
  trace : List (Event W)
  deriving DecidableEq

variable {W D : Type}

/-- abstract_variational_driver.py:66-83, 305-314: the operations of a concrete driver: `_forward_and_backward` and
    `update_parameters`. -/
structure Env (W D : Type) where
  fwd : W → W × D
  upd : W → D → W

/-- length of Python's `range(0, n, step)` (abstract_variational_driver.py:165). -/
def rangeLen (n step : Int) : Except Err Nat :=
  if step = 0 then .error .valueError
  else if step > 0 then .ok ((n + step - 1) / step).toNat
  else .ok ((-n + -step - 1) / -step).toNat

/-- abstract_variational_driver.py:167: `dp = self._forward_and_backward()`. -/
def forward (env : Env W D) (d : Drv W) : Drv W × D :=
  ({ d with world := (env.fwd d.world).1, trace := d.trace ++ [.forward] }, (env.fwd d.world).2)

/-- abstract_variational_driver.py:171-172. -/
def update (env : Env W D) (d : Drv W) (dp : D) : Drv W :=
  { stepCount := d.stepCount + 1, world := env.upd d.world dp, trace := d.trace ++ [.update] }

/-- abstract_variational_driver.py:166-172 for the iterations `i > 0` of the inner loop. -/
def inner (env : Env W D) : Nat → Drv W → Drv W
  | 0, d => d
  | k + 1, d => inner env k (update env (forward env d).1 (forward env d).2)

/-- abstract_variational_driver.py:262-264: all callbacks are called, whatever they answer. -/
def callCallbacks (ncb : Nat) (d : Drv W) : Drv W :=
  { d with trace := d.trace ++ (List.range ncb).map fun i => .callback i d.stepCount }

/-- abstract_variational_driver.py:261-264: the flag after the callbacks of one iteration. -/
def stopFlag (ncb : Nat) (answer : Nat → Bool) (flag : Bool) : Bool :=
  (List.range ncb).foldl (fun s i => if answer i then s else true) flag

/-- abstract_variational_driver.py:266-267. -/
def callLoggers (nlog : Nat) (d : Drv W) : Drv W :=
  { d with trace := d.trace ++ (List.range nlog).map fun i => .log i d.stepCount d.world }

/-- abstract_variational_driver.py:251-283: the loop of `run` over the generator of `iter` (165-172).  `b` numbers the turns,
    `answer b i` is the answer of callback `i` in turn `b`, `others b` the flag of the other ranks.  A `break` discards
    the pending gradient. -/
def loop (env : Env W D) (step ncb nlog : Nat) (answer : Nat → Nat → Bool) (others : Nat → Bool) :
    Nat → Nat → Bool → Drv W → Drv W
  | 0, _, _, d => d
  | k + 1, b, flag, d =>
    if step = 0 then loop env step ncb nlog answer others k (b + 1) flag d
    else
      let fd := forward env d
      let d1 := callLoggers nlog (callCallbacks ncb fd.1)
      let flag' := stopFlag ncb (answer b) flag
      if 0 < ncb ∧ (flag' || others b) then d1
      else loop env step ncb nlog answer others k (b + 1) flag' (inner env (step - 1) (update env d1 fd.2))

/-- abstract_variational_driver.py:285-288. -/
def flushAll (nlog : Nat) (d : Drv W) : Drv W :=
  { d with trace := d.trace ++ (List.range nlog).map fun i => .flush i d.world }

/-- abstract_variational_driver.py:183-289: `run(n_iter, step_size=step)`; `root` is `self._mynode == 0` (lines 232-242: only
    the root logs). -/
def run (env : Env W D) (n step : Int) (root : Bool) (ncb nlog : Nat) (answer : Nat → Nat → Bool)
    (others : Nat → Bool) (d : Drv W) : Except Err (Drv W) :=
  match rangeLen n step with
  | .error e => .error e
  | .ok k =>
    let nl := if root then nlog else 0
    .ok (flushAll nl (loop env step.toNat ncb nl answer others k 0 false d))

/-- abstract_variational_driver.py:174-181: `advance(steps)`: the generator is consumed without any body. -/
def advance (env : Env W D) (steps : Int) (d : Drv W) : Except Err (Drv W) :=
  match rangeLen steps 1 with
  | .error e => .error e
  | .ok k => .ok (loop env 1 0 0 (fun _ _ => true) (fun _ => false) k 0 false d)

/-! ## EarlyStopping -/

/-- earlystopping.py:26-37; `bestVal = none` is infinity. -/
structure EarlyStopping (K : Type) where
  minDelta : K
  patience : K
  baseline : Option K
  bestVal : Option K
  bestIter : Int

/-- earlystopping.py:26-37: the constructor. -/
def mkEarlyStopping {K : Type} (minDelta patience : K) (baseline : Option K) : EarlyStopping K :=
  { minDelta := minDelta, patience := patience, baseline := baseline, bestVal := none, bestIter := 0 }

section
variable {K : Type} [Field K] [LinearOrder K]

/-- earlystopping.py:52: `loss <= self._best_val`; a NaN (`none`) loss compares false, infinity is above everything. -/
def leBest (loss best : Option K) : Bool :=
  match loss, best with
  | none, _ => false
  | some _, none => true
  | some l, some b => decide (l ≤ b)

/-- earlystopping.py:55-57: the baseline is hit. -/
def hitsBaseline (loss baseline : Option K) : Bool :=
  match loss, baseline with
  | some l, some b => decide (l ≤ b)
  | _, _ => false

/-- earlystopping.py:60: `loss > self._best_val - self.min_delta`. -/
def aboveBest (loss best : Option K) (delta : K) : Bool :=
  match loss, best with
  | some l, some b => decide (l > b - delta)
  | _, _ => false

/-- earlystopping.py:52-54. -/
def trackBest (e : EarlyStopping K) (step : Int) (loss : Option K) : EarlyStopping K :=
  if leBest loss e.bestVal then { e with bestVal := loss, bestIter := step } else e

/-- earlystopping.py:39-64: `__call__`; the loss is `some x` or NaN (`none`). -/
def esCall (e : EarlyStopping K) (step : Int) (loss : Option K) : EarlyStopping K × Bool :=
  let e' := trackBest e step loss
  if hitsBaseline loss e'.baseline then (e', false)
  else if ((step - e'.bestIter : Int) : K) ≥ e'.patience ∧ aboveBest loss e'.bestVal e'.minDelta then (e', false)
  else (e', true)

/-- a sequence of calls (earlystopping.py:39-64): the answers. -/
def esRun (e : EarlyStopping K) : List (Int × Option K) → List Bool
  | [] => []
  | (s, l) :: r => (esCall e s l).2 :: esRun (esCall e s l).1 r

end

/-! ## Timeout -/

/-- timeout.py:29-31. -/
structure Timeout (K : Type) where
  timeout : K
  initTime : Option K

section
variable {K : Type} [Field K] [LinearOrder K]

/-- timeout.py:21-31: the constructor asserts a positive timeout. -/
def mkTimeout (t : K) : Except Err (Timeout K) :=
  if t > 0 then .ok ⟨t, none⟩ else .error .assertionError

/-- timeout.py:33-35. -/
def Timeout.reset (c : Timeout K) : Timeout K := { c with initTime := none }

/-- timeout.py:37-58: `__call__`.  `t1` is the first reading of the clock (the start time, or the printed time), `t2` the
    second, which only later calls make. -/
def Timeout.call (c : Timeout K) (t1 t2 : K) : Timeout K × Bool :=
  match c.initTime with
  | none => ({ c with initTime := some t1 }, true)
  | some t0 => if t2 - t0 ≥ c.timeout then (c, false) else (c, true)

/-- a sequence of calls (timeout.py:37-58): the answers. -/
def Timeout.runCalls (c : Timeout K) : List (K × K) → List Bool
  | [] => []
  | (t1, t2) :: r => (c.call t1 t2).2 :: (c.call t1 t2).1.runCalls r

end

/-! ## LinearPreconditioner -/

/-- preconditioner.py:51-67: `solver_restart` and the last solution. -/
structure Precond (X : Type) where
  solverRestart : Bool
  x0 : Option X

/-- preconditioner.py:64-67. -/
def mkPrecond {X : Type} (restart : Bool) : Precond X := ⟨restart, none⟩

/-- preconditioner.py:69-76: `__call__`; `solve v g x0` is `lhs_constructor(v).solve(solver, g, x0=x0)`. -/
def Precond.call {X V G : Type} (solve : V → G → Option X → X) (p : Precond X) (v : V) (g : G) : Precond X × X :=
  let x0 := if p.solverRestart then p.x0 else none
  let x := solve v g x0
  ({ p with x0 := some x }, x)

/-- a sequence of calls (preconditioner.py:69-76): the returned solutions. -/
def Precond.runCalls {X V G : Type} (solve : V → G → Option X → X) (p : Precond X) : List (V × G) → List X
  | [] => []
  | (v, g) :: r => (p.call solve v g).2 :: (p.call solve v g).1.runCalls solve r

end Verif.Driver

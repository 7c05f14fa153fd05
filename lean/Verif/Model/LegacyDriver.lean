import Verif.Model.Driver
import Verif.Model.LegacySR
import Mathlib.Analysis.SpecialFunctions.Complex.Log

/-! Models of `netket/legacy/abstract_variational_driver.py`, `_vmc.py`, `_steadystate.py` and `_qsr.py`.

The world (machine, optimizer and sampler) is an arbitrary type; the answers of the callbacks are arguments.  The estimators get the local values,
the log-derivatives and the matrix elements of the samples of every process. -/

namespace Verif.LegacyDriver
open Verif.Hilbert (Err)
open Verif.Driver (Env rangeLen)

/-! ## The loop -/

/-- the arguments `out` and `callback` after `_to_iterable` (abstract_variational_driver.py:18-29): `n` objects in a container, or in an iterator
    (`once`), which is empty when it is used again. -/
structure Iter where
  n : Nat
  once : Bool
  deriving DecidableEq

/-- how many objects a loop over it sees after `b` earlier loops
(netket/legacy/abstract_variational_driver.py:18-29). -/
def Iter.seen (i : Iter) (b : Nat) : Nat := if i.once = true ∧ 0 < b then 0 else i.n

/-- the argument `obs` (abstract_variational_driver.py:204-205, 255-267): a dictionary or a list of observables. -/
inductive Obs (O : Type)
  | dict (l : List (Nat × O))
  | seq (l : List O)

/-- python's `d[key] = value` (netket/legacy/abstract_variational_driver.py:233-234, 255-267). -/
def setKey {V : Type} (d : List (Nat × V)) (key : Nat) (v : V) : List (Nat × V) :=
  match d with
  | [] => [(key, v)]
  | (k, w) :: d => if k = key then (k, v) :: d else (k, w) :: setKey d key v

/-- the data of one turn (netket/legacy/abstract_variational_driver.py:228-236). -/
inductive Data (V : Type)
  | dict (l : List (Nat × V))
  | seq (l : List V)
  deriving DecidableEq

/-- what happens during a run, in order (netket/legacy/abstract_variational_driver.py:138-253). -/
inductive Event (W V : Type)
  | forward
  | update
  | log (i : Nat) (step : Int) (d : Data V) (w : W)
  | callback (i : Nat) (step : Int) (d : Data V)
  | flush (i : Nat) (w : W)
  deriving DecidableEq

/-- the mutable part of a driver (abstract_variational_driver.py:49-57) and the events so far. -/
structure Drv (W V : Type) where
  stepCount : Int
  world : W
  trace : List (Event W V)
  deriving DecidableEq

/-- what a driver reports: the estimate of an observable (`_estimate_stats`), the loss after a forward pass and its name
    (abstract_variational_driver.py:52-53, 88). -/
structure Report (W O V : Type) where
  est : W → O → V
  loss : W → Option V
  name : Nat

variable {W D O V : Type}

/-- abstract_variational_driver.py:233-238: `log_data`; a list has no item with a string as index. -/
def logData (r : Report W O V) (obs : Obs O) (w : W) : Except Err (Data V) :=
  match obs with
  | .dict l =>
    let d := l.map fun p => (p.1, r.est w p.2)
    match r.loss w with
    | none => .ok (.dict d)
    | some v => .ok (.dict (setKey d r.name v))
  | .seq l =>
    match r.loss w with
    | none => .ok (.seq (l.map (r.est w)))
    | some _ => .error .typeError

/-- abstract_variational_driver.py:153: `dp = self._forward_and_backward()`. -/
def forward (env : Env W D) (d : Drv W V) : Drv W V × D :=
  ({ d with world := (env.fwd d.world).1, trace := d.trace ++ [.forward] }, (env.fwd d.world).2)

/-- `update_parameters` (abstract_variational_driver.py:269-277). -/
def update (env : Env W D) (d : Drv W V) (dp : D) : Drv W V :=
  { stepCount := d.stepCount + 1, world := env.upd d.world dp, trace := d.trace ++ [.update] }

/-- abstract_variational_driver.py:152-157, the turns of the inner loop after the first. -/
def inner (env : Env W D) : Nat → Drv W V → Drv W V
  | 0, d => d
  | k + 1, d => inner env k (update env (forward env d).1 (forward env d).2)

/-- abstract_variational_driver.py:240-245: first the loggers, then all callbacks. -/
def reportAll (nlog ncb : Nat) (data : Data V) (d : Drv W V) : Drv W V :=
  { d with trace := d.trace ++ ((List.range nlog).map fun i => .log i d.stepCount data d.world)
      ++ (List.range ncb).map fun i => .callback i d.stepCount data }

/-- abstract_variational_driver.py:243-248. -/
def stopFlag (ncb : Nat) (answer : Nat → Bool) : Bool := (List.range ncb).any fun i => !answer i

/-- the loop of `run` (abstract_variational_driver.py:228-248) over the generator of `iter` (151-157).  `b` numbers the turns, `answer b i` is the
    answer of callback `i` in turn `b`.  After a `break` the generator is not resumed. -/
def loop (env : Env W D) (r : Report W O V) (obs : Obs O) (step : Nat) (logs cbs : Iter) (answer : Nat → Nat → Bool) :
    Nat → Nat → Drv W V → Drv W V × Option Err
  | 0, _, d => (d, none)
  | k + 1, b, d =>
    if step = 0 then loop env r obs step logs cbs answer k b d
    else
      let fd := forward env d
      match logData r obs fd.1.world with
      | .error e => (fd.1, some e)
      | .ok data =>
        let d1 := reportAll (logs.seen b) (cbs.seen b) data fd.1
        if stopFlag (cbs.seen b) (answer b) then (d1, none)
        else loop env r obs step logs cbs answer k (b + 1) (inner env (step - 1) (update env d1 fd.2))

/-- abstract_variational_driver.py:250-253. -/
def flushAll (nlog : Nat) (d : Drv W V) : Drv W V :=
  { d with trace := d.trace ++ (List.range nlog).map fun i => .flush i d.world }

/-- the argument `n_iter`: an integer, another number, or something else
(netket/legacy/abstract_variational_driver.py:199-202). -/
inductive NIter
  | int (n : Int)
  | number
  | other

/-- `run` (abstract_variational_driver.py:168-253); `root` is `self._mynode == 0`. -/
def run (env : Env W D) (r : Report W O V) (n : NIter) (step : Int) (root : Bool) (obs : Obs O) (logs cbs : Iter) (answer : Nat → Nat → Bool)
    (d : Drv W V) : Drv W V × Option Err :=
  match n with
  | .other => (d, some .valueError)
  | .number => (d, some .typeError)
  | .int n =>
    match rangeLen n step with
    | .error e => (d, some e)
    | .ok k =>
      let ls : Iter := if root then logs else ⟨0, false⟩
      let o := loop env r obs step.toNat ls cbs answer k 0 d
      match o.2 with
      | some e => (o.1, some e)
      | none => (flushAll (ls.seen (if step.toNat = 0 then 0 else k)) o.1, none)

/-- `advance` (abstract_variational_driver.py:159-166): the generator is consumed. -/
def advance (env : Env W D) (steps : Nat) (d : Drv W V) : Drv W V := inner env steps d

/-- `reset` of the drivers (_vmc.py:218-220, _steadystate.py:288-290, _qsr.py:266-268, abstract_variational_driver.py:99-106): the sampler is reset,
    then `self.step_count = 0` assigns to a property without setter. -/
def reset (resetSampler : W → W) (d : Drv W V) : Drv W V × Option Err :=
  ({ d with world := resetSampler d.world }, some .attributeError)

/-! ## Numbers of samples -/

/-- python's `int(math.ceil(a / b))` for natural numbers
(netket/legacy/_vmc.py:103-104; _steadystate.py:128-129, 150-151; _qsr.py:117-118, 143). -/
def ceilDiv (a b : Nat) : Nat := (a + b - 1) / b

/-- `_n_samples_node` (_vmc.py:103-104, _steadystate.py:128-129, _qsr.py:117-118). -/
def samplesNode (n : Int) (batch nodes : Nat) : Nat := ceilDiv (ceilDiv n.toNat batch) nodes

/-- the setter of `n_samples` of `Vmc` and `SteadyState` (_vmc.py:96-111, _steadystate.py:122-138): samples per chain and node, and `n_samples`. -/
def setSamples (n : Int) (batch nodes : Nat) : Except Err (Nat × Nat) :=
  if n ≤ 0 then .error .valueError
  else .ok (samplesNode n batch nodes, samplesNode n batch nodes * batch * nodes)

/-- the setter of `n_samples` of `Qsr` (_qsr.py:110-130). -/
def setSamplesQsr (n : Int) (batch nodes : Nat) : Except Err (Nat × Nat) :=
  if n ≤ 0 then .error .valueError else .ok (samplesNode n batch nodes, n.toNat)

/-- the setter of `n_samples_data` of `Qsr` (_qsr.py:136-147): the message of the error uses a name which does not exist. -/
def setData (n : Int) (nodes : Nat) : Except Err Nat :=
  if n ≤ 0 then .error .nameError else .ok (ceilDiv n.toNat nodes)

/-- the setters of `n_discard` (_vmc.py:117-127, _steadystate.py:167-177, _qsr.py:153-163). -/
def setDiscard (n : Option Int) (node batch : Nat) : Except Err Nat :=
  match n with
  | none => .ok (node * batch / 10)
  | some n => if n < 0 then .error .valueError else .ok n.toNat

/-- the attributes of `SteadyState` for observables (_steadystate.py:82-89): without `sampler_obs` there are none. -/
structure ObsSampler where
  samplesNode : Nat
  samples : Nat
  discard : Nat
  deriving DecidableEq

/-- _steadystate.py:83-89, 140-157, 179-194: the constructor with `sampler_obs`, `n_samples_obs` and `n_discard_obs`; `None <= 0` is a `TypeError`. -/
def mkObs (hasSampler : Bool) (nObs : Option Int) (dObs : Option Int) (batch nodes : Nat) : Except Err (Option ObsSampler) :=
  if hasSampler = false then .ok none
  else match nObs with
    | none => .error .typeError
    | some n =>
      match setSamples n batch nodes with
      | .error e => .error e
      | .ok p =>
        match setDiscard dObs p.1 batch with
        | .error e => .error e
        | .ok q => .ok (some ⟨p.1, p.2, q⟩)

/-- `sweep_diagonal` (_steadystate.py:269-283): the numbers of discarded and of kept samples; without a sampler `None.reset()`. -/
def sweepDiagonal (o : Option ObsSampler) (discard : Nat) : Except Err (Nat × Nat) :=
  match o with
  | none => .error .attributeError
  | some o => .ok (discard, o.samplesNode)

/-- the machine and the gradient in `update_parameters` with `Sgd` of numpy (abstract_variational_driver.py:276, optimizer/numpy/sgd.py:19-22): an array of real
    numbers cannot be changed in place by complex numbers. -/
def applyUpdate (realMachine complexUpdate : Bool) : Except Err Unit :=
  if realMachine = true ∧ complexUpdate = true then .error .typeError else .ok ()

/-- the kinds of drivers (netket/legacy/_vmc.py, _steadystate.py:27, _qsr.py:30). -/
inductive Kind
  | vmc | steady | qsr
  deriving DecidableEq

/-- whether `dp` has complex entries: `Vmc` and `SteadyState` without SR take the real part for real machines (_vmc.py:194-197,
    _steadystate.py:262-265), SR makes a complex array (stochastic_reconfiguration.py:141) and `Qsr` too (_qsr.py:213, 236). -/
def complexDp (k : Kind) (sr realMachine : Bool) : Bool :=
  match k with
  | .qsr => true
  | _ => sr || !realMachine

/-! ## Gradients -/

variable {P : Type}

/-- legacy `_mean` over the processes of lists of numbers (mpi_stats.py:52-57). -/
noncomputable def mean (xs : List (List ℂ)) : ℂ := (xs.map fun l => l.sum / (l.length : ℂ)).sum / (xs.length : ℂ)

/-- the gradient of `Vmc` (_vmc.py:149-199): on every process a list of local energies and log-derivatives, `nSamples` is `_n_samples`. -/
noncomputable def vmcGrads (nSamples : Nat) (rs : List (List (ℂ × (P → ℂ)))) (k : P) : ℂ :=
  let m := mean (rs.map fun r => r.map fun x => x.1)
  (rs.map fun r => (r.map fun x => star (x.2 k) * ((x.1 - m) / (nSamples : ℂ))).sum).sum

/-- `_dp` of `Vmc` without SR (_vmc.py:192-197). -/
noncomputable def vmcDp (complexPars : Bool) (nSamples : Nat) (rs : List (List (ℂ × (P → ℂ)))) (k : P) : ℂ :=
  if complexPars then vmcGrads nSamples rs k else ((vmcGrads nSamples rs k).re : ℂ)

/-- the data of one sample of `SteadyState`: the local value, its (not centred) derivatives and the log-derivatives
(netket/legacy/_steadystate.py:196-266). -/
structure Sample (P : Type) where
  loc : ℂ
  der : P → ℂ
  o : P → ℂ

/-- `_loss_stats.mean` of `SteadyState` (_steadystate.py:217, 292-301): the mean of `|L_loc|²`. -/
noncomputable def steadyLoss (rs : List (List (Sample P))) : ℂ := mean (rs.map fun r => r.map fun x => ((‖x.loc‖ ^ 2 : ℝ) : ℂ))

/-- the gradient of `SteadyState` (_steadystate.py:224-248). -/
noncomputable def steadyGrads (rs : List (List (Sample P))) (k : P) : ℂ :=
  mean (rs.map fun r => r.map fun x => star (x.der k) * x.loc)
    - star (mean (rs.map fun r => r.map fun x => x.o k)) * steadyLoss rs

/-- the matrix element, the logarithm of the amplitude and the log-derivatives of one connected configuration
(netket/legacy/_qsr.py:240-258). -/
structure Conn (P : Type) where
  mel : ℂ
  lv : ℂ
  o : P → ℂ

/-- `log_val_primes.real.max()` (_qsr.py:253, 317); `0` stands for the maximum of an empty array, which numpy refuses. -/
noncomputable def maxLog (cs : List (Conn P)) : ℝ :=
  match cs with
  | [] => 0
  | c :: cs => cs.foldl (fun m c => max m c.lv.re) c.lv.re

/-- `_rotated_grad_kernel` (_qsr.py:251-256) and `_compute_rotated_grad` (240-247), component `k`. -/
noncomputable def rotatedGrad (cs : List (Conn P)) (k : P) : ℂ :=
  let m := maxLog cs
  let tot := (cs.map fun c => star (c.mel * Complex.exp (c.lv - (m : ℂ)))).sum
  (cs.map fun c => star (c.o k) * (star (c.mel * Complex.exp (c.lv - (m : ℂ))) / tot)).sum

/-- the negative phase without SR (_qsr.py:220-226): on every process rows of `batch` log-derivatives. -/
noncomputable def negPhase (batch : Nat) (rs : List (List (List (P → ℂ)))) (k : P) : ℂ :=
  mean (rs.map fun rows => rows.map fun row => (row.map fun o => star (o k) * (1 / (batch : ℂ))).sum)

/-- the negative phase with SR (_qsr.py:198-201). -/
noncomputable def negPhaseSR (rs : List (List (List (P → ℂ)))) (k : P) : ℂ :=
  star (mean (rs.map fun rows => rows.flatten.map fun o => o k))

/-- the gradient of `Qsr` (_qsr.py:203-211, 229-236). -/
noncomputable def qsrGrads (sr : Bool) (batch : Nat) (rs : List (List (List (P → ℂ)))) (data : List (List (List (Conn P)))) (k : P) : ℂ :=
  2 * ((if sr then negPhaseSR rs k else negPhase batch rs k) - mean (data.map fun r => r.map fun cs => rotatedGrad cs k))

/-- one term of `nll` (_qsr.py:313-320). -/
noncomputable def nllTerm (cs : List (Conn P)) : ℝ :=
  let m := maxLog cs
  Real.log (‖(cs.map fun c => c.mel * Complex.exp (c.lv - (m : ℂ))).sum‖ ^ 2) + 2 * m

/-- `nll` (_qsr.py:294-324). -/
noncomputable def nll (data : List (List (Conn P))) (logNorm : ℝ) : ℝ :=
  (data.map fun cs => -nllTerm cs).sum / (data.length : ℝ) + logNorm

end Verif.LegacyDriver

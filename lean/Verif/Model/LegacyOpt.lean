import Mathlib.Analysis.Complex.Basic
import Mathlib.Analysis.Real.Sqrt
import Mathlib.Analysis.SpecialFunctions.Pow.Real
import Verif.Model.DiscreteHilbert

/-!
The optimizers of netket/legacy/optimizer (numpy and factories).

Parameters and gradients are vectors of complex numbers indexed by a type `ι`, without rounding; parameters and
gradients have the same length and the dtype of the parameters can hold the result (numpy raises otherwise).
`update` changes the array of parameters in place and returns it: the new array is the result.
-/

namespace Verif.LegacyOpt

open Verif.Hilbert (Err)

/-- arrays of one dimension (netket/legacy/optimizer/abstract_optimizer.py:19-29). -/
abbrev Vec (ι : Type) := ι → ℂ

/-- real arrays (netket/legacy/optimizer/numpy/ada_grad.py:51). -/
abbrev RVec (ι : Type) := ι → ℝ

/-- `self._mt` or zeros in the first call (netket/legacy/optimizer/numpy/momentum.py:48-49). -/
def orZero {ι α : Type} [Zero α] (m : Option (ι → α)) : ι → α :=
  match m with
  | none => fun _ => 0
  | some v => v

/-- `if self._mt is not None: self._mt.fill(0.0)` (netket/legacy/optimizer/numpy/momentum.py:57-58). -/
def filled {ι α : Type} [Zero α] (m : Option (ι → α)) : Option (ι → α) :=
  match m with
  | none => none
  | some _ => some fun _ => 0

/-- `numpy.Sgd` (netket/legacy/optimizer/numpy/sgd.py:4-10). -/
structure Sgd where
  /-- `_learning_rate` -/
  lr : ℝ
  /-- `_l2reg` -/
  l2 : ℝ
  /-- `_decay_factor` -/
  decay : ℝ
  /-- `_eta` -/
  eta : ℝ

/-- `Sgd.__init__` (netket/legacy/optimizer/numpy/sgd.py:5-17). -/
noncomputable def Sgd.mk' (lr l2 decay : ℝ) : Except Err Sgd :=
  if lr ≤ 0 then .error .valueError
  else if l2 < 0 then .error .valueError
  else if decay < 1 then .error .valueError
  else .ok ⟨lr, l2, decay, lr⟩

/-- `Sgd.update` (netket/legacy/optimizer/numpy/sgd.py:19-22). -/
noncomputable def Sgd.update {ι : Type} (o : Sgd) (grad pars : Vec ι) : Sgd × Vec ι :=
  let eta := o.eta * o.decay
  ({ o with eta := eta }, fun k => pars k - (grad k + o.l2 * pars k) * eta)

/-- `Sgd.reset` (netket/legacy/optimizer/numpy/sgd.py:24-25). -/
def Sgd.reset (o : Sgd) : Sgd := { o with eta := o.lr }

/-- `numpy.Momentum` (netket/legacy/optimizer/numpy/momentum.py:34-38). -/
structure Momentum (ι : Type) where
  /-- `_l2reg` -/
  l2 : ℝ
  /-- `_beta` -/
  beta : ℝ
  /-- `_eta` -/
  eta : ℝ
  /-- `_mt` -/
  mt : Option (Vec ι)

/-- `Momentum.__init__` (netket/legacy/optimizer/numpy/momentum.py:19-45). -/
noncomputable def Momentum.mk' {ι : Type} (lr beta l2 : ℝ) : Except Err (Momentum ι) :=
  if lr ≤ 0 then .error .valueError
  else if l2 < 0 then .error .valueError
  else if beta < 0 ∨ beta > 1 then .error .valueError
  else .ok ⟨l2, beta, lr, none⟩

/-- `Momentum.update` (netket/legacy/optimizer/numpy/momentum.py:47-54). -/
noncomputable def Momentum.update {ι : Type} (o : Momentum ι) (grad pars : Vec ι) : Momentum ι × Vec ι :=
  let mt : Vec ι := fun k => o.beta * orZero o.mt k + (1 - o.beta) * grad k
  ({ o with mt := some mt }, fun k => pars k - o.eta * (mt k + o.l2 * pars k))

/-- `Momentum.reset` (netket/legacy/optimizer/numpy/momentum.py:56-58). -/
def Momentum.reset {ι : Type} (o : Momentum ι) : Momentum ι := { o with mt := filled o.mt }

/-- `numpy.AdaGrad` (netket/legacy/optimizer/numpy/ada_grad.py:39-47). -/
structure AdaGrad (ι : Type) where
  /-- `_eta` -/
  eta : ℝ
  /-- `_epscut` -/
  eps : ℝ
  /-- `_Gt` -/
  gt : Option (RVec ι)

/-- `AdaGrad.__init__` (netket/legacy/optimizer/numpy/ada_grad.py:24-47). -/
noncomputable def AdaGrad.mk' {ι : Type} (lr eps : ℝ) : Except Err (AdaGrad ι) :=
  if eps ≤ 0 then .error .valueError
  else if lr < 0 then .error .valueError
  else .ok ⟨lr, eps, none⟩

/-- `AdaGrad.update` (netket/legacy/optimizer/numpy/ada_grad.py:49-57). -/
noncomputable def AdaGrad.update {ι : Type} (o : AdaGrad ι) (grad pars : Vec ι) : AdaGrad ι × Vec ι :=
  let gt : RVec ι := fun k => orZero o.gt k + ‖grad k‖ ^ 2
  ({ o with gt := some gt }, fun k => pars k - o.eta * grad k / (Real.sqrt (gt k + o.eps) : ℂ))

/-- reading an attribute of an object with the given attributes (netket/legacy/optimizer/numpy/ada_grad.py:60). -/
def getAttr (attrs : List String) (name : String) : Except Err Unit :=
  if name ∈ attrs then .ok () else .error .attributeError

/-- the attributes an `AdaGrad` ever has (netket/legacy/optimizer/numpy/ada_grad.py:39-57). -/
def adaGradAttrs : List String := ["_eta", "_epscut", "_Gt"]

/-- `AdaGrad.reset` (netket/legacy/optimizer/numpy/ada_grad.py:59-61): reads `self._mt`. -/
def AdaGrad.reset {ι : Type} (o : AdaGrad ι) : AdaGrad ι × Option Err :=
  match getAttr adaGradAttrs "_mt" with
  | .error e => (o, some e)
  | .ok _ => ({ o with gt := filled o.gt }, none)

/-- `numpy.RmsProp` (netket/legacy/optimizer/numpy/rms_prop.py:44-48). -/
structure RmsProp (ι : Type) where
  /-- `_eta` -/
  eta : ℝ
  /-- `_beta` -/
  beta : ℝ
  /-- `_epscut` -/
  eps : ℝ
  /-- `_mt` -/
  mt : Option (RVec ι)

/-- `RmsProp.__init__` (netket/legacy/optimizer/numpy/rms_prop.py:21-48). -/
noncomputable def RmsProp.mk' {ι : Type} (lr beta eps : ℝ) : Except Err (RmsProp ι) :=
  if eps ≤ 0 then .error .valueError
  else if lr < 0 then .error .valueError
  else if beta < 0 ∨ beta > 1 then .error .valueError
  else .ok ⟨lr, beta, eps, none⟩

/-- `RmsProp.update` (netket/legacy/optimizer/numpy/rms_prop.py:50-58). -/
noncomputable def RmsProp.update {ι : Type} (o : RmsProp ι) (grad pars : Vec ι) : RmsProp ι × Vec ι :=
  let mt : RVec ι := fun k => o.beta * orZero o.mt k + (1 - o.beta) * ‖grad k‖ ^ 2
  ({ o with mt := some mt }, fun k => pars k - o.eta * grad k / (Real.sqrt (mt k + o.eps) : ℂ))

/-- `RmsProp.reset` (netket/legacy/optimizer/numpy/rms_prop.py:60-62). -/
def RmsProp.reset {ι : Type} (o : RmsProp ι) : RmsProp ι := { o with mt := filled o.mt }

/-- `numpy.AdaDelta` (netket/legacy/optimizer/numpy/ada_delta.py:37-49). -/
structure AdaDelta (ι : Type) where
  /-- `_rho` -/
  rho : ℝ
  /-- `_epscut` -/
  eps : ℝ
  /-- `_l2reg` -/
  l2 : ℝ
  /-- `_Eg2` and `_Edx2`, created together -/
  acc : Option (RVec ι × RVec ι)

/-- `AdaDelta.__init__` (netket/legacy/optimizer/numpy/ada_delta.py:21-49). -/
noncomputable def AdaDelta.mk' {ι : Type} (rho eps l2 : ℝ) : Except Err (AdaDelta ι) :=
  if eps ≤ 0 then .error .valueError
  else if l2 < 0 then .error .valueError
  else if rho < 0 ∨ rho > 1 then .error .valueError
  else .ok ⟨rho, eps, l2, none⟩

/-- `_Eg2` and `_Edx2` or zeros in the first call (netket/legacy/optimizer/numpy/ada_delta.py:52-54). -/
def AdaDelta.accs {ι : Type} (o : AdaDelta ι) : RVec ι × RVec ι :=
  match o.acc with
  | none => (fun _ => 0, fun _ => 0)
  | some a => a

/-- `AdaDelta.update` (netket/legacy/optimizer/numpy/ada_delta.py:51-65). -/
noncomputable def AdaDelta.update {ι : Type} (o : AdaDelta ι) (grad pars : Vec ι) : AdaDelta ι × Vec ι :=
  let eg2 : RVec ι := fun k => o.rho * o.accs.1 k + (1 - o.rho) * ‖grad k‖ ^ 2
  let dx : Vec ι := fun k =>
    (Real.sqrt (o.accs.2 k + o.eps) : ℂ) * grad k / (Real.sqrt (eg2 k + o.eps) : ℂ)
  let edx2 : RVec ι := fun k => o.rho * o.accs.2 k + (1 - o.rho) * ‖dx k‖ ^ 2
  ({ o with acc := some (eg2, edx2) }, fun k => pars k - dx k)

/-- the attributes an `AdaDelta` ever has (netket/legacy/optimizer/numpy/ada_delta.py:37-63). -/
def adaDeltaAttrs : List String := ["_rho", "_epscut", "_l2reg", "_Eg2", "_Edx2"]

/-- `AdaDelta.reset` (netket/legacy/optimizer/numpy/ada_delta.py:67-70): reads `self._mt`. -/
def AdaDelta.reset {ι : Type} (o : AdaDelta ι) : AdaDelta ι × Option Err :=
  match getAttr adaDeltaAttrs "_mt" with
  | .error e => (o, some e)
  | .ok _ => ({ o with acc := o.acc.map fun _ => (fun _ => 0, fun _ => 0) }, none)

/-- `numpy.AdaMax` (netket/legacy/optimizer/numpy/ada_max.py:51-58). -/
structure AdaMax (ι : Type) where
  /-- `_alpha` -/
  alpha : ℝ
  /-- `_beta1` -/
  beta1 : ℝ
  /-- `_beta2` -/
  beta2 : ℝ
  /-- `_epscut` -/
  eps : ℝ
  /-- `_mt` and `_ut`, created together -/
  acc : Option (Vec ι × RVec ι)
  /-- `_niter` -/
  niter : Nat

/-- `AdaMax.__init__` (netket/legacy/optimizer/numpy/ada_max.py:25-58). -/
noncomputable def AdaMax.mk' {ι : Type} (alpha beta1 beta2 eps : ℝ) : Except Err (AdaMax ι) :=
  if eps ≤ 0 then .error .valueError
  else if alpha < 0 then .error .valueError
  else if beta1 < 0 ∨ beta1 > 1 then .error .valueError
  else if beta2 < 0 ∨ beta2 > 1 then .error .valueError
  else .ok ⟨alpha, beta1, beta2, eps, none, 0⟩

/-- `_mt` and `_ut` or zeros in the first call (netket/legacy/optimizer/numpy/ada_max.py:61-63). -/
def AdaMax.accs {ι : Type} (o : AdaMax ι) : Vec ι × RVec ι :=
  match o.acc with
  | none => (fun _ => 0, fun _ => 0)
  | some a => a

/-- `AdaMax.update` (netket/legacy/optimizer/numpy/ada_max.py:60-77): the python division `alpha / (1.0 - beta1 ** n)`
raises when the divisor is zero; the moments and the counter have then been changed, the parameters not. -/
noncomputable def AdaMax.update {ι : Type} (o : AdaMax ι) (grad pars : Vec ι) : AdaMax ι × Except Err (Vec ι) :=
  let mt : Vec ι := fun k => o.beta1 * o.accs.1 k + (1 - o.beta1) * grad k
  let ut : RVec ι := fun k => max (max ‖grad k‖ (o.beta2 * o.accs.2 k)) o.eps
  let niter := o.niter + 1
  let o' := { o with acc := some (mt, ut), niter := niter }
  if 1 - o.beta1 ^ niter = 0 then (o', .error .zeroDivision)
  else
    let eta := o.alpha / (1 - o.beta1 ^ niter)
    (o', .ok fun k => pars k - eta * mt k / (ut k : ℂ))

/-- `AdaMax.reset` (netket/legacy/optimizer/numpy/ada_max.py:79-83). -/
def AdaMax.reset {ι : Type} (o : AdaMax ι) : AdaMax ι :=
  match o.acc with
  | none => o
  | some _ => { o with acc := some (fun _ => 0, fun _ => 0), niter := 0 }

/-- `numpy.AmsGrad` (netket/legacy/optimizer/numpy/ams_grad.py:51-58). -/
structure AmsGrad (ι : Type) where
  /-- `_eta` -/
  eta : ℝ
  /-- `_beta1` -/
  beta1 : ℝ
  /-- `_beta2` -/
  beta2 : ℝ
  /-- `_epscut` -/
  eps : ℝ
  /-- `_mt` and `_vt`, created together -/
  acc : Option (Vec ι × RVec ι)

/-- `AmsGrad.__init__` (netket/legacy/optimizer/numpy/ams_grad.py:25-58). -/
noncomputable def AmsGrad.mk' {ι : Type} (lr beta1 beta2 eps : ℝ) : Except Err (AmsGrad ι) :=
  if eps ≤ 0 then .error .valueError
  else if lr < 0 then .error .valueError
  else if beta1 < 0 ∨ beta1 > 1 then .error .valueError
  else if beta2 < 0 ∨ beta2 > 1 then .error .valueError
  else .ok ⟨lr, beta1, beta2, eps, none⟩

/-- `_mt` and `_vt` or zeros in the first call (netket/legacy/optimizer/numpy/ams_grad.py:61-63). -/
def AmsGrad.accs {ι : Type} (o : AmsGrad ι) : Vec ι × RVec ι :=
  match o.acc with
  | none => (fun _ => 0, fun _ => 0)
  | some a => a

/-- `AmsGrad.update` (netket/legacy/optimizer/numpy/ams_grad.py:60-73). -/
noncomputable def AmsGrad.update {ι : Type} (o : AmsGrad ι) (grad pars : Vec ι) : AmsGrad ι × Vec ι :=
  let mt : Vec ι := fun k => o.beta1 * o.accs.1 k + (1 - o.beta1) * grad k
  let vt : RVec ι := fun k => max (o.accs.2 k) (o.beta2 * o.accs.2 k + (1 - o.beta2) * ‖grad k‖ ^ (2 : ℝ))
  ({ o with acc := some (mt, vt) }, fun k => pars k - o.eta * mt k / (Real.sqrt (vt k + o.eps) : ℂ))

/-- `AmsGrad.reset` (netket/legacy/optimizer/numpy/ams_grad.py:75-78). -/
def AmsGrad.reset {ι : Type} (o : AmsGrad ι) : AmsGrad ι :=
  match o.acc with
  | none => o
  | some _ => { o with acc := some (fun _ => 0, fun _ => 0) }

/-- `nk.legacy.optimizer.AmsGrad(machine, learning_rate, beta1, beta2, epscut)` for machines that are not of jax
(netket/legacy/optimizer/ams_grad.py:6-40): the call names the default values again. -/
noncomputable def amsGradFactory {ι : Type} (_lr _beta1 _beta2 _eps : ℝ) : Except Err (AmsGrad ι) :=
  AmsGrad.mk' (1 / 1000) (9 / 10) (999 / 1000) (1 / 10 ^ 7)

/-- `nk.legacy.optimizer.Sgd(machine, learning_rate, l2reg, decay_factor)` (netket/legacy/optimizer/sgd.py:34). -/
noncomputable def sgdFactory (lr l2 decay : ℝ) : Except Err Sgd := Sgd.mk' lr l2 decay

/-- the rule of `jax.experimental.optimizers.sgd(step_size)`, used by `_JaxSgd`
(netket/legacy/optimizer/jax/__init__.py:39-41): regularisation and decay are not passed on. -/
noncomputable def jaxSgdStep {ι : Type} (lr _l2 _decay : ℝ) (grad pars : Vec ι) : Vec ι :=
  fun k => pars k - lr * grad k

/-- the names `Torch.__init__` can read: arguments and the names of the module
(netket/legacy/optimizer/torch.py:1-9). -/
def torchNames : List String :=
  ["self", "machine", "optimizer", "opt_pars", "AbstractOptimizer", "_np", "_torch", "Torch"]

/-- the first statement of `Torch.__init__` (netket/legacy/optimizer/torch.py:31): reads the name `optim`; `valid` is
whether the class given is an optimizer of torch. -/
def torchInit (valid : Bool) : Except Err Unit :=
  if "optim" ∈ torchNames then (if valid then .ok () else .error .valueError) else .error .nameError

/-- the value of `Wrap.__repr__` (netket/legacy/optimizer/jax/wrap.py:44-59), none for python's None: the return
statement stands inside `if repr_str is None`. `auto` is the text made from the update function. -/
def wrapReprMethod (reprStr : Option String) (auto : String) : Option String :=
  match reprStr with
  | none => some ("Wrapper for the following Jax optimizer :\n  " ++ auto)
  | some _ => none

/-- `repr(w)` (netket/legacy/optimizer/jax/wrap.py:44): a method that does not return a string raises TypeError. -/
def wrapRepr (reprStr : Option String) (auto : String) : Except Err String :=
  match wrapReprMethod reprStr auto with
  | some s => .ok s
  | none => .error .typeError

/-- calls of `update` with the gradients `g 0, g 1, …` starting from `pars`, for an optimizer that does not raise
(netket/legacy/abstract_variational_driver.py:276: one update per step). -/
def iter {ω ι : Type} (upd : ω → Vec ι → Vec ι → ω × Vec ι) (o : ω) (pars : Vec ι) (g : Nat → Vec ι) :
    Nat → ω × Vec ι
  | 0 => (o, pars)
  | n + 1 => upd (iter upd o pars g n).1 (g n) (iter upd o pars g n).2

/-- calls of `AdaMax.update` until one raises (netket/legacy/abstract_variational_driver.py:276). -/
noncomputable def iterMax {ι : Type} (o : AdaMax ι) (pars : Vec ι) (g : Nat → Vec ι) :
    Nat → AdaMax ι × Except Err (Vec ι)
  | 0 => (o, .ok pars)
  | n + 1 =>
    match (iterMax o pars g n).2 with
    | .error e => ((iterMax o pars g n).1, .error e)
    | .ok p => (iterMax o pars g n).1.update (g n) p

end Verif.LegacyOpt

import Verif.Model.MCState
import Verif.Model.Driver

/-! Model of `netket/driver/vmc.py` and `netket/driver/steady_state.py`: construction, the forward and
backward pass on an `MCState` (model `Verif.VState.MC`), the update, `info`.

Preconditioners are objects: a heap maps references to their `solver_restart`. Simplified: constructing
the variational state from the remaining arguments (vmc.py:65-66) and deprecation warnings are left out;
the estimator, the tensor, the solver and the optimiser are arbitrary functions. -/

namespace Verif.VMC

open Verif.Hilbert (Err)
open Verif.VState

/-! ## Construction -/

/-- a reference to a preconditioner object (netket/driver/vmc.py:108-115). -/
abbrev Ref := Nat

/-- `solver_restart` of the preconditioners (preconditioner.py:51). -/
abbrev Heap := Ref → Bool

/-- vmc.py:98 `preconditioner.solver_restart = sr_restart`, an assignment to the object of the caller. -/
def Heap.set (h : Heap) (r : Ref) (b : Bool) : Heap := fun q => if q = r then b else h q

/-- the keyword arguments of both constructors (vmc.py:41-51, steady_state.py:35-45). -/
structure Args where
  preconditioner : Option Ref
  sr : Option Ref
  srRestart : Option Bool

/-- vmc.py:79-91, steady_state.py:65-78: `sr` in place of `preconditioner`. -/
def resolve (a : Args) : Except Err (Option Ref) :=
  match a.sr with
  | none => .ok a.preconditioner
  | some r => if a.preconditioner.isSome then .error .valueError else .ok (some r)

/-- vmc.py:92-109, steady_state.py:80-97: `sr_restart`; the second component is the preconditioner,
    `none` the identity. -/
def restartArg (h : Heap) (a : Args) (p : Option Ref) : Heap × Except Err (Option Ref) :=
  match a.srRestart with
  | none => (h, .ok p)
  | some b =>
    match p with
    | none => (h, .error .valueError)
    | some r => (h.set r b, .ok (some r))

/-- the checks after that of the operator (vmc.py:79-111, steady_state.py:65-99). -/
def mkCommon (h : Heap) (a : Args) : Heap × Except Err (Option Ref) :=
  match resolve a with
  | .error e => (h, .error e)
  | .ok p => restartArg h a p

/-- `VMC.__init__` (vmc.py:41-121). -/
def mkVMC {Hs : Type} [DecidableEq Hs] (stateSpace opSpace : Hs) (h : Heap) (a : Args) :
    Heap × Except Err (Option Ref) :=
  if stateSpace ≠ opSpace then (h, .error .typeError) else mkCommon h a

/-- `SteadyState.__init__` (steady_state.py:35-110): the type of the operator is checked, its space is
    not. -/
def mkSteady {Hs : Type} (superOp : Bool) (_stateSpace _opSpace : Hs) (h : Heap) (a : Args) :
    Heap × Except Err (Option Ref) :=
  if superOp = false then (h, .error .typeError) else mkCommon h a

/-! ## Attributes -/

/-- names of attributes used by `info` (vmc.py:162-172, steady_state.py:153-162). -/
inductive Attr
  | ham | lind | optimizer | sr | state | preconditioner
  deriving DecidableEq

/-- attributes of a `VMC` (vmc.py:113-121, abstract_variational_driver.py:58-67, 122-141). -/
def attrsVMC : List Attr := [.ham, .optimizer, .state, .preconditioner]

/-- attributes of a `SteadyState` (steady_state.py:101-110). -/
def attrsSteady : List Attr := [.lind, .optimizer, .state, .preconditioner]

/-- evaluation of `[("..", self.a), ...]`: the first missing attribute is an AttributeError
(netket/driver/vmc.py:162-172). -/
def readAll (have_ : List Attr) : List Attr → Except Err (List Attr)
  | [] => .ok []
  | a :: rest =>
    if a ∈ have_ then
      match readAll have_ rest with
      | .error e => .error e
      | .ok l => .ok (a :: l)
    else .error .attributeError

/-- `VMC.info` (vmc.py:162-172): the objects described. -/
def infoVMC : Except Err (List Attr) := readAll attrsVMC [.ham, .optimizer, .sr, .state]

/-- `SteadyState.info` (steady_state.py:153-162). -/
def infoSteady : Except Err (List Attr) := readAll attrsSteady [.lind, .optimizer, .sr]

/-! ## Steps -/

section
variable {P M Sd S X St G O Os Hs : Type}

/-- What a driver uses besides the state: `expect_and_grad` on parameters, model state and samples
    (mc_state.py:479-558), giving statistics, gradient and the new model state; `expect` of observables
    (448-477); tensor and solver of the preconditioner (preconditioner.py:69-76), `none` for the
    identity; the optimiser with `apply_gradient` (abstract_variational_driver.py:316-324). -/
structure Parts (P M X St G O Os : Type) where
  expectGrad : P × M → X → St × G × M
  expect : P × M → X → O → St
  solve : Option (P × M → X → G → Option G → G)
  optimise : Os → G → P → Os × P
  realPart : P → G → G

/-- a driver together with its state (vmc.py:113-121). -/
structure World (P M Sd S X St G Os : Type) where
  v : MC P M Sd S X
  prec : Verif.Driver.Precond G
  opt : Os
  loss : Option St
  lossGrad : Option G

/-- `MCState.expect_and_grad` (mc_state.py:479-558): with `mutable` the model state is assigned, which
    resets the samples (vqs/base.py:89-96). -/
def expectAndGrad (n : Nat) (p : Parts P M X St G O Os) (mutable_ : Bool) (v : MC P M Sd S X) :
    MC P M Sd S X × Except Err (St × G) :=
  match v.getSamples n with
  | (v, .error e) => (v, .error e)
  | (v, .ok x) =>
    let r := p.expectGrad v.vars x
    (if mutable_ then v.setMState r.2.2 else v, .ok (r.1, r.2.1))

/-- `MCState.expect` (mc_state.py:448-477). -/
def expectObs (n : Nat) (p : Parts P M X St G O Os) (v : MC P M Sd S X) (o : O) :
    MC P M Sd S X × Except Err St :=
  match v.getSamples n with
  | (v, .error e) => (v, .error e)
  | (v, .ok x) => (v, .ok (p.expect v.vars x o))

/-- `self.preconditioner(self.state, self._loss_grad)` (vmc.py:139): the tensor is built from
    `vstate.samples` (qgt_onthefly.py:50-60, qgt_jacobian_dense.py:72-91). -/
def precondition (n : Nat) (p : Parts P M X St G O Os) (v : MC P M Sd S X) (c : Verif.Driver.Precond G)
    (g : G) : MC P M Sd S X × Verif.Driver.Precond G × Except Err G :=
  match p.solve with
  | none => (v, c, .ok g)
  | some solve =>
    match v.getSamples n with
    | (v, .error e) => (v, c, .error e)
    | (v, .ok x) =>
      let r := c.call (fun (_ : Unit) g x0 => solve v.vars x g x0) () g
      (v, r.1, .ok r.2)

/-- `_forward_and_backward` (vmc.py:123-148, steady_state.py:112-137); for operators on another space
    `expect_and_grad` returns `NotImplemented`, which cannot be unpacked (mc_state.py:486-487). -/
def forwardBackward [DecidableEq Hs] (n : Nat) (p : Parts P M X St G O Os) (mutable_ : Bool)
    (stateSpace opSpace : Hs) (w : World P M Sd S X St G Os) : World P M Sd S X St G Os × Except Err G :=
  let v := w.v.reset
  if stateSpace ≠ opSpace then ({ w with v := v }, .error .typeError)
  else
    match expectAndGrad n p mutable_ v with
    | (v, .error e) => ({ w with v := v }, .error e)
    | (v, .ok (s, g)) =>
      match precondition n p v w.prec g with
      | (v, c, .error e) => ({ w with v := v, prec := c, loss := some s, lossGrad := some g }, .error e)
      | (v, c, .ok dp) =>
        ({ w with v := v, prec := c, loss := some s, lossGrad := some g }, .ok (p.realPart v.params dp))

/-- `update_parameters` (abstract_variational_driver.py:305-314): the assignment of the parameters
    resets the samples (vqs/base.py:75-82). -/
def updateParameters (p : Parts P M X St G O Os) (w : World P M Sd S X St G Os) (dp : G) :
    World P M Sd S X St G Os :=
  let r := p.optimise w.opt dp w.v.params
  { w with v := w.v.setParams r.2, opt := r.1 }

/-- one iteration of `iter` (abstract_variational_driver.py:165-172). -/
def step [DecidableEq Hs] (n : Nat) (p : Parts P M X St G O Os) (mutable_ : Bool) (stateSpace opSpace : Hs)
    (w : World P M Sd S X St G Os) : Except Err (World P M Sd S X St G Os) :=
  match forwardBackward n p mutable_ stateSpace opSpace w with
  | (_, .error e) => .error e
  | (w, .ok dp) => .ok (updateParameters p w dp)

/-- `advance(k)` (abstract_variational_driver.py:174-181). -/
def steps [DecidableEq Hs] (n : Nat) (p : Parts P M X St G O Os) (mutable_ : Bool) (stateSpace opSpace : Hs) :
    Nat → World P M Sd S X St G Os → Except Err (World P M Sd S X St G Os)
  | 0, w => .ok w
  | k + 1, w =>
    match step n p mutable_ stateSpace opSpace w with
    | .error e => .error e
    | .ok w => steps n p mutable_ stateSpace opSpace k w

end

/-- vmc.py:141-146: `x if jnp.iscomplexobj(target) else x.real`, leaf by leaf; `cplx k` tells that the
    parameters of leaf `k` are complex, the other components are `re + i im`. -/
def takeReal {K R : Type} [Zero R] (cplx : K → Bool) (dp : K → R × R) (k : K) : R × R :=
  if cplx k then dp k else ((dp k).1, 0)

end Verif.VMC

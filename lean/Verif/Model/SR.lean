import Mathlib.Algebra.BigOperators.Group.Finset.Basic
import Verif.Model.DiscreteHilbert

/-! Stochastic reconfiguration: netket/optimizer/sr/api.py, preconditioner.py, linear_operator.py, qgt/default.py, solver/solvers.py and the
constructors in qgt/qgt_*.py.

Keyword arguments are lists of keys and values; values are numbers, strings or opaque objects. Simplified: the checks of a constructor's
arguments are those of Python's call protocol (unknown or repeated keywords are TypeErrors); no gradients are computed here (see C65). -/

namespace Verif.SR
open Verif.Hilbert (Err)

/-- names of keyword arguments that occur in the code; `other n` are all the rest
(netket/optimizer/sr/api.py:67-110). -/
inductive Key
  | matrix | iterative | method | tol | atol | maxiter | precM | restart | solveMethod
  | diagShift | qgt | solver | mode | holomorphic | rescaleShift | jacobian | centered | machine
  | other (n : Nat)
  deriving DecidableEq

/-- values of arguments: numbers, strings, other objects (functions, classes, ...)
(netket/optimizer/sr/api.py:36, 144). -/
inductive Val
  | scalar (q : Rat)
  | str (n : Nat)
  | obj (n : Nat)
  deriving DecidableEq

/-- the string "cg" (api.py:108). -/
def strCG : Val := .str 0
/-- the string "gmres" (api.py:109). -/
def strGMRES : Val := .str 1
/-- `jax.scipy.sparse.linalg.cg` (api.py:108). -/
def objCG : Val := .obj 0
/-- `jax.scipy.sparse.linalg.gmres` (api.py:109). -/
def objGMRES : Val := .obj 1

/-- keyword arguments (netket/optimizer/sr/api.py:36, 67-110). -/
abbrev Kw := List (Key × Val)

/-- `kwargs[key]`, if present (dictionary access, api.py:73-76). -/
def get (kw : Kw) (k : Key) : Option Val := (kw.find? fun p => p.1 = k).map Prod.snd

/-- `kwargs.pop(key)` (api.py:105, 118). -/
def pop (kw : Kw) (k : Key) : Kw := kw.filter fun p => p.1 ≠ k

/-- `kwargs[key] = value` (api.py:94, 96, 133). -/
def put (kw : Kw) (k : Key) (v : Val) : Kw := (k, v) :: pop kw k

/-- a solver: an object, or a `partial` of one with keyword arguments (api.py:131). -/
inductive Solver
  | plain (v : Val)
  | withKw (v : Val) (kw : Kw)
  deriving DecidableEq

/-- what `_SR` returns (api.py:183-187): arguments of the preconditioner; `qgt = none` is `QGTAuto(solver)`; `extra` are the further keyword
    arguments bound to the constructor. -/
structure Obj where
  qgt : Option Val
  solver : Solver
  diagShift : Val
  solverRestart : Bool
  extra : Kw
  deriving DecidableEq

/-- api.py:144-187: `_SR`. `solverKw` is the solver if it was put into the keywords by the caller (it may be a partial). Python's binding: at
    most two positional arguments, none of them repeated as keyword. -/
def sr (args : List Val) (solverKw : Option Solver) (solverRestart : Bool) (kw : Kw) : Except Err Obj :=
  if 2 < args.length then .error .typeError
  else if 0 < args.length ∧ (get kw .qgt).isSome then .error .typeError
  else if 1 < args.length ∧ solverKw.isSome then .error .typeError
  else
    let solver : Solver := match args[1]?, solverKw with
      | some s, _ => .plain s
      | none, some s => s
      | none, none => .plain objCG
    .ok { qgt := match args[0]? with | some q => some q | none => get kw .qgt
          solver := solver
          diagShift := (get kw .diagShift).getD (.scalar (1 / 100))
          solverRestart := solverRestart
          extra := pop (pop kw .diagShift) .qgt }

/-- api.py:71. -/
def legacyKeys : List Key := [.iterative, .method]
/-- api.py:72. -/
def legacySolverKeys : List Key := [.tol, .atol, .maxiter, .precM, .restart, .solveMethod]

/-- utils/numbers.py `is_scalar` (api.py:79). -/
def isScalar : Val → Bool
  | .scalar _ => true
  | _ => false

/-- `isinstance(args[1], str)` (api.py:85). -/
def isStr : Val → Bool
  | .str _ => true
  | _ => false

/-- api.py:73-86: is this the old API? -/
def oldApi (args : List Val) (kw : Kw) : Bool :=
  (legacyKeys ++ legacySolverKeys).any (fun k => (get kw k).isSome)
    || (match args[0]? with | some a => isScalar a | none => false)
    || (match args[1]? with | some a => isStr a | none => false)

/-- the solver keyword given by the user, for `_SR` (api.py:135). -/
def kwSolver (kw : Kw) : Option Solver := (get kw .solver).map .plain

/-- api.py:102-121: the solver of the old API. -/
def legacySolver (kw : Kw) : Except Err Val :=
  match get kw .method with
  | none => .ok objCG
  | some m => if m = strCG then .ok objCG else if m = strGMRES then .ok objGMRES else .error .valueError

/-- api.py:90-100: positional arguments of the old API become keywords. -/
def legacyKw (args : List Val) (kw : Kw) : Kw :=
  let kw1 := match args[0]? with | some a => put kw .diagShift a | none => kw
  match args[1]? with | some a => put kw1 .method a | none => kw1

/-- api.py:35-135: `build_SR` (after the dispatch to the legacy class). -/
def buildSR (args : List Val) (solverRestart : Bool) (kw : Kw) : Except Err Obj :=
  if (get kw .matrix).isSome then sr args (kwSolver kw) false (pop kw .solver)
  else if oldApi args kw then
    if 2 < args.length then .error .typeError
    else
      let kw3 := pop (legacyKw args kw) .iterative
      match legacySolver kw3 with
      | .error e => .error e
      | .ok s =>
        let kw4 := pop kw3 .method
        let keys := kw4.filter fun p => p.1 ∈ legacySolverKeys
        let solver : Solver := if keys = [] then .plain s else .withKw s keys
        sr [] (some solver) solverRestart (pop kw4 .solver)
  else sr args (kwSolver kw) solverRestart (pop kw .solver)

/-- utils/deprecation.py:75-96: `wraps_legacy`: whether the call goes to the legacy function; `isMachine` tells the first argument's type. -/
def wrapsLegacy (isMachine : Val → Bool) (args : List Val) (kw : Kw) : Except Err Bool :=
  match args[0]? with
  | some a => .ok (isMachine a)
  | none => if (get kw .machine).isSome then .error .indexError else .ok false

/-! ## Constructors of the tensor -/

/-- the three representations (netket/optimizer/qgt/default.py:44-62). -/
inductive Kind
  | onTheFly
  | jacobianDense
  | jacobianPyTree
  deriving DecidableEq

/-- qgt_onthefly.py:31-60, qgt_jacobian_dense.py:32-89, qgt_jacobian_pytree.py:32-92: checks of the keyword arguments; the result is the
    diagonal shift (0 by default, linear_operator.py:61). -/
def construct (k : Kind) (kw : Kw) : Except Err Val :=
  match k with
  | .onTheFly =>
    if kw.all fun p => p.1 = .diagShift then .ok ((get kw .diagShift).getD (.scalar 0)) else .error .typeError
  | _ =>
    if (get kw .mode).isSome ∧ (get kw .holomorphic).isSome then .error .valueError
    else if kw.all fun p => p.1 ∈ [Key.diagShift, Key.mode, Key.holomorphic, Key.rescaleShift] then
      .ok ((get kw .diagShift).getD (.scalar 0))
    else .error .typeError

/-- keyword arguments of `partial(f, **a)(**b)` (default.py:50-62, 98-103). -/
def merge (a b : Kw) : Kw := a.filter (fun p => (get b p.1).isNone) ++ b

/-- what decides about the representation (default.py:44-62). -/
structure VState where
  ident : Nat
  nLeaves : Nat
  nParams : Nat
  homogeneous : Bool
  deriving DecidableEq

/-- default.py:31-62: `default_qgt_matrix`. -/
def defaultKind (denseSolver : Bool) (vs : VState) : Kind :=
  if denseSolver then .jacobianDense
  else if 6 < vs.nLeaves ∧ 800 < vs.nParams then
    if vs.homogeneous then .jacobianDense else .jacobianPyTree
  else .onTheFly

/-- default.py:65-93: state of a `QGTAuto`: the last state and the last constructor with its keyword arguments. -/
structure Auto where
  denseSolver : Bool
  kwargs : Kw
  lastState : Option Nat
  lastMatrix : Option (Kind × Kw)
  deriving DecidableEq

/-- default.py:103: the remembered constructor is called (calling `None` is a TypeError): the constructor and its keyword arguments. -/
def Auto.useLast (A : Auto) (kw : Kw) : Except Err (Kind × Kw) :=
  match A.lastMatrix with
  | none => .error .typeError
  | some (k, kw0) => .ok (k, merge kw0 kw)

/-- default.py:95-103: `QGTAuto.__call__`. `f(solver=..., **a, **b)` with a repeated keyword is a TypeError, after the state has been
    remembered. -/
def Auto.call (A : Auto) (vs : VState) (kw : Kw) : Auto × Except Err (Kind × Kw) :=
  if A.lastState = some vs.ident then (A, A.useLast kw)
  else
    let A1 := { A with lastState := some vs.ident }
    if A.kwargs.any (fun p => (get kw p.1).isSome) ∨ (get kw .solver).isSome then (A1, .error .typeError)
    else
      let A2 := { A1 with lastMatrix := some (defaultKind A.denseSolver vs, A.kwargs ++ kw) }
      (A2, A2.useLast kw)

/-! ## Solving -/

/-- preconditioner.py:38-67: state of a `LinearPreconditioner`. -/
structure Precond (V : Type) where
  solverRestart : Bool
  x0 : Option V

/-- preconditioner.py:69-76: `__call__`; `solve` is the solution of the linear system of this step from an initial guess. -/
def Precond.call {V : Type} (P : Precond V) (solve : Option V → Except Err V) : Precond V × Except Err V :=
  match solve (if P.solverRestart then P.x0 else none) with
  | .error e => (P, .error e)
  | .ok x => ({ P with x0 := some x }, .ok x)

/-- linear_operator.py:73-102, qgt_onthefly.py:99-100, qgt_jacobian_dense.py:135-136, qgt_jacobian_pytree.py:139-153: the keyword arguments
    that reach the solver when `solve` gets `kw`; `none` is the default of the base class. -/
def solveKw (k : Option Kind) (kw : Kw) : Except Err Kw :=
  match k with
  | none => .ok kw
  | some .onTheFly => .ok []
  | some _ => if kw = [] then .ok [] else .error .typeError

/-- solvers.py:52-60: `LU`, with the exact solution of a dense system in place of the factorisation; `lu_solve` gets `trans=0`. -/
def lu {K : Type} (lin : (Nat → Nat → K) → (Nat → K) → Nat → K) (A : Nat → Nat → K) (b : Nat → K) (_trans : Nat) : Nat → K := lin A b

end Verif.SR

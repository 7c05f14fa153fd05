import Verif.Model.LocalValues
import Verif.Model.Hamiltonian
import Verif.Model.PauliStrings
import Verif.Model.Stats
import Verif.Model.Vjp
import Mathlib.Analysis.Calculus.Deriv.Basic

/-! `get_conn_padded` and `n_conn` of netket/operator/_abstract_operator.py, the derivatives of local values for jax machines
(netket/operator/_der_local_values_jax.py, _local_cost_functions.py), the arithmetic of `BoseHubbard` and the connected elements of lazy wrappers.

Connected configurations and matrix elements are one list of pairs. Automatic differentiation is the derivative of the function with respect to one
parameter. -/

namespace Verif.Padded
open Verif.Hilbert (Err)
open Verif.LocalOp Verif.Ham

variable {X K : Type}

/-- _abstract_operator.py:149-157: `n_primes = sections[0]`, then both arrays are reshaped; numpy refuses `reshape(-1, n, n_visible)` if `n * n_visible`
    is zero or does not divide the size (ValueError), and indexing an empty array is an IndexError. `flat`, `sections` are the results of
    `get_conn_flattened(x, sections, pad=True)`. -/
def connPadded (nVisible : Nat) (flat : List (X × K)) (sections : List Nat) : Except Err (List (List (X × K))) :=
  match sections with
  | [] => .error .indexError
  | n :: _ =>
    if n * nVisible = 0 then .error .valueError
    else if flat.length % n ≠ 0 then .error .valueError
    else .ok (Stats.pieces n (flat.length / n) flat)

/-- _abstract_operator.py:205-222 `n_conn` with the sections written by `get_conn_flattened`; 224-233 `_n_conn_from_sections`. -/
def nConnLoop : Nat → List Nat → List Nat
  | _, [] => []
  | low, s :: ss => (s - low) :: nConnLoop s ss

/-- _abstract_operator.py:205-222. -/
def nConn (sections : List Nat) : List Nat := nConnLoop 0 sections

section
variable {N : Nat} {α : Type} [LinearOrder α] [Inhabited α] [CommRing K]

/-- `get_conn_padded` of a `LocalOperator` (_abstract_operator.py:132-157, _local_operator.py:833-870). -/
def localPadded (hi : Fin N → List α) (op : LOp K α N) (gm : Nat → K) (gx : Nat → Fin N → α) (xs : List (Fin N → α)) :
    Except Err (List (List ((Fin N → α) × K))) :=
  let r := connFlattenedPad hi op gm gx xs
  connPadded N (r.1.xp.zip r.1.mels) r.2

/-- `get_conn_padded` of `Ising`, whose `get_conn_flattened` does not use `pad` (_hamiltonian.py:306-340). -/
def isingPadded (op : Ising K N) (xs : List (Fin N → ℤ)) : Except Err (List (List ((Fin N → ℤ) × K))) :=
  connPadded N (op.flattened xs).1 (op.flattened xs).2

/-- `get_conn_padded` of `BoseHubbard` (_hamiltonian.py:748-789). -/
def bosePadded (R : Roots K) (op : Bose K N) (xs : List (Fin N → ℕ)) : Except Err (List (List ((Fin N → ℕ) × K))) :=
  connPadded N (op.flattenedPad R xs).1 (op.flattenedPad R xs).2

/-- _hamiltonian.py:481-501 with 535-545 `copy` of `BoseHubbard`: a new graph from the edges alone, which must have as many nodes as the space has sites. -/
def boseCopy (op : Bose K N) : Except Err (Bose K N) := if nodesOfEdges op.edges = N then .ok op else .error .assertionError

/-- _hamiltonian.py:568-577 `_iadd_same_hamiltonian` of `BoseHubbard` (equal Hilbert spaces), called by `+=` (72-77). -/
def boseIadd (a b : Bose K N) : Bose K N := { a with mu := a.mu + b.mu, U := a.U + b.U, J := a.J + b.J, V := a.V + b.V }

/-- _hamiltonian.py:579-588 `_isub_same_hamiltonian` of `BoseHubbard`, called by `-=` (79-84). -/
def boseIsub (a b : Bose K N) : Bose K N := { a with mu := a.mu - b.mu, U := a.U - b.U, J := a.J - b.J, V := a.V - b.V }

/-- _hamiltonian.py:41-47 `a + b` of two `BoseHubbard`. -/
def boseAdd (a b : Bose K N) : Except Err (Bose K N) :=
  match boseCopy a with
  | .error e => .error e
  | .ok r => .ok (boseIadd r b)

/-- _hamiltonian.py:49-55 `a - b` of two `BoseHubbard`. -/
def boseSub (a b : Bose K N) : Except Err (Bose K N) :=
  match boseCopy a with
  | .error e => .error e
  | .ok r => .ok (boseIsub r b)

end

/-- `get_conn_padded` of `PauliStrings` (_pauli_strings.py:228-264). -/
def pauliPadded [CommRing K] (sc : Pauli.Scalars K) (op : Pauli.PauliOp K) (xs : List (Fin op.n → ℤ)) : Except Err (List (List ((Fin op.n → ℤ) × K))) :=
  connPadded op.n (Pauli.flattenedPad sc op xs).1 (Pauli.flattenedPad sc op xs).2

/-! ## Lazy wrappers -/

/-- what `get_conn_flattened` of an operator may return: the two arrays, or the class `NotImplementedError` itself
(netket/operator/_abstract_operator.py:160). -/
inductive Ret (X K : Type)
  | arrays (flat : List (X × K))
  | notImplementedClass

/-- `get_conn_flattened(x, sections)` of `Transpose`, `Adjoint`, `Squared` (_lazy.py:19-20, 85-86): the class is returned, not raised; `sections` is left as it is.
    With `pad=True` the signature `*args` is a TypeError. -/
def lazyFlattened (pad : Bool) : Except Err (Ret X K) := if pad then .error .typeError else .ok .notImplementedClass

/-- _abstract_operator.py:184-203 `get_conn` of a lazy wrapper. -/
def lazyGetConn : Except Err (Ret X K) := lazyFlattened false

/-- _abstract_operator.py:132-157 `get_conn_padded` of a lazy wrapper. -/
def lazyPadded : Except Err (List (List (X × K))) :=
  match (lazyFlattened true : Except Err (Ret X K)) with
  | .error e => .error e
  | .ok _ => .error .typeError

/-- _abstract_operator.py:205-222 `n_conn` of a lazy wrapper: the result of `get_conn_flattened` is not used, `garbage` is the uninitialised `out`. -/
def lazyNConn (garbage : List Nat) : Except Err (List Nat) :=
  match (lazyFlattened false : Except Err (Ret Unit Unit)) with
  | .error e => .error e
  | .ok _ => .ok (nConn garbage)

/-! ## Derivatives of local values for jax machines -/

/-- dtypes: parameters, log-amplitude, matrix elements
(netket/operator/_der_local_values_jax.py:119-160). -/
structure Types where
  pars : Bool
  out : Bool
  mel : Bool

/-- the local value of a row of padded connected elements (_local_cost_functions.py:203-205). -/
noncomputable def rowCost (logpsi : X → ℂ) (row : List (X × ℂ)) (v : X) : ℂ :=
  LocalValues.localValueCost logpsi (row.map Prod.fst) (row.map Prod.snd) v

/-- _local_cost_functions.py:137-141 with 169-175: `value_and_grad` of the local value of one row with respect to the parameter `w`; `logpsi w` the machine. Real
    parameters use derivatives of the real and imaginary part along the real axis. -/
noncomputable def rowGrad (ty : Types) (logpsi : ℂ → X → ℂ) (w : ℂ) (row : List (X × ℂ)) (v : X) : Except Err (ℂ × (Unit → ℂ)) :=
  Vjp.valueAndGrad ty.pars (ty.out || ty.mel) false (rowCost (logpsi w) row v).re (rowCost (logpsi w) row v).im
    (fun _ => deriv (fun t : ℝ => (rowCost (logpsi t) row v).re) w.re)
    (fun _ => deriv (fun t : ℝ => (rowCost (logpsi t) row v).im) w.re)
    (rowCost (logpsi w) row v) (fun _ => deriv (fun z : ℂ => rowCost (logpsi z) row v) w)

/-- results of all rows, the first exception otherwise
(netket/operator/_der_local_values_jax.py:101-107). -/
def collect {A : Type} : List (Except Err A) → Except Err (List A)
  | [] => .ok []
  | .error e :: _ => .error e
  | .ok a :: l =>
    match collect l with
    | .error e => .error e
    | .ok r => .ok (a :: r)

/-- _der_local_values_jax.py:32-39 `_der_local_values_impl` after `get_conn_padded`. -/
noncomputable def centered (ty : Types) (logpsi : ℂ → X → ℂ) (w : ℂ) (rows : List (List (X × ℂ))) (v : List X) : Except Err (List ℂ) :=
  collect ((rows.zip v).map fun p => (rowGrad ty logpsi w p.1 p.2).map fun (g : ℂ × (Unit → ℂ)) => g.2 ())

/-- _der_local_values_jax.py:45-58: the cotangent: `mel * exp(...)`, conjugated, cast to the dtype of the log-amplitude, conjugated again. -/
noncomputable def cotangent (ty : Types) (logval : X → ℂ) (v : X) (p : X × ℂ) : ℂ :=
  let vec := (starRingEnd ℂ) (p.2 * Complex.exp (logval p.1 - logval v))
  (starRingEnd ℂ) (if ty.out then vec else (vec.re : ℂ))

/-- _der_local_values_jax.py:45-58 `_local_value_and_grad_notcentered_kernel`, the gradient of one row; `der` the derivative of the log-amplitude. -/
noncomputable def rowNC (ty : Types) (logval der : X → ℂ) (row : List (X × ℂ)) (v : X) : ℂ :=
  let y : Fin row.length → ℂ := fun i => cotangent ty logval v (row.get i)
  let J : Fin row.length → Unit → ℂ := fun i _ => der (row.get i).1
  if ty.pars then
    if ty.out then Vjp.vjpCC J false y () else Vjp.vjpCR J false y ()
  else if ty.out then Vjp.vjpRC (fun i k => (J i k).re) (fun i k => (J i k).im) false y ()
  else (Vjp.vjpReal (fun i k => (J i k).re) (fun i => (y i).re) () : ℂ)

/-- _der_local_values_jax.py:100-116 `_der_local_values_notcentered_impl` after `get_conn_padded`. -/
noncomputable def notCentered (ty : Types) (logval der : X → ℂ) (rows : List (List (X × ℂ))) (v : List X) : List ℂ :=
  (rows.zip v).map fun p => rowNC ty logval der p.1 p.2

/-- _der_local_values_jax.py:119-177 `der_local_values_jax`: `padded` is the result of `get_conn_padded`, `width` the number of columns of `v`, `size` that of the
    space, `der` the derivative of the log-amplitude taken by `vjp`. -/
noncomputable def derLocalValuesJax (ty : Types) (size ndim width : Nat) (padded : Except Err (List (List (X × ℂ)))) (logpsi : ℂ → X → ℂ) (w : ℂ) (der : X → ℂ)
    (v : List X) (center : Bool) : Except Err (List ℂ) :=
  if ndim ≠ 2 then .error .runtimeError
  else if width ≠ size then .error .assertionError
  else
    match padded with
    | .error e => .error e
    | .ok rows => if center then centered ty logpsi w rows v else .ok (notCentered ty (logpsi w) der rows v)

/-- _local_cost_functions.py:208-213 `local_value_op_op_cost`: the machine takes row and column configuration. -/
noncomputable def opOpCost (logpsi : X → X → ℂ) (row : List (X × ℂ)) (v : X) : ℂ :=
  (List.zipWith (fun m l => m * Complex.exp (l - logpsi v v)) (row.map Prod.snd) (row.map fun p => logpsi p.1 v)).sum

end Verif.Padded

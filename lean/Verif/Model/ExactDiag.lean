import Verif.Model.DiscreteHilbert
import Mathlib.Data.Complex.Basic

/-!
`lanczos_ed` and `full_ed` (netket/exact.py:23-117), and `steady_state` with `method="iterative"`
(netket/exact.py:189-223). scipy's `eigsh` and `bicgstab` and numpy's `eigh` are arguments. Printing and warnings are not
modelled.
-/

namespace Verif.ExactDiag
open Verif.Hilbert (Err)

/-- keywords of `eigsh` (netket/exact.py:66-71); `other` any further keyword of `scipy_args`. -/
inductive Key | which | k | returnEigenvectors | other (name : Nat)
  deriving DecidableEq

/-- values of the keywords (netket/exact.py:66-71). -/
inductive Val | sa | int (k : Int) | bool (b : Bool) | other (v : Nat)
  deriving DecidableEq

/-- a dictionary of keywords (netket/exact.py:66-68). -/
abbrev Dict := Key → Option Val

/-- `d[key] = value` (netket/exact.py:69-71). -/
def Dict.set (d : Dict) (key : Key) (v : Val) : Dict := fun k => if k = key then some v else d k

/-- netket/exact.py:66-71: the keywords given to `eigsh`. `if scipy_args` copies the entries of a non-empty dictionary. -/
def lanczosArgs (user : Option Dict) (k : Int) (vectors : Bool) : Dict :=
  let d : Dict := match user with
    | none => fun _ => none
    | some u => u
  ((d.set .which .sa).set .k (.int k)).set .returnEigenvectors (.bool vectors)

/-- what `eigsh`, `eigh` and `eigvalsh` return: an array of eigenvalues, or a pair with the eigenvectors as columns, given
    here as a list of columns (netket/exact.py:73-83, 112-117). -/
inductive Result (V : Type)
  | values (w : List ℝ)
  | pair (w : List ℝ) (v : List V)

/-- netket/operator/_abstract_operator.py:296-297: `to_linear_operator` of operators is `to_sparse`. -/
def toLinearOperator {A : Type} (sparse : Unit → Except Err A) : Except Err A := sparse ()

/-- netket/exact.py:23-83. `sparse` is `operator.to_sparse()`; `eigsh` the function of scipy. `result[::-1]` of a pair would be the pair in the other order, an object that is not a `Result`;
    `eigsh` returns no pair for `return_eigenvectors=False`. -/
def lanczosEd {A V : Type} (eigsh : A → Dict → Except Err (Result V)) (sparse : Unit → Except Err A)
    (k : Int) (vectors matrixFree : Bool) (user : Option Dict) : Except Err (Result V) :=
  match (if matrixFree then toLinearOperator sparse else sparse ()) with
  | .error e => .error e
  | .ok a =>
    match eigsh a (lanczosArgs user k vectors) with
    | .error e => .error e
    | .ok r =>
      if vectors then .ok r
      else match r with
        | .values w => .ok (.values w.reverse)
        | .pair _ _ => .error .typeError

/-- netket/exact.py:86-117. -/
def fullEd {A V : Type} (eigh : A → Except Err (List ℝ × List V)) (eigvalsh : A → Except Err (List ℝ))
    (dense : Unit → Except Err A) (vectors : Bool) : Except Err (Result V) :=
  match dense () with
  | .error e => .error e
  | .ok a =>
    if vectors then match eigh a with
      | .error e => .error e
      | .ok (w, v) => .ok (.pair w v)
    else match eigvalsh a with
      | .error e => .error e
      | .ok w => .ok (.values w)

section
variable {K : Type} [CommRing K]

/-- netket/exact.py:195-202: `Lrho_start`; `rho0` is an array of `M` rows. Simplified: numpy would also accept an array
    with one entry, which it broadcasts. -/
def startVec (M : Nat) (rho0 : Option (List (List K))) : Except Err (List K) :=
  match rho0 with
  | none => .ok (((List.replicate (M ^ 2 + 1) (0 : K)).set 0 1).set (M ^ 2) 1)
  | some r =>
    if r.flatten.length = M ^ 2 then
      .ok (r.flatten ++ [((List.range M).map fun i => (r.getD i []).getD i 0).sum])
    else .error .valueError

/-- netket/exact.py:204-206: `Lrho_target`. -/
def target (M : Nat) : List K := (List.replicate (M ^ 2 + 1) (0 : K)).set (M ^ 2) 1

/-- the methods of `steady_state` (netket/exact.py:158, 189, 220). -/
inductive Method | ed | iterative | other
  deriving DecidableEq

/-- netket/exact.py:156-223: `linear` is the linear operator with `append_trace=True`, `bicgstab` the function of scipy,
    which gets the operator, the right-hand side and the starting vector and returns a vector and a number `info`; `ed` the
    result of the branch for exact diagonalisation. The result is the list of the entries of `rho`, row by row. -/
def steadyState {A : Type} (M : Nat) (linear : Except Err A) (bicgstab : A → List K → List K → Except Err (List K × Int))
    (ed : Except Err (List K)) (method : Method) (rho0 : Option (List (List K))) : Except Err (List K) :=
  match method with
  | .ed => ed
  | .iterative =>
    match linear with
    | .error e => .error e
    | .ok a =>
      match startVec M rho0 with
      | .error e => .error e
      | .ok x0 =>
        match bicgstab a (target M) x0 with
        | .error e => .error e
        | .ok (res, _) => .ok res.dropLast
  | .other => .error .valueError

end

end Verif.ExactDiag

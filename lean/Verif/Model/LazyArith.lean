import Verif.Model.Lazy

/-! Model of the arithmetic operators `+`, `-`, `*`, `/` with lazy wrappers: netket/operator/_lazy.py:18-44, 124-146,
191-198 together with the methods of `LocalOperator` Python tries first or falls back to. Numeric types are not modelled
(`np.promote_types`, `np.can_cast`). -/

namespace Verif.LocalOp
open Verif.Hilbert

namespace Lazy
variable {K : Type} [CommRing K] [DecidableEq K] [Star K] {α : Type} [LinearOrder α] [Inhabited α]
  {N : Nat}

/-- The result of `self.collect()` as the `LocalOperator` the following operation is applied to (_lazy.py:22-44); any other
    outcome is an error. -/
def collected (cut : Cutoff K) (hi : Fin N → List α) (e : Lazy K α N) : Except Err (LOp K α N) :=
  match collect cut hi e with
  | .error e => .error e
  | .ok (.base a) => .ok a
  | .ok _ => .error .notImplemented

/-- a `LocalOperator` as operator object (netket/operator/_local_operator.py:320-323: `__add__` returns one). -/
def wrapBase : Except Err (LOp K α N) → Except Err (Lazy K α N)
  | .ok r => .ok (.base r)
  | .error e => .error e

/-- `a + q` with a `LocalOperator` on the left: _local_operator.py:320-348; for a wrapper `__iadd__` returns
    `NotImplemented` (359) and Python calls `q.__radd__(a)` (_lazy.py:25-26). -/
def baseAdd (cut : Cutoff K) (hi : Fin N → List α) (a : LOp K α N) : Lazy K α N → Except Err (Lazy K α N)
  | .base b => wrapBase (add cut hi a b)
  | q => match collected cut hi q with
    | .error e => .error e
    | .ok b => wrapBase (add cut hi a b)

/-- `p + q`: _local_operator.py:320-323, _lazy.py:22-23. -/
def addM (cut : Cutoff K) (hi : Fin N → List α) (p q : Lazy K α N) : Except Err (Lazy K α N) :=
  match p with
  | .base a => baseAdd cut hi a q
  | p => match collected cut hi p with
    | .error e => .error e
    | .ok a => baseAdd cut hi a q

/-- `-p`: _local_operator.py:371-372; neither `WrappedOperator` (_lazy.py:18-44) nor `AbstractOperator` define `__neg__`. -/
def negM (cut : Cutoff K) (hi : Fin N → List α) : Lazy K α N → Except Err (Lazy K α N)
  | .base a => wrapBase (mulScalar cut hi a (-1))
  | _ => .error .typeError

/-- `a - q` with a `LocalOperator` on the left: `self + (-other)`, _local_operator.py:362-363. The exception of `-other` leaves
    `__sub__`: Python does not get to `q.__rsub__` (_lazy.py:31-32). -/
def baseSub (cut : Cutoff K) (hi : Fin N → List α) (a : LOp K α N) (q : Lazy K α N) : Except Err (Lazy K α N) :=
  match negM cut hi q with
  | .error e => .error e
  | .ok m => baseAdd cut hi a m

/-- `p - q`: _local_operator.py:362-363, _lazy.py:28-29. -/
def subM (cut : Cutoff K) (hi : Fin N → List α) (p q : Lazy K α N) : Except Err (Lazy K α N) :=
  match p with
  | .base a => baseSub cut hi a q
  | p => match collected cut hi p with
    | .error e => .error e
    | .ok a => baseSub cut hi a q

/-- `a * q` with a `LocalOperator` on the left: _local_operator.py:374-377, 416-425 (the product of a copy of `a`); for a
    wrapper Python calls `q.__rmul__(a)`: _lazy.py:37-38, 130-134 (`Adjoint`), 194-195. `eq` is `==`, i.e. object identity. -/
def baseMul (cut : Cutoff K) (hi : Fin N → List α) (eq : Lazy K α N → Lazy K α N → Bool) (a : LOp K α N) :
    Lazy K α N → Except Err (Lazy K α N)
  | .base b => wrapBase (opMatmul cut hi a b)
  | .adjoint p =>
    if eq p (.base a) then
      match hM cut hi (.base a) with
      | .error e => .error e
      | .ok h => match collect cut hi h with
        | .error e => .error e
        | .ok d => .ok (.squared d)
    else match collected cut hi (.adjoint p) with
      | .error e => .error e
      | .ok b => wrapBase (opMatmul cut hi a b)
  | q => match collected cut hi q with
    | .error e => .error e
    | .ok b => wrapBase (opMatmul cut hi a b)

/-- `p * q`: _local_operator.py:374-377, _lazy.py:34-35, 124-128 (`Adjoint`), 191-192. -/
def mulM (cut : Cutoff K) (hi : Fin N → List α) (eq : Lazy K α N → Lazy K α N → Bool) (p q : Lazy K α N) :
    Except Err (Lazy K α N) :=
  match p with
  | .base a => baseMul cut hi eq a q
  | .adjoint p =>
    if eq p q then .ok (.squared q)
    else match collected cut hi (.adjoint p) with
      | .error e => .error e
      | .ok a => baseMul cut hi eq a q
  | p => match collected cut hi p with
    | .error e => .error e
    | .ok a => baseMul cut hi eq a q

/-- `p + c` and `c + p` with a number: _local_operator.py:320-326, 349-357, _lazy.py:22-26. -/
def addNum (cut : Cutoff K) (hi : Fin N → List α) (p : Lazy K α N) (c : K) : Except Err (Lazy K α N) :=
  match collected cut hi p with
  | .error e => .error e
  | .ok a => wrapBase (addScalar cut hi a c)

/-- `p - c`: _local_operator.py:362-363 (`self + (-c)`), _lazy.py:28-29. -/
def subNum (cut : Cutoff K) (hi : Fin N → List α) (p : Lazy K α N) (c : K) : Except Err (Lazy K α N) :=
  match collected cut hi p with
  | .error e => .error e
  | .ok a => wrapBase (addScalar cut hi a (-c))

/-- `c - p`: _local_operator.py:365-366 (`c + (-self)`), _lazy.py:31-32. -/
def numSub (cut : Cutoff K) (hi : Fin N → List α) (c : K) (p : Lazy K α N) : Except Err (Lazy K α N) :=
  match collected cut hi p with
  | .error e => .error e
  | .ok a => match mulScalar cut hi a (-1) with
    | .error e => .error e
    | .ok m => wrapBase (addScalar cut hi m c)

/-- `p * c` and `c * p`: _local_operator.py:378-392, 473-474, _lazy.py:34-38, 124-134, 191-195 (a number is never the parent). -/
def mulNum (cut : Cutoff K) (hi : Fin N → List α) (p : Lazy K α N) (c : K) : Except Err (Lazy K α N) :=
  match collected cut hi p with
  | .error e => .error e
  | .ok a => wrapBase (mulScalar cut hi a c)

/-- `p / c`: _local_operator.py:465-471 (`inv` is `1.0 / other`); wrappers have no `__truediv__` (_lazy.py:18-44). -/
def divNum (cut : Cutoff K) (hi : Fin N → List α) (inv : K → K) (p : Lazy K α N) (c : K) : Except Err (Lazy K α N) :=
  match p with
  | .base a => if c = 0 then .error .valueError else wrapBase (mulScalar cut hi a (inv c))
  | _ => .error .typeError

end Lazy
end Verif.LocalOp

import Mathlib.Data.Fintype.Pi
import Verif.Model.LocalOperator

/-! Model of netket/operator/_lazy.py and of the methods of netket/operator/_abstract_operator.py that
create lazy wrappers. The wrapped concrete operators are `LocalOperator`s (`LOp`). -/

namespace Verif.LocalOp
open Verif.Hilbert

/-- Operator objects: `LocalOperator` or a wrapper (_lazy.py:47-57 `Transpose`, 92-102 `Adjoint`,
    152-162 `Squared`). -/
inductive Lazy (K α : Type) (N : Nat) where
  | base (op : LOp K α N)
  | transpose (parent : Lazy K α N)
  | adjoint (parent : Lazy K α N)
  | squared (parent : Lazy K α N)

namespace Lazy
variable {K : Type} [CommRing K] [DecidableEq K] [Star K] {α : Type} [LinearOrder α] [Inhabited α]
  {N : Nat}

/-- `is_hermitian`: `LocalOperator` flag; _lazy.py:184-186 for `Squared`; the default
    _abstract_operator.py:62-65 for the other wrappers. -/
def isHerm : Lazy K α N → Bool
  | .base op => op.isHerm
  | .squared _ => true
  | _ => false

/- `transpose(concrete=...)` and `conjugate(concrete=...)` (the keyword is passed explicitly). -/
mutual
  /-- _local_operator.py:795-808, _lazy.py:66-67, 111-112, _abstract_operator.py:98-113 (`Squared`). -/
  def transposeM (cut : Cutoff K) (hi : Fin N → List α) : Lazy K α N → Bool → Except Err (Lazy K α N)
    | .base op, true => match transposeOp cut hi op with
      | .ok r => .ok (.base r)
      | .error e => .error e
    | .base op, false => .ok (.transpose (.base op))
    | .transpose p, _ => .ok p
    | .adjoint p, c => conjugateM cut hi p c
    | .squared p, false => .ok (.transpose (.squared p))
    | .squared _, true => .error .notImplemented
  /-- _local_operator.py:810-819, _lazy.py:69-76, 114-115; `Squared.conjugate` (177-178) has no
      `concrete` argument: `TypeError`. -/
  def conjugateM (cut : Cutoff K) (hi : Fin N → List α) : Lazy K α N → Bool → Except Err (Lazy K α N)
    | .base op, _ => match conjOp cut hi op with
      | .ok r => .ok (.base r)
      | .error e => .error e
    | .transpose p, c =>
      if isHerm p then .ok p
      else if c then conjugateM cut hi p true
      else .ok (.adjoint p)
    | .adjoint p, c => transposeM cut hi p c
    | .squared _, _ => .error .typeError
end

/-- `op.conjugate()` without argument (`Squared`: _lazy.py:177-178). -/
def conjugate0 (cut : Cutoff K) (hi : Fin N → List α) : Lazy K α N → Except Err (Lazy K α N)
  | .squared p => .ok (.transpose p)
  | e => conjugateM cut hi e false

/-- `op.conj(concrete=...)`, _abstract_operator.py:293-294 (the argument is dropped). -/
def conj (cut : Cutoff K) (hi : Fin N → List α) (e : Lazy K α N) (_concrete : Bool) :
    Except Err (Lazy K α N) := conjugateM cut hi e false

/-- `op.H`: _abstract_operator.py:67-75, _lazy.py:78-80, 117-119, 180-182. -/
def hM (cut : Cutoff K) (hi : Fin N → List α) : Lazy K α N → Except Err (Lazy K α N)
  | .base op => if op.isHerm then .ok (.base op) else .ok (.adjoint (.base op))
  | .transpose p => conjugate0 cut hi p
  | .adjoint p => .ok p
  | .squared p => .ok (.squared p)

/-- `op.T`: _abstract_operator.py:77-80; `Squared.T` (_lazy.py:171-175) first evaluates
    `self.parent.c`, an attribute no operator has. -/
def tM (cut : Cutoff K) (hi : Fin N → List α) : Lazy K α N → Except Err (Lazy K α N)
  | .squared _ => .error .attributeError
  | e => transposeM cut hi e false

/-- `op.collect()`: _abstract_operator.py:88-96, _lazy.py:63-64, 108-109, 168-169. For `Squared` of a
    wrapper, `_concrete_matmul_` gets a parent that is no `LocalOperator` and returns `NotImplemented`
    (or an earlier step raises); both are represented by an error. -/
def collect (cut : Cutoff K) (hi : Fin N → List α) : Lazy K α N → Except Err (Lazy K α N)
  | .base op => .ok (.base op)
  | .transpose p => transposeM cut hi p true
  | .adjoint p => match transposeM cut hi p true with
    | .ok r => conj cut hi r true
    | .error e => .error e
  | .squared (.base op) =>
    if op.isHerm then
      match opMatmul cut hi op op with
      | .ok r => .ok (.base r)
      | .error e => .error e
    else match transposeOp cut hi op with
      | .error e => .error e
      | .ok t => match conjOp cut hi t with
        | .error e => .error e
        | .ok d => match opMatmul cut hi d op with
          | .ok r => .ok (.base r)
          | .error e => .error e
  | .squared _ => .error .notImplemented

/-- `a @ other` with `a` a `LocalOperator`: _abstract_operator.py:313-324, _local_operator.py:427-435;
    for a wrapper on the right `NotImplemented` is returned and Python calls
    `other.__rmatmul__(a)`: _abstract_operator.py:330-342, _lazy.py:43-44 (`a @ other.collect()`).
    `eq` is Python's `==`, i.e. object identity. -/
def baseMatmul (cut : Cutoff K) (hi : Fin N → List α) (eq : Lazy K α N → Lazy K α N → Bool)
    (a : LOp K α N) : Lazy K α N → Except Err (Lazy K α N)
  | .base b =>
    if eq (.base a) (.base b) && a.isHerm then .ok (.squared (.base a))
    else match opMatmul cut hi a b with
      | .ok r => .ok (.base r)
      | .error e => .error e
  | q => match collect cut hi q with
    | .error e => .error e
    | .ok (.base b) =>
      if eq (.base a) (.base b) && a.isHerm then .ok (.squared (.base a))
      else (match opMatmul cut hi a b with
        | .ok r => .ok (.base r)
        | .error e => .error e)
    | .ok _ => .error .notImplemented

/-- `p.collect() @ q` (_lazy.py:40-41, 140, 197-198). -/
def collectMatmul (cut : Cutoff K) (hi : Fin N → List α) (eq : Lazy K α N → Lazy K α N → Bool)
    (p q : Lazy K α N) : Except Err (Lazy K α N) :=
  match collect cut hi p with
  | .error e => .error e
  | .ok (.base a) => baseMatmul cut hi eq a q
  | .ok _ => .error .notImplemented

/-- `p @ q`: _abstract_operator.py:313-324 and the `_op__matmul__` of _lazy.py:40-41, 136-140,
    197-198. -/
def matmulM (cut : Cutoff K) (hi : Fin N → List α) (eq : Lazy K α N → Lazy K α N → Bool) :
    Lazy K α N → Lazy K α N → Except Err (Lazy K α N)
  | .base a, q => baseMatmul cut hi eq a q
  | .adjoint p, q => if eq p q then .ok (.squared q) else collectMatmul cut hi eq (.adjoint p) q
  | .transpose p, q => collectMatmul cut hi eq (.transpose p) q
  | .squared p, q =>
    if eq (.squared p) q then .ok (.squared (.squared p))
    else collectMatmul cut hi eq (.squared p) q

/-- `op.to_sparse()` as a matrix on the basis: _abstract_operator.py:235-266 for a `LocalOperator`
    (entry = sum of the connected elements), _lazy.py:88-89, 148-149, 200-202. -/
def toSparse (hi : Fin N → List α) (gm : Nat → K) (gx : Nat → Fin N → α) :
    Lazy K α N → (Fin N → α) → (Fin N → α) → K
  | .base op, x, x' => ((getConn hi op gm gx x).map fun p => if p.1 = x' then p.2 else 0).sum
  | .transpose p, x, x' => toSparse hi gm gx p x' x
  | .adjoint p, x, x' => star (toSparse hi gm gx p x' x)
  | .squared p, x, x' =>
    ∑ y ∈ Fintype.piFinset fun s => (hi s).toFinset,
      star (toSparse hi gm gx p y x) * toSparse hi gm gx p y x'

end Lazy
end Verif.LocalOp

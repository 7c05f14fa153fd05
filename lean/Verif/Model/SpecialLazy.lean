import Mathlib.Algebra.BigOperators.Group.Finset.Basic
import Mathlib.Algebra.Star.Basic
import Verif.Model.Hamiltonian
import Verif.Model.PauliStrings

/-! Adjoints, transposes, conjugates and squares of operators that are no `LocalOperator`: `Ising` (netket/operator/_hamiltonian.py),
`PauliStrings` (netket/operator/_pauli_strings.py) and `LocalLiouvillian` (netket/operator/_local_liouvillian.py), by
netket/operator/_abstract_operator.py and netket/operator/_lazy.py. Products of two different objects are in C24 and C256. -/

namespace Verif.SpecialLazy
open Verif.Hilbert (Err)

variable {K X : Type}

/-- the classes (_hamiltonian.py:104, _pauli_strings.py:27, _local_liouvillian.py:29); `pyFloat` says that `h` and `J` of an `Ising`
    are instances of Python's `float` (`float` and `np.float64`, but not `np.float32` and complex types), which depends on the argument
    `dtype` (_hamiltonian.py:146-147). -/
inductive Cls
  | ising (pyFloat : Bool)
  | pauli
  | liouvillian
  deriving DecidableEq

/-- an operator object: class, connected elements and `is_hermitian` (_abstract_operator.py:46-65). -/
structure Obj (K X : Type) where
  cls : Cls
  row : X → List (X × K)
  herm : Bool

/-- `Ising`: `is_hermitian` is `True` (_hamiltonian.py:166-168). -/
def ofIsing [CommRing K] {N : Nat} (op : Ham.Ising K N) (pyFloat : Bool) : Obj K (Fin N → ℤ) := ⟨.ising pyFloat, op.row, true⟩

/-- `PauliStrings` (_pauli_strings.py:169-172). -/
def ofPauli [CommRing K] (sc : Pauli.Scalars K) (op : Pauli.PauliOp K) : Obj K (Fin op.n → ℤ) :=
  ⟨.pauli, Pauli.rowConn sc op.groups, op.isHerm⟩

/-- `LocalLiouvillian`: `is_hermitian` is `False` (_local_liouvillian.py:86-88). -/
def ofLiouvillian (row : X → List (X × K)) : Obj K X := ⟨.liouvillian, row, false⟩

/-- an object or a wrapper (_lazy.py:47-57, 92-102, 152-162). -/
inductive Expr (K X : Type)
  | leaf (o : Obj K X)
  | transpose (p : Expr K X)
  | adjoint (p : Expr K X)
  | squared (p : Expr K X)

/-- `is_hermitian` (_abstract_operator.py:62-65, _lazy.py:184-186). -/
def Expr.isHerm : Expr K X → Bool
  | .leaf o => o.herm
  | .squared _ => true
  | _ => false

mutual
  /-- `transpose(concrete=...)` (_abstract_operator.py:98-113, _lazy.py:66-67, 111-112). -/
  def Expr.transposeM : Expr K X → Bool → Except Err (Expr K X)
    | .leaf o, false => .ok (.transpose (.leaf o))
    | .leaf _, true => .error .notImplemented
    | .transpose p, _ => .ok p
    | .adjoint p, c => Expr.conjugateM p c
    | .squared p, false => .ok (.transpose (.squared p))
    | .squared _, true => .error .notImplemented
  /-- `conjugate(concrete=...)` (_hamiltonian.py:174-179 for `Ising`, _abstract_operator.py:115-125 for the others, _lazy.py:69-76,
      114-115, 177-178). -/
  def Expr.conjugateM : Expr K X → Bool → Except Err (Expr K X)
    | .leaf o, _ => if o.cls = .ising true then .ok (.leaf o) else .error .notImplemented
    | .transpose p, c => if p.isHerm then .ok p else if c then Expr.conjugateM p true else .ok (.adjoint p)
    | .adjoint p, c => Expr.transposeM p c
    | .squared _, _ => .error .typeError
end

/-- `op.H` (_abstract_operator.py:67-75, _lazy.py:78-80, 117-119, 180-182); the `conjugate()` of `Squared` takes no argument (177-178). -/
def Expr.hM : Expr K X → Except Err (Expr K X)
  | .leaf o => if o.herm then .ok (.leaf o) else .ok (.adjoint (.leaf o))
  | .transpose (.squared p) => .ok (.transpose p)
  | .transpose p => p.conjugateM false
  | .adjoint p => .ok p
  | .squared p => .ok (.squared p)

/-- `collect()` of `Transpose(p)` (_lazy.py:63-64). -/
def collectT (p : Expr K X) : Except Err (Expr K X) := p.transposeM true

/-- `collect()` of `Adjoint(p)` (_lazy.py:108-109; `conj` drops its argument, _abstract_operator.py:293-294). -/
def collectA (p : Expr K X) : Except Err (Expr K X) :=
  match p.transposeM true with
  | .ok r => r.conjugateM false
  | .error e => .error e

/-- `o @ o` with one object on both sides (_abstract_operator.py:313-324); an object that is not hermitian has no `_op__matmul__` (326-328;
    an `Ising` is always hermitian): both sides return `NotImplemented` and Python raises TypeError. -/
def square (o : Obj K X) : Except Err (Expr K X) := if o.herm then .ok (.squared (.leaf o)) else .error .typeError

/-- `o.H @ o` (_abstract_operator.py:67-75, 313-324, _lazy.py:136-140). -/
def gram (o : Obj K X) : Except Err (Expr K X) :=
  match (Expr.leaf o).hM with
  | .error e => .error e
  | .ok (.adjoint _) => .ok (.squared (.leaf o))
  | .ok _ => square o

variable [CommRing K] [StarRing K] [DecidableEq X]

/-- `to_sparse()` as a matrix on the basis `B` (_abstract_operator.py:235-266, _lazy.py:88-89, 148-149, 200-202). -/
def Expr.toSparse (B : Finset X) : Expr K X → X → X → K
  | .leaf o, x, x' => ((o.row x).map fun p => if p.1 = x' then p.2 else 0).sum
  | .transpose p, x, x' => p.toSparse B x' x
  | .adjoint p, x, x' => star (p.toSparse B x' x)
  | .squared p, x, x' => ∑ y ∈ B, star (p.toSparse B y x) * p.toSparse B y x'

end Verif.SpecialLazy

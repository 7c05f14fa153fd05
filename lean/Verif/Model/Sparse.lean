import Mathlib.Algebra.BigOperators.Group.Finset.Basic
import Mathlib.Algebra.Ring.Defs
import Verif.Model.DiscreteHilbert

/-! Model of `AbstractOperator.to_sparse`, `to_dense`, `apply` (netket/operator/_abstract_operator.py).
The operator enters through `get_conn_flattened` only. scipy's CSR matrix is modelled from its
documented format: row `i` consists of the entries `indptr[i] .. indptr[i+1]-1`, duplicates add up. -/

namespace Verif.Sparse
open Verif.Hilbert

variable {K α : Type}

/-- `csr_matrix((mels, numbers, sections1), shape=(n, n))` (_abstract_operator.py:263-266); column
    numbers and data are kept zipped. -/
structure CSR (K : Type) where
  n : Nat
  entries : List (Nat × K)
  indptr : List Nat

/-- entries of row `i` (netket/operator/_abstract_operator.py:263-266, scipy). -/
def CSR.row (m : CSR K) (i : Nat) : List (Nat × K) :=
  (m.entries.drop (m.indptr.getD i 0)).take (m.indptr.getD (i + 1) 0 - m.indptr.getD i 0)

/-- _abstract_operator.py:273-284 `to_dense`, entry `(i, j)` of `to_sparse().todense().A`. -/
def CSR.dense [AddCommMonoid K] (m : CSR K) (i j : Nat) : K :=
  ((m.row i).map fun e => if e.1 = j then e.2 else 0).sum

/-- _abstract_operator.py:286-297 `apply` = `to_sparse().dot(v)`, component `i`. -/
def CSR.dot [CommRing K] (m : CSR K) (v : Nat → K) (i : Nat) : K :=
  ((m.row i).map fun e => e.2 * v e.1).sum

/-- _abstract_operator.py:235-266 `to_sparse`. `flat` is `get_conn_flattened`: connected
    configurations zipped with matrix elements, and `sections`. -/
def toSparse (h : Disc α) (flat : List (List α) → List (List α × K) × List Nat) : Except Err (CSR K) :=
  match h.allStates with
  | .error e => .error e
  | .ok x =>
    match (flat x).1.mapM fun p => h.statesToNumbers p.1 with
    | .error e => .error e
    | .ok numbers => .ok ⟨h.nStates, numbers.zip ((flat x).1.map Prod.snd), 0 :: (flat x).2⟩

end Verif.Sparse

import Verif.Model.DiscreteHilbert
import Mathlib.Algebra.BigOperators.Group.List.Basic
import Mathlib.Algebra.Field.Defs

/-! Model of `netket/utils/mpi/primitives.py`. Each rank has a memory; an array is a view of the memory of
its rank with a shape, strides (non-negative, in units of elements) and an offset, the same on all ranks.
`reshape(-1)` is NumPy's: a view where one stride suffices, else a copy. `comm.Allreduce(MPI.IN_PLACE, buf)`
needs a contiguous buffer. -/

namespace Verif.Mpi

open Verif.Hilbert (Err)

/-- the axes of an array: length and stride of each (netket/utils/mpi/primitives.py:20-36). -/
abbrev Axes := List (Nat × Nat)

/-- a view of a memory (netket/utils/mpi/primitives.py:20-36). -/
structure View where
  offset : Nat
  axes : Axes

/-- NumPy: addresses of the elements in C order (netket/utils/mpi/primitives.py:34). -/
def addrs : Axes → Nat → List Nat
  | [], o => [o]
  | (n, t) :: rest, o => (List.range n).flatMap fun (i : Nat) => addrs rest (o + i * t)

/-- NumPy `_attempt_nocopy_reshape` to one axis, axes of length one removed: length and stride of the view,
    or nothing if a copy is needed (netket/utils/mpi/primitives.py:34, 75, 146, 185). -/
def flat : Axes → Option (Nat × Nat)
  | [] => some (1, 1)
  | [(n, t)] => some (n, t)
  | (n, t) :: (m, u) :: rest =>
    match flat ((m, u) :: rest) with
    | none => none
    | some (len, s) => if t = m * u then some (n * len, s) else none

/-- NumPy: `ar.reshape(-1)` (primitives.py:34): length and stride of the view or a copy. -/
def reshapeFlat (v : View) : Option (Nat × Nat) := flat (v.axes.filter fun p => p.1 ≠ 1)

/-- the memories of the ranks (netket/utils/mpi/primitives.py:20-36). -/
abbrev Mems (R : Type) := List (Nat → R)

/-- mpi4py: `Allreduce(MPI.IN_PLACE, …)` of `len` elements from address `o`
(netket/utils/mpi/primitives.py:34, 75, 146, 185). -/
def allreduce {R : Type} (red : List R → R) (mems : Mems R) (o len : Nat) : Mems R :=
  mems.map fun mem a => if o ≤ a ∧ a < o + len then red (mems.map fun m => m a) else mem a

/-- primitives.py:20-36 `mpi_sum`, 61-77 `mpi_prod`, 133-148 `mpi_any`, 172-187 `mpi_max` on a NumPy array,
    with the reduction of the operation; returns the memories. The array returned is the view passed in.
    (ValueError: mpi4py refuses a strided buffer.) -/
def mpiReduce {R : Type} (red : List R → R) (mems : Mems R) (v : View) : Mems R × Option Err :=
  if mems.length > 1 then
    match reshapeFlat v with
    | none => (mems, none)
    | some (len, s) =>
      if s ≠ 1 ∧ len > 1 then (mems, some .valueError)
      else (allreduce red mems v.offset len, none)
  else (mems, none)

/-- the elements of a view in C order (netket/utils/mpi/primitives.py:34-36). -/
def read {R : Type} (mem : Nat → R) (v : View) : List R := (addrs v.axes v.offset).map mem

/-- primitives.py:102-113 `mpi_mean`: memories, and the new arrays returned on the ranks. -/
def mpiMean {R : Type} [DivisionRing R] (mems : Mems R) (v : View) : Mems R × Except Err (List (List R)) :=
  match mpiReduce List.sum mems v with
  | (m, some e) => (m, .error e)
  | (m, none) => (m, .ok (m.map fun mem => (read mem v).map fun x => x / (mems.length : R)))

/-- primitives.py:39-58 `mpi_sum_jax`, 80-99, 151-169, 190-208: JAX arrays are values (no aliasing); the list
    of the arrays of the ranks, flattened. -/
def mpiReduceJax {R : Type} (red : List R → R) (xs : List (List R)) (len : Nat) : List (List R) :=
  if xs.length = 1 then xs
  else xs.map fun _ => (List.range len).map fun (i : Nat) => red (xs.filterMap fun x => x[i]?)

/-- primitives.py:211-215 `mpi_bcast` (an MPI error for a root that does not exist is a RuntimeError). -/
def mpiBcast {A : Type} (xs : List A) (root : Nat) : Except Err (List A) :=
  if xs.length = 1 then .ok xs
  else match xs[root]? with
    | some x => .ok (xs.map fun _ => x)
    | none => .error .runtimeError

/-- primitives.py:218-225 `mpi_bcast_jax`. -/
def mpiBcastJax {A : Type} (xs : List A) (root : Nat) : Except Err (List A) :=
  if xs.length = 1 then (if root = 0 then .ok xs else .error .assertionError)
  else match xs[root]? with
    | some x => .ok (xs.map fun _ => x)
    | none => .error .runtimeError

/-- what `mpi_allgather` returns on a rank: an object, or the list of the objects of the ranks
(netket/utils/mpi/primitives.py:228-232). -/
inductive Gathered (A : Type)
  | one (a : A)
  | list (as : List A)

/-- primitives.py:228-232 `mpi_allgather`, 235-242 `mpi_allgather_jax`. -/
def mpiAllgather {A : Type} (xs : List A) : List (Gathered A) :=
  if xs.length = 1 then xs.map .one else xs.map fun _ => .list xs

/-- characters of a version: a digit, a dot, anything else (netket/utils/mpi/mpi.py:104-114). -/
inductive Ch
  | digit (d : Fin 10)
  | dot
  | other
  deriving DecidableEq

/-- mpi.py:106-113: the numeric beginning. -/
def numericPrefix : List Ch → List Ch
  | [] => []
  | .other :: _ => []
  | c :: cs => c :: numericPrefix cs

/-- `rstrip(".")` (mpi.py:113). -/
def rstripDots (cs : List Ch) : List Ch := (cs.reverse.dropWhile (· = .dot)).reverse

/-- `split(".")` (mpi.py:114); the first argument is the current piece, reversed. -/
def splitDots : List (Fin 10) → List Ch → List (List (Fin 10))
  | cur, [] => [cur.reverse]
  | cur, .digit d :: cs => splitDots (d :: cur) cs
  | cur, .dot :: cs => cur.reverse :: splitDots [] cs
  | cur, .other :: cs => splitDots cur cs

/-- `int(v)`; the empty string is a ValueError (netket/utils/mpi/mpi.py:104-114). -/
def toNat? (ds : List (Fin 10)) : Option Nat :=
  if ds = [] then none else some (ds.foldl (fun n d => 10 * n + d.val) 0)

/-- mpi.py:104-114 `_get_version_tuple`. -/
def versionTuple (cs : List Ch) : Except Err (List Nat) :=
  match (splitDots [] (rstripDots (numericPrefix cs))).mapM toNat? with
  | some ns => .ok (ns.take 3)
  | none => .error .valueError

/-- Python's order of tuples of integers (netket/utils/mpi/mpi.py:116-118). -/
def tupleLt : List Nat → List Nat → Bool
  | [], [] => false
  | [], _ :: _ => true
  | _ :: _, [] => false
  | a :: as, b :: bs => if a < b then true else if b < a then false else tupleLt as bs

end Verif.Mpi

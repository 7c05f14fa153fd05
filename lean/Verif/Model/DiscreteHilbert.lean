import Verif.Model.HilbertIndex
import Mathlib.Data.Nat.Basic

/-! Models of `netket/hilbert/discrete_hilbert.py` (indexing API), `homogeneous.py`
(unconstrained and constrained indexing), `tensor_hilbert.py` and `doubled_hilbert.py`.

Batches are modelled one row at a time (the code loops over rows).  Exceptions are values. -/

namespace Verif.Hilbert
open Verif.HilbertIndex

/-- python exceptions raised by the modelled code
(netket/hilbert/discrete_hilbert.py:134, 157; homogeneous.py:35, 154). -/
inductive Err
  | valueError
  | runtimeError
  | indexError
  | notImplemented
  | unboundLocal
  | attributeError
  | assertionError
  | typeError
  | keyError
  | zeroDivision
  | nameError
  deriving DecidableEq, Repr

/-- A discrete Hilbert space as seen by the indexing API: the attributes `size`, `n_states`, `shape`
    and the internal methods `_numbers_to_states`, `_states_to_numbers` of discrete_hilbert.py. -/
structure Disc (α : Type) where
  size : Nat
  nStates : Nat
  shape : List Nat
  rawToState : Int → Except Err (List α)
  rawToNum : List α → Except Err Nat

variable {α : Type}

/-- discrete_hilbert.py:117-139 for one number: the range check, then `_numbers_to_states`. -/
def Disc.numbersToStates (h : Disc α) (number : Int) : Except Err (List α) :=
  if number ≥ (h.nStates : Int) then .error .valueError
  else h.rawToState number

/-- discrete_hilbert.py:141-172 for one state: the size check, then `_states_to_numbers`. -/
def Disc.statesToNumbers (h : Disc α) (state : List α) : Except Err Nat :=
  if state.length ≠ h.size then .error .valueError
  else h.rawToNum state

/-- discrete_hilbert.py:184-198: `numbers_to_states(arange(n_states))`. -/
def Disc.allStates (h : Disc α) : Except Err (List (List α)) :=
  (List.range h.nStates).mapM (fun n : Nat => h.numbersToStates (n : Int))

/-- IndexError of a modelled array access (netket/hilbert/tensor_hilbert.py:76-137). -/
def orIndexError {β : Type} : Option β → Except Err β
  | some b => .ok b
  | none => .error .indexError

/-- numpy integer indexing of a 1d array: negative indices count from the end
(netket/hilbert/discrete_hilbert.py:94; homogeneous.py:134-149). -/
def pyIndex {β : Type} (l : List β) (i : Int) : Except Err β :=
  if 0 ≤ i then orIndexError l[i.toNat]?
  else if -(l.length : Int) ≤ i then orIndexError l[(i + l.length).toNat]?
  else .error .indexError

variable [LinearOrder α]

/-- homogeneous.py:134-149 without constraint: `HilbertIndex` does the work
    (`_to_bare_numbers`, 169-173, is the identity).  For a negative number the loop
    `while ip > 0` of hilbert_index.py:77 is not entered, which is what `Int.toNat` expresses. -/
def homog (ls : List α) (N : Nat) : Disc α where
  size := N
  nStates := (HIndex.mk' ls N).nStates
  shape := List.replicate N ls.length
  rawToState n := orIndexError ((HIndex.mk' ls N).numberToState n.toNat)
  rawToNum σ := orIndexError ((HIndex.mk' ls N).stateToNumber σ)

/-- homogeneous.py:26-28, 160-163: `np.nonzero(constraint_fn(all_states()))[0]`.
    Simplification: the user's batch function acts row by row. -/
def bareNumbers (ls : List α) (N : Nat) (c : List α → Bool) : List Nat :=
  (List.range (HIndex.mk' ls N).nStates).filter fun n =>
    match (HIndex.mk' ls N).numberToState n with
    | some σ => c σ
    | none => false

/-- homogeneous.py:31-36 for one number: `searchsorted`, then raise only past the end. -/
def toConstrainedNumber (bare : List Nat) (n : Nat) : Except Err Nat :=
  let found := searchsorted bare n
  if found ≥ bare.length then .error .runtimeError else .ok found

/-- homogeneous.py:112-173 with a constraint. -/
def homogConstrained (ls : List α) (N : Nat) (c : List α → Bool) : Disc α where
  size := N
  nStates := (bareNumbers ls N c).length
  shape := List.replicate N ls.length
  rawToState n := do
    let b ← pyIndex (bareNumbers ls N c) n
    orIndexError ((HIndex.mk' ls N).numberToState b)
  rawToNum σ := do
    let n ← orIndexError ((HIndex.mk' ls N).stateToNumber σ)
    toConstrainedNumber (bareNumbers ls N c) n

omit [LinearOrder α]

/-- `np.cumprod`, started at `acc` (netket/hilbert/tensor_hilbert.py:50-52). -/
def cumprodFrom : Nat → List Nat → List Nat
  | _, [] => []
  | acc, x :: xs => acc * x :: cumprodFrom (acc * x) xs

/-- tensor_hilbert.py:51-53: `flip(cumprod(concatenate([[1], flip(ns)]))[:-1])`. -/
def cumNsStatesR (ns : List Nat) : List Nat :=
  (cumprodFrom 1 (1 :: ns.reverse)).dropLast.reverse

/-- tensor_hilbert.py:106-112: `for dim in reversed(ns): rem, loc = divmod(rem, dim)` and the factor's
    `numbers_to_states(loc)`; first argument: the spaces from last to first.  The slices written into
    `out` are contiguous, so the buffer is modelled as the concatenation built from the right. -/
def tensorToState : List (Disc α) → Int → List α → Except Err (List α)
  | [], _, out => .ok out
  | h :: hs, rem, out => do
    let s ← h.numbersToStates (rem % (h.nStates : Int))
    tensorToState hs (rem / (h.nStates : Int)) (s ++ out)

/-- tensor_hilbert.py:124-128: for the i-th factor, `states_to_numbers(states[cum_indices[i]:cum_sizes[i]])`
    weighted with `_cum_ns_states_r[i]`; `off` is `cum_indices[i]`. -/
def tensorToNum (σ : List α) : List (Disc α) → List Nat → Nat → Nat → Except Err Nat
  | h :: hs, w :: ws, off, out => do
    let t ← h.statesToNumbers ((σ.drop off).take h.size)
    tensorToNum σ hs ws (off + h.size) (out + t * w)
  | _, _, _, out => .ok out

/-- tensor_hilbert.py:30-61, 94-130. -/
def tensor (hs : List (Disc α)) : Disc α where
  size := (hs.map Disc.size).sum
  nStates := (hs.map Disc.nStates).prod
  shape := (hs.map Disc.shape).flatten
  rawToState n := tensorToState hs.reverse n []
  rawToNum σ := tensorToNum σ hs (cumNsStatesR (hs.map Disc.nStates)) 0 0

/-- how `hilb.shape` is stored: a python tuple (homogeneous spaces, homogeneous.py:87-88)
    or an ndarray (tensor_hilbert.py:60). -/
inductive ShapeKind | tuple | ndarray
  deriving DecidableEq

/-- doubled_hilbert.py:54: `hilb.shape * 2`: repetition for tuples, elementwise for arrays. -/
def shapeTimesTwo : ShapeKind → List Nat → List Nat
  | .tuple, s => s ++ s
  | .ndarray, s => s.map (· * 2)

/-- doubled_hilbert.py:51-54, 92-130. -/
def doubled (k : ShapeKind) (h : Disc α) : Disc α where
  size := 2 * h.size
  nStates := h.nStates ^ 2
  shape := shapeTimesTwo k h.shape
  rawToState n := do
    let l ← h.numbersToStates (n / (h.nStates : Int))
    let r ← h.numbersToStates (n % (h.nStates : Int))
    pure (l ++ r)
  rawToNum σ := do
    let l ← h.rawToNum (σ.take h.size)
    let r ← h.rawToNum ((σ.drop h.size).take h.size)
    pure (r + l * h.nStates)

/-- doubled_hilbert.py:76-79: `size_at_index`, delegated to the physical space
    (discrete_hilbert.py:103 / homogeneous.py:100-101: `shape[i]`). -/
def doubledSizeAtIndex (h : Disc α) (i : Nat) : Option Nat :=
  h.shape[if i < h.size then i else i - h.size]?

end Verif.Hilbert

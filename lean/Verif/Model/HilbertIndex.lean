import Mathlib.Order.Basic
import Mathlib.Data.List.Sort

/-! Model of `netket/hilbert/hilbert_index.py` (class `HilbertIndex`).
Local quantum numbers are floats in the code; only their order is used, so they are
modelled by an arbitrary linear order `α` (no NaN). Python `int64` is modelled by `Nat`
(callers only pass numbers checked against `n_states`, and `is_indexable` bounds sizes). -/

namespace Verif.HilbertIndex

variable {α : Type} [LinearOrder α]

/-- `np.searchsorted(a, x)` (side="left") on a sorted array: number of leading entries `< x`.
    Used by hilbert_index.py:41-42. -/
def searchsorted (a : List α) (x : α) : Nat := (a.takeWhile (· < x)).length

/-- hilbert_index.py:29-39. Fields `_local_states` (sorted copy), `_local_size`, `_size`, `_basis`. -/
structure HIndex (α : Type) where
  localStates : List α
  localSize : Nat
  size : Nat
  basis : List Nat

/-- hilbert_index.py:35-39, the loop `for s in range(size): basis[s] = ba; ba *= local_size`
    started at `ba`. -/
def basisLoop (localSize : Nat) : Nat → Nat → List Nat
  | 0, _ => []
  | s + 1, ba => ba :: basisLoop localSize s (ba * localSize)

/-- hilbert_index.py:30-39, constructor; `np.sort` is modelled by `List.insertionSort` (same result on every list). -/
def HIndex.mk' (localStates : List α) (size : Nat) : HIndex α :=
  let ls := localStates.insertionSort (· ≤ ·)
  { localStates := ls, localSize := ls.length, size := size, basis := basisLoop ls.length size 1 }

/-- hilbert_index.py:44-46. -/
def HIndex.nStates (h : HIndex α) : Nat := h.localSize ^ h.size

/-- hilbert_index.py:52-64 (and the inner loop of `states_to_numbers`, 93-99):
    `number += searchsorted(state[size-i-1]) * basis[i]` for `i = 0 .. size-1`.
    `none` = IndexError (state shorter than `size`). -/
def HIndex.stateToNumber (h : HIndex α) (state : List α) : Option Nat :=
  (List.range h.size).foldlM (fun number i => do
    let x ← state[h.size - i - 1]?
    let b ← h.basis[i]?
    pure (number + searchsorted h.localStates x * b)) 0

/-- hilbert_index.py:75-80: `while ip > 0: out[k] = local_states[ip % d]; ip //= d; k -= 1`.
    The first argument is `k+1`. `none`: the write index would leave the buffer (`k < 0`), which the
    code does not guard against; excluded by the range check of discrete_hilbert.py:117-139. -/
def numLoop (ls : List α) (d : Nat) : Nat → Nat → List α → Option (List α)
  | _, 0, out => some out
  | 0, _ + 1, _ => none
  | k + 1, ip + 1, out => do
    let v ← ls[(ip + 1) % d]?
    numLoop ls d k ((ip + 1) / d) (out.set k v)

/-- hilbert_index.py:66-82. `none` = IndexError (no local state, or index out of the buffer). -/
def HIndex.numberToState (h : HIndex α) (number : Nat) : Option (List α) := do
  let z ← h.localStates[0]?
  numLoop h.localStates h.localSize h.size number (List.replicate h.size z)

/-- hilbert_index.py:84-100. -/
def HIndex.statesToNumbers (h : HIndex α) (states : List (List α)) : Option (List Nat) :=
  states.mapM h.stateToNumber

/-- hilbert_index.py:102-114. -/
def HIndex.numbersToStates (h : HIndex α) (numbers : List Nat) : Option (List (List α)) :=
  numbers.mapM h.numberToState

/-- hilbert_index.py:116-122. -/
def HIndex.allStates (h : HIndex α) : Option (List (List α)) :=
  (List.range h.nStates).mapM h.numberToState

end Verif.HilbertIndex

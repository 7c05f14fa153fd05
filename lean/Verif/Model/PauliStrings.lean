import Mathlib.Algebra.Ring.Defs
import Mathlib.Data.List.FinRange
import Verif.Model.DiscreteHilbert

/-! Model of netket/operator/_pauli_strings.py. Weights live in a commutative ring `K` with an element
`im` (the imaginary unit `1j`); `big z` is the test `abs(z) > cutoff`, `realish z` the test
`np.allclose(z.imag, 0.0)`. Qubit values are integers (floats in the code). The preallocated output
arrays are represented by lists: entries are written at consecutive positions. -/

namespace Verif.Pauli
open Verif.Hilbert

variable {K : Type} [CommRing K]

/-- the constants and tests used by the class (netket/operator/_pauli_strings.py:30-60, 193-215). -/
structure Scalars (K : Type) where
  im : K
  big : K → Bool
  realish : K → Bool

/-- characters of the class `[XYZI]` of the regular expression on line 67. -/
def isPauliChar (c : Char) : Bool := c == 'X' || c == 'Y' || c == 'Z' || c == 'I'

/-- _pauli_strings.py:67-68, `re.compile(r"^[XYZI]+$").search`: one or more Pauli characters; `$` also
    matches before a final newline. -/
def validMatch (s : List Char) : Bool :=
  (!s.isEmpty && s.all isPauliChar)
    || (s.getLast? == some '\n' && !s.dropLast.isEmpty && s.dropLast.all isPauliChar)

/-- one stored product: `(b_weights, b_z_check)`, line 124. -/
structure Stored (K : Type) (N : Nat) where
  weight : K
  zCheck : List (Fin N)

/-- _pauli_strings.py:91-92 `find_char`. -/
def findChar {N : Nat} (s : Fin N → Char) (ch : Char) : List (Fin N) :=
  (List.finRange N).filter fun i => s i = ch

/-- _pauli_strings.py:94-100 `append` on the insertion-ordered dictionary `acting`. -/
def append {N : Nat} (key : List (Fin N)) (k : Stored K N) :
    List (List (Fin N) × List (Stored K N)) → List (List (Fin N) × List (Stored K N))
  | [] => [(key, [k])]
  | (key', vs) :: rest =>
    if key' = key then (key', vs ++ [k]) :: rest else (key', vs) :: append key k rest

/-- _pauli_strings.py:105-124, body of the loop over the strings. -/
def addString {N : Nat} (sc : Scalars K) (acting : List (List (Fin N) × List (Stored K N)))
    (s : Fin N → Char) (w : K) : List (List (Fin N) × List (Stored K N)) :=
  let x := findChar s 'X'
  let y := findChar s 'Y'
  let z := findChar s 'Z'
  append (x ++ y) ⟨if y = [] then w else w * (-sc.im) ^ y.length, y ++ z⟩ acting

/-- the fields used by the kernel: `_sites`, `_n_op`, `_weights`, `_z_check` (lines 126-161, the padded
    rectangular arrays are represented by the lists they contain), `_is_hermitian`. -/
structure PauliOp (K : Type) where
  n : Nat
  groups : List (List (Fin n) × List (Stored K n))
  isHerm : Bool

/-- characters of a string of length `n` by position
(netket/operator/_pauli_strings.py:91-92, 126-161). -/
def charAt (n : Nat) (s : List Char) (i : Fin n) : Char := s.getD i ' '

/-- _pauli_strings.py:30-162, constructor (`cutoff >= 0` is a scalar). -/
def mk (sc : Scalars K) (operators : List (List Char)) (weights : List K) : Except Err (PauliOp K) :=
  match operators with
  | [] => .error .valueError
  | o :: os =>
    if weights.length ≠ (o :: os).length then .error .valueError
    else if !(o :: os).all (fun s => s.length == o.length) then .error .valueError
    else if !(o :: os).all validMatch then .error .valueError
    else .ok
      { n := o.length
        groups := ((o :: os).zip weights).foldl
          (fun acting p => addString sc acting (charAt o.length p.1) p.2) []
        isHerm := weights.all sc.realish }

/-- lines 207-213: `mel += weights[i, j] * (-1.0) ** n_z`. -/
def groupMel {N : Nat} (x : Fin N → ℤ) (vs : List (Stored K N)) : K :=
  vs.foldl (fun mel v => mel + v.weight * (-1) ^ (v.zCheck.filter fun s => x s = 1).length) 0

/-- lines 216-218: flip the listed sites of a copy of `x`. -/
def flipSites {N : Nat} (x : Fin N → ℤ) (sites : List (Fin N)) : Fin N → ℤ :=
  sites.foldl (fun y s => Function.update y s (1 - y s)) x

/-- _pauli_strings.py:203-220, one row. -/
def rowConn {N : Nat} (sc : Scalars K) (groups : List (List (Fin N) × List (Stored K N)))
    (x : Fin N → ℤ) : List ((Fin N → ℤ) × K) :=
  groups.filterMap fun g =>
    if sc.big (groupMel x g.2) then some (flipSites x g.1, groupMel x g.2) else none

/-- `max_conn_size`, lines 174-178. -/
def maxConn (op : PauliOp K) : Nat := op.groups.length

/-- lines 198-226 with `pad = False`: all rows and `sections`. -/
def flattened (sc : Scalars K) (op : PauliOp K) (xs : List (Fin op.n → ℤ)) :
    List ((Fin op.n → ℤ) × K) × List Nat :=
  xs.foldl (fun out x =>
    let r := out.1 ++ rowConn sc op.groups x
    (r, out.2 ++ [r.length])) ([], [])

/-- lines 198-226 with `pad = True`: rows are filled up to `max_conn` with the zeros of the buffers. -/
def flattenedPad (sc : Scalars K) (op : PauliOp K) (xs : List (Fin op.n → ℤ)) :
    List ((Fin op.n → ℤ) × K) × List Nat :=
  xs.foldl (fun out x =>
    let row := rowConn sc op.groups x
    let r := out.1 ++ row ++ List.replicate (maxConn op - row.length) (fun _ => 0, 0)
    (r, out.2 ++ [r.length])) ([], [])

end Verif.Pauli

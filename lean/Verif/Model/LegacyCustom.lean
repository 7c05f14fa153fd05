import Verif.Model.CustomRule
import Verif.Model.LegacySampler

/-! Model of `netket/legacy/sampler/numpy/custom_kernel.py`.

Matrices are real (only `mels[..].real` is read, 77 and 80; the imaginary parts are checked in 37) and `np.allclose` is equality, as in
`Model/CustomRule.lean`. The arrays of weights live in a heap, because `np.asarray` does not copy an array of floats. The uniform numbers drawn by
one call are a stream `s 0, s 1, ...`. What `np.empty` contains is arbitrary: the buffers of a new kernel are arguments. -/

namespace Verif.LegacyCustom

open Verif.Hilbert (Err)
open Verif.LocalOp
open Verif.Custom (checkMat filteredFlat sectionsOf chooseAll)
open Verif.Legacy (Heap)

section
variable {R : Type} [Field R] [LinearOrder R] {α : Type} [LinearOrder α] {N : Nat}

/-- the argument `move_weights` (custom_kernel.py:7): not given, a list (or an array of another type, which `np.asarray` converts into a new one), or
    an array of `float64` at an address. -/
inductive Weights (R : Type)
  | default
  | list (w : List R)
  | array (address : Nat)

/-- attributes of a `_CustomKernel` (custom_kernel.py:9-33): the address of `_move_weights`, `_move_cumulative`, and the buffers `_rand_op_n` and
    `_sections`. `_get_conn` is the method of the operator. -/
structure Kernel (R : Type) where
  weights : Nat
  cumulative : List R
  randOp : List Nat
  sections : List Nat

/-- custom_kernel.py:16-19: the array `_move_weights` before the checks. -/
def placeWeights (nOps : Nat) (h : Heap R) : Weights R → Nat × Heap R
  | .default => (h.next, { get := fun b => if b = h.next then List.replicate nOps 1 else h.get b, next := h.next + 1 })
  | .list w => (h.next, { get := fun b => if b = h.next then w else h.get b, next := h.next + 1 })
  | .array a => (a, h)

/-- custom_kernel.py:24-27: shape and sign of the weights (`min` of an empty array is a ValueError). -/
def weightsOk (nOps : Nat) (w : List R) : Bool :=
  decide (w.length = nOps) && !w.isEmpty && w.all fun x => decide (0 ≤ x)

/-- custom_kernel.py:7-33 `__init__`: the weights are divided by their sum in place (30). `randOp` and `sections` are the contents of the two
    arrays of one element (9-10). -/
def init (op : LOp R α N) (arg : Weights R) (randOp sections : Nat) (h : Heap R) : Except Err (Kernel R) × Heap R :=
  let p := placeWeights op.terms.length h arg
  if op.terms.all fun t => checkMat t.mat then
    if weightsOk op.terms.length (p.2.get p.1) then
      let w := (p.2.get p.1).map fun x => x / (p.2.get p.1).sum
      (.ok { weights := p.1, cumulative := Verif.AutoReg.cumsum w, randOp := [randOp], sections := [sections] }, p.2.set p.1 w)
    else (.error .valueError, p.2)
  else (.error .assertionError, p.2)

/-- custom_kernel.py:65-67: the loop writing `out[i]`, from position `i` on. -/
def fillOps (cumulative : List R) (s : Nat → R) : Nat → List Nat → List Nat
  | _, [] => []
  | i, _ :: out => Verif.HilbertIndex.searchsorted cumulative (s i) :: fillOps cumulative s (i + 1) out

/-- custom_kernel.py:59-68 `_pick_random_and_init`: both buffers are replaced if the first one has another size. -/
def pickInit (n : Nat) (cumulative : List R) (out sections : List Nat) (s : Nat → R) : List Nat × List Nat :=
  let b := if out.length ≠ n then (List.replicate n 0, List.replicate n 0) else (out, sections)
  (fillOps cumulative s 0 b.1, b.2)

/-- _local_operator.py:1010-1130 `get_conn_filtered` called in custom_kernel.py:49-51: rows of connected elements and the new content of `sections`. -/
def getConn (hi : Fin N → List α) (op : LOp R α N) (xs : List (Fin N → α)) (sections filters : List Nat) :
    Except Err (List (List (R × (Fin N → α))) × List Nat) :=
  if filters.length = xs.length ∧ sections.length = xs.length then
    match filteredFlat hi op filters xs with
    | .error e => .error e
    | .ok rows => .ok (rows, sectionsOf 0 rows)
  else .error .assertionError

/-- custom_kernel.py:43-55 `transition` and 72-84 `_choose_and_return`: the first `n` numbers of the stream choose the operators, the next `n` the
    configurations. Returns the rows of `state_1`, `log_prob_corr`, and the kernel with its buffers. -/
def transition (hi : Fin N → List α) (op : LOp R α N) (k : Kernel R) (s : Nat → R) (xs : List (Fin N → α)) :
    Except Err (List (Option (Fin N → α)) × List R) × Kernel R :=
  let b := pickInit xs.length k.cumulative k.randOp k.sections s
  let k1 : Kernel R := { k with randOp := b.1, sections := b.2 }
  match getConn hi op xs b.2 b.1 with
  | .error e => (.error e, k1)
  | .ok r =>
    (.ok (chooseAll r.1.flatten 0 ((List.range xs.length).map fun i => s (xs.length + i)) r.2, List.replicate xs.length 0),
      { k1 with sections := r.2 })

/-- successive calls of `transition` (metropolis_hastings.py:106-109), each with its configurations and its random numbers. -/
def calls (hi : Fin N → List α) (op : LOp R α N) :
    Kernel R → List ((Nat → R) × List (Fin N → α)) → List (Except Err (List (Option (Fin N → α)) × List R))
  | _, [] => []
  | k, c :: cs => (transition hi op k c.1 c.2).1 :: calls hi op (transition hi op k c.1 c.2).2 cs

end

end Verif.LegacyCustom

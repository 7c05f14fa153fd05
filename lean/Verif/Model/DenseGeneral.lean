import Verif.Model.DiscreteHilbert
import Mathlib.Algebra.Ring.Defs

/-! Model of `Dense` and `DenseGeneral` (`netket/nn/linear.py`) with the array functions they use: `lax.dot_general`, `jnp.expand_dims` and
broadcast addition.  Numbers are exact; dtypes appear only in what the parameters are created with. -/

namespace Verif.Linear
open Verif.Hilbert (Err)

/-- an array: shape and entries (netket/nn/linear.py:75-95, 178-187). -/
structure Tensor (R : Type) where
  shape : List Nat
  at_ : List Nat → R

variable {R : Type} [CommRing R]

/-- all multi-indices of a shape, in row-major order (summation indices of `dot_general`, linear.py:125-130). -/
def tuples : List Nat → List (List Nat)
  | [] => [[]]
  | d :: ds => (List.range d).flatMap fun (i : Nat) => (tuples ds).map fun r => i :: r

/-- the multi-index of length `n` with the given values at the given axes (`lax.dot_general`, linear.py:125-130). -/
def assemble (n : Nat) (axes vals : List Nat) : List Nat := (List.range n).map fun (i : Nat) => vals.getD (axes.idxOf i) 0

/-- the axes not in a list, in order (netket/nn/linear.py:97-101). -/
def freeAxes (n : Nat) (axes : List Nat) : List Nat := (List.range n).filter fun i => !axes.contains i

/-- `lax.dot_general(lhs, rhs, ((lc, rc), (lb, rb)))` (linear.py:125-130): sum over the contracted axes; the axes of the result are the batch
    axes, the other axes of `lhs` and the other axes of `rhs`. -/
def dotGeneral (lhs rhs : Tensor R) (lc rc lb rb : List Nat) : Tensor R where
  shape := lb.map (fun i => lhs.shape.getD i 0) ++ (freeAxes lhs.shape.length (lb ++ lc)).map (fun i => lhs.shape.getD i 0) ++
    (freeAxes rhs.shape.length (rb ++ rc)).map (fun i => rhs.shape.getD i 0)
  at_ := fun idx =>
    let lf := freeAxes lhs.shape.length (lb ++ lc)
    let rf := freeAxes rhs.shape.length (rb ++ rc)
    let b := idx.take lb.length
    let f := (idx.drop lb.length).take lf.length
    let g := idx.drop (lb.length + lf.length)
    ((tuples (lc.map fun i => lhs.shape.getD i 0)).map fun k =>
      lhs.at_ (assemble lhs.shape.length (lb ++ lc ++ lf) (b ++ k ++ f)) *
      rhs.at_ (assemble rhs.shape.length (rb ++ rc ++ rf) (b ++ k ++ g))).sum

/-- `jnp.expand_dims(t, ax)` (linear.py:149). -/
def expandDims (t : Tensor R) (ax : Nat) : Except Err (Tensor R) :=
  if t.shape.length < ax then .error .valueError
  else .ok ⟨t.shape.insertIdx ax 1, fun idx => t.at_ (idx.eraseIdx ax)⟩

/-- the loop of linear.py:148-149. -/
def expandAll (t : Tensor R) : List Nat → Except Err (Tensor R)
  | [] => .ok t
  | ax :: r =>
    match expandDims t ax with
    | .error e => .error e
    | .ok t' => expandAll t' r

/-- shape of the sum of two arrays with as many axes each; `none` when they cannot be broadcast
(netket/nn/linear.py:148-153). -/
def broadcastShape : List Nat → List Nat → Option (List Nat)
  | [], [] => some []
  | a :: as, b :: bs =>
    if a = b ∨ b = 1 then (broadcastShape as bs).map fun r => a :: r
    else if a = 1 then (broadcastShape as bs).map fun r => b :: r
    else none
  | _, _ => none

/-- the index used for an operand: zero along axes of length one (netket/nn/linear.py:148-153). -/
def clampIdx (shape idx : List Nat) : List Nat := List.zipWith (fun d i => if d = 1 then 0 else i) shape idx

/-- `out + bias` (linear.py:151), for arrays with as many axes each. -/
def addBroadcast (s t : Tensor R) : Except Err (Tensor R) :=
  match broadcastShape s.shape t.shape with
  | none => .error .valueError
  | some sh => .ok ⟨sh, fun idx => s.at_ (clampIdx s.shape idx) + t.at_ (clampIdx t.shape idx)⟩

/-- linear.py:37-39: `_normalize_axes`. -/
def normalizeAxis (ndim : Nat) (ax : Int) : Int := if 0 ≤ ax then ax else ndim + ax

/-- linear.py:84-91: `batch_dims` must be the first axes, in any order. -/
def batchOk (batchDims : List Nat) : Bool :=
  batchDims.isEmpty || (batchDims.all (fun i => decide (i ≤ batchDims.foldl max 0)) &&
    (List.range (batchDims.foldl max 0 + 1)).all fun i => batchDims.contains i)

/-- linear.py:74-152: `DenseGeneral.__call__` with the entries of its parameters.  (Axes outside of the input are an IndexError, 119;
    repeated axes are refused by `dot_general`.) -/
def denseGeneral (features : List Nat) (axis : List Int) (batchDims : List Nat) (useBias : Bool) (kernel bias : List Nat → R) (x : Tensor R) :
    Except Err (Tensor R) :=
  if !batchOk batchDims then .error .valueError
  else
    let ndim := x.shape.length
    let ax := axis.map (normalizeAxis ndim)
    if !(ax.all (fun a => decide (0 ≤ a) && decide (a < (ndim : Int))) && batchDims.all fun b => decide (b < ndim)) then .error .indexError
    else
      let axn := ax.map Int.toNat
      if !decide ((batchDims ++ axn).Nodup) then .error .typeError
      else
        let batchShape := batchDims.map fun i => x.shape.getD i 0
        let kernelShape := axn.map (fun i => x.shape.getD i 0) ++ features
        let out := dotGeneral x ⟨batchShape ++ kernelShape, kernel⟩ axn (List.range' batchDims.length axn.length) batchDims
          (List.range batchDims.length)
        if useBias then
          match expandAll ⟨batchShape ++ features, bias⟩ (freeAxes ndim (axn ++ batchDims)) with
          | .error e => .error e
          | .ok b => addBroadcast out b
        else .ok out

/-- linear.py:177-202: `Dense.__call__`. -/
def dense (features : Nat) (useBias : Bool) (kernel : Nat → Nat → R) (bias : Nat → R) (x : Tensor R) : Except Err (Tensor R) :=
  match x.shape.getLast? with
  | none => .error .indexError
  | some n => .ok ⟨x.shape.dropLast ++ [features], fun idx =>
      ((List.range n).map fun (k : Nat) => x.at_ (idx.dropLast ++ [k]) * kernel k (idx.getLastD 0)).sum +
        if useBias then bias (idx.getLastD 0) else 0⟩

/-- dtypes of the parameters (netket/nn/linear.py:69, 93, 172, 185). -/
inductive Dtype
  | float32
  | float64
  | complex64
  | complex128
  deriving DecidableEq

/-- position of a multi-index in row-major order (netket/nn/linear.py:116, 144). -/
def ravel : List Nat → List Nat → Nat
  | d :: ds, i :: is => i * ds.prod + ravel ds is
  | _, _ => 0

/-- linear.py:103-116, 118-120: the initial kernel of `DenseGeneral`: one matrix (contracted × features) for each batch index, all drawn with
    the same key, concatenated and reshaped.  `self.param` is not given a dtype (120), so that the default of the wrapper is used (103);
    `init` is the initializer `kernel_init` for that key. -/
def initialKernel {V : Type} (init : Dtype → Nat → Nat → Nat → Nat → V) (_dtype : Dtype) (batchShape contractShape features : List Nat) :
    List Nat → V := fun idx =>
  let r := ravel (batchShape ++ contractShape ++ features) idx
  init .float64 contractShape.prod features.prod (r / features.prod % contractShape.prod) (r % features.prod)

/-- linear.py:188-191: the initial kernel of `Dense`. -/
def initialDenseKernel {V : Type} (init : Dtype → Nat → Nat → Nat → Nat → V) (dtype : Dtype) (n features : Nat) : Nat → Nat → V :=
  init dtype n features

end Verif.Linear

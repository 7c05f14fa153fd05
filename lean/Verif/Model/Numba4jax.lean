import Verif.Model.DiscreteHilbert

/-!
Calling numba functions from jax: netket/jax/numba4jax.py.

An array is its shape and its entries; dtypes, pointers and the layout of memory are left out, the entries of an array outside its shape are
never meaningful. A numba function receives the tuple of output and input arrays and changes them in place: it maps the contents of all these arrays to
their contents afterwards.
-/

namespace Verif.Numba4jax
open Verif.Hilbert (Err)

/-- an array (numba4jax.py:115-116: `np.empty(shape.shape, …)`, `np.asarray(arg)`). -/
structure Arr (K : Type) where
  shape : List Nat
  entry : List Nat → K

/-- what `abstract_eval_fn` returns (numba4jax.py:272-278, 286-291): one shape or a collection of shapes. -/
inductive Shapes where
  | one (s : List Nat)
  | many (l : List (List Nat))

/-- numba4jax.py:272-278: `abstract_eval_fn_always`. -/
def Shapes.always : Shapes → List (List Nat)
  | .one s => [s]
  | .many l => l

/-- what the returned function gives to its caller (numba4jax.py:287-291). -/
inductive Out (K : Type) where
  | one (a : Arr K)
  | many (l : List (Arr K))

/-- the arguments of `numba_to_jax` (numba4jax.py:257). -/
structure Fn (K : Type) where
  call : List (Arr K) → List (Arr K)
  shapes : List (List Nat) → Shapes

variable {K : Type}

/-- numba4jax.py:115: `np.empty` for all outputs; `g` is what the memory contains. -/
def buffers (g : Nat → List Nat → K) (l : List (List Nat)) : List (Arr K) := l.mapIdx fun i s => ⟨s, g i⟩

/-- numba4jax.py:112-117: `_np_evaluation_rule`, the evaluation outside of jit. -/
def npEval (f : Fn K) (g : Nat → List Nat → K) (args : List (Arr K)) : List (Arr K) :=
  let outs := (f.shapes (args.map (·.shape))).always
  (f.call (buffers g outs ++ args)).take outs.length

/-- numba4jax.py:168-218: the branches of `xla_custom_call_target`, which name one to four arrays; without a branch the tuple is undefined. -/
def named (n : Nat) : Bool := decide (n = 1) || decide (n = 2) || decide (n = 3) || decide (n = 4)

/-- where a call is executed (numba4jax.py:270, 299-305). -/
inductive Mode where
  | eager
  | cpu
  | gpu
deriving DecidableEq

/-- numba4jax.py:127-230: `_xla_translation_cpu`. -/
def xlaCpu (f : Fn K) (g : Nat → List Nat → K) (args : List (Arr K)) : Except Err (List (Arr K)) :=
  let outs := (f.shapes (args.map (·.shape))).always
  if named outs.length && named args.length then .ok ((f.call (buffers g outs ++ args)).take outs.length)
  else .error .unboundLocal

/-- `primitive.bind` (numba4jax.py:270, 299-305): `_np_evaluation_rule`, or one of the two translations (the one for the GPU raises, lines 233-254). -/
def bindPrim (f : Fn K) (mode : Mode) (g : Nat → List Nat → K) (args : List (Arr K)) : Except Err (List (Arr K)) :=
  match mode with
  | .eager => .ok (npEval f g args)
  | .cpu => xlaCpu f g args
  | .gpu => .error .runtimeError

/-- numba4jax.py:286-291: a single array is returned if one shape was declared without a collection. -/
def unpack (s : Shapes) (res : List (Arr K)) : Except Err (Out K) :=
  match s with
  | .one _ => match res with
    | [a] => .ok (.one a)
    | _ => .error .assertionError
  | .many _ => .ok (.many res)

/-- numba4jax.py:283-291: `_primitive_bind`, the function returned by `numba_to_jax`. -/
def primitiveBind (f : Fn K) (mode : Mode) (g : Nat → List Nat → K) (args : List (Arr K)) : Except Err (Out K) :=
  match bindPrim f mode g args with
  | .error e => .error e
  | .ok res => unpack (f.shapes (args.map (·.shape))) res

/-- numba4jax.py:310-333: `njit4jax(output_shapes)(fun)`: the declared shapes do not depend on the arguments. -/
def njit4jax (shapes : Shapes) (call : List (Arr K) → List (Arr K)) : Fn K := ⟨call, fun _ => shapes⟩

/-! ### vmap -/

/-- row `i` of an array (`jax.lax.map`, numba4jax.py:124; also `tuple(array)`). -/
def Arr.row (a : Arr K) (i : Nat) : Arr K := ⟨a.shape.tail, fun idx => a.entry (i :: idx)⟩

/-- the arrays stacked along a new first axis (`jax.lax.map`, numba4jax.py:124), with the shape `s` known from tracing. -/
def stack [Inhabited K] (s : List Nat) (l : List (Arr K)) : Arr K :=
  ⟨l.length :: s, fun idx => match idx with
    | [] => default
    | i :: r => match l[i]? with
      | none => default
      | some a => a.entry r⟩

/-- the size of the first axis (`jax.lax.map`, numba4jax.py:124). -/
def leading (a : Arr K) : Option Nat := a.shape.head?

/-- the number of steps of `jax.lax.map` (numba4jax.py:124): ValueError unless all arrays have a first axis of the same size. -/
def mapLength (args : List (Arr K)) : Except Err Nat :=
  match args.map leading with
  | some n :: rest => if rest.all (· = some n) then .ok n else .error .valueError
  | _ => .error .valueError

/-- the body of the loop for all rows (numba4jax.py:124). -/
def mapBody (f : Fn K) (g : Nat → Nat → List Nat → K) (args : List (Arr K)) (i : Nat) : Nat → Except Err (List (Out K))
  | 0 => .ok []
  | n + 1 =>
    match primitiveBind f .cpu (g i) (args.map (·.row i)) with
    | .error e => .error e
    | .ok o =>
      match mapBody f g args (i + 1) n with
      | .error e => .error e
      | .ok os => .ok (o :: os)

/-- the arrays of the collection (numba4jax.py:290). -/
def Out.arrays : Out K → List (Arr K)
  | .one a => [a]
  | .many l => l

/-- numba4jax.py:124: `tuple(jax.lax.map(…))`: for a collection the stacked outputs, for a single array the tuple of its rows. -/
def tupleOf [Inhabited K] (s : Shapes) (os : List (Out K)) : List (Arr K) :=
  match s with
  | .one sh => (List.range os.length).map (stack sh (os.flatMap Out.arrays)).row
  | .many l => l.mapIdx fun j sh => stack sh (os.filterMap fun o => o.arrays[j]?)

/-- numba4jax.py:120-124: `_naive_batching`: the axes of the arguments are not used, and are returned as the axes of the results. -/
def naiveBatching [Inhabited K] (f : Fn K) (g : Nat → Nat → List Nat → K) (args : List (Arr K)) (axes : List (Option Nat)) :
    Except Err (List (Arr K) × List (Option Nat)) :=
  match mapLength args with
  | .error e => .error e
  | .ok n =>
    -- the loop body is traced also if there are no rows
    let rowShapes := args.map (·.shape.tail)
    if named (f.shapes rowShapes).always.length && named args.length then
      match mapBody f g args 0 n with
      | .error e => .error e
      | .ok os => .ok (tupleOf (f.shapes rowShapes) os, axes)
    else .error .unboundLocal

/-- the size of axis `d` (jax.vmap, as used by numba4jax.py:296-298). -/
def axisSize (a : Arr K) (d : Nat) : Option Nat := a.shape[d]?

/-- the sizes of the mapped axes (jax.vmap, as used by numba4jax.py:296-298). -/
def mappedSizes : List (Arr K) → List (Option Nat) → List (Option Nat)
  | a :: args, some d :: axes => axisSize a d :: mappedSizes args axes
  | _ :: args, none :: axes => mappedSizes args axes
  | _, _ => []

/-- the batch size of `jax.vmap` (as used by numba4jax.py:296-298): ValueError unless there is a mapped axis and all have the same size. -/
def batchSize (args : List (Arr K)) (axes : List (Option Nat)) : Except Err Nat :=
  if axes.length ≠ args.length then .error .valueError
  else match mappedSizes args axes with
    | some n :: rest => if rest.all (· = some n) then .ok n else .error .valueError
    | _ => .error .valueError

/-- jax.vmap with `out_axes = 0` (as used by numba4jax.py:296-298): a result with axis `d` has it moved to the front, one without is repeated `n` times. -/
def toFront (n : Nat) (a : Arr K) : Option Nat → Except Err (Arr K)
  | none => .ok ⟨n :: a.shape, fun idx => a.entry idx.tail⟩
  | some d => match a.shape[d]? with
    | none => .error .valueError
    | some m => .ok ⟨m :: a.shape.eraseIdx d, fun idx => match idx with
      | [] => a.entry []
      | i :: r => a.entry (r.insertIdx d i)⟩

/-- `toFront` of all results (as used by numba4jax.py:296-298). -/
def allToFront (n : Nat) : List (Arr K) → List (Option Nat) → Except Err (List (Arr K))
  | a :: l, d :: axes => match toFront n a d with
    | .error e => .error e
    | .ok b => match allToFront n l axes with
      | .error e => .error e
      | .ok bs => .ok (b :: bs)
  | _, _ => .ok []

/-- the shape of an argument without its mapped axis, as `abstract_eval_fn` sees it (numba4jax.py:285). -/
def elemShape (a : Arr K) : Option Nat → List Nat
  | none => a.shape
  | some d => a.shape.eraseIdx d

/-- `jax.vmap(f, in_axes=axes)(*args)` of the function `f` returned by `numba_to_jax` without `batching_fn` (numba4jax.py:283-298). The results of the batching
    rule and their axes are combined one by one, with an AssertionError if there are not equally many (`safe_map` of jax). -/
def vmap [Inhabited K] (f : Fn K) (g : Nat → Nat → List Nat → K) (axes : List (Option Nat)) (args : List (Arr K)) : Except Err (Out K) :=
  match batchSize args axes with
  | .error e => .error e
  | .ok n =>
    match naiveBatching f g args axes with
    | .error e => .error e
    | .ok (res, outAxes) =>
      if res.length ≠ outAxes.length then .error .assertionError
      else
        match f.shapes (List.zipWith elemShape args axes) with
        | .one _ => match res, outAxes with
          | [a], [d] => match toFront n a d with
            | .error e => .error e
            | .ok b => .ok (.one b)
          | _, _ => .error .assertionError
        | .many _ => match allToFront n res outAxes with
          | .error e => .error e
          | .ok bs => .ok (.many bs)

end Verif.Numba4jax

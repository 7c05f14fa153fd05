import Mathlib.Analysis.Complex.Basic
import Mathlib.Algebra.Order.Floor.Defs
import Verif.Model.DiscreteHilbert
import Verif.Model.Keys

/-!
Arithmetic on trees, dtypes, composition and keys across processes: netket/jax/utils.py:76-231, 308-358.

The entries of arrays are complex numbers, without rounding and overflow. Arrays of `jax.numpy` functions of
two arguments have the same shape: broadcasting is not modelled. `mpi_bcast_jax` gives every process the value of
the root (netket/utils/mpi/primitives.py).
-/

namespace Verif.TreeOps

open Verif.Hilbert (Err)
open Verif.Keys (Key)

/-- dtypes (netket/jax/utils.py:104-159; `longdouble` and `clongdouble` exist in numpy only). -/
inductive DType where
  | bool | int8 | int16 | int32 | int64
  | float16 | bfloat16 | float32 | float64 | longdouble
  | complex64 | complex128 | clongdouble
  deriving DecidableEq, Repr

/-- `is_complex_dtype` (netket/jax/utils.py:104-108), `is_complex` (76-80), `np.issubdtype(typ,
np.complexfloating)` (netket/jax/utils.py:125). -/
def isComplexDtype : DType → Bool
  | .complex64 | .complex128 | .clongdouble => true
  | _ => false

/-- `is_real_dtype` (netket/jax/utils.py:111-115), `is_real` (83-87). -/
def isRealDtype : DType → Bool
  | .float16 | .bfloat16 | .float32 | .float64 | .longdouble => true
  | _ => false

/-- `dtype_real` (netket/jax/utils.py:119-133). -/
def dtypeReal (typ : DType) : Except Err DType :=
  if isComplexDtype typ then
    if typ = .complex64 then .ok .float32
    else if typ = .complex128 then .ok .float64
    else .error .typeError
  else .ok typ

/-- `dtype_complex` (netket/jax/utils.py:143-155). -/
def dtypeComplex (typ : DType) : Except Err DType :=
  if isComplexDtype typ then .ok typ
  else if typ = .float32 then .ok .complex64
  else if typ = .float64 then .ok .complex128
  else .error .typeError

/-- the loop of `maybe_promote_to_complex` (netket/jax/utils.py:165-169). -/
def promoteLoop (main : DType) : List DType → Except Err DType
  | [] => .ok main
  | t :: ts => if isComplexDtype t then dtypeComplex main else promoteLoop main ts

/-- `maybe_promote_to_complex(*types)` (netket/jax/utils.py:158-169); `types[0]` raises for no types. -/
def maybePromoteToComplex : List DType → Except Err DType
  | [] => .error .indexError
  | main :: ts => promoteLoop main (main :: ts)

/-- an array (netket/jax/utils.py:76-87: only `dtype` and the entries are used). -/
structure Arr where
  /-- shape -/
  shape : List Nat
  /-- dtype -/
  dtype : DType
  /-- entries in row-major order -/
  data : List ℂ

/-- pytrees with leaves in `α` (netket/jax/utils.py:22-27). -/
inductive Tree (α : Type) where
  /-- a leaf -/
  | leaf (a : α)
  /-- ordered children -/
  | node (children : List (Tree α))

/-- `tree_leaves` (netket/jax/utils.py:26). -/
def leaves {α : Type} : Tree α → List α
  | .leaf a => [a]
  | .node cs => go cs
where
  /-- children -/
  go : List (Tree α) → List α
    | [] => []
    | t :: ts => leaves t ++ go ts

/-- `tree_map(f, t)` (netket/jax/utils.py:25). -/
def treeMap {α β : Type} (f : α → β) : Tree α → Tree β
  | .leaf a => .leaf (f a)
  | .node cs => .node (go cs)
where
  /-- children -/
  go : List (Tree α) → List (Tree β)
    | [] => []
    | t :: ts => treeMap f t :: go ts

/-- `tree_multimap(f, a, b)` (netket/jax/utils.py:193, 211, 231): the structure is that of `a`; another
structure in `b` raises (an array combined with a container: TypeError of the function, otherwise
ValueError). -/
def treeMap2 {α β γ : Type} (f : α → β → γ) : Tree α → Tree β → Except Err (Tree γ)
  | .leaf a, .leaf b => .ok (.leaf (f a b))
  | .leaf _, .node _ => .error .typeError
  | .node _, .leaf _ => .error .valueError
  | .node cs, .node ds => (go cs ds).map .node
where
  /-- children -/
  go : List (Tree α) → List (Tree β) → Except Err (List (Tree γ))
    | [], [] => .ok []
    | c :: cs, d :: ds => do
      let x ← treeMap2 f c d
      let xs ← go cs ds
      pure (x :: xs)
    | _, _ => .error .valueError

/-- `tree_leaf_iscomplex` (netket/jax/utils.py:90-94). -/
def treeLeafIsComplex (t : Tree Arr) : Bool := (leaves (treeMap (fun x => isComplexDtype x.dtype) t)).any id

/-- `tree_leaf_isreal` (netket/jax/utils.py:97-101). -/
def treeLeafIsReal (t : Tree Arr) : Bool := (leaves (treeMap (fun x => isRealDtype x.dtype) t)).any id

/-- `tree_ishomogeneous` (netket/jax/utils.py:136-140). -/
def treeIsHomogeneous (t : Tree Arr) : Bool := !(treeLeafIsReal t && treeLeafIsComplex t)

/-- one leaf of `tree_conj` (netket/jax/utils.py:178). -/
noncomputable def conjLeaf (x : Arr) : Arr :=
  if isComplexDtype x.dtype then { x with data := x.data.map (starRingEnd ℂ) } else x

/-- `tree_conj` (netket/jax/utils.py:172-178). -/
noncomputable def treeConj (t : Tree Arr) : Tree Arr := treeMap conjLeaf t

/-- entries of `jax.numpy.multiply(a, b)` for arrays of one shape (netket/jax/utils.py:193). -/
noncomputable def mulLeaf (a b : Arr) : List ℂ := List.zipWith (· * ·) a.data b.data

/-- `tree_reduce(jax.numpy.add, t)` without a starting value (netket/jax/utils.py:191-192):
`functools.reduce` raises TypeError for no leaves. -/
noncomputable def reduceAdd : List ℂ → Except Err ℂ
  | [] => .error .typeError
  | x :: xs => .ok (xs.foldl (· + ·) x)

/-- `tree_dot(a, b)` (netket/jax/utils.py:181-194). -/
noncomputable def treeDot (a b : Tree Arr) : Except Err ℂ := do
  let p ← treeMap2 mulLeaf a b
  reduceAdd (leaves (treeMap List.sum p))

/-- truncation of a real number towards zero, as an entry (netket/jax/utils.py:212-214: `astype` to integers). -/
noncomputable def truncRe (z : ℂ) : ℂ := if 0 ≤ z.re then ((⌊z.re⌋ : ℤ) : ℂ) else ((⌈z.re⌉ : ℤ) : ℂ)

/-- `x.astype(dtype)` of one entry (netket/jax/utils.py:212-214). -/
noncomputable def astype (dt : DType) (z : ℂ) : ℂ :=
  match dt with
  | .bool => if z = 0 then 0 else 1
  | .int8 | .int16 | .int32 | .int64 => truncRe z
  | _ => z

/-- one leaf of `tree_cast` (netket/jax/utils.py:212-214). -/
noncomputable def castLeaf (x target : Arr) : Arr :=
  { shape := x.shape
    dtype := target.dtype
    data := (if isComplexDtype target.dtype then x.data else x.data.map fun z => (z.re : ℂ)).map
      (astype target.dtype) }

/-- `tree_cast(x, target)` (netket/jax/utils.py:197-217). -/
noncomputable def treeCast (x target : Tree Arr) : Except Err (Tree Arr) := treeMap2 castLeaf x target

/-- entries and shape of one leaf of `tree_axpy` (netket/jax/utils.py:231). The dtype is left to jax: `dt` is its
promotion of two dtypes. -/
noncomputable def axpyLeaf (dt : DType → DType → DType) (a : ℂ) (x y : Arr) : Arr :=
  { shape := x.shape
    dtype := dt x.dtype y.dtype
    data := List.zipWith (fun u v => a * u + v) x.data y.data }

/-- `tree_axpy(a, x, y)` (netket/jax/utils.py:220-231). -/
noncomputable def treeAxpy (dt : DType → DType → DType) (a : ℂ) (x y : Tree Arr) : Except Err (Tree Arr) :=
  treeMap2 (axpyLeaf dt a) x y

/-- entries of `tree_ravel(t)[0]` (netket/jax/utils.py:35-54). -/
def ravel (t : Tree Arr) : List ℂ := (leaves t).flatMap Arr.data

/-- `compose(*funcs)` for functions of one type (netket/jax/utils.py:308-318): `functools.reduce` of
`_compose(f, g) = f ∘ g`; TypeError for no functions. -/
def compose {α : Type} : List (α → α) → Except Err (α → α)
  | [] => .error .typeError
  | f :: fs => .ok (fs.foldl (fun f g => fun x => f (g x)) f)

/-- the value every process of a communicator holds after `mpi_bcast_jax(x, root, comm)`: that of the process
with rank `root` of the communicator (netket/jax/utils.py:333, 356). `comm` lists the processes by rank; `x` is
the value of each process. Processes outside keep theirs. -/
def bcast {α : Type} (comm : List Nat) (root : Nat) (x : Nat → α) (p : Nat) : α :=
  if p ∈ comm then
    match comm[root]? with
    | some r => x r
    | none => x p
  else x p

/-- the argument `seed` of `PRNGKey` (netket/jax/utils.py:321-331). -/
inductive Seed (κ : Type) where
  /-- no seed -/
  | none
  /-- an integer -/
  | int (n : Int)
  /-- a key -/
  | key (k : κ)

/-- the key before the broadcast (netket/jax/utils.py:326-331): `mk` is `jax.random.PRNGKey`, `drawn` the number
`random_seed()` of this process. -/
def localKey {κ : Type} (mk : Int → κ) (drawn : Int) : Seed κ → κ
  | .none => mk drawn
  | .int n => mk n
  | .key k => k

/-- `PRNGKey(seed, root, comm)` called by all processes, the result of process `p`
(netket/jax/utils.py:321-335). -/
def prngKey {κ : Type} (mk : Int → κ) (drawn : Nat → Int) (seed : Nat → Seed κ) (root : Nat) (comm : List Nat)
    (p : Nat) : κ :=
  bcast comm root (fun q => localKey mk (drawn q) (seed q)) p

/-- `mpi_split(key, root, comm)` called by all `nNodes` processes, the result of process `p`
(netket/jax/utils.py:338-358): the argument `comm` is not used, the broadcast goes over all processes, `n_nodes`
and `rank` are those of all processes. -/
def mpiSplit (nNodes : Nat) (key : Nat → Key) (root : Nat) (_comm : List Nat) (p : Nat) : Key :=
  bcast (List.range nNodes) root (fun q => fun (i : Nat) => Key.split (key q) nNodes i) p p

end Verif.TreeOps

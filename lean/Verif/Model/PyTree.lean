import Mathlib.Analysis.Complex.Basic

/-!
Parameter trees and their flattening: netket/jax/utils.py:35-54, 68-73, 172-178, 234-266.

A pytree is an ordered tree whose leaves are arrays. Arrays carry their shape, whether their dtype is
complex, and their entries in row-major order. Only the distinction real/complex of dtypes is modelled.
Transposes of linear functions (`jax.vjp`, `jax.linear_transpose`) are given by the rules of jax for
`concatenate`, `ravel`, conversion to complex (transpose: real part), `real` (transpose: `t + 0i`) and
`imag` (transpose: `0 - it`).
-/

namespace Verif.PyTree

/-- an array (leaf of a pytree, netket/jax/utils.py:35-58). -/
structure Arr where
  /-- shape -/
  shape : List Nat
  /-- complex dtype -/
  cplx : Bool
  /-- entries, row-major -/
  data : List ℂ

/-- pytrees (netket/jax/utils.py:22-27: `jax.tree_util`). -/
inductive Tree where
  /-- a leaf -/
  | leaf (a : Arr)
  /-- tuples, lists, dictionaries: ordered children -/
  | node (children : List Tree)

/-- number of entries of an array (`x.size`, netket/jax/utils.py:73). -/
def Arr.size (a : Arr) : Nat := a.data.length

/-- `tree_flatten(pytree)[0]` (netket/jax/utils.py:47). -/
def Tree.leaves : Tree → List Arr
  | .leaf a => [a]
  | .node cs => leavesList cs
where
  /-- leaves of a list of trees -/
  leavesList : List Tree → List Arr
    | [] => []
    | t :: ts => t.leaves ++ leavesList ts

/-- `tree_size` (netket/jax/utils.py:68-73). -/
def treeSize (t : Tree) : Nat := (t.leaves.map Arr.size).sum

/-- `_ravel_list` (netket/jax/utils.py:53-54): concatenation of the raveled leaves. The dtype is complex if
one of them is. -/
def ravelList (l : List Arr) : Arr :=
  { shape := [(l.map Arr.size).sum], cplx := l.any Arr.cplx, data := l.flatMap Arr.data }

/-- transpose of `_ravel_list` at leaves `l` (`nkjax.vjp`, netket/jax/utils.py:48): pieces of the flat vector
with the shapes of the leaves; where a real leaf has been converted to complex, the real part. If no leaf
is complex the pieces keep the dtype of the flat vector (`vjp_rr`, netket/jax/_vjp.py:69-86). -/
noncomputable def unravelList (anyC : Bool) : List Arr → Arr → List Arr
  | [], _ => []
  | a :: t, flat =>
    let piece := flat.data.take a.size
    { shape := a.shape
      cplx := if anyC then a.cplx else flat.cplx
      data := if anyC && !a.cplx then piece.map fun z => (z.re : ℂ) else piece } ::
      unravelList anyC t { flat with data := flat.data.drop a.size }

/-- `tree_unflatten(treedef, leaves)` where the structure is that of `t` (netket/jax/utils.py:49). Returns the
tree and the unused leaves. -/
def unflatten : Tree → List Arr → Tree × List Arr
  | .leaf a, [] => (.leaf a, [])
  | .leaf _, b :: bs => (.leaf b, bs)
  | .node cs, bs =>
    let r := go cs bs
    (.node r.1, r.2)
where
  /-- the children in order -/
  go : List Tree → List Arr → List Tree × List Arr
    | [], bs => ([], bs)
    | t :: ts, bs =>
      let r := unflatten t bs
      let q := go ts r.2
      (r.1 :: q.1, q.2)

/-- `tree_ravel(pytree)[0]` (netket/jax/utils.py:35-50). -/
def treeRavel (t : Tree) : Arr := ravelList t.leaves

/-- `tree_ravel(pytree)[1]` (netket/jax/utils.py:49). -/
noncomputable def treeUnravel (t : Tree) (flat : Arr) : Tree :=
  (unflatten t (unravelList (t.leaves.any Arr.cplx) t.leaves flat)).1

/-- `_to_real` (netket/jax/utils.py:234-240): a complex leaf becomes the pair of its real and imaginary
parts. -/
noncomputable def toRealLeaf (a : Arr) : Tree :=
  if a.cplx then
    .node [.leaf { a with cplx := false, data := a.data.map fun z => (z.re : ℂ) },
           .leaf { a with cplx := false, data := a.data.map fun z => (z.im : ℂ) }]
  else .leaf a

/-- `_tree_to_real` (netket/jax/utils.py:243-244). -/
noncomputable def treeToReal : Tree → Tree
  | .leaf a => toRealLeaf a
  | .node cs => .node (go cs)
where
  /-- children -/
  go : List Tree → List Tree
    | [] => []
    | t :: ts => treeToReal t :: go ts

/-- transpose of `_to_real` at a leaf followed by `tree_conj` (netket/jax/utils.py:248-250): for a complex leaf
`conj((t₁ + 0i) + (0 - i t₂))`. -/
noncomputable def reassembleLeaf (a : Arr) (x : Tree) : Tree :=
  match a.cplx, x with
  | true, .node [.leaf r, .leaf i] =>
    .leaf { shape := a.shape, cplx := true,
            data := List.zipWith (fun u v => (starRingEnd ℂ) (u + (0 - Complex.I * v))) r.data i.data }
  | _, x => x

/-- `_tree_reassemble_complex(x, target)` (netket/jax/utils.py:248-250). -/
noncomputable def reassemble : Tree → Tree → Tree
  | .leaf a, x => reassembleLeaf a x
  | .node cs, .node xs => .node (go cs xs)
  | .node _, .leaf b => .leaf b
where
  /-- children -/
  go : List Tree → List Tree → List Tree
    | c :: cs, x :: xs => reassemble c x :: go cs xs
    | _, xs => xs

end Verif.PyTree

import Verif.Model.LocalOperator

/-! Model of the storage of `netket/operator/_local_operator.py`: the matrices `op._operators` are
references to numpy buffers that may be shared between operators and with the user's own arrays.
The precomputed tables (`_diag_mels`, `_mels`, `_x_prime`, `_n_conns`) are always private arrays
(`resize`, lines 79-90, allocates), so they are stored by value. -/

namespace Verif.LocalOp
open Verif.Hilbert

section
variable {K : Type} {α : Type} {N : Nat}

/-- a numpy array: dtype (a tag) and contents (netket/operator/_local_operator.py:509-571). -/
structure Cell (K : Type) where
  dtype : Nat
  mat : Mat K

/-- the numpy heap: contents of every address, addresses below `next` are allocated
(netket/operator/_local_operator.py:509-571). -/
structure Heap (K : Type) where
  cell : Nat → Cell K
  next : Nat

/-- write the contents of an existing buffer (in-place `+=`, `*=`)
(netket/operator/_local_operator.py:328-360, 394-414, 509-571). -/
def Heap.store (H : Heap K) (r : Nat) (m : Mat K) : Heap K :=
  { H with cell := Function.update H.cell r ⟨(H.cell r).dtype, m⟩ }

/-- a new buffer (netket/operator/_local_operator.py:571-683, 713-771). -/
def Heap.alloc (H : Heap K) (c : Cell K) : Heap K :=
  { cell := Function.update H.cell H.next c, next := H.next + 1 }

/-- `np.asarray(operator, dtype=...)` (_local_operator.py:514): the same buffer if the dtype agrees,
    a new one otherwise. Casting does not change values in the model. -/
def Heap.asarray (H : Heap K) (dt r : Nat) : Heap K × Nat :=
  if (H.cell r).dtype = dt then (H, r) else (H.alloc ⟨dt, (H.cell r).mat⟩, H.next)

/-- one entry of `op._operators` (by reference) with its tables
(netket/operator/_local_operator.py:476-507). -/
structure HTerm (K α : Type) (N : Nat) where
  ref : Nat
  acting : List (Fin N)
  diag : Nat → K
  conn : Nat → List (K × List α)

/-- a `LocalOperator` object (_local_operator.py:198-269, 470-495). -/
structure HOp (K α : Type) (N : Nat) where
  dtype : Nat
  constant : K
  terms : List (HTerm K α N)
  nonzeroDiag : Bool
  isHerm : Bool

/-- a term with the present contents of its buffer
(netket/operator/_local_operator.py:272-276, 497-507). -/
def HTerm.load (H : Heap K) (t : HTerm K α N) : Term K α N :=
  { mat := (H.cell t.ref).mat, acting := t.acting, diag := t.diag, conn := t.conn }

/-- the operator as the value model sees it, with the present contents of its buffers
(netket/operator/_local_operator.py:272-286, 497-507). -/
def HOp.load (H : Heap K) (op : HOp K α N) : LOp K α N :=
  { constant := op.constant, terms := op.terms.map (HTerm.load H), nonzeroDiag := op.nonzeroDiag,
    isHerm := op.isHerm }

/-- addresses of the matrices of an operator
(netket/operator/_local_operator.py:272-276, 504-507). -/
def HOp.refs (op : HOp K α N) : List Nat := op.terms.map HTerm.ref

end

section
variable {K : Type} [CommRing K] {α : Type} [LinearOrder α] [Inhabited α] {N : Nat}

/-- _local_operator.py:532-560: find an equal support; address and new contents of the buffer that is
    modified in place (542-543), and the term list with new tables (549-559). -/
def hMerge (cut : Cutoff K) (hi : Fin N → List α) (H : Heap K) (m : Mat K) (acting : List (Fin N)) :
    List (HTerm K α N) → Option (Nat × Mat K × List (HTerm K α N))
  | [] => none
  | t :: ts =>
    if t.acting = acting then
      let m' := addBlock (H.cell t.ref).mat m
      let n := appendMatrix cut hi m' t.acting
      some (t.ref, m', ⟨t.ref, t.acting, n.diag, n.conn⟩ :: ts)
    else (hMerge cut hi H m acting ts).map fun p => (p.1, p.2.1, t :: p.2.2)

/-- _local_operator.py:562-567, 674-680: flags after a change of the term list (`is_hermitian` reads
    the buffers). -/
def hRefresh [DecidableEq K] [Star K] (cut : Cutoff K) (H : Heap K) (dt : Nat) (c : K)
    (terms : List (HTerm K α N)) : HOp K α N :=
  { dtype := dt, constant := c, terms := terms,
    nonzeroDiag := hasNonzeroDiag cut (terms.map (HTerm.load H)) c,
    isHerm := (terms.map (HTerm.load H)).all fun t => matIsHerm t.mat }

/-- _local_operator.py:532-681 after the reordering; a new support stores the reference `r` itself
    (line 574, `self._operators.append(operator)`). -/
def hAddSorted [DecidableEq K] [Star K] (cut : Cutoff K) (hi : Fin N → List α) (H : Heap K)
    (op : HOp K α N) (r : Nat) (acting : List (Fin N)) : Except Err (Heap K × HOp K α N) :=
  match hMerge cut hi H (H.cell r).mat acting op.terms with
  | some (a, m', ts) => .ok (H.store a m', hRefresh cut (H.store a m') op.dtype op.constant ts)
  | none =>
    if (H.cell r).mat.n ≠ (dims hi acting).prod then .error .runtimeError
    else
      let n := appendMatrix cut hi (H.cell r).mat acting
      .ok (H, hRefresh cut H op.dtype op.constant (op.terms ++ [⟨r, acting, n.diag, n.conn⟩]))

/-- _local_operator.py:509-569 `_add_operator`, after `np.asarray`. Reordering returns the same array when
    the sites are sorted (158-159), a new one otherwise (fancy indexing, 187). -/
def hAddArray [DecidableEq K] [Star K] (cut : Cutoff K) (hi : Fin N → List α) (H : Heap K)
    (op : HOp K α N) (r : Nat) (acting : List (Fin N)) : Except Err (Heap K × HOp K α N) :=
  if allSmall cut (H.cell r).mat then .ok (H, op)
  else match reorder hi (H.cell r).mat acting with
    | .error e => .error e
    | .ok (m', acting') =>
      if acting.insertionSort (· ≤ ·) = acting then hAddSorted cut hi H op r acting'
      else hAddSorted cut hi (H.alloc ⟨(H.cell r).dtype, m'⟩) op H.next acting'

/-- _local_operator.py:509-569 `_add_operator`. -/
def hAddOperator [DecidableEq K] [Star K] (cut : Cutoff K) (hi : Fin N → List α) (H : Heap K)
    (op : HOp K α N) (r : Nat) (acting : List (Fin N)) : Except Err (Heap K × HOp K α N) :=
  if ¬ acting.Nodup then .error .valueError
  else hAddArray cut hi (H.asarray op.dtype r).1 op (H.asarray op.dtype r).2 acting

/-- _local_operator.py:267-269 (constructor, empty supports skipped) and 341-344 (`__iadd__`). -/
def hAddAll [DecidableEq K] [Star K] (cut : Cutoff K) (hi : Fin N → List α) :
    Heap K → HOp K α N → List (Nat × List (Fin N)) → Except Err (Heap K × HOp K α N)
  | H, op, [] => .ok (H, op)
  | H, op, (r, act) :: rest =>
    if act = [] then hAddAll cut hi H op rest
    else match hAddOperator cut hi H op r act with
      | .error e => .error e
      | .ok p => hAddAll cut hi p.1 p.2 rest

/-- _local_operator.py:198-269 constructor, the user's arrays given by reference
    (`np.asarray`, line 248, does not copy). -/
def hMk [DecidableEq K] [Star K] (cut : Cutoff K) (hi : Fin N → List α) (H : Heap K) (dt : Nat) (c : K)
    (ops : List (Nat × List (Fin N))) : Except Err (Heap K × HOp K α N) :=
  if (List.finRange N).all fun s => isSortedList (hi s) then
    hAddAll cut hi H ⟨dt, c, [], cut.ge c, true⟩ ops
  else .error .valueError

/-- allocate a list of new arrays, with their addresses
(netket/operator/_local_operator.py:713-771). -/
def Heap.allocAll (H : Heap K) : List (Cell K) → Heap K × List Nat
  | [] => (H, [])
  | c :: cs => (((H.alloc c).allocAll cs).1, H.next :: ((H.alloc c).allocAll cs).2)

/-- _local_operator.py:773-793 (`copy`), 795-806 (`transpose`), 810-819 (`conjugate`): new arrays computed
    from the matrices by `f`, then the constructor with dtype `dt` and constant `c`. -/
def hRebuild [DecidableEq K] [Star K] (cut : Cutoff K) (hi : Fin N → List α) (H : Heap K)
    (op : HOp K α N) (f : Mat K → Mat K) (dt : Nat) (c : K) : Except Err (Heap K × HOp K α N) :=
  let p := H.allocAll (op.terms.map fun t => ⟨(H.cell t.ref).dtype, f (H.cell t.ref).mat⟩)
  hMk cut hi p.1 dt c (p.2.zip (op.terms.map HTerm.acting))

/-- _local_operator.py:773-793 `copy(dtype=dt)`. -/
def hCopy [DecidableEq K] [Star K] (cut : Cutoff K) (hi : Fin N → List α) (H : Heap K)
    (op : HOp K α N) (dt : Nat) : Except Err (Heap K × HOp K α N) :=
  hRebuild cut hi H op id dt op.constant

/-- _local_operator.py:345-346. -/
def hAddConst (cut : Cutoff K) (H : Heap K) (op : HOp K α N) (c : K) : HOp K α N :=
  { op with constant := op.constant + c,
            nonzeroDiag := hasNonzeroDiag cut (op.terms.map (HTerm.load H)) (op.constant + c) }

/-- _local_operator.py:328-348 `__iadd__`: the arrays of `b` are passed by reference. -/
def hIadd [DecidableEq K] [Star K] (cut : Cutoff K) (hi : Fin N → List α) (H : Heap K)
    (a b : HOp K α N) : Except Err (Heap K × HOp K α N) :=
  match hAddAll cut hi H a (b.terms.map fun t => (t.ref, t.acting)) with
  | .error e => .error e
  | .ok p => .ok (p.1, hAddConst cut p.1 p.2 b.constant)

/-- _local_operator.py:320-323 `__add__`, `dt` the promoted dtype. -/
def hAdd [DecidableEq K] [Star K] (cut : Cutoff K) (hi : Fin N → List α) (H : Heap K)
    (a b : HOp K α N) (dt : Nat) : Except Err (Heap K × HOp K α N) :=
  match hCopy cut hi H a dt with
  | .error e => .error e
  | .ok p => hIadd cut hi p.1 p.2 b

/-- _local_operator.py:409-410: `for _op in self._operators: _op *= other`, in place. -/
def hScaleAll (z : K) : Heap K → List (HTerm K α N) → Heap K
  | H, [] => H
  | H, t :: ts =>
    hScaleAll z (H.store t.ref ⟨(H.cell t.ref).mat.n, fun i j => (H.cell t.ref).mat.f i j * z⟩) ts

/-- _local_operator.py:394-414 `__imul__` with a number. -/
def hImulScalar (cut : Cutoff K) (H : Heap K) (a : HOp K α N) (z : K) : Heap K × HOp K α N :=
  let ts := a.terms.map fun t => { t with diag := fun i => t.diag i * z,
                                          conn := fun i => (t.conn i).map fun p => (p.1 * z, p.2) }
  let H' := hScaleAll z H a.terms
  (H', { a with constant := a.constant * z, terms := ts,
                nonzeroDiag := hasNonzeroDiag cut (ts.map (HTerm.load H')) (a.constant * z) })

/-- _local_operator.py:374-392 `__mul__` with a number: copy, then scale the copy. -/
def hMulScalar [DecidableEq K] [Star K] (cut : Cutoff K) (hi : Fin N → List α) (H : Heap K)
    (a : HOp K α N) (z : K) (dt : Nat) : Except Err (Heap K × HOp K α N) :=
  match hCopy cut hi H a dt with
  | .error e => .error e
  | .ok p => .ok (hImulScalar cut p.1 p.2 z)

end
end Verif.LocalOp

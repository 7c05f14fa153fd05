import Mathlib.Algebra.BigOperators.Group.Finset.Basic
import Mathlib.Algebra.Ring.Defs
import Mathlib.Algebra.Star.Basic
import Mathlib.Data.Fintype.Basic
import Verif.Model.HilbertIndex
import Verif.Model.DiscreteHilbert
import Verif.Lemmas.Radix

/-! Model of `netket/operator/_local_operator.py` (class `LocalOperator`).

Conventions.
* A configuration of `N` sites is a function `Fin N → α` (the rows of the array `x`), local quantum
  numbers are an arbitrary linear order (floats without NaN). The Hilbert space enters only through
  `hilbert.states_at_index(i)`, the list `hi i`.
* Matrix elements live in an arbitrary commutative ring `K` (exact arithmetic, dtypes not modelled).
* The tests against `mel_cutoff` are two Boolean functions (`Cutoff`), so that every statement says
  exactly what it assumes about the cutoff.
* A matrix is its dimension and its entry function (arrays as functions of the indices).
* Storage of the arrays is value-like here; sharing of buffers is modelled in `Model/LocalOpHeap`. -/

namespace Verif.LocalOp

open Verif.HilbertIndex Verif.Hilbert

/-- The two tests against `mel_cutoff` (_local_operator.py:300-310): `gt z` is `np.abs(z) > cutoff`
    (lines 451, 458, 702, 826), `ge z` is `np.abs(z) >= cutoff` (lines 67-68, 259, and negated in 525). -/
structure Cutoff (K : Type) where
  gt : K → Bool
  ge : K → Bool

/-- A square matrix (`np.ndarray` of shape `(n, n)`); _local_operator.py:522-523 rejects anything that
    is not two-dimensional, and line 697 asserts that it is square. -/
structure Mat (K : Type) where
  n : Nat
  f : Nat → Nat → K

section
variable {K : Type} {α : Type} {N : Nat}

/-- one entry of `op._operators` with its row of the tables `_acting_on`, `_diag_mels`, `_mels`,
    `_x_prime` (and `_n_conns`, the length of the row): _local_operator.py:571-672. -/
structure Term (K α : Type) (N : Nat) where
  mat : Mat K
  acting : List (Fin N)
  diag : Nat → K
  conn : Nat → List (K × List α)

/-- _local_operator.py:198-269, 470-495: the fields of a `LocalOperator` that influence its results. -/
structure LOp (K α : Type) (N : Nat) where
  constant : K
  terms : List (Term K α N)
  nonzeroDiag : Bool
  isHerm : Bool

/-- dimensions of the local spaces of the given sites (`n_local_states_per_site`, lines 545-547, 584-586). -/
def dims (hi : Fin N → List α) (acting : List (Fin N)) : List Nat :=
  acting.map fun s => (hi s).length

/-- _local_operator.py:30-43 `_number_to_state`, on the reversed list of local states (the loop runs
    from the last site): `out[:] = states[:, 0]`, then `while ip > 0` overwrite with `ip % size`. -/
def numberToStateRev [Inhabited α] : List (List α) → Nat → List α
  | [], _ => []
  | ls :: rest, ip =>
    (if 0 < ip then ls.getD (ip % ls.length) default else ls.getD 0 default)
      :: numberToStateRev rest (ip / ls.length)

/-- _local_operator.py:30-43. The `getD` default stands for an IndexError, which cannot happen for the
    numbers below the dimension used by the callers. -/
def numberToState [Inhabited α] (states : List (List α)) (number : Nat) : List α :=
  (numberToStateRev states.reverse number).reverse

/-- _local_operator.py:683-711 `_append_matrix`: diagonal table and, per row, the off-diagonal
    entries with `abs > epsilon` together with the local states of the column. -/
def appendMatrix [Inhabited α] (cut : Cutoff K) (hi : Fin N → List α) (m : Mat K)
    (acting : List (Fin N)) : Term K α N :=
  { mat := m
    acting := acting
    diag := fun i => m.f i i
    conn := fun i => ((List.range m.n).filter fun j => i != j && cut.gt (m.f i j)).map fun j =>
      (m.f i j, numberToState (acting.map hi) j) }

/-- _local_operator.py:61-69 `has_nonzero_diagonal`. -/
def hasNonzeroDiag (cut : Cutoff K) (terms : List (Term K α N)) (c : K) : Bool :=
  (terms.any fun t => (List.range t.mat.n).any fun i => cut.ge (t.diag i)) || cut.ge c

/-- _local_operator.py:525-526: every entry is below the cutoff. -/
def allSmall (cut : Cutoff K) (m : Mat K) : Bool :=
  (List.range m.n).all fun i => (List.range m.n).all fun j => !cut.ge (m.f i j)

/-- _local_operator.py:172-181: `v = hi_subspace.all_states()` and
    `n_unsorted = hi_subspace.states_to_numbers(v[:, ids])`, entry `n`. `ds` are the local dimensions of
    `hi_subspace` in its own order. `hi_subspace` is a product of `Fock` spaces, whose numbering is the
    mixed-radix one (C01, C03); `searchsorted` of a too large quantum number is the local dimension. -/
def unsortedIndex (ds ids : List Nat) (n : Nat) : Nat :=
  Verif.Radix.enc ds (List.zipWith min (ids.map fun p => (Verif.Radix.dec ds n).getD p 0) ds)

/-- _local_operator.py:139-189 `_reorder_kronecker_product`. `hi_subspace` is built by
    `Fock(..) * hi_subspace`, so its dimensions are those of the *reversed* sorted sites (161-163).
    An index beyond the matrix raises IndexError. -/
def reorder (hi : Fin N → List α) (m : Mat K) (acting : List (Fin N)) :
    Except Err (Mat K × List (Fin N)) :=
  let sorted := acting.insertionSort (· ≤ ·)
  if sorted = acting then .ok (m, acting)
  else
    let ds := (dims hi sorted).reverse
    let ids := acting.map fun s => sorted.idxOf s
    if (List.range ds.prod).all fun n => unsortedIndex ds ids n < m.n then
      .ok (⟨ds.prod, fun i j => m.f (unsortedIndex ds ids i) (unsortedIndex ds ids j)⟩, sorted)
    else .error .indexError

end

section
variable {K : Type} [CommRing K] {α : Type} [LinearOrder α] [Inhabited α] {N : Nat}

/-- _local_operator.py:46-47 `is_hermitian` of one matrix; `np.allclose` is modelled by equality. -/
def matIsHerm [DecidableEq K] [Star K] (m : Mat K) : Bool :=
  (List.range m.n).all fun i => (List.range m.n).all fun j => m.f i j = star (m.f j i)

/-- _local_operator.py:541-543: `_opv = ops[i][:dim, :dim]; _opv += operator[:dim, :dim]`. -/
def addBlock (a b : Mat K) : Mat K :=
  ⟨a.n, fun i j => if i < min b.n a.n ∧ j < min b.n a.n then a.f i j + b.f i j else a.f i j⟩

/-- _local_operator.py:532-568: position of an equal support, in-place addition and new tables. -/
def mergeTerm (cut : Cutoff K) (hi : Fin N → List α) (m : Mat K) (acting : List (Fin N)) :
    List (Term K α N) → Option (List (Term K α N))
  | [] => none
  | t :: ts =>
    if t.acting = acting then some (appendMatrix cut hi (addBlock t.mat m) t.acting :: ts)
    else (mergeTerm cut hi m acting ts).map (t :: ·)

/-- _local_operator.py:562-567, 674-680: recompute the flags after the term list changed. -/
def refresh [DecidableEq K] [Star K] (cut : Cutoff K) (c : K) (terms : List (Term K α N)) :
    LOp K α N :=
  { constant := c, terms := terms, nonzeroDiag := hasNonzeroDiag cut terms c,
    isHerm := terms.all fun t => matIsHerm t.mat }

/-- _local_operator.py:571-681 `__add_new_operator__` (shape check 588-599, then tables and flags),
    and 532-569, the second half of `_add_operator`, after the reordering. -/
def addSorted [DecidableEq K] [Star K] (cut : Cutoff K) (hi : Fin N → List α) (op : LOp K α N)
    (m : Mat K) (acting : List (Fin N)) : Except Err (LOp K α N) :=
  match mergeTerm cut hi m acting op.terms with
  | some ts => .ok (refresh cut op.constant ts)
  | none =>
    if m.n ≠ (dims hi acting).prod then .error .runtimeError
    else .ok (refresh cut op.constant (op.terms ++ [appendMatrix cut hi m acting]))

/-- _local_operator.py:509-569 `_add_operator`. Sites are `Fin N`: the range check of lines 519-520
    (and 606-610 for negative ones) is expressed by the type. -/
def addOperator [DecidableEq K] [Star K] (cut : Cutoff K) (hi : Fin N → List α) (op : LOp K α N)
    (m : Mat K) (acting : List (Fin N)) : Except Err (LOp K α N) :=
  if ¬ acting.Nodup then .error .valueError
  else if allSmall cut m then .ok op
  else match reorder hi m acting with
    | .error e => .error e
    | .ok (m', acting') => addSorted cut hi op m' acting'

/-- _local_operator.py:267-269: `for op, act in zip(operators, acting_on): if len(act) > 0: add`. -/
def addAll [DecidableEq K] [Star K] (cut : Cutoff K) (hi : Fin N → List α) :
    LOp K α N → List (Mat K × List (Fin N)) → Except Err (LOp K α N)
  | op, [] => .ok op
  | op, (m, act) :: rest =>
    if act = [] then addAll cut hi op rest
    else match addOperator cut hi op m act with
      | .error e => .error e
      | .ok op' => addAll cut hi op' rest

/-- _local_operator.py:470-495 and 257-265: the operator before any local term is added. -/
def zeroOp (cut : Cutoff K) (c : K) : LOp K α N :=
  { constant := c, terms := [], nonzeroDiag := cut.ge c, isHerm := true }

/-- _local_operator.py:71-76 `_is_sorted`. -/
def isSortedList (l : List α) : Bool := (l.zip l.tail).all fun p => p.1 ≤ p.2

/-- _local_operator.py:198-269 constructor. -/
def mk [DecidableEq K] [Star K] (cut : Cutoff K) (hi : Fin N → List α) (c : K)
    (ops : List (Mat K × List (Fin N))) : Except Err (LOp K α N) :=
  if (List.finRange N).all fun s => isSortedList (hi s) then addAll cut hi (zeroOp cut c) ops
  else .error .valueError

/-- `_operators`, `_acting_on_list()` (lines 497-507). -/
def opList (op : LOp K α N) : List (Mat K × List (Fin N)) := op.terms.map fun t => (t.mat, t.acting)

/-- _local_operator.py:773-793 `copy`. -/
def copy [DecidableEq K] [Star K] (cut : Cutoff K) (hi : Fin N → List α) (op : LOp K α N) :
    Except Err (LOp K α N) := mk cut hi op.constant (opList op)

/-- _local_operator.py:341-347, the loop of `__iadd__` (support is never empty). -/
def iaddTerms [DecidableEq K] [Star K] (cut : Cutoff K) (hi : Fin N → List α) :
    LOp K α N → List (Mat K × List (Fin N)) → Except Err (LOp K α N)
  | op, [] => .ok op
  | op, (m, act) :: rest => match addOperator cut hi op m act with
    | .error e => .error e
    | .ok op' => iaddTerms cut hi op' rest

/-- _local_operator.py:345-346, 355-356: change the constant and recompute `_nonzero_diagonal`. -/
def addConst (cut : Cutoff K) (op : LOp K α N) (c : K) : LOp K α N :=
  { op with constant := op.constant + c,
            nonzeroDiag := hasNonzeroDiag cut op.terms (op.constant + c) }

/-- _local_operator.py:328-348 `__iadd__` with a `LocalOperator` on the same space. -/
def iadd [DecidableEq K] [Star K] (cut : Cutoff K) (hi : Fin N → List α) (a b : LOp K α N) :
    Except Err (LOp K α N) := do
  let a' ← iaddTerms cut hi a (opList b)
  pure (addConst cut a' b.constant)

/-- _local_operator.py:320-323 `__add__`. -/
def add [DecidableEq K] [Star K] (cut : Cutoff K) (hi : Fin N → List α) (a b : LOp K α N) :
    Except Err (LOp K α N) := do
  let a' ← copy cut hi a
  iadd cut hi a' b

/-- _local_operator.py:320-323 and 349-357: `A + c`. -/
def addScalar [DecidableEq K] [Star K] (cut : Cutoff K) (hi : Fin N → List α) (a : LOp K α N) (c : K) :
    Except Err (LOp K α N) := do
  let a' ← copy cut hi a
  pure (addConst cut a' c)

/-- _local_operator.py:383-390, 405-412: `_diag_mels *= z; _mels *= z; _operators *= z`. -/
def scaleTerm (z : K) (t : Term K α N) : Term K α N :=
  { mat := ⟨t.mat.n, fun i j => t.mat.f i j * z⟩
    acting := t.acting
    diag := fun i => t.diag i * z
    conn := fun i => (t.conn i).map fun p => (p.1 * z, p.2) }

/-- _local_operator.py:394-414 `__imul__` with a number (`_is_hermitian` is left as it was). -/
def imulScalar (cut : Cutoff K) (a : LOp K α N) (z : K) : LOp K α N :=
  { constant := a.constant * z
    terms := a.terms.map (scaleTerm z)
    nonzeroDiag := hasNonzeroDiag cut (a.terms.map (scaleTerm z)) (a.constant * z)
    isHerm := a.isHerm }

/-- _local_operator.py:374-392, 467-468 `__mul__`/`__rmul__` with a number. -/
def mulScalar [DecidableEq K] [Star K] (cut : Cutoff K) (hi : Fin N → List α) (a : LOp K α N) (z : K) :
    Except Err (LOp K α N) := do
  let a' ← copy cut hi a
  pure (imulScalar cut a' z)

/-- _local_operator.py:362-372: `A - B = A + (-1 * B)`. -/
def sub [DecidableEq K] [Star K] (cut : Cutoff K) (hi : Fin N → List α) (a b : LOp K α N) :
    Except Err (LOp K α N) := do
  let b' ← mulScalar cut hi b (-1)
  add cut hi a b'

/-- `np.matmul` of two square matrices (netket/operator/_local_operator.py:725, 766). -/
def matmul (a b : Mat K) : Mat K :=
  ⟨a.n, fun i j => ∑ k ∈ Finset.range a.n, a.f i k * b.f k j⟩

/-- `np.kron` of two square matrices (netket/operator/_local_operator.py:729, 744-758). -/
def kron (a b : Mat K) : Mat K :=
  ⟨a.n * b.n, fun i j => a.f (i / b.n) (j / b.n) * b.f (i % b.n) (j % b.n)⟩

/-- `np.eye` (netket/operator/_local_operator.py:741, 752). -/
def eye (n : Nat) : Mat K := ⟨n, fun i j => if i = j then 1 else 0⟩

/-- _local_operator.py:737-746 and 748-757: extend an operator to the missing sites of the other
    support by identities, in front if the site is below the smallest site, else at the end. -/
def extend (hi : Fin N → List α) (amin : Nat) (base : List (Fin N)) :
    List (Fin N) → Mat K × List (Fin N) → Mat K × List (Fin N)
  | [], p => p
  | site :: rest, p =>
    if site ∈ base then extend hi amin base rest p
    else if site.val < amin then
      extend hi amin base rest (kron (eye (hi site).length) p.1, site :: p.2)
    else extend hi amin base rest (kron p.1 (eye (hi site).length), p.2 ++ [site])

/-- smallest site number of a support (`min(act)`, lines 737 and 748). -/
def minSite (act : List (Fin N)) : Nat := (act.map Fin.val).foldl min N

/-- _local_operator.py:713-771, body of the loop of `_multiply_operator`:
    product of the stored term `(mi, acti)` with `(m, act)`. -/
def multiplyPair (hi : Fin N → List α) (mi : Mat K) (acti : List (Fin N)) (m : Mat K)
    (act : List (Fin N)) : Except Err (Mat K × List (Fin N)) :=
  if act = acti then .ok (matmul mi m, acti)
  else if acti.all (fun s => !decide (s ∈ act)) then .ok (kron mi m, acti ++ act)
  else
    let p := extend hi (minSite act) act acti (m, act)
    let q := extend hi (minSite acti) acti act (mi, acti)
    match reorder hi p.1 p.2, reorder hi q.1 q.2 with
    | .ok (mp, ap), .ok (mq, aq) => if ap = aq then .ok (matmul mq mp, aq) else .error .valueError
    | .error e, _ => .error e
    | _, .error e => .error e

/-- _local_operator.py:713-771 `_multiply_operator`. -/
def multiplyOperator (hi : Fin N → List α) (self : LOp K α N) (m : Mat K) (act : List (Fin N)) :
    Except Err (List (Mat K × List (Fin N))) :=
  self.terms.mapM fun t => multiplyPair hi t.mat t.acting m act

/-- _local_operator.py:441-447: all pairwise products (outer loop over `other`). -/
def allProducts (hi : Fin N → List α) (self : LOp K α N) :
    List (Mat K × List (Fin N)) → Except Err (List (Mat K × List (Fin N)))
  | [] => .ok []
  | (m, act) :: rest => do
    let here ← multiplyOperator hi self m act
    let there ← allProducts hi self rest
    pure (here ++ there)

/-- _local_operator.py:450-456: `self *= other._constant; self += prod; self._constant = 0.0`, or
    `self = prod` when the constant of `other` is below the cutoff. -/
def productStage1 [DecidableEq K] [Star K] (cut : Cutoff K) (hi : Fin N → List α)
    (self other prod : LOp K α N) : Except Err (LOp K α N) :=
  if cut.gt other.constant then
    match iadd cut hi (imulScalar cut self other.constant) prod with
    | .error e => .error e
    | .ok s => .ok { s with constant := 0 }
  else .ok prod

/-- _local_operator.py:458-459: `self += other * self_constant`. -/
def productStage2 [DecidableEq K] [Star K] (cut : Cutoff K) (hi : Fin N → List α)
    (selfConstant : K) (other s : LOp K α N) : Except Err (LOp K α N) :=
  if cut.gt selfConstant then
    match mulScalar cut hi other selfConstant with
    | .error e => .error e
    | .ok o => iadd cut hi s o
  else .ok s

/-- _local_operator.py:449-463, after `prod` is computed; `self` and `other` are different objects.
    `_nonzero_diagonal` is recomputed at the end (461). -/
def combineProduct [DecidableEq K] [Star K] (cut : Cutoff K) (hi : Fin N → List α)
    (self other prod : LOp K α N) : Except Err (LOp K α N) := do
  let s ← productStage1 cut hi self other prod
  let s' ← productStage2 cut hi self.constant other s
  pure { s' with nonzeroDiag := hasNonzeroDiag cut s'.terms s'.constant }

/-- _local_operator.py:437-463 `_concrete_imatmul_` (different objects). -/
def imatmul [DecidableEq K] [Star K] (cut : Cutoff K) (hi : Fin N → List α) (self other : LOp K α N) :
    Except Err (LOp K α N) := do
  let tot ← allProducts hi self (opList other)
  let prod ← mk cut hi 0 tot
  combineProduct cut hi self other prod

/-- _local_operator.py:437-463 `_concrete_imatmul_` when `other is self`: `self *= other._constant` also
    scales `other`, and `other * self_constant` (458-459) is taken from the already modified object.
    `prod` was computed before the mutations. -/
def imatmulSelf [DecidableEq K] [Star K] (cut : Cutoff K) (hi : Fin N → List α) (a : LOp K α N) :
    Except Err (LOp K α N) := do
  let tot ← allProducts hi a (opList a)
  let prod ← mk cut hi 0 tot
  let s ← productStage1 cut hi a a prod
  let s' ← productStage2 cut hi a.constant (if cut.gt a.constant then s else a) s
  pure { s' with nonzeroDiag := hasNonzeroDiag cut s'.terms s'.constant }

/-- _local_operator.py:430-435 `_concrete_matmul_`: `op = self.copy(); op @= other`. -/
def opMatmul [DecidableEq K] [Star K] (cut : Cutoff K) (hi : Fin N → List α) (a b : LOp K α N) :
    Except Err (LOp K α N) := do
  let a' ← copy cut hi a
  imatmul cut hi a' b

/-- _local_operator.py:795-806 `transpose(concrete=True)`. -/
def transposeOp [DecidableEq K] [Star K] (cut : Cutoff K) (hi : Fin N → List α) (a : LOp K α N) :
    Except Err (LOp K α N) :=
  mk cut hi a.constant (a.terms.map fun t => (⟨t.mat.n, fun i j => t.mat.f j i⟩, t.acting))

/-- _local_operator.py:810-819 `conjugate`. -/
def conjOp [DecidableEq K] [Star K] (cut : Cutoff K) (hi : Fin N → List α) (a : LOp K α N) :
    Except Err (LOp K α N) :=
  mk cut hi (star a.constant)
    (a.terms.map fun t => (⟨t.mat.n, fun i j => star (t.mat.f i j)⟩, t.acting))

/-! ### The numba kernel -/

/-- _local_operator.py:942-953: `xs_n += searchsorted(states[size-k-1], x[size-k-1]) * basis[k]`, with
    `basis[s] = ba; ba *= size` of lines 635-638; the list is the reversed support. -/
def xsLoop (hi : Fin N → List α) (x : Fin N → α) : List (Fin N) → Nat → Nat → Nat
  | [], _, acc => acc
  | s :: rest, ba, acc =>
    xsLoop hi x rest (ba * (hi s).length) (acc + searchsorted (hi s) (x s) * ba)

/-- _local_operator.py:942-953, `xs_n[b, i]`. -/
def xsN (hi : Fin N → List α) (acting : List (Fin N)) (x : Fin N → α) : Nat :=
  xsLoop hi x acting.reverse 1 0

/-- _local_operator.py:935-955: `conn_b`. -/
def connCount (hi : Fin N → List α) (op : LOp K α N) (x : Fin N → α) : Nat :=
  (if op.nonzeroDiag then 1 else 0)
    + (op.terms.map fun t => (t.conn (xsN hi t.acting x)).length).sum

/-- _local_operator.py:994-997: overwrite the sites of the support in a copy of `x`. -/
def writeSites (x : Fin N → α) : List (Fin N) → List α → (Fin N → α)
  | s :: ss, v :: vs => writeSites (Function.update x s v) ss vs
  | _, _ => x

/-- The output buffers while the kernel fills them; `oob` records an access outside of `mels`
    (numba does not check bounds) (netket/operator/_local_operator.py:907-1007). -/
structure Buf (K α : Type) (N : Nat) where
  mels : List K
  xp : List (Fin N → α)
  c : Nat
  oob : Bool

/-- `mels[c_diag] += d` (line 983). -/
def Buf.addAt (b : Buf K α N) (i : Nat) (d : K) : Buf K α N :=
  { b with mels := b.mels.modify i (· + d), oob := b.oob || decide (b.mels.length ≤ i) }

/-- `mels[c] = m; x_prime[c] = x'; c += 1` (lines 974-976, 991-998, 1001-1005). -/
def Buf.push (b : Buf K α N) (m : K) (x' : Fin N → α) : Buf K α N :=
  { mels := b.mels.set b.c m, xp := b.xp.set b.c x', c := b.c + 1,
    oob := b.oob || decide (b.mels.length ≤ b.c) }

/-- _local_operator.py:978-999, body of the loop over the local terms. -/
def termStep (hi : Fin N → List α) (x : Fin N → α) (cDiag : Nat) (b : Buf K α N) (t : Term K α N) :
    Buf K α N :=
  let i := xsN hi t.acting x
  (t.conn i).foldl (fun b p => b.push p.1 (writeSites x t.acting p.2)) (b.addAt cDiag (t.diag i))

/-- _local_operator.py:969-999: one row. -/
def rowStep (hi : Fin N → List α) (op : LOp K α N) (b : Buf K α N) (x : Fin N → α) : Buf K α N :=
  let b0 := if op.nonzeroDiag then b.push op.constant x else b
  op.terms.foldl (termStep hi x b.c) b0

/-- _local_operator.py:1001-1006: fill the row up to `max_conn` entries. -/
def padRow (x : Fin N → α) : Nat → Buf K α N → Buf K α N
  | 0, b => b
  | n + 1, b => padRow x n (b.push 0 x)

/-- _local_operator.py:969-1006 with `pad = True`, one row; also returns `sections[b]`. -/
def rowStepPad (hi : Fin N → List α) (op : LOp K α N) (maxConn : Nat)
    (b : Buf K α N) (x : Fin N → α) : Buf K α N :=
  let b' := rowStep hi op b x
  padRow x (maxConn - (b'.c - b.c)) b'

/-- running totals: `tot_conn += conn_b; sections[b] = tot_conn` (lines 957-958). -/
def runningTotals : Nat → List Nat → List Nat
  | _, [] => []
  | t, n :: ns => (t + n) :: runningTotals (t + n) ns

/-- _local_operator.py:905-1008 with `pad = False`. `gm`, `gx` are the unspecified contents of the
    `np.empty` buffers. Result: buffers and `sections`. -/
def connFlattened (hi : Fin N → List α) (op : LOp K α N) (gm : Nat → K) (gx : Nat → Fin N → α)
    (xs : List (Fin N → α)) : Buf K α N × List Nat :=
  let counts := xs.map (connCount hi op)
  let tot := counts.sum
  (xs.foldl (rowStep hi op) ⟨(List.range tot).map gm, (List.range tot).map gx, 0, false⟩,
   runningTotals 0 counts)

/-- _local_operator.py:905-1008 with `pad = True`. -/
def connFlattenedPad (hi : Fin N → List α) (op : LOp K α N) (gm : Nat → K) (gx : Nat → Fin N → α)
    (xs : List (Fin N → α)) : Buf K α N × List Nat :=
  let counts := xs.map (connCount hi op)
  let maxConn := counts.foldl max 0
  let tot := xs.length * maxConn
  (xs.foldl (rowStepPad hi op maxConn)
      ⟨(List.range tot).map gm, (List.range tot).map gx, 0, false⟩,
   (List.range xs.length).map fun b => (b + 1) * maxConn)

/-- _abstract_operator.py:184-203 `get_conn`: the flattened result for one configuration. -/
def getConn (hi : Fin N → List α) (op : LOp K α N) (gm : Nat → K) (gx : Nat → Fin N → α)
    (x : Fin N → α) : List ((Fin N → α) × K) :=
  let r := (connFlattened hi op gm gx [x]).1
  r.xp.zip r.mels

/-- _local_operator.py:821-831 `max_conn_size`. -/
def maxConnSize (cut : Cutoff K) (op : LOp K α N) : Nat :=
  (if op.nonzeroDiag then op.terms.length else 0)
    + (op.terms.map fun t => ((List.range t.mat.n).map fun i =>
        ((List.range t.mat.n).filter fun j => i != j && cut.gt (t.mat.f i j)).length).foldl max 0).sum

end

end Verif.LocalOp

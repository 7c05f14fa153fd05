import Verif.Model.LocalOperator
import Verif.Model.AutoReg

/-! Model of `netket/sampler/rules/custom_numpy.py` and of `LocalOperator.get_conn_filtered`
(`netket/operator/_local_operator.py:1010-1130`).

Matrices are real: the rule asserts that imaginary parts vanish (custom_numpy.py:134) and only reads
`mels[..].real` (122, 125). `np.allclose` is equality. numba does not check bounds: reading behind the
end of `mels` is `none`, reading behind the end of a row continues in the next row. The arrays
`sections`, `rand_op_n` and `weight_cumsum` of the rule state are values (every call overwrites the
first two). -/

namespace Verif.Custom

open Verif.Hilbert (Err)
open Verif.LocalOp

section
variable {R : Type} [Field R] [LinearOrder R] {α : Type} [LinearOrder α] {N : Nat}

/-- custom_numpy.py:132-138 `_check_operators`, for one matrix. -/
def checkMat (m : Mat R) : Bool :=
  ((List.range m.n).all fun i => (List.range m.n).all fun j => decide (0 ≤ m.f i j))
    && ((List.range m.n).all fun j => decide (((List.range m.n).map fun i => m.f i j).sum = 1))
    && ((List.range m.n).all fun i => decide (((List.range m.n).map fun j => m.f i j).sum = 1))
    && ((List.range m.n).all fun i => (List.range m.n).all fun j => decide (m.f i j = m.f j i))

/-- custom_numpy.py:50-60: the weights before normalisation. `min` of an empty array is a ValueError. -/
def checkWeights (nOps : Nat) : Option (List R) → Except Err (List R)
  | some w =>
    if w.length ≠ nOps then .error .valueError
    else if w = [] then .error .valueError
    else if w.any fun x => decide (x < 0) then .error .valueError
    else .ok w
  | none => .ok (List.replicate nOps 1)

/-- custom_numpy.py:40-64 `__post_init__` with a `LocalOperator`: the normalised `weight_list`. -/
def mkRule (op : LOp R α N) (weights : Option (List R)) : Except Err (List R) :=
  if op.terms.all fun t => checkMat t.mat then
    match checkWeights op.terms.length weights with
    | .error e => .error e
    | .ok w => .ok (w.map (· / w.sum))
  else .error .assertionError

/-- custom_numpy.py:108-111: `np.searchsorted(weight_cumsum, p)` with `weight_cumsum` of line 70. -/
def pickOp (weightList : List R) (p : R) : Nat :=
  Verif.HilbertIndex.searchsorted (Verif.AutoReg.cumsum weightList) p

/-- _local_operator.py:1077-1100 and 1105-1128 for one row: the connected elements found with the
    term `i` only; the first entry is the diagonal one. -/
def filteredRow (hi : Fin N → List α) (op : LOp R α N) (i : Nat) (x : Fin N → α) :
    Except Err (List (R × (Fin N → α))) :=
  match op.terms[i]? with
  | none => .error .assertionError
  | some t =>
    .ok ((op.constant + t.diag (xsN hi t.acting x), x)
      :: (t.conn (xsN hi t.acting x)).map fun p => (p.1, writeSites x t.acting p.2))

/-- _local_operator.py:1051-1130, all rows: the flat arrays `mels`, `x_prime` (paired). -/
def filteredFlat (hi : Fin N → List α) (op : LOp R α N) :
    List Nat → List (Fin N → α) → Except Err (List (List (R × (Fin N → α))))
  | i :: is, x :: xs =>
    match filteredRow hi op i x with
    | .error e => .error e
    | .ok r =>
      match filteredFlat hi op is xs with
      | .error e => .error e
      | .ok rs => .ok (r :: rs)
  | _, _ => .ok []

/-- _local_operator.py:1099-1100: `sections[b] = tot_conn`, starting from `c` elements. -/
def sectionsOf {β : Type} : Nat → List (List β) → List Nat
  | _, [] => []
  | c, r :: rs => (c + r.length) :: sectionsOf (c + r.length) rs

/-- custom_numpy.py:120-126: the loop over the cumulative probability, on the part of the buffers that
    starts at `low`; `acc` is the sum of the elements already passed. -/
def walk {β : Type} (p : R) : R → List (R × β) → Option β
  | _, [] => none
  | acc, (m, y) :: rest => if p > acc + m then walk p (acc + m) rest else some y

/-- custom_numpy.py:117-127 `_choose_and_return`. -/
def chooseAll {β : Type} (flat : List (R × β)) : Nat → List R → List Nat → List (Option β)
  | low, p :: ps, s :: ss => walk p 0 (flat.drop low) :: chooseAll flat s ps ss
  | _, _, _ => []

/-- custom_numpy.py:73-104 `transition`: proposals for the rows `xs`, given the two arrays of uniform
    numbers. `log_prob_corr` is filled with zeros (129). -/
def transition (hi : Fin N → List α) (op : LOp R α N) (weightList : List R) (us vs : List R)
    (xs : List (Fin N → α)) : Except Err (List (Option (Fin N → α)) × List R) :=
  match filteredFlat hi op (us.map (pickOp weightList)) xs with
  | .error e => .error e
  | .ok rows =>
    .ok (chooseAll rows.flatten 0 vs (sectionsOf 0 rows), List.replicate xs.length 0)

end

end Verif.Custom

import Verif.Model.Hamiltonian
import Mathlib.Data.Fin.Tuple.Basic

/-! Model of the buffers of `BoseHubbard` (netket/operator/_hamiltonian.py): `get_conn` and `get_conn_flattened` write the connected elements into two
arrays kept by the object, which grow with the largest batch and take over its dtype, and return copies of what was written.

The diagonal matrix element is accumulated in place by the code; here it is written once with its final value (`Bose.getConn`, `Bose.row`). -/

namespace Verif.BoseBuf
open Verif.Ham (Bose Roots)

/-- a dtype of numpy: the integers it holds, and what an integer outside becomes when stored
(netket/operator/_hamiltonian.py:500-501, 773-774). -/
structure Dtype where
  lo : Int
  hi : Int
  junk : Int → Int

/-- storing an integer in an array of that dtype (_hamiltonian.py:617, 632-634, 640-642, 685, 704-706, 712-714). -/
def Dtype.cast (d : Dtype) (a : Int) : Int := if d.lo ≤ a ∧ a ≤ d.hi then a else d.junk a

variable {K : Type} {N : Nat}

/-- the buffers of an object: `_max_mels`, `_max_xprime` and the dtype of the latter (_hamiltonian.py:499-500). -/
structure Buf (K : Type) (N : Nat) where
  mels : List K
  xprime : List (Fin N → Int)
  dtype : Dtype

/-- writing an entry; `none` when the index is outside one of the arrays (numba does not check)
(netket/operator/_hamiltonian.py:616-655, 698-720). -/
def Buf.write (b : Buf K N) (i : Nat) (row : Fin N → Int) (m : K) : Option (Buf K N) :=
  if i < b.mels.length ∧ i < b.xprime.length then some { b with mels := b.mels.set i m, xprime := b.xprime.set i row } else none

/-- entries written one after the other (_hamiltonian.py:616-643, 684-715). -/
def Buf.writeAll (b : Buf K N) (i : Nat) : List ((Fin N → Int) × K) → Option (Buf K N)
  | [] => some b
  | e :: r =>
    match b.write i e.1 e.2 with
    | none => none
    | some b' => b'.writeAll (i + 1) r

/-- _hamiltonian.py:617, 685: a configuration copied into the buffer. -/
def stored (d : Dtype) (x : Fin N → Nat) : Fin N → Int := fun s => d.cast (x s)

/-- _hamiltonian.py:632-634, 704-706: a copy of the configuration from which one boson is moved, in the buffer. -/
def storedHop (d : Dtype) (x : Fin N → Nat) (i j : Fin N) : Fin N → Int :=
  let y := stored d x
  let z := Function.update y i (d.cast (y i - 1))
  Function.update z j (d.cast (z j + 1))

section
variable [CommRing K]

/-- _hamiltonian.py:629-643, 701-715: the entries of an edge as they are stored. -/
def edgeStored (R : Roots K) (op : Bose K N) (d : Dtype) (x : Fin N → Nat) (e : Fin N × Fin N) : List ((Fin N → Int) × K) :=
  (if x e.1 > 0 ∧ x e.2 < op.nMax then [(storedHop d x e.1 e.2, -op.J * R.sq (x e.1) * R.sq (x e.2 + 1))] else [])
  ++ (if x e.2 > 0 ∧ x e.1 < op.nMax then [(storedHop d x e.2 e.1, -op.J * R.sq (x e.2) * R.sq (x e.1 + 1))] else [])

/-- all entries of a configuration as they are stored, with the given diagonal element (_hamiltonian.py:613-652, 684-715). -/
def rowStored (R : Roots K) (op : Bose K N) (d : Dtype) (diag : K) (x : Fin N → Nat) : List ((Fin N → Int) × K) :=
  (stored d x, diag) :: op.edges.flatMap (edgeStored R op d x)

/-- _hamiltonian.py:596-654: `get_conn`.  The result are copies of the written parts, with the dtype of the buffer. -/
def getConn (R : Roots K) (op : Bose K N) (b : Buf K N) (x : Fin N → Nat) : Option (Buf K N × List (Fin N → Int) × List K × Dtype) :=
  let entries := rowStored R op b.dtype ((op.getConn R x).map Prod.snd |>.headD 0) x
  match b.writeAll 0 entries with
  | none => none
  | some b' => some (b', b'.xprime.take entries.length, b'.mels.take entries.length, b'.dtype)

/-- _hamiltonian.py:770-774: larger buffers for larger batches; `gm`, `gx` are what `np.empty` contains. -/
def grow (op : Bose K N) (gm : Nat → K) (gx : Nat → Fin N → Int) (b : Buf K N) (batch : Nat) (d : Dtype) : Buf K N :=
  let total := batch * op.maxConn
  if b.mels.length < total then ⟨(List.range total).map gm, (List.range total).map gx, d⟩ else b

/-- _hamiltonian.py:673-675: with `pad`, everything is set to zero first. -/
def clear (b : Buf K N) (pad : Bool) : Buf K N :=
  if pad then { b with mels := b.mels.map fun _ => 0, xprime := b.xprime.map fun _ => fun _ => b.dtype.cast 0 } else b

/-- _hamiltonian.py:682-722: the loop over the batch from `diag_ind` and sample number `n`; the written buffer and `sections`. -/
def batchLoop (R : Roots K) (op : Bose K N) (pad : Bool) : Buf K N → Nat → Nat → List (Fin N → Nat) → Option (Buf K N × List Nat)
  | b, _, _, [] => some (b, [])
  | b, diagInd, n, x :: xs =>
    let entries := rowStored R op b.dtype (op.diag R x) x
    match b.writeAll diagInd entries with
    | none => none
    | some b' =>
      let next := if pad then (n + 1) * op.maxConn else diagInd + entries.length
      match batchLoop R op pad b' next (n + 1) xs with
      | none => none
      | some (b'', secs) => some (b'', next :: secs)

/-- _hamiltonian.py:748-789 with 656-744: `get_conn_flattened` of a batch (not empty) of the given dtype. -/
def getConnFlattened (R : Roots K) (op : Bose K N) (gm : Nat → K) (gx : Nat → Fin N → Int) (b : Buf K N) (xs : List (Fin N → Nat)) (d : Dtype) (pad : Bool) :
    Option (Buf K N × List (Fin N → Int) × List K × List Nat × Dtype) :=
  let b1 := clear (grow op gm gx b xs.length d) pad
  match batchLoop R op pad b1 0 0 xs with
  | none => none
  | some (b2, secs) =>
    let n := secs.getLastD 0
    some (b2, b2.xprime.take n, b2.mels.take n, secs, b2.dtype)

/-- the dtype float64 of the first buffer (_hamiltonian.py:500), for integers up to `2^53`. -/
def float64 : Dtype := ⟨-2 ^ 53, 2 ^ 53, fun a => if a < 0 then -2 ^ 53 else 2 ^ 53⟩

/-- _hamiltonian.py:498-500: the buffers of a new object. -/
def fresh (op : Bose K N) (gm : Nat → K) (gx : Nat → Fin N → Int) : Buf K N :=
  ⟨(List.range op.maxConn).map gm, (List.range op.maxConn).map gx, float64⟩

/-- a call of one of the methods (_hamiltonian.py:596, 748). -/
inductive Call (N : Nat) where
  | conn (x : Fin N → Nat)
  | flat (xs : List (Fin N → Nat)) (d : Dtype) (pad : Bool)

/-- the buffers after a call; `none` when something was written outside of them (_hamiltonian.py:596-654, 748-789). -/
def step (R : Roots K) (op : Bose K N) (gm : Nat → K) (gx : Nat → Fin N → Int) (b : Buf K N) : Call N → Option (Buf K N)
  | .conn x => (getConn R op b x).map Prod.fst
  | .flat xs d pad => (getConnFlattened R op gm gx b xs d pad).map Prod.fst

/-- the buffers after a sequence of calls (_hamiltonian.py:596-654, 748-789). -/
def run (R : Roots K) (op : Bose K N) (gm : Nat → K) (gx : Nat → Fin N → Int) : Buf K N → List (Call N) → Option (Buf K N)
  | b, [] => some b
  | b, c :: cs =>
    match step R op gm gx b c with
    | none => none
    | some b' => run R op gm gx b' cs
end

end Verif.BoseBuf

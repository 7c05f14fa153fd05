import Verif.Model.RandomState

/-! Model of `random_state` for every Hilbert space: the method (`netket/hilbert/abstract_hilbert.py`), the dispatch on the size
(`netket/hilbert/random/base.py`), the functions for each space (`netket/hilbert/random/*.py`) and the legacy methods.

Random numbers come from an abstract generator.  The dtype of the result and the legacy argument `out` are left out, and so are spaces without
a largest occupation. -/

namespace Verif.RandomBatch
open Verif.Hilbert (Err)
open Verif.RandomState

/-- the spaces of `netket/hilbert`: twice the spin and twice `total_sz`; `n_max` and `n_particles`; the local states of a `CustomHilbert`
    (`none` when infinitely many) and whether it has a constraint (spin.py:62-97, fock.py:37-99, qubit.py:24-33, custom_hilbert.py:28-58,
    tensor_hilbert.py:36-61, doubled_hilbert.py:29-45). -/
inductive Space
  | spin (t N : Nat) (sz : Option Int)
  | fock (nmax N : Nat) (particles : Option Nat)
  | qubit (N : Nat)
  | custom (localStates : Option (List Int)) (N : Nat) (constrained : Bool)
  | tensor (l : List Space)
  | doubled (s : Space)

/-- the random number generators used: `jax.random.split`, `jax.random.randint` for an array of batches × sites below a maximum (also the
    indices of `jax.random.choice`), `jax.random.permutation`, and the integers of `np.random.default_rng(key)` (random/fock.py:30, 47, 55,
    random/spin.py:31, 59-61, 81, 90, random/qubit.py:24, random/custom.py:30-35, random/tensor_hilbert.py:24, random/doubled.py:27). -/
structure Rng (K : Type) where
  split : K → Nat → List K
  randint : K → Nat → Nat → Nat → List (List Nat)
  permutation : K → List Int → List Int
  integers : K → Nat → Nat → Nat

variable {K : Type}

/-- the loop over the batch of random/fock.py:49-60 and random/spin.py:83-94: row after row from one stream of integers, `used` of which
    have been drawn (each row takes `count`). -/
def batchLoop (row : (Nat → Nat → Nat) → Except Err (List Int)) (count : Nat) (draw : Nat → Nat → Nat) :
    Nat → Nat → Except Err (List (List Int))
  | 0, _ => .ok []
  | b + 1, used =>
    match row (fun k m => draw (used + k) m) with
    | .error e => .error e
    | .ok r =>
      match batchLoop row count draw b (used + count) with
      | .error e => .error e
      | .ok rs => .ok (r :: rs)

/-- random/spin.py:22-75. -/
def spinBatch (g : Rng K) (key : K) (b t N : Nat) (sz : Option Int) : Except Err (List (List Int)) :=
  match sz with
  | none => .ok ((g.randint key b N (t + 1)).map (spinUnconstrained t))
  | some m =>
    if t + 1 = 2 then
      .ok (((g.split key b).zip (List.replicate b (spinHalfUnshuffled N m))).map fun p => g.permutation p.1 p.2)
    else batchLoop (spinConstrained N t m) (((t : Int) * N + m) / 2).toNat (g.integers key) b 0

/-- random/fock.py:24-43. -/
def fockBatch (g : Rng K) (key : K) (b nmax N : Nat) (particles : Option Nat) : Except Err (List (List Int)) :=
  match particles with
  | none => .ok ((g.randint key b N (nmax + 1)).map fun r => r.map fun (v : Nat) => (v : Int))
  | some p => batchLoop (fockConstrained N nmax p) p (g.integers key) b 0

/-- random/custom.py:22-36. -/
def customBatch (g : Rng K) (key : K) (b N : Nat) (ls : Option (List Int)) (constrained : Bool) : Except Err (List (List Int)) :=
  match ls with
  | none => .error .notImplemented
  | some l => if constrained then .error .notImplemented else .ok ((g.randint key b N l.length).map fun r => r.map fun v => l.getD v 0)

/-- the sequence of evaluations of random/tensor_hilbert.py:26-29: the first error is raised. -/
def allOk {α : Type} : List (Except Err α) → Except Err (List α)
  | [] => .ok []
  | .error e :: _ => .error e
  | .ok a :: r =>
    match allOk r with
    | .error e => .error e
    | .ok l => .ok (a :: l)

/-- `jnp.concatenate(vs, axis=1)` of arrays of `b` rows (random/tensor_hilbert.py:31, random/doubled.py:32). -/
def hcat (b : Nat) (vs : List (List (List Int))) : List (List Int) :=
  (List.range b).map fun (i : Nat) => (vs.map fun v => v.getD i []).flatten

mutual
/-- `random_state(hilb, key, batches: int, dtype=…)` for each type of space (random/fock.py:24, random/spin.py:24, random/qubit.py:23,
    random/custom.py:23, random/tensor_hilbert.py:23-31, random/doubled.py:26-32). -/
def randomBatch (g : Rng K) (b : Nat) : Space → K → Except Err (List (List Int))
  | .spin t N sz, key => spinBatch g key b t N sz
  | .fock nmax N p, key => fockBatch g key b nmax N p
  | .qubit N, key => .ok ((g.randint key b N 2).map fun r => r.map fun (v : Nat) => (v : Int))
  | .custom ls N c, key => customBatch g key b N ls c
  | .tensor l, key =>
    match allOk (randomParts g b l (g.split key l.length)) with
    | .error e => .error e
    | .ok vs => .ok (hcat b vs)
  | .doubled s, key =>
    match randomBatch g b s ((g.split key 2).getD 0 key), randomBatch g b s ((g.split key 2).getD 1 key) with
    | .error e, _ => .error e
    | .ok _, .error e => .error e
    | .ok v1, .ok v2 => .ok (hcat b [v1, v2])
/-- the list of arrays of random/tensor_hilbert.py:26-29, one key for each space. -/
def randomParts (g : Rng K) (b : Nat) : List Space → List K → List (Except Err (List (List Int)))
  | s :: l, key :: keys => randomBatch g b s key :: randomParts g b l keys
  | _, _ => []
end

/-- the argument `size` (abstract_hilbert.py:72, random/base.py:23, 59-71). -/
inductive Size
  | none
  | int (n : Nat)
  | dims (l : List Nat)

/-- an array of rows: the leading dimensions and the rows (states) in row-major order
(netket/hilbert/random/base.py:59-71). -/
structure Batch where
  shape : List Nat
  rows : List (List Int)
  deriving DecidableEq

/-- random/base.py:59-71, 93-101: no size means the only row of a batch of one; a tuple of one, two or three integers (line 23) means a batch
    of their product, reshaped.  (Other tuples are not found by the dispatch, a LookupError, here `.keyError`; a product of zero cannot be
    reshaped with an unknown last dimension.) -/
def randomState (g : Rng K) (s : Space) (key : K) (size : Size) : Except Err Batch :=
  match size with
  | .none =>
    match randomBatch g 1 s key with
    | .error e => .error e
    | .ok rows =>
      match rows[0]? with
      | Option.none => .error .indexError
      | some r => .ok ⟨[], [r]⟩
  | .int n =>
    match randomBatch g n s key with
    | .error e => .error e
    | .ok rows => .ok ⟨[n], rows⟩
  | .dims l =>
    if l.length = 1 ∨ l.length = 2 ∨ l.length = 3 then
      match randomBatch g l.prod s key with
      | .error e => .error e
      | .ok rows => if l.prod = 0 then .error .zeroDivision else .ok ⟨l, rows⟩
    else .error .keyError

/-! ## Legacy methods -/

/-- the numpy generator of the legacy methods: `integers(0, n, size=shape)`, `choice`, as indices, and single integers
(netket/hilbert/spin.py:171, 189; fock.py:170, 190). -/
structure LegacyRng where
  array : Nat → Nat → Nat → List (List Nat)
  integers : Nat → Nat → Nat

/-- fock.py:163-201: without `n_particles` the integers are drawn below `n_max` (189); `integers(0, 0)` is a ValueError. -/
def fockLegacy (g : LegacyRng) (b nmax N : Nat) (particles : Option Nat) : Except Err (List (List Int)) :=
  match particles with
  | none =>
    if nmax = 0 then .error .valueError
    else .ok ((g.array b N nmax).map fun r => r.map fun (v : Nat) => (v : Int))
  | some p => batchLoop (fockConstrained N nmax p) p g.integers b 0

/-- spin.py:159-195. -/
def spinLegacy (g : LegacyRng) (b t N : Nat) (sz : Option Int) : Except Err (List (List Int)) :=
  match sz with
  | none => .ok ((g.array b N (t + 1)).map (spinUnconstrained t))
  | some m => batchLoop (spinConstrained N t m) (((t : Int) * N + m) / 2).toNat g.integers b 0

/-- homogeneous.py:197-214 (`Qubit`, `CustomHilbert`), fock.py:178-201, spin.py:159-181, doubled_hilbert.py:139-152 (the halves one after
    the other from the given generator; with `rgen=None` each half has its own).  `TensorHilbert` has no such method. -/
def legacyBatch (g : Nat → LegacyRng) (b : Nat) : Space → Nat → Except Err (List (List Int))
  | .spin t N sz, i => spinLegacy (g i) b t N sz
  | .fock nmax N p, i => fockLegacy (g i) b nmax N p
  | .qubit N, i => .ok (((g i).array b N 2).map fun r => r.map fun (v : Nat) => (v : Int))
  | .custom ls N c, i =>
    match ls with
    | none => .error .notImplemented
    | some l => if c then .error .notImplemented else .ok (((g i).array b N l.length).map fun r => r.map fun v => l.getD v 0)
  | .tensor _, _ => .error .attributeError
  | .doubled s, i =>
    match legacyBatch g b s (2 * i), legacyBatch g b s (2 * i + 1) with
    | .error e, _ => .error e
    | .ok _, .error e => .error e
    | .ok v1, .ok v2 => .ok (hcat b [v1, v2])

end Verif.RandomBatch

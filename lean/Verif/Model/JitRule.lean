import Verif.Model.Metropolis

/-! Which matrix `HamiltonianRule` (netket/sampler/rules/hamiltonian.py) samples with when the operator is changed in place.

`_sample_chain` (netket/sampler/base.py:455) is compiled by `jax.jit`.  The operator is part of the static data of the sampler (hamiltonian.py:45), and
operators are compared by identity, so that a compiled chain is found again although `ha += other` has changed the operator.  The compiled chain contains the
arrays that `_get_conn_flattened_closure` read when it was compiled (operator/_hamiltonian.py:342-351, 791-815, _local_operator.py:872-905,
_pauli_strings.py:266-295).  `jax.jit` is modelled from its documentation: a table of what was compiled, looked up by the static arguments and the shapes.  -/

namespace Verif.JitRule
open Verif.Metro (hamiltonianTransition)

/-- what a compiled chain is looked up by (base.py:455): the operator (by identity), the machine, the length of the chain, and the shapes and other static
    data. -/
structure Key where
  op : Nat
  machine : Nat
  chainLength : Nat
  shapes : Nat
deriving DecidableEq

/-- the operators (each by its connected configurations) and what was compiled with which operator (base.py:455, hamiltonian.py:68). -/
structure World (X : Type) where
  heap : Nat → X → List X
  cache : List (Key × (X → List X))

/-- what a program does: changing an operator in place (_hamiltonian.py:72-84, 230-246, 568-588, _local_operator.py `__iadd__`), `sampler.sample`
    (base.py:425-452), `sampler.sample_next` (base.py:403-423), which is not compiled, and sampling with `HamiltonianRuleNumpy`
    (hamiltonian_numpy.py:71-84). -/
inductive Event (X : Type) where
  | inplace (op : Nat) (new : X → List X)
  | sample (k : Key)
  | sampleNext (op : Nat)
  | numpy (op : Nat)

variable {X : Type}

/-- the operator a chain runs with: the compiled one, if there is one, otherwise the present one, which is compiled (base.py:455, hamiltonian.py:66-88). -/
def sample (w : World X) (k : Key) : World X × (X → List X) :=
  match w.cache.lookup k with
  | some conn => (w, conn)
  | none => ({ w with cache := (k, w.heap k.op) :: w.cache }, w.heap k.op)

/-- `sample_next` runs `transition` as it is written (base.py:403-423, hamiltonian.py:66-103), `HamiltonianRuleNumpy` asks the operator
    (hamiltonian_numpy.py:77). -/
def direct (w : World X) (op : Nat) : X → List X := w.heap op

/-- effect of an event (see `Event`)
(netket/sampler/base.py:455-476; rules/hamiltonian.py:71-77). -/
def step (w : World X) : Event X → World X
  | .inplace op new => { w with heap := Function.update w.heap op new }
  | .sample k => (sample w k).1
  | .sampleNext _ => w
  | .numpy _ => w

/-- effect of a program (see `Event`)
(netket/sampler/base.py:455-476; rules/hamiltonian.py:71-77). -/
def run (w : World X) (es : List (Event X)) : World X := es.foldl step w

/-- a new process: nothing is compiled (base.py:455). -/
def start (heap : Nat → X → List X) : World X := ⟨heap, []⟩

/-- the proposals of the first transition of a call of `sampler.sample` (base.py:455-489, hamiltonian.py:66-103). -/
def propose {R : Type} [Field R] [LinearOrder R] [FloorRing R] (log : R → R) (w : World X) (k : Key) (rand : List R) (v : List X) :
    Option (List X × Option (List R)) :=
  hamiltonianTransition log (sample w k).2 rand v

end Verif.JitRule

import Verif.Model.DiscreteHilbert
import Mathlib.Algebra.BigOperators.Group.List.Basic

/-! Models of powers, products and partial traces of Hilbert spaces:
`spin.py`, `fock.py`, `qubit.py`, `custom_hilbert.py`, `tensor_hilbert.py`, `discrete_hilbert.py`. -/

namespace Verif.HilbertAlgebra
open Verif.Hilbert

/-- class and local parameters of a homogeneous space. `spin t`: `t = 2 s`.  `fock none`: unbounded
    occupation.  `custom ls`: the sorted distinct local values
(netket/hilbert/spin.py:62, fock.py:35, qubit.py:26, custom_hilbert.py:28). -/
inductive Kind
  | spin (t : Nat)
  | fock (nmax : Option Nat)
  | qubit
  | custom (ls : List Int)
  deriving DecidableEq, Repr

/-- a constraint: identity of the closure `_constraint_fn` (python compares functions by
    identity) and the number of configurations it allows (enumeration is C02's subject)
(netket/hilbert/homogeneous.py:45-89; fock.py:161). -/
structure Constraint where
  ident : Nat
  count : Nat
  deriving DecidableEq, Repr

/-- Spin, Fock, Qubit or CustomHilbert object (netket/hilbert/homogeneous.py:45-89). -/
structure Homog where
  kind : Kind
  size : Nat
  con : Option Constraint
  deriving DecidableEq, Repr

/-- a space: homogeneous, or a TensorHilbert of homogeneous spaces
    (products of products are flattened by `__mul__`, tensor_hilbert.py:143-163). -/
inductive Space
  | homog (h : Homog)
  | tensor (hs : List Homog)
  deriving DecidableEq, Repr

/-- objects the constructors can build: a Qubit never has a constraint (qubit.py:26-43). -/
def Homog.WF (h : Homog) : Prop := h.kind = .qubit → h.con = none

/-- every factor is constructible (netket/hilbert/tensor_hilbert.py:30-62). -/
def Space.WF : Space → Prop
  | .homog h => h.WF
  | .tensor hs => ∀ h ∈ hs, h.WF

/-- `np.iinfo(np.intp).max` (netket/hilbert/fock.py:94). -/
def intpMax : Nat := 9223372036854775807

/-- `local_size`: spin.py:88, fock.py:92, qubit.py:43, homogeneous.py:74, 80. -/
def Kind.localSize : Kind → Nat
  | .spin t => t + 1
  | .fock (some n) => n + 1
  | .fock none => intpMax
  | .qubit => 2
  | .custom ls => ls.length

/-- homogeneous.py:87. -/
def Homog.shape (h : Homog) : List Nat := List.replicate h.size h.kind.localSize

/-- homogeneous.py:112-122 (for finite local spaces). -/
def Homog.nStates (h : Homog) : Nat :=
  match h.con with
  | none => h.kind.localSize ^ h.size
  | some c => c.count

/-- `size` (netket/hilbert/homogeneous.py:91-93; tensor_hilbert.py:64). -/
def Space.size : Space → Nat
  | .homog h => h.size
  | .tensor hs => (hs.map Homog.size).sum

/-- homogeneous.py:87-88, tensor_hilbert.py:60. -/
def Space.shape : Space → List Nat
  | .homog h => h.shape
  | .tensor hs => (hs.map Homog.shape).flatten

/-- homogeneous.py:112-122, tensor_hilbert.py:54. -/
def Space.nStates : Space → Nat
  | .homog h => h.nStates
  | .tensor hs => (hs.map Homog.nStates).prod

/-- fock.py:35-98 called with `n_max = self.n_max`: for an unbounded space `self.n_max` is
    `intp max` (fock.py:94-95), and `np.arange(n_max + 1)` of it raises ValueError. -/
def mkFock (nmaxAttr : Option Nat) (N : Nat) : Except Err Homog :=
  match nmaxAttr with
  | some n => .ok ⟨.fock (some n), N, none⟩
  | none => .error .valueError

/-- `__pow__`: spin.py:111-117 and fock.py:112-118 (`total_sz = total_sz * n` reads an unassigned
    local variable), qubit.py:45-46, custom_hilbert.py:60-67. -/
def Homog.pow (h : Homog) (n : Nat) : Except Err Homog :=
  match h.kind, h.con with
  | .spin t, none => .ok ⟨.spin t, h.size * n, none⟩
  | .spin _, some _ => .error .unboundLocal
  | .fock nmax, none => mkFock nmax (h.size * n)
  | .fock _, some _ => .error .unboundLocal
  | .qubit, _ => .ok ⟨.qubit, h.size * n, none⟩
  | .custom ls, none => .ok ⟨.custom ls, h.size * n, none⟩
  | .custom _, some _ => .error .notImplemented

/-- `_mul_sametype_`: spin.py:119-125, fock.py:120-126, qubit.py:48-50; not defined for
    CustomHilbert (AttributeError).  `ok none` is `NotImplemented`. -/
def mulSameType (a b : Homog) : Except Err (Option Homog) :=
  match a.kind, b.kind with
  | .spin t, .spin u =>
    .ok (if t = u ∧ a.con = none ∧ b.con = none then some ⟨.spin t, a.size + b.size, none⟩ else none)
  | .fock n, .fock m =>
    if n = m ∧ a.con = none ∧ b.con = none then (mkFock n (a.size + b.size)).map some else .ok none
  | .qubit, .qubit => .ok (some ⟨.qubit, a.size + b.size, none⟩)
  | _, _ => .error .attributeError

/-- `type(self) == type(other)` (netket/hilbert/discrete_hilbert.py:216). -/
def sameType : Kind → Kind → Bool
  | .spin _, .spin _ => true
  | .fock _, .fock _ => true
  | .qubit, .qubit => true
  | .custom _, .custom _ => true
  | _, _ => false

/-- tensor_hilbert.py:154-161: the merged centre if the product of the centre factors is a single
    space; two factors if it is a product or if any exception was raised. -/
def centre (res : Except Err Space) (l r : Homog) : List Homog :=
  match res with
  | .ok (.homog c) => [c]
  | _ => [l, r]

/-- discrete_hilbert.py:210-221 for two homogeneous spaces (`==` compares `_attrs`,
    abstract_hilbert.py:154-158).  The last line `TensorHilbert(self) * other` calls `self * other` again
    (tensor_hilbert.py:155); python recurses until the RecursionError (an `Exception`) is caught by
    tensor_hilbert.py:160.  First argument: remaining stack depth. -/
def mulHomogF : Nat → Homog → Homog → Except Err Space
  | 0, _, _ => .error .runtimeError
  | depth + 1, a, b =>
    if a = b then (a.pow 2).map .homog
    else if sameType a.kind b.kind then
      match mulSameType a b with
      | .error e => .error e
      | .ok (some c) => .ok (.homog c)
      | .ok none => .ok (.tensor (centre (mulHomogF depth a b) a b))
    else .ok (.tensor (centre (mulHomogF depth a b) a b))

/-- `a * b` with python's default recursion limit (the result does not depend on it,
    `mulHomogF_eq`) (netket/hilbert/discrete_hilbert.py:210-221). -/
def mulHomog (a b : Homog) : Except Err Space := mulHomogF 1000 a b

/-- tensor_hilbert.py:143-163; the empty product does not occur (IndexError). -/
def mulTensor (ls : List Homog) (rs : List Homog) : Except Err Space :=
  match ls.getLast?, rs with
  | some l, r :: rs' => .ok (.tensor (ls.dropLast ++ centre (mulHomog l r) l r ++ rs'))
  | _, _ => .error .indexError

/-- `a * b` for any two spaces (discrete_hilbert.py:210-221, tensor_hilbert.py:143-163). -/
def mul : Space → Space → Except Err Space
  | .homog a, .homog b => mulHomog a b
  | .homog a, .tensor bs => mulTensor [a] bs
  | .tensor as, .homog b => mulTensor as [b]
  | .tensor as, .tensor bs => mulTensor as bs

/-- `a ** n`; TensorHilbert has no `__pow__` (TypeError, an unsupported operand)
(netket/hilbert/spin.py:111-117, fock.py:112-126, qubit.py:45-46, custom_hilbert.py:60-66). -/
def pow (a : Space) (n : Nat) : Except Err Space :=
  match a with
  | .homog h => (h.pow n).map .homog
  | .tensor _ => .error .typeError

/-- spin.py:127-147, fock.py:128-148, qubit.py:52-67 (the same code); CustomHilbert inherits the
    NotImplementedError of abstract_hilbert.py:139.  `ok none` is python's `None`.
    A constrained space raises TypeError. -/
def ptraceHomog (h : Homog) (sites : List Nat) : Except Err (Option Homog) :=
  match h.kind with
  | .custom _ => .error .notImplemented
  | k =>
    if sites.any (fun s => decide (h.size ≤ s)) then .error .valueError
    else if h.con ≠ none then .error .typeError
    else if (h.size : Int) - sites.length = 0 then .ok none
    else
      let n := h.size - sites.length
      match k with
      | .fock nmax => (mkFock nmax n).map some
      | k => .ok (some ⟨k, n, none⟩)

/-- tensor_hilbert.py:188-193: what one factor contributes. -/
def ptraceFactor (h : Homog) (here : List Nat) : Except Err (List Homog) :=
  if here.length = 0 then .ok [h]
  else
    match ptraceHomog h here with
    | .error e => .error e
    | .ok (some h') => .ok [h']
    | .ok none => .ok []

/-- tensor_hilbert.py:182-194: the loop over factors, `sz` the running offset. -/
def ptraceFactors : List Homog → Nat → List Nat → Except Err (List Homog)
  | [], _, _ => .ok []
  | h :: hs, sz, sites => do
    let first ← ptraceFactor h
      ((sites.filter fun s => decide (sz ≤ s) && decide (s < sz + h.size)).map (· - sz))
    let rest ← ptraceFactors hs (sz + h.size) sites
    pure (first ++ rest)

/-- tensor_hilbert.py:199-204: left-to-right product of the remaining factors. -/
def prodLeft : Space → List Homog → Except Err Space
  | acc, [] => .ok acc
  | acc, h :: hs => do
    let acc' ← mul acc (.homog h)
    prodLeft acc' hs

/-- tensor_hilbert.py:165-204 (sorting the sites does not affect the filters below). -/
def ptrace (a : Space) (sites : List Nat) : Except Err (Option Space) :=
  match a with
  | .homog h => (ptraceHomog h sites).map (·.map .homog)
  | .tensor hs =>
    if sites.any (fun s => decide ((Space.tensor hs).size ≤ s)) then .error .valueError
    else if ((Space.tensor hs).size : Int) - sites.length = 0 then .ok none
    else do
      match ← ptraceFactors hs 0 sites with
      | [] => .ok none
      | h :: rest => do
        let r ← prodLeft (.homog h) rest
        pure (some r)

end Verif.HilbertAlgebra

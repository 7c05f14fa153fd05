import Verif.Model.DiscreteHilbert
import Mathlib.Algebra.Order.Ring.Rat
import Mathlib.Data.Finset.Dedup

/-! Model of equality and hash of Hilbert spaces (`netket/hilbert/abstract_hilbert.py`) with the attributes each class compares.  Functions
given or created as constraints are objects: python compares them by identity, here the number `id`.  Numbers are exact. -/

namespace Verif.HilbertEq
open Verif.Hilbert (Err)

/-- a function object: its identity and what it computes on one configuration
(netket/hilbert/homogeneous.py:83-89, 186-193). -/
structure Fn where
  id : Nat
  pred : List ℚ → Bool

/-- a Hilbert space object: spin.py:59-107, fock.py:31-97, qubit.py:26-44, custom_hilbert.py:25-60, tensor_hilbert.py:30-62,
    doubled_hilbert.py:26-53.  `spin`: twice the spin, an integer; `fock`: `nMax = none` for an unbounded occupation (fock.py:92-95). -/
inductive Space
  | qubit (size : Nat)
  | spin (size : Nat) (twoS : Nat) (fn : Option Fn)
  | fock (size : Nat) (nMax : Option Nat) (fn : Option Fn)
  | custom (size : Nat) (localStates : Option (List ℚ)) (fn : Option Fn)
  | tensor (spaces : List Space)
  | doubled (physical : Space)

/-- homogeneous.py:83-84: `_constraint_fn` compared as python compares functions. -/
def sameFn : Option Fn → Option Fn → Bool
  | none, none => true
  | some f, some g => f.id == g.id
  | _, _ => false

/-- homogeneous.py:71-81: `_local_size` (`none`: `np.iinfo(np.intp).max`). -/
def localSize (l : Option (List ℚ)) : Option Nat := l.map List.length

/-- homogeneous.py:76, 79: `_local_states_frozen`. -/
def frozen (l : Option (List ℚ)) : Option (Finset ℚ) := l.map List.toFinset

mutual
/-- abstract_hilbert.py:154-158 with `_attrs` of spin.py:155-157, fock.py:159-161, qubit.py:72-74, homogeneous.py:185-193,
    tensor_hilbert.py:139-141, doubled_hilbert.py:135-137. -/
def eq : Space → Space → Bool
  | .qubit n, .qubit m => n == m
  | .spin n s f, .spin m t g => n == m && s == t && sameFn f g
  | .fock n a f, .fock m b g => n == m && a == b && sameFn f g
  | .custom n l f, .custom m k g => n == m && localSize l == localSize k && frozen l == frozen k && (f.isSome == g.isSome) && sameFn f g
  | .tensor l, .tensor k => eqAll l k
  | .doubled a, .doubled b => eq a b
  | _, _ => false
/-- equality of the tuples of factors (tensor_hilbert.py:139-141). -/
def eqAll : List Space → List Space → Bool
  | [], [] => true
  | a :: l, b :: k => eq a b && eqAll l k
  | _, _ => false
end

/-- what python hashes: numbers, sets, function objects, booleans, `None`, tuples
(netket/hilbert/abstract_hilbert.py:160-164). -/
structure Hashes where
  num : ℚ → Int
  set : Finset ℚ → Int
  fn : Nat → Int
  bool : Bool → Int
  none : Int
  tuple : List Int → Int

/-- hash of `_constraint_fn` (netket/hilbert/fock.py:161; homogeneous.py:186-193). -/
def fnHash (H : Hashes) : Option Fn → Int
  | none => H.none
  | some f => H.fn f.id

/-- hash of a number or `np.iinfo(np.intp).max`
(netket/hilbert/fock.py:160-161; spin.py:156-157). -/
def numHash (H : Hashes) : Option Nat → Int
  | some n => H.num n
  | none => H.num (2 ^ 63 - 1)

/-- hash of `_local_states_frozen` (netket/hilbert/homogeneous.py:186-193). -/
def setHash (H : Hashes) : Option (Finset ℚ) → Int
  | none => H.none
  | some s => H.set s

mutual
/-- abstract_hilbert.py:160-164. -/
def hash (H : Hashes) : Space → Int
  | .qubit n => H.tuple [H.num n]
  | .spin n s f => H.tuple [H.num n, H.num ((s : ℚ) / 2), fnHash H f]
  | .fock n a f => H.tuple [H.num n, numHash H a, fnHash H f]
  | .custom n l f => H.tuple [H.num n, numHash H (localSize l), setHash H (frozen l), H.bool f.isSome, fnHash H f]
  | .tensor l => H.tuple (hashAll H l)
  | .doubled a => H.tuple [hash H a]
/-- hashes of the factors (netket/hilbert/tensor_hilbert.py:139-141). -/
def hashAll (H : Hashes) : List Space → List Int
  | [] => []
  | a :: l => hash H a :: hashAll H l
end

/-- spin.py:59-107: `Spin(s, N, total_sz)`; `fresh` is the identity of the function object created by `def constraints` (98-99).
    `twoSz` is `round(2 * total_sz)` (54-56).
    (`_check_total_sz` and the assertion are modelled in Model/RandomState.lean and Model/HilbertAlgebra.lean.)  -/
def mkSpin (fresh : Nat) (twoS : Nat) (N : Nat) (twoSz : Option Int) : Space :=
  .spin N twoS (twoSz.map fun (t : Int) => ⟨fresh, fun x => decide (x.sum = (t : ℚ))⟩)

/-- fock.py:58-97: `Fock(n_max, N, n_particles)` for compatible arguments. -/
def mkFock (fresh : Nat) (nMax : Option Nat) (N : Nat) (nParticles : Option Nat) : Space :=
  match nParticles with
  | none => .fock N nMax none
  | some p => .fock N (some (nMax.getD p)) (some ⟨fresh, fun x => decide (x.sum = p)⟩)

/-- local quantum numbers in the order in which states are numbered: spin.py:87-93, fock.py:89-95, qubit.py:44, homogeneous.py:72-75
    (`none`: all natural numbers). -/
def localStates : Space → Option (List ℚ)
  | .qubit _ => some [0, 1]
  | .spin _ t _ => some ((List.range (t + 1)).map fun (i : Nat) => -(t : ℚ) + 2 * i)
  | .fock _ (some n) _ => some ((List.range (n + 1)).map fun (i : Nat) => (i : ℚ))
  | .fock _ none _ => none
  | .custom _ l _ => l
  | _ => none

/-- discrete_hilbert.py:210-214 for equal spaces, with custom_hilbert.py:60-67: `a * b` for two CustomHilbert. -/
def customMul (a b : Space) : Option Space :=
  match a, b with
  | .custom n l none, .custom _ _ _ => if eq a b then some (.custom (n * 2) l none) else none
  | _, _ => none

end Verif.HilbertEq

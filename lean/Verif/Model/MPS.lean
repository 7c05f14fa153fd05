import Mathlib.Algebra.BigOperators.Group.Finset.Basic
import Mathlib.Algebra.Field.Rat
import Mathlib.Data.Fintype.BigOperators
import Mathlib.Analysis.SpecialFunctions.Complex.Log
import Verif.Model.DiscreteHilbert
import Verif.Model.Machines

/-! netket/models/mps.py: `MPSPeriodic`.

Tensors are functions of indices, matrices are indexed by `Fin D`. Simplified: local states are rational numbers, exact arithmetic (so that
the truncation of an index to an integer is the floor of an integer); one configuration instead of a batch; the graph only causes a
warning and is left out. -/

namespace Verif.MPS
open Verif.Hilbert (Err)

/-- what `setup` stores: spacing and minimum of the local states, period
(netket/models/mps.py:68-100). -/
structure Setup where
  spacing : Rat
  bias : Rat
  period : Int
  deriving DecidableEq

/-- mps.py:77: `np.roll(local_states, -1)[0:-1] - local_states[0:-1]`. -/
def spacings : List Rat → List Rat
  | a :: b :: l => (b - a) :: spacings (b :: l)
  | _ => []

/-- minimum of a list (mps.py:84). -/
def minimum : List Rat → Rat
  | [] => 0
  | [a] => a
  | a :: l => min a (minimum l)

/-- mps.py:68-113: `setup`, up to the parameters. `np.max` of no spacings is a ValueError, uneven spacings and a wrong period an
    AssertionError, `L % 0` a ZeroDivisionError. -/
def setup (L : Nat) (localStates : List Rat) (symperiod : Option Int) : Except Err Setup :=
  match spacings localStates with
  | [] => .error .valueError
  | d :: ds =>
    if ds.all (· = d) then
      let p := match symperiod with | none => (L : Int) | some p => p
      if p = 0 then .error .zeroDivision
      else if Int.fmod L p = 0 ∧ p > 0 then .ok ⟨d, minimum localStates, p⟩
      else .error .assertionError
    else .error .assertionError

variable {K : Type} [Field K] {D : Nat}

/-- mps.py:120-133: the kernel, parameters plus identity matrices (for `diag`, vectors of ones). -/
def kernelFull (param : Nat → Nat → Fin D → Fin D → K) (i s : Nat) (a b : Fin D) : K := param i s a b + if a = b then 1 else 0

/-- mps.py:116-119, 130-133 with `diag`. -/
def kernelDiag (param : Nat → Nat → Fin D → K) (i s : Nat) (a : Fin D) : K := param i s a + 1

/-- mps.py:138-141: `einsum("ijk,kl->ijkl", kernel, eye)`. -/
def expandDiag (kernel : Nat → Nat → Fin D → K) (i s : Nat) (a b : Fin D) : K := kernel i s a * if a = b then 1 else 0

/-- mps.py:146: `jnp.tile` of the unit cell. -/
def tile (period : Nat) (kernel : Nat → Nat → Fin D → Fin D → K) (i : Nat) : Nat → Fin D → Fin D → K := kernel (i % period)

/-- mps.py:149, 154: index of a local state (truncated; a negative index counts from the end of `physDim` entries). -/
def index (S : Setup) (physDim : Nat) (x : Rat) : Nat :=
  let k := (x - S.bias) / S.spacing
  let t : Int := if 0 ≤ k then k.floor else k.ceil
  if 0 ≤ t then t.toNat else (t + physDim).toNat

/-- mps.py:170-171: `einsum("ij,jk->ik", left, right)`. -/
def multiply (l r : Fin D → Fin D → K) (i k : Fin D) : K := ∑ j, l i j * r j k

/-- mps.py:163-175: the scan over the selected tensors, starting from the identity, and the trace. -/
def traceScan (tensors : List (Fin D → Fin D → K)) : K :=
  let edge := tensors.foldl multiply fun a b => if a = b then 1 else 0
  ∑ a, edge a a

/-- mps.py:136-178: the argument of the logarithm in `__call__`. -/
def amplitude (S : Setup) (L physDim : Nat) (kernel : Nat → Nat → Fin D → Fin D → K) (x : Nat → Rat) : K :=
  traceScan ((List.range L).map fun i => tile S.period.toNat kernel i (index S physDim (x i)))

/-- mps.py:178 for complex parameters: the logarithm, minus infinity at zero. -/
noncomputable def callComplex (S : Setup) (L physDim : Nat) (kernel : Nat → Nat → Fin D → Fin D → ℂ) (x : Nat → Rat) : WithBot ℂ :=
  Verif.Machines.clog (amplitude S L physDim kernel x)

/-- mps.py:178 for real parameters: `none` is NaN, the logarithm of a negative number; otherwise minus infinity or the logarithm. -/
noncomputable def callReal (S : Setup) (L physDim : Nat) (kernel : Nat → Nat → Fin D → Fin D → ℝ) (x : Nat → Rat) : Option (WithBot ℝ) :=
  open Classical in
  let t := amplitude S L physDim kernel x
  if t < 0 then none else if t = 0 then some ⊥ else some ((Real.log t : ℝ) : WithBot ℝ)

end Verif.MPS

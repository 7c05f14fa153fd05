import Verif.Model.DiscreteHilbert
import Mathlib.Analysis.SpecialFunctions.Exp
import Mathlib.Analysis.SpecialFunctions.Sqrt
import Mathlib.Analysis.Complex.Exponential
import Mathlib.LinearAlgebra.Matrix.Trace

/-!
`netket.nn.to_array` and `to_matrix` (netket/nn/utils.py:10-93) on `nodes` MPI ranks.

A collective is a function of what all ranks hold. The model's log-amplitude of the state number `k` is
`logpsi k`; `-inf` is `none`. The real number subtracted for stability (`logmax`, the maximum over all
ranks) is an arbitrary argument `m`: the theorems hold for every value.
-/

namespace Verif.ToArray

open Verif.Hilbert (Err)

/-- `int(np.ceil(n_states / n_nodes))` (netket/nn/utils.py:26). -/
def chunk (nStates nodes : Nat) : Nat := (nStates + nodes - 1) / nodes

/-- `np.concatenate([states_n, fake_states_n])` (netket/nn/utils.py:26-31). -/
def padded (nStates nodes : Nat) : List Nat :=
  List.range nStates ++ List.range (chunk nStates nodes * nodes - nStates)

/-- `np.split(…)[rank]` (netket/nn/utils.py:31-33): the numbers of the states of rank `r`. -/
def rankNumbers (nStates nodes r : Nat) : List Nat :=
  ((padded nStates nodes).drop (r * chunk nStates nodes)).take (chunk nStates nodes)

/-- `index_update(x, index[-k:], -inf)` for `k > 0`: the last `k` entries, at most all of them
(netket/nn/utils.py:54-57). -/
def blankLast {A : Type} (k : Nat) (xs : List (Option A)) : List (Option A) :=
  xs.take (xs.length - k) ++ List.replicate (min k xs.length) none

/-- the log-amplitudes of rank `r`, fake ones of the last rank removed (netket/nn/utils.py:49-57). -/
noncomputable def logLocal (nStates nodes r : Nat) (logpsi : Nat → ℂ) : List (Option ℂ) :=
  let xs := rankNumbers nStates nodes r
  let l := xs.map fun k => some (logpsi k)
  let nFake := xs.length * nodes - nStates
  if r = nodes - 1 ∧ 0 < nFake then blankLast nFake l else l

/-- `jnp.exp` with `exp(-inf) = 0` (netket/nn/utils.py:64). -/
noncomputable def expO (x : Option ℂ) : ℂ :=
  match x with
  | some z => Complex.exp z
  | none => 0

/-- `exp(log_psi_local - logmax)`, or without `logmax` if not normalising (netket/nn/utils.py:59-64). -/
noncomputable def psiLocal (nStates nodes r : Nat) (logpsi : Nat → ℂ) (normalize : Bool) (m : ℝ) : List ℂ :=
  (logLocal nStates nodes r logpsi).map fun x =>
    expO (if normalize then x.map (fun z => z - (m : ℂ)) else x)

/-- `norm(psi_local)**2` summed over the ranks (netket/nn/utils.py:66-69). -/
noncomputable def norm2 (nStates nodes : Nat) (logpsi : Nat → ℂ) (m : ℝ) : ℝ :=
  ((List.range nodes).map fun r =>
    ((psiLocal nStates nodes r logpsi true m).map fun z => Complex.normSq z).sum).sum

/-- `to_array` (netket/nn/utils.py:10-77). `numbers_to_states` raises on a number that is not below
`n_states` (netket/hilbert/discrete_hilbert.py:133-134), on the rank that holds it. -/
noncomputable def toArray (nStates nodes : Nat) (logpsi : Nat → ℂ) (normalize : Bool) (m : ℝ) :
    Except Err (List ℂ) :=
  if (List.range nodes).any fun r => (rankNumbers nStates nodes r).any fun k => decide (nStates ≤ k) then
    .error .valueError
  else
    let psi := (List.range nodes).flatMap fun r =>
      (psiLocal nStates nodes r logpsi normalize m).map fun z =>
        if normalize then z / (Real.sqrt (norm2 nStates nodes logpsi m) : ℂ) else z
    .ok (psi.take nStates)

/-- `to_matrix` (netket/nn/utils.py:80-93): row-major reshape to `L × L`, divided by the trace. -/
noncomputable def toMatrix (L nodes : Nat) (logpsi : Nat → ℂ) (normalize : Bool) (m : ℝ) :
    Except Err (Matrix (Fin L) (Fin L) ℂ) :=
  match toArray (L * L) nodes logpsi false m with
  | .error e => .error e
  | .ok psi =>
    let rho : Matrix (Fin L) (Fin L) ℂ := fun i j => psi.getD (i.val * L + j.val) 0
    .ok (if normalize then fun i j => rho i j / rho.trace else rho)

end Verif.ToArray

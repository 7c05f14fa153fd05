import Verif.Model.Expect
import Verif.Model.Padded
import Mathlib.Data.Complex.Basic
import Mathlib.Analysis.SpecialFunctions.Sqrt

/-!
The statistics returned by the states: netket/vqs/mc_state.py:448-558 (`expect`, `expect_and_grad`), 601-694, 698-761 and 764-847 as far as the statistics are
concerned, netket/vqs/mc_mixed_state.py:263-288, netket/vqs/base.py:244-281 and netket/jax/_expect.py:29-59.

The samples of a rank are an array of `T` times `C` configurations (time and chain), as returned by the samplers. Local values are complex numbers (those of
`local_value_squared_kernel` and of `abs(…)**2` are real and embedded). A space is a value of a type with decidable equality.
-/

namespace Verif.ExpectStats
open Verif.Hilbert (Err)
open Verif.Stats (Result statistics pieces)
open Verif.Expect (reshapeAll)

variable {X Hs : Type}

/-- `σ.reshape((-1, σ.shape[-1]))` (mc_state.py:614-615, 648-649). -/
def flat (T C : Nat) (s : Nat → Nat → X) : List X := (List.range T).flatMap fun t => (List.range C).map fun c => s t c

/-- `.T` of an array with `cols` columns (_expect.py:56, mc_state.py:663, mc_mixed_state.py:283). -/
def transpose {K : Type} (cols : Nat) (rows : List (List K)) : List (List K) := (List.range cols).map fun j => rows.filterMap fun r => r[j]?

/-- `mpi_statistics(data)` with complex data whose rows have length `len` (stats/mc_stats.py:136-254), on rank `r`. -/
noncomputable def stats (shards : List (List (List ℂ))) (len r : Nat) : Result ℂ ℝ := statistics (fun z => Complex.normSq z) Real.sqrt shards len 32 r

/-- `nkjax.expect(…, n_chains=n)` (jax/_expect.py:29-59), second component; `shards` are the values of `expected_fun` on the ranks. Without `n_chains` the array has one axis
    and `.T` changes nothing. -/
noncomputable def jaxExpect (nChains : Option Nat) (shards : List (List ℂ)) (r : Nat) : Except Err (Result ℂ ℝ) :=
  match nChains with
  | none => .ok (stats (shards.map fun L => [L]) (shards.getD r []).length r)
  | some n =>
    match reshapeAll n shards with
    | .error e => .error e
    | .ok rows => .ok (stats (rows.map (transpose ((shards.getD r []).length / n))) n r)

/-- `_expect` (mc_state.py:601-634): `n_chains` is the size of the first axis of the samples. -/
noncomputable def expectImpl (T C : Nat) (kernel : X → ℂ) (shards : List (Nat → Nat → X)) (r : Nat) : Except Err (Result ℂ ℝ) :=
  jaxExpect (some T) (shards.map fun s => (flat T C s).map kernel) r

/-- the statistics of `grad_expect_hermitian` (mc_state.py:647-663) and of `expect_operator` (mc_mixed_state.py:264-283): `statistics(O_loc.reshape(σ_shape[:-1]).T)`. -/
noncomputable def reshaped (T C : Nat) (kernel : X → ℂ) (shards : List (Nat → Nat → X)) (r : Nat) : Result ℂ ℝ :=
  stats (shards.map fun s => transpose C (pieces C T ((flat T C s).map kernel))) T r

/-- the statistics of `grad_expect_operator_Lrho2` (mc_state.py:774-808): `statistics((jnp.abs(Lρ) ** 2).T)`, where `Lρ` has one axis. -/
noncomputable def lrho2 (T C : Nat) (kernel : X → ℂ) (shards : List (Nat → Nat → X)) (r : Nat) : Result ℂ ℝ :=
  stats (shards.map fun s => [(flat T C s).map kernel]) ((shards.map fun s => (flat T C s).map kernel).getD r []).length r

/-- an operator given to a state (mc_state.py:448-466, 486-505): its space, whether it is `Squared` and whether the parent is a superoperator, `is_hermitian`, and the local value
    (`local_value_kernel`, mc_state.py:63-64) of the parent, or of the operator itself if it is not squared. -/
structure Op (X Hs : Type) where
  space : Hs
  squared : Bool
  parentSuper : Bool
  hermitian : Bool
  loc : X → ℂ

/-- what is returned: statistics, or the object `NotImplemented` (mc_state.py:449-450, 486-487). -/
inductive Ret where
  | stats (s : Result ℂ ℝ)
  | notImplemented

/-- `local_value_kernel` or `local_value_squared_kernel` (mc_state.py:63-68, 454-458). -/
noncomputable def Op.kernel (o : Op X Hs) : X → ℂ := if o.squared then fun x => (Complex.normSq (o.loc x) : ℂ) else o.loc

section
variable [DecidableEq Hs]

/-- `MCState.expect` (mc_state.py:448-472) on samples of shape `T`, `C`. -/
noncomputable def expect (space : Hs) (T C : Nat) (shards : List (Nat → Nat → X)) (r : Nat) (o : Op X Hs) : Except Err Ret :=
  if space ≠ o.space then .ok .notImplemented
  else match expectImpl T C o.kernel shards r with
    | .error e => .error e
    | .ok s => .ok (.stats s)

/-- the statistics of `grad_expect_operator_kernel` (mc_state.py:710-759): experimental. -/
noncomputable def kernelStats (experimental : Bool) (T C : Nat) (kernel : X → ℂ) (shards : List (Nat → Nat → X)) (r : Nat) : Except Err (Result ℂ ℝ) :=
  if experimental then expectImpl T C kernel shards r else .error .runtimeError

/-- the statistics computed in `MCState.expect_and_grad` (mc_state.py:497-552) for an operator on the space of the state. -/
noncomputable def gradStats (experimental : Bool) (T C : Nat) (shards : List (Nat → Nat → X)) (r : Nat) (o : Op X Hs) (herm : Bool) : Except Err (Result ℂ ℝ) :=
  if herm then
    if o.squared then
      if o.parentSuper then .ok (lrho2 T C (fun x => (Complex.normSq (o.loc x) : ℂ)) shards r)
      else kernelStats experimental T C (fun x => (Complex.normSq (o.loc x) : ℂ)) shards r
    else .ok (reshaped T C o.loc shards r)
  else kernelStats experimental T C o.loc shards r

/-- `MCState.expect_and_grad(O, is_hermitian=…)`, first component (mc_state.py:479-558). -/
noncomputable def expectAndGrad (experimental : Bool) (space : Hs) (T C : Nat) (shards : List (Nat → Nat → X)) (r : Nat) (o : Op X Hs) (isHermitian : Option Bool) :
    Except Err Ret :=
  if space ≠ o.space then .ok .notImplemented
  else match gradStats experimental T C shards r o (isHermitian.getD o.hermitian) with
    | .error e => .error e
    | .ok s => .ok (.stats s)

/-- what an operator on the physical space is to a mixed state (mc_mixed_state.py:263-279): the rows of `get_conn_padded`. -/
structure PhysOp (Xp Hs : Type) where
  space : Hs
  rows : Xp → List (Xp × ℂ)

/-- `MCMixedState.expect` of an operator (base.py:244-252, mc_mixed_state.py:263-283): `shards` are samples of the state, `diag` of its diagonal. -/
noncomputable def expectMixed {Xp : Type} (space physical : Hs) (T C : Nat) (shards : List (Nat → Nat → X)) (Td Cd : Nat) (diag : List (Nat → Nat → Xp)) (logrho : Xp → Xp → ℂ) (r : Nat) :
    Op X Hs ⊕ PhysOp Xp Hs → Except Err Ret
  | .inl o => if space = o.space then expect space T C shards r o else .ok .notImplemented
  | .inr o => if physical = o.space then .ok (.stats (reshaped Td Cd (fun x => Verif.Padded.opOpCost logrho (o.rows x) x) diag r)) else .ok .notImplemented

/-- `MCMixedState.expect_and_grad` (base.py:254-270): the method of `MCState` is called for operators on either space. -/
noncomputable def expectAndGradMixed (experimental : Bool) (space physical : Hs) (T C : Nat) (shards : List (Nat → Nat → X)) (r : Nat) (o : Op X Hs)
    (isHermitian : Option Bool) : Except Err Ret :=
  if space = o.space then expectAndGrad experimental space T C shards r o isHermitian
  else if physical = o.space then expectAndGrad experimental space T C shards r o isHermitian
  else .ok .notImplemented

end

end Verif.ExpectStats

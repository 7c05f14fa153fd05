import Mathlib.Analysis.Calculus.Deriv.Basic
import Mathlib.Data.Real.Basic
import Verif.Model.Stats
import Verif.Model.DiscreteHilbert

/-! Model of `netket/jax/_expect.py` and of `grad_expect_operator_kernel`
(`netket/vqs/mc_state.py:698-761`), for real functions of real parameters.

`shards` are the samples of the ranks. `jax.vjp` is the derivative (`deriv`) in the direction of one
parameter. Derivatives pass through `mpi4jax.allreduce(SUM)` on the rank itself only (its transpose is
the identity), so the gradient computed by a rank is that of its own contribution to the mean. -/

namespace Verif.Expect

open Verif.Hilbert (Err)

/-- `L_σ.reshape((n_chains, -1))` (_expect.py:53-54, 64-65): jax raises TypeError if the size does not
    fit. -/
def reshapeRows {R : Type} (n : Nat) (xs : List R) : Except Err (List (List R)) :=
  if n = 0 ∨ ¬ n ∣ xs.length then .error .typeError
  else .ok (Verif.Stats.pieces (xs.length / n) n xs)

/-- all ranks reshape their samples (netket/jax/_expect.py:54, 65). -/
def reshapeAll {R : Type} (n : Nat) : List (List R) → Except Err (List (List (List R)))
  | [] => .ok []
  | a :: rest =>
    match reshapeRows n a with
    | .error e => .error e
    | .ok r =>
      match reshapeAll n rest with
      | .error e => .error e
      | .ok rs => .ok (r :: rs)

/-- `_expect` (_expect.py:51-59), first component: `mpi_statistics(L_σ.T).mean`; the mean is over all
    entries, so the transposition is left out. -/
def expectValue {R : Type} [Field R] (nChains : Option Nat) (shards : List (List R)) : Except Err R :=
  match nChains with
  | none => .ok (Verif.Stats.mean shards)
  | some n =>
    match reshapeAll n shards with
    | .error e => .error e
    | .ok rows => .ok (Verif.Stats.mean (rows.map List.flatten))

section
variable {P X : Type} [DecidableEq P]

/-- `ΔL_σ = L_σ - L̄_σ` on one rank (_expect.py:62-75). -/
noncomputable def deltaL (mean : ℝ) (L : X → ℝ) (a : List X) : List ℝ := a.map fun x => L x - mean

/-- the contribution of one rank to `f` (_expect.py:88-94): `mpi_mean` of the local mean of
    `ΔL_σ * log_pdf + expected_fun`; `ΔL_σ` are numbers, not functions of the parameters. -/
noncomputable def rankF (nodes : Nat) (d : List ℝ) (logp L : (P → ℝ) → X → ℝ) (a : List X) (θ : P → ℝ) :
    ℝ :=
  Verif.Stats.localMean (List.zipWith (fun (δ : ℝ) (x : X) => δ * logp θ x + L θ x) d a) / nodes

/-- `_expect_bwd` on one rank (_expect.py:84-98), component `k`, for the cotangent `dL̄`. -/
noncomputable def bwdRank (nodes : Nat) (mean : ℝ) (logp L : (P → ℝ) → X → ℝ) (a : List X) (θ : P → ℝ)
    (dout : ℝ) (k : P) : ℝ :=
  dout * deriv (fun t => rankF nodes (deltaL mean (L θ) a) logp L a (Function.update θ k t)) (θ k)

/-- the gradients computed by the ranks: `_expect_fwd` followed by `_expect_bwd`
    (_expect.py:62-101). -/
noncomputable def expectGrads (logp L : (P → ℝ) → X → ℝ) (shards : List (List X)) (θ : P → ℝ) (dout : ℝ)
    (k : P) : List ℝ :=
  let m := Verif.Stats.mean (shards.map fun a => a.map (L θ))
  shards.map fun a => bwdRank shards.length m logp L a θ dout k

/-- `grad_expect_operator_kernel` (mc_state.py:698-761): refused unless NETKET_EXPERIMENTAL is set
    (710-720); cotangent one, then the *mean* over the ranks (754-759). -/
noncomputable def gradKernel (experimental : Bool) (logp L : (P → ℝ) → X → ℝ) (shards : List (List X))
    (θ : P → ℝ) (k : P) : Except Err ℝ :=
  if experimental then .ok (Verif.Stats.mpiMean (expectGrads logp L shards θ 1 k))
  else .error .runtimeError

end

end Verif.Expect

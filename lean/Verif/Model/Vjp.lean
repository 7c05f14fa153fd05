import Verif.Model.DiscreteHilbert
import Verif.Model.Stats
import Mathlib.Analysis.Complex.Basic
import Mathlib.Algebra.BigOperators.Group.Finset.Basic

/-!
Vector-Jacobian products and gradients: netket/jax/_vjp.py, netket/jax/_grad.py and the gradients of
expectation values in netket/vqs/mc_state.py.

A differentiable function enters through its Jacobian at the point: for real parameters and complex
outputs the real matrices `Jr`, `Ji` of its real and imaginary part (which is what `jax.vjp` of the real
and imaginary part returns), for holomorphic functions the complex matrix. Parameters are flattened.
-/

namespace Verif.Vjp

open Verif.Hilbert (Err)
open Complex (I)

variable {N P : Type} [Fintype N]

/-- `jax.vjp` of a real function with real cotangent: `ȳᵀ J` (jax, called in netket/jax/_vjp.py:66,114-120). -/
def vjpReal (J : N → P → ℝ) (y : N → ℝ) : P → ℝ := fun k => ∑ n, y n * J n k

/-- `jax.vjp` of a holomorphic function: `ȳᵀ J` without conjugation (jax, called in netket/jax/_vjp.py:39-41). -/
noncomputable def vjpHol (J : N → P → ℂ) (y : N → ℂ) : P → ℂ := fun k => ∑ n, y n * J n k

/-- `vjp_cc` (netket/jax/_vjp.py:35-57) for a holomorphic function with complex output. -/
noncomputable def vjpCC (J : N → P → ℂ) (conjugate : Bool) (y : N → ℂ) : P → ℂ := fun k =>
  let d := vjpHol J y k
  if conjugate then (starRingEnd ℂ) d else d

/-- `vjp_cc` for complex parameters and *real* output (`C -> R` of netket/jax/_vjp.py:157-158): the cotangent
is cast to the dtype of the output, dropping its imaginary part; `jax.vjp` of a real function of complex
variables returns `ȳᵀ (∂x - i ∂y)`, given as `G`. -/
noncomputable def vjpCR (G : N → P → ℂ) (conjugate : Bool) (y : N → ℂ) : P → ℂ := fun k =>
  let d := ∑ n, ((y n).re : ℂ) * G n k
  if conjugate then (starRingEnd ℂ) d else d

/-- `vjp_rr` (netket/jax/_vjp.py:59-86) with a complex cotangent. -/
noncomputable def vjpRR (J : N → P → ℝ) (conjugate : Bool) (y : N → ℂ) : P → ℂ := fun k =>
  let outR := vjpReal J (fun n => (y n).re) k
  let outI := vjpReal J (fun n => (y n).im) k
  if conjugate then (outR : ℂ) - I * (outI : ℂ) else (outR : ℂ) + I * (outI : ℂ)

/-- `vjp_rc` (netket/jax/_vjp.py:89-144): four real products recombined. -/
noncomputable def vjpRC (Jr Ji : N → P → ℝ) (conjugate : Bool) (y : N → ℂ) : P → ℂ := fun k =>
  let yr := fun n => (y n).re
  let yj := fun n => (y n).im
  let vrjr := vjpReal Jr yr k
  let vjjr := vjpReal Jr yj k
  let vrjj := vjpReal Ji yr k
  let vjjj := vjpReal Ji yj k
  let r := (vrjr : ℂ) + I * (vjjr : ℂ)
  let i := (vrjj : ℂ) + I * (vjjj : ℂ)
  let out := r + I * i
  if conjugate then (starRingEnd ℂ) out else out

/-- `value_and_grad` (netket/jax/_grad.py:92-205) of a scalar function at a point. `outR, gradR` and
`outI, gradI` are value and gradient of its real and imaginary part (real parameters), `valC, gradC` of a
holomorphic function. With `has_aux` the branch `R -> C` unpacks the pair `((value, aux), grad)` returned by
`jax.value_and_grad` into three names: ValueError (165-170). `C -> R` raises RuntimeError (149-150). The
auxiliary output is dropped. -/
noncomputable def valueAndGrad (complexArgs complexOut hasAux : Bool) (outR outI : ℝ) (gradR gradI : P → ℝ)
    (valC : ℂ) (gradC : P → ℂ) : Except Err (ℂ × (P → ℂ)) :=
  if complexArgs then
    if complexOut then .ok (valC, gradC)
    else .error .runtimeError
  else if complexOut then
    if hasAux then .error .valueError
    else .ok ((outR : ℂ) + I * (outI : ℂ), fun k => (gradR k : ℂ) + I * (gradI k : ℂ))
  else .ok ((outR : ℂ), fun k => (gradR k : ℂ))

/-- What a rank holds for the gradient of a Hermitian operator: for every sample its local energy and the
derivatives of the log-amplitude (netket/vqs/mc_state.py:653-692). -/
abbrev Shard (P : Type) := List (ℂ × (P → ℂ))

/-- the contribution of one rank before the sum over ranks (netket/vqs/mc_state.py:665-692), given the mean
over all ranks: local energies centred, conjugated, divided by `n_samples = local * n_nodes`, multiplied
with the Jacobian by `nkjax.vjp(…, conjugate=True)`; the real part for real parameters. -/
noncomputable def gradLocal (complexPars : Bool) (nodes : Nat) (mean : ℂ) (a : Shard P) : P → ℂ := fun k =>
  let nSamples : ℂ := ((a.length * nodes : Nat) : ℂ)
  let y : Fin a.length → ℂ := fun i => (starRingEnd ℂ) ((a.get i).1 - mean) / nSamples
  let J : Fin a.length → P → ℂ := fun i => (a.get i).2
  if complexPars then vjpCC J true y k
  else ((vjpRC (fun i k => (J i k).re) (fun i k => (J i k).im) true y k).re : ℂ)

/-- `grad_expect_hermitian` (netket/vqs/mc_state.py:637-694). -/
noncomputable def gradHermitian (complexPars : Bool) (shards : List (Shard P)) : P → ℂ := fun k =>
  let mean := Verif.Stats.mean (shards.map fun a => a.map Prod.fst)
  Verif.Stats.mpiSum (shards.map fun a => gradLocal complexPars shards.length mean a k)

/-- What a rank holds for `grad_expect_operator_Lrho2`: local value `Lρ`, its derivatives, derivatives of
the log-amplitude (netket/vqs/mc_state.py:796-816). -/
abbrev Shard2 (P : Type) := List (ℂ × (P → ℂ) × (P → ℂ))

/-- `grad_expect_operator_Lrho2` (netket/vqs/mc_state.py:764-848): `der_logs_ave` is the mean over the
samples of all ranks (`mean`, 816) and then summed over the ranks once more (828). -/
noncomputable def gradLrho2 (shards : List (Shard2 P)) : P → ℂ := fun k =>
  let ldagl := Verif.Stats.mean (shards.map fun a => a.map fun s => ((Complex.normSq s.1 : ℝ) : ℂ))
  let ave := Verif.Stats.meanAxis (shards.map fun a => a.map fun s => s.2.2) k
  let ave2 := Verif.Stats.mpiSum (shards.map fun _ => ave)
  Verif.Stats.mean (shards.map fun a => a.map fun s => (starRingEnd ℂ) (s.2.1 k) * s.1) -
    (starRingEnd ℂ) ave2 * ldagl

end Verif.Vjp

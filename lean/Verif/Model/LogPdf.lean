import Verif.Model.HashArray
import Mathlib.Data.Complex.Basic

/-! Model of `Sampler.log_pdf` (`netket/sampler/base.py:160-178`) and of its use as a static argument of a jitted
function, for which `HashablePartial` exists (`netket/jax/utils.py:269-295`). -/

namespace Verif.LogPdf

open Verif.HashArray

/-- the code object of the lambda (base.py:175): there is only one. -/
inductive Code
  | logPdf
deriving DecidableEq

/-- `sampler.log_pdf(model)` (base.py:160-178): a partial of the lambda; the sampler, of which `machine_pow` is used, is in
its closure; the apply function (identified by `V`) is the argument. -/
def logPdf {V : Type} (machinePow : Nat) (applyFun : V) : Partial Code Nat V :=
  ⟨⟨.logPdf, machinePow⟩, [applyFun], []⟩

/-- calling it with parameters and configurations (base.py:175); TypeErrors for other partials are `0`. -/
noncomputable def call {V P S : Type} (apply : V → P → S → ℂ) (f : Partial Code Nat V) (pars : P) (σ : S) : ℝ :=
  match f.args with
  | [a] => (f.func.env : ℝ) * (apply a pars σ).re
  | _ => 0

/-- the cache of `jax.jit(g, static_argnums=0)` (netket/jax/utils.py:270-275): the static values seen so far, with what was
compiled for them. -/
abbrev Cache (V : Type) := List (Partial Code Nat V)

/-- a call of the jitted function (base.py:167: "so that the closure does not trigger recompilation"): the result of `g` on the
log-pdf, and the cache. -/
noncomputable def jitCall {V P S : Type} [DecidableEq V] (apply : V → P → S → ℂ) (cache : Cache V)
    (f : Partial Code Nat V) (pars : P) (σ : S) : ℝ × Cache V :=
  match cache.find? fun g => g.eqb f with
  | some g => (call apply g pars σ, cache)
  | none => (call apply f pars σ, cache ++ [f])

/-- a sequence of calls (base.py:167). -/
noncomputable def jitCalls {V P S : Type} [DecidableEq V] (apply : V → P → S → ℂ) (cache : Cache V) :
    List (Partial Code Nat V × P × S) → List ℝ
  | [] => []
  | (f, p, s) :: rest => (jitCall apply cache f p s).1 :: jitCalls apply (jitCall apply cache f p s).2 rest

end Verif.LogPdf

import Verif.Model.LogPdf
import Mathlib.Analysis.SpecialFunctions.Exp
import Mathlib.Analysis.Complex.Exponential
import Mathlib.Analysis.SpecialFunctions.Complex.Log

/-! C235: the log-pdf of a sampler. C236: its identity as a static argument. -/

namespace Verif.LogPdf

open Verif.HashArray

variable {V P S : Type} [DecidableEq V]

/-- C235: the exponential of the log-pdf is the given power of the modulus of the wave function. -/
theorem C235_density (apply : V → P → S → ℂ) (pow : Nat) (a : V) (pars : P) (σ : S) :
    Real.exp (call apply (logPdf pow a) pars σ) = ‖Complex.exp (apply a pars σ)‖ ^ pow := by
  rw [Complex.norm_exp, ← Real.exp_nat_mul]
  rfl

omit [DecidableEq V] in
/-- C235: log-pdfs of samplers with different powers differ wherever the modulus is not one. -/
theorem C235_distinct (apply : V → P → S → ℂ) (pow pow' : Nat) (hp : pow ≠ pow') (a : V) (pars : P) (σ : S)
    (h : ‖Complex.exp (apply a pars σ)‖ ≠ 1) :
    call apply (logPdf pow a) pars σ ≠ call apply (logPdf pow' a) pars σ := by
  intro e
  have h0 : (apply a pars σ).re ≠ 0 := by
    intro h0; apply h; rw [Complex.norm_exp, h0, Real.exp_zero]
  have e' : (pow : ℝ) * (apply a pars σ).re = (pow' : ℝ) * (apply a pars σ).re := e
  exact hp (Nat.cast_injective (mul_right_cancel₀ h0 e'))

theorem eqb_logPdf (pow pow' : Nat) (a b : V) : (logPdf pow a).eqb (logPdf pow' b) = true ↔ a = b := by
  simp [Partial.eqb, logPdf, dictEq]

/-- C235: two log-pdfs of samplers with the same power compare equal exactly if they belong to the same model, and exactly
then have the same key to hash, so that a function jitted with one of them is not compiled again. -/
theorem C235_equal (pow : Nat) (a b : V) : ((logPdf pow a).eqb (logPdf pow b) = true ↔ a = b) ∧
    ((logPdf pow a).hashKey = (logPdf pow b).hashKey ↔ a = b) := by
  refine ⟨eqb_logPdf pow pow a b, ?_⟩
  simp [Partial.hashKey, logPdf]

/-- the cached functions all belong to samplers with the power `pow`. -/
def Uniform (pow : Nat) (cache : Cache V) : Prop := ∀ g ∈ cache, ∃ a, g = logPdf pow a

theorem jitCall_uniform (apply : V → P → S → ℂ) (pow : Nat) (cache : Cache V) (hc : Uniform pow cache) (a : V)
    (pars : P) (σ : S) :
    (jitCall apply cache (logPdf pow a) pars σ).1 = call apply (logPdf pow a) pars σ ∧
    Uniform pow (jitCall apply cache (logPdf pow a) pars σ).2 := by
  unfold jitCall
  split
  · next g hg =>
    obtain ⟨b, rfl⟩ := hc g (List.mem_of_find?_eq_some hg)
    have := List.find?_some hg
    rw [eqb_logPdf] at this
    rw [this]
    exact ⟨rfl, hc⟩
  · refine ⟨rfl, fun g hg => ?_⟩
    rcases List.mem_append.mp hg with hg | hg
    · exact hc g hg
    · exact ⟨a, List.mem_singleton.mp hg⟩

/-- C235: while all samplers have the same power, a jitted function given log-pdfs as static arguments returns at every
call what the log-pdf of that call gives. -/
theorem C235_jit (apply : V → P → S → ℂ) (pow : Nat) (calls : List (V × P × S)) (cache : Cache V)
    (hc : Uniform pow cache) :
    jitCalls apply cache (calls.map fun c => (logPdf pow c.1, c.2)) =
      calls.map fun c => (pow : ℝ) * (apply c.1 c.2.1 c.2.2).re := by
  induction calls generalizing cache with
  | nil => rfl
  | cons c cs ih =>
    obtain ⟨h1, h2⟩ := jitCall_uniform apply pow cache hc c.1 c.2.1 c.2.2
    rw [List.map_cons, List.map_cons]
    unfold jitCalls
    rw [h1, ih _ h2]
    rfl

example : Uniform (V := Nat) 2 [logPdf 2 0, logPdf 2 7] := by
  intro g hg
  rcases List.mem_cons.mp hg with rfl | hg
  · exact ⟨0, rfl⟩
  · exact ⟨7, List.mem_singleton.mp hg⟩

/-- the amplitude of the example: `exp 1` for the model and the parameters `()`. -/
def exApply : Nat → Unit → Unit → ℂ := fun _ _ _ => 1

example : ‖Complex.exp (exApply 0 () ())‖ ≠ 1 := by
  rw [Complex.norm_exp]
  simp [exApply]

/-- C236: log-pdfs of samplers with different powers compare equal (and hash equally), although they are different
functions. -/
theorem C236_equal_refuted :
    ¬ ∀ (f g : Partial Code Nat Nat), f.eqb g = true → ∀ (apply : Nat → Unit → Unit → ℂ),
      call apply f () () = call apply g () () := by
  intro h
  have := h (logPdf 1 0) (logPdf 2 0) ((eqb_logPdf 1 2 0 0).mpr rfl) exApply
  simp [call, logPdf, exApply] at this

/-- C236: a jitted function called with the log-pdf of a second sampler of another power returns the value for the first
sampler, for all models, parameters, powers. -/
theorem C236_stale_refuted (apply : V → P → S → ℂ) (pow pow' : Nat) (hp : pow ≠ pow') (a : V) (pars : P) (σ : S)
    (h : ‖Complex.exp (apply a pars σ)‖ ≠ 1) :
    jitCalls apply [] [(logPdf pow a, pars, σ), (logPdf pow' a, pars, σ)] =
        [call apply (logPdf pow a) pars σ, call apply (logPdf pow a) pars σ] ∧
    call apply (logPdf pow a) pars σ ≠ call apply (logPdf pow' a) pars σ := by
  refine ⟨?_, C235_distinct apply pow pow' hp a pars σ h⟩
  have e : (logPdf pow a).eqb (logPdf pow' a) = true := (eqb_logPdf pow pow' a a).mpr rfl
  simp [jitCalls, jitCall, e]

/-- C236, the part that holds: equal log-pdfs of samplers of equal powers are the same function. -/
theorem C236_equal_partial (pow : Nat) (a b : V) (h : (logPdf pow a).eqb (logPdf pow b) = true)
    (apply : V → P → S → ℂ) (pars : P) (σ : S) : call apply (logPdf pow a) pars σ = call apply (logPdf pow b) pars σ := by
  rw [(eqb_logPdf pow pow a b).mp h]

example : (logPdf 2 (0 : Nat)).eqb (logPdf 2 0) = true := (eqb_logPdf 2 2 0 0).mpr rfl

end Verif.LogPdf

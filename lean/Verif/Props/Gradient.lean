import Verif.Model.Vjp
import Verif.Props.Stats
import Mathlib.Analysis.SpecialFunctions.ExpDeriv
import Mathlib.Analysis.Calculus.Deriv.Star
import Mathlib.Analysis.Calculus.Deriv.Inv
import Mathlib.Analysis.Complex.RealDeriv
import Mathlib.Algebra.BigOperators.Ring.Finset
import Mathlib.Algebra.BigOperators.Field

/-!
C68: vector-Jacobian products. C59: gradients of expectation values.
-/

namespace Verif.Vjp

open Verif.Hilbert (Err)
open Verif.Stats (avg Equal)
open Complex (I)

variable {N P : Type} [Fintype N]

/-- **R → C.** `vjp` returns `ȳᵀ J` with the complex Jacobian `J = Jr + i Ji`, conjugated if requested, for
every complex cotangent. -/
theorem C68_rc (Jr Ji : N → P → ℝ) (conjugate : Bool) (y : N → ℂ) (k : P) :
    vjpRC Jr Ji conjugate y k =
      let d := ∑ n, y n * ((Jr n k : ℂ) + I * (Ji n k : ℂ))
      if conjugate then (starRingEnd ℂ) d else d := by
  have h : ∑ n, y n * ((Jr n k : ℂ) + I * (Ji n k : ℂ)) =
      ((vjpReal Jr (fun n => (y n).re) k : ℂ) + I * (vjpReal Jr (fun n => (y n).im) k : ℂ)) +
        I * ((vjpReal Ji (fun n => (y n).re) k : ℂ) + I * (vjpReal Ji (fun n => (y n).im) k : ℂ)) := by
    simp only [vjpReal, Complex.ofReal_sum, Finset.mul_sum, ← Finset.sum_add_distrib]
    apply Finset.sum_congr rfl
    intro n _
    have hy : y n = ((y n).re : ℂ) + I * ((y n).im : ℂ) := by
      rw [mul_comm]; exact (Complex.re_add_im (y n)).symm
    conv_lhs => rw [hy]
    push_cast
    ring
  simp only [vjpRC, h]

/-- it is linear in the cotangent. -/
theorem C68_rc_linear (Jr Ji : N → P → ℝ) (y z : N → ℂ) (c : ℂ) (k : P) :
    vjpRC Jr Ji false (fun n => c * y n + z n) k = c * vjpRC Jr Ji false y k + vjpRC Jr Ji false z k := by
  simp only [C68_rc, Bool.false_eq_true, if_false, Finset.mul_sum, ← Finset.sum_add_distrib]
  apply Finset.sum_congr rfl
  intro n _
  ring

/-- **R → R** with a complex cotangent. -/
theorem C68_rr (J : N → P → ℝ) (conjugate : Bool) (y : N → ℂ) (k : P) :
    vjpRR J conjugate y k =
      let d := ∑ n, y n * (J n k : ℂ)
      if conjugate then (starRingEnd ℂ) d else d := by
  have h : ∑ n, y n * (J n k : ℂ) =
      (vjpReal J (fun n => (y n).re) k : ℂ) + I * (vjpReal J (fun n => (y n).im) k : ℂ) := by
    simp only [vjpReal, Complex.ofReal_sum, Finset.mul_sum, ← Finset.sum_add_distrib]
    apply Finset.sum_congr rfl
    intro n _
    have hy : y n = ((y n).re : ℂ) + I * ((y n).im : ℂ) := by
      rw [mul_comm]; exact (Complex.re_add_im (y n)).symm
    conv_lhs => rw [hy]
    push_cast
    ring
  simp only [vjpRR, h]
  cases conjugate
  · simp
  · simp only [if_true, map_add, map_mul, Complex.conj_ofReal, Complex.conj_I]
    ring

/-- **C → C.** -/
theorem C68_cc (J : N → P → ℂ) (conjugate : Bool) (y : N → ℂ) (k : P) :
    vjpCC J conjugate y k =
      let d := ∑ n, y n * J n k
      if conjugate then (starRingEnd ℂ) d else d := rfl

/-- For complex parameters and real output the imaginary part of the cotangent is dropped, so that the
product is not linear over the complex numbers. -/
theorem C124_cr_refuted :
    ¬ ∀ (G : Fin 1 → Fin 1 → ℂ) (y : Fin 1 → ℂ) (c : ℂ),
      vjpCR G false (fun n => c * y n) 0 = c * vjpCR G false y 0 := by
  intro h
  have := h (fun _ _ => 1) (fun _ => 1) I
  simp [vjpCR] at this
  exact Complex.I_ne_zero this.symm

/-- `value_and_grad` without auxiliary output: the value and the complex gradient. -/
theorem C68_value_and_grad (outR outI : ℝ) (gradR gradI : P → ℝ) (valC : ℂ) (gradC : P → ℂ) :
    valueAndGrad false true false outR outI gradR gradI valC gradC =
        .ok ((⟨outR, outI⟩ : ℂ), fun k => (⟨gradR k, gradI k⟩ : ℂ)) ∧
      valueAndGrad true true false outR outI gradR gradI valC gradC = .ok (valC, gradC) ∧
      valueAndGrad false false false outR outI gradR gradI valC gradC = .ok ((outR : ℂ), fun k => (gradR k : ℂ)) := by
  refine ⟨?_, rfl, rfl⟩
  have h : ∀ a b : ℝ, (a : ℂ) + I * (b : ℂ) = ⟨a, b⟩ := by
    intro a b
    apply Complex.ext <;> simp
  simp [valueAndGrad, h]

/-- With auxiliary output and real parameters a complex function cannot be differentiated. -/
theorem C124_has_aux_refuted :
    ¬ ∀ (outR outI : ℝ) (gradR gradI : Fin 1 → ℝ) (valC : ℂ) (gradC : Fin 1 → ℂ),
      ∃ r, valueAndGrad false true true outR outI gradR gradI valC gradC = .ok r := by
  intro h
  obtain ⟨r, hr⟩ := h 0 0 (fun _ => 0) (fun _ => 0) 0 (fun _ => 0)
  simp [valueAndGrad] at hr

/-! ### C59 -/

theorem sum_fin_get {A B : Type} [AddCommMonoid B] (l : List A) (f : A → B) :
    ∑ i : Fin l.length, f (l.get i) = (l.map f).sum := by
  rw [← List.sum_ofFn]
  congr 1
  conv_rhs => rw [← List.ofFn_get l, List.map_ofFn]
  rfl

/-- the contribution of a rank as a sum over its samples. -/
theorem gradLocal_eq (complexPars : Bool) (nodes : Nat) (mean : ℂ) (a : Shard P) (k : P) :
    gradLocal complexPars nodes mean a k =
      let s := (a.map fun x => (starRingEnd ℂ) (x.2 k) * (x.1 - mean)).sum / ((a.length * nodes : Nat) : ℂ)
      if complexPars then s else (s.re : ℂ) := by
  have h : (starRingEnd ℂ) (∑ i : Fin a.length,
      (starRingEnd ℂ) ((a.get i).1 - mean) / ((a.length * nodes : Nat) : ℂ) * (a.get i).2 k) =
      (a.map fun x => (starRingEnd ℂ) (x.2 k) * (x.1 - mean)).sum / ((a.length * nodes : Nat) : ℂ) := by
    rw [sum_fin_get a (fun x => (starRingEnd ℂ) (x.1 - mean) / ((a.length * nodes : Nat) : ℂ) * x.2 k),
      div_eq_mul_inv, ← List.sum_map_mul_right]
    rw [map_list_sum, List.map_map]
    congr 1
    apply List.map_congr_left
    intro x _
    simp only [Function.comp, map_mul, map_div₀, Complex.conj_conj, Complex.conj_natCast]
    ring
  cases complexPars
  · simp only [gradLocal, Bool.false_eq_true, if_false, C68_rc, if_true]
    have h2 : ∀ z : ℂ, (z.re : ℂ) + I * (z.im : ℂ) = z := by
      intro z; rw [mul_comm]; exact Complex.re_add_im z
    simp only [h2]
    rw [h]
  · simp only [gradLocal, if_true, C68_cc]
    rw [h]

/-- specification: `⟨conj(D_k) (E - ⟨E⟩)⟩` over a list of samples. -/
noncomputable def cov (samples : Shard P) (k : P) : ℂ :=
  avg (samples.map fun x => (starRingEnd ℂ) (x.2 k) * (x.1 - avg (samples.map Prod.fst)))

/-- it is the covariance. -/
theorem cov_eq (samples : Shard P) (hne : samples ≠ []) (k : P) :
    cov samples k = avg (samples.map fun x => (starRingEnd ℂ) (x.2 k) * x.1) -
      avg (samples.map fun x => (starRingEnd ℂ) (x.2 k)) * avg (samples.map Prod.fst) := by
  have hs : ∀ (c : ℂ) (l : Shard P), (l.map fun x => (starRingEnd ℂ) (x.2 k) * (x.1 - c)).sum =
      (l.map fun x => (starRingEnd ℂ) (x.2 k) * x.1).sum - (l.map fun x => (starRingEnd ℂ) (x.2 k)).sum * c := by
    intro c l
    induction l with
    | nil => simp
    | cons a t ih => simp only [List.map_cons, List.sum_cons]; rw [ih]; ring
  have h0 : (samples.length : ℂ) ≠ 0 := by
    have := List.length_pos_of_ne_nil hne
    exact_mod_cast this.ne'
  unfold cov
  rw [avg, hs]
  simp only [avg, List.length_map]
  field_simp

/-- **Gradient.** For equal shards the gradient of a Hermitian operator is the covariance of the local
energies with the conjugated log-derivatives over all samples of all ranks; for real parameters its real
part. -/
theorem C59_covariance (complexPars : Bool) (L : Nat) (shards : List (Shard P)) (h : Equal L shards) (k : P) :
    gradHermitian complexPars shards k =
      if complexPars then cov shards.flatten k else ((cov shards.flatten k).re : ℂ) := by
  have hm : Verif.Stats.mean (shards.map fun a => a.map Prod.fst) = avg (shards.flatten.map Prod.fst) := by
    rw [Verif.Stats.C54_mean L, Verif.Stats.map_flatten']
    intro a ha
    rcases List.mem_map.1 ha with ⟨b, hb, rfl⟩
    rw [List.length_map, h b hb]
  have hlen := Verif.Stats.flatten_length h
  have hsum : (shards.map fun a => (a.map fun x => (starRingEnd ℂ) (x.2 k) * (x.1 - avg (shards.flatten.map Prod.fst))).sum /
      ((a.length * shards.length : Nat) : ℂ)).sum = cov shards.flatten k := by
    unfold cov
    generalize avg (shards.flatten.map Prod.fst) = c
    rw [avg, List.length_map, hlen, ← Verif.Stats.map_flatten', ← Verif.Stats.sum_flatten', List.map_map,
      ← Verif.Stats.map_div_sum, List.map_map]
    congr 1
    apply List.map_congr_left
    intro a ha
    simp only [Function.comp, h a ha, Nat.mul_comm]
  rw [gradHermitian]
  simp only [hm, Verif.Stats.mpiSum]
  rw [List.map_congr_left (fun a _ => gradLocal_eq complexPars shards.length _ a k)]
  cases complexPars
  · simp only [Bool.false_eq_true, if_false]
    rw [← hsum, Verif.Stats.sum_re, List.map_map]
    have : ∀ l : List ℝ, ((l.sum : ℝ) : ℂ) = (l.map fun x : ℝ => (x : ℂ)).sum := by
      intro l
      induction l with
      | nil => simp
      | cons a t ih => simp [ih]
    rw [this, List.map_map]
    rfl
  · simp only [if_true]
    exact hsum

/-- independence of the splitting over ranks. -/
theorem C59_shards (complexPars : Bool) (L L' : Nat) (s s' : List (Shard P)) (h : Equal L s) (h' : Equal L' s')
    (hf : s.flatten = s'.flatten) (k : P) :
    gradHermitian complexPars s k = gradHermitian complexPars s' k := by
  rw [C59_covariance complexPars L s h, C59_covariance complexPars L' s' h', hf]

theorem avg_add_const (l : List ℂ) (hne : l ≠ []) (c : ℂ) : avg (l.map fun x => x + c) = avg l + c := by
  have hs : ∀ m : List ℂ, (m.map fun x => x + c).sum = m.sum + m.length * c := by
    intro m
    induction m with
    | nil => simp
    | cons a t ih => simp only [List.map_cons, List.sum_cons, ih, List.length_cons]; push_cast; ring
  have h0 : (l.length : ℂ) ≠ 0 := by
    have := List.length_pos_of_ne_nil hne
    exact_mod_cast this.ne'
  rw [avg, hs, avg, List.length_map]
  field_simp

/-- invariance under adding a constant to the operator, i.e. to all local energies. -/
theorem C59_shift (complexPars : Bool) (L : Nat) (shards : List (Shard P)) (h : Equal L shards)
    (hne : shards.flatten ≠ []) (c : ℂ) (k : P) :
    gradHermitian complexPars (shards.map fun a => a.map fun x => (x.1 + c, x.2)) k =
      gradHermitian complexPars shards k := by
  have h' : Equal L (shards.map fun a => a.map fun x => (x.1 + c, x.2)) := by
    intro a ha
    rcases List.mem_map.1 ha with ⟨b, hb, rfl⟩
    rw [List.length_map, h b hb]
  have hc : cov (shards.flatten.map fun x => (x.1 + c, x.2)) k = cov shards.flatten k := by
    unfold cov
    have e : avg ((shards.flatten.map fun x => (x.1 + c, x.2)).map Prod.fst) =
        avg (shards.flatten.map Prod.fst) + c := by
      rw [← avg_add_const _ (by simpa using hne), List.map_map, List.map_map]
      rfl
    rw [e, List.map_map]
    congr 1
    apply List.map_congr_left
    intro x _
    simp only [Function.comp]
    ring
  rw [C59_covariance complexPars L _ h', C59_covariance complexPars L _ h,
    Verif.Stats.map_flatten' (fun x : ℂ × (P → ℂ) => (x.1 + c, x.2)), hc]

/-! ### comparison with the derivative of the energy -/

section exact

variable {S : Type} [Fintype S]

/-- `⟨ψ|H|ψ⟩/⟨ψ|ψ⟩` of the amplitudes `exp(l s)`. -/
noncomputable def energy (H : S → S → ℂ) (l : S → ℂ) : ℝ :=
  (∑ s, ∑ t, (starRingEnd ℂ) (Complex.exp (l s)) * H s t * Complex.exp (l t)).re /
    ∑ s, Complex.normSq (Complex.exp (l s))

/-- the local energy `Σ_t H(s,t) ψ(t)/ψ(s)`. -/
noncomputable def eLoc (H : S → S → ℂ) (l : S → ℂ) (s : S) : ℂ := ∑ t, H s t * Complex.exp (l t - l s)

/-- the probability of `s`. -/
noncomputable def prob (l : S → ℂ) (s : S) : ℝ :=
  Complex.normSq (Complex.exp (l s)) / ∑ t, Complex.normSq (Complex.exp (l t))

theorem Z_pos [Nonempty S] (l : S → ℂ) : 0 < ∑ s, Complex.normSq (Complex.exp (l s)) :=
  Finset.sum_pos (fun s _ => Complex.normSq_pos.2 (Complex.exp_ne_zero _)) Finset.univ_nonempty

theorem normSq_eLoc (H : S → S → ℂ) (l : S → ℂ) (s : S) :
    (Complex.normSq (Complex.exp (l s)) : ℂ) * eLoc H l s =
      ∑ t, (starRingEnd ℂ) (Complex.exp (l s)) * H s t * Complex.exp (l t) := by
  rw [eLoc, Finset.mul_sum]
  apply Finset.sum_congr rfl
  intro t _
  rw [Complex.exp_sub, Complex.normSq_eq_conj_mul_self]
  field_simp [Complex.exp_ne_zero]

/-- the energy is the average of the local energies. -/
theorem energy_eq (H : S → S → ℂ) (l : S → ℂ) : energy H l = (∑ s, (prob l s : ℂ) * eLoc H l s).re := by
  have : ∀ s, (prob l s : ℂ) * eLoc H l s = (∑ t, (starRingEnd ℂ) (Complex.exp (l s)) * H s t * Complex.exp (l t)) /
      ((∑ t, Complex.normSq (Complex.exp (l t)) : ℝ) : ℂ) := by
    intro s
    rw [← normSq_eLoc, prob]
    push_cast
    ring
  simp only [this]
  rw [← Finset.sum_div, Complex.div_ofReal_re]
  rfl

/-- **Derivative of the energy** along a real parameter: twice the real part of the covariance of the local
energy with the conjugated log-derivative. -/
theorem hasDerivAt_energy [Nonempty S] (H : S → S → ℂ) (hH : ∀ s t, H t s = (starRingEnd ℂ) (H s t))
    (l : ℝ → S → ℂ) (D : S → ℂ) (w : ℝ) (hD : ∀ s, HasDerivAt (fun x => l x s) (D s) w) :
    HasDerivAt (fun x => energy H (l x))
      (2 * (∑ s, (prob (l w) s : ℂ) * ((starRingEnd ℂ) (D s) * (eLoc H (l w) s - (energy H (l w) : ℂ)))).re) w := by
  have hZ := Z_pos (l w)
  have hE : ∀ s, HasDerivAt (fun x => Complex.exp (l x s)) (Complex.exp (l w s) * D s) w := fun s => (hD s).cexp
  have hC : ∀ s, HasDerivAt (fun x => (starRingEnd ℂ) (Complex.exp (l x s)))
      ((starRingEnd ℂ) (Complex.exp (l w s) * D s)) w := fun s => (hE s).star
  -- numerator
  have hA : HasDerivAt (fun x => ∑ s, ∑ t, (starRingEnd ℂ) (Complex.exp (l x s)) * H s t * Complex.exp (l x t))
      (∑ s, ∑ t, ((starRingEnd ℂ) (Complex.exp (l w s) * D s) * H s t * Complex.exp (l w t) +
        (starRingEnd ℂ) (Complex.exp (l w s)) * H s t * (Complex.exp (l w t) * D t))) w := by
    apply HasDerivAt.fun_sum
    intro s _
    apply HasDerivAt.fun_sum
    intro t _
    exact ((hC s).mul_const (H s t)).mul (hE t)
  have hA' := Complex.reCLM.hasFDerivAt.comp_hasDerivAt w hA
  -- denominator
  have hB1 : HasDerivAt (fun x => ∑ s, (starRingEnd ℂ) (Complex.exp (l x s)) * Complex.exp (l x s))
      (∑ s, ((starRingEnd ℂ) (Complex.exp (l w s) * D s) * Complex.exp (l w s) +
        (starRingEnd ℂ) (Complex.exp (l w s)) * (Complex.exp (l w s) * D s))) w := by
    apply HasDerivAt.fun_sum
    intro s _
    exact (hC s).mul (hE s)
  have hB' := Complex.reCLM.hasFDerivAt.comp_hasDerivAt w hB1
  have hBf : (fun x => ∑ s, Complex.normSq (Complex.exp (l x s))) =
      Complex.reCLM ∘ fun x => ∑ s, (starRingEnd ℂ) (Complex.exp (l x s)) * Complex.exp (l x s) := by
    funext x
    simp only [Function.comp, Complex.reCLM_apply]
    rw [Complex.re_sum]
    apply Finset.sum_congr rfl
    intro s _
    rw [← Complex.normSq_eq_conj_mul_self, Complex.ofReal_re]
  have hB : HasDerivAt (fun x => ∑ s, Complex.normSq (Complex.exp (l x s))) _ w := hBf ▸ hB'
  have hq := hA'.div hB hZ.ne'
  refine HasDerivAt.congr_deriv (f := fun x => energy H (l x)) hq ?_
  have hX : ∑ s, ∑ t, (starRingEnd ℂ) (Complex.exp (l w s) * D s) * H s t * Complex.exp (l w t) =
      ∑ s, (starRingEnd ℂ) (D s) * ((Complex.normSq (Complex.exp (l w s)) : ℂ) * eLoc H (l w) s) := by
    apply Finset.sum_congr rfl
    intro s _
    rw [normSq_eLoc, Finset.mul_sum]
    apply Finset.sum_congr rfl
    intro t _
    rw [map_mul]
    ring
  have hX2 : ∑ s, ∑ t, (starRingEnd ℂ) (Complex.exp (l w s)) * H s t * (Complex.exp (l w t) * D t) =
      (starRingEnd ℂ) (∑ s, ∑ t, (starRingEnd ℂ) (Complex.exp (l w s) * D s) * H s t * Complex.exp (l w t)) := by
    rw [Finset.sum_comm, map_sum]
    apply Finset.sum_congr rfl
    intro s _
    rw [map_sum]
    apply Finset.sum_congr rfl
    intro t _
    rw [map_mul, map_mul, Complex.conj_conj, hH s t]
    ring
  obtain ⟨X, hXd⟩ : ∃ X, X = ∑ s, (starRingEnd ℂ) (D s) *
    ((Complex.normSq (Complex.exp (l w s)) : ℂ) * eLoc H (l w) s) := ⟨_, rfl⟩
  obtain ⟨Y, hYd⟩ : ∃ Y, Y = ∑ s, (starRingEnd ℂ) (D s) * (Complex.normSq (Complex.exp (l w s)) : ℂ) := ⟨_, rfl⟩
  obtain ⟨Z, hZd⟩ : ∃ Z, Z = ∑ s, Complex.normSq (Complex.exp (l w s)) := ⟨_, rfl⟩
  have e1 : (∑ s, ∑ t, ((starRingEnd ℂ) (Complex.exp (l w s) * D s) * H s t * Complex.exp (l w t) +
        (starRingEnd ℂ) (Complex.exp (l w s)) * H s t * (Complex.exp (l w t) * D t))).re = 2 * X.re := by
    simp only [Finset.sum_add_distrib]
    rw [hX2, hX, ← hXd, Complex.add_re, Complex.conj_re]
    ring
  have e2 : (∑ s, ((starRingEnd ℂ) (Complex.exp (l w s) * D s) * Complex.exp (l w s) +
        (starRingEnd ℂ) (Complex.exp (l w s)) * (Complex.exp (l w s) * D s))).re = 2 * Y.re := by
    have : ∀ s, (starRingEnd ℂ) (Complex.exp (l w s) * D s) * Complex.exp (l w s) +
        (starRingEnd ℂ) (Complex.exp (l w s)) * (Complex.exp (l w s) * D s) =
        (starRingEnd ℂ) (D s) * (Complex.normSq (Complex.exp (l w s)) : ℂ) +
          (starRingEnd ℂ) ((starRingEnd ℂ) (D s) * (Complex.normSq (Complex.exp (l w s)) : ℂ)) := by
      intro s
      rw [map_mul, map_mul, Complex.conj_conj, Complex.conj_ofReal, Complex.normSq_eq_conj_mul_self]
      ring
    simp only [this, Finset.sum_add_distrib, ← map_sum]
    rw [← hYd, Complex.add_re, Complex.conj_re]
    ring
  have e3 : (∑ s, (prob (l w) s : ℂ) * ((starRingEnd ℂ) (D s) * (eLoc H (l w) s - (energy H (l w) : ℂ)))) =
      (X - (energy H (l w) : ℂ) * Y) / (Z : ℂ) := by
    rw [hXd, hYd, Finset.mul_sum, ← Finset.sum_sub_distrib, Finset.sum_div]
    apply Finset.sum_congr rfl
    intro s _
    rw [prob, ← hZd]
    push_cast
    ring
  have e4 : energy H (l w) = (∑ s, ∑ t, (starRingEnd ℂ) (Complex.exp (l w s)) * H s t * Complex.exp (l w t)).re / Z := by
    rw [energy, hZd]
  simp only [Complex.reCLM_apply, Function.comp]
  rw [e1, e2, e3, ← hZd, Complex.div_ofReal_re, Complex.sub_re, Complex.re_ofReal_mul, e4]
  rw [← hZd] at hZ
  field_simp

/-- the samples represent the distribution of the state exactly: averages over them are averages over
`|ψ|²`. -/
def Represents (l : S → ℂ) (samples : List S) : Prop :=
  ∀ s, (((samples.filter fun t => @decide (t = s) (Classical.dec _)).length : ℕ) : ℝ) =
    samples.length * prob l s

theorem avg_represents (l : S → ℂ) (samples : List S) (hne : samples ≠ []) (h : Represents l samples) (f : S → ℂ) :
    avg (samples.map f) = ∑ s, (prob l s : ℂ) * f s := by
  classical
  have h0 : (samples.length : ℂ) ≠ 0 := by
    have := List.length_pos_of_ne_nil hne
    exact_mod_cast this.ne'
  have hsum : ∀ m : List S, (m.map f).sum =
      ∑ s, (((m.filter fun t => @decide (t = s) (Classical.dec _)).length : ℕ) : ℂ) * f s := by
    intro m
    induction m with
    | nil => simp
    | cons a t ih =>
      rw [List.map_cons, List.sum_cons, ih]
      have : f a = ∑ s, (if a = s then (1 : ℂ) else 0) * f s := by simp
      rw [this, ← Finset.sum_add_distrib]
      apply Finset.sum_congr rfl
      intro s _
      by_cases hs : a = s
      · simp [List.filter_cons, hs]; ring
      · simp [List.filter_cons, hs]
  rw [avg, hsum, List.length_map, Finset.sum_div]
  apply Finset.sum_congr rfl
  intro s _
  have := h s
  have h2 : (((samples.filter fun t => @decide (t = s) (Classical.dec _)).length : ℕ) : ℂ) =
      samples.length * (prob l s : ℂ) := by exact_mod_cast this
  rw [h2]
  field_simp

/-- the data of the samples: local energies and log-derivatives. -/
noncomputable def dataOf (H : S → S → ℂ) (l : S → ℂ) (D : S → P → ℂ) (samples : List S) : Shard P :=
  samples.map fun s => (eLoc H l s, D s)

theorem herm_energy (H : S → S → ℂ) (hH : ∀ s t, H t s = (starRingEnd ℂ) (H s t)) (l : S → ℂ) :
    (energy H l : ℂ) = ∑ s, (prob l s : ℂ) * eLoc H l s := by
  have him : (∑ s, ∑ t, (starRingEnd ℂ) (Complex.exp (l s)) * H s t * Complex.exp (l t)).im = 0 := by
    rw [← Complex.conj_eq_iff_im, map_sum]
    simp only [map_sum]
    rw [Finset.sum_comm]
    apply Finset.sum_congr rfl
    intro s _
    apply Finset.sum_congr rfl
    intro t _
    rw [map_mul, map_mul, Complex.conj_conj, hH s t, Complex.conj_conj]
    ring
  have : ∀ s, (prob l s : ℂ) * eLoc H l s = (∑ t, (starRingEnd ℂ) (Complex.exp (l s)) * H s t * Complex.exp (l t)) /
      ((∑ t, Complex.normSq (Complex.exp (l t)) : ℝ) : ℂ) := by
    intro s
    rw [← normSq_eLoc, prob]
    push_cast
    ring
  simp only [this]
  rw [← Finset.sum_div, energy]
  apply Complex.ext
  · rw [Complex.ofReal_re, Complex.div_ofReal_re]
  · rw [Complex.ofReal_im, Complex.div_ofReal_im, him, zero_div]

/-- the covariance over representative samples. -/
theorem cov_represents (H : S → S → ℂ) (hH : ∀ s t, H t s = (starRingEnd ℂ) (H s t)) (l : S → ℂ)
    (D : S → P → ℂ) (samples : List S) (hne : samples ≠ []) (h : Represents l samples) (k : P) :
    cov (dataOf H l D samples) k =
      ∑ s, (prob l s : ℂ) * ((starRingEnd ℂ) (D s k) * (eLoc H l s - (energy H l : ℂ))) := by
  have e1 : avg ((dataOf H l D samples).map Prod.fst) = (energy H l : ℂ) := by
    rw [dataOf, List.map_map, herm_energy H hH, ← avg_represents l samples hne h]
    rfl
  unfold cov
  rw [e1, dataOf, List.map_map,
    ← avg_represents l samples hne h (fun s => (starRingEnd ℂ) (D s k) * (eLoc H l s - (energy H l : ℂ)))]
  rfl

/-- **Complex parameters.** On samples that represent `|ψ|²` exactly, for a Hermitian operator and a
log-amplitude holomorphic in parameter `k`, the derivative of the energy in any complex direction `v` is
`2 Re(conj(v) F_k)` with the returned gradient `F`. -/
theorem C59_gradient_complex [Nonempty S] (H : S → S → ℂ) (hH : ∀ s t, H t s = (starRingEnd ℂ) (H s t))
    (l : ℂ → S → ℂ) (D : S → P → ℂ) (w : ℂ) (k : P) (hD : ∀ s, HasDerivAt (fun x => l x s) (D s k) w)
    (L : Nat) (shards : List (List S)) (hL : Equal L shards) (hne : shards.flatten ≠ [])
    (hr : Represents (l w) shards.flatten) (v : ℂ) :
    HasDerivAt (fun t : ℝ => energy H (l (w + t * v)))
      (2 * ((starRingEnd ℂ) v * gradHermitian true (shards.map (dataOf H (l w) D)) k).re) 0 := by
  have hL' : Equal L (shards.map (dataOf H (l w) D)) := by
    intro a ha
    rcases List.mem_map.1 ha with ⟨b, hb, rfl⟩
    rw [dataOf, List.length_map, hL b hb]
  have hfl : (shards.map (dataOf H (l w) D)).flatten = dataOf H (l w) D shards.flatten :=
    Verif.Stats.map_flatten' _ _
  have hdir : ∀ s, HasDerivAt (fun t : ℝ => l (w + t * v) s) (D s k * v) 0 := by
    intro s
    have h1 : HasDerivAt (fun t : ℝ => w + (t : ℂ) * v) v 0 := by
      have := ((Complex.ofRealCLM.hasDerivAt (x := (0 : ℝ))).mul_const v).const_add w
      simpa using this
    have h2 : HasDerivAt (fun x => l x s) (D s k) (w + ((0 : ℝ) : ℂ) * v) := by simpa using hD s
    exact h2.comp (0 : ℝ) h1
  have hmain := hasDerivAt_energy H hH (fun t : ℝ => l (w + t * v)) (fun s => D s k * v) 0 hdir
  have h0 : l (w + ((0 : ℝ) : ℂ) * v) = l w := by simp
  simp only [h0] at hmain
  convert hmain using 2
  rw [C59_covariance true L _ hL', if_pos rfl, hfl, cov_represents H hH _ D _ hne hr, Finset.mul_sum]
  congr 1
  apply Finset.sum_congr rfl
  intro s _
  rw [map_mul]
  ring

/-- **Real parameters.** The derivative of the energy is *twice* the returned gradient. -/
theorem C121_gradient_real_partial [Nonempty S] (H : S → S → ℂ) (hH : ∀ s t, H t s = (starRingEnd ℂ) (H s t))
    (l : ℝ → S → ℂ) (D : S → P → ℂ) (w : ℝ) (k : P) (hD : ∀ s, HasDerivAt (fun x => l x s) (D s k) w)
    (L : Nat) (shards : List (List S)) (hL : Equal L shards) (hne : shards.flatten ≠ [])
    (hr : Represents (l w) shards.flatten) :
    HasDerivAt (fun x => energy H (l x))
      (2 * (gradHermitian false (shards.map (dataOf H (l w) D)) k).re) w := by
  have hL' : Equal L (shards.map (dataOf H (l w) D)) := by
    intro a ha
    rcases List.mem_map.1 ha with ⟨b, hb, rfl⟩
    rw [dataOf, List.length_map, hL b hb]
  have hfl : (shards.map (dataOf H (l w) D)).flatten = dataOf H (l w) D shards.flatten :=
    Verif.Stats.map_flatten' _ _
  have hmain := hasDerivAt_energy H hH l (fun s => D s k) w hD
  rw [C59_covariance false L _ hL', if_neg (by simp), hfl, cov_represents H hH _ D _ hne hr, Complex.ofReal_re]
  exact hmain

end exact

/-- the one-parameter state `(1, e^w)` on two configurations. -/
def lw (w : ℝ) (s : Fin 2) : ℂ := if s = 0 then 0 else (w : ℂ)

theorem lw_zero : lw 0 = fun _ => 0 := by
  funext s
  simp [lw]

theorem lw_represents : Represents (lw 0) [0, 1] := by
  intro s
  rw [lw_zero]
  fin_cases s <;> simp [prob] <;> norm_num

theorem lw_deriv (w : ℝ) (s : Fin 2) : HasDerivAt (fun x => lw x s) (if s = 0 then 0 else 1) w := by
  unfold lw
  by_cases h : s = 0
  · simp only [h, if_true]; exact hasDerivAt_const _ _
  · simp only [h, if_false]; exact Complex.ofRealCLM.hasDerivAt

/-- a diagonal Hamiltonian with energies 0 and 1. -/
def Hw (s t : Fin 2) : ℂ := if s = 1 ∧ t = 1 then 1 else 0

theorem Hw_herm (s t : Fin 2) : Hw t s = (starRingEnd ℂ) (Hw s t) := by
  fin_cases s <;> fin_cases t <;> simp [Hw]

/-- For real parameters the returned gradient is not the derivative of the energy: it is half of it. Here
the derivative at `w = 0` is 1/2 and the gradient 1/4. -/
theorem C121_gradient_real_refuted :
    ¬ ∀ (l : ℝ → Fin 2 → ℂ) (D : Fin 2 → Fin 1 → ℂ) (H : Fin 2 → Fin 2 → ℂ) (w : ℝ) (samples : List (Fin 2)),
      (∀ s t, H t s = (starRingEnd ℂ) (H s t)) → (∀ s, HasDerivAt (fun x => l x s) (D s 0) w) →
      samples ≠ [] → Represents (l w) samples →
      HasDerivAt (fun x => energy H (l x)) (gradHermitian false [dataOf H (l w) D samples] 0).re w := by
  intro h
  have h1 := h lw (fun s _ => if s = 0 then 0 else 1) Hw 0 [0, 1] Hw_herm (fun s => lw_deriv 0 s) (by simp)
    lw_represents
  have h2 := C121_gradient_real_partial Hw Hw_herm lw (fun s (_ : Fin 1) => if s = 0 then 0 else 1) 0 0
    (fun s => lw_deriv 0 s) 2 [[0, 1]] (by simp [Equal]) (by simp) (by simpa using lw_represents)
  have h3 := h1.unique h2
  have h4 : (gradHermitian false [dataOf Hw (lw 0) (fun s (_ : Fin 1) => if s = 0 then 0 else 1) [0, 1]] 0).re = 1 / 4 := by
    rw [C59_covariance false 2 _ (by simp [Equal, dataOf]), if_neg (by simp), Complex.ofReal_re, lw_zero]
    have he : ∀ s : Fin 2, eLoc Hw (fun _ => 0) s = if s = 0 then 0 else 1 := by
      intro s
      fin_cases s <;> simp [eLoc, Hw, Fin.sum_univ_two]
    simp [cov, dataOf, he, avg]
    norm_num
  simp only [List.map_cons, List.map_nil] at h3
  rw [h4] at h3
  norm_num at h3

/-! ### the gradient of `|Lρ|²` -/

/-- what `grad_expect_operator_Lrho2` returns on equal shards: the average log-derivative enters
multiplied by the number of ranks. -/
theorem lrho2_eq (L : Nat) (shards : List (Shard2 P)) (h : Equal L shards) (k : P) :
    gradLrho2 shards k = avg (shards.flatten.map fun s => (starRingEnd ℂ) (s.2.1 k) * s.1) -
      (shards.length : ℂ) * ((starRingEnd ℂ) (avg (shards.flatten.map fun s => s.2.2 k)) *
        avg (shards.flatten.map fun s => ((Complex.normSq s.1 : ℝ) : ℂ))) := by
  have hmap : ∀ f : (ℂ × (P → ℂ) × (P → ℂ)) → ℂ, Verif.Stats.mean (shards.map fun a => a.map f) =
      avg (shards.flatten.map f) := by
    intro f
    rw [Verif.Stats.C54_mean L, Verif.Stats.map_flatten']
    intro a ha
    rcases List.mem_map.1 ha with ⟨b, hb, rfl⟩
    rw [List.length_map, h b hb]
  have hax : Verif.Stats.meanAxis (shards.map fun a => a.map fun s => s.2.2) k =
      avg (shards.flatten.map fun s => s.2.2 k) := by
    rw [← hmap, Verif.Stats.meanAxis, List.map_map]
    congr 1
    apply List.map_congr_left
    intro a _
    simp [Function.comp]
  simp only [gradLrho2, hmap, hax, Verif.Stats.mpiSum]
  have : ∀ c : ℂ, (shards.map fun _ => c).sum = (shards.length : ℂ) * c := by
    intro c
    simp
  rw [this, map_mul, Complex.conj_natCast]
  ring

/-- specification: `⟨conj(∂Lρ) Lρ⟩ - conj⟨D⟩ ⟨|Lρ|²⟩` over all samples. -/
noncomputable def lrho2Spec (samples : Shard2 P) (k : P) : ℂ :=
  avg (samples.map fun s => (starRingEnd ℂ) (s.2.1 k) * s.1) -
    (starRingEnd ℂ) (avg (samples.map fun s => s.2.2 k)) * avg (samples.map fun s => ((Complex.normSq s.1 : ℝ) : ℂ))

/-- on one rank this is what is returned. -/
theorem C121_lrho2_partial (a : Shard2 P) (k : P) : gradLrho2 [a] k = lrho2Spec a k := by
  rw [lrho2_eq a.length [a] (by simp [Equal])]
  simp [lrho2Spec]

/-- On several ranks it is not: the same two samples on two ranks give another gradient. -/
theorem C121_lrho2_refuted :
    ¬ ∀ (L : Nat) (shards : List (Shard2 (Fin 1))), Equal L shards → ∀ k,
      gradLrho2 shards k = lrho2Spec shards.flatten k := by
  intro h
  have h1 := h 1 [[(1, fun _ => 0, fun _ => 1)], [(1, fun _ => 0, fun _ => 1)]] (by simp [Equal]) 0
  rw [lrho2_eq 1 _ (by simp [Equal])] at h1
  simp [lrho2Spec, avg] at h1

/-- two ranks with one sample each; the gradient does not vanish. -/
example : Equal 1 [[((1 : ℂ), fun _ : Fin 1 => (1 : ℂ))], [((0 : ℂ), fun _ : Fin 1 => (0 : ℂ))]] ∧
    gradHermitian true [[((1 : ℂ), fun _ : Fin 1 => (1 : ℂ))], [((0 : ℂ), fun _ : Fin 1 => (0 : ℂ))]] 0 = 1 / 4 := by
  have h : Equal 1 [[((1 : ℂ), fun _ : Fin 1 => (1 : ℂ))], [((0 : ℂ), fun _ : Fin 1 => (0 : ℂ))]] := by
    simp [Equal]
  refine ⟨h, ?_⟩
  rw [C59_covariance true 1 _ h]
  simp [cov, avg]
  norm_num

/-- the hypotheses of `C59_gradient_complex`: two states with the weight of one drawn each. -/
example := C59_gradient_complex (P := Unit) (S := Fin 2) (fun _ _ => 1) (by simp) (fun x s => x * ((s : ℕ) : ℂ)) (fun s _ => ((s : ℕ) : ℂ)) 0 ()
  (fun s => by simpa using (hasDerivAt_id (0 : ℂ)).mul_const ((s : ℕ) : ℂ)) 1 [[0], [1]] (by simp [Equal]) (by simp) (by
    intro s
    fin_cases s <;> simp [prob]) 1

end Verif.Vjp

import Verif.Model.Optax
import Mathlib.Algebra.BigOperators.Intervals
import Mathlib.Algebra.BigOperators.Ring.Finset
import Mathlib.Algebra.Order.BigOperators.Ring.Finset
import Mathlib.Tactic.Linarith
import Mathlib.Tactic.Positivity
import Mathlib.Tactic.FieldSimp
import Mathlib.Tactic.Ring
import Mathlib.Tactic.NormNum

/-! C223, C224: the optimizers. -/

namespace Verif.Optax

open Finset

noncomputable section

/-! ## Specification: the documented update rules -/

/-- the documented momentum: an exponentially weighted average, starting from zero. -/
def docM (beta : ℝ) (g : Nat → ℝ) : Nat → ℝ
  | 0 => 0
  | n + 1 => beta * docM beta g n + (1 - beta) * g n

/-- the documented momentum descent. -/
def docMomentum (lr beta : ℝ) (g : Nat → ℝ) (p : ℝ) : Nat → ℝ
  | 0 => p
  | n + 1 => docMomentum lr beta g p n - lr * docM beta g (n + 1)

/-- the documented accumulator of AdaGrad, starting from zero. -/
def docSum (g : Nat → ℝ) (n : Nat) : ℝ := ∑ i ∈ range n, g i ^ 2

/-- the documented moving average of RMSProp, starting from zero. -/
def docS (beta : ℝ) (g : Nat → ℝ) : Nat → ℝ
  | 0 => 0
  | n + 1 => beta * docS beta g n + (1 - beta) * g n ^ 2

/-! ## C223 -/

theorem param_succ {St : Type} (o : Optimizer St) (g : Nat → ℝ) (p : ℝ) (n : Nat) :
    param o g p (n + 1) = param o g p n + (o.update (g n) (runOpt o g p n).1).1 := rfl

/-- C223: stochastic gradient descent. -/
theorem C223_sgd (lr : ℝ) (g : Nat → ℝ) (p : ℝ) (n : Nat) :
    param (sgd lr) g p n = p - lr * ∑ i ∈ range n, g i := by
  induction n with
  | zero => simp [param, runOpt]
  | succ n ih =>
    rw [param_succ, ih, sum_range_succ]
    simp only [sgd]
    ring

/-- the trace of the momentum optimizer. -/
theorem momentum_state (lr beta : ℝ) (nes : Bool) (g : Nat → ℝ) (p : ℝ) (n : Nat) :
    ((runOpt (momentum lr beta nes) g p n).1 : ℝ) = ∑ i ∈ range n, beta ^ (n - 1 - i) * g i := by
  induction n with
  | zero => simp [runOpt, momentum]
  | succ n ih =>
    have hstep : ((runOpt (momentum lr beta nes) g p (n + 1)).1 : ℝ)
        = g n + beta * ((runOpt (momentum lr beta nes) g p n).1 : ℝ) := rfl
    rw [hstep, ih, sum_range_succ, mul_sum]
    simp only [Nat.add_sub_cancel, Nat.sub_self, pow_zero, one_mul]
    rw [add_comm]
    congr 1
    refine sum_congr rfl fun i hi => ?_
    rw [mem_range] at hi
    rw [← mul_assoc, ← pow_succ']
    congr 2
    omega

/-- C223: momentum: every update is `-lr` times the sum of all gradients so far, damped by `beta` per step; with `nesterov` the
    newest gradient is added to the damped sum once more. -/
theorem C223_momentum (lr beta : ℝ) (g : Nat → ℝ) (p : ℝ) (n : Nat) :
    param (momentum lr beta false) g p (n + 1) - param (momentum lr beta false) g p n
        = -lr * ∑ i ∈ range (n + 1), beta ^ (n - i) * g i
    ∧ param (momentum lr beta true) g p (n + 1) - param (momentum lr beta true) g p n
        = -lr * (g n + beta * ∑ i ∈ range (n + 1), beta ^ (n - i) * g i) := by
  have key : ∀ nes, g n + beta * ((runOpt (momentum lr beta nes) g p n).1 : ℝ)
      = ∑ i ∈ range (n + 1), beta ^ (n - i) * g i := by
    intro nes
    have := momentum_state lr beta nes g p (n + 1)
    simp only [Nat.add_sub_cancel] at this
    rw [← this]
    rfl
  constructor
  · rw [param_succ, ← key false]
    simp [momentum]
  · rw [param_succ, ← key true]
    simp [momentum]

/-- the documented momentum is `1 - beta` times the trace. -/
theorem docM_eq (beta : ℝ) (g : Nat → ℝ) (n : Nat) : docM beta g n = (1 - beta) * ∑ i ∈ range n, beta ^ (n - 1 - i) * g i := by
  rw [← momentum_state 0 beta false g 0 n]
  induction n with
  | zero => simp [docM, runOpt, momentum]
  | succ n ih =>
    have hstep : ((runOpt (momentum 0 beta false) g 0 (n + 1)).1 : ℝ)
        = g n + beta * ((runOpt (momentum 0 beta false) g 0 n).1 : ℝ) := rfl
    rw [docM, ih, hstep]
    ring

/-- C223: momentum with learning rate `lr` is the documented momentum with learning rate `lr / (1 - beta)`. -/
theorem C223_momentum_rescaled (lr beta : ℝ) (hb : beta ≠ 1) (g : Nat → ℝ) (p : ℝ) (n : Nat) :
    param (momentum lr beta false) g p n = docMomentum (lr / (1 - beta)) beta g p n := by
  have h1 : 1 - beta ≠ 0 := sub_ne_zero.2 (Ne.symm hb)
  induction n with
  | zero => rfl
  | succ n ih =>
    have h := (C223_momentum lr beta g p n).1
    rw [docMomentum, ← ih, docM_eq]
    simp only [Nat.add_sub_cancel]
    rw [← mul_assoc, div_mul_cancel₀ _ h1]
    linarith

/-- C223: AdaGrad with a non-negative initial accumulator: every update is the gradient divided by the root of the accumulated
    squares (including the newest one); it never exceeds the learning rate. -/
theorem C223_adagrad (lr eps init : ℝ) (hi : 0 ≤ init) (he : 0 < eps) (g : Nat → ℝ) (p : ℝ) (n : Nat) :
    param (adagrad lr eps init) g p (n + 1) - param (adagrad lr eps init) g p n
        = -lr * g n / Real.sqrt (init + docSum g (n + 1) + eps)
    ∧ |param (adagrad lr eps init) g p (n + 1) - param (adagrad lr eps init) g p n| ≤ |lr| := by
  have hst : ∀ n, ((runOpt (adagrad lr eps init) g p n).1 : ℝ) = init + docSum g n := by
    intro n
    induction n with
    | zero => simp [runOpt, adagrad, docSum]
    | succ n ih =>
      have hstep : ((runOpt (adagrad lr eps init) g p (n + 1)).1 : ℝ)
          = ((runOpt (adagrad lr eps init) g p n).1 : ℝ) + g n ^ 2 := rfl
      rw [hstep, ih, docSum, docSum, sum_range_succ]
      ring
  have hsum : init + docSum g n + g n ^ 2 = init + docSum g (n + 1) := by
    rw [docSum, docSum, sum_range_succ]; ring
  have hds : 0 ≤ docSum g n := sum_nonneg fun i _ => sq_nonneg _
  have hupd : param (adagrad lr eps init) g p (n + 1) - param (adagrad lr eps init) g p n
      = -lr * g n / Real.sqrt (init + docSum g (n + 1) + eps) := by
    have hs := hst n
    rw [param_succ]
    have hu : ((adagrad lr eps init).update (g n) (runOpt (adagrad lr eps init) g p n).1).1
        = -lr * (g n * if 0 < (init + docSum g n) + g n ^ 2 then 1 / Real.sqrt ((init + docSum g n) + g n ^ 2 + eps) else 0) := by
      rw [← hs]; rfl
    rw [hu, hsum]
    by_cases h : 0 < init + docSum g (n + 1)
    · rw [if_pos h]; ring
    · rw [if_neg h]
      have : g n ^ 2 ≤ 0 := by
        rw [← hsum] at h
        linarith
      have : g n = 0 := by
        have := sq_nonneg (g n)
        exact pow_eq_zero_iff (two_ne_zero) |>.1 (le_antisymm ‹_› this)
      rw [this]
      simp
  refine ⟨hupd, ?_⟩
  rw [hupd, abs_div, abs_mul, abs_neg]
  have hpos : 0 < init + docSum g (n + 1) + eps := by rw [← hsum]; positivity
  rw [abs_of_pos (Real.sqrt_pos.2 hpos), div_le_iff₀ (Real.sqrt_pos.2 hpos)]
  refine mul_le_mul_of_nonneg_left ?_ (abs_nonneg _)
  rw [← Real.sqrt_sq_eq_abs]
  refine Real.sqrt_le_sqrt ?_
  rw [← hsum]
  linarith

/-- the moving averages of RMSProp. -/
theorem rms_state (lr beta eps : ℝ) (c : Bool) (g : Nat → ℝ) (p : ℝ) (n : Nat) :
    ((runOpt (rmsprop lr beta eps c) g p n).1 : ℝ × ℝ) = (docM beta g n, docS beta g n) := by
  induction n with
  | zero => rfl
  | succ n ih =>
    have hstep : ((runOpt (rmsprop lr beta eps c) g p (n + 1)).1 : ℝ × ℝ)
        = ((1 - beta) * g n + beta * ((runOpt (rmsprop lr beta eps c) g p n).1 : ℝ × ℝ).1,
          (1 - beta) * g n ^ 2 + beta * ((runOpt (rmsprop lr beta eps c) g p n).1 : ℝ × ℝ).2) := rfl
    rw [hstep, ih]
    simp only [docM, docS, Prod.mk.injEq]
    constructor <;> ring

theorem docS_nonneg (beta : ℝ) (h0 : 0 ≤ beta) (h1 : beta ≤ 1) (g : Nat → ℝ) (n : Nat) : 0 ≤ docS beta g n := by
  induction n with
  | zero => simp [docS]
  | succ n ih =>
    have : 0 ≤ 1 - beta := by linarith
    rw [docS]
    positivity

/-- the moving average of the squares dominates the square of the moving average. -/
theorem docM_sq_le (beta : ℝ) (h0 : 0 ≤ beta) (h1 : beta ≤ 1) (g : Nat → ℝ) (n : Nat) : docM beta g n ^ 2 ≤ docS beta g n := by
  induction n with
  | zero => simp [docM, docS]
  | succ n ih =>
    rw [docM, docS]
    have h : 0 ≤ 1 - beta := by linarith
    nlinarith [mul_nonneg (mul_nonneg h0 h) (sq_nonneg (docM beta g n - g n)), mul_le_mul_of_nonneg_left ih h0]

/-- C223: RMSProp with `0 ≤ beta < 1`: every update is the gradient divided by the root of the moving average of squared gradients
    (the newest one included) plus epsilon, minus the square of the moving average of the gradients if centered; the radicand is
    always positive, and without centering no update exceeds `lr / sqrt(1 - beta)`. -/
theorem C223_rmsprop (lr beta eps : ℝ) (h0 : 0 ≤ beta) (h1 : beta < 1) (he : 0 < eps) (g : Nat → ℝ) (p : ℝ) (n : Nat) :
    param (rmsprop lr beta eps false) g p (n + 1) - param (rmsprop lr beta eps false) g p n
        = -lr * g n / Real.sqrt (docS beta g (n + 1) + eps)
    ∧ param (rmsprop lr beta eps true) g p (n + 1) - param (rmsprop lr beta eps true) g p n
        = -lr * g n / Real.sqrt (docS beta g (n + 1) - docM beta g (n + 1) ^ 2 + eps)
    ∧ 0 < docS beta g (n + 1) - docM beta g (n + 1) ^ 2 + eps
    ∧ |param (rmsprop lr beta eps false) g p (n + 1) - param (rmsprop lr beta eps false) g p n|
        ≤ |lr| / Real.sqrt (1 - beta) := by
  have hu : ∀ c, param (rmsprop lr beta eps c) g p (n + 1) - param (rmsprop lr beta eps c) g p n
      = -lr * g n / Real.sqrt (docS beta g (n + 1) - (if c then docM beta g (n + 1) ^ 2 else 0) + eps) := by
    intro c
    have hs := rms_state lr beta eps c g p n
    have hup : ((rmsprop lr beta eps c).update (g n) (runOpt (rmsprop lr beta eps c) g p n).1).1
        = -lr * (g n * (1 / Real.sqrt ((1 - beta) * g n ^ 2 + beta * docS beta g n
            - (if c then ((1 - beta) * g n + beta * docM beta g n) ^ 2 else 0) + eps))) := by
      have h2 : docS beta g n = ((runOpt (rmsprop lr beta eps c) g p n).1 : ℝ × ℝ).2 := by rw [hs]
      have h3 : docM beta g n = ((runOpt (rmsprop lr beta eps c) g p n).1 : ℝ × ℝ).1 := by rw [hs]
      rw [h2, h3]; rfl
    rw [param_succ, hup, docS, docM, add_comm (beta * docS beta g n), add_comm (beta * docM beta g n)]
    ring
  have hA := hu false
  have hB := hu true
  simp only [Bool.false_eq_true, if_false, sub_zero, if_true] at hA hB
  have hpos : 0 < docS beta g (n + 1) + eps := by
    have := docS_nonneg beta h0 h1.le g (n + 1)
    linarith
  refine ⟨hA, hB, ?_, ?_⟩
  · have := docM_sq_le beta h0 h1.le g (n + 1)
    linarith
  · have hb : 0 < 1 - beta := by linarith
    rw [hA, abs_div, abs_mul, abs_neg, abs_of_pos (Real.sqrt_pos.2 hpos),
      div_le_div_iff₀ (Real.sqrt_pos.2 hpos) (Real.sqrt_pos.2 hb), mul_assoc]
    refine mul_le_mul_of_nonneg_left ?_ (abs_nonneg _)
    rw [← Real.sqrt_sq_eq_abs, ← Real.sqrt_mul (sq_nonneg _)]
    refine Real.sqrt_le_sqrt ?_
    have := docS_nonneg beta h0 h1.le g n
    rw [docS]
    nlinarith [mul_nonneg h0 this]

/-- the moments of Adam. -/
theorem adam_state (lr b1 b2 eps : ℝ) (g : Nat → ℝ) (p : ℝ) (n : Nat) :
    ((runOpt (adam lr b1 b2 eps) g p n).1 : Nat × ℝ × ℝ) = (n, docM b1 g n, docS b2 g n) := by
  induction n with
  | zero => rfl
  | succ n ih =>
    have hstep : ((runOpt (adam lr b1 b2 eps) g p (n + 1)).1 : Nat × ℝ × ℝ)
        = (((runOpt (adam lr b1 b2 eps) g p n).1 : Nat × ℝ × ℝ).1 + 1,
          (1 - b1) * g n + b1 * ((runOpt (adam lr b1 b2 eps) g p n).1 : Nat × ℝ × ℝ).2.1,
          (1 - b2) * g n ^ 2 + b2 * ((runOpt (adam lr b1 b2 eps) g p n).1 : Nat × ℝ × ℝ).2.2) := rfl
    rw [hstep, ih]
    simp only [docM, docS, Prod.mk.injEq, true_and]
    constructor <;> ring

theorem adam_step (lr b1 b2 eps : ℝ) (g : Nat → ℝ) (p : ℝ) (n : Nat) :
    param (adam lr b1 b2 eps) g p (n + 1) - param (adam lr b1 b2 eps) g p n
      = -lr * (docM b1 g (n + 1) / (1 - b1 ^ (n + 1)) / (Real.sqrt (docS b2 g (n + 1) / (1 - b2 ^ (n + 1))) + eps)) := by
  have hs := adam_state lr b1 b2 eps g p n
  have e1 : n = ((runOpt (adam lr b1 b2 eps) g p n).1 : Nat × ℝ × ℝ).1 := by rw [hs]
  have e2 : docM b1 g n = ((runOpt (adam lr b1 b2 eps) g p n).1 : Nat × ℝ × ℝ).2.1 := by rw [hs]
  have e3 : docS b2 g n = ((runOpt (adam lr b1 b2 eps) g p n).1 : Nat × ℝ × ℝ).2.2 := by rw [hs]
  have hup : ((adam lr b1 b2 eps).update (g n) (runOpt (adam lr b1 b2 eps) g p n).1).1
      = -lr * (((1 - b1) * g n + b1 * docM b1 g n) / (1 - b1 ^ (n + 1))
        / (Real.sqrt (((1 - b2) * g n ^ 2 + b2 * docS b2 g n) / (1 - b2 ^ (n + 1))) + eps)) := by
    have : ((adam lr b1 b2 eps).update (g n) (runOpt (adam lr b1 b2 eps) g p n).1).1
      = -lr * (((1 - b1) * g n + b1 * ((runOpt (adam lr b1 b2 eps) g p n).1 : Nat × ℝ × ℝ).2.1)
          / (1 - b1 ^ (((runOpt (adam lr b1 b2 eps) g p n).1 : Nat × ℝ × ℝ).1 + 1))
        / (Real.sqrt (((1 - b2) * g n ^ 2 + b2 * ((runOpt (adam lr b1 b2 eps) g p n).1 : Nat × ℝ × ℝ).2.2)
          / (1 - b2 ^ (((runOpt (adam lr b1 b2 eps) g p n).1 : Nat × ℝ × ℝ).1 + 1))) + eps)) := rfl
    rw [this, hs]
  rw [param_succ, hup, docM, docS, add_comm (b1 * docM b1 g n), add_comm (b2 * docS b2 g n)]
  ring

theorem docM_const (beta c : ℝ) (n : Nat) : docM beta (fun _ => c) n = (1 - beta ^ n) * c := by
  induction n with
  | zero => simp [docM]
  | succ n ih => rw [docM, ih, pow_succ]; ring

theorem docS_const (beta c : ℝ) (n : Nat) : docS beta (fun _ => c) n = (1 - beta ^ n) * c ^ 2 := by
  induction n with
  | zero => simp [docS]
  | succ n ih => rw [docS, ih, pow_succ]; ring

/-- C223: Adam: the first update is `lr g / (|g| + eps)`; with a constant gradient every update is. -/
theorem C223_adam (lr b1 b2 eps : ℝ) (h1 : 0 ≤ b1 ∧ b1 < 1) (h2 : 0 ≤ b2 ∧ b2 < 1) (p : ℝ) :
    (∀ g : Nat → ℝ, param (adam lr b1 b2 eps) g p 1 = p - lr * g 0 / (|g 0| + eps))
    ∧ ∀ c : ℝ, ∀ n, param (adam lr b1 b2 eps) (fun _ => c) p n = p - n * (lr * c / (|c| + eps)) := by
  have hb : ∀ b : ℝ, 0 ≤ b ∧ b < 1 → ∀ n, 1 - b ^ (n + 1) ≠ 0 := by
    intro b h n
    have : b ^ (n + 1) < 1 := pow_lt_one₀ h.1 h.2 (Nat.succ_ne_zero n)
    intro h'
    linarith
  constructor
  · intro g
    have h := adam_step lr b1 b2 eps g p 0
    have e1 : 1 - b1 ≠ 0 := by simpa using hb b1 h1 0
    have e2 : 1 - b2 ≠ 0 := by simpa using hb b2 h2 0
    have hp : param (adam lr b1 b2 eps) g p 0 = p := rfl
    simp only [zero_add, docM, docS, mul_zero, pow_one, hp] at h
    rw [mul_div_cancel_left₀ _ e1, mul_div_cancel_left₀ _ e2, Real.sqrt_sq_eq_abs] at h
    rw [show param (adam lr b1 b2 eps) g p 1 = p + -lr * (g 0 / (|g 0| + eps)) by linarith]
    ring
  · intro c n
    induction n with
    | zero => simp [param, runOpt]
    | succ n ih =>
      have h := adam_step lr b1 b2 eps (fun _ => c) p n
      rw [docM_const, docS_const, mul_div_cancel_left₀ _ (hb b1 h1 n), mul_div_cancel_left₀ _ (hb b2 h2 n),
        Real.sqrt_sq_eq_abs] at h
      rw [show param (adam lr b1 b2 eps) (fun _ => c) p (n + 1)
        = param (adam lr b1 b2 eps) (fun _ => c) p n + -lr * (c / (|c| + eps)) by linarith, ih]
      push_cast
      ring

/-! ## C224 -/

/-- C224 is false: for `beta ≠ 0` the first update of the momentum optimizer never is the documented one. -/
theorem C224_momentum_refuted (lr beta : ℝ) (hl : lr ≠ 0) (hb : beta ≠ 0) (g : Nat → ℝ) (hg : g 0 ≠ 0) (p : ℝ) :
    param (momentum lr beta false) g p 1 ≠ docMomentum lr beta g p 1 := by
  intro h
  have h1 : param (momentum lr beta false) g p 1 = p + -lr * (g 0 + beta * 0) := rfl
  have h2 : docMomentum lr beta g p 1 = p - lr * (beta * 0 + (1 - beta) * g 0) := rfl
  rw [h1, h2] at h
  have : lr * (beta * g 0) = 0 := by linarith
  rcases mul_eq_zero.1 this with h' | h'
  · exact hl h'
  · rcases mul_eq_zero.1 h' with h'' | h''
    · exact hb h''
    · exact hg h''

/-- C224 is false: with its default `initial_accumulator_value = 0.1` AdaGrad's first update never is the one with the documented
    accumulator, which starts from zero. -/
theorem C224_adagrad_refuted (lr eps : ℝ) (hl : lr ≠ 0) (he : 0 < eps) (g : Nat → ℝ) (hg : g 0 ≠ 0) (p : ℝ) :
    param (adagrad lr eps 0.1) g p 1 ≠ p - lr / Real.sqrt (docSum g 1 + eps) * g 0 := by
  intro h
  have h1 := (C223_adagrad lr eps 0.1 (by norm_num) he g p 0).1
  have hp : param (adagrad lr eps 0.1) g p 0 = p := rfl
  rw [zero_add, hp, h] at h1
  have hd : 0 ≤ docSum g 1 := sum_nonneg fun i _ => sq_nonneg _
  have ha : 0 < Real.sqrt (docSum g 1 + eps) := Real.sqrt_pos.2 (by linarith)
  have hb : 0 < Real.sqrt (0.1 + docSum g 1 + eps) := Real.sqrt_pos.2 (by linarith)
  have h2 : lr * g 0 * (1 / Real.sqrt (docSum g 1 + eps)) = lr * g 0 * (1 / Real.sqrt (0.1 + docSum g 1 + eps)) := by
    have e1 : lr / Real.sqrt (docSum g 1 + eps) * g 0 = lr * g 0 * (1 / Real.sqrt (docSum g 1 + eps)) := by ring
    have e2 : -lr * g 0 / Real.sqrt (0.1 + docSum g 1 + eps) = -(lr * g 0 * (1 / Real.sqrt (0.1 + docSum g 1 + eps))) := by
      ring
    rw [e1, e2] at h1
    linarith
  have h3 := mul_left_cancel₀ (mul_ne_zero hl hg) h2
  have h4 : Real.sqrt (docSum g 1 + eps) = Real.sqrt (0.1 + docSum g 1 + eps) := by
    rw [one_div, one_div] at h3
    exact inv_injective h3
  rw [Real.sqrt_inj (by linarith) (by linarith)] at h4
  linarith

/-- C224, the part that holds: with `initial_accumulator_value = 0` the updates are the documented ones. -/
theorem C224_adagrad_partial (lr eps : ℝ) (he : 0 < eps) (g : Nat → ℝ) (p : ℝ) (n : Nat) :
    param (adagrad lr eps 0) g p (n + 1) = param (adagrad lr eps 0) g p n - lr / Real.sqrt (docSum g (n + 1) + eps) * g n := by
  have := (C223_adagrad lr eps 0 le_rfl he g p n).1
  rw [zero_add] at this
  rw [show param (adagrad lr eps 0) g p (n + 1)
    = param (adagrad lr eps 0) g p n + -lr * g n / Real.sqrt (docSum g (n + 1) + eps) by linarith]
  ring

/-- C224 is false: RMSProp's cutoff is inside the root; an update with a gradient other than zero is the documented one in the
    single case `2 sqrt(s) + eps = 1`. -/
theorem C224_rmsprop_refuted (lr beta eps : ℝ) (hl : lr ≠ 0) (h0 : 0 ≤ beta) (h1 : beta < 1) (he : 0 < eps)
    (g : Nat → ℝ) (p : ℝ) (n : Nat) (hg : g n ≠ 0) :
    param (rmsprop lr beta eps false) g p (n + 1)
        = param (rmsprop lr beta eps false) g p n - lr / (Real.sqrt (docS beta g (n + 1)) + eps) * g n
      ↔ 2 * Real.sqrt (docS beta g (n + 1)) + eps = 1 := by
  have hu := (C223_rmsprop lr beta eps h0 h1 he g p n).1
  have hs := docS_nonneg beta h0 h1.le g (n + 1)
  have hr := Real.sqrt_nonneg (docS beta g (n + 1))
  have hp1 : 0 < Real.sqrt (docS beta g (n + 1) + eps) := Real.sqrt_pos.2 (by linarith)
  have hp2 : 0 < Real.sqrt (docS beta g (n + 1)) + eps := by linarith
  have hsq : Real.sqrt (docS beta g (n + 1)) ^ 2 = docS beta g (n + 1) := Real.sq_sqrt hs
  have step1 : (param (rmsprop lr beta eps false) g p (n + 1)
        = param (rmsprop lr beta eps false) g p n - lr / (Real.sqrt (docS beta g (n + 1)) + eps) * g n)
      ↔ Real.sqrt (docS beta g (n + 1) + eps) = Real.sqrt (docS beta g (n + 1)) + eps := by
    have e1 : lr / (Real.sqrt (docS beta g (n + 1)) + eps) * g n = lr * g n * (Real.sqrt (docS beta g (n + 1)) + eps)⁻¹ := by
      rw [div_eq_mul_inv]; ring
    have e2 : -lr * g n / Real.sqrt (docS beta g (n + 1) + eps) = -(lr * g n * (Real.sqrt (docS beta g (n + 1) + eps))⁻¹) := by
      rw [div_eq_mul_inv]; ring
    rw [e2] at hu
    rw [e1]
    constructor
    · intro h
      have h2 : lr * g n * (Real.sqrt (docS beta g (n + 1) + eps))⁻¹ = lr * g n * (Real.sqrt (docS beta g (n + 1)) + eps)⁻¹ := by
        linarith
      exact inv_injective (mul_left_cancel₀ (mul_ne_zero hl hg) h2)
    · intro h
      rw [h] at hu
      linarith
  rw [step1, Real.sqrt_eq_iff_mul_self_eq_of_pos hp2]
  constructor
  · intro h
    have : eps * (2 * Real.sqrt (docS beta g (n + 1)) + eps - 1) = 0 := by nlinarith
    rcases mul_eq_zero.1 this with h' | h'
    · exact absurd h' he.ne'
    · linarith
  · intro h
    have : eps * (2 * Real.sqrt (docS beta g (n + 1)) + eps - 1) = 0 := by
      rw [show 2 * Real.sqrt (docS beta g (n + 1)) + eps - 1 = 0 by linarith, mul_zero]
    nlinarith

/-! ## Examples -/

example : param (sgd 0.5) (fun n => n) 3 3 = 1.5 := by
  rw [C223_sgd]; norm_num [sum_range_succ]

example : param (momentum 1 0.5 false) (fun _ => 1) 0 2 = docMomentum 2 0.5 (fun _ => 1) 0 2 := by
  have := C223_momentum_rescaled 1 0.5 (by norm_num) (fun _ => 1) 0 2
  rw [this]; norm_num

example : param (momentum 1 0.5 false) (fun _ => 1) 0 1 = -1 ∧ docMomentum 1 0.5 (fun _ => 1) 0 1 = -0.5 := by
  constructor
  · norm_num [param, runOpt, applyGradient, momentum]
  · norm_num [docMomentum, docM]

example : param (adam 0.1 0.9 0.999 1) (fun _ => 3) 0 4 = -0.3 := by
  rw [(C223_adam 0.1 0.9 0.999 1 (by norm_num) (by norm_num) 0).2 3 4]
  norm_num

example : (0 : ℝ) ≤ 0.9 ∧ (0.9 : ℝ) < 1 ∧ (0 : ℝ) < 1e-7 ∧ (0 : ℝ) ≤ 0.1 := by norm_num

end

end Verif.Optax

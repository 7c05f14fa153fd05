import Verif.Model.LegacyOpt
import Mathlib.Tactic.Ring
import Mathlib.Tactic.Linarith
import Mathlib.Tactic.NormNum
import Mathlib.Tactic.Positivity
import Mathlib.Algebra.BigOperators.Intervals
import Mathlib.Algebra.BigOperators.Group.Finset.Basic

/-!
C173, C174: the optimizers of netket.legacy.
-/

namespace Verif.LegacyOpt

open Verif.Hilbert (Err)
open Finset

/-- state of `Sgd` after updates. -/
theorem sgd_state {ι : Type} (o : Sgd) (p : Vec ι) (g : Nat → Vec ι) (n : Nat) :
    (iter Sgd.update o p g n).1 = { o with eta := o.eta * o.decay ^ n } := by
  induction n with
  | zero => simp [iter]
  | succ n ih =>
    rw [iter, Sgd.update, ih]
    simp only [Sgd.mk.injEq, true_and]
    ring

/-- **C173**, Sgd: in the `n`-th update (counted from 1) the learning rate is `η γⁿ`, and every parameter changes by
minus the learning rate times gradient plus regularisation times parameter. `reset` starts anew. -/
theorem C173_sgd {ι : Type} (lr l2 decay : ℝ) (o : Sgd) (ho : Sgd.mk' lr l2 decay = .ok o) (p : Vec ι)
    (g : Nat → Vec ι) (n : Nat) (k : ι) :
    (iter Sgd.update o p g (n + 1)).2 k = (iter Sgd.update o p g n).2 k -
        ((lr * decay ^ (n + 1) : ℝ) : ℂ) * (g n k + l2 * (iter Sgd.update o p g n).2 k) ∧
      (iter Sgd.update o p g n).1.reset = o := by
  have h : o = ⟨lr, l2, decay, lr⟩ := by
    simp only [Sgd.mk'] at ho
    split_ifs at ho
    exact (Except.ok.inj ho).symm
  constructor
  · rw [iter, Sgd.update, sgd_state, h]
    push_cast
    ring
  · rw [sgd_state, h]; rfl

/-- exponential average of the first `n` values. -/
noncomputable def expAvg {R : Type} [Ring R] (b : R) (x : Nat → R) (n : Nat) : R :=
  ∑ i ∈ range n, (1 - b) * b ^ (n - 1 - i) * x i

/-- recursion of the exponential average. -/
theorem expAvg_succ {R : Type} [CommRing R] (b : R) (x : Nat → R) (n : Nat) :
    expAvg b x (n + 1) = b * expAvg b x n + (1 - b) * x n := by
  rw [expAvg, expAvg, sum_range_succ, mul_sum]
  congr 1
  · apply sum_congr rfl
    intro i hi
    have : n + 1 - 1 - i = (n - 1 - i) + 1 := by have := mem_range.1 hi; omega
    rw [this, pow_succ]; ring
  · simp

/-- state of `Momentum` after updates. -/
theorem momentum_state {ι : Type} (o : Momentum ι) (h0 : o.mt = none) (p : Vec ι) (g : Nat → Vec ι) (n : Nat) :
    let q := (iter Momentum.update o p g n).1
    q.l2 = o.l2 ∧ q.beta = o.beta ∧ q.eta = o.eta ∧
      ∀ k, orZero q.mt k = expAvg (o.beta : ℂ) (fun i => g i k) n := by
  induction n with
  | zero => simp [iter, h0, orZero, expAvg]
  | succ n ih =>
    obtain ⟨h1, h2, h3, h4⟩ := ih
    refine ⟨h1, h2, h3, ?_⟩
    intro k
    rw [expAvg_succ, ← h4 k]
    simp only [iter, Momentum.update, orZero] at *
    rw [h2]

/-- **C173**, Momentum: every update subtracts the learning rate times the exponentially weighted average of all
gradients since the construction plus regularisation times parameter. -/
theorem C173_momentum {ι : Type} (lr beta l2 : ℝ) (o : Momentum ι) (ho : Momentum.mk' lr beta l2 = .ok o) (p : Vec ι)
    (g : Nat → Vec ι) (n : Nat) (k : ι) :
    (iter Momentum.update o p g (n + 1)).2 k = (iter Momentum.update o p g n).2 k -
        lr * ((∑ i ∈ range (n + 1), (1 - (beta : ℂ)) * (beta : ℂ) ^ (n - i) * g i k) +
          l2 * (iter Momentum.update o p g n).2 k) := by
  have h : o = ⟨l2, beta, lr, none⟩ := by
    simp only [Momentum.mk'] at ho
    split_ifs at ho
    exact (Except.ok.inj ho).symm
  obtain ⟨h1, h2, h3, h4⟩ := momentum_state o (by rw [h]) p g n
  obtain ⟨-, -, -, h5⟩ := momentum_state o (by rw [h]) p g (n + 1)
  have h6 := h5 k
  rw [expAvg] at h6
  simp only [add_tsub_cancel_right] at h6
  have hb : o.beta = beta := by rw [h]
  rw [hb] at h6
  rw [← h6]
  have e : (iter Momentum.update o p g (n + 1)).2 k = (iter Momentum.update o p g n).2 k -
      (iter Momentum.update o p g n).1.eta * (orZero (iter Momentum.update o p g (n + 1)).1.mt k +
        (iter Momentum.update o p g n).1.l2 * (iter Momentum.update o p g n).2 k) := by
    rw [iter]; rfl
  rw [e, h1, h3, h]

/-- state of `AdaGrad` after updates. -/
theorem adagrad_state {ι : Type} (o : AdaGrad ι) (h0 : o.gt = none) (p : Vec ι) (g : Nat → Vec ι) (n : Nat) :
    let q := (iter AdaGrad.update o p g n).1
    q.eta = o.eta ∧ q.eps = o.eps ∧ ∀ k, orZero q.gt k = ∑ i ∈ range n, ‖g i k‖ ^ 2 := by
  induction n with
  | zero => simp [iter, h0, orZero]
  | succ n ih =>
    obtain ⟨h1, h2, h3⟩ := ih
    refine ⟨h1, h2, ?_⟩
    intro k
    rw [sum_range_succ, ← h3 k]
    simp only [iter, AdaGrad.update, orZero]

/-- **C173**, AdaGrad: every gradient is divided by the root of `ε` plus the sum of the squared moduli of all gradients
including this one; nothing is divided by zero. -/
theorem C173_adagrad {ι : Type} (lr eps : ℝ) (o : AdaGrad ι) (ho : AdaGrad.mk' lr eps = .ok o) (p : Vec ι)
    (g : Nat → Vec ι) (n : Nat) (k : ι) :
    (iter AdaGrad.update o p g (n + 1)).2 k = (iter AdaGrad.update o p g n).2 k -
        lr * g n k / (Real.sqrt ((∑ i ∈ range (n + 1), ‖g i k‖ ^ 2) + eps) : ℂ) ∧
      0 < (∑ i ∈ range (n + 1), ‖g i k‖ ^ 2) + eps := by
  have h : o = ⟨lr, eps, none⟩ ∧ 0 < eps := by
    simp only [AdaGrad.mk'] at ho
    split_ifs at ho with h1
    exact ⟨(Except.ok.inj ho).symm, not_le.1 h1⟩
  obtain ⟨h1, h2, h3⟩ := adagrad_state o (by rw [h.1]) p g n
  obtain ⟨-, -, h4⟩ := adagrad_state o (by rw [h.1]) p g (n + 1)
  refine ⟨?_, add_pos_of_nonneg_of_pos (sum_nonneg fun i _ => by positivity) h.2⟩
  have e : (iter AdaGrad.update o p g (n + 1)).2 k = (iter AdaGrad.update o p g n).2 k -
      (iter AdaGrad.update o p g n).1.eta * g n k /
        (Real.sqrt (orZero (iter AdaGrad.update o p g (n + 1)).1.gt k + (iter AdaGrad.update o p g n).1.eps) : ℂ) := by
    rw [iter]; rfl
  rw [e, h1, h2, h4 k, h.1]

/-- state of `RmsProp` after updates. -/
theorem rmsprop_state {ι : Type} (o : RmsProp ι) (h0 : o.mt = none) (p : Vec ι) (g : Nat → Vec ι) (n : Nat) :
    let q := (iter RmsProp.update o p g n).1
    q.eta = o.eta ∧ q.beta = o.beta ∧ q.eps = o.eps ∧
      ∀ k, orZero q.mt k = expAvg o.beta (fun i => ‖g i k‖ ^ 2) n := by
  induction n with
  | zero => simp [iter, h0, orZero, expAvg]
  | succ n ih =>
    obtain ⟨h1, h2, h3, h4⟩ := ih
    refine ⟨h1, h2, h3, ?_⟩
    intro k
    rw [expAvg_succ, ← h4 k]
    simp only [iter, RmsProp.update, orZero] at *
    rw [h2]

/-- **C173**, RmsProp: every gradient is divided by the root of `ε` plus the exponentially weighted average of the
squared moduli of all gradients including this one; nothing is divided by zero. -/
theorem C173_rmsprop {ι : Type} (lr beta eps : ℝ) (o : RmsProp ι) (ho : RmsProp.mk' lr beta eps = .ok o) (p : Vec ι)
    (g : Nat → Vec ι) (n : Nat) (k : ι) :
    (iter RmsProp.update o p g (n + 1)).2 k = (iter RmsProp.update o p g n).2 k -
        lr * g n k / (Real.sqrt ((∑ i ∈ range (n + 1), (1 - beta) * beta ^ (n - i) * ‖g i k‖ ^ 2) + eps) : ℂ) ∧
      0 < (∑ i ∈ range (n + 1), (1 - beta) * beta ^ (n - i) * ‖g i k‖ ^ 2) + eps := by
  have h : o = ⟨lr, beta, eps, none⟩ ∧ 0 < eps ∧ 0 ≤ beta ∧ beta ≤ 1 := by
    simp only [RmsProp.mk'] at ho
    split_ifs at ho with h1 h2 h3
    push Not at h1 h3
    exact ⟨(Except.ok.inj ho).symm, h1, h3.1, h3.2⟩
  obtain ⟨h, he, hb0, hb1⟩ := h
  obtain ⟨h1, h2, h3, h4⟩ := rmsprop_state o (by rw [h]) p g n
  obtain ⟨-, -, -, h5⟩ := rmsprop_state o (by rw [h]) p g (n + 1)
  constructor
  · have h6 := h5 k
    rw [expAvg] at h6
    simp only [add_tsub_cancel_right] at h6
    have hb : o.beta = beta := by rw [h]
    rw [hb] at h6
    rw [← h6]
    have e : (iter RmsProp.update o p g (n + 1)).2 k = (iter RmsProp.update o p g n).2 k -
        (iter RmsProp.update o p g n).1.eta * g n k /
          (Real.sqrt (orZero (iter RmsProp.update o p g (n + 1)).1.mt k + (iter RmsProp.update o p g n).1.eps) : ℂ) := by
      rw [iter]; rfl
    rw [e, h1, h3, h]
  · refine add_pos_of_nonneg_of_pos (sum_nonneg fun i _ => ?_) he
    have : 0 ≤ 1 - beta := by linarith
    positivity

/-- the accumulators of `AdaDelta` after updates. -/
theorem adadelta_state {ι : Type} (o : AdaDelta ι) (p : Vec ι) (g : Nat → Vec ι) (n : Nat) :
    let q := (iter AdaDelta.update o p g n).1
    q.rho = o.rho ∧ q.eps = o.eps ∧ q.l2 = o.l2 := by
  induction n with
  | zero => simp [iter]
  | succ n ih => exact ih

/-- **C173**, AdaDelta: the documented recursion, with averages `E[g²]` and `E[Δx²]` that start at zero and never become
negative. -/
theorem C173_adadelta {ι : Type} (rho eps l2 : ℝ) (o : AdaDelta ι) (ho : AdaDelta.mk' rho eps l2 = .ok o) (p : Vec ι)
    (g : Nat → Vec ι) :
    ∃ eg2 edx2 : Nat → ι → ℝ, (∀ k, eg2 0 k = 0 ∧ edx2 0 k = 0) ∧ (∀ n k, 0 ≤ eg2 n k ∧ 0 ≤ edx2 n k) ∧
      ∀ n k, ∃ dp : ℂ,
        eg2 (n + 1) k = rho * eg2 n k + (1 - rho) * ‖g n k‖ ^ 2 ∧
        dp = -((Real.sqrt (edx2 n k + eps) / Real.sqrt (eg2 (n + 1) k + eps) : ℝ) : ℂ) * g n k ∧
        edx2 (n + 1) k = rho * edx2 n k + (1 - rho) * ‖dp‖ ^ 2 ∧
        (iter AdaDelta.update o p g (n + 1)).2 k = (iter AdaDelta.update o p g n).2 k + dp := by
  have h : o = ⟨rho, eps, l2, none⟩ ∧ 0 < eps ∧ 0 ≤ rho ∧ rho ≤ 1 := by
    simp only [AdaDelta.mk'] at ho
    split_ifs at ho with h1 h2 h3
    push Not at h1 h3
    exact ⟨(Except.ok.inj ho).symm, h1, h3.1, h3.2⟩
  obtain ⟨h, he, hb0, hb1⟩ := h
  have hst := fun n => adadelta_state o p g n
  have hstep : ∀ n k, ∃ dp : ℂ,
        (iter AdaDelta.update o p g (n + 1)).1.accs.1 k =
          rho * (iter AdaDelta.update o p g n).1.accs.1 k + (1 - rho) * ‖g n k‖ ^ 2 ∧
        dp = -((Real.sqrt ((iter AdaDelta.update o p g n).1.accs.2 k + eps) /
          Real.sqrt ((iter AdaDelta.update o p g (n + 1)).1.accs.1 k + eps) : ℝ) : ℂ) * g n k ∧
        (iter AdaDelta.update o p g (n + 1)).1.accs.2 k =
          rho * (iter AdaDelta.update o p g n).1.accs.2 k + (1 - rho) * ‖dp‖ ^ 2 ∧
        (iter AdaDelta.update o p g (n + 1)).2 k = (iter AdaDelta.update o p g n).2 k + dp := by
    intro n k
    obtain ⟨h1, h2, h3⟩ := hst n
    have e1 : o.rho = rho := by rw [h]
    have e2 : o.eps = eps := by rw [h]
    rw [e1] at h1
    rw [e2] at h2
    refine ⟨_, ?_, rfl, ?_, ?_⟩
    · show (AdaDelta.update _ _ _).1.accs.1 k = _
      simp only [AdaDelta.update, AdaDelta.accs] at *
      rw [h1]
    · show (AdaDelta.update _ _ _).1.accs.2 k = _
      have e3 : (AdaDelta.update (iter AdaDelta.update o p g n).1 (g n) (iter AdaDelta.update o p g n).2).1 =
        (iter AdaDelta.update o p g (n + 1)).1 := rfl
      rw [← e3]
      simp only [AdaDelta.update]
      simp only [AdaDelta.accs] at *
      rw [h1, h2]
      congr 3
      rw [norm_mul, norm_neg, norm_div, norm_mul]
      push_cast
      rw [norm_div]
      ring
    · have e3 : (iter AdaDelta.update o p g (n + 1)).1 =
        (AdaDelta.update (iter AdaDelta.update o p g n).1 (g n) (iter AdaDelta.update o p g n).2).1 := rfl
      rw [e3]
      show (AdaDelta.update _ _ _).2 k = _
      simp only [AdaDelta.update]
      simp only [AdaDelta.accs] at *
      rw [h1, h2]
      push_cast
      ring
  have h0 : ∀ k, (iter AdaDelta.update o p g 0).1.accs.1 k = 0 ∧ (iter AdaDelta.update o p g 0).1.accs.2 k = 0 := by
    intro k; simp [iter, h, AdaDelta.accs]
  refine ⟨fun n k => (iter AdaDelta.update o p g n).1.accs.1 k, fun n k => (iter AdaDelta.update o p g n).1.accs.2 k,
    h0, ?_, hstep⟩
  intro n
  induction n with
  | zero => intro k; exact ⟨(h0 k).1.ge, (h0 k).2.ge⟩
  | succ n ih =>
    intro k
    obtain ⟨dp, h1, -, h3, -⟩ := hstep n k
    have hr : 0 ≤ 1 - rho := by linarith
    obtain ⟨i1, i2⟩ := ih k
    constructor
    · show 0 ≤ (iter AdaDelta.update o p g (n + 1)).1.accs.1 k
      rw [h1]; positivity
    · show 0 ≤ (iter AdaDelta.update o p g (n + 1)).1.accs.2 k
      rw [h3]; positivity

/-- state of `AdaMax` after updates that do not raise. -/
theorem adamax_state {ι : Type} (o : AdaMax ι) (h0 : o.acc = none) (hn : o.niter = 0) (he : 0 < o.eps)
    (hb : 0 ≤ o.beta1 ∧ o.beta1 < 1) (hb2 : 0 ≤ o.beta2 ∧ o.beta2 ≤ 1) (p : Vec ι) (g : Nat → Vec ι) (n : Nat) :
    ∃ pn, (iterMax o p g n).2 = .ok pn ∧ (iterMax o p g n).1.alpha = o.alpha ∧
      (iterMax o p g n).1.beta1 = o.beta1 ∧ (iterMax o p g n).1.beta2 = o.beta2 ∧
      (iterMax o p g n).1.eps = o.eps ∧ (iterMax o p g n).1.niter = n ∧
      (∀ k, (iterMax o p g n).1.accs.1 k = expAvg (o.beta1 : ℂ) (fun i => g i k) n) ∧
      (∀ k, n = 0 ∧ (iterMax o p g n).1.accs.2 k = 0 ∨
        IsGreatest ({o.eps} ∪ {x | ∃ i < n, x = o.beta2 ^ (n - 1 - i) * ‖g i k‖})
          ((iterMax o p g n).1.accs.2 k)) := by
  induction n with
  | zero => exact ⟨p, rfl, rfl, rfl, rfl, rfl, hn, by intro k; simp [iterMax, AdaMax.accs, h0, expAvg],
      by intro k; left; simp [iterMax, AdaMax.accs, h0]⟩
  | succ n ih =>
    obtain ⟨pn, h1, h2, h3, h4, h5, h6, h7, h8⟩ := ih
    have hne : ¬ (1 - o.beta1 ^ (n + 1) = 0) := by
      have : o.beta1 ^ (n + 1) < 1 := pow_lt_one₀ hb.1 hb.2 (Nat.succ_ne_zero n)
      linarith
    have hupd : iterMax o p g (n + 1) = (iterMax o p g n).1.update (g n) pn := by rw [iterMax, h1]
    have hst : ((iterMax o p g n).1.update (g n) pn).1 =
        { (iterMax o p g n).1 with
          acc := some (fun k => o.beta1 * (iterMax o p g n).1.accs.1 k + (1 - o.beta1) * g n k,
            fun k => max (max ‖g n k‖ (o.beta2 * (iterMax o p g n).1.accs.2 k)) o.eps),
          niter := n + 1 } := by
      simp only [AdaMax.update, h3, h4, h5, h6]
      rw [if_neg hne]
    refine ⟨fun k => pn k - (o.alpha / (1 - o.beta1 ^ (n + 1)) : ℝ) *
        (o.beta1 * (iterMax o p g n).1.accs.1 k + (1 - o.beta1) * g n k) /
          ((max (max ‖g n k‖ (o.beta2 * (iterMax o p g n).1.accs.2 k)) o.eps : ℝ) : ℂ), ?_, ?_, ?_, ?_, ?_, ?_, ?_, ?_⟩
    · rw [hupd]
      simp only [AdaMax.update, h2, h3, h4, h5, h6]
      rw [if_neg hne]
    · rw [hupd, hst]; exact h2
    · rw [hupd, hst]; exact h3
    · rw [hupd, hst]; exact h4
    · rw [hupd, hst]; exact h5
    · rw [hupd, hst]
    · intro k
      rw [hupd, hst, expAvg_succ, ← h7 k]
      rfl
    · intro k
      right
      rw [hupd, hst]
      show IsGreatest _ (max (max ‖g n k‖ (o.beta2 * (iterMax o p g n).1.accs.2 k)) o.eps)
      have hpow : ∀ i < n, n + 1 - 1 - i = (n - 1 - i) + 1 := by intro i hi; omega
      constructor
      · rcases le_total (max ‖g n k‖ (o.beta2 * (iterMax o p g n).1.accs.2 k)) o.eps with hle | hle
        · left; rw [max_eq_right hle]; rfl
        · rw [max_eq_left hle]
          rcases le_total ‖g n k‖ (o.beta2 * (iterMax o p g n).1.accs.2 k) with hl | hl
          · rw [max_eq_right hl] at hle ⊢
            rcases h8 k with ⟨-, h9⟩ | h9
            · rw [h9, mul_zero] at hle
              exact absurd hle (not_le.2 he)
            · rcases h9.1 with h9 | ⟨i, hi, h9⟩
              · have h9 : (iterMax o p g n).1.accs.2 k = o.eps := h9
                left
                rw [h9] at hle ⊢
                show o.beta2 * o.eps = o.eps
                exact le_antisymm (mul_le_of_le_one_left he.le hb2.2) hle
              · right
                refine ⟨i, by omega, ?_⟩
                rw [h9, hpow i hi, pow_succ]; ring
          · rw [max_eq_left hl]
            right
            exact ⟨n, by omega, by simp⟩
      · rintro x (hx | ⟨i, hi, hx⟩)
        · have hx : x = o.eps := hx
          rw [hx]; exact le_max_right _ _
        · rw [hx]
          refine le_trans ?_ (le_max_left _ _)
          rcases Nat.lt_succ_iff_lt_or_eq.1 hi with hi | rfl
          · refine le_trans ?_ (le_max_right _ _)
            rw [hpow i hi, pow_succ]
            rcases h8 k with ⟨h9, -⟩ | h9
            · omega
            · have := h9.2 (Or.inr ⟨i, hi, rfl⟩)
              calc o.beta2 ^ (n - 1 - i) * o.beta2 * ‖g i k‖ = o.beta2 * (o.beta2 ^ (n - 1 - i) * ‖g i k‖) := by ring
                _ ≤ _ := mul_le_mul_of_nonneg_left this hb2.1
          · refine le_trans ?_ (le_max_left _ _)
            simp

/-- **C173**, AdaMax with `β₁ < 1`: Algorithm 2 of Kingma and Ba: the step is `α / (1 - β₁ⁿ)` times the exponentially
weighted average of the gradients, divided by the largest of `ε` and the moduli of all gradients weighted with powers
of `β₂`. -/
theorem C173_adamax {ι : Type} (alpha beta1 beta2 eps : ℝ) (o : AdaMax ι)
    (ho : AdaMax.mk' alpha beta1 beta2 eps = .ok o) (hb : beta1 < 1) (p : Vec ι) (g : Nat → Vec ι) :
    ∃ ps : Nat → Vec ι, ps 0 = p ∧ (∀ n, (iterMax o p g n).2 = .ok (ps n)) ∧ ∀ n k, ∃ u : ℝ,
      IsGreatest ({eps} ∪ {x | ∃ i < n + 1, x = beta2 ^ (n - i) * ‖g i k‖}) u ∧
      ps (n + 1) k = ps n k - ((alpha / (1 - beta1 ^ (n + 1)) : ℝ) : ℂ) *
        (∑ i ∈ range (n + 1), (1 - (beta1 : ℂ)) * (beta1 : ℂ) ^ (n - i) * g i k) / (u : ℂ) := by
  have h : o = ⟨alpha, beta1, beta2, eps, none, 0⟩ ∧ 0 < eps ∧ 0 ≤ beta1 ∧ 0 ≤ beta2 ∧ beta2 ≤ 1 := by
    simp only [AdaMax.mk'] at ho
    split_ifs at ho with h1 h2 h3 h4
    push Not at h1 h3 h4
    exact ⟨(Except.ok.inj ho).symm, h1, h3.1, h4.1, h4.2⟩
  obtain ⟨rfl, he, hb0, hb2, hb3⟩ := h
  have hst := fun n => adamax_state (⟨alpha, beta1, beta2, eps, none, 0⟩ : AdaMax ι) rfl rfl he ⟨hb0, hb⟩ ⟨hb2, hb3⟩ p g n
  choose ps h1 h2 h3 h4 h5 h6 h7 h8 using hst
  refine ⟨ps, ?_, h1, ?_⟩
  · have := h1 0
    rw [iterMax] at this
    exact (Except.ok.inj this).symm
  · intro n k
    refine ⟨_, (h8 (n + 1) k).resolve_left (by simp), ?_⟩
    have h9 := h7 (n + 1) k
    rw [expAvg] at h9
    simp only [add_tsub_cancel_right] at h9
    rw [← h9]
    have hne : ¬ (1 - beta1 ^ (n + 1) = 0) := by
      have : beta1 ^ (n + 1) < 1 := pow_lt_one₀ hb0 hb (Nat.succ_ne_zero n)
      linarith
    have hupd : iterMax (⟨alpha, beta1, beta2, eps, none, 0⟩ : AdaMax ι) p g (n + 1) =
        (iterMax ⟨alpha, beta1, beta2, eps, none, 0⟩ p g n).1.update (g n) (ps n) := by rw [iterMax, h1]
    have h10 := h1 (n + 1)
    rw [hupd] at h10 ⊢
    simp only [AdaMax.update, h2, h3, h4, h5, h6] at h10 ⊢
    rw [if_neg hne] at h10 ⊢
    have h11 := congrFun (Except.ok.inj h10) k
    rw [← h11]
    push_cast
    rfl

/-- parameters of `AmsGrad` are kept. -/
theorem amsgrad_state {ι : Type} (o : AmsGrad ι) (p : Vec ι) (g : Nat → Vec ι) (n : Nat) :
    let q := (iter AmsGrad.update o p g n).1
    q.eta = o.eta ∧ q.beta1 = o.beta1 ∧ q.beta2 = o.beta2 ∧ q.eps = o.eps := by
  induction n with
  | zero => simp [iter]
  | succ n ih => exact ih

/-- **C173**, AmsGrad: the documented recursion with `m` and `v` starting at zero, where the divisor is
`√(v + ε)`; `v` never decreases. -/
theorem C173_amsgrad {ι : Type} (lr beta1 beta2 eps : ℝ) (o : AmsGrad ι)
    (ho : AmsGrad.mk' lr beta1 beta2 eps = .ok o) (p : Vec ι) (g : Nat → Vec ι) :
    ∃ (m : Nat → Vec ι) (v : Nat → ι → ℝ), (∀ k, m 0 k = 0 ∧ v 0 k = 0) ∧ (∀ n k, v n k ≤ v (n + 1) k) ∧
      ∀ n k, m (n + 1) k = beta1 * m n k + (1 - beta1) * g n k ∧
        v (n + 1) k = max (v n k) (beta2 * v n k + (1 - beta2) * ‖g n k‖ ^ 2) ∧
        0 < v (n + 1) k + eps ∧
        (iter AmsGrad.update o p g (n + 1)).2 k = (iter AmsGrad.update o p g n).2 k -
          lr * m (n + 1) k / (Real.sqrt (v (n + 1) k + eps) : ℂ) := by
  have h : o = ⟨lr, beta1, beta2, eps, none⟩ ∧ 0 < eps := by
    simp only [AmsGrad.mk'] at ho
    split_ifs at ho with h1 h2 h3 h4
    push Not at h1
    exact ⟨(Except.ok.inj ho).symm, h1⟩
  obtain ⟨h, he⟩ := h
  have hst := fun n => amsgrad_state o p g n
  have hv : ∀ n k, (iter AmsGrad.update o p g (n + 1)).1.accs.2 k = max ((iter AmsGrad.update o p g n).1.accs.2 k)
      (beta2 * (iter AmsGrad.update o p g n).1.accs.2 k + (1 - beta2) * ‖g n k‖ ^ 2) := by
    intro n k
    obtain ⟨-, -, h3, -⟩ := hst n
    show (AmsGrad.update _ _ _).1.accs.2 k = _
    have e : o.beta2 = beta2 := by rw [h]
    rw [e] at h3
    simp only [AmsGrad.update]
    simp only [AmsGrad.accs] at *
    rw [h3, Real.rpow_two]
  have hm : ∀ n k, (iter AmsGrad.update o p g (n + 1)).1.accs.1 k =
      beta1 * (iter AmsGrad.update o p g n).1.accs.1 k + (1 - beta1) * g n k := by
    intro n k
    obtain ⟨-, h2, -, -⟩ := hst n
    show (AmsGrad.update _ _ _).1.accs.1 k = _
    have e : o.beta1 = beta1 := by rw [h]
    rw [e] at h2
    simp only [AmsGrad.update]
    simp only [AmsGrad.accs] at *
    rw [h2]
  have h0 : ∀ k, (iter AmsGrad.update o p g 0).1.accs.1 k = 0 ∧ (iter AmsGrad.update o p g 0).1.accs.2 k = 0 := by
    intro k; simp [iter, h, AmsGrad.accs]
  have hnn : ∀ n k, 0 ≤ (iter AmsGrad.update o p g n).1.accs.2 k := by
    intro n k
    induction n with
    | zero => exact (h0 k).2.ge
    | succ n ih => rw [hv]; exact le_max_of_le_left ih
  refine ⟨fun n k => (iter AmsGrad.update o p g n).1.accs.1 k, fun n k => (iter AmsGrad.update o p g n).1.accs.2 k,
    h0, ?_, ?_⟩
  · intro n k
    show _ ≤ (iter AmsGrad.update o p g (n + 1)).1.accs.2 k
    rw [hv]; exact le_max_left _ _
  · intro n k
    refine ⟨hm n k, hv n k, add_pos_of_nonneg_of_pos (hnn _ _) he, ?_⟩
    obtain ⟨h1, -, -, h4⟩ := hst n
    have e1 : o.eta = lr := by rw [h]
    have e2 : o.eps = eps := by rw [h]
    have e : (iter AmsGrad.update o p g (n + 1)).2 k = (iter AmsGrad.update o p g n).2 k -
      (iter AmsGrad.update o p g n).1.eta * (iter AmsGrad.update o p g (n + 1)).1.accs.1 k /
        (Real.sqrt ((iter AmsGrad.update o p g (n + 1)).1.accs.2 k + (iter AmsGrad.update o p g n).1.eps) : ℂ) := by
      rw [iter]; rfl
    rw [e, h1, h4, e1, e2]

/-- two optimizers with the same first update stay together. -/
theorem iter_congr {ω ι : Type} (upd : ω → Vec ι → Vec ι → ω × Vec ι) (o o' : ω)
    (h : ∀ g p, upd o g p = upd o' g p) (p : Vec ι) (g : Nat → Vec ι) (n : Nat) :
    (iter upd o p g n).2 = (iter upd o' p g n).2 ∧ iter upd o p g (n + 1) = iter upd o' p g (n + 1) := by
  induction n with
  | zero => exact ⟨rfl, h _ _⟩
  | succ n ih =>
    refine ⟨by rw [ih.2], ?_⟩
    show upd (iter upd o p g (n + 1)).1 _ (iter upd o p g (n + 1)).2 = _
    rw [ih.2]; rfl

/-- two `AdaMax` optimizers with the same first update stay together. -/
theorem iterMax_congr {ι : Type} (o o' : AdaMax ι)
    (h : ∀ g p, o.update g p = o'.update g p) (p : Vec ι) (g : Nat → Vec ι) (n : Nat) :
    (iterMax o p g n).2 = (iterMax o' p g n).2 ∧ iterMax o p g (n + 1) = iterMax o' p g (n + 1) := by
  induction n with
  | zero => exact ⟨rfl, h _ _⟩
  | succ n ih =>
    refine ⟨by rw [ih.2], ?_⟩
    have e : ∀ q : AdaMax ι, iterMax q p g (n + 1 + 1) =
        match (iterMax q p g (n + 1)).2 with
        | .error e => ((iterMax q p g (n + 1)).1, .error e)
        | .ok r => (iterMax q p g (n + 1)).1.update (g (n + 1)) r := fun _ => rfl
    rw [e, e, ih.2]

/-- what `AdaMax` keeps, also when it raises. -/
theorem adamax_kept {ι : Type} (o : AdaMax ι) (hn : o.niter = 0) (p : Vec ι) (g : Nat → Vec ι)
    (n : Nat) :
    let q := (iterMax o p g n).1
    q.alpha = o.alpha ∧ q.beta1 = o.beta1 ∧ q.beta2 = o.beta2 ∧ q.eps = o.eps ∧ (q.acc = none → q.niter = 0) := by
  have hu : ∀ (q : AdaMax ι) g p, (q.update g p).1.alpha = q.alpha ∧ (q.update g p).1.beta1 = q.beta1 ∧
      (q.update g p).1.beta2 = q.beta2 ∧ (q.update g p).1.eps = q.eps ∧ (q.update g p).1.acc ≠ none := by
    intro q g p
    simp only [AdaMax.update]
    split_ifs <;> simp
  induction n with
  | zero => simp [iterMax, hn]
  | succ n ih =>
    simp only [iterMax]
    split
    · exact ih
    · rename_i q _
      obtain ⟨h1, h2, h3, h4, h5⟩ := hu (iterMax o p g n).1 (g n) q
      exact ⟨h1.trans ih.1, h2.trans ih.2.1, h3.trans ih.2.2.1, h4.trans ih.2.2.2.1, fun h => absurd h h5⟩

/-- **C173**, `reset` of Sgd (see C173_sgd), Momentum, RmsProp, AdaMax and AmsGrad: whatever the optimizer has seen, after
`reset` it changes parameters like a new one. -/
theorem C173_reset {ι : Type} (a b c d : ℝ) (p p' : Vec ι) (g g' : Nat → Vec ι) (n m : Nat) :
    (∀ o : Momentum ι, Momentum.mk' a b c = .ok o →
      (iter Momentum.update (iter Momentum.update o p g n).1.reset p' g' m).2 = (iter Momentum.update o p' g' m).2) ∧
    (∀ o : RmsProp ι, RmsProp.mk' a b c = .ok o →
      (iter RmsProp.update (iter RmsProp.update o p g n).1.reset p' g' m).2 = (iter RmsProp.update o p' g' m).2) ∧
    (∀ o : AdaMax ι, AdaMax.mk' a b c d = .ok o →
      (iterMax (iterMax o p g n).1.reset p' g' m).2 = (iterMax o p' g' m).2) ∧
    (∀ o : AmsGrad ι, AmsGrad.mk' a b c d = .ok o →
      (iter AmsGrad.update (iter AmsGrad.update o p g n).1.reset p' g' m).2 = (iter AmsGrad.update o p' g' m).2) := by
  have hfill : ∀ {α : Type} [Zero α] (v : Option (ι → α)), orZero (filled v) = fun _ => 0 := by
    intro α _ v; cases v <;> rfl
  refine ⟨?_, ?_, ?_, ?_⟩
  · intro o ho
    have h0 : o.mt = none := by
      simp only [Momentum.mk'] at ho
      split_ifs at ho
      rw [← Except.ok.inj ho]
    obtain ⟨h1, h2, h3, -⟩ := momentum_state o h0 p g n
    refine (iter_congr _ _ _ ?_ p' g' m).1
    intro u v
    simp only [Momentum.update, Momentum.reset, hfill, h0, h1, h2, h3]
    rfl
  · intro o ho
    have h0 : o.mt = none := by
      simp only [RmsProp.mk'] at ho
      split_ifs at ho
      rw [← Except.ok.inj ho]
    obtain ⟨h1, h2, h3, -⟩ := rmsprop_state o h0 p g n
    refine (iter_congr _ _ _ ?_ p' g' m).1
    intro u v
    simp only [RmsProp.update, RmsProp.reset, hfill, h0, h1, h2, h3]
    rfl
  · intro o ho
    have h0 : o.acc = none ∧ o.niter = 0 := by
      simp only [AdaMax.mk'] at ho
      split_ifs at ho
      rw [← Except.ok.inj ho]; exact ⟨rfl, rfl⟩
    obtain ⟨h1, h2, h3, h4, h5⟩ := adamax_kept o h0.2 p g n
    refine (iterMax_congr _ _ ?_ p' g' m).1
    intro u v
    cases hq : (iterMax o p g n).1.acc with
    | none =>
      have h6 := h5 hq
      simp only [AdaMax.update, AdaMax.reset, AdaMax.accs, hq, h0.1, h0.2, h1, h2, h3, h4, h6]
    | some x => simp only [AdaMax.update, AdaMax.reset, AdaMax.accs, hq, h0.1, h0.2, h1, h2, h3, h4]
  · intro o ho
    have h0 : o.acc = none := by
      simp only [AmsGrad.mk'] at ho
      split_ifs at ho
      rw [← Except.ok.inj ho]
    obtain ⟨h1, h2, h3, h4⟩ := amsgrad_state o p g n
    refine (iter_congr _ _ _ ?_ p' g' m).1
    intro u v
    cases hq : (iter AmsGrad.update o p g n).1.acc with
    | none => simp only [AmsGrad.update, AmsGrad.reset, AmsGrad.accs, hq, h0, h1, h2, h3, h4]
    | some x => simp only [AmsGrad.update, AmsGrad.reset, AmsGrad.accs, hq, h0, h1, h2, h3, h4]

/-- **C173**, arguments: decay rates outside of `[0, 1]`, cut-offs that are not positive, negative regularisation and
negative learning rates raise ValueError; everything else is accepted by the adaptive optimizers. -/
theorem C173_arguments {ι : Type} (lr beta beta2 eps l2 : ℝ) :
    ((∃ o : Momentum ι, Momentum.mk' lr beta l2 = .ok o) ↔ 0 < lr ∧ 0 ≤ l2 ∧ 0 ≤ beta ∧ beta ≤ 1) ∧
    ((∃ o : AdaGrad ι, AdaGrad.mk' lr eps = .ok o) ↔ 0 ≤ lr ∧ 0 < eps) ∧
    ((∃ o : RmsProp ι, RmsProp.mk' lr beta eps = .ok o) ↔ 0 ≤ lr ∧ 0 < eps ∧ 0 ≤ beta ∧ beta ≤ 1) ∧
    ((∃ o : AdaDelta ι, AdaDelta.mk' beta eps l2 = .ok o) ↔ 0 ≤ l2 ∧ 0 < eps ∧ 0 ≤ beta ∧ beta ≤ 1) ∧
    ((∃ o : AdaMax ι, AdaMax.mk' lr beta beta2 eps = .ok o) ↔
      0 ≤ lr ∧ 0 < eps ∧ 0 ≤ beta ∧ beta ≤ 1 ∧ 0 ≤ beta2 ∧ beta2 ≤ 1) ∧
    ((∃ o : AmsGrad ι, AmsGrad.mk' lr beta beta2 eps = .ok o) ↔
      0 ≤ lr ∧ 0 < eps ∧ 0 ≤ beta ∧ beta ≤ 1 ∧ 0 ≤ beta2 ∧ beta2 ≤ 1) := by
  refine ⟨?_, ?_, ?_, ?_, ?_, ?_⟩ <;>
    simp only [Momentum.mk', AdaGrad.mk', RmsProp.mk', AdaDelta.mk', AdaMax.mk', AmsGrad.mk'] <;>
    split_ifs <;> simp <;> grind

/-- the hypotheses of the theorems above hold for usual arguments. -/
example : (∃ o, Sgd.mk' (1 / 10) 0 1 = .ok o) ∧ (∃ o : Momentum (Fin 2), Momentum.mk' (1 / 10) (9 / 10) 0 = .ok o) ∧
    (∃ o : AdaMax (Fin 2), AdaMax.mk' (1 / 1000) (9 / 10) (999 / 1000) (1 / 10 ^ 7) = .ok o) ∧
    (∃ o : AdaDelta (Fin 2), AdaDelta.mk' (95 / 100) (1 / 10 ^ 7) 0 = .ok o) := by
  refine ⟨?_, ?_, ?_, ?_⟩
  · norm_num [Sgd.mk']
  · norm_num [Momentum.mk']
  · norm_num [AdaMax.mk']
  · norm_num [AdaDelta.mk']

/-- **C174**, refuted: the documented decay factors `γ ≤ 1` of Sgd. Every factor below 1 is rejected with ValueError, every
factor above 1, with which the learning rate grows, is accepted. -/
theorem C174_decay_refuted (lr l2 decay : ℝ) (hlr : 0 < lr) (hl2 : 0 ≤ l2) :
    (decay < 1 → sgdFactory lr l2 decay = .error .valueError) ∧
      (1 < decay → ∃ o, sgdFactory lr l2 decay = .ok o) := by
  constructor
  · intro h
    rw [sgdFactory, Sgd.mk', if_neg (not_le.2 hlr), if_neg (not_lt.2 hl2), if_pos h]
  · intro h
    rw [sgdFactory, Sgd.mk', if_neg (not_le.2 hlr), if_neg (not_lt.2 hl2), if_neg (not_lt.2 h.le)]
    exact ⟨_, rfl⟩

/-- **C174**, refuted: `AdaGrad.reset` and `AdaDelta.reset` never reset: every call raises AttributeError and the optimizer
keeps its state. -/
theorem C174_reset_refuted {ι : Type} (o : AdaGrad ι) (o' : AdaDelta ι) :
    o.reset = (o, some .attributeError) ∧ o'.reset = (o', some .attributeError) := by
  constructor
  · simp [AdaGrad.reset, getAttr, adaGradAttrs]
  · simp [AdaDelta.reset, getAttr, adaDeltaAttrs]

/-- **C174**, refuted: the arguments of the factory `AmsGrad` have no effect, also if they are invalid. -/
theorem C174_amsgrad_refuted {ι : Type} (lr beta1 beta2 eps lr' beta1' beta2' eps' : ℝ) :
    (amsGradFactory lr beta1 beta2 eps : Except Err (AmsGrad ι)) = amsGradFactory lr' beta1' beta2' eps' ∧
      ∃ o : AmsGrad ι, amsGradFactory lr beta1 beta2 eps = .ok o ∧ o.eta = 1 / 1000 := by
  refine ⟨rfl, ?_⟩
  refine ⟨⟨1 / 1000, 9 / 10, 999 / 1000, 1 / 10 ^ 7, none⟩, ?_, rfl⟩
  norm_num [amsGradFactory, AmsGrad.mk']

/-- **C174**, refuted: the amount of regularisation of AdaDelta has no effect on any update. -/
theorem C174_l2_refuted {ι : Type} (rho eps l2 l2' : ℝ) (o o' : AdaDelta ι) (ho : AdaDelta.mk' rho eps l2 = .ok o)
    (ho' : AdaDelta.mk' rho eps l2' = .ok o') (p : Vec ι) (g : Nat → Vec ι) (n : Nat) :
    (iter AdaDelta.update o p g n).2 = (iter AdaDelta.update o' p g n).2 := by
  have h : o = ⟨rho, eps, l2, none⟩ := by
    simp only [AdaDelta.mk'] at ho
    split_ifs at ho
    exact (Except.ok.inj ho).symm
  have h' : o' = ⟨rho, eps, l2', none⟩ := by
    simp only [AdaDelta.mk'] at ho'
    split_ifs at ho'
    exact (Except.ok.inj ho').symm
  have : (iter AdaDelta.update o p g n).2 = (iter AdaDelta.update o' p g n).2 ∧
      (iter AdaDelta.update o p g n).1.acc = (iter AdaDelta.update o' p g n).1.acc := by
    induction n with
    | zero => subst h h'; exact ⟨rfl, rfl⟩
    | succ n ih =>
      obtain ⟨h1, h2, -⟩ := adadelta_state o p g n
      obtain ⟨h3, h4, -⟩ := adadelta_state o' p g n
      have e1 : o.rho = o'.rho := by rw [h, h']
      have e2 : o.eps = o'.eps := by rw [h, h']
      simp only [iter, AdaDelta.update, AdaDelta.accs, h1, h2, h3, h4, e1, e2, ih.1, ih.2, and_self]
  exact this.1

/-- **C174**, refuted: AdaMax accepts `β₁ = 1` and its first update always raises ZeroDivisionError. -/
theorem C174_adamax_refuted {ι : Type} (alpha beta2 eps : ℝ) (ha : 0 ≤ alpha) (hb : 0 ≤ beta2 ∧ beta2 ≤ 1)
    (he : 0 < eps) :
    ∃ o : AdaMax ι, AdaMax.mk' alpha 1 beta2 eps = .ok o ∧
      ∀ g p, (o.update g p).2 = .error .zeroDivision := by
  refine ⟨⟨alpha, 1, beta2, eps, none, 0⟩, ?_, ?_⟩
  · simp only [AdaMax.mk']
    rw [if_neg (not_le.2 he), if_neg (not_lt.2 ha), if_neg (by norm_num), if_neg (by push Not; exact hb)]
  · intro g p
    simp [AdaMax.update]

/-- **C174**, refuted: RmsProp does not divide by `√s + ε` as documented but by `√(s + ε)`:
there are gradients for which the parameters differ. -/
theorem C174_cutoff_refuted :
    ¬ ∀ (lr beta eps : ℝ) (o : RmsProp Unit), RmsProp.mk' lr beta eps = .ok o → ∀ g p,
      (o.update g p).2 = fun k => p k - lr * g k / ((Real.sqrt ((1 - beta) * ‖g k‖ ^ 2) + eps : ℝ) : ℂ) := by
  intro h
  have := congrFun (h 1 0 3 ⟨1, 0, 3, none⟩ (by norm_num [RmsProp.mk']) (fun _ => 1) (fun _ => 0)) ()
  simp only [RmsProp.update, orZero] at this
  norm_num at this
  have h4 : Real.sqrt 4 = 2 := by rw [show (4 : ℝ) = 2 ^ 2 by norm_num]; exact Real.sqrt_sq (by norm_num)
  rw [h4] at this
  norm_num at this

/-- **C174**, refuted: for machines of jax, `Sgd` ignores regularisation and decay: unless there is none of both, some
step differs from the documented one. -/
theorem C174_jax_refuted (lr l2 decay : ℝ) (hlr : 0 < lr) (h : l2 ≠ 0 ∨ decay ≠ 1) :
    ∃ g p : Vec Unit, jaxSgdStep lr l2 decay g p ≠ fun k => p k - ((lr * decay : ℝ) : ℂ) * (g k + l2 * p k) := by
  by_cases hd : decay = 1
  · have hl : l2 ≠ 0 := h.resolve_right (by simpa using hd)
    refine ⟨fun _ => 0, fun _ => 1, ?_⟩
    intro he
    have := congrFun he ()
    simp only [jaxSgdStep, hd] at this
    have h2 := congrArg Complex.re this
    simp at h2
    have h3 : lr * l2 = 0 := by linarith
    rcases mul_eq_zero.1 h3 with h1 | h1
    · exact hlr.ne' h1
    · exact hl h1
  · refine ⟨fun _ => 1, fun _ => 0, ?_⟩
    intro he
    have := congrFun he ()
    simp only [jaxSgdStep] at this
    have h2 := congrArg Complex.re this
    simp at h2
    have h3 : lr * (1 - decay) = 0 := by linarith
    rcases mul_eq_zero.1 h3 with h1 | h1
    · exact hlr.ne' h1
    · exact hd (by linarith)

/-- **C174**, refuted: an optimizer of torch can never be wrapped, and a wrapped optimizer of jax with a description cannot
be printed. -/
theorem C174_wrappers_refuted (valid : Bool) (s auto : String) :
    torchInit valid = .error .nameError ∧ wrapRepr (some s) auto = .error .typeError := by
  constructor
  · simp [torchInit, torchNames]
  · rfl

end Verif.LegacyOpt

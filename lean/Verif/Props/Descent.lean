import Verif.Props.SRStep
import Verif.Props.Optax

/-! C252: an update of `VMC` lowers the energy to first order in the learning rate. -/

set_option linter.unusedSectionVars false
set_option linter.unusedVariables false

namespace Verif.Descent
open Verif.Vjp Verif.QGT Verif.SRStep Finset

variable {S : Type} [Fintype S]

/-- the parameters after a change `v` with learning rate `t` -/
def move (θ v : Nat → ℂ) (t : ℝ) : Nat → ℂ := fun k => θ k + (t : ℂ) * v k

/-- `DR s k`, `DI s k` are the derivatives of the log-amplitude at `s` along the real and imaginary part of parameter `k`
    (the latter of no importance for real parameters): the log-amplitude is differentiable along every change of the
    parameters which is real on real parameters. -/
def Differentiable (np : Nat) (cplx : Nat → Bool) (logpsi : (Nat → ℂ) → S → ℂ) (θ : Nat → ℂ) (DR DI : S → Nat → ℂ) : Prop :=
  ∀ v : Nat → ℂ, (∀ k, cplx k = false → (v k).im = 0) → ∀ s,
    HasDerivAt (fun t : ℝ => logpsi (move θ v t) s)
      (∑ k ∈ range np, (DR s k * ((v k).re : ℂ) + DI s k * ((v k).im : ℂ))) 0

/-- the situation of the theorems: samples `smp 0, …, smp (ns - 1)` distributed over ranks, representing `|ψ|²`, the
    local energies and log-derivatives at the samples, complex parameters entering holomorphically. -/
structure Setting (S : Type) [Fintype S] where
  ns : Nat
  np : Nat
  cplx : Nat → Bool
  H : S → S → ℂ
  logpsi : (Nat → ℂ) → S → ℂ
  θ : Nat → ℂ
  DR : S → Nat → ℂ
  DI : S → Nat → ℂ
  smp : Nat → S
  L : Nat
  shards : List (Shard Nat)
  pos : 0 < ns
  herm : ∀ s t, H t s = (starRingEnd ℂ) (H s t)
  diff : Differentiable np cplx logpsi θ DR DI
  holo : ∀ s k, cplx k = true → DI s k = Complex.I * DR s k
  equal : Verif.Stats.Equal L shards
  data : shards.flatten = (List.range ns).map fun i => (eLoc H (logpsi θ) (smp i), DR (smp i))
  repr : Represents (logpsi θ) ((List.range ns).map smp)

namespace Setting
variable (A : Setting S)

/-- the Jacobian at the samples -/
def jac : Jac := ⟨fun i k => A.DR (A.smp i) k, fun i k => A.DI (A.smp i) k⟩

/-- the gradient `expect_and_grad` returns (vqs/mc_state.py:637-694, modelled by `gradHermitian`) -/
noncomputable def grad (k : Nat) : ℂ := gradHermitian (A.cplx k) A.shards k

/-- the energy of the state after a change `v` of the parameters with learning rate `t` -/
noncomputable def energyAfter (v : Nat → ℂ) (t : ℝ) : ℝ := energy A.H (A.logpsi (move A.θ v t))

/-- changes which keep real parameters real -/
def Admissible (v : Nat → ℂ) : Prop := ∀ k, A.cplx k = false → (v k).im = 0

end Setting

theorem nonempty_of (A : Setting S) : Nonempty S := ⟨A.smp 0⟩

/-- **C252**: the derivative of the energy along any change `v` of the parameters is `2 Σ_k Re(conj(v_k) F_k)`, `F` being
    the gradient returned by `expect_and_grad`; parameters may be real and complex. -/
theorem C252_derivative (A : Setting S) (v : Nat → ℂ) (hv : A.Admissible v) :
    HasDerivAt (A.energyAfter v) (2 * ∑ k ∈ range A.np, (star (v k) * A.grad k).re) 0 := by
  have := nonempty_of A
  have hmain := hasDerivAt_energy A.H A.herm (fun t : ℝ => A.logpsi (move A.θ v t))
    (fun s => ∑ k ∈ range A.np, (A.DR s k * ((v k).re : ℂ) + A.DI s k * ((v k).im : ℂ))) 0 (A.diff v hv)
  have h0 : A.logpsi (move A.θ v 0) = A.logpsi A.θ := by
    congr 1
    funext k
    simp [move]
  simp only [h0] at hmain
  have hne : (List.range A.ns).map A.smp ≠ [] := by
    have := A.pos
    simp
    omega
  have hmean : (∑ t ∈ range A.ns, eLoc A.H (A.logpsi A.θ) (A.smp t)) / A.ns = (energy A.H (A.logpsi A.θ) : ℂ) := by
    have := avg_represents (A.logpsi A.θ) _ hne A.repr (fun s => eLoc A.H (A.logpsi A.θ) s)
    rw [herm_energy A.H A.herm, ← this]
    unfold Verif.Stats.avg
    rw [List.map_map, List.length_map, List.length_range]
    rfl
  have hr := rdot_gradient A.ns A.np A.pos A.cplx A.jac (fun i => eLoc A.H (A.logpsi A.θ) (A.smp i)) A.L A.shards A.equal
    A.data (fun i k => A.holo (A.smp i) k) v hv
  have e1 : ∑ k ∈ range A.np, (star (v k) * A.grad k).re = rdot A.np v (fun k => gradHermitian (A.cplx k) A.shards k) := rfl
  have e2 : (∑ s, (prob (A.logpsi A.θ) s : ℂ) * ((starRingEnd ℂ)
      (∑ k ∈ range A.np, (A.DR s k * ((v k).re : ℂ) + A.DI s k * ((v k).im : ℂ))) *
        (eLoc A.H (A.logpsi A.θ) s - (energy A.H (A.logpsi A.θ) : ℂ)))).re
      = rdot A.np v (fun k => gradHermitian (A.cplx k) A.shards k) := by
    rw [hr, center_inner A.ns A.pos,
      ← avg_represents (A.logpsi A.θ) _ hne A.repr (fun s => (starRingEnd ℂ)
        (∑ k ∈ range A.np, (A.DR s k * ((v k).re : ℂ) + A.DI s k * ((v k).im : ℂ))) *
          (eLoc A.H (A.logpsi A.θ) s - (energy A.H (A.logpsi A.θ) : ℂ)))]
    unfold Verif.Stats.avg
    rw [List.map_map, List.length_map, List.length_range]
    have hns : (A.ns : ℂ) = ((A.ns : ℝ) : ℂ) := by push_cast; rfl
    rw [hns, Complex.div_ofReal_re]
    congr 2
    rw [sum_list]
    refine sum_congr rfl fun i _ => ?_
    simp only [Function.comp_apply, center, hmean, jvp_eq, Setting.jac]
    rfl
  rw [e1, ← e2]
  exact hmain

theorem admissible_grad (A : Setting S) : A.Admissible A.grad := by
  intro k hk
  unfold Setting.grad
  rw [C59_covariance (A.cplx k) A.L A.shards A.equal, hk]
  simp

theorem re_star_mul_self' (z : ℂ) : ((starRingEnd ℂ) z * z).re = Complex.normSq z := by
  simp [Complex.mul_re, Complex.normSq_apply]

theorem re_star_mul_self (z : ℂ) : (star z * z).re = Complex.normSq z := by
  simp [Complex.mul_re, Complex.normSq_apply]

/-- a function with negative derivative at zero is smaller shortly after -/
theorem lower_of_deriv {f : ℝ → ℝ} {d : ℝ} (h : HasDerivAt f d 0) (hd : d < 0) :
    ∃ ε > 0, ∀ t, 0 < t → t < ε → f t < f 0 := by
  have h1 := h.tendsto_slope
  have h2 : ∀ᶠ t in nhdsWithin (0 : ℝ) {0}ᶜ, slope f 0 t < 0 := h1.eventually_lt_const hd
  rw [eventually_nhdsWithin_iff, Metric.eventually_nhds_iff] at h2
  obtain ⟨ε, hε, h2⟩ := h2
  refine ⟨ε, hε, fun t ht hte => ?_⟩
  have h3 := h2 (by rw [Real.dist_eq, sub_zero, abs_of_pos ht]; exact hte) (ne_of_gt ht)
  rw [slope_def_field, sub_zero, div_neg_iff] at h3
  rcases h3 with h3 | h3 <;> linarith [h3.1, h3.2]

/-- **C252**: gradient descent: the energy after the update `-lr F` decreases at the rate `2 |F|²`, so it is lower for all
    small learning rates unless the gradient vanishes. -/
theorem C252_sgd (A : Setting S) :
    HasDerivAt (A.energyAfter fun k => -A.grad k) (-(2 * ∑ k ∈ range A.np, Complex.normSq (A.grad k))) 0 ∧
    ((∃ k < A.np, A.grad k ≠ 0) → ∃ ε > 0, ∀ lr, 0 < lr → lr < ε →
      A.energyAfter (fun k => -A.grad k) lr < A.energyAfter (fun k => -A.grad k) 0) := by
  have h := C252_derivative A (fun k => -A.grad k) (by
    intro k hk
    rw [Complex.neg_im, admissible_grad A k hk, neg_zero])
  have e : (2 * ∑ k ∈ range A.np, (star (-A.grad k) * A.grad k).re) = -(2 * ∑ k ∈ range A.np, Complex.normSq (A.grad k)) := by
    rw [← mul_neg, ← sum_neg_distrib]
    congr 1
    refine sum_congr rfl fun k _ => ?_
    rw [star_neg, neg_mul, Complex.neg_re, re_star_mul_self]
  rw [e] at h
  refine ⟨h, fun ⟨k, hk, hg⟩ => lower_of_deriv h ?_⟩
  have : 0 < ∑ k ∈ range A.np, Complex.normSq (A.grad k) :=
    sum_pos' (fun _ _ => Complex.normSq_nonneg _) ⟨k, mem_range.2 hk, Complex.normSq_pos.2 hg⟩
  linarith

/-- **C252**: stochastic reconfiguration with a positive shift: for every solution `dp` of the linear system the energy
    decreases along `-dp`, at a rate of at least `2 shift |dp|²`, strictly unless the gradient vanishes. -/
theorem C252_sr (A : Setting S) (shift : ℝ) (hs : 0 < shift) (dp : Nat → ℂ) (hdp : A.Admissible dp)
    (hsolve : ∀ k < A.np, matVec A.ns A.np A.jac shift dp k = A.grad k) :
    ∃ d, HasDerivAt (A.energyAfter fun k => -dp k) d 0 ∧ d ≤ -(2 * shift * ∑ k ∈ range A.np, Complex.normSq (dp k)) ∧
    ((∃ k < A.np, A.grad k ≠ 0) → d < 0 ∧ ∃ ε > 0, ∀ lr, 0 < lr → lr < ε →
      A.energyAfter (fun k => -dp k) lr < A.energyAfter (fun k => -dp k) 0) := by
  have h := C252_derivative A (fun k => -dp k) (by
    intro k hk
    rw [Complex.neg_im, hdp k hk, neg_zero])
  have hm := rdot_matVec A.ns A.np A.pos A.jac shift dp dp
  have e : ∑ k ∈ range A.np, (star (-dp k) * A.grad k).re = -rdot A.np dp (matVec A.ns A.np A.jac shift dp) := by
    unfold rdot
    rw [← sum_neg_distrib]
    refine sum_congr rfl fun k hk => ?_
    rw [hsolve k (mem_range.1 hk), star_neg, neg_mul, Complex.neg_re]
  have hn : rdot A.np dp dp = ∑ k ∈ range A.np, Complex.normSq (dp k) := by
    unfold rdot
    exact sum_congr rfl fun k _ => re_star_mul_self _
  have hc : 0 ≤ rdot A.np dp (matVec A.ns A.np A.jac shift dp) - shift * ∑ k ∈ range A.np, Complex.normSq (dp k) := by
    rw [hm, hn]
    have h1 : ∀ s, (star (center A.ns (jvp A.np A.jac dp) s) * center A.ns (jvp A.np A.jac dp) s).re
        = Complex.normSq (center A.ns (jvp A.np A.jac dp) s) := fun s => re_star_mul_self _
    have h2 : 0 ≤ (∑ s ∈ range A.ns, star (center A.ns (jvp A.np A.jac dp) s) * center A.ns (jvp A.np A.jac dp) s).re / A.ns := by
      rw [Complex.re_sum]
      simp only [h1]
      exact div_nonneg (sum_nonneg fun _ _ => Complex.normSq_nonneg _) (Nat.cast_nonneg _)
    linarith
  rw [e] at h
  refine ⟨_, h, by linarith, fun ⟨k, hk, hg⟩ => ?_⟩
  have hpos : 0 < ∑ k ∈ range A.np, Complex.normSq (dp k) := by
    by_contra hle
    have h0 : ∑ k ∈ range A.np, Complex.normSq (dp k) = 0 :=
      le_antisymm (not_lt.1 hle) (sum_nonneg fun _ _ => Complex.normSq_nonneg _)
    have hz : ∀ k < A.np, dp k = 0 := fun k hk => Complex.normSq_eq_zero.1
      ((sum_eq_zero_iff_of_nonneg fun _ _ => Complex.normSq_nonneg _).1 h0 k (mem_range.2 hk))
    have hj : ∀ s, jvp A.np A.jac dp s = 0 := by
      intro s
      rw [jvp_eq]
      refine sum_eq_zero fun k hk => ?_
      rw [hz k (mem_range.1 hk)]
      simp
    apply hg
    rw [← hsolve k hk]
    have hcz : ∀ s, center A.ns (jvp A.np A.jac dp) s = 0 := by
      intro s
      simp [center, hj]
    unfold matVec odaggerDeltaO
    rw [hz k hk]
    simp [ohw, vjp, hj, center]
  have hd : 2 * -rdot A.np dp (matVec A.ns A.np A.jac shift dp) < 0 := by
    have := mul_pos hs hpos
    linarith
  exact ⟨hd, lower_of_deriv h hd⟩

/-- **C252**: updates which rescale the gradient of every parameter by its own positive factor lower the energy as well. -/
theorem C252_rescaled (A : Setting S) (c : Nat → ℝ) (hc : ∀ k, A.grad k ≠ 0 → 0 < c k) :
    HasDerivAt (A.energyAfter fun k => -((c k : ℂ) * A.grad k)) (-(2 * ∑ k ∈ range A.np, c k * Complex.normSq (A.grad k))) 0 ∧
    ((∃ k < A.np, A.grad k ≠ 0) → ∃ ε > 0, ∀ lr, 0 < lr → lr < ε →
      A.energyAfter (fun k => -((c k : ℂ) * A.grad k)) lr < energy A.H (A.logpsi A.θ)) := by
  have h := C252_derivative A (fun k => -((c k : ℂ) * A.grad k)) (by
    intro k hk
    rw [Complex.neg_im, Complex.im_ofReal_mul, admissible_grad A k hk, mul_zero, neg_zero])
  have e : (2 * ∑ k ∈ range A.np, (star (-((c k : ℂ) * A.grad k)) * A.grad k).re)
      = -(2 * ∑ k ∈ range A.np, c k * Complex.normSq (A.grad k)) := by
    rw [← mul_neg, ← sum_neg_distrib]
    congr 1
    refine sum_congr rfl fun k _ => ?_
    rw [star_neg, neg_mul, Complex.neg_re, star_mul', Complex.star_def, Complex.conj_ofReal, mul_assoc, Complex.re_ofReal_mul,
      re_star_mul_self']
  rw [e] at h
  refine ⟨h, fun ⟨k, hk, hg⟩ => ?_⟩
  have h0 : A.energyAfter (fun k => -((c k : ℂ) * A.grad k)) 0 = energy A.H (A.logpsi A.θ) := by
    unfold Setting.energyAfter
    congr 2
    funext k
    simp [move]
  rw [← h0]
  apply lower_of_deriv h
  have : 0 < ∑ k ∈ range A.np, c k * Complex.normSq (A.grad k) := by
    refine sum_pos' (fun i _ => ?_) ⟨k, mem_range.2 hk, mul_pos (hc k hg) (Complex.normSq_pos.2 hg)⟩
    by_cases hi : A.grad i = 0
    · simp [hi]
    · exact mul_nonneg (hc i hi).le (Complex.normSq_nonneg _)
  linarith

/-- all parameters are real -/
def Setting.Real (A : Setting S) : Prop := ∀ k, A.cplx k = false ∧ (A.θ k).im = 0

/-- the energy after `apply_gradient` (driver/abstract_variational_driver.py:318-325) with the optimizer `o` in the states `st` -/
noncomputable def Setting.energyWith (A : Setting S) {St : Type} (o : Verif.Optax.Optimizer St) (st : Nat → St) : ℝ :=
  energy A.H (A.logpsi fun k => ((Verif.Optax.applyGradient o (st k) (A.grad k).re (A.θ k).re).2 : ℂ))

theorem lower_with (A : Setting S) (hR : A.Real) (hg : ∃ k < A.np, A.grad k ≠ 0) {St : Type} (o : ℝ → Verif.Optax.Optimizer St)
    (st : Nat → St) (c : Nat → ℝ) (hc : ∀ k, (A.grad k).re ≠ 0 → 0 < c k)
    (ho : ∀ lr k, ((o lr).update (A.grad k).re (st k)).1 = -lr * (c k * (A.grad k).re)) :
    ∃ ε > 0, ∀ lr, 0 < lr → lr < ε → A.energyWith (o lr) st < energy A.H (A.logpsi A.θ) := by
  have hre : ∀ k, A.grad k = ((A.grad k).re : ℂ) := fun k =>
    Complex.ext rfl (by rw [admissible_grad A k (hR k).1, Complex.ofReal_im])
  have hth : ∀ k, A.θ k = ((A.θ k).re : ℂ) := fun k => Complex.ext rfl (by rw [(hR k).2, Complex.ofReal_im])
  obtain ⟨ε, hε, h⟩ := (C252_rescaled A c fun k hk => hc k fun h0 => hk (by rw [hre k, h0, Complex.ofReal_zero])).2 hg
  refine ⟨ε, hε, fun lr h1 h2 => ?_⟩
  have e : A.energyWith (o lr) st = A.energyAfter (fun k => -((c k : ℂ) * A.grad k)) lr := by
    unfold Setting.energyWith Setting.energyAfter
    congr 2
    funext k
    unfold Verif.Optax.applyGradient move
    dsimp only
    rw [ho lr k]
    conv_rhs => rw [hth k, hre k]
    push_cast
    ring
  rw [e]
  exact h lr h1 h2

/-- **C252**: AdaGrad in any state it can reach (accumulators not negative), whatever the gradients before. -/
theorem C252_adagrad (A : Setting S) (hR : A.Real) (hg : ∃ k < A.np, A.grad k ≠ 0) (eps init : ℝ) (he : 0 ≤ eps)
    (acc : Nat → ℝ) (ha : ∀ k, 0 ≤ acc k) :
    ∃ ε > 0, ∀ lr, 0 < lr → lr < ε → A.energyWith (Verif.Optax.adagrad lr eps init) acc < energy A.H (A.logpsi A.θ) := by
  refine lower_with A hR hg (fun lr => Verif.Optax.adagrad lr eps init) acc
    (fun k => if 0 < acc k + (A.grad k).re ^ 2 then 1 / Real.sqrt (acc k + (A.grad k).re ^ 2 + eps) else 0) ?_ ?_
  · intro k hk
    have h1 : 0 < acc k + (A.grad k).re ^ 2 := by
      have := ha k
      positivity
    rw [if_pos h1]
    exact one_div_pos.2 (Real.sqrt_pos.2 (by linarith))
  · intro lr k
    simp only [Verif.Optax.adagrad]
    ring

/-- **C252**: RmsProp, centered or not, in any state it can reach (the average of the squares is not below the square of
    the average). -/
theorem C252_rmsprop (A : Setting S) (hR : A.Real) (hg : ∃ k < A.np, A.grad k ≠ 0) (beta eps : ℝ) (h0 : 0 ≤ beta) (h1 : beta ≤ 1)
    (he : 0 < eps) (centered : Bool) (st : Nat → ℝ × ℝ) (hst : ∀ k, (st k).1 ^ 2 ≤ (st k).2) :
    ∃ ε > 0, ∀ lr, 0 < lr → lr < ε →
      A.energyWith (Verif.Optax.rmsprop lr beta eps centered) st < energy A.H (A.logpsi A.θ) := by
  refine lower_with A hR hg (fun lr => Verif.Optax.rmsprop lr beta eps centered) st
    (fun k => 1 / Real.sqrt ((1 - beta) * (A.grad k).re ^ 2 + beta * (st k).2
        - (if centered then ((1 - beta) * (A.grad k).re + beta * (st k).1) ^ 2 else 0) + eps)) ?_ ?_
  · intro k hk
    refine one_div_pos.2 (Real.sqrt_pos.2 ?_)
    set g := (A.grad k).re
    have hs := hst k
    set m := (st k).1
    set q := (st k).2
    have hb : 0 ≤ 1 - beta := by linarith
    have hq : beta * m ^ 2 ≤ beta * q := mul_le_mul_of_nonneg_left hs h0
    have hm : 0 ≤ beta * m ^ 2 := mul_nonneg h0 (sq_nonneg _)
    have hgg : 0 ≤ (1 - beta) * g ^ 2 := mul_nonneg hb (sq_nonneg _)
    cases centered
    · simp only [Bool.false_eq_true, if_false]
      linarith
    · simp only [if_true]
      have hx : (1 - beta) * g ^ 2 + beta * m ^ 2 - ((1 - beta) * g + beta * m) ^ 2 = (1 - beta) * beta * (g - m) ^ 2 := by ring
      have hy : 0 ≤ (1 - beta) * beta * (g - m) ^ 2 := mul_nonneg (mul_nonneg hb h0) (sq_nonneg _)
      linarith
  · intro lr k
    simp only [Verif.Optax.rmsprop]
    ring

/-- the invariant of the states of RmsProp is preserved, and holds at the beginning -/
theorem C252_rmsprop_states (lr beta eps : ℝ) (h0 : 0 ≤ beta) (h1 : beta ≤ 1) (centered : Bool) (g : Nat → ℝ) (p : ℝ) (n : Nat) :
    (Verif.Optax.runOpt (Verif.Optax.rmsprop lr beta eps centered) g p n).1.1 ^ 2
      ≤ (Verif.Optax.runOpt (Verif.Optax.rmsprop lr beta eps centered) g p n).1.2 := by
  induction n with
  | zero => simp [Verif.Optax.runOpt, Verif.Optax.rmsprop]
  | succ n ih =>
    simp only [Verif.Optax.runOpt, Verif.Optax.applyGradient]
    set s := (Verif.Optax.runOpt (Verif.Optax.rmsprop lr beta eps centered) g p n).1
    show ((1 - beta) * g n + beta * s.1) ^ 2 ≤ (1 - beta) * g n ^ 2 + beta * s.2
    have hx : (1 - beta) * g n ^ 2 + beta * s.1 ^ 2 - ((1 - beta) * g n + beta * s.1) ^ 2 = (1 - beta) * beta * (g n - s.1) ^ 2 := by ring
    have hy : 0 ≤ (1 - beta) * beta * (g n - s.1) ^ 2 := mul_nonneg (mul_nonneg (by linarith) h0) (sq_nonneg _)
    have hq : beta * s.1 ^ 2 ≤ beta * s.2 := mul_le_mul_of_nonneg_left ih h0
    linarith

/-- the accumulators of AdaGrad are never negative -/
theorem C252_adagrad_states (lr eps init : ℝ) (hi : 0 ≤ init) (g : Nat → ℝ) (p : ℝ) (n : Nat) :
    0 ≤ (Verif.Optax.runOpt (Verif.Optax.adagrad lr eps init) g p n).1 := by
  induction n with
  | zero => simpa [Verif.Optax.runOpt, Verif.Optax.adagrad] using hi
  | succ n ih =>
    simp only [Verif.Optax.runOpt, Verif.Optax.applyGradient]
    exact add_nonneg ih (sq_nonneg _)

/-- **C252**: the first steps of Adam and Momentum, before they have a history. -/
theorem C252_first_step (A : Setting S) (hR : A.Real) (hg : ∃ k < A.np, A.grad k ≠ 0) :
    (∀ b1 b2 eps : ℝ, b1 < 1 → b2 < 1 → 0 ≤ eps → ∃ ε > 0, ∀ lr, 0 < lr → lr < ε →
      A.energyWith (Verif.Optax.adam lr b1 b2 eps) (fun _ => (Verif.Optax.adam lr b1 b2 eps).init) < energy A.H (A.logpsi A.θ)) ∧
    (∀ (beta : ℝ) (nesterov : Bool), 0 ≤ beta → ∃ ε > 0, ∀ lr, 0 < lr → lr < ε →
      A.energyWith (Verif.Optax.momentum lr beta nesterov) (fun _ => (Verif.Optax.momentum lr beta nesterov).init)
        < energy A.H (A.logpsi A.θ)) := by
  constructor
  · intro b1 b2 eps h1 h2 he
    refine lower_with A hR hg (fun lr => Verif.Optax.adam lr b1 b2 eps) (fun _ => (0, 0, 0))
      (fun k => 1 / (|(A.grad k).re| + eps)) ?_ ?_
    · intro k hk
      have := abs_pos.2 hk
      exact one_div_pos.2 (by linarith)
    · intro lr k
      have n1 : (1 - b1) ≠ 0 := by linarith
      have n2 : (1 - b2) ≠ 0 := by linarith
      simp only [Verif.Optax.adam, mul_zero, add_zero, zero_add, pow_one]
      rw [mul_div_cancel_left₀ _ n1, mul_div_cancel_left₀ _ n2, Real.sqrt_sq_eq_abs]
      ring
  · intro beta nesterov hb
    refine lower_with A hR hg (fun lr => Verif.Optax.momentum lr beta nesterov) (fun _ => 0)
      (fun _ => if nesterov then 1 + beta else 1) ?_ ?_
    · intro k hk
      split <;> linarith
    · intro lr k
      simp only [Verif.Optax.momentum, mul_zero, add_zero]
      split <;> ring

/-- with a history Momentum need not lower the energy: the increment can point against the gradient, whatever the learning rate. -/
theorem C252_momentum_history (beta : ℝ) (hb : 0 < beta) (nesterov : Bool) (g : ℝ) (hg : 0 < g) :
    ∃ t, ∀ lr, 0 < lr → 0 < ((Verif.Optax.momentum lr beta nesterov).update g t).1 := by
  refine ⟨-(2 * g * (1 + beta) / beta ^ 2 + 2 * g / beta), fun lr hlr => ?_⟩
  have e1 : beta * -(2 * g * (1 + beta) / beta ^ 2 + 2 * g / beta) = -(2 * g * (1 + beta) / beta + 2 * g) := by
    field_simp
  have hp : 0 < 2 * g * (1 + beta) / beta := by positivity
  cases nesterov
  · simp only [Verif.Optax.momentum, Bool.false_eq_true, if_false, e1]
    have : -lr * (g + -(2 * g * (1 + beta) / beta + 2 * g)) = lr * (2 * g * (1 + beta) / beta + g) := by ring
    rw [this]
    positivity
  · simp only [Verif.Optax.momentum, if_true, e1]
    have : -lr * (g + beta * (g + -(2 * g * (1 + beta) / beta + 2 * g))) = lr * (g + 3 * beta * g) := by
      field_simp
      ring
    rw [this]
    positivity

/-! ### Examples -/

/-- two states, one real parameter `x`, `ψ = (1, e^x)`, the energy of `diag(0, 1)` at `x = 0`, both states drawn once -/
noncomputable def exA : Setting (Fin 2) where
  ns := 2
  np := 1
  cplx := fun _ => false
  H := fun s t => if s = t then ((s : ℕ) : ℂ) else 0
  logpsi := fun θ s => θ 0 * ((s : ℕ) : ℂ)
  θ := fun _ => 0
  DR := fun s _ => ((s : ℕ) : ℂ)
  DI := fun s _ => Complex.I * ((s : ℕ) : ℂ)
  smp := fun i => if i = 0 then 0 else 1
  L := 1
  shards := [[(0, fun _ => 0)], [(1, fun _ => 1)]]
  pos := by norm_num
  herm := by
    intro s t
    fin_cases s <;> fin_cases t <;> simp
  diff := by
    intro v hv s
    have h0 : (v 0).im = 0 := hv 0 rfl
    have hre : v 0 = ((v 0).re : ℂ) := Complex.ext rfl (by rw [h0, Complex.ofReal_im])
    have h := ((Complex.ofRealCLM.hasDerivAt (x := (0 : ℝ))).mul_const (v 0)).mul_const ((s : ℕ) : ℂ)
    simp only [Complex.ofRealCLM_apply, Complex.ofReal_one, one_mul] at h
    simp only [move, zero_add, sum_range_one, h0, Complex.ofReal_zero, mul_zero, add_zero]
    rw [← hre, mul_comm ((s : ℕ) : ℂ) (v 0)]
    exact h
  holo := fun _ _ _ => rfl
  equal := by simp [Verif.Stats.Equal]
  data := by
    simp [List.range_succ, eLoc]
  repr := by
    intro s
    fin_cases s <;> simp [prob, List.range_succ]

theorem exA_grad : exA.grad 0 = 1 / 4 := by
  unfold Setting.grad
  rw [C59_covariance (exA.cplx 0) exA.L exA.shards exA.equal]
  simp [exA, cov, Verif.Stats.avg]
  norm_num

theorem exA_real : exA.Real := fun _ => ⟨rfl, rfl⟩

theorem exA_nonzero : ∃ k < exA.np, exA.grad k ≠ 0 := ⟨0, by simp [exA], by rw [exA_grad]; norm_num⟩

example := C252_derivative exA (fun _ => 1) (fun _ _ => by simp)
example := (C252_sgd exA).2 exA_nonzero
example := (C252_rescaled exA (fun _ => 2) (fun _ _ => by norm_num)).2 exA_nonzero
example := C252_adagrad exA exA_real exA_nonzero 0 0 le_rfl (fun _ => 0) (fun _ => le_rfl)
example := C252_rmsprop exA exA_real exA_nonzero (9 / 10) (1 / 100) (by norm_num) (by norm_num) (by norm_num) true (fun _ => (1, 2))
  (fun _ => by norm_num)
example := (C252_first_step exA exA_real exA_nonzero).1 (9 / 10) (999 / 1000) 0 (by norm_num) (by norm_num) le_rfl
example := C252_rmsprop_states 1 (9 / 10) 1 (by norm_num) (by norm_num) true (fun n => (-1) ^ n) 0 7
example := C252_adagrad_states 1 0 1 (by norm_num) (fun n => (-1) ^ n) 0 7
example := C252_momentum_history (9 / 10) (by norm_num) true 1 (by norm_num)

/-- a solution of the linear system with shift `1/4`, for which `S = 1/4` -/
theorem exA_solve : ∀ k < exA.np, matVec exA.ns exA.np exA.jac (1 / 4) (fun _ => 1 / 2) k = exA.grad k := by
  intro k hk
  have : k = 0 := by
    have : k < 1 := hk
    omega
  subst this
  rw [exA_grad, matVec_eq]
  simp [exA, Setting.jac, jvp_eq, center, sum_range_succ]
  norm_num

example := C252_sr exA (1 / 4) (by norm_num) (fun _ => 1 / 2) (fun _ _ => by norm_num) exA_solve

end Verif.Descent

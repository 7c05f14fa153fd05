import Mathlib.MeasureTheory.Measure.Lebesgue.Basic
import Mathlib.Analysis.SpecialFunctions.Exp
import Mathlib.Algebra.BigOperators.Ring.Finset

/-! Markov kernels on a finite set of configurations, stated without reference to the sampler. -/

namespace Verif.Markov

open MeasureTheory Finset

/-- one random move: `d` is drawn with probability `w x d`, `u` uniformly from `[0,1)`, and `x` becomes
    `step d u x`. Probability of arriving at `y`. -/
noncomputable def kernel {X D : Type} [Fintype D] (w : X → D → ℝ) (step : D → ℝ → X → X)
    (x y : X) : ℝ :=
  ∑ d, w x d * (volume {u : ℝ | (0 ≤ u ∧ u < 1) ∧ step d u x = y}).toReal

/-- `n` independent moves, summing over the configurations `S` passed through. -/
def kpow {X : Type} [DecidableEq X] (S : Finset X) (P : X → X → ℝ) : Nat → X → X → ℝ
  | 0 => fun x y => if x = y then 1 else 0
  | n + 1 => fun x y => ∑ z ∈ S, P x z * kpow S P n z y

/-- detailed balance. -/
def Reversible {X : Type} (S : Finset X) (π : X → ℝ) (P : X → X → ℝ) : Prop :=
  ∀ x ∈ S, ∀ y ∈ S, π x * P x y = π y * P y x

/-- the (unnormalised) density is left unchanged by one move. -/
def Stationary {X : Type} (S : Finset X) (π : X → ℝ) (P : X → X → ℝ) : Prop :=
  ∀ y ∈ S, ∑ x ∈ S, π x * P x y = π y

/-- `P` never leaves `S`. -/
def Stochastic {X : Type} (S : Finset X) (P : X → X → ℝ) : Prop :=
  (∀ x ∈ S, ∀ y ∈ S, 0 ≤ P x y) ∧ ∀ x ∈ S, ∑ y ∈ S, P x y = 1

/-- probability that the proposal, made before the acceptance step, is `y`. -/
noncomputable def proposal {X D : Type} [Fintype D] [DecidableEq X] (w : X → D → ℝ)
    (prop : D → X → X) (x y : X) : ℝ :=
  ∑ d, if prop d x = y then w x d else 0

theorem Reversible.stationary {X : Type} {S : Finset X} {π : X → ℝ} {P : X → X → ℝ}
    (h : Reversible S π P) (hs : Stochastic S P) : Stationary S π P := by
  intro y hy
  rw [Finset.sum_congr rfl fun x hx => h x hx y hy, ← Finset.mul_sum, hs.2 y hy, mul_one]

theorem Stochastic.kpow {X : Type} [DecidableEq X] {S : Finset X} {P : X → X → ℝ}
    (hs : Stochastic S P) (n : Nat) : Stochastic S (kpow S P n) := by
  induction n with
  | zero =>
    refine ⟨fun x _ y _ => ?_, fun x hx => ?_⟩
    · simp only [Markov.kpow]; split <;> norm_num
    · simp [Markov.kpow, hx]
  | succ n ih =>
    refine ⟨fun x hx y hy => ?_, fun x hx => ?_⟩
    · exact Finset.sum_nonneg fun z hz => mul_nonneg (hs.1 x hx z hz) (ih.1 z hz y hy)
    · simp only [Markov.kpow]
      rw [Finset.sum_comm]
      rw [← hs.2 x hx]
      refine Finset.sum_congr rfl fun z hz => ?_
      rw [← Finset.mul_sum, ih.2 z hz, mul_one]

theorem kpow_comm {X : Type} [DecidableEq X] {S : Finset X} {P : X → X → ℝ} (n : Nat) :
    ∀ x ∈ S, ∀ y ∈ S, ∑ z ∈ S, P x z * kpow S P n z y = ∑ z ∈ S, kpow S P n x z * P z y := by
  induction n with
  | zero =>
    intro x hx y hy
    simp only [kpow]
    simp [hx, hy]
  | succ n ih =>
    intro x hx y hy
    have h1 : ∀ z ∈ S, P x z * kpow S P (n + 1) z y
        = ∑ v ∈ S, P x z * (kpow S P n z v * P v y) := by
      intro z hz
      rw [show kpow S P (n + 1) z y = ∑ v ∈ S, P z v * kpow S P n v y from rfl, ih z hz y hy,
        Finset.mul_sum]
    rw [Finset.sum_congr rfl h1, Finset.sum_comm]
    refine Finset.sum_congr rfl fun v hv => ?_
    rw [show kpow S P (n + 1) x v = ∑ z ∈ S, P x z * kpow S P n z v from rfl, Finset.sum_mul]
    exact Finset.sum_congr rfl fun z hz => by ring

theorem Reversible.kpow {X : Type} [DecidableEq X] {S : Finset X} {π : X → ℝ} {P : X → X → ℝ}
    (h : Reversible S π P) (n : Nat) : Reversible S π (kpow S P n) := by
  induction n with
  | zero =>
    intro x _ y _
    simp only [Markov.kpow]
    by_cases e : x = y
    · subst e; rfl
    · rw [if_neg e, if_neg (Ne.symm e)]; simp
  | succ n ih =>
    intro x hx y hy
    rw [show Markov.kpow S P (n + 1) y x = ∑ z ∈ S, P y z * Markov.kpow S P n z x from rfl,
      kpow_comm n y hy x hx]
    simp only [Markov.kpow]
    rw [Finset.mul_sum, Finset.mul_sum]
    refine Finset.sum_congr rfl fun z hz => ?_
    rw [← mul_assoc, h x hx z hz, ← mul_assoc, ← ih z hz y hy]
    ring

end Verif.Markov

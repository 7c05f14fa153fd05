import Verif.Spec.Markov
import Mathlib.Analysis.SpecificLimits.Basic

/-! What it means for a chain on a finite set to reach its stationary density. -/

namespace Verif.Markov

open Finset Filter Topology

/-- every configuration can be reached from every other one. -/
def Irreducible {X : Type} [DecidableEq X] (S : Finset X) (P : X → X → ℝ) : Prop :=
  ∀ x ∈ S, ∀ y ∈ S, ∃ n, 0 < kpow S P n x y

/-- every density left unchanged by a move is a multiple of `π`. -/
def OnlyStationary {X : Type} (S : Finset X) (π : X → ℝ) (P : X → X → ℝ) : Prop :=
  ∀ μ : X → ℝ, Stationary S μ P → ∃ c, ∀ x ∈ S, μ x = c * π x

/-- wherever the chain starts, the law of its `t`-th configuration tends to the normalised `π`. -/
def Converges {X : Type} [DecidableEq X] (S : Finset X) (π : X → ℝ) (P : X → X → ℝ) : Prop :=
  ∀ x ∈ S, ∀ y ∈ S, Tendsto (fun t => kpow S P t x y) atTop (𝓝 (π y / ∑ z ∈ S, π z))

/-- wherever the chain starts, the expected fraction of the first `T` configurations which equal `y`
    tends to the normalised `π y`. -/
def AverageConverges {X : Type} [DecidableEq X] (S : Finset X) (π : X → ℝ) (P : X → X → ℝ) : Prop :=
  ∀ x ∈ S, ∀ y ∈ S,
    Tendsto (fun T : Nat => (∑ t ∈ range T, kpow S P t x y) / T) atTop (𝓝 (π y / ∑ z ∈ S, π z))

end Verif.Markov

import Verif.Spec.Markov
import Mathlib.Analysis.Complex.Norm

/-! Expected values over the trajectories of chains on a finite set, and the error of the average of a
function over all the configurations visited. -/

namespace Verif.Markov

open Finset

/-- expected value of `F` of the next `n` configurations of a chain which is at `x`. -/
def pathE {X : Type} (S : Finset X) (P : X → X → ℝ) : Nat → X → (List X → ℝ) → ℝ
  | 0, _, F => F []
  | n + 1, x, F => ∑ y ∈ S, P x y * pathE S P n y fun xs => F (y :: xs)

/-- expected value of `F` of the trajectories of independent chains, one from every starting point. -/
def chainsE {X : Type} (S : Finset X) (P : X → X → ℝ) (n : Nat) : List X → (List (List X) → ℝ) → ℝ
  | [], F => F []
  | x :: xs, F => pathE S P n x fun tr => chainsE S P n xs fun trs => F (tr :: trs)

/-- average of `f` over all configurations of all trajectories. -/
noncomputable def average {X : Type} (f : X → ℂ) (trs : List (List X)) : ℂ :=
  (trs.flatten.map f).sum / (trs.flatten.length : ℂ)

/-- mean of `f` with the normalised density `π`. -/
noncomputable def meanOf {X : Type} (S : Finset X) (π : X → ℝ) (f : X → ℂ) : ℂ :=
  (∑ x ∈ S, (π x : ℂ) * f x) / ((∑ x ∈ S, π x : ℝ) : ℂ)

/-- the averages of `f` over `n` configurations of each of `c` chains deviate from the mean with density `π`
    by `O(1/(c n) + 1/n²)` in mean square, wherever the chains start. -/
def Estimates {X : Type} (S : Finset X) (π : X → ℝ) (P : X → X → ℝ) (f : X → ℂ) : Prop :=
  ∃ A B : ℝ, ∀ starts : List X, starts ≠ [] → (∀ x ∈ starts, x ∈ S) → ∀ n : Nat, 0 < n →
    chainsE S P n starts (fun trs => ‖average f trs - meanOf S π f‖ ^ 2)
      ≤ A / ((starts.length : ℝ) * n) + B / (n : ℝ) ^ 2

end Verif.Markov

import Mathlib.Analysis.Complex.Basic

/-! Averages and covariances of a list of samples. -/

namespace Verif.Spec

/-- the average of a list of numbers. -/
noncomputable def average (xs : List ℂ) : ℂ := xs.sum / (xs.length : ℂ)

/-- the covariance `⟨(O_i - ⟨O_i⟩)^* (O_j - ⟨O_j⟩)⟩` of vectors of log-derivatives. -/
noncomputable def covariance (os : List (Nat → ℂ)) (i j : Nat) : ℂ :=
  average (os.map fun o => star (o i - average (os.map fun o => o i)) * (o j - average (os.map fun o => o j)))

end Verif.Spec

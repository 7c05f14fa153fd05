import Mathlib.Analysis.SpecialFunctions.Complex.Log
import Mathlib.LinearAlgebra.Matrix.Trace

/-! What the jax machines of `netket.legacy` are documented to compute: used to state C206 and C207 without reference to the model. -/

namespace Verif.LegacyJaxSpec
open Finset

/-- the input of hidden unit `j`: weights times configuration plus bias. -/
noncomputable def hiddenInput (n : Nat) (W : Nat → Nat → ℂ) (b : Nat → ℂ) (x : Nat → ℂ) (j : Nat) : ℂ := b j + ∑ i ∈ range n, W i j * x i

/-- amplitude of the RBM: a product of hyperbolic cosines. -/
noncomputable def amplitude (n m : Nat) (W : Nat → Nat → ℂ) (b : Nat → ℂ) (x : Nat → ℂ) : ℂ := ∏ j ∈ range m, Complex.cosh (hiddenInput n W b x j)

/-- the amplitude of a periodic matrix product state: the trace of the product of the matrices selected by the local states. -/
noncomputable def mpsAmplitude {D : Nat} (L : Nat) (A : Nat → Nat → Matrix (Fin D) (Fin D) ℂ) (s : Nat → Nat) : ℂ :=
  Matrix.trace ((List.range L).map fun i => A i (s i)).prod

/-- the real part of the inputs of a complex RBM is nonzero, or the input is zero. -/
def Regular (z : ℂ) : Prop := z.re ≠ 0 ∨ z = 0

/-- mean of an observable over all samples of all processes. -/
noncomputable def mean (R ns : Nat) (f : Nat → Nat → ℂ) : ℂ := (∑ r ∈ range R, ∑ s ∈ range ns, f r s) / ((R : ℂ) * (ns : ℂ))

/-- covariance matrix of the derivatives: `⟨O_k^* O_l⟩ - ⟨O_k⟩^* ⟨O_l⟩`. -/
noncomputable def covariance (R ns : Nat) (O : Nat → Nat → Nat → ℂ) (k l : Nat) : ℂ :=
  mean R ns (fun r s => star (O r s k) * O r s l) - star (mean R ns fun r s => O r s k) * mean R ns fun r s => O r s l

/-- the purified density matrix: pure part `A(r) A(c)^*` with `A` a product of hyperbolic cosines, mixing part `∏ cosh(w(r) + w(c)^*)`. -/
noncomputable def purified {α : Type} (p q : Nat) (u w : Nat → α → ℂ) (r c : α) : ℂ :=
  (∏ j ∈ range p, Complex.cosh (u j r)) * star (∏ j ∈ range p, Complex.cosh (u j c)) * ∏ k ∈ range q, Complex.cosh (w k r + star (w k c))

end Verif.LegacyJaxSpec

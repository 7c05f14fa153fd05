import Mathlib.LinearAlgebra.Matrix.ConjTranspose
import Mathlib.LinearAlgebra.Matrix.Hadamard
import Mathlib.Analysis.Complex.Basic

/-!
`steady_state` (netket/exact.py:120-223), method `ed`.
-/

namespace Verif.SteadyState

open Matrix

variable {n : Type} [Fintype n]

/-- `lind_mat.T.conj() * lind_mat` (netket/exact.py:172-174, 180-183): for sparse matrices `*` is the matrix
product; `to_dense` returns a numpy array (netket/operator/_abstract_operator.py:284), for which `*` is the
elementwise product. -/
noncomputable def ldagl (sparse : Bool) (L : Matrix n n ℂ) : Matrix n n ℂ :=
  if sparse then Lᴴ * L else Lᴴ ⊙ L

/-- the eigenvector chosen by `eigh`/`eigsh(which="SM")` (netket/exact.py:175, 183-187): one of the smallest
eigenvalue. -/
def IsLowest (A : Matrix n n ℂ) (v : n → ℂ) : Prop :=
  v ≠ 0 ∧ ∃ w : ℝ, A *ᵥ v = (w : ℂ) • v ∧
    ∀ (w' : ℝ) (u : n → ℂ), u ≠ 0 → A *ᵥ u = (w' : ℂ) • u → w ≤ w'

/-- `rho = v.reshape((M, M)); rho / rho.trace()` (netket/exact.py:186-188). -/
noncomputable def toRho (M : Nat) (v : Fin (M * M) → ℂ) : Matrix (Fin M) (Fin M) ℂ :=
  let r : Matrix (Fin M) (Fin M) ℂ := fun i j =>
    v ⟨i.val * M + j.val, by
      have h1 : (i.val + 1) * M ≤ M * M := Nat.mul_le_mul_right _ i.isLt
      rw [Nat.succ_mul] at h1
      have := j.isLt
      omega⟩
  fun i j => r i j / ∑ k, r k k

end Verif.SteadyState

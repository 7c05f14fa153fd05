import Mathlib.Analysis.SpecialFunctions.Trigonometric.Basic
import Mathlib.LinearAlgebra.CrossProduct
import Mathlib.LinearAlgebra.Matrix.ConjTranspose

/-! The isometries of the plane and of space, by their usual names, and what a complex Schur decomposition is: used to state C191 without reference to
    the model. -/

namespace Verif.Isometry

open Matrix

/-- `k` degrees, in radians. -/
noncomputable def deg (k : Int) : ℝ := (k : ℝ) * (Real.pi / 180)

/-- the rotation of the plane by `t`, anticlockwise. -/
noncomputable def rot2 (t : ℝ) : Matrix (Fin 2) (Fin 2) ℝ := !![Real.cos t, -Real.sin t; Real.sin t, Real.cos t]

/-- the reflection of the plane in the line through the origin at angle `t`. -/
noncomputable def refl2 (t : ℝ) : Matrix (Fin 2) (Fin 2) ℝ := !![Real.cos (2 * t), Real.sin (2 * t); Real.sin (2 * t), -Real.cos (2 * t)]

/-- `W` is the rotation of space about the unit vector `n` by `t`, right-handed. -/
def IsRot3 (W : Matrix (Fin 3) (Fin 3) ℝ) (n : Fin 3 → ℝ) (t : ℝ) : Prop :=
  ∀ x, W *ᵥ x = Real.cos t • x + Real.sin t • (n ⨯₃ x) + ((1 - Real.cos t) * (n ⬝ᵥ x)) • n

/-- `W` is the rotation of space about the unit vector `n` by `t`, followed by the reflection in the plane orthogonal to `n`. -/
def IsRotoRefl3 (W : Matrix (Fin 3) (Fin 3) ℝ) (n : Fin 3 → ℝ) (t : ℝ) : Prop :=
  ∀ x, W *ᵥ x = Real.cos t • x + Real.sin t • (n ⨯₃ x) - ((1 + Real.cos t) * (n ⬝ᵥ x)) • n

/-- `W` is the reflection of space in the plane orthogonal to the unit vector `n`. -/
def IsRefl3 (W : Matrix (Fin 3) (Fin 3) ℝ) (n : Fin 3 → ℝ) : Prop := ∀ x, W *ᵥ x = x - (2 * (n ⬝ᵥ x)) • n

/-- `x ↦ W x + w` is `W` about the point `o` followed by the translation `t` which `W` leaves alone, and `o` is the point nearest to the origin with
    this property. -/
structure About {d : Nat} (W : Matrix (Fin d) (Fin d) ℝ) (w o t : Fin d → ℝ) : Prop where
  eq : ∀ x, W *ᵥ x + w = W *ᵥ (x - o) + o + t
  fix : W *ᵥ t = t
  near : ∀ k, W *ᵥ k = k → k ⬝ᵥ o = 0

/-- `v` is unitary, `T` upper triangular and `M = v T v†`. -/
structure IsSchur {d : Nat} (M : Matrix (Fin d) (Fin d) ℝ) (T v : Matrix (Fin d) (Fin d) ℂ) : Prop where
  left : vᴴ * v = 1
  right : v * vᴴ = 1
  upper : ∀ i j, j < i → T i j = 0
  eq : M.map (fun x : ℝ => (x : ℂ)) = v * T * vᴴ

end Verif.Isometry

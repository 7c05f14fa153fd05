import Mathlib.LinearAlgebra.Matrix.Trace
import Mathlib.LinearAlgebra.Matrix.ConjTranspose
import Verif.Spec.LocalOperator

/-! Specification of the Lindblad super-operator, on Mathlib matrices. -/

namespace Verif.Lindblad

variable {K : Type} [CommRing K] [StarRing K] {S : Type} [Fintype S]

/-- `-i (H ρ - ρ H†) + ∑ (L ρ L† - ½ {L† L, ρ})`. -/
def generator (I half : K) (H : Matrix S S K) (Ls : List (Matrix S S K)) (ρ : Matrix S S K) :
    Matrix S S K :=
  -(I • (H * ρ - ρ * H.conjTranspose))
    + (Ls.map fun L => L * ρ * L.conjTranspose
        - half • (L.conjTranspose * L * ρ + ρ * (L.conjTranspose * L))).sum

/-- the Lindblad master equation: `-i [H, ρ] + ∑ (L ρ L† - ½ {L† L, ρ})`. -/
def lindblad (I half : K) (H : Matrix S S K) (Ls : List (Matrix S S K)) (ρ : Matrix S S K) :
    Matrix S S K :=
  -(I • (H * ρ - ρ * H))
    + (Ls.map fun L => L * ρ * L.conjTranspose
        - half • (L.conjTranspose * L * ρ + ρ * (L.conjTranspose * L))).sum

end Verif.Lindblad

namespace Verif.LocalOp
variable {K : Type} [CommRing K] {α : Type} [LinearOrder α] {N : Nat}

/-- the matrix of a local operator, as a Mathlib matrix on the configurations of the space. -/
def mat (hi : Fin N → List α) (op : LOp K α N) : Matrix (basisStates hi) (basisStates hi) K :=
  fun x y => matrixOf hi op x y

/-- an array indexed by pairs of configurations as a matrix. -/
def dens (hi : Fin N → List α) (ρ : (Fin N → α) → (Fin N → α) → K) :
    Matrix (basisStates hi) (basisStates hi) K := fun x y => ρ x y

end Verif.LocalOp

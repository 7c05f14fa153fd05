import Mathlib.RepresentationTheory.Character
import Mathlib.RepresentationTheory.Irreducible
import Mathlib.Analysis.Complex.Basic

/-! Specification of irreducible characters. -/

namespace Verif.Irrep

/-- `χ` is the character of an irreducible representation of `G` by complex matrices. -/
def IsIrrChar {G : Type} [Group G] (χ : G → ℂ) : Prop :=
  ∃ (V : Type) (_ : AddCommGroup V) (_ : Module ℂ V) (_ : FiniteDimensional ℂ V) (ρ : Representation ℂ G V),
    ρ.IsIrreducible ∧ ∀ g, χ g = LinearMap.trace ℂ V (ρ g)

end Verif.Irrep

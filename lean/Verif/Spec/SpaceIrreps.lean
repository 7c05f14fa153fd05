import Verif.Model.SpaceIrreps
import Verif.Spec.Character

/-! What a symmorphic space group of a lattice is, independently of how the code lists it. -/

namespace Verif.SpaceIrreps
open Verif.Irrep Matrix

/-- the displacement by `z i` cells along the axis `i`. -/
def Geometry.shift {d D : Nat} (L : Geometry d D) (z : Fin d → ℤ) : Fin D → ℝ := ∑ i, (z i : ℝ) • L.basis i

/-- a group `Γ` made of the translations `τ z` of a lattice (periodic with the box along the axes with periodic boundaries) and of
    the images `π p` of a point group `P`, acting on space by the orthogonal matrices `W p`. -/
structure Symmorphic {d D : Nat} (L : Geometry d D) (P Γ : Type) [Group P] [Group Γ] where
  W : P →* Matrix (Fin D) (Fin D) ℝ
  τ : Multiplicative (Fin d → ℤ) →* Γ
  π : P →* Γ
  orthogonal : ∀ p, (W p)ᵀ * W p = 1
  integral : ∀ p z, ∃ z', W p *ᵥ L.shift z = L.shift z'
  conj : ∀ p z z', W p *ᵥ L.shift z = L.shift z' → π p * τ (.ofAdd z) * (π p)⁻¹ = τ (.ofAdd z')
  trivial : ∀ p z, τ (.ofAdd z) * π p = 1 ↔ p = 1 ∧ ∀ i, L.pbc i = true → (L.extent i : ℤ) ∣ z i
  surjective : ∀ x, ∃ z p, x = τ (.ofAdd z) * π p

/-- the wave vector `k` is allowed by the boundary conditions: it is periodic over the box, and vanishes along open axes. -/
def Geometry.Allowed {d D : Nat} (L : Geometry d D) (k : Fin D → ℝ) : Prop :=
  ∀ i, ∃ m : ℤ, k ⬝ᵥ L.dims i = 2 * Real.pi * m ∧ (L.pbc i = false → m = 0)

/-- two wave vectors differ by a vector of the reciprocal lattice. -/
def Geometry.Equivalent {d D : Nat} (L : Geometry d D) (k k' : Fin D → ℝ) : Prop :=
  ∀ i, ∃ m : ℤ, (k - k') ⬝ᵥ L.basis i = 2 * Real.pi * m

/-- the character of the space group belonging to the star of `k` and the character `ψ` of its little group `K`. -/
noncomputable def Symmorphic.starChar {d D : Nat} {L : Geometry d D} {P Γ : Type} [Group P] [Group Γ] [Fintype P] (G : Symmorphic L P Γ)
    (k : Fin D → ℝ) (K : Subgroup P) (ψ : K → ℂ) (z : Fin d → ℤ) (g : P) : ℂ := by
  classical
  exact ∑ p : P, Complex.exp (-Complex.I * (((G.W p *ᵥ k) ⬝ᵥ L.shift z : ℝ) : ℂ)) *
    ((if h : p⁻¹ * g * p ∈ K then ψ ⟨_, h⟩ else 0) / (Nat.card K : ℂ))

/-- a space group whose point operations `x ↦ W p x + w p` may carry a translation `w p` (a glide, a screw, or another origin). -/
structure Affine {d D : Nat} (L : Geometry d D) (P Γ : Type) [Group P] [Group Γ] where
  W : P →* Matrix (Fin D) (Fin D) ℝ
  w : P → Fin D → ℝ
  τ : Multiplicative (Fin d → ℤ) →* Γ
  π : P → Γ
  orthogonal : ∀ p, (W p)ᵀ * W p = 1
  integral : ∀ p z, ∃ z', W p *ᵥ L.shift z = L.shift z'
  origin : w 1 = 0
  closed : ∀ p q, ∃ z, w p + W p *ᵥ w q = w (p * q) + L.shift z
  product : ∀ p q z, w p + W p *ᵥ w q = w (p * q) + L.shift z → π p * π q = τ (.ofAdd z) * π (p * q)
  conj : ∀ p z z', W p *ᵥ L.shift z = L.shift z' → π p * τ (.ofAdd z) * (π p)⁻¹ = τ (.ofAdd z')
  trivial : ∀ p z, τ (.ofAdd z) * π p = 1 ↔ p = 1 ∧ ∀ i, L.pbc i = true → (L.extent i : ℤ) ∣ z i
  surjective : ∀ x, ∃ z p, x = τ (.ofAdd z) * π p

/-- what `space_group_irreps` promises: one row for each irreducible character `ψ` of the little group of `k`, holding the values on the
    elements of the space group of an irreducible character. -/
def Affine.Promise {d D : Nat} {L : Geometry d D} {P Γ : Type} [Group P] [Group Γ] (G : Affine L P Γ) (ps : List P) (T : List (List Nat))
    (k : Fin D → ℝ) (K : Subgroup P) (ψs : List (K → ℂ)) (lis : List K) : Prop :=
  ∀ ct : List Nat → List (List ℂ), (∀ idx, idx.filterMap (fun j => ps[j]?) = lis.map Subtype.val → ct idx = ψs.map fun ψ => lis.map ψ) →
    ∃ χs : List (Γ → ℂ), χs.length = ψs.length ∧ (∀ χ ∈ χs, IsIrrChar χ)
      ∧ spaceGroupIrreps L T (ps.map G.W) (ps.map G.w) ct k = .ok (χs.map fun χ =>
          (cells ((List.finRange d).map L.nTrans)).flatMap fun t => ps.map fun p =>
            CharTab.prune (χ (G.τ (.ofAdd fun i => (t.getD i 0 : ℤ)) * G.π p)))

end Verif.SpaceIrreps

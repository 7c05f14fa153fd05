import Verif.Props.PointGroup
import Verif.Model.PointGroups

/-! Specification for the point-group constructors. -/

namespace Verif.PGrp
open Verif.Hilbert (Err)
open Matrix

/-- every element is an identity or a constructed symmetry, and acts as the linear map of the list at its position. -/
def ActsAs {d : Nat} (es : List (PGElem ℝ d)) (Ws : List (Matrix (Fin d) (Fin d) ℝ)) : Prop :=
  List.Forall₂ (fun e W => Good e ∧ ∀ x, e.act x = some fun i => ∑ j, W i j * x j) es Ws

/-- the call returns a point group without unit cell whose elements, `k` in number, are the linear maps satisfying `P`, each once, the
    first of them the identity; and its product table exists. -/
def Implements {d : Nat} (r : Except Err (PG d)) (P : Matrix (Fin d) (Fin d) ℝ → Prop) (k : Nat) : Prop :=
  ∃ G Ws, r = .ok G ∧ G.cell = none ∧ G.elems[0]? = some .id ∧ ActsAs G.elems Ws ∧ Ws.Nodup ∧ Ws.length = k ∧ (∀ W, W ∈ Ws ↔ P W) ∧
    ∀ (κ : Type) [DecidableEq κ] (canon : Matrix (Fin d ⊕ Unit) (Fin d ⊕ Unit) ℝ → κ), Faithful canon ⊥ →
      ∃ T, productTable canon G.elems = .ok T

/-- orthogonal matrices. -/
def Orth {d : Nat} (W : Matrix (Fin d) (Fin d) ℝ) : Prop := Wᵀ * W = 1

/-- proper rotations of order dividing `n`. -/
def RotN {d : Nat} (n : Nat) (W : Matrix (Fin d) (Fin d) ℝ) : Prop := Orth W ∧ W.det = 1 ∧ W ^ n = 1

/-- proper rotations around the axis `a`, of order dividing `n`. -/
def RotAbout (n : Nat) (a : Fin 3 → ℝ) (W : Matrix (Fin 3) (Fin 3) ℝ) : Prop := RotN n W ∧ W *ᵥ a = a

/-- the members of `P`, and those composed with `M` (applied last). -/
def WithCoset {d : Nat} (M : Matrix (Fin d) (Fin d) ℝ) (P : Matrix (Fin d) (Fin d) ℝ → Prop) (W : Matrix (Fin d) (Fin d) ℝ) : Prop :=
  P W ∨ ∃ V, P V ∧ W = M * V

/-- the mirror image in the plane normal to `a`: `a` is reversed, the vectors normal to it are left in place. -/
def MirrorOf (a : Fin 3 → ℝ) (M : Matrix (Fin 3) (Fin 3) ℝ) : Prop := M *ᵥ a = -a ∧ ∀ x, a ⬝ᵥ x = 0 → M *ᵥ x = x

/-- the right-handed rotation by `t` radians around `a`, not necessarily of length one. -/
def TurnAbout (t : ℝ) (a : Fin 3 → ℝ) (M : Matrix (Fin 3) (Fin 3) ℝ) : Prop :=
  M *ᵥ a = a ∧ ∀ x, a ⬝ᵥ x = 0 →
    M *ᵥ x = Real.cos t • x + (Real.sin t / Real.sqrt (a ⬝ᵥ a)) • crossProduct a x

/-- the vertices of the tetrahedron of cubic.py:46-47. -/
def tetra : List (Fin 3 → ℝ) := [![1, 1, 1], ![1, -1, -1], ![-1, 1, -1], ![-1, -1, 1]]

/-- orthogonal maps which take the vertices of the tetrahedron to vertices. -/
def TetraSym (W : Matrix (Fin 3) (Fin 3) ℝ) : Prop := Orth W ∧ ∀ v ∈ tetra, W *ᵥ v ∈ tetra

/-- the vertices of the cube: all coordinates 1 or -1. -/
def IsCubeVertex (v : Fin 3 → ℝ) : Prop := ∀ i, v i = 1 ∨ v i = -1

/-- orthogonal maps which take the vertices of the cube to vertices. -/
def CubeSym (W : Matrix (Fin 3) (Fin 3) ℝ) : Prop := Orth W ∧ ∀ v, IsCubeVertex v → IsCubeVertex (W *ᵥ v)

/-- the translations of a unit cell: integer combinations of its rows. -/
def translations {d : Nat} (cell : Matrix (Fin d) (Fin d) ℝ) : AddSubgroup (Fin d → ℝ) where
  carrier := {v | ∃ k : Fin d → ℤ, v = ∑ i, (k i : ℝ) • cell i}
  zero_mem' := ⟨0, by simp⟩
  add_mem' := by
    rintro _ _ ⟨k, rfl⟩ ⟨l, rfl⟩
    exact ⟨k + l, by simp [add_smul, Finset.sum_add_distrib]⟩
  neg_mem' := by
    rintro _ ⟨k, rfl⟩
    exact ⟨-k, by simp⟩

/-- the face-centred cubic lattice: half-integer coordinates with an integer sum. -/
def Fcc (v : Fin 3 → ℝ) : Prop := ∃ n : Fin 3 → ℤ, (∀ i, v i = n i / 2) ∧ Even (n 0 + n 1 + n 2)

/-- the diamond structure: the face-centred cubic lattice, and the same shifted by a quarter of the diagonal. -/
def Diamond (v : Fin 3 → ℝ) : Prop := Fcc v ∨ Fcc fun i => v i - 1 / 4

end Verif.PGrp

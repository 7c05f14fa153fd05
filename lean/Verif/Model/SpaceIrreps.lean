import Verif.Model.CharTable
import Verif.Model.PointGroup
import Mathlib.Analysis.SpecialFunctions.Complex.Circle
import Mathlib.LinearAlgebra.Matrix.DotProduct

/-! Model of `to_reciprocal_lattice` (netket/graph/lattice.py) and `space_group_irreps` (netket/graph/space_group.py).  Arithmetic is exact;
    the point group is given by its product table, rotation matrices `W` and translation vectors `w`, the character table of the little
    group by the argument `ct` (C150 is about it).  `InvalidWaveVectorError` is written `valueError`. -/

namespace Verif.SpaceIrreps
open Verif.Grp Verif.CharTab Finset
open Verif.Hilbert (Err)
open Matrix

noncomputable section

/-- what a `Lattice` stores of its geometry (lattice.py:281-291): extent, boundary conditions, basis vectors. -/
structure Geometry (d D : Nat) where
  extent : Fin d → Nat
  pbc : Fin d → Bool
  basis : Fin d → Fin D → ℝ

variable {d D : Nat}

/-- lattice.py:324: `_lattice_dims`. -/
def Geometry.dims (L : Geometry d D) (i : Fin d) : Fin D → ℝ := (L.extent i : ℝ) • L.basis i

/-- lattice.py:529: `ks @ self._lattice_dims.T / (2 * pi)`, one entry. -/
def Geometry.component (L : Geometry d D) (k : Fin D → ℝ) (i : Fin d) : ℝ := (k ⬝ᵥ L.dims i) / (2 * Real.pi)

/-- float.py:105-110: `is_approx_int`. -/
def isApproxInt (x : ℝ) : Prop := |x - (Lat.rint x : ℝ)| ≤ 1 / 10 ^ 8

/-- lattice.py:508-553: `to_reciprocal_lattice`. -/
def toReciprocal (L : Geometry d D) (ks : List (Fin D → ℝ)) : Except Err (List (Fin d → Int)) := by
  classical
  exact
    if ∀ k ∈ ks, ∀ i, isApproxInt (L.component k i) then
      if ∀ k ∈ ks, ∀ i, L.pbc i = true ∨ Lat.rint (L.component k i) = 0 then
        .ok (ks.map fun k i => Lat.rint (L.component k i))
      else .error .valueError
    else .error .valueError

/-- space_group.py:264: number of translations along an axis. -/
def Geometry.nTrans (L : Geometry d D) (i : Fin d) : Nat := if L.pbc i then L.extent i else 1

/-- the translations in the order of the space group, the last axis fastest (space_group.py:263-275). -/
def cells : List Nat → List (List Nat)
  | [] => [[]]
  | n :: ns => (List.range n).flatMap fun i => (cells ns).map fun t => i :: t

/-- space_group.py:263-275: `trans_factors[t, p]`, `star` being the row of `to_reciprocal_lattice(big_star_Cart)` for `p`. -/
def transFactor (L : Geometry d D) (star : Fin d → Int) (t : List Nat) : ℂ :=
  ∏ i : Fin d, Complex.exp (-Complex.I * ((t.getD i 0 : ℂ) * ((star i : ℂ) * (2 * Real.pi / (L.extent i : ℂ)))))

/-- space_group.py:253-260: `point_group_factors[i, g, p]` for one row of `_little_group_irreps`. -/
def pointFactor (T : List (List Nat)) (row : List ℝ) (w starCart : Fin D → ℝ) (g p : Nat) : ℂ :=
  (row.getD (entry (conjugacyTable T) g p) 0 : ℂ) * Complex.exp (-Complex.I * ((w ⬝ᵥ starCart : ℝ) : ℂ))

/-- space_group.py:189-191: the images of the wave vector, reduced modulo the extent. -/
def reduced (L : Geometry d D) (star : Fin d → Int) : Fin d → Int := fun i => star i % (L.extent i : Int)

/-- space_group.py:229-282: `space_group_irreps`; `T`, `W`, `w` describe the point group, `ct idx` is the character table of the little
    group with the elements `idx`. -/
def spaceGroupIrreps (L : Geometry d D) (T : List (List Nat)) (W : List (Matrix (Fin D) (Fin D) ℝ)) (w : List (Fin D → ℝ))
    (ct : List Nat → List (List ℂ)) (k : Fin D → ℝ) : Except Err (List (List ℂ)) :=
  let starCart := W.map fun M => M *ᵥ k
  match toReciprocal L starCart with
  | .error e => .error e
  | .ok star =>
    let idx := PGrp.littleGroupIndex (star.map (reduced L))
    let rows := PGrp.littleGroupIrreps W.length idx ((ct idx).map fun row => row.map fun z => (z.re, z.im)) true
    .ok (rows.map fun row => (cells ((List.finRange d).map L.nTrans)).flatMap fun t => (List.range W.length).map fun g =>
      prune (∑ p ∈ range W.length, pointFactor T row (w.getD g 0) (starCart.getD p 0) g p * transFactor L (star.getD p 0) t))

end

end Verif.SpaceIrreps

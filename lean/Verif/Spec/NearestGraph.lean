import Verif.Model.CommonLattices
import Verif.Lemmas.LatticeSteps

/-! What it means for a lattice to connect nearest neighbours. -/

set_option linter.unusedSectionVars false
set_option linter.unusedVariables false

namespace Verif.CommonLat
open Verif.Lat
open Verif.Hilbert (Err)

/-- `[r1, ..., rd, q]` with a site `q` of the cell, in any cell of the infinite lattice. -/
def IsSite (d nb : Nat) (c : List Int) : Prop := c.length = d + 1 ∧ 0 ≤ lab c ∧ lab c < (nb : Int)

/-- `v'` is a copy of `v` under translations by the sides of the simulation box along the periodic axes. -/
def Image : List Nat → List Bool → List Int → List Int → Prop
  | [], [], [q], [q'] => q = q'
  | e :: es, p :: ps, y :: ys, y' :: ys' =>
    (if p = true then ∃ n : Int, y' = y + n * (e : Int) else y' = y) ∧ Image es ps ys ys'
  | _, _, _, _ => False

/-- the lattice `L` has all sites of the box, and two different sites are connected exactly when some periodic copy of the second is at
    the distance `d0` of the first, which is the least distance of different points of the infinite lattice. -/
structure NearestGraph {d : Nat} (g : Geometry d) (ext : List Nat) (pbc : List Bool) (L : Lattice) (d0 : ℝ) : Prop where
  sites : ∀ c : List Int, c ∈ L.basisCoords ↔ List.Forall₂ (fun x (m : Nat) => 0 ≤ x ∧ x < (m : Int)) c (ext ++ [g.offsets.length])
  nodup : L.basisCoords.Nodup
  nodes : L.nNodes = ext.prod * g.offsets.length
  ends : ∀ e ∈ L.edges, e.1 ≠ e.2 ∧ e.1 < L.nNodes ∧ e.2 < L.nNodes
  once : L.edges.Pairwise fun e e' => e ≠ e' ∧ e ≠ (e'.2, e'.1)
  edges : ∀ (a b : Nat) (u v : List Int), L.basisCoords[a]? = some u → L.basisCoords[b]? = some v →
    (((a, b) ∈ L.edges ∨ (b, a) ∈ L.edges) ↔ u ≠ v ∧ ∃ v', Image ext pbc v v' ∧ dist g u v' = d0)
  least : 0 < d0 ∧ ∀ c c', IsSite d g.offsets.length c → IsSite d g.offsets.length c' → c ≠ c' → d0 ≤ dist g c c'

end Verif.CommonLat

import Verif.Model.Lattice
import Mathlib.Analysis.Real.Sqrt
import Mathlib.Data.Fin.VecNotation
import Mathlib.Algebra.BigOperators.Fin

/-! Model of the lattices of `netket/graph/common_lattices.py` that are not hypercubic, with the geometry of
`netket/graph/lattice.py` (positions, distances, cutoff) in exact real arithmetic.  Simplified: the fractional coordinates
`site_offsets @ inv(basis_vectors)` are multiplied with `basis_vectors` again (lattice.py:82-86), which gives the offsets back in
exact arithmetic; the KD tree finds exactly the pairs at a positive distance within the cutoff. -/

namespace Verif.CommonLat
open Verif.Lat
open Verif.Hilbert (Err)

/-- lattice.py:281-288: basis vectors (rows) and site offsets. -/
structure Geometry (d : Nat) where
  basis : Fin d → Fin d → ℝ
  offsets : List (Fin d → ℝ)

/-- lattice.py:82-86: the position of the site with basis coordinates `[r1, ..., rd, q]`. -/
noncomputable def position {d : Nat} (g : Geometry d) (c : List Int) (j : Fin d) : ℝ :=
  (∑ i : Fin d, ((c.getD i 0 : Int) : ℝ) * g.basis i j) + g.offsets.getD (c.getD d 0).toNat (fun _ => 0) j

/-- lattice.py:107-108: the distance of two sites. -/
noncomputable def dist {d : Nat} (g : Geometry d) (a b : List Int) : ℝ :=
  Real.sqrt (∑ j : Fin d, (position g a j - position g b j) ^ 2)

/-- lattice.py:126: `np.linalg.norm(basis_vectors, axis=1).max() + distance_atol`. -/
noncomputable def cutoff {d : Nat} (g : Geometry d) (atol : ℝ) : ℝ :=
  (List.finRange d).foldl (fun m i => max m (Real.sqrt (∑ j : Fin d, (g.basis i j) ^ 2))) 0 + atol

open Classical in
/-- lattice.py:106-111: the bin of the distance of two sites, if it is positive and within the cutoff. -/
noncomputable def geomNear {d : Nat} (g : Geometry d) (atol : ℝ) (a b : List Int) : Option Int :=
  if 0 < dist g a b ∧ dist g a b ≤ cutoff g atol then some (comparable (dist g a b)) else none

/-- lattice.py:214-331 with `distance_atol` (default `1e-5`). -/
noncomputable def mkGeom {d : Nat} (g : Geometry d) (atol : ℝ) (ext : List Nat) (pbc : List Bool) : Except Err Lattice :=
  mkLattice ext pbc g.offsets.length (geomNear g atol)

/-- common_lattices.py:231: the basis of the body centred cubic lattice; one site per cell (lattice.py:362-363). -/
noncomputable def bcc : Geometry 3 where
  basis := ![![-1 / 2, 1 / 2, 1 / 2], ![1 / 2, -1 / 2, 1 / 2], ![1 / 2, 1 / 2, -1 / 2]]
  offsets := [![0, 0, 0]]

/-- common_lattices.py:259, 291, 330: the basis of the face centred cubic lattice. -/
noncomputable def fccBasis : Fin 3 → Fin 3 → ℝ := ![![0, 1 / 2, 1 / 2], ![1 / 2, 0, 1 / 2], ![1 / 2, 1 / 2, 0]]

/-- common_lattices.py:259: FCC, one site per cell. -/
noncomputable def fcc : Geometry 3 where
  basis := fccBasis
  offsets := [![0, 0, 0]]

/-- common_lattices.py:291-292: Diamond. -/
noncomputable def diamond : Geometry 3 where
  basis := fccBasis
  offsets := [![0, 0, 0], ![1 / 4, 1 / 4, 1 / 4]]

/-- common_lattices.py:330-331: Pyrochlore. -/
noncomputable def pyrochlore : Geometry 3 where
  basis := fccBasis
  offsets := [![1 / 8, 1 / 8, 1 / 8], ![1 / 8, 3 / 8, 3 / 8], ![3 / 8, 1 / 8, 3 / 8], ![3 / 8, 3 / 8, 1 / 8]]

/-- common_lattices.py:346: `[[1, 0], [0.5, 0.75 ** 0.5]]`. -/
noncomputable def hexBasis : Fin 2 → Fin 2 → ℝ := ![![1, 0], ![1 / 2, Real.sqrt (3 / 4)]]

/-- common_lattices.py:343-356, 380: Triangular. -/
noncomputable def triangular : Geometry 2 where
  basis := hexBasis
  offsets := [![0, 0]]

/-- common_lattices.py:405-407: Honeycomb. -/
noncomputable def honeycomb : Geometry 2 where
  basis := hexBasis
  offsets := [![1 / 2, 1 / 2 / Real.sqrt 3], ![1, 1 / Real.sqrt 3]]

/-- common_lattices.py:432-436: Kagome. -/
noncomputable def kagome : Geometry 2 where
  basis := hexBasis
  offsets := [![1 / 2, 0], ![1 / 4, Real.sqrt (3 / 4) / 2], ![3 / 4, Real.sqrt (3 / 4) / 2]]

end Verif.CommonLat

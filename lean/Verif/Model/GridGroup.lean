import Verif.Model.PointGroups
import Verif.Model.Lattice
import Verif.Model.SpaceGroup

/-! Model of the default point group of hypercubic lattices (netket/graph/common_lattices.py) and of the action of point groups on the sites
    of a lattice (netket/graph/space_group.py, netket/graph/lattice.py).  Arithmetic is exact; the names of the permutations are left
    out. -/

namespace Verif.GridPG
open Verif.Hilbert (Err)
open Verif.PGrp Matrix

/-- `itertools.permutations(l)` (common_lattices.py:47) for a list of length `n`: lexicographic in the positions. -/
def permutations {α : Type} : Nat → List α → List (List α)
  | 0, _ => [[]]
  | n + 1, l => (List.range l.length).flatMap fun i : Nat =>
      (l[i]?).toList.flatMap fun a => (permutations n (l.eraseIdx i)).map fun p => a :: p

variable {d : Nat}

/-- common_lattices.py:25-29: `_perm_symm`. -/
noncomputable def permSymm (perm : List (Fin d)) : Except Err (PGSym ℝ d) :=
  mkPG (of fun (i j : Fin d) => if perm[(i : Nat)]? = some j then 1 else 0) none

/-- common_lattices.py:32-35: `_axis_reflection`. -/
noncomputable def axisReflection (axis : Fin d) : Except Err (PGSym ℝ d) :=
  mkPG (of fun (i j : Fin d) => if i = axis ∧ j = axis then -1 else (1 : Matrix (Fin d) (Fin d) ℝ) i j) none

/-- common_lattices.py:46: `kind`. -/
def kind (ext : Fin d → Nat) (pbc : Fin d → Bool) (i : Fin d) : Int := if pbc i then (ext i : Int) else -(ext i : Int)

/-- common_lattices.py:49-50: `kind == kind[list(perm)]` everywhere. -/
def sameKind (ext : Fin d → Nat) (pbc : Fin d → Bool) (perm : List (Fin d)) : Bool :=
  decide (∀ (i j : Fin d), perm[(i : Nat)]? = some j → kind ext pbc i = kind ext pbc j)

/-- common_lattices.py:43, 49-52: the group of the permutations of axes. -/
noncomputable def axisPerms (ext : Fin d → Nat) (pbc : Fin d → Bool) : Except Err (PG d) :=
  match collect (fun p => symElem (permSymm p)) ((permutations d (List.finRange d)).filter (sameKind ext pbc)) with
  | .error e => .error e
  | .ok es => .ok ⟨es, none⟩

/-- common_lattices.py:56-58: the products with the reflections, axis by axis. -/
noncomputable def withReflections (G : Except Err (PG d)) : Except Err (PG d) :=
  (List.finRange d).foldl (fun G i => prodOf G (pairGroup (axisReflection i))) G

/-- common_lattices.py:58: the entry of `origin` for one axis. -/
noncomputable def gridOrigin (ext : Fin d → Nat) (pbc : Fin d → Bool) (i : Fin d) : ℝ := if pbc i then 0 else ((ext i : ℝ) - 1) / 2

open Classical in
/-- common_lattices.py:38-62: `_grid_point_group`.  Line 60 raises an IndexError for a group without elements. -/
noncomputable def gridPointGroup (ext : Fin d → Nat) (pbc : Fin d → Bool) : Except Err (PG d) :=
  match withReflections (axisPerms ext pbc) with
  | .error e => .error e
  | .ok G =>
    match G.elems with
    | [] => .error .indexError
    | _ :: es => PG.changeOrigin ⟨.id :: es, none⟩ (gridOrigin ext pbc)

/-! ## Point groups as permutations of sites -/

/-- what a `Lattice` stores of its geometry (lattice.py:281-331): its graph, extent, boundary conditions, basis vectors and the fractional
    coordinates of the sites of a cell. -/
structure Sites (d : Nat) where
  lattice : Lat.Lattice
  ext : Fin d → Nat
  pbc : Fin d → Bool
  basis : Matrix (Fin d) (Fin d) ℝ
  offsets : Nat → Fin d → ℝ

/-- lattice.py:82-86, 321: the position of the site with coordinates `c`. -/
def Sites.position (S : Sites d) (c : List Int) : Fin d → ℝ :=
  (fun i : Fin d => (c.getD i 0 : ℝ) + S.offsets (c.getLast?.getD 0).toNat i) ᵥ* S.basis

/-- lattice.py:323: `_lattice_dims`. -/
def Sites.dims (S : Sites d) : Matrix (Fin d) (Fin d) ℝ := of fun i j => (S.ext i : ℝ) * S.basis i j

/-- lattice.py:324, 453-455: `_to_integer_position` of one position. -/
noncomputable def Sites.key (S : Sites d) (x : Fin d → ℝ) : List Int := Lat.intPos (List.ofFn S.pbc) (List.ofFn (x ᵥ* S.dims⁻¹))

/-- lattice.py:325-329, 457-486: `id_from_position` of one position; for equal keys the last index stays in the dictionary.
    `InvalidSiteError` is a `keyError` here. -/
noncomputable def Sites.idFromPosition (S : Sites d) (x : Fin d → ℝ) : Except Err Nat :=
  lookup (S.lattice.basisCoords.map fun c => S.key (S.position c)) (S.key x)

/-- space_group.py:102-108: the array of one element. -/
noncomputable def Sites.elemPerm (S : Sites d) : PGElem ℝ d → Except Err (List Nat)
  | .id => .ok (List.range S.lattice.nNodes)
  | .sym p => collect (fun c => S.idFromPosition (p.preimage (S.position c))) S.lattice.basisCoords
  | .other => .error .attributeError

/-- space_group.py:97-111: `SpaceGroupBuilder.point_group`, the arrays of its elements. -/
noncomputable def Sites.pointGroup (S : Sites d) (G : PG d) : Except Err (List (List Nat)) := collect S.elemPerm G.elems

/-- space_group.py:113-125: `SpaceGroupBuilder.rotation_group`. -/
noncomputable def Sites.rotationGroup (S : Sites d) (G : PG d) : Except Err (List (List Nat)) :=
  match G.rotationGroup with
  | .error e => .error e
  | .ok R => collect S.elemPerm R.elems

/-- space_group.py:135-137: `trans_perm`. -/
noncomputable def Sites.transPerm (S : Sites d) (axis : Fin d) : Except Err (List Nat) :=
  collect (fun c => S.idFromPosition (S.position c - S.basis axis)) S.lattice.basisCoords

/-- common_lattices.py:63-122: the geometry of `Grid(extent, pbc)` with its graph. -/
noncomputable def gridSites (ext : Fin d → Nat) (pbc : Fin d → Bool) : Except Err (Sites d) :=
  match Lat.mkGrid (List.ofFn ext) (List.ofFn pbc) with
  | .error e => .error e
  | .ok L => .ok ⟨L, ext, pbc, 1, fun _ => 0⟩

end Verif.GridPG

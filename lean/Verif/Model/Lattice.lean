import Verif.Model.DiscreteHilbert
import Mathlib.Algebra.Order.Floor.Ring
import Mathlib.Algebra.Order.Field.Basic
import Mathlib.Data.List.MinMax

/-! Model of `netket/graph/lattice.py` (construction of sites, edges and ids, site lookup),
`netket/graph/common_lattices.py: Grid` and `netket/utils/float.py: comparable, comparable_periodic`.

Coordinates are lists of integers `[r1, ..., rD, q]` as in the code.  Arithmetic on positions is exact, in an ordered field.
The search for close pairs (KD tree, lattice.py:106-113) is the function `near`: the bin of the distance of two sites,
if the distance is positive and within the cutoff.  Sets (`true_edges`) are lists in order of insertion; the order of the edges
of the resulting graph is not specified by the code.  Simplified: duplicate or out-of-cell site offsets only give warnings and are
not modelled; the in-place change of the coordinates of sites outside of the lattice (135-136) has no later effect, since these
sites never become nodes. -/

namespace Verif.Lat
open Verif.Hilbert (Err)

/-- lattice.py:71-77: the cell coordinates along one axis, with one more cell on either side if periodic. -/
def axisRange (e : Nat) (p : Bool) : List Int :=
  if p then (List.range (e + 2)).map fun k : Nat => (k : Int) - 1
  else (List.range e).map fun k : Nat => (k : Int)

/-- lattice.py:77-79: all ranges, the last one for the sites within the unit cell. -/
def shellRanges : List Nat → List Bool → Nat → List (List Int)
  | e :: es, p :: ps, nb => axisRange e p :: shellRanges es ps nb
  | _, _, nb => [(List.range nb).map fun k : Nat => (k : Int)]

/-- lattice.py:81: `np.vstack([np.ravel(x) for x in np.mgrid[ranges]]).T`: all combinations, last axis fastest. -/
def cart : List (List Int) → List (List Int)
  | [] => [[]]
  | r :: rs => r.flatMap fun x => (cart rs).map fun c => x :: c

/-- lattice.py:99-102: `is_inside`. -/
def inside : List Nat → List Int → Bool
  | e :: es, x :: xs => decide (0 ≤ x) && decide (x ≤ (e : Int) - 1) && inside es xs
  | _, _ => true

/-- lattice.py:135-136: `cell[:-1] % extent`. -/
def wrap : List Nat → List Int → List Int
  | e :: es, x :: xs => (x % (e : Int)) :: wrap es xs
  | _, xs => xs

/-- the pairs `(i, j)` with `i < j < n` in lexicographic order (lattice.py:109, 113). -/
def pairs (n : Nat) : List (Nat × Nat) :=
  (List.range n).flatMap fun i => ((List.range n).filter fun j => decide (i < j)).map fun j => (i, j)

/-- bin of the distance of the sites number `i` and `j` (lattice.py:107-110). -/
def nearIdx (near : List Int → List Int → Option Int) (cs : List (List Int)) (p : Nat × Nat) : Option Int :=
  match cs[p.1]?, cs[p.2]? with
  | some a, some b => near a b
  | _, _ => none

/-- lattice.py:106-113: `get_edges`: the pairs in the first bin that occurs. -/
def naiveEdges (near : List Int → List Int → Option Int) (cs : List (List Int)) : List (Nat × Nat) :=
  match ((pairs cs.length).filterMap (nearIdx near cs)).min? with
  | none => []
  | some m => (pairs cs.length).filter fun p => decide (nearIdx near cs p = some m)

/-- lattice.py:93-98, 137-138: position of a coordinate in the dictionary; absent keys do not occur (shown below). -/
def siteIdx (cs : List (List Int)) (c : List Int) : Nat := cs.idxOf c

/-- lattice.py:129-143: one naive edge. -/
def trueStep (ext : List Nat) (cs : List (List Int)) (T : List (Nat × Nat)) (p : Nat × Nat) : List (Nat × Nat) :=
  let c1 := cs.getD p.1 []
  let c2 := cs.getD p.2 []
  if inside ext c1 && inside ext c2 then (if p ∈ T then T else T ++ [p])
  else if inside ext c1 || inside ext c2 then
    let e := (siteIdx cs (wrap ext c1), siteIdx cs (wrap ext c2))
    if e ∉ T ∧ (e.2, e.1) ∉ T then T ++ [e] else T
  else T

/-- lattice.py:116-144: `get_true_edges`. -/
def trueEdges (ext : List Nat) (near : List Int → List Int → Option Int) (cs : List (List Int)) :
    List (Nat × Nat) :=
  (naiveEdges near cs).foldl (trueStep ext cs) []

/-- lattice.py:299: `sorted(set(node for edge in edges for node in edge))`, nodes being below `n`. -/
def oldNodes (n : Nat) (T : List (Nat × Nat)) : List Nat :=
  (List.range n).filter fun i => T.any fun e => e.1 == i || e.2 == i

/-- lattice.py:305: `graph.simplify()`: no loops, no parallel edges. -/
def simplify : List (Nat × Nat) → List (Nat × Nat) → List (Nat × Nat)
  | acc, [] => acc
  | acc, e :: r =>
    if e.1 = e.2 ∨ e ∈ acc ∨ (e.2, e.1) ∈ acc then simplify acc r else simplify (acc ++ [e]) r

/-- the attributes set by lattice.py:300-331: `basis_coords` and the edges of the graph. -/
structure Lattice where
  basisCoords : List (List Int)
  edges : List (Nat × Nat)

/-- lattice.py:281-331: construction from the extent, the boundary conditions and the number of sites per cell.  Without
    any node line 323 multiplies an array of shape `(0,)` with a matrix: ValueError. -/
def mkLattice (ext : List Nat) (pbc : List Bool) (nb : Nat) (near : List Int → List Int → Option Int) :
    Except Err Lattice :=
  let cs := cart (shellRanges ext pbc nb)
  let T := trueEdges ext near cs
  let old := oldNodes cs.length T
  if old = [] then .error .valueError
  else .ok {
    basisCoords := old.map fun i => cs.getD i []
    edges := simplify [] (T.map fun e => (old.idxOf e.1, old.idxOf e.2)) }

/-- graph.py:140-143 with lattice.py:331: the number of nodes. -/
def Lattice.nNodes (L : Lattice) : Nat := L.basisCoords.length

/-- squared distance of two points of the lattice of integer vectors (lattice.py:108 for the unit basis). -/
def sqDist : List Int → List Int → Int
  | x :: xs, y :: ys => (x - y) * (x - y) + sqDist xs ys
  | _, _ => 0

/-- lattice.py:106-113, 125-127 for the unit basis: the cutoff is `1 + distance_atol` with `0 ≤ distance_atol` below `√2 - 1`, and
    the distance is the root of an integer, hence only distance 1 is found.  `3326400` is its bin. -/
def gridNear (a b : List Int) : Option Int := if sqDist a b = 1 then some 3326400 else none

/-- common_lattices.py:63-122: `Grid(extent, pbc)` with `pbc` already a list. -/
def mkGrid (ext : List Nat) (pbc : List Bool) : Except Err Lattice := mkLattice ext pbc 1 gridNear

/-! ## Site lookup -/

/-- lattice.py:318-320, 457-475, 488-496: `id_from_basis_coords` for one site; `InvalidSiteError` is a `keyError` here. -/
def Lattice.idFromBasisCoords (L : Lattice) (c : List Int) : Except Err Nat :=
  if c ∈ L.basisCoords then .ok (L.basisCoords.idxOf c) else .error .keyError

section
variable {K : Type} [Field K] [LinearOrder K] [FloorRing K]

/-- float.py:47, 83: `np.rint`, rounding halves to even. -/
def rint (x : K) : Int :=
  if x - (⌊x⌋ : K) < 1 / 2 then ⌊x⌋
  else if 1 / 2 < x - (⌊x⌋ : K) then ⌊x⌋ + 1
  else if ⌊x⌋ % 2 = 0 then ⌊x⌋ else ⌊x⌋ + 1

/-- float.py:47: `comparable(x)` with the default parameters. -/
def comparable (x : K) : Int := rint (x * 3326400 + 5413 / 15629)

/-- float.py:83-84: `comparable_periodic(x, where)`. -/
def comparablePeriodic (p : Bool) (x : K) : Int :=
  if p then comparable x % 3326400 else comparable x

/-- float.py:84 along the axes (lattice.py:453-455). -/
def intPos : List Bool → List K → List Int
  | p :: ps, x :: xs => comparablePeriodic p x :: intPos ps xs
  | _, _ => []

/-- lattice.py:82-86, 321-323, 453-455: the fractional position of a site in the simulation box: cell coordinate plus
    fractional offset of the site, divided by the extent.  (`positions @ inv_dims` where `positions = site_coords @
    basis_vectors` and `inv_dims` is the inverse of `extent[:, None] * basis_vectors`.) -/
def fracPos (offsets : Nat → List K) (ext : List Nat) (c : List Int) : List K :=
  let q := (c.getLast?.getD 0).toNat
  let rec go : List Nat → List Int → List K → List K
    | e :: es, x :: xs, o :: os => (((x : K) + o) / (e : K)) :: go es xs os
    | _, _, _ => []
  go ext c (offsets q)

/-- lattice.py:324-329, 457-486: `id_from_position` for one position, given by its fractional coordinates; for equal keys the last
    index stays in the dictionary. -/
def idFromFrac (pbc : List Bool) (keys : List (List Int)) (f : List K) : Except Err Nat :=
  let k := intPos pbc f
  if k ∈ keys then .ok (keys.length - 1 - keys.reverse.idxOf k) else .error .keyError

/-- lattice.py:324-327: the keys of all sites. -/
def Lattice.posKeys (L : Lattice) (offsets : Nat → List K) (ext : List Nat) (pbc : List Bool) : List (List Int) :=
  L.basisCoords.map fun c => intPos pbc (fracPos offsets ext c)

end
end Verif.Lat

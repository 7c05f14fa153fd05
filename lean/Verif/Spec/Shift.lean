import Mathlib.Data.List.Basic
import Mathlib.Algebra.BigOperators.Group.List.Basic
import Mathlib.Data.Int.Basic

/-! Spec for translations of a lattice: cells in row-major order, moved by an integer vector, modulo the extents. -/

namespace Verif.ShiftSpec

/-- the cell which a translation by `v` moves to cell `c` of a lattice of the given extents: every coordinate of `c` minus that of `v`, modulo the extent. -/
def cellFrom : List Nat → List Int → Nat → Nat
  | L :: Ls, v :: vs, c => ((((c / Ls.prod : Nat) : Int) - v) % (L : Int)).toNat * Ls.prod + cellFrom Ls vs (c % Ls.prod)
  | _, _, c => c

/-- an array of sites, `spc` for each cell, translates the lattice by `v`: entry `x` is the site with the same number in the cell moved to that of `x`. -/
def Translates (shape : List Nat) (spc : Nat) (v : List Int) (p : List Int) : Prop :=
  p = (List.range (shape.prod * spc)).map fun x : Nat => ((cellFrom shape v (x / spc) * spc + x % spc : Nat) : Int)

/-- the vector of `k` steps along an axis. -/
def steps (d a : Nat) (k : Int) : List Int := (List.range d).map fun i : Nat => if i = a then k else 0

end Verif.ShiftSpec

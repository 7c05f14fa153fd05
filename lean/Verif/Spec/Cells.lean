import Mathlib.Algebra.BigOperators.Group.List.Basic

/-! Arithmetic of the cells of a periodic lattice, numbered in row-major order: used to state C84. -/

namespace Verif.Symm

/-- coordinatewise difference of cells, modulo the extents. -/
def cellSub : List Nat → Nat → Nat → Nat
  | [], _, _ => 0
  | L :: Ls, t, c =>
    ((t / Ls.prod + (L - c / Ls.prod)) % L) * Ls.prod + cellSub Ls (t % Ls.prod) (c % Ls.prod)

end Verif.Symm

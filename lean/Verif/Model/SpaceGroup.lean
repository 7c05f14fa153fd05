import Verif.Model.Group

/-! Translation and space groups of a lattice: netket/graph/space_group.py, and what the FFT layers of
netket/nn/symmetric_linear.py make of them.

Sites are numbered cell by cell, cells in row-major order (see C34); a group is the list of its elements' arrays (canonical forms).
Simplified: `lattice.id_from_position(positions - basis_vectors[axis])` (space_group.py:135-137) is the site with the same offset in the
neighbouring cell, modulo the extent (that the lookup of positions gives this is `C155_translation`); elements are their arrays, the product of two
permutations being that of C38. -/

namespace Verif.Grp
open Verif.Hilbert (Err)

/-- the cell one step back along axis number `axis` of a periodic lattice (space_group.py:135-137). -/
def cellBack : List Nat → Nat → Nat → Nat
  | [], _, c => c
  | L :: Ls, 0, c => ((c / Ls.prod + (L - 1)) % L) * Ls.prod + c % Ls.prod
  | _ :: Ls, a + 1, c => (c / Ls.prod) * Ls.prod + cellBack Ls a (c % Ls.prod)

/-- space_group.py:135-137: `trans_perm`. -/
def transByOne (shape : List Nat) (spc axis : Nat) : List Int :=
  (List.range (shape.prod * spc)).map fun i : Nat => ((cellBack shape axis (i / spc) * spc + i % spc : Nat) : Int)

/-- space_group.py:133, 142-143: the list `[Identity(), T, T @ T, ...]`. -/
def transList (one : List Int) (n : Nat) : Nat → List (List Int)
  | 0 => []
  | 1 => [arange n]
  | k + 2 => transList one n (k + 1) ++ [compose ((transList one n (k + 1)).getD k []) one]

/-- space_group.py:127-147: `_translations_along_axis`. -/
def axisTranslations (shape : List Nat) (pbc : List Bool) (spc axis : Nat) : List (List Int) :=
  if pbc.getD axis false then transList (transByOne shape spc axis) (shape.prod * spc) (shape.getD axis 0)
  else [arange (shape.prod * spc)]

/-- _semigroup.py:140-144 and the product it dispatches to (_permutation_group.py): `__matmul__` of two groups, all products a @ b with `a` from the first and `b` from the second (the inner loop). -/
def matmul (A B : List (List Int)) : List (List Int) := A.flatMap fun a => B.map fun b => compose a b

/-- space_group.py:149-158: `_full_translation_group`: `reduce` over the axes (TypeError without any). -/
def translationGroup (shape : List Nat) (pbc : List Bool) (spc : Nat) : Except Err (List (List Int)) :=
  match shape with
  | [] => .error .typeError
  | _ :: Ls => .ok ((List.range' 1 Ls.length).foldl (fun g a => matmul g (axisTranslations shape pbc spc a)) (axisTranslations shape pbc spc 0))

/-- space_group.py:177-182: `space_group` for a point group given as permutations. -/
def spaceGroup (shape : List Nat) (pbc : List Bool) (spc : Nat) (P : List (List Int)) : Except Err (List (List Int)) :=
  match translationGroup shape pbc spc with
  | .error e => .error e
  | .ok T => .ok (matmul T P)

/-- symmetric_linear.py:174-187 (`DenseSymmFFT.setup`): the number of symmetries per cell; `reshape(n_cells, n_symm, sites_per_cell)` of
    the `len(sg)` rows is a ValueError unless the numbers match. -/
def fftSetup (nRows nCells : Nat) : Except Err Nat :=
  let nSymm := nRows / nCells
  if nCells * nSymm = nRows then .ok nSymm else .error .valueError

end Verif.Grp

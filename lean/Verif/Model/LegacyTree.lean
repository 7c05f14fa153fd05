import Verif.Model.DiscreteHilbert
import Mathlib.Algebra.BigOperators.Group.List.Basic

/-! Model of `jax_shape_for_update` (`netket/legacy/vmc_common.py:105-135`), with which the legacy SR gives its solution
the structure of the parameters (`netket/legacy/optimizer/jax/stochastic_reconfiguration.py:245`). -/

namespace Verif.LegacyTree

open Verif.Hilbert (Err)

/-- an array: shape and entries in row-major order (vmc_common.py:132). -/
structure Arr (R : Type) where
  /-- shape -/
  shape : List Nat
  /-- entries -/
  data : List R

/-- the loop over the leaves (vmc_common.py:128-133) from position `k`: TypeError of jax when a slice cannot be reshaped. -/
def reshapeLoop {R : Type} (update : List R) : Nat → List (List Nat) → Except Err (List (Arr R))
  | _, [] => .ok []
  | k, s :: ss =>
    let piece := (update.take (k + s.prod)).drop k
    if piece.length = s.prod then
      match reshapeLoop update (k + s.prod) ss with
      | .error e => .error e
      | .ok l => .ok (⟨s, piece⟩ :: l)
    else .error .typeError

/-- `jax_shape_for_update(update, shape_like)` (vmc_common.py:112-135): the list of the new leaves, given the shapes of
the leaves in the order of `tree_flatten`. -/
def shapeForUpdate {R : Type} (update : List R) (shapes : List (List Nat)) : Except Err (List (Arr R)) :=
  reshapeLoop update 0 shapes

end Verif.LegacyTree

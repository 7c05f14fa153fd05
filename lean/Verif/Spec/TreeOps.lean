import Verif.Model.TreeOps

/-!
Vocabulary for statements about trees (netket/jax/utils.py:181-231): two trees have the same structure and arrays
of the same sizes; entries of a tree by path.
-/

namespace Verif.TreeOps

/-- the same structure: leaves face leaves, containers face containers with the same children. -/
inductive SameDef {α β : Type} (R : α → β → Prop) : Tree α → Tree β → Prop where
  /-- two leaves -/
  | leaf (a : α) (b : β) (h : R a b) : SameDef R (.leaf a) (.leaf b)
  /-- two empty containers -/
  | nil : SameDef R (.node []) (.node [])
  /-- first children and the others -/
  | cons (c : Tree α) (d : Tree β) (cs : List (Tree α)) (ds : List (Tree β)) (h : SameDef R c d)
      (hs : SameDef R (.node cs) (.node ds)) : SameDef R (.node (c :: cs)) (.node (d :: ds))

/-- arrays with the same number of entries. -/
def SameSize (a b : Arr) : Prop := a.shape = b.shape ∧ a.data.length = b.data.length

/-- the leaf at a path of positions in the containers. -/
def leafAt {α : Type} : Tree α → List Nat → Option α
  | .leaf a, [] => some a
  | .leaf _, _ :: _ => none
  | .node _, [] => none
  | .node cs, i :: p =>
    match cs[i]? with
    | some t => leafAt t p
    | none => none

/-- a real dtype and the complex dtype made of two of them. -/
inductive Pair : DType → DType → Prop where
  | single : Pair .float32 .complex64
  | double : Pair .float64 .complex128

/-- the entries of an array are among the values of its dtype. -/
def Fits : DType → ℂ → Prop
  | .bool, z => z = 0 ∨ z = 1
  | .int8, z | .int16, z | .int32, z | .int64, z => ∃ n : ℤ, z = n
  | .complex64, _ | .complex128, _ | .clongdouble, _ => True
  | _, z => ∃ r : ℝ, z = r

end Verif.TreeOps

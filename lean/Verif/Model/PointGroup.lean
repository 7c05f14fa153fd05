import Verif.Model.DiscreteHilbert
import Mathlib.Data.Matrix.Block
import Mathlib.LinearAlgebra.Matrix.NonsingularInverse

/-! Model of netket/utils/group/_point_group.py (`PGSymmetry`, `PointGroup`) and of the little groups of netket/graph/space_group.py.
    Coordinates are elements of an exact field; `np.allclose` and the rounding of `comparable` become equality. -/

namespace Verif.PGrp
open Verif.Hilbert (Err)
open Matrix

/-- _point_group.py:36-55: `PGSymmetry`, the stored matrix `_affine` of shape (d+1)×(d+1). -/
structure PGSym (K : Type) (d : Nat) where
  affine : Matrix (Fin d ⊕ Unit) (Fin d ⊕ Unit) K

section
variable {K : Type} [Field K] [DecidableEq K] {d : Nat}

/-- `np.block([[W, w], [np.zeros(ndim), 1]])` (_point_group.py:70). -/
def block (W : Matrix (Fin d) (Fin d) K) (w : Fin d → K) : Matrix (Fin d ⊕ Unit) (Fin d ⊕ Unit) K :=
  fromBlocks W (of fun i _ => w i) 0 1

/-- _point_group.py:57-70: `__pre_init__`.  (The shape test of lines 60-61 is part of the type here.) -/
def mkPG (W : Matrix (Fin d) (Fin d) K) (w : Option (Fin d → K)) : Except Err (PGSym K d) :=
  if Wᵀ * W = 1 then
    match w with
    | none => .ok ⟨block W fun _ => 0⟩
    | some w => .ok ⟨block W w⟩
  else .error .valueError

/-- _point_group.py:78-84: `matrix`. -/
def PGSym.matrix (p : PGSym K d) : Matrix (Fin d) (Fin d) K := p.affine.toBlocks₁₁

/-- _point_group.py:86-89: `translation`. -/
def PGSym.translation (p : PGSym K d) : Fin d → K := fun i => p.affine.toBlocks₁₂ i ()

/-- _point_group.py:151-153: `product(p, x)`, `np.tensordot(x, p.matrix.T, axes=1) + p.translation` for one vector. -/
def PGSym.act (p : PGSym K d) (x : Fin d → K) : Fin d → K := (x ᵥ* p.matrixᵀ) + p.translation

/-- _point_group.py:106-111: `preimage`. -/
def PGSym.preimage (p : PGSym K d) (x : Fin d → K) : Fin d → K := (x - p.translation) ᵥ* p.matrix

/-- _point_group.py:113-118: `k_action`. -/
def PGSym.kAction (p : PGSym K d) (x : Fin d → K) : Fin d → K := x ᵥ* p.matrixᵀ

/-- _point_group.py:156-158: `product(p, q)`. -/
def PGSym.prod (p q : PGSym K d) : Except Err (PGSym K d) :=
  mkPG (p.matrix * q.matrix) (some ((p.matrix *ᵥ q.translation) + p.translation))

/-- _point_group.py:131-136: `change_origin`. -/
def PGSym.changeOrigin (p : PGSym K d) (o : Fin d → K) : Except Err (PGSym K d) :=
  mkPG p.matrix (some ((1 - p.matrix) *ᵥ o))

/-! ## Point groups -/

/-- elements of a `PointGroup`: `Identity`, `PGSymmetry` or something else (_point_group.py:360-371). -/
inductive PGElem (K : Type) (d : Nat) where
  | id
  | sym (p : PGSym K d)
  | other

/-- _point_group.py:425-433: `affine_matrix`. -/
def affineOf : PGElem K d → Except Err (Matrix (Fin d ⊕ Unit) (Fin d ⊕ Unit) K)
  | .id => .ok 1
  | .sym p => .ok p.affine
  | .other => .error .valueError

/-- _point_group.py:451-461: `to_array`. -/
def toArray : List (PGElem K d) → Except Err (List (Matrix (Fin d ⊕ Unit) (Fin d ⊕ Unit) K))
  | [] => .ok []
  | e :: es =>
    match affineOf e with
    | .error x => .error x
    | .ok m =>
      match toArray es with
      | .error x => .error x
      | .ok ms => .ok (m :: ms)

/-- `lookup[HashableArray(canonical)]` with the dictionary of _group.py:67-74: the last index with the key. -/
def lookup {κ : Type} [DecidableEq κ] (keys : List κ) (k : κ) : Except Err Nat :=
  if k ∈ keys then .ok (keys.length - 1 - keys.reverse.idxOf k) else .error .keyError

/-- looking up a list of keys; a KeyError is turned into a RuntimeError (_point_group.py:540-543, 568-569). -/
def lookupAll {κ : Type} [DecidableEq κ] (keys : List κ) : List κ → Except Err (List Nat)
  | [] => .ok []
  | k :: ks =>
    match lookup keys k with
    | .error _ => .error .runtimeError
    | .ok i =>
      match lookupAll keys ks with
      | .error e => .error e
      | .ok is => .ok (i :: is)

/-- _point_group.py:526-543: `inverse`, the canonical form (435-449) being a function of the affine matrix. -/
noncomputable def inverse {κ : Type} [DecidableEq κ] (canon : Matrix (Fin d ⊕ Unit) (Fin d ⊕ Unit) K → κ) (es : List (PGElem K d)) :
    Except Err (List Nat) :=
  match toArray es with
  | .error e => .error e
  | .ok ms => lookupAll (ms.map canon) (ms.map fun m => canon m⁻¹)

/-- the rows of the table of products `M_g M_h` (_point_group.py:549-565). -/
def productRows {κ : Type} [DecidableEq κ] (canon : Matrix (Fin d ⊕ Unit) (Fin d ⊕ Unit) K → κ)
    (ms : List (Matrix (Fin d ⊕ Unit) (Fin d ⊕ Unit) K)) :
    List (Matrix (Fin d ⊕ Unit) (Fin d ⊕ Unit) K) → Except Err (List (List Nat))
  | [] => .ok []
  | g :: gs =>
    match lookupAll (ms.map canon) (ms.map fun h => canon (g * h)) with
    | .error e => .error e
    | .ok r =>
      match productRows canon ms gs with
      | .error e => .error e
      | .ok rs => .ok (r :: rs)

/-- _point_group.py:546-569: `product_table`, with the rows reshuffled by `inverse` (567). -/
noncomputable def productTable {κ : Type} [DecidableEq κ] (canon : Matrix (Fin d ⊕ Unit) (Fin d ⊕ Unit) K → κ) (es : List (PGElem K d)) :
    Except Err (List (List Nat)) :=
  match toArray es with
  | .error e => .error e
  | .ok ms =>
    match productRows canon ms ms with
    | .error e => .error e
    | .ok rows =>
      match inverse canon es with
      | .error e => .error e
      | .ok inv => .ok (inv.map fun i => rows.getD i [])

/-- one element of `PointGroup.change_origin` (_point_group.py:519-523); an element of another class has no such method. -/
def elemChangeOrigin (o : Fin d → K) : PGElem K d → Except Err (PGElem K d)
  | .id => .ok .id
  | .sym p =>
    match p.changeOrigin o with
    | .error e => .error e
    | .ok q => .ok (.sym q)
  | .other => .error .attributeError

/-- `e(x)` for an element of a point group (_semigroup.py:59-61, _point_group.py:151-153); `none`: not modelled. -/
def PGElem.act : PGElem K d → (Fin d → K) → Option (Fin d → K)
  | .id, x => some x
  | .sym p, x => some (p.act x)
  | .other, _ => none

/-- one pair of `product(A, B)` (_point_group.py:585-601): `a @ b` for elements of point groups, `Identity` being absorbed
    (_semigroup.py:64-76); products with other elements are other elements (98-127). -/
def elemProd : PGElem K d → PGElem K d → Except Err (PGElem K d)
  | .id, b => .ok b
  | a, .id => .ok a
  | .sym p, .sym q =>
    match p.prod q with
    | .error e => .error e
    | .ok r => .ok (.sym r)
  | _, _ => .ok .other

end

/-! ## Little groups (space_group.py) -/

/-- space_group.py:184-197: `_little_group_index`, given the list `big_star` of the images of the wave vector in the
    reciprocal lattice, reduced modulo the extent. -/
def littleGroupIndex {α : Type} [DecidableEq α] (star : List α) : List Nat :=
  match star with
  | [] => []
  | s :: _ => (List.range star.length).filter fun i => decide (star[i]? = some s)

/-- a complex number as its real and imaginary part (netket/graph/space_group.py:252-265). -/
abbrev Cx (K : Type) := K × K

/-- writing a complex number into a real array (space_group.py:225-226) keeps its real part. -/
def castReal {K : Type} (z : Cx K) : K := z.1

/-- one row of `CT_full[:, idx] = CT` (space_group.py:225-226), `CT_full` being real. -/
def embedRow {K : Type} [Field K] (n : Nat) (idx : List Nat) (row : List (Cx K)) : List K :=
  (List.range n).map fun j => if j ∈ idx then (row.map castReal).getD (idx.idxOf j) 0 else 0

/-- space_group.py:216-227: `_little_group_irreps` given the indices and the character table of the little group. -/
def littleGroupIrreps {K : Type} [Field K] (n : Nat) (idx : List Nat) (CT : List (List (Cx K))) (divide : Bool) : List (List K) :=
  CT.map fun row => if divide then (embedRow n idx row).map fun x => x / (idx.length : K) else embedRow n idx row

end Verif.PGrp

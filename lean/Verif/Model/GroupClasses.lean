import Verif.Model.SpaceGroup

/-! Generic groups (netket/utils/group/_group.py), equality of point groups (_point_group.py), the labels of translations and the arguments of
`translation_group` (netket/graph/space_group.py), and the default point group of a lattice (netket/graph/lattice.py).

Simplified: elements of a group are values of a type with the product `mul`, the canonical form `canon` and the action; the unit cells of two point
groups are compared by a given test, of arrays of equal shape. -/

namespace Verif.GrpCls
open Verif.Hilbert (Err)

/-! ## `FiniteGroup` -/

section
variable {α κ : Type} [DecidableEq κ]

/-- the inner loop of _group.py:114-117: every matching `j` is stored, over the previous one. -/
def inverseRow (p : Nat → Bool) : Nat → Nat
  | 0 => 0
  | n + 1 => if p n then n else inverseRow p n

/-- _group.py:104-119: `inverse`. -/
def inverse (mul : α → α → α) (canon : α → κ) (one : α) (es : List α) : List Nat :=
  es.map fun a => inverseRow (fun j => match es[j]? with | none => false | some b => canon (mul a b) = canon one) es.length

/-- what `elems` is: a list (or a tuple), as annotated (_semigroup.py:132), or an array of objects. -/
inductive Store where
  | list | array
  deriving DecidableEq

/-- `self.elems[self.inverse]` (_group.py:135): a list cannot be indexed with an array, whatever its length. -/
def gather (s : Store) (es : List α) (idx : List Nat) : Except Err (List α) :=
  match s with
  | .list => .error .typeError
  | .array => .ok (idx.filterMap fun i => es[i]?)

/-- _group.py:68-75: `_canonical_lookup`: the last index with a given canonical form. -/
def lookup (canon : α → κ) (es : List α) (k : κ) : Except Err Nat :=
  match (List.range es.length).reverse.find? fun i => match es[i]? with | none => false | some b => canon b = k with
  | none => .error .keyError
  | some i => .ok i

/-- one row of the table (_group.py:136-138). -/
def tableRow (mul : α → α → α) (canon : α → κ) (es : List α) (a : α) : List α → Except Err (List Nat)
  | [] => .ok []
  | b :: bs =>
    match lookup canon es (canon (mul a b)) with
    | .error e => .error e
    | .ok k =>
      match tableRow mul canon es a bs with
      | .error e => .error e
      | .ok ks => .ok (k :: ks)

/-- the rows of the table (_group.py:135-138). -/
def tableRows (mul : α → α → α) (canon : α → κ) (es : List α) : List α → Except Err (List (List Nat))
  | [] => .ok []
  | a :: as =>
    match tableRow mul canon es a es with
    | .error e => .error e
    | .ok r =>
      match tableRows mul canon es as with
      | .error e => .error e
      | .ok rs => .ok (r :: rs)

/-- _group.py:121-140: `product_table`. -/
def productTable (s : Store) (mul : α → α → α) (canon : α → κ) (one : α) (es : List α) : Except Err (List (List Nat)) :=
  match gather s es (inverse mul canon one es) with
  | .error e => .error e
  | .ok as => tableRows mul canon es as

/-- _semigroup.py:146-151: `__call__` on a batch of vectors (the last axis), one array for each element. -/
def call {X : Type} (act : α → X → X) (es : List α) (batch : List X) : List (List X) :=
  es.map fun e => batch.map fun x => act e x

/-- _semigroup.py:174-178: `product(A, B)` of two collections. -/
def prodElems (mul : α → α → α) (as bs : List α) : List α := as.flatMap fun a => bs.map fun b => mul a b

/-- _semigroup.py:165-171: the lines of `__repr__`: the elements, or the first and last fifteen around an ellipsis. -/
def reprLines (es : List String) : List String :=
  if es.length > 31 then es.take 15 ++ ["..."] ++ es.drop (es.length - 15) else es

end

/-! ## `PointGroup.__eq__` -/

/-- the loop of _point_group.py:400-402: the elements of `self` against those of `other`. -/
def eqElems {α : Type} (eq : α → α → Bool) : List α → List α → Except Err Bool
  | [], _ => .ok true
  | _ :: _, [] => .error .indexError
  | a :: as, b :: bs => if eq a b then eqElems eq as bs else .ok false

/-- _point_group.py:392-403: `__eq__` of two point groups with elements and unit cells.  `np.allclose(None, None)` is a TypeError. -/
def eqPG {α U : Type} (eq : α → α → Bool) (close : U → U → Bool) (self other : List α × Option U) : Except Err Bool :=
  match self.2, other.2 with
  | none, some _ => .ok false
  | some _, none => .ok false
  | none, none => .error .typeError
  | some u, some v => if close u v then eqElems eq self.1 other.1 else .ok false

/-- _semigroup.py:134-138, 156-157, _point_group.py:381-382: `hash`, from the hashes of the elements. -/
def hashPG {α U H : Type} (h : α → H) (mix : List H → H) (g : List α × Option U) : H := mix (g.1.map h)

/-! ## Translations -/

/-- space_group.py:38-67: an element of a translation group: `Identity()` or a `Translation` with its array and its vector. -/
inductive Trans where
  | id
  | tr (perm : List Int) (vec : List Int)

/-- space_group.py:70-72 and _semigroup.py:64-76: `p @ q`. -/
def Trans.prod : Trans → Trans → Trans
  | .id, q => q
  | .tr p v, .id => .tr p v
  | .tr p v, .tr q w => .tr (Grp.compose p q) (List.zipWith (· + ·) v w)

/-- `vector` of space_group.py:138-139. -/
def unitVec (d a : Nat) : List Int := (List.replicate d 0).set a 1

/-- space_group.py:133, 142-143: the list `[Identity(), T, T @ T, ...]` of length `n`; it has one element at least. -/
def transList (one : Trans) : Nat → List Trans
  | 0 => [.id]
  | 1 => [.id]
  | k + 2 => transList one (k + 1) ++ [((transList one (k + 1)).getLastD .id).prod one]

/-- python indexing with an integer (netket/graph/space_group.py:127-147). -/
def index (d : Nat) (a : Int) : Except Err Nat :=
  if 0 ≤ a ∧ a < d then .ok a.toNat else if a < 0 ∧ -(d : Int) ≤ a then .ok (a + d).toNat else .error .indexError

/-- space_group.py:127-147: `_translations_along_axis`. -/
def alongAxis (shape : List Nat) (pbc : List Bool) (spc : Nat) (a : Int) : Except Err (List Trans) :=
  match index shape.length a with
  | .error e => .error e
  | .ok a => .ok (if pbc.getD a false then transList (.tr (Grp.transByOne shape spc a) (unitVec shape.length a)) (shape.getD a 0) else [.id])

/-- the list of the groups of several axes (space_group.py:157, 174). -/
def alongAxes (shape : List Nat) (pbc : List Bool) (spc : Nat) : List Int → Except Err (List (List Trans))
  | [] => .ok []
  | a :: as =>
    match alongAxis shape pbc spc a with
    | .error e => .error e
    | .ok g =>
      match alongAxes shape pbc spc as with
      | .error e => .error e
      | .ok gs => .ok (g :: gs)

/-- `PermutationGroup.__matmul__` (_semigroup.py:140-144, _permutation_group.py:196-204) of the elements. -/
def matmul (A B : List Trans) : List Trans := A.flatMap fun a => B.map fun b => a.prod b

/-- `reduce(PermutationGroup.__matmul__, groups)` (space_group.py:155-158, 172-175): a TypeError without any. -/
def reduceGroups : List (List Trans) → Except Err (List Trans)
  | [] => .error .typeError
  | g :: gs => .ok (gs.foldl matmul g)

/-- the argument `axes`: absent, a python integer, an integer of numpy, or a sequence
(netket/graph/space_group.py:160-177). -/
inductive Axes where
  | absent | int (a : Int) | npInt (a : Int) | seq (as : List Int)

/-- space_group.py:160-175: `translation_group`.  An integer of numpy is no `int` and cannot be iterated over. -/
def translationGroup (shape : List Nat) (pbc : List Bool) (spc : Nat) : Axes → Except Err (List Trans)
  | .absent =>
    match alongAxes shape pbc spc ((List.range shape.length).map fun i : Nat => (i : Int)) with
    | .error e => .error e
    | .ok gs => reduceGroups gs
  | .int a => alongAxis shape pbc spc a
  | .npInt _ => .error .typeError
  | .seq as =>
    match alongAxes shape pbc spc as with
    | .error e => .error e
    | .ok gs => reduceGroups gs

/-! ## The default point group -/

/-- `Lattice._point_group`: nothing, a point group, or a function which makes it (lattice.py:293, 579-583); what the function returns depends on the
    objects it refers to (common_lattices.py:120: `extent` and `pbc` of the caller). -/
inductive Default (E G : Type) where
  | nothing | group (g : G) | callable (f : E → G)

/-- lattice.py:576-589 and space_group.py:90-95: `space_group_builder(point_group)`: the attribute afterwards, whether the function was called, and
    the elements of the group of the builder with its unit cell, which is that of the lattice. -/
def builder {E α U : Type} (basis : U) (env : E) (st : Default E (List α × Option U)) (arg : Option (List α × Option U)) :
    Default E (List α × Option U) × Bool × Except Err (List α × Option U) :=
  match arg with
  | some g => (st, false, .ok (g.1, some basis))
  | none =>
    match st with
    | .group g => (.group g, false, .ok (g.1, some basis))
    | .callable f => (.group (f env), true, .ok ((f env).1, some basis))
    | .nothing => (.nothing, false, .error .runtimeError)

/-- successive requests, each with its argument and the state of the caller's objects: the results and the number of calls of the function
    (lattice.py:557-630: `space_group_builder` and what is built from it). -/
def requests {E α U : Type} (basis : U) : Default E (List α × Option U) → List (E × Option (List α × Option U)) →
    List (Except Err (List α × Option U)) × Nat
  | _, [] => ([], 0)
  | st, r :: rs =>
    let o := builder basis r.1 st r.2
    let t := requests basis o.1 rs
    (o.2.2 :: t.1, (if o.2.1 then 1 else 0) + t.2)

end Verif.GrpCls

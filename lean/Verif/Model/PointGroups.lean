import Verif.Model.PointGroup
import Mathlib.Analysis.SpecialFunctions.Trigonometric.Basic
import Mathlib.Analysis.SpecialFunctions.Complex.Arg
import Mathlib.LinearAlgebra.CrossProduct
import Mathlib.LinearAlgebra.Matrix.Notation
import Mathlib.Data.Real.Sqrt

/-! Model of the point-group constructors netket/utils/group/planar.py, axial.py, cubic.py and of the rest of the class
    `PointGroup` (_point_group.py).  Coordinates are real numbers; `np.allclose` of the orthogonality test (in `mkPG`) is equality. -/

namespace Verif.PGrp
open Verif.Hilbert (Err)
open Matrix

/-- _point_group.py:359-378: a `PointGroup` of dimension `d`: its elements and the optional unit cell. -/
structure PG (d : Nat) where
  elems : List (PGElem ℝ d)
  cell : Option (Matrix (Fin d) (Fin d) ℝ)

/-- `np.radians` (netket/utils/group/axial.py:34, 68, 204; planar.py:40, 73). -/
noncomputable def radians (x : ℝ) : ℝ := x * Real.pi / 180

/-- a list comprehension whose items may raise (planar.py:57-59, axial.py:55-57, 232-239): the first exception is raised. -/
def collect {α β : Type} (f : α → Except Err β) : List α → Except Err (List β)
  | [] => .ok []
  | a :: as =>
    match f a with
    | .error e => .error e
    | .ok b =>
      match collect f as with
      | .error e => .error e
      | .ok bs => .ok (b :: bs)

/-- `range(1, n)` (planar.py:58, axial.py:56, 238). -/
def range1 (n : Int) : List Nat := List.range' 1 (n - 1).toNat

/-- a symmetry as an element of a group (netket/utils/group/_point_group.py:359-378). -/
def symElem {d : Nat} : Except Err (PGSym ℝ d) → Except Err (PGElem ℝ d)
  | .error e => .error e
  | .ok p => .ok (.sym p)

/-- the group of the identity and one symmetry (planar.py:88, 120, axial.py:111, 127, 159). -/
def pairGroup {d : Nat} (p : Except Err (PGSym ℝ d)) : Except Err (PG d) :=
  match p with
  | .error e => .error e
  | .ok p => .ok ⟨[.id, .sym p], none⟩

/-- `PointGroup([Identity()] + [...], ndim)` (planar.py:57-59, axial.py:55-57, 230-241). -/
def idAnd {d : Nat} (es : Except Err (List (PGElem ℝ d))) : Except Err (PG d) :=
  match es with
  | .error e => .error e
  | .ok es => .ok ⟨.id :: es, none⟩

/-- the list of the pairs of `itertools.product` (netket/utils/group/_point_group.py:585-601). -/
def pairs {α β : Type} (as : List α) (bs : List β) : List (α × β) := as.flatMap fun a => bs.map fun b => (a, b)

/-- the unit cell of `product(A, B)` (_point_group.py:589-596). -/
noncomputable def prodCell {d : Nat} (a b : Option (Matrix (Fin d) (Fin d) ℝ)) : Except Err (Option (Matrix (Fin d) (Fin d) ℝ)) :=
  match a, b with
  | none, b => .ok b
  | some a, none => .ok (some a)
  | some a, some b => open Classical in if a = b then .ok (some a) else .error .valueError

/-- _point_group.py:585-601: `product(A, B)` for point groups (of the same dimension: the test of 587-588 is part of the type). -/
noncomputable def PG.prod {d : Nat} (A B : PG d) : Except Err (PG d) :=
  match prodCell A.cell B.cell with
  | .error e => .error e
  | .ok c =>
    match collect (fun p : PGElem ℝ d × PGElem ℝ d => elemProd p.1 p.2) (pairs A.elems B.elems) with
    | .error e => .error e
    | .ok es => .ok ⟨es, c⟩

/-- `A @ B` of two constructor calls, evaluated from the left
(netket/utils/group/_point_group.py:585-601). -/
noncomputable def prodOf {d : Nat} (A B : Except Err (PG d)) : Except Err (PG d) :=
  match A with
  | .error e => .error e
  | .ok A =>
    match B with
    | .error e => .error e
    | .ok B => A.prod B

/-- _point_group.py:581-582: `trivial_point_group`. -/
def trivialPG (d : Nat) : PG d := ⟨[.id], none⟩

/-- _point_group.py:512-524: `PointGroup.change_origin`. -/
noncomputable def PG.changeOrigin {d : Nat} [DecidableEq ℝ] (A : PG d) (o : Fin d → ℝ) : Except Err (PG d) :=
  match collect (elemChangeOrigin o) A.elems with
  | .error e => .error e
  | .ok es => .ok ⟨es, A.cell⟩

open Classical in
/-- the body of the loop of _point_group.py:505-509: what is appended; `is_proper` (96-99) with equality for `np.isclose`; an element
    of another class has no such property. -/
noncomputable def keepProper {d : Nat} : PGElem ℝ d → Except Err (List (PGElem ℝ d))
  | .id => .ok [.id]
  | .sym p => if p.matrix.det = 1 then .ok [.sym p] else .ok []
  | .other => .error .attributeError

/-- _point_group.py:498-510: `rotation_group`. -/
noncomputable def PG.rotationGroup {d : Nat} (A : PG d) : Except Err (PG d) :=
  match collect keepProper A.elems with
  | .error e => .error e
  | .ok es => .ok ⟨es.flatten, A.cell⟩

/-! ## planar.py -/

namespace Planar

/-- the matrix of planar.py:42. -/
noncomputable def rotMat (t : ℝ) : Matrix (Fin 2) (Fin 2) ℝ := !![Real.cos t, -Real.sin t; Real.sin t, Real.cos t]

/-- planar.py:33-43: `rotation`. -/
noncomputable def rotation (angle : ℝ) : Except Err (PGSym ℝ 2) := mkPG (rotMat (radians angle)) none

/-- planar.py:47-59: `C`. -/
noncomputable def C (n : Int) : Except Err (PG 2) :=
  idAnd (collect (fun i : Nat => symElem (rotation (360 / (n : ℝ) * (i : ℝ)))) (range1 n))

/-- the matrix of planar.py:75 and 102, `t` being twice the angle of the axis. -/
noncomputable def reflMat (t : ℝ) : Matrix (Fin 2) (Fin 2) ℝ := !![Real.cos t, Real.sin t; Real.sin t, -Real.cos t]

/-- planar.py:66-76: `reflection`. -/
noncomputable def reflection (angle : ℝ) : Except Err (PGSym ℝ 2) := mkPG (reflMat (radians angle * 2)) none

/-- planar.py:80-88: `reflection_group`. -/
noncomputable def reflectionGroup (angle : ℝ) : Except Err (PG 2) := pairGroup (reflection angle)

/-- `np.arctan2(y, x)` (planar.py:101). -/
noncomputable def arctan2 (y x : ℝ) : ℝ := Complex.arg ⟨x, y⟩

/-- planar.py:92-104: `glide`. -/
noncomputable def glide (trans origin : Fin 2 → ℝ) : Except Err (PGSym ℝ 2) :=
  let W := reflMat (arctan2 (trans 1) (trans 0) * 2)
  mkPG W (some (trans + (1 - W) *ᵥ origin))

/-- planar.py:108-120: `glide_group`. -/
noncomputable def glideGroup (trans origin : Fin 2 → ℝ) : Except Err (PG 2) := pairGroup (glide trans origin)

/-- planar.py:124-137: `D`. -/
noncomputable def D (n : Int) (axis : ℝ) : Except Err (PG 2) := prodOf (reflectionGroup axis) (C n)

/-- planar.py:144-148: `rectangle`. -/
noncomputable def rectangle : Except Err (PG 2) := D 2 0

/-- planar.py:152-154: `square`. -/
noncomputable def square : Except Err (PG 2) := D 4 0

end Planar

/-! ## axial.py -/

namespace Axial

/-- `np.asarray(axis) / np.linalg.norm(axis)` (axial.py:35, 69, 117, 140, 205); `none`: division by zero, all entries NaN. -/
noncomputable def normalise (a : Fin 3 → ℝ) : Option (Fin 3 → ℝ) :=
  let r := Real.sqrt (∑ i, a i * a i)
  open Classical in if r = 0 then none else some fun i => a i / r

/-- `np.cross(np.eye(3), axis)` (axial.py:38, 72, 208): row `i` is the cross product of the unit vector `i` with the axis. -/
noncomputable def crossEye (a : Fin 3 → ℝ) : Matrix (Fin 3) (Fin 3) ℝ :=
  of fun i => crossProduct ((1 : Matrix (Fin 3) (Fin 3) ℝ) i) a

/-- the matrix of axial.py:37-39, 70-74 and 206-210. -/
noncomputable def rotMat (t : ℝ) (a : Fin 3 → ℝ) : Matrix (Fin 3) (Fin 3) ℝ :=
  Real.cos t • (1 : Matrix (Fin 3) (Fin 3) ℝ) + Real.sin t • crossEye a + (1 - Real.cos t) • vecMulVec a a

/-- the matrix of axial.py:118, 141 and 211. -/
noncomputable def reflMat (a : Fin 3 → ℝ) : Matrix (Fin 3) (Fin 3) ℝ := 1 - (2 : ℝ) • vecMulVec a a

/-- `PGSymmetry(f(axis))` with the normalised axis: a matrix of NaN is not orthogonal
(netket/utils/group/axial.py:115-120, 131-145). -/
noncomputable def withAxis (axis : Fin 3 → ℝ) (f : (Fin 3 → ℝ) → Except Err (PGSym ℝ 3)) : Except Err (PGSym ℝ 3) :=
  match normalise axis with
  | none => .error .valueError
  | some a => f a

/-- axial.py:32-40: `rotation`. -/
noncomputable def rotation (angle : ℝ) (axis : Fin 3 → ℝ) : Except Err (PGSym ℝ 3) :=
  withAxis axis fun a => mkPG (rotMat (radians angle) a) none

/-- axial.py:44-57: `C`. -/
noncomputable def C (n : Int) (axis : Fin 3 → ℝ) : Except Err (PG 3) :=
  idAnd (collect (fun i : Nat => symElem (rotation (360 / (n : ℝ) * (i : ℝ)) axis)) (range1 n))

/-- axial.py:64-76: `screw`. -/
noncomputable def screw (angle : ℝ) (trans origin : Fin 3 → ℝ) : Except Err (PGSym ℝ 3) :=
  withAxis trans fun a =>
    mkPG (rotMat (radians angle) a) (some (trans + (1 - rotMat (radians angle) a) *ᵥ origin))

/-- `is_approx_int` (float.py:105-110) of one number, with the tolerance 1e-8. -/
noncomputable def isApproxInt (x : ℝ) : Prop := |x - (round x : ℝ)| ≤ 1 / 10 ^ 8

open Classical in
/-- the loop of axial.py:92-95 from counter `i`, with `fuel` rounds at most (`none`: still running). -/
noncomputable def screwLoop (angle : ℝ) (trans origin : Fin 3 → ℝ) : Nat → Nat → Option (Except Err (List (PGElem ℝ 3)))
  | 0, _ => none
  | fuel + 1, i =>
    if isApproxInt ((i : ℝ) * angle / 360) then some (.ok [])
    else
      match screw ((i : ℝ) * angle) ((i : ℝ) • trans) origin with
      | .error e => some (.error e)
      | .ok p =>
        match screwLoop angle trans origin fuel (i + 1) with
        | none => none
        | some (.error e) => some (.error e)
        | some (.ok es) => some (.ok (.sym p :: es))

/-- axial.py:80-96: `screw_group`, `none` when the loop has not stopped after `fuel` rounds. -/
noncomputable def screwGroup (fuel : Nat) (angle : ℝ) (trans origin : Fin 3 → ℝ) : Option (Except Err (PG 3)) :=
  (screwLoop angle trans origin fuel 1).map idAnd

/-- axial.py:100-102: `inversion`. -/
noncomputable def inversion : Except Err (PGSym ℝ 3) := mkPG (-1) none

/-- axial.py:106-111: `inversion_group`. -/
noncomputable def inversionGroup : Except Err (PG 3) := pairGroup inversion

/-- axial.py:115-118: `reflection`. -/
noncomputable def reflection (axis : Fin 3 → ℝ) : Except Err (PGSym ℝ 3) := withAxis axis fun a => mkPG (reflMat a) none

/-- axial.py:122-127: `reflection_group`. -/
noncomputable def reflectionGroup (axis : Fin 3 → ℝ) : Except Err (PG 3) := pairGroup (reflection axis)

/-- `np.isclose(np.dot(axis, axis2), 0.0)` (axial.py:139, 194, 263, 320): the absolute tolerance 1e-8. -/
noncomputable def perp (a b : Fin 3 → ℝ) : Prop := |∑ i, a i * b i| ≤ 1 / 10 ^ 8

open Classical in
/-- an `assert` before a call (axial.py:139, 194, 263, 320). -/
noncomputable def asserting {α : Type} (p : Prop) (r : Except Err α) : Except Err α := if p then r else .error .assertionError

/-- axial.py:131-143: `glide`. -/
noncomputable def glide (axis trans origin : Fin 3 → ℝ) : Except Err (PGSym ℝ 3) :=
  asserting (perp axis trans) (withAxis axis fun a => mkPG (reflMat a) (some (trans + (1 - reflMat a) *ᵥ origin)))

/-- axial.py:147-159: `glide_group`. -/
noncomputable def glideGroup (axis trans origin : Fin 3 → ℝ) : Except Err (PG 3) := pairGroup (glide axis trans origin)

/-- axial.py:163-176: `Ch`. -/
noncomputable def Ch (n : Int) (axis : Fin 3 → ℝ) : Except Err (PG 3) := prodOf (reflectionGroup axis) (C n axis)

/-- axial.py:180-195: `Cv`. -/
noncomputable def Cv (n : Int) (axis axis2 : Fin 3 → ℝ) : Except Err (PG 3) :=
  asserting (perp axis axis2) (prodOf (reflectionGroup axis2) (C n axis))

/-- axial.py:202-212: `rotoreflection`. -/
noncomputable def rotoreflection (angle : ℝ) (axis : Fin 3 → ℝ) : Except Err (PGSym ℝ 3) :=
  withAxis axis fun a => mkPG (reflMat a * rotMat (radians angle) a) none

/-- one element of the list of axial.py:232-239. -/
noncomputable def Selem (n : Int) (axis : Fin 3 → ℝ) (i : Nat) : Except Err (PGElem ℝ 3) :=
  if i % 2 = 1 then symElem (rotoreflection (360 / (n : ℝ) * (i : ℝ)) axis) else symElem (rotation (360 / (n : ℝ) * (i : ℝ)) axis)

/-- axial.py:216-241: `S`. -/
noncomputable def S (n : Int) (axis : Fin 3 → ℝ) : Except Err (PG 3) :=
  if n % 2 = 1 then Ch n axis else idAnd (collect (Selem n axis) (range1 n))

/-- axial.py:249-264: `D`. -/
noncomputable def D (n : Int) (axis axis2 : Fin 3 → ℝ) : Except Err (PG 3) :=
  asserting (perp axis axis2) (prodOf (C 2 axis2) (C n axis))

/-- axial.py:271-273: `cuboid_rotations`. -/
noncomputable def cuboidRotations : Except Err (PG 3) := D 2 ![0, 0, 1] ![1, 0, 0]

/-- axial.py:277-293: `Dh`. -/
noncomputable def Dh (n : Int) (axis axis2 : Fin 3 → ℝ) : Except Err (PG 3) := prodOf (reflectionGroup axis) (D n axis axis2)

/-- axial.py:300-302: `cuboid`. -/
noncomputable def cuboid : Except Err (PG 3) := Dh 2 ![0, 0, 1] ![1, 0, 0]

/-- axial.py:306-321: `Dd`. -/
noncomputable def Dd (n : Int) (axis axis2 : Fin 3 → ℝ) : Except Err (PG 3) :=
  asserting (perp axis axis2) (prodOf (reflectionGroup axis2) (S (2 * n) axis))

end Axial

/-! ## cubic.py -/

namespace Cubic
open Axial

/-- the angles and axes of cubic.py:52-62. -/
noncomputable def tArgs : List (ℝ × (Fin 3 → ℝ)) :=
  [(120, ![1, 1, 1]), (120, ![1, -1, -1]), (120, ![-1, 1, -1]), (120, ![-1, -1, 1]),
   (-120, ![1, 1, 1]), (-120, ![1, -1, -1]), (-120, ![-1, 1, -1]), (-120, ![-1, -1, 1]),
   (180, ![0, 0, 1]), (180, ![0, 1, 0]), (180, ![1, 0, 0])]

/-- cubic.py:44-65: `T`. -/
noncomputable def T : Except Err (PG 3) := idAnd (collect (fun p : ℝ × (Fin 3 → ℝ) => symElem (rotation p.1 p.2)) tArgs)

/-- cubic.py:72-77: `Td`. -/
noncomputable def Td : Except Err (PG 3) := prodOf (reflectionGroup ![1, 1, 0]) T

/-- cubic.py:84-86: `Th`. -/
noncomputable def Th : Except Err (PG 3) := prodOf inversionGroup T

/-- cubic.py:93-97: `O`. -/
noncomputable def O : Except Err (PG 3) := prodOf (pairGroup (rotation 90 ![0, 0, 1])) T

/-- cubic.py:104-106: `Oh`. -/
noncomputable def Oh : Except Err (PG 3) := prodOf inversionGroup O

/-- the unit cell of cubic.py:117. -/
noncomputable def fccCell : Matrix (Fin 3) (Fin 3) ℝ := !![0, 1 / 2, 1 / 2; 1 / 2, 0, 1 / 2; 1 / 2, 1 / 2, 0]

/-- `_inv_group().change_origin([1/8, 1/8, 1/8])` (cubic.py:116). -/
noncomputable def invShifted : Except Err (PG 3) :=
  match inversionGroup with
  | .error e => .error e
  | .ok G => G.changeOrigin ![1 / 8, 1 / 8, 1 / 8]

/-- cubic.py:113-118: `Fd3m`. -/
noncomputable def Fd3m : Except Err (PG 3) :=
  match prodOf invShifted Td with
  | .error e => .error e
  | .ok G => .ok ⟨G.elems, some fccCell⟩

end Cubic

/-! ## Comparison of point groups -/

/-- `elem != other.elems[i]` (_point_group.py:401), `PGSymmetry.__eq__` (123-129) with the rounded matrices, `Identity` being equal
    to identities only.  Elements of other classes are not modelled (`none`). -/
def elemEq {κ : Type} [DecidableEq κ] {K : Type} {d : Nat} (canon : Matrix (Fin d ⊕ Unit) (Fin d ⊕ Unit) K → κ) :
    PGElem K d → PGElem K d → Option Bool
  | .id, .id => some true
  | .id, .sym _ => some false
  | .sym _, .id => some false
  | .sym p, .sym q => some (decide (canon p.affine = canon q.affine))
  | _, _ => none

/-- the loop of _point_group.py:400-402 over the elements left in `self.elems` and `other.elems`; the outer `none`: not modelled. -/
def eqLoop {κ : Type} [DecidableEq κ] {K : Type} {d : Nat} (canon : Matrix (Fin d ⊕ Unit) (Fin d ⊕ Unit) K → κ) :
    List (PGElem K d) → List (PGElem K d) → Option (Except Err Bool)
  | [], _ => some (.ok true)
  | _ :: _, [] => some (.error .indexError)
  | a :: as, b :: bs =>
    match elemEq canon a b with
    | none => none
    | some false => some (.ok false)
    | some true => eqLoop canon as bs

/-- _point_group.py:392-403: `PointGroup.__eq__`; `np.allclose(None, None)` raises a TypeError (397). -/
def pgEq {κ : Type} [DecidableEq κ] {K : Type} [DecidableEq K] {d : Nat} (canon : Matrix (Fin d ⊕ Unit) (Fin d ⊕ Unit) K → κ)
    (A B : List (PGElem K d) × Option (Matrix (Fin d) (Fin d) K)) : Option (Except Err Bool) :=
  match A.2, B.2 with
  | none, some _ => some (.ok false)
  | some _, none => some (.ok false)
  | none, none => some (.error .typeError)
  | some a, some b => if a = b then eqLoop canon A.1 B.1 else some (.ok false)

end Verif.PGrp

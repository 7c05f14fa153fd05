import Verif.Model.Lattice
import Verif.Model.DiscreteHilbert
import Mathlib.Analysis.SpecialFunctions.Complex.Arg
import Mathlib.LinearAlgebra.CrossProduct
import Mathlib.LinearAlgebra.Matrix.Determinant.Basic
import Mathlib.LinearAlgebra.Matrix.Trace

/-! Model of the names of point-group symmetries (netket/utils/group/_point_group.py:160-353).  A name is what the string says: its kind and the
    numbers in it.  Arithmetic is exact; `scipy.linalg.schur` is an argument. -/

namespace Verif.GroupNames

open Verif.Hilbert (Err)
open Verif.Lat (rint)
open Matrix

noncomputable section

/-- `_naming_tol` (_point_group.py:162). -/
def tol : ℝ := 1 / 10 ^ 6

/-- `_naming_isclose(x, y)` (_point_group.py:164). -/
def close (x y : ℝ) : Prop := |x - y| ≤ tol

/-- `_naming_isclose(z, 0.0)` for a complex `z` (_point_group.py:164, 181). -/
def czero (z : ℂ) : Prop := ‖z‖ ≤ tol

/-- `_naming_allclose(v, 0.0)` (_point_group.py:163). -/
def vzero {d : Nat} (v : Fin d → ℝ) : Prop := ∀ i, close (v i) 0

/-- `_naming_allclose(A, B)` (_point_group.py:163). -/
def mclose {d : Nat} (A B : Matrix (Fin d) (Fin d) ℝ) : Prop := ∀ i j, close (A i j) (B i j)

/-! ## Numbers -/

/-- a number as it is printed (_point_group.py:306-319): an integer, a fraction, a multiple of `√3`, or three decimals (in thousandths). -/
inductive Num where
  | int (n : Int)
  | frac (p : Int) (q : Nat)
  | root3 (p : Int) (q : Nat)
  | dec (k : Int)
deriving DecidableEq

open Classical in
/-- `__to_rational` (_point_group.py:298-303); `none` is the `ValueError`. -/
def toRat (x : ℝ) : Option (Int × Nat) :=
  (((List.range 99).map fun k : Nat => k + 1).find? fun d : Nat => decide (|x * (d : ℝ) - (rint (x * (d : ℝ)) : ℝ)| ≤ tol)).map
    fun d : Nat => (rint (x * (d : ℝ)), d)

/-- the string of a fraction (_point_group.py:308-309). -/
def mkFrac (r : Int × Nat) : Num := if r.2 ≠ 1 then .frac r.1 r.2 else .int r.1

/-- `_to_rational` (_point_group.py:306-319). -/
def toRational (x : ℝ) : Num :=
  match toRat x with
  | some r => mkFrac r
  | none =>
    match toRat (x / Real.sqrt 3) with
    | some r => .root3 r.1 r.2
    | none => .dec (rint (1000 * x))

/-- `_to_rational_vector` (_point_group.py:322-323). -/
def toRationalVector {d : Nat} (v : Fin d → ℝ) : Fin d → Num := fun i => toRational (v i)

/-- a direction as it is printed (_point_group.py:339-353). -/
inductive Dir where
  | int (a b c : Int)
  | root3 (a b c : Int)
  | dec (a b c : Int)
deriving DecidableEq

/-- `np.abs(v).sum()` (_point_group.py:329). -/
def absSum (v : Fin 3 → ℝ) : ℝ := |v 0| + |v 1| + |v 2|

open Classical in
/-- `__to_int_vector` (_point_group.py:326-336); `none` is the `ValueError`, also of the zero vector, whose quotients are NaN. -/
def toInts (v : Fin 3 → ℝ) : Option (Int × Int × Int) :=
  if absSum v = 0 then none else
    (((List.range 99).map fun k : Nat => k + 1).find? fun d : Nat =>
      decide (∀ i, close ((d : ℝ) * (v i / absSum v)) (rint ((d : ℝ) * (v i / absSum v)) : ℝ))).map
      fun d : Nat => (rint ((d : ℝ) * (v 0 / absSum v)), rint ((d : ℝ) * (v 1 / absSum v)), rint ((d : ℝ) * (v 2 / absSum v)))

/-- `_to_int_vector` (_point_group.py:339-353); not modelled: the NaN printed for the zero vector. -/
def toIntVector (v : Fin 3 → ℝ) : Dir :=
  match toInts v with
  | some r => .int r.1 r.2.1 r.2.2
  | none =>
    match toInts ![v 0, v 1 / Real.sqrt 3, v 2] with
    | some r => .root3 r.1 r.2.1 r.2.2
    | none => .dec (rint (1000 * (v 0 / Real.sqrt (v ⬝ᵥ v)))) (rint (1000 * (v 1 / Real.sqrt (v ⬝ᵥ v)))) (rint (1000 * (v 2 / Real.sqrt (v ⬝ᵥ v))))

/-! ## Origin and translation -/

/-- what `_eig` (_point_group.py:169-171) returns of a real matrix: the triangular and the unitary factor of its Schur decomposition. -/
abbrev Eig (d : Nat) := Matrix (Fin d) (Fin d) ℝ → Matrix (Fin d) (Fin d) ℂ × Matrix (Fin d) (Fin d) ℂ

/-- `v[:, j]† @ w` (_point_group.py:182, 186). -/
def coef {d : Nat} (v : Matrix (Fin d) (Fin d) ℂ) (w : Fin d → ℝ) (j : Fin d) : ℂ := ∑ k, star (v k j) * (w k : ℂ)

open Classical in
/-- `_origin_trans` (_point_group.py:174-187). -/
def originTrans {d : Nat} (eig : Eig d) (W : Matrix (Fin d) (Fin d) ℝ) (w : Fin d → ℝ) : (Fin d → ℝ) × (Fin d → ℝ) :=
  let r := eig (1 - W)
  let e := fun j => r.1 j j
  (fun i => (∑ j, if czero (e j) then (0 : ℂ) else r.2 i j * (1 / e j) * coef r.2 w j).re,
   fun i => (∑ j, if czero (e j) then r.2 i j * coef r.2 w j else (0 : ℂ)).re)

open Classical in
/-- the `origin` part of a name (_point_group.py:199, 235). -/
def originPart {d : Nat} (o : Fin d → ℝ) : Option (Fin d → Num) := if vzero o then none else some (toRationalVector o)

open Classical in
/-- the `trans` part of a name (_point_group.py:200). -/
def transPart {d : Nat} (t : Fin d → ℝ) : Option (Fin d → Num) := if vzero t then none else some (toRationalVector t)

/-- `int(np.rint(np.degrees(angle)))` (_point_group.py:211, 216, 262, 291). -/
def degrees (t : ℝ) : Int := rint (t * (180 / Real.pi))

/-- `np.arctan2(y, x)` (_point_group.py:209, 215). -/
def arctan2 (y x : ℝ) : ℝ := Complex.arg ⟨x, y⟩

/-! ## Names -/

/-- the name of a symmetry of the plane (_point_group.py:190-223). -/
inductive Name2 where
  | id
  | translation (t : Fin 2 → Num)
  | rot (k : Int) (o : Option (Fin 2 → Num))
  | refl (k : Int) (o : Option (Fin 2 → Num))
  | glide (t : Fin 2 → Num) (o : Option (Fin 2 → Num))

/-- the origin and the translation of a name (_point_group.py:194-197, 230-233); `w` may be missing. -/
def originTransOpt {d : Nat} (eig : Eig d) (W : Matrix (Fin d) (Fin d) ℝ) (w : Option (Fin d → ℝ)) : (Fin d → ℝ) × (Fin d → ℝ) :=
  match w with
  | none => (0, 0)
  | some w => originTrans eig W w

/-- the name of a proper symmetry with trivial linear part (_point_group.py:203-207). -/
def shift2 : Option (Fin 2 → Num) → Name2
  | none => .id
  | some t => .translation t

/-- the name of an improper symmetry of the plane (_point_group.py:217-220). -/
def mirror2 (k : Int) (o : Option (Fin 2 → Num)) : Option (Fin 2 → Num) → Name2
  | none => .refl k o
  | some t => .glide t o

open Classical in
/-- `_2D_name` (_point_group.py:190-223). -/
def name2 (eig : Eig 2) (W : Matrix (Fin 2) (Fin 2) ℝ) (w : Option (Fin 2 → ℝ)) : Except Err Name2 :=
  let p := originTransOpt eig W w
  let o := originPart p.1
  let t := transPart p.2
  if close W.det 1 then
    if mclose W 1 then .ok (shift2 t) else .ok (.rot (degrees (arctan2 (W 1 0) (W 0 0))) o)
  else if close W.det (-1) then .ok (mirror2 (degrees (arctan2 (W 1 0) (W 0 0) / 2)) o t)
  else .error .valueError

/-- the name of a symmetry of space (_point_group.py:226-295). -/
inductive Name3 where
  | id
  | translation (t : Fin 3 → Num)
  | rot (k : Int) (n : Dir) (o : Option (Fin 3 → Num))
  | screw (k : Int) (t : Fin 3 → Num) (o : Option (Fin 3 → Num))
  | inv (o : Option (Fin 3 → Num))
  | refl (n : Dir) (o : Option (Fin 3 → Num))
  | glide (t : Fin 3 → Num) (n : Dir) (o : Option (Fin 3 → Num))
  | rotoRefl (k : Int) (n : Dir) (o : Option (Fin 3 → Num))

/-- the one column which a mask selects; simplified: none, or several flattened into one vector, is an `IndexError` (which an orthogonal matrix never
    gives, see C191) (_point_group.py:250, 254-256, 274, 289-292). -/
def oneColumn (js : List (Fin 3)) : Except Err (Fin 3) :=
  match js with
  | [j] => .ok j
  | _ => .error .indexError

open Classical in
/-- the columns whose eigenvalue is close to the real number `a` (_point_group.py:250, 274). -/
def columnsAt (T : Matrix (Fin 3) (Fin 3) ℂ) (a : ℝ) : List (Fin 3) := (List.finRange 3).filter fun j => decide (‖T j j - (a : ℂ)‖ ≤ tol)

open Classical in
/-- `pos = e.imag > _naming_tol` (_point_group.py:253, 288). -/
def columnsPos (T : Matrix (Fin 3) (Fin 3) ℂ) : List (Fin 3) := (List.finRange 3).filter fun j => decide (tol < (T j j).im)

/-- `v[:, j].real` (_point_group.py:250, 274). -/
def reCol (v : Matrix (Fin 3) (Fin 3) ℂ) (j : Fin 3) : Fin 3 → ℝ := fun i => (v i j).re

/-- `np.cross(v.imag, v.real)` (_point_group.py:256, 293). -/
def crossCol (v : Matrix (Fin 3) (Fin 3) ℂ) (j : Fin 3) : Fin 3 → ℝ := (fun i => (v i j).im) ⨯₃ fun i => (v i j).re

open Classical in
/-- the sign convention of reflection axes (_point_group.py:276). -/
def orient (a : Fin 3 → ℝ) : Except Err (Fin 3 → ℝ) :=
  match (List.finRange 3).filter fun i => decide (¬ close (a i) 0) with
  | [] => .error .indexError
  | i :: _ => .ok fun k => a k * (SignType.sign (a i) : ℝ)

open Classical in
/-- angle and axis of a rotation which is not the identity (_point_group.py:244-259). -/
def rotData (eig : Eig 3) (W : Matrix (Fin 3) (Fin 3) ℝ) (t : Fin 3 → ℝ) : Except Err (ℝ × (Fin 3 → ℝ)) :=
  let r := eig W
  if close W.trace (-1) then (oneColumn (columnsAt r.1 1)).map fun j : Fin 3 => (Real.pi, reCol r.2 j)
  else (oneColumn (columnsPos r.1)).map fun j : Fin 3 =>
    (if vzero t then Complex.arg (r.1 j j) else Complex.arg (r.1 j j) * (SignType.sign (crossCol r.2 j ⬝ᵥ t) : ℝ), crossCol r.2 j)

open Classical in
/-- the name of a proper symmetry of space (_point_group.py:237-266). -/
def proper3 (eig : Eig 3) (W : Matrix (Fin 3) (Fin 3) ℝ) (t : Fin 3 → ℝ) (o : Option (Fin 3 → Num)) : Except Err Name3 :=
  if mclose W 1 then (if vzero t then .ok .id else .ok (.translation (toRationalVector t)))
  else (rotData eig W t).map fun r : ℝ × (Fin 3 → ℝ) =>
    if vzero t then .rot (degrees r.1) (toIntVector r.2) o else .screw (degrees r.1) (toRationalVector t) o

open Classical in
/-- the name of an improper symmetry of space (_point_group.py:268-292). -/
def improper3 (eig : Eig 3) (W : Matrix (Fin 3) (Fin 3) ℝ) (t : Fin 3 → ℝ) (o : Option (Fin 3 → Num)) : Except Err Name3 :=
  let r := eig W
  if mclose W (-1) then .ok (.inv o)
  else if close W.trace 1 then
    ((oneColumn (columnsAt r.1 (-1))).bind fun j : Fin 3 => orient (reCol r.2 j)).map fun a : Fin 3 → ℝ =>
      if vzero t then .refl (toIntVector a) o else .glide (toRationalVector t) (toIntVector a) o
  else (oneColumn (columnsPos r.1)).map fun j : Fin 3 => .rotoRefl (degrees (Complex.arg (r.1 j j))) (toIntVector (crossCol r.2 j)) o

open Classical in
/-- `_3D_name` (_point_group.py:226-295). -/
def name3 (eig : Eig 3) (W : Matrix (Fin 3) (Fin 3) ℝ) (w : Option (Fin 3 → ℝ)) : Except Err Name3 :=
  let p := originTransOpt eig W w
  let o := originPart p.1
  if close W.det 1 then proper3 eig W p.2 o
  else if close W.det (-1) then improper3 eig W p.2 o
  else .error .valueError

end

end Verif.GroupNames

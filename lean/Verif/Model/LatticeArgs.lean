import Verif.Model.CommonLattices

/-! Model of the treatment of the arguments of lattices: `netket/graph/lattice.py:333-405`
(`_clean_basis`, `_clean_site_offsets`, `_clean_pbc`) and the argument handling of `netket/graph/common_lattices.py`. -/

namespace Verif.LatArgs
open Verif.Lat
open Verif.Hilbert (Err)

/-- lattice.py:333-343: `_clean_basis`, as far as it depends on the shape of `np.asarray(basis_vectors)`; the result is the
    dimension (282). -/
def cleanBasis : List Nat → Except Err Nat
  | [m, n] => if m ≠ n then .error .valueError else .ok n
  | _ => .error .valueError

/-- the entries of a sequence given as `pbc`: Python booleans or anything else (such as `np.bool_` or integers)
(netket/graph/lattice.py:391-405). -/
inductive PbcItem where
  | bool (b : Bool)
  | other
  deriving DecidableEq

/-- the argument `pbc`: a Python boolean, a `Sequence` (list or tuple), or anything else (an array is no `Sequence`)
(netket/graph/lattice.py:391-405). -/
inductive PbcArg where
  | bool (b : Bool)
  | seq (items : List PbcItem)
  | other
  deriving DecidableEq

/-- lattice.py:398: `all(isinstance(b, bool) for b in pbc)`, with the values. -/
def allBools : List PbcItem → Option (List Bool)
  | [] => some []
  | .bool b :: r => (allBools r).map fun l => b :: l
  | .other :: _ => none

/-- lattice.py:390-405: `_clean_pbc`. -/
def cleanPbc (pbc : PbcArg) (ndim : Nat) : Except Err (List Bool) :=
  match pbc with
  | .bool b => .ok (List.replicate ndim b)
  | .seq items =>
    if items.length ≠ ndim then .error .valueError
    else match allBools items with
      | some l => .ok l
      | none => .error .valueError
  | .other => .error .valueError

/-- warnings issued by `_clean_site_offsets` (netket/graph/lattice.py:354-389). -/
inductive Warning where
  | atomsCoord
  | duplicates
  | outside
  deriving DecidableEq

/-- lexicographic order of the rows sorted by `np.unique(..., axis=0)` (lattice.py:369). -/
def lexLt : List Int → List Int → Bool
  | a :: as, b :: bs => if a < b then true else if b < a then false else lexLt as bs
  | [], _ :: _ => true
  | _, [] => false

/-- insertion of a row with its index into the sorted rows; an equal row is kept with its smaller index
(netket/graph/lattice.py:368, `np.unique`). -/
def insertRow (k : List Int) (i : Nat) : List (List Int × Nat) → List (List Int × Nat)
  | [] => [(k, i)]
  | (k', i') :: r =>
    if k = k' then (k', i') :: r
    else if lexLt k k' then (k, i) :: (k', i') :: r
    else (k', i') :: insertRow k i r

/-- lattice.py:369: `np.unique(keys, axis=0, return_index=True)`: the different rows in order, with the index of the first
    occurrence of each. -/
def uniqueRows (keys : List (List Int)) : List (List Int × Nat) :=
  (keys.zipIdx).foldl (fun acc p => insertRow p.1 p.2 acc) []

section
variable {K : Type} [Field K] [LinearOrder K] [FloorRing K]

/-- lattice.py:345-388: `_clean_site_offsets`.  `toFrac` is the multiplication with the inverse of the basis (366).  Returns the
    offsets, their fractional coordinates and the warnings issued. -/
def cleanOffsets (ndim : Nat) (toFrac : List K → List K) (siteOffsets atomsCoord : Option (List (List K))) :
    Except Err (List (List K) × List (List K) × List Warning) :=
  match siteOffsets, atomsCoord with
  | some _, some _ => .error .valueError
  | _, _ =>
    let w1 : List Warning := if atomsCoord.isSome then [.atomsCoord] else []
    let given := if atomsCoord.isSome then atomsCoord else siteOffsets
    let offs := given.getD [List.replicate ndim (0 : K)]
    let fr := offs.map toFrac
    let keys := fr.map fun f => f.map (comparablePeriodic true)
    let u := uniqueRows keys
    let dup := decide (offs.length ≠ u.length)
    let offs' := if dup then u.map fun p => offs.getD p.2 [] else offs
    let fr' := if dup then u.map fun p => fr.getD p.2 [] else fr
    let keys' := if dup then u.map fun p => keys.getD p.2 [] else keys
    let w2 : List Warning := if dup then [.duplicates] else []
    let out := keys'.any fun k => k.any fun x => decide (x < comparable (0 : K)) || decide (comparable (1 : K) < x)
    let w3 : List Warning := if out then [.outside] else []
    .ok (offs', fr', w1 ++ w2 ++ w3)

end

/-- common_lattices.py:93-110: the extent of `Grid` from the arguments `extent` and (deprecated) `length`; the flag says whether the
    `FutureWarning` is issued. -/
def gridExtent (extent length : Option (List Nat)) : Except Err (List Nat × Bool) :=
  match extent, length with
  | none, none => .error .typeError
  | none, some l => .ok (l, true)
  | some _, some _ => .error .typeError
  | some e, none => .ok (e, false)

/-- common_lattices.py:112-121: `Grid(extent, length=…, pbc=…)`. -/
def grid (extent length : Option (List Nat)) (pbc : PbcArg) : Except Err (Lattice × List Bool) :=
  match gridExtent extent length with
  | .error e => .error e
  | .ok (ext, _) =>
    match cleanPbc pbc ext.length with
    | .error e => .error e
    | .ok p =>
      match mkGrid ext p with
      | .error e => .error e
      | .ok L => .ok (L, p)

/-- common_lattices.py:124-144: `Hypercube(length, n_dim, pbc)`. -/
def hypercube (length nDim : Nat) (pbc : PbcArg) : Except Err (Lattice × List Bool) :=
  grid (some (List.replicate nDim length)) none pbc

/-- common_lattices.py:147-165: `Cube`. -/
def cube (length : Nat) (pbc : PbcArg) : Except Err (Lattice × List Bool) := hypercube length 3 pbc
/-- common_lattices.py:168-186: `Square`. -/
def square (length : Nat) (pbc : PbcArg) : Except Err (Lattice × List Bool) := hypercube length 2 pbc
/-- common_lattices.py:189-206: `Chain`. -/
def chain (length : Nat) (pbc : PbcArg) : Except Err (Lattice × List Bool) := hypercube length 1 pbc

end Verif.LatArgs

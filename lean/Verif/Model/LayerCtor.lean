import Verif.Model.Group
import Verif.Model.SymmFFT

/-! Model of the functions that build symmetric layers and networks from a description of the symmetries: `DenseSymm`, `DenseEquivariant`
(netket/nn/symmetric_linear.py) and `GCNN` (netket/models/equivariant.py).

Names of modes are an enumeration; keyword arguments handed on to the layers are left out.  The space group of a lattice for a point group,
the automorphisms of a graph and the irreducible representations of a group are arguments. -/

namespace Verif.LayerCtor
open Verif.Hilbert (Err)
open Verif.Symm
open Finset

/-- the argument `mode`; `unknown` is any other string (symmetric_linear.py:617, 684, equivariant.py:527). -/
inductive Mode
  | auto
  | fft
  | irreps
  | matrix
  | unknown
  deriving DecidableEq

/-- contents of an array or sequence: permutations, a product table, or irreducible representations (symmetric_linear.py:624-627, 703-706). -/
inductive Data
  | perms (rows : List (List Int))
  | table (T : List (List Nat))
  | irreps (ρ : List (Irrep ℂ))

/-- `len(np.asarray(...))` (equivariant.py:632). -/
def Data.length : Data → Nat
  | .perms rows => rows.length
  | .table T => T.length
  | .irreps ρ => ρ.length

/-- the argument `symmetries`, by what the `isinstance` tests distinguish (symmetric_linear.py:646-667, 725-766, equivariant.py:581-618).
    A lattice has an extent, possibly a point group of its own, and a space group for a given (or its own) point group. -/
inductive Arg (γ : Type)
  | lattice (extent : List Nat) (ownPG : Bool) (spaceGroup : Option γ → Except Err (List (List Int))) (autos : List (List Int))
  | graph (autos : List (List Int))
  | group (rows : List (List Int))
  | sequence (d : Data)
  | array (shape : List Nat) (d : Data)
  | hashable (d : Data)
  | other

/-- the layers the functions return (symmetric_linear.py:677-679, 749-766, 778-783); the last one is an exception object returned instead of
    raised (766). -/
inductive Layer
  | symmFFT (d : Data) (shape : List Nat)
  | symmMatrix (d : Data)
  | equivFFT (d : Data) (shape : List Nat)
  | equivMatrix (d : Data)
  | equivIrrep (d : Data)
  | exceptionObject

variable {γ : Type}

/-- symmetric_linear.py:646-667: the array of symmetries, the mode and the shape of the translation group. -/
def symmSource (sym : Arg γ) (pg : Option γ) (mode : Mode) (shape : Option (List Nat)) : Except Err (Data × Mode × Option (List Nat)) :=
  match sym with
  | .lattice extent ownPG spaceGroup autos =>
    if pg.isSome || ownPG then
      match spaceGroup pg with
      | .error e => .error e
      | .ok sg => .ok (.perms sg, if mode = .auto then .fft else mode, some extent)
    else if mode = .fft then .error .valueError
    else .ok (.perms autos, mode, shape)
  | .graph autos => if mode = .fft then .error .valueError else .ok (.perms autos, mode, shape)
  | .group rows => .ok (.perms rows, mode, shape)
  | .sequence d => .ok (d, mode, shape)
  | .array _ d => .ok (d, mode, shape)
  | .hashable _ => .error .valueError
  | .other => .error .valueError

/-- symmetric_linear.py:617-681: `DenseSymm`.  (A `HashableArray` has no `__len__`, so it is neither of the accepted kinds, 660-667.) -/
def denseSymm (sym : Arg γ) (pg : Option γ) (mode : Mode) (shape : Option (List Nat)) : Except Err Layer :=
  match symmSource sym pg mode shape with
  | .error e => .error e
  | .ok (d, mode, shape) =>
    match mode with
    | .fft =>
      match shape with
      | none => .error .typeError
      | some s => .ok (.symmFFT d s)
    | .matrix => .ok (.symmMatrix d)
    | .auto => .ok (.symmMatrix d)
    | _ => .error .valueError

/-- symmetric_linear.py:768-778: mode "fft" once the group is known. -/
def equivFFTOf (rows : List (List Int)) (shape : Option (List Nat)) : Except Err Layer :=
  match shape with
  | none => .error .typeError
  | some s =>
    match Grp.productTable rows with
    | .error e => .error e
    | .ok T => .ok (.equivFFT (.table T) s)

/-- symmetric_linear.py:743-787 for a `PermutationGroup`. -/
def equivOfGroup (irrepMatrices : List (List Int) → Except Err (List (Irrep ℂ))) (rows : List (List Int)) (mode : Mode)
    (shape : Option (List Nat)) : Except Err Layer :=
  match mode with
  | .fft => equivFFTOf rows shape
  | .auto =>
    match irrepMatrices rows with
    | .error e => .error e
    | .ok ρ => .ok (.equivIrrep (.irreps ρ))
  | .irreps =>
    match irrepMatrices rows with
    | .error e => .error e
    | .ok ρ => .ok (.equivIrrep (.irreps ρ))
  | .matrix =>
    match Grp.productTable rows with
    | .error e => .error e
    | .ok T => .ok (.equivMatrix (.table T))
  | .unknown => .error .valueError

/-- symmetric_linear.py:725-731, 768-787 for a lattice whose space group is known: `irrep_matrices` and `product_table` are looked up on
    the lattice itself (780, 783), which has no such attributes. -/
def equivOfLattice (rows : List (List Int)) (mode : Mode) (extent : List Nat) : Except Err Layer :=
  match mode with
  | .auto => equivFFTOf rows (some extent)
  | .fft => equivFFTOf rows (some extent)
  | .irreps => .error .attributeError
  | .matrix => .error .attributeError
  | .unknown => .error .valueError

/-- symmetric_linear.py:753-766 for an array. -/
def equivOfArray (dims : List Nat) (d : Data) (mode : Mode) (shape : Option (List Nat)) : Except Err Layer :=
  match dims with
  | [a, b] =>
    if a = b then
      match mode with
      | .irreps => .error .valueError
      | .matrix => .ok (.equivMatrix d)
      | _ =>
        match shape with
        | none => .error .typeError
        | some s => .ok (.equivFFT d s)
    else .ok .exceptionObject
  | _ => .ok .exceptionObject

/-- symmetric_linear.py:684-787: `DenseEquivariant`.  For a graph (or a lattice without point group) line 733 uses a name that is not
    defined; a `HashableArray` has no attribute `ndim` (754). -/
def denseEquivariant (irrepMatrices : List (List Int) → Except Err (List (Irrep ℂ))) (sym : Arg γ) (mode : Mode) (shape : Option (List Nat))
    (pg : Option γ) : Except Err Layer :=
  match sym with
  | .lattice extent ownPG spaceGroup _ =>
    if pg.isSome || ownPG then
      match spaceGroup pg with
      | .error e => .error e
      | .ok sg => equivOfLattice sg mode extent
    else .error .nameError
  | .graph _ => .error .nameError
  | .group rows => equivOfGroup irrepMatrices rows mode shape
  | .sequence d => if mode = .irreps ∨ mode = .auto then .ok (.equivIrrep d) else .error .valueError
  | .array dims d => equivOfArray dims d mode shape
  | .hashable _ => .error .attributeError
  | .other => .error .attributeError

/-! ## GCNN -/

/-- the argument `features` (equivariant.py:529, 628-629). -/
inductive Features
  | none
  | int (n : Nat)
  | tuple (l : List Nat)

/-- the argument `characters` (equivariant.py:530, 631-632). -/
inductive Chars
  | none
  | list (l : List ℂ)
  | ndarray (l : List ℂ)
  | hashable (l : List ℂ)

/-- arguments of `GCNN` (equivariant.py:522-534). -/
structure GCNNArgs (γ : Type) where
  symmetries : Arg γ
  productTable : Option (List (List Nat)) := none
  irreps : Option (List (Irrep ℂ)) := none
  pointGroup : Option γ := none
  mode : Mode := .auto
  shape : Option (List Nat) := none
  layers : Option Nat := none
  features : Features := .none
  characters : Chars := .none
  parity : Option Int := none

/-- how the group convolutions are done (equivariant.py:634-682). -/
inductive Conv
  | fft (T : List (List Nat)) (shape : List Nat)
  | irrep (ρ : List (Irrep ℂ))

/-- the arguments handed to the network (equivariant.py:639-682): `symmetries`, the convolutions, `layers`, `features`, `characters`,
    and `parity` for the variants with parity. -/
structure GCNNModel where
  symmetries : Data
  conv : Conv
  layers : Option Nat
  features : Option (List Nat)
  characters : List ℂ
  parity : Option Int

/-- what the tests of equivariant.py:581-618 leave: the symmetries, whether they are a `PermutationGroup` (and so have `product_table` and
    `irrep_matrices`), the mode, the shape, and which of `irreps`, `product_table` were given. -/
structure Source where
  data : Data
  isGroup : Option (List (List Int))
  mode : Mode
  shape : Option (List Nat)

/-- contents of an argument that is none of lattice, graph or group (equivariant.py:607-618: `sg = symmetries`). -/
def Arg.contents : Arg γ → Option Data
  | .sequence d => some d
  | .array _ d => some d
  | .hashable d => some d
  | _ => none

/-- equivariant.py:606-618, with `irreps` or `product_table` given for an array of symmetries. -/
def gcnnArray (a : GCNNArgs γ) : Except Err Source :=
  if a.irreps.isSome ∧ (a.mode = .irreps ∨ a.mode = .auto) then
    match a.symmetries.contents with
    | none => .error .typeError
    | some d => .ok ⟨d, none, .irreps, a.shape⟩
  else if a.productTable.isSome ∧ (a.mode = .fft ∨ a.mode = .auto) then
    match a.symmetries.contents with
    | none => .error .typeError
    | some d => .ok ⟨d, none, .fft, a.shape⟩
  else .error .valueError

/-- equivariant.py:581-618.  For a graph line 591 uses a name that is not defined.  (Without any contents the TypeError comes from `len`
    of a number in line 632; for "fft" without shape it would come earlier, from line 622.) -/
def gcnnSource (a : GCNNArgs γ) : Except Err Source :=
  match a.symmetries with
  | .lattice extent ownPG spaceGroup _ =>
    if a.pointGroup.isSome || ownPG then
      match spaceGroup a.pointGroup with
      | .error e => .error e
      | .ok sg => .ok ⟨.perms sg, some sg, if a.mode = .auto then .fft else a.mode, some extent⟩
    else .error .nameError
  | .graph _ => .error .nameError
  | .group rows => .ok ⟨.perms rows, some rows, if a.mode = .auto then .irreps else a.mode, a.shape⟩
  | _ => gcnnArray a

/-- equivariant.py:628-629: a number of features is repeated for each layer; `(features,) * None` is a TypeError. -/
def gcnnFeatures (f : Features) (layers : Option Nat) : Except Err (Option (List Nat)) :=
  match f with
  | .none => .ok none
  | .tuple l => .ok (some l)
  | .int n =>
    match layers with
    | none => .error .typeError
    | some k => .ok (some (List.replicate k n))

open Classical in
/-- equivariant.py:631-632: `if not characters`: the truth value of an array with several entries is a ValueError; a `HashableArray` is
    always true. -/
noncomputable def gcnnChars (c : Chars) (n : Nat) : Except Err (List ℂ) :=
  match c with
  | .none => .ok (List.replicate n 1)
  | .list [] => .ok (List.replicate n 1)
  | .list l => .ok l
  | .ndarray [] => .ok (List.replicate n 1)
  | .ndarray [z] => .ok (if z = 0 then List.replicate n 1 else [z])
  | .ndarray _ => .error .valueError
  | .hashable l => .ok l

/-- equivariant.py:639-641, 660-665: the convolutions, from the arguments or from the group; an array of symmetries without them has no
    attribute `product_table` or `irrep_matrices`. -/
def gcnnConv (irrepMatrices : List (List Int) → Except Err (List (Irrep ℂ))) (a : GCNNArgs γ) (s : Source) : Except Err Conv :=
  match s.mode with
  | .fft =>
    match s.shape with
    | none => .error .typeError
    | some shape =>
      match a.productTable, s.isGroup with
      | some T, _ => .ok (.fft T shape)
      | none, some rows =>
        match Grp.productTable rows with
        | .error e => .error e
        | .ok T => .ok (.fft T shape)
      | none, none => .error .attributeError
  | .irreps =>
    match a.irreps, s.isGroup with
    | some ρ, _ => .ok (.irrep ρ)
    | none, some rows =>
      match irrepMatrices rows with
      | .error e => .error e
      | .ok ρ => .ok (.irrep ρ)
    | none, none => .error .attributeError
  | _ => .error .valueError

/-- equivariant.py:522-686: `GCNN`.  `if parity` takes 0 for no parity. -/
noncomputable def gcnn (irrepMatrices : List (List Int) → Except Err (List (Irrep ℂ))) (a : GCNNArgs γ) : Except Err GCNNModel :=
  match gcnnSource a with
  | .error e => .error e
  | .ok s =>
    if s.mode = .fft ∧ s.shape = none then .error .typeError
    else
      match gcnnFeatures a.features a.layers with
      | .error e => .error e
      | .ok feats =>
        match gcnnChars a.characters s.data.length with
        | .error e => .error e
        | .ok chars =>
          match gcnnConv irrepMatrices a s with
          | .error e => .error e
          | .ok conv => .ok ⟨s.data, conv, a.layers, feats, chars, if a.parity = some 0 then none else a.parity⟩

/-! ## What the layers and the network compute -/

/-- the array of permutations as natural numbers (symmetric_linear.py:86-88). -/
def readRows (rows : List (List Int)) : Nat → Nat → Nat := fun g i => ((rows.getD g []).getD i 0).toNat

/-- `DenseSymmFFT` and `DenseSymmMatrix` (symmetric_linear.py:64-255) on `n` sites, for a kernel given as (site, feature): entry (`f`, `q`). -/
noncomputable def symmApply (n F : Nat) (L : Layer) (bias : Option (Nat → ℂ)) (w : Nat → Nat → ℂ) (x : Nat → ℂ) (f q : Nat) : ℂ :=
  match L with
  | .symmFFT (.perms rows) shape =>
    denseSymmFFT shape (rows.length / shape.prod) (n / shape.prod) (readRows rows) bias (fun f k => w k f) x f q
  | .symmMatrix (.perms rows) => Symm.denseSymm n rows.length F (readRows rows) none bias w x f q
  | _ => 0

/-- `DenseEquivariantFFT`, `DenseEquivariantMatrix`, `DenseEquivariantIrrep` (symmetric_linear.py:258-614) for a group of order `m`, for a
    kernel given as (out, in, element): entry (`o`, `q`). -/
noncomputable def equivApply (m inF : Nat) (L : Layer) (bias : Option (Nat → ℂ)) (w : Nat → Nat → Nat → ℂ) (x : FMap ℂ) (o q : Nat) : ℂ :=
  match L with
  | .equivFFT (.table T) shape => denseEquivFFT shape inF (T.length / shape.prod) (Grp.entry T) bias w x o q
  | .equivMatrix (.table T) => denseEquivMatrix inF T.length (Grp.entry T) none bias w x (o * T.length + q)
  | .equivIrrep (.irreps ρ) => denseEquivIrrep inF m ρ none bias (fun i o g => w o i g) x o q
  | _ => 0

/-- the layers of a network (equivariant.py:92-118, 205-228): `DenseSymmFFT` and `DenseEquivariantFFT`, or `DenseSymmMatrix` and
    `DenseEquivariantIrrep`. -/
def GCNNModel.firstLayer (M : GCNNModel) : Layer :=
  match M.conv with
  | .fft _ shape => .symmFFT M.symmetries shape
  | .irrep _ => .symmMatrix M.symmetries

/-- see `GCNNModel.firstLayer` (equivariant.py:105-118, 216-228). -/
def GCNNModel.convLayer (M : GCNNModel) : Layer :=
  match M.conv with
  | .fft T shape => .equivFFT (.table T) shape
  | .irrep ρ => .equivIrrep (.irreps ρ)

/-- equivariant.py:120-138, 230-248: the amplitude (the exponential of the returned number, without `equal_amplitudes`) for the parameters
    `w0`, `b0` of the first layer and `w l`, `b l` of convolution number `l`; models with parity are those of C122. -/
noncomputable def GCNNModel.amplitude (M : GCNNModel) (n : Nat) (act outAct exp : ℂ → ℂ) (b0 : Option (Nat → ℂ)) (w0 : Nat → Nat → ℂ)
    (b : Nat → Option (Nat → ℂ)) (w : Nat → Nat → Nat → Nat → ℂ) (x : Nat → ℂ) : ℂ :=
  let feats := M.features.getD []
  let k := M.layers.getD 0 - 1
  let m := M.symmetries.length
  gcnnAmplitude exp (feats.getD k 0) m (fun g => M.characters.getD g 0)
    (gcnnHidden act outAct (symmApply n (feats.getD 0 0) M.firstLayer b0 w0 x)
      ((List.range k).map fun l => equivApply m (feats.getD l 0) M.convLayer (b l) (w l)))

end Verif.LayerCtor

import Verif.Model.DenseGeneral

/-! Model of `Conv` and `ConvTranspose` (`netket/nn/linear.py`) with the functions of `jax.lax` they call: `conv_general_dilated` and
`conv_transpose`, for channels-last arrays and any number of spatial dimensions.  Numbers are exact; dtypes and initializers are not modelled here
(`Model/DenseGeneral.lean` has them for the dense layers); a list given as `kernel_size` is a tuple by the time of the call (flax). -/

namespace Verif.Conv
open Verif.Hilbert (Err)
open Verif.Linear (Tensor tuples)

variable {R : Type} [CommRing R]

/-- one spatial dimension of a convolution: input and kernel length, stride, dilations of the kernel and the input, padding before and after
    (linear.py:283-293). -/
structure Dim where
  n : Nat
  k : Nat
  stride : Nat
  rhsDil : Nat
  lhsDil : Nat
  lo : Int
  hi : Int

/-- length of the dilated kernel (`lax.conv_general_dilated`, linear.py:283-293). -/
def effective (k dil : Nat) : Nat := if k = 0 then 0 else (k - 1) * dil + 1

/-- `lax.conv_shape_tuple` (linear.py:283-293): length of the output along one dimension. -/
def Dim.outLen (D : Dim) : Nat :=
  let room : Int := (effective D.n D.lhsDil : Int) + D.lo + D.hi - effective D.k D.rhsDil
  if room < 0 then 0 else (room / D.stride).toNat + 1

/-- the entry of the input read for output position `x` and kernel position `k`; `none` in the padding and between dilated entries
    (linear.py:283-293). -/
def Dim.read (D : Dim) (x k : Nat) : Option Nat :=
  let z : Int := (x * D.stride + k * D.rhsDil : Nat) - D.lo
  if 0 ≤ z ∧ z % D.lhsDil = 0 ∧ z / D.lhsDil < D.n then some (z / D.lhsDil).toNat else none

/-- the same in all dimensions (linear.py:283-293). -/
def readAll : List Dim → List Nat → List Nat → Option (List Nat)
  | D :: Ds, x :: xs, k :: ks =>
    match D.read x k, readAll Ds xs ks with
    | some j, some js => some (j :: js)
    | _, _ => none
  | _, _, _ => some []

/-- `lax.conv_general_dilated` (linear.py:283-293) for inputs `(batch, spatial..., features)` and kernels `(spatial..., in, out)`. -/
def convGeneral (Ds : List Dim) (groups features : Nat) (x kernel : Tensor R) : Tensor R where
  shape := x.shape.headD 0 :: Ds.map Dim.outLen ++ [features]
  at_ := fun idx =>
    let b := idx.headD 0
    let xs := (idx.drop 1).take Ds.length
    let o := idx.getLastD 0
    let per := x.shape.getLastD 0 / groups
    ((tuples (Ds.map Dim.k)).map fun ks =>
      match readAll Ds xs ks with
      | none => 0
      | some js => ((List.range per).map fun (c : Nat) => x.at_ (b :: js ++ [o / (features / groups) * per + c]) * kernel.at_ (ks ++ [c, o])).sum).sum

/-- the argument `padding` (linear.py:239, 333). -/
inductive Padding where
  | same
  | valid
  | pairs (p : List (Int × Int))

/-- `lax.padtype_to_pads` (linear.py:287): padding of one dimension for the strings. -/
def samePad (n k stride : Nat) : Int × Int :=
  let out := (n + stride - 1) / stride
  let total : Int := max (((out : Int) - 1) * stride + k - n) 0
  (total / 2, total - total / 2)

/-- the padding of all dimensions for `Conv` (linear.py:287); lengths of `pairs` are checked by `lax`. -/
def convPads (pad : Padding) (spatial ks strides rhsDil : List Nat) : List (Int × Int) :=
  match pad with
  | .pairs p => p
  | .valid => ks.map fun _ => (0, 0)
  | .same => List.zipWith (fun (p : Nat × Nat) (q : Nat × Nat) => samePad p.1 (effective p.2 q.2) q.1) (spatial.zip ks) (strides.zip rhsDil)

/-- `lax._conv_transpose_padding` (linear.py:371-378). -/
def transposePad (k stride : Nat) (same : Bool) : Int × Int :=
  if same then
    let len : Int := (k : Int) + stride - 2
    let a : Int := if stride > k - 1 then (k : Int) - 1 else (len + 1) / 2
    (a, len - a)
  else
    let len : Int := (k : Int) + stride - 2 + (k - stride : Nat)
    ((k : Int) - 1, len - ((k : Int) - 1))

/-- the padding of all dimensions for `ConvTranspose` (linear.py:371-378). -/
def transposePads (pad : Padding) (ks strides rhsDil : List Nat) : List (Int × Int) :=
  match pad with
  | .pairs p => p
  | .valid => List.zipWith (fun (p : Nat × Nat) (s : Nat) => transposePad (effective p.1 p.2) s false) (ks.zip rhsDil) strides
  | .same => List.zipWith (fun (p : Nat × Nat) (s : Nat) => transposePad (effective p.1 p.2) s true) (ks.zip rhsDil) strides

/-- `lax` puts the arguments together, one per spatial dimension (linear.py:283-293). -/
def dims : List Nat → List Nat → List Nat → List Nat → List Nat → List (Int × Int) → List Dim
  | n :: ns, k :: ks, s :: ss, r :: rs, l :: ls, p :: ps => ⟨n, k, s, r, l, p.1, p.2⟩ :: dims ns ks ss rs ls ps
  | _, _, _, _, _, _ => []

/-- the argument `kernel_size` (linear.py:261-264, 354-357). -/
inductive KernelSize where
  | int (k : Nat)
  | tuple (ks : List Nat)

/-- linear.py:261-264, 354-357. -/
def KernelSize.get : KernelSize → List Nat
  | .int k => [k]
  | .tuple ks => ks

/-- linear.py:271, 364: `self.strides or (1,) * (inputs.ndim - 2)`. -/
def orOnes (strides : Option (List Nat)) (d : Nat) : List Nat :=
  match strides with
  | none => List.replicate d 1
  | some [] => List.replicate d 1
  | some (s :: ss) => s :: ss

/-- the fields of `Conv` (linear.py:236-247). -/
structure Cfg where
  features : Nat
  kernelSize : KernelSize
  strides : Option (List Nat)
  padding : Padding
  inputDilation : Option (List Nat)
  kernelDilation : Option (List Nat)
  groups : Nat
  useBias : Bool

/-- the added bias (linear.py:298-301, 382-385): along the last axis. -/
def addBias (useBias : Bool) (bias : Nat → R) (y : Tensor R) : Tensor R :=
  if useBias then ⟨y.shape, fun idx => y.at_ idx + bias (idx.getLastD 0)⟩ else y

/-- `jnp.expand_dims(inputs, axis=0)` (linear.py:269, 362). -/
def expand0 (x : Tensor R) : Tensor R := ⟨1 :: x.shape, fun idx => x.at_ (idx.drop 1)⟩

/-- `jnp.squeeze(y, axis=0)` (linear.py:296, 381). -/
def squeeze0 (y : Tensor R) : Tensor R := ⟨y.shape.drop 1, fun idx => y.at_ (0 :: idx)⟩

/-- linear.py:271-293 for inputs that have a batch axis.  `lax` raises TypeError when the numbers of dimensions do not agree
    or a stride or dilation is zero, and ValueError when
    the features cannot be divided into the groups. -/
def convCore (cfg : Cfg) (ks : List Nat) (x kernel : Tensor R) : Except Err (Tensor R) :=
  let strides := orOnes cfg.strides (x.shape.length - 2)
  match x.shape.getLast? with
  | none => .error .indexError
  | some inFeatures =>
    if cfg.groups = 0 then .error .zeroDivision
    else if inFeatures % cfg.groups ≠ 0 then .error .assertionError
    else
      let spatial := (x.shape.drop 1).dropLast
      let rd := cfg.kernelDilation.getD (ks.map fun _ => 1)
      let ld := cfg.inputDilation.getD (ks.map fun _ => 1)
      let pads := convPads cfg.padding spatial ks strides rd
      if x.shape.length ≠ ks.length + 2 ∨ strides.length ≠ ks.length ∨ rd.length ≠ ks.length ∨ ld.length ≠ ks.length ∨ pads.length ≠ ks.length
        ∨ 0 ∈ strides ∨ 0 ∈ rd ∨ 0 ∈ ld
      then .error .typeError
      else if cfg.features % cfg.groups ≠ 0 then .error .valueError
      else .ok (convGeneral (dims spatial ks strides rd ld pads) cfg.groups cfg.features x kernel)

/-- linear.py:249-302: `Conv.__call__`. -/
def conv (cfg : Cfg) (x kernel : Tensor R) (bias : Nat → R) : Except Err (Tensor R) :=
  let ks := cfg.kernelSize.get
  if x.shape.length = ks.length + 1 then
    match convCore cfg ks (expand0 x) kernel with
    | .error e => .error e
    | .ok y => .ok (addBias cfg.useBias bias (squeeze0 y))
  else
    match convCore cfg ks x kernel with
    | .error e => .error e
    | .ok y => .ok (addBias cfg.useBias bias y)

/-- linear.py:364-378: `lax.conv_transpose` is a convolution with stride one of the dilated input; it has layouts for at most three spatial
    dimensions. -/
def transposeCore (cfg : Cfg) (ks : List Nat) (x kernel : Tensor R) : Except Err (Tensor R) :=
  let strides := orOnes cfg.strides (x.shape.length - 2)
  match x.shape.getLast? with
  | none => .error .indexError
  | some _ =>
    if 5 < x.shape.length then .error .valueError
    else
      let spatial := (x.shape.drop 1).dropLast
      let rd := cfg.kernelDilation.getD (ks.map fun _ => 1)
      let pads := transposePads cfg.padding ks strides rd
      if x.shape.length ≠ ks.length + 2 ∨ strides.length ≠ ks.length ∨ rd.length ≠ ks.length ∨ pads.length ≠ ks.length
        ∨ 0 ∈ strides ∨ 0 ∈ rd
      then .error .typeError
      else .ok (convGeneral (dims spatial ks (ks.map fun _ => 1) rd strides pads) 1 cfg.features x kernel)

/-- linear.py:341-386: `ConvTranspose.__call__` (it has no fields for groups and input dilation). -/
def convTranspose (cfg : Cfg) (x kernel : Tensor R) (bias : Nat → R) : Except Err (Tensor R) :=
  let ks := cfg.kernelSize.get
  if x.shape.length = ks.length + 1 then
    match transposeCore cfg ks (expand0 x) kernel with
    | .error e => .error e
    | .ok y => .ok (addBias cfg.useBias bias (squeeze0 y))
  else
    match transposeCore cfg ks x kernel with
    | .error e => .error e
    | .ok y => .ok (addBias cfg.useBias bias y)

end Verif.Conv

import Verif.Model.DiscreteHilbert
import Mathlib.Algebra.BigOperators.Group.Finset.Basic
import Mathlib.Algebra.BigOperators.Ring.Finset
import Mathlib.Algebra.Star.Basic
import Mathlib.Algebra.Field.Basic

/-! Symmetrised layers: netket/nn/symmetric_linear.py, netket/models/rbm.py (RBMSymm), netket/models/equivariant.py (GCNN).

Arrays are functions of natural-number indices, read at in-range indices only; sizes are separate arguments.  Arithmetic is that of a
commutative ring (field where the code divides), not floating point.  One element of the batch is modelled. -/

namespace Verif.Symm
open Verif.Hilbert (Err)
open Finset

/-! ## DenseSymmMatrix (symmetric_linear.py:37-149) -/

/-- symmetric_linear.py:37-61: `_symmetrizer_col`: the position in the flattened reduced kernel used at position `ij` of the
    flattened full kernel. -/
def symmetrizerCol (perms : Nat → Nat → Nat) (nSymm features ij : Nat) : Nat :=
  let nHidden := features * nSymm
  let i := ij / nHidden
  let j := ij % nHidden
  let k := perms (j % nSymm) i
  let l := j / nSymm
  k * features + l

/-- symmetric_linear.py:128-129: the reduced kernel (n_sites × features), multiplied by the mask if there is one. -/
def maskKernel {K : Type} [Mul K] (mask : Option (Nat → K)) (w : Nat → Nat → K) : Nat → Nat → K :=
  match mask with
  | none => w
  | some m => fun k l => w k l * m k

/-- row-major flattening of an array with rows of length `cols` (`kernel.reshape(-1)`, symmetric_linear.py:95). -/
def flatten2 {α : Type} (cols : Nat) (w : Nat → Nat → α) : Nat → α := fun q => w (q / cols) (q % cols)

/-- symmetric_linear.py:90-97: `full_kernel`, still flattened. -/
def fullKernel {K : Type} (perms : Nat → Nat → Nat) (nSymm features : Nat) (w : Nat → Nat → K) : Nat → K :=
  fun ij => flatten2 features w (symmetrizerCol perms nSymm features ij)

/-- optional bias of a layer (symmetric_linear.py:144-147, 606-609). -/
def addBias {K : Type} [Add K] (bias : Option (Nat → K)) (f : Nat) (v : K) : K :=
  match bias with
  | none => v
  | some b => v + b f

/-- symmetric_linear.py:106-149: `DenseSymmMatrix.__call__`, entry (`f`, `g`) of the output: the full kernel reshaped to
    (n_sites, features, n_symm) (131) contracted with the input (134-139). -/
def denseSymm {K : Type} [CommRing K] (nSites nSymm features : Nat) (perms : Nat → Nat → Nat) (mask bias : Option (Nat → K))
    (w : Nat → Nat → K) (x : Nat → K) (f g : Nat) : K :=
  addBias bias f (∑ i ∈ range nSites, x i * fullKernel perms nSymm features (maskKernel mask w) ((i * features + f) * nSymm + g))

/-! ## RBMSymm (rbm.py:194-255) -/

/-- rbm.py:221-229: `setup`: number of features for alpha = `aNum / aDen`; ValueError if a positive alpha gives none. -/
def rbmFeatures (aNum aDen nSites nSymm : Nat) : Except Err Nat :=
  let features := aNum * nSites / (aDen * nSymm)
  if 0 < aNum ∧ features = 0 then .error .valueError else .ok features

/-- rbm.py:231-255: `__call__` for a given number of features. -/
def rbmSymm {K : Type} [CommRing K] (act : K → K) (nSites nSymm features : Nat) (perms : Nat → Nat → Nat)
    (hiddenBias : Option (Nat → K)) (visibleBias : Option K) (w : Nat → Nat → K) (x : Nat → K) : K :=
  let h := denseSymm nSites nSymm features perms none hiddenBias w x
  let s := ∑ q ∈ range (features * nSymm), act (flatten2 nSymm h q)
  match visibleBias with
  | none => s
  | some v => s + v * ∑ i ∈ range nSites, x i

/-! ## DenseEquivariantMatrix (symmetric_linear.py:516-614) -/

/-- symmetric_linear.py:598-599: kernel (out × in × n_symm) times the mask of the group axis. -/
def maskKernel3 {K : Type} [Mul K] (mask : Option (Nat → K)) (w : Nat → Nat → Nat → K) : Nat → Nat → Nat → K :=
  match mask with
  | none => w
  | some m => fun o i g => w o i g * m g

/-- symmetric_linear.py:550-566: `full_kernel`: entry (row, col) of the (n_symm·in) × (out·n_symm) matrix.  `take` along axis 2 with the
    ravelled table, reshape to (out, in, n_symm, n_symm), transpose (1, 2, 0, 3), reshape. -/
def fullKernelEq {K : Type} (pt : Nat → Nat → Nat) (nSymm : Nat) (w : Nat → Nat → Nat → K) (row col : Nat) : K :=
  w (col / nSymm) (row / nSymm) (flatten2 nSymm pt ((row % nSymm) * nSymm + col % nSymm))

/-- symmetric_linear.py:574-614: `__call__`: entry `col` of the output, which has shape [batch, out·n_symm]; the input
    [batch, in, n_symm] is flattened (584). -/
def denseEquivMatrix {K : Type} [CommRing K] (inF nSymm : Nat) (pt : Nat → Nat → Nat) (mask bias : Option (Nat → K))
    (w : Nat → Nat → Nat → K) (x : Nat → Nat → K) (col : Nat) : K :=
  addBias bias (col / nSymm)
    (∑ row ∈ range (inF * nSymm), flatten2 nSymm x row * fullKernelEq pt nSymm (maskKernel3 mask w) row col)

/-! ## DenseEquivariantIrrep (symmetric_linear.py:356-513) -/

/-- symmetric_linear.py:420-430: the loop grouping consecutive irreps of equal dimension: (count, d) for each group. -/
def groupShapes (sizes : List Nat) : List (Nat × Nat) :=
  let r := sizes.foldl (fun (s : List (Nat × Nat) × Nat × Nat) d =>
    if s.2.2 = d then (s.1, s.2.1 + 1, s.2.2) else (s.1 ++ [(s.2.1, s.2.2)], 1, d)) ([], 0, 1)
  r.1 ++ [(r.2.1, r.2.2)]

/-- an irrep: dimension and matrices of the group elements (symmetric_linear.py:372-379). -/
structure Irrep (K : Type) where
  dim : Nat
  mat : Nat → Nat → Nat → K

/-- symmetric_linear.py:401-404, 438-449: `forward_ft` of a function on the group, block of one irrep. -/
def forwardFT {K : Type} [CommRing K] (nSymm : Nat) (r : Irrep K) (f : Nat → K) (a b : Nat) : K := ∑ g ∈ range nSymm, f g * r.mat g a b

/-- symmetric_linear.py:405-412, 451-466: `inverse_ft`: a sum over irreps and matrix entries with weight d/n_symm and conjugate matrices. -/
def inverseFT {K : Type} [Field K] [StarRing K] (nSymm : Nat) (irreps : List (Irrep K)) (y : Nat → Nat → Nat → K) (g : Nat) : K :=
  (irreps.zipIdx.map fun ri => ∑ a ∈ range ri.1.dim, ∑ b ∈ range ri.1.dim,
    y ri.2 a b * (star (ri.1.mat g a b) * ((ri.1.dim : K) / (nSymm : K)))).sum

/-- symmetric_linear.py:468-513: `__call__` entry (`o`, `g`): `dot_general` contracts the input features and the inner matrix index
    irrep by irrep (492-500).  The kernel has shape (in, out, n_symm).  (Grouping the irreps by dimension, 416-436, is only a layout.)
    The cast to a real number at the end (510-513) is not modelled. -/
def denseEquivIrrep {K : Type} [Field K] [StarRing K] (inF nSymm : Nat) (irreps : List (Irrep K)) (mask bias : Option (Nat → K))
    (w : Nat → Nat → Nat → K) (x : Nat → Nat → K) (o g : Nat) : K :=
  addBias bias o (inverseFT nSymm irreps (fun ρ a b =>
    match irreps[ρ]? with
    | none => 0
    | some r => ∑ j ∈ range inF, ∑ c ∈ range r.dim,
        forwardFT nSymm r (fun h => x j h) a c * forwardFT nSymm r (fun h => maskKernel3 mask w j o h) c b) g)

/-! ## GCNN (equivariant.py) -/

/-- a feature map: feature × group element (netket/nn/symmetric_linear.py:194-242). -/
abbrev FMap (K : Type) := Nat → Nat → K

/-- equivariant.py:117-133 (and 229-246): first layer, then (activation, group convolution) for each further layer, then the output activation; `layers` are
    the group convolutions. -/
def gcnnHidden {K : Type} (act outAct : K → K) (first : FMap K) (layers : List (FMap K → FMap K)) : FMap K :=
  let y := layers.foldl (fun x layer => layer fun f g => act (x f g)) first
  fun f g => outAct (y f g)

/-- equivariant.py:128-130: the exponential of `logsumexp(x, axis=(-2,-1), b=characters)`: sum over features and group elements. -/
def gcnnAmplitude {K : Type} [CommRing K] (exp : K → K) (features nSymm : Nat) (chars : Nat → K) (y : FMap K) : K :=
  ∑ f ∈ range features, ∑ g ∈ range nSymm, chars g * exp (y f g)

/-- numpy broadcasting of two shapes (used by `logsumexp(x, b=...)`, equivariant.py:128-130, 366, 511): aligned at the end,
    lengths equal or one of them 1. -/
def broadcastRev : List Nat → List Nat → Except Err (List Nat)
  | [], ys => .ok ys
  | x :: xs, [] => .ok (x :: xs)
  | x :: xs, y :: ys =>
    if x = y ∨ x = 1 ∨ y = 1 then
      match broadcastRev xs ys with
      | .error e => .error e
      | .ok r => .ok ((if x = 1 then y else x) :: r)
    else .error .valueError

/-- broadcasting of shapes given in the usual order
(netket/models/equivariant.py:128-130, 366, 511). -/
def broadcast (xs ys : List Nat) : Except Err (List Nat) :=
  match broadcastRev xs.reverse ys.reverse with
  | .error e => .error e
  | .ok r => .ok r.reverse

/-- shape of the argument of the final `logsumexp` in the plain models (equivariant.py:128-130): feature map [batch, features, n_symm]
    against characters [1, 1, n_symm]. -/
def gcnnOutShape (batch features nSymm : Nat) : Except Err (List Nat) := broadcast [batch, features, nSymm] [1, 1, nSymm]

/-- shape of the argument of the final `logsumexp` in the parity models (equivariant.py:349-366, 494-511): the two feature maps are
    concatenated along axis -2 (349), the two character arrays along their only axis (354-364). -/
def parityOutShape (batch features nSymm : Nat) : Except Err (List Nat) :=
  broadcast [batch, features + features, nSymm] [1, 1, nSymm + nSymm]

/-- the exponential of the parity models' final `logsumexp` after broadcasting (equivariant.py:349-366, 494-511): the index of an axis
    of length 1 is always 0.  `y` and `yFlip` are the two feature maps, `sign` is 1 for parity 1 and -1 otherwise. -/
def parityAmplitude {K : Type} [CommRing K] (exp : K → K) (features nSymm : Nat) (chars : Nat → K) (sign : K) (y yFlip : FMap K) :
    Except Err K :=
  match parityOutShape 1 features nSymm with
  | .error e => .error e
  | .ok _ =>
    .ok (∑ f ∈ range (features + features), ∑ g ∈ range (nSymm + nSymm),
      (if g < nSymm then chars g else sign * chars (g - nSymm))
        * exp (if f < features then y f (if nSymm = 1 then 0 else g) else yFlip (f - features) (if nSymm = 1 then 0 else g)))

end Verif.Symm

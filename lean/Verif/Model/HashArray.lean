import Mathlib.Data.Rat.Defs
import Mathlib.Data.List.Basic

/-!
`HashableArray` (netket/utils/array.py:21-55) and `HashablePartial` (netket/jax/utils.py:269-302).
-/

namespace Verif.HashArray

/-- dtypes: integers of a number of bytes, and 64 bit floats (numpy dtypes of `wrapped`,
netket/utils/array.py:31). -/
inductive DType where
  /-- little-endian integers of `bytes` bytes -/
  | int (bytes : Nat)
  /-- float64 -/
  | float
  deriving DecidableEq

/-- an entry: a number, with the sign of a floating point zero, or NaN (netket/utils/array.py:31). -/
inductive Elt where
  /-- a number different from zero, or an integer -/
  | num (v : ℚ)
  /-- floating point zero with a sign -/
  | zero (neg : Bool)
  /-- not a number -/
  | nan
  deriving DecidableEq

/-- arrays (netket/utils/array.py:31). -/
structure Arr where
  /-- dtype -/
  dtype : DType
  /-- shape -/
  shape : List Nat
  /-- entries, row-major -/
  data : List Elt
  deriving DecidableEq

/-- numerical value of an entry (operands of `==`, netket/utils/array.py:46). -/
def Elt.value : Elt → Option ℚ
  | .num v => some v
  | .zero _ => some 0
  | .nan => none

/-- elementwise `==` of numpy: numerical, across dtypes; NaN differs from everything
(netket/utils/array.py:46). -/
def Elt.eqb (a b : Elt) : Bool :=
  match a.value, b.value with
  | some x, some y => decide (x = y)
  | _, _ => false

/-- `np.all(self.wrapped == other.wrapped)` for arrays of the same shape; for shapes that cannot be
broadcast the comparison is False; of the broadcasts only that of a single entry is modelled
(netket/utils/array.py:45-46). -/
def Arr.eqb (a b : Arr) : Bool :=
  if a.shape = b.shape then (a.data.zip b.data).all fun p => p.1.eqb p.2
  else if a.data.length = 1 then b.data.all fun y => a.data.all fun x => x.eqb y
  else if b.data.length = 1 then a.data.all fun x => b.data.all fun y => x.eqb y
  else false

/-- little-endian two's complement representation of an integer (`tobytes` of integer arrays,
netket/utils/array.py:43). -/
def intBytes (k : Nat) (v : Int) : List Nat := (List.range k).map fun i => (v / 256 ^ i % 256).toNat

/-- bytes of an entry; `enc` is the encoding of floats (netket/utils/array.py:43). -/
def Elt.bytes (enc : Elt → List Nat) : DType → Elt → List Nat
  | .int k, .num v => intBytes k v.num
  | .int k, _ => intBytes k 0
  | .float, e => enc e

/-- `wrapped.tobytes()` (netket/utils/array.py:43); the shape and the dtype are not part of it. -/
def Arr.tobytes (enc : Elt → List Nat) (a : Arr) : List Nat := a.data.flatMap (Elt.bytes enc a.dtype)

/-- `__hash__` (netket/utils/array.py:42-43) for a hash function of bytes. -/
def Arr.hash {H : Type} (hashBytes : List Nat → H) (enc : Elt → List Nat) (a : Arr) : H := hashBytes (a.tobytes enc)

/-- a python function: code object and closure (cell contents, defaults) (netket/jax/utils.py:284). -/
structure Func (Code Env : Type) where
  /-- `func.__code__` -/
  code : Code
  /-- `func.__closure__`, `func.__defaults__` -/
  env : Env

/-- `HashablePartial(func, *args, **keywords)` (netket/jax/utils.py:269-279). -/
structure Partial (Code Env V : Type) where
  /-- the function -/
  func : Func Code Env
  /-- positional arguments -/
  args : List V
  /-- keyword arguments, in order of insertion -/
  kw : List (Nat × V)

variable {Code Env V : Type}

/-- equality of dictionaries: same items, whatever the order (`self.keywords == other.keywords`,
netket/jax/utils.py:286). -/
def dictEq [DecidableEq V] (a b : List (Nat × V)) : Bool :=
  a.length == b.length && a.all fun p => b.contains p

/-- `HashablePartial.__eq__` (netket/jax/utils.py:281-287). -/
def Partial.eqb [DecidableEq Code] [DecidableEq V] (p q : Partial Code Env V) : Bool :=
  decide (p.func.code = q.func.code) && decide (p.args = q.args) && dictEq p.kw q.kw

/-- what is hashed: code, arguments, set of keyword items (netket/jax/utils.py:289-295). -/
def Partial.hashKey (p : Partial Code Env V) : Code × List V × (Nat × V → Prop) :=
  (p.func.code, p.args, fun x => x ∈ p.kw)

end Verif.HashArray

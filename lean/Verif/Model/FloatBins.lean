import Verif.Model.Lattice

/-! Model of netket/utils/float.py.  Numbers are elements of an ordered field; `np.isclose(a, b, rtol=0, atol=t)` is `|a - b| ≤ t`. -/

namespace Verif.Bins
open Verif.Lat (rint)
variable {K : Type} [Field K] [LinearOrder K] [FloorRing K]

/-- float.py:22-47: `comparable(x, bin_density=D, offset=off)` of one number. -/
def comparable (D : Int) (off : K) (x : K) : Int := rint (x * (D : K) + off)

/-- float.py:50-84: `comparable_periodic(x, where, bin_density=D, offset=off)` of one number; `%` of NumPy has the sign of the
    divisor, and the result is as of `Int.emod` for `D > 0`. -/
def comparablePeriodic (D : Int) (off : K) (p : Bool) (x : K) : Int :=
  if p then comparable D off x % D else comparable D off x

/-- float.py:105-110: `is_approx_int(x, atol)` of one number. -/
def isApproxInt (atol : K) (x : K) : Bool := decide (|x - (rint x : K)| ≤ atol)

/-- float.py:87-90: `_prune_zeros(x, atol)` of a real array: the contents of `x` afterwards, which is also the return value. -/
def pruneReal (atol : K) (x : List K) : List K := x.map fun v => if |v| ≤ atol then 0 else v

/-- the default tolerance of `_prune_zeros` (float.py:87). -/
def defaultAtol : K := 1 / 100000000

/-- the array returned by `prune_zeros`: real, or complex (pairs of parts)
(netket/utils/float.py:93-102). -/
inductive Pruned (K : Type) where
  | real (x : List K)
  | cplx (x : List (K × K))

/-- float.py:93-102: `prune_zeros(x, atol)` of a real array (102, where `atol` is not passed on): contents of the argument afterwards
    and return value. -/
def pruneZerosReal (_atol : K) (x : List K) : List K × Pruned K :=
  let y := pruneReal defaultAtol x
  (y, .real y)

/-- float.py:93-100: `prune_zeros(x, atol)` of a complex array: contents of the argument afterwards and return value.  `x.real` and
    `x.imag` are views, so that the assignments of 89 change `x`. -/
def pruneZerosComplex (atol : K) (x : List (K × K)) : List (K × K) × Pruned K :=
  let re := pruneReal defaultAtol (x.map Prod.fst)
  if x.all fun z => decide (|z.2| ≤ atol) then (re.zip (x.map Prod.snd), .real re)
  else
    let im := pruneReal defaultAtol (x.map Prod.snd)
    (re.zip im, .cplx (re.zip im))

end Verif.Bins

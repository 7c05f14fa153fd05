import Verif.Model.DiscreteHilbert
import Mathlib.Analysis.SpecialFunctions.Log.Base
import Mathlib.Data.Nat.Log
import Mathlib.Data.Complex.Basic
import Mathlib.Algebra.Order.Round

/-! Model of the text of a `Stats` object: `_format_decimal` and `Stats.__repr__` of netket/stats/mc_stats.py:34-49, 84-90, which are the same in
netket/legacy/stats/mc_stats.py:10-23, 54-60.

Floats are real numbers, infinities or NaN; `log10` is exact, the sign of zero is not modelled. `"{:.nf}".format` and `"{:.3e}".format` are Python's: the exact
value rounded to the number of digits, ties to even. Texts are lists of characters. -/

namespace Verif.StatsRepr

/-- a float (mc_stats.py:35). -/
inductive Fl
  | nan
  | inf (neg : Bool)
  | fin (x : ℝ)

/-- the number itself or one with an imaginary part (mc_stats.py:60). -/
inductive Num
  | real (x : Fl)
  | cplx (re im : Fl)

/-- Python: rounding to an integer, ties to even, of a number that is not negative (mc_stats.py:38). -/
noncomputable def rnd (x : ℝ) : Nat :=
  if x - (⌊x⌋₊ : ℝ) < 1 / 2 then ⌊x⌋₊
  else if 1 / 2 < x - (⌊x⌋₊ : ℝ) then ⌊x⌋₊ + 1
  else if ⌊x⌋₊ % 2 = 0 then ⌊x⌋₊ else ⌊x⌋₊ + 1

/-- Python: the character of a digit (mc_stats.py:38). -/
def digitChar (d : Nat) : Char := Char.ofNat (48 + d)

/-- Python: the last `k` digits of `n` (mc_stats.py:38). -/
def pad : Nat → Nat → List Char
  | 0, _ => []
  | k + 1, n => pad k (n / 10) ++ [digitChar (n % 10)]

/-- Python: the digits of `n` (mc_stats.py:38). -/
def whole (n : Nat) : List Char := pad (Nat.log 10 n + 1) n

/-- Python: the sign of a formatted number (mc_stats.py:38). -/
noncomputable def sign (x : ℝ) : List Char := if x < 0 then ['-'] else []

/-- Python: `"{:.df}".format(x)` for `d > 0` (mc_stats.py:38-40, 87). -/
noncomputable def fixed (d : Nat) (x : ℝ) : List Char :=
  let n := rnd (|x| * 10 ^ d)
  sign x ++ whole (n / 10 ^ d) ++ '.' :: pad d n

/-- Python: the four digits and the exponent of `"{:.3e}".format(x)` (mc_stats.py:44-46). -/
noncomputable def sciParts (x : ℝ) : Nat × Int :=
  if x = 0 then (0, 0)
  else
    let e := ⌊Real.logb 10 |x|⌋
    let m := rnd (|x| * 10 ^ (3 - e))
    if m = 10000 then (1000, e + 1) else (m, e)

/-- Python: the exponent, with a sign and at least two digits (mc_stats.py:44). -/
def expText (e : Int) : List Char :=
  'e' :: (if e < 0 then '-' else '+') :: if e.natAbs < 10 then '0' :: whole e.natAbs else whole e.natAbs

/-- Python: `"{:.3e}".format(x)` (mc_stats.py:44-46). -/
noncomputable def sci (x : ℝ) : List Char :=
  sign x ++ whole ((sciParts x).1 / 1000) ++ '.' :: pad 3 (sciParts x).1 ++ expText (sciParts x).2

/-- Python: formatting with infinities and NaN (mc_stats.py:38, 44). -/
def fmtFl (f : ℝ → List Char) : Fl → List Char
  | .nan => "nan".toList
  | .inf true => "-inf".toList
  | .inf false => "inf".toList
  | .fin x => f x

/-- Python: the imaginary part is written with its sign, plus too (mc_stats.py:38, 44). -/
def withSign (t : List Char) : List Char :=
  match t with
  | '-' :: _ => t
  | _ => '+' :: t

/-- Python: formatting a real or complex number (mc_stats.py:38, 44). -/
def fmtNum (f : ℝ → List Char) : Num → List Char
  | .real x => fmtFl f x
  | .cplx re im => fmtFl f re ++ withSign (fmtFl f im) ++ ['j']

/-- `decimals` (mc_stats.py:36). -/
noncomputable def decimals (std : ℝ) : Nat := (max ⌈-Real.logb 10 std⌉ 0).toNat

/-- mc_stats.py:34-47 `_format_decimal(value, std, var)`. -/
noncomputable def formatDecimal (value : Num) (std var : Fl) : List Char × List Char × List Char :=
  match std with
  | .fin s =>
    if s > 1 / 10 ^ 7 then
      let d := decimals s + 1
      (fmtNum (fixed d) value, fixed d s, fmtFl (fixed d) var)
    else (fmtNum sci value, sci s, fmtFl sci var)
  | s => (fmtNum sci value, fmtFl sci s, fmtFl sci var)

/-- the attributes (mc_stats.py:60-65) that are written. -/
structure Stats where
  /-- `mean` -/
  mean : Num
  /-- `error_of_mean` -/
  err : Fl
  /-- `variance` -/
  var : Fl
  /-- `R_hat` -/
  rhat : Fl

/-- mc_stats.py:86-89. -/
noncomputable def ext : Fl → List Char
  | .nan => []
  | r => ", R̂=".toList ++ fmtFl (fixed 4) r

/-- mc_stats.py:84-90 `Stats.__repr__`. -/
noncomputable def repr (s : Stats) : List Char :=
  let t := formatDecimal s.mean s.err s.var
  t.1 ++ " ± ".toList ++ t.2.1 ++ " [σ²=".toList ++ t.2.2 ++ ext s.rhat ++ "]".toList

end Verif.StatsRepr

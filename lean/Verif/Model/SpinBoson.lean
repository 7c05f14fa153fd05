import Mathlib.Analysis.SpecialFunctions.Sqrt
import Mathlib.Analysis.Complex.Basic
import Mathlib.Algebra.Order.Floor.Ring
import Mathlib.Data.Rat.Floor
import Verif.Model.LocalOperator

/-! Single-site operators: netket/operator/spin.py and netket/operator/boson.py, built on the model of `LocalOperator`.

Numbers are exact: `S` is rational, square roots are real, matrix elements complex; the `dtype` argument is not modelled. Local quantum
numbers are integers (those of `Spin` and `Fock` are). -/

namespace Verif.SpinBoson
open Verif.LocalOp Verif.Hilbert

/-- `np.arange(start, stop, step)` (spin.py:38, 62, 84, 107, 130; boson.py:43, 67, 91, 122). -/
def arange (start stop step : ℚ) : List ℚ :=
  (List.range ⌈(stop - start) / step⌉.toNat).map fun i : Nat => start + i * step

/-- `np.diag(D, k)` (spin.py:39, 63, 85, 108, 131; boson.py:44, 68, 92, 124). -/
def npDiag (D : List ℂ) (k : ℤ) : Mat ℂ :=
  ⟨D.length + k.natAbs, fun i j => if (j : ℤ) - i = k then D.getD (min i j) 0 else 0⟩

/-- sum of two matrices of the same shape (spin.py:39, 63). -/
def plus (a b : Mat ℂ) : Mat ℂ := ⟨a.n, fun i j => a.f i j + b.f i j⟩

/-- `np.sqrt` (spin.py:38, 62, 107, 130; boson.py:43, 67). -/
noncomputable def root (q : ℚ) : ℂ := (Real.sqrt (q : ℝ) : ℂ)

/-- `S = (N - 1) / 2` (spin.py:36, 60, 82, 104, 127). -/
def spinOf (N : Nat) : ℚ := ((N : ℚ) - 1) / 2

/-- spin.py:21-40: matrix of `sigmax`. -/
noncomputable def sigmaxMat (N : Nat) : Mat ℂ :=
  let S := spinOf N
  let D := (arange 1 N 1).map fun a => root ((S + 1) * 2 * a - a * (a + 1))
  plus (npDiag D 1) (npDiag D (-1))

/-- spin.py:43-64: matrix of `sigmay`. -/
noncomputable def sigmayMat (N : Nat) : Mat ℂ :=
  let S := spinOf N
  let D := (arange 1 N 1).map fun a => Complex.I * root ((S + 1) * 2 * a - a * (a + 1))
  plus (npDiag D (-1)) (npDiag (D.map fun d => -d) 1)

/-- spin.py:67-86: matrix of `sigmaz`. -/
def sigmazMat (N : Nat) : Mat ℂ :=
  let S := spinOf N
  npDiag ((arange S (-(S + 1)) (-1)).map fun m => ((2 * m : ℚ) : ℂ)) 0

/-- spin.py:89-109: matrix of `sigmam`. -/
noncomputable def sigmamMat (N : Nat) : Mat ℂ :=
  let S := spinOf N
  let S2 := (S + 1) * S
  npDiag ((arange S (-S) (-1)).map fun m => root (S2 - m * (m - 1))) (-1)

/-- spin.py:112-132: matrix of `sigmap`. -/
noncomputable def sigmapMat (N : Nat) : Mat ℂ :=
  let S := spinOf N
  let S2 := (S + 1) * S
  npDiag ((arange (S - 1) (-(S + 1)) (-1)).map fun m => root (S2 - m * (m + 1))) 1

/-- boson.py:22-45: matrix of `destroy`. -/
noncomputable def destroyMat (N : Nat) : Mat ℂ := npDiag ((arange 1 N 1).map root) 1

/-- boson.py:48-69: matrix of `create`. -/
noncomputable def createMat (N : Nat) : Mat ℂ := npDiag ((arange 1 N 1).map root) (-1)

/-- boson.py:72-93: matrix of `number`. -/
def numberMat (N : Nat) : Mat ℂ := npDiag ((arange 0 N 1).map fun m : ℚ => (m : ℂ)) 0

/-- boson.py:96-125: matrix of `proj`: `n >= N` is a ValueError, `D[n] = 1` accepts indices from the end. -/
def projMat (N : Nat) (n : ℤ) : Except Err (Mat ℂ) :=
  if n ≥ N then .error .valueError
  else if 0 ≤ n then .ok (npDiag ((List.replicate N 0).set n.toNat 1) 0)
  else if 0 ≤ n + N then .ok (npDiag ((List.replicate N 0).set (n + N).toNat 1) 0)
  else .error .indexError

/-- `LocalOperator(hilbert, mat, [site])` (spin.py:40, 64, 86, 109, 132; boson.py:45, 69, 93, 125); `mat` gets `size_at_index(site)`. -/
noncomputable def onSite {n : Nat} (cut : Cutoff ℂ) (hi : Fin n → List ℤ) (mat : Nat → Mat ℂ) (site : Fin n) : Except Err (LOp ℂ ℤ n) :=
  mk cut hi 0 [(mat (hi site).length, [site])]

/-- hilbert/spin.py:87-95: local states of `Spin(s)` with `twoS = 2 s`. -/
def spinStates (twoS : Nat) : List ℤ := (List.range (twoS + 1)).map fun i : Nat => -(twoS : ℤ) + 2 * i

/-- hilbert/spin.py:54-56: `_sum_constraint`: the sum of the quantum numbers is `round(2 total_sz)`. -/
def sumConstraint {n : Nat} (twoSz : ℤ) (x : Fin n → ℤ) : Bool := ∑ s, x s = twoSz

/-- hilbert/fock.py:90-92: local states of `Fock(n_max)`. -/
def fockStates (nMax : Nat) : List ℤ := (List.range (nMax + 1)).map fun i : Nat => (i : ℤ)

end Verif.SpinBoson

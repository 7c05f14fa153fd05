import Mathlib.Algebra.BigOperators.Group.Finset.Basic
import Mathlib.Analysis.Complex.Basic
import Verif.Model.DiscreteHilbert

/-! The quantum geometric tensor: netket/optimizer/qgt.

The ansatz enters through its derivatives at the samples: `J.re s k` and `J.im s k` are the derivatives of log ψ(σ_s) with respect to the
real and the imaginary part of parameter `k`; for a real parameter `J.im s k = 0`, and vectors are real there. A function that is
holomorphic in parameter `k` has `J.im s k = i J.re s k`. Simplified: exact numbers; parameters are ravelled; one MPI rank; real arrays are
complex arrays with zero imaginary part. JAX's vector-Jacobian product for complex inputs pairs by `Re(w · J v)` (see C67). -/

namespace Verif.QGT
open Verif.Hilbert (Err)
open Finset

/-- derivatives at the samples, with respect to real and imaginary parts of the parameters
(netket/optimizer/qgt/qgt_jacobian_dense_logic.py:113-157). -/
structure Jac where
  re : Nat → Nat → ℂ
  im : Nat → Nat → ℂ

/-- netket/stats/mpi_stats.py:20-37: `subtract_mean` along the samples. -/
noncomputable def center (ns : Nat) (w : Nat → ℂ) (s : Nat) : ℂ := w s - (∑ t ∈ range ns, w t) / ns

/-! ## On the fly -/

/-- qgt_onthefly_logic.py:28-32: `O_jvp`. -/
noncomputable def jvp (np : Nat) (J : Jac) (v : Nat → ℂ) (s : Nat) : ℂ :=
  ∑ k ∈ range np, (J.re s k * ((v k).re : ℂ) + J.im s k * ((v k).im : ℂ))

/-- qgt_onthefly_logic.py:35-38: `O_vjp`. -/
noncomputable def vjp (ns : Nat) (J : Jac) (w : Nat → ℂ) (k : Nat) : ℂ :=
  (((∑ s ∈ range ns, w s * J.re s k).re : ℝ) : ℂ) - Complex.I * (((∑ s ∈ range ns, w s * J.im s k).re : ℝ) : ℂ)

/-- qgt_onthefly_logic.py:41-51: `OH_w`. -/
noncomputable def ohw (ns : Nat) (J : Jac) (w : Nat → ℂ) (k : Nat) : ℂ := star (vjp ns J (fun s => star (w s)) k)

/-- qgt_onthefly_logic.py:54-72: `Odagger_O_v` with `center=True`. -/
noncomputable def odaggerDeltaO (ns np : Nat) (J : Jac) (v : Nat → ℂ) (k : Nat) : ℂ :=
  ohw ns J (center ns fun s => jvp np J v s * (1 / (ns : ℂ))) k

/-- qgt_onthefly_logic.py:79-98: `mat_vec`. -/
noncomputable def matVec (ns np : Nat) (J : Jac) (shift : ℝ) (v : Nat → ℂ) (k : Nat) : ℂ :=
  shift * v k + odaggerDeltaO ns np J v k

/-- row `i` of the identity (netket/optimizer/qgt/qgt_onthefly.py:176-184). -/
noncomputable def unit (i k : Nat) : ℂ := if i = k then 1 else 0

/-- qgt_onthefly.py:175-190: `to_dense`: rows are the images of the rows of the identity; transposed if the result is complex. -/
noncomputable def toDenseOTF (complexOut : Bool) (ns np : Nat) (J : Jac) (shift : ℝ) (k l : Nat) : ℂ :=
  if complexOut then matVec ns np J shift (unit l) k else matVec ns np J shift (unit k) l

/-! ## Precomputed Jacobian -/

/-- the differentiation modes (qgt_jacobian_dense.py:113-121). -/
inductive Mode
  | real
  | complex
  | holomorphic
  deriving DecidableEq

/-- qgt_jacobian_common.py:24-93: the mode chosen by default. -/
def chooseMode (holomorphic : Option Bool) (complexOutput : Bool) : Mode :=
  if holomorphic = some true then .holomorphic
  else if complexOutput then .complex
  else .real

/-- qgt_jacobian_dense_logic.py:268-277: derivatives with respect to the parameters split to real: all real parts, then all imaginary parts. -/
def splitJac (np : Nat) (J : Jac) (s k : Nat) : ℂ := if k < np then J.re s k else J.im s (k - np)

/-- qgt_jacobian_dense_logic.py:284-287: the mean subtracted, divided by the root of the number of samples. -/
noncomputable def centered (ns : Nat) (A : Nat → Nat → ℂ) (s k : Nat) : ℂ := center ns (fun t => A t k) s / ((Real.sqrt ns : ℝ) : ℂ)

/-- qgt_jacobian_dense_logic.py:128-173, 184-187, 252-260, 284-289, mode "complex": the pullbacks of 1 and -i are real and imaginary
    part; they are stacked sample by sample. -/
noncomputable def oksComplex (ns np : Nat) (J : Jac) (r k : Nat) : ℂ :=
  centered ns (fun s k => (((if r % 2 = 0 then (splitJac np J s k).re else (-Complex.I * splitJac np J s k).re) : ℝ) : ℂ)) (r / 2) k

/-- qgt_jacobian_dense_logic.py:113-127, 249-251, 284-289, mode "real". -/
noncomputable def oksReal (ns np : Nat) (J : Jac) (r k : Nat) : ℂ :=
  centered ns (fun s k => (((splitJac np J s k).re : ℝ) : ℂ)) r k

/-- qgt_jacobian_dense_logic.py:113-127, 261-263, 284-289, mode "holomorphic": one pullback, without splitting. -/
noncomputable def oksHolo (ns : Nat) (J : Jac) (r k : Nat) : ℂ :=
  centered ns (fun s k => (((J.re s k).re : ℝ) : ℂ) - Complex.I * (((J.im s k).re : ℝ) : ℂ)) r k

/-- qgt_jacobian_dense.py:170-173: the product with `rows` × `K` gradients. -/
noncomputable def core (rows K : Nat) (O : Nat → Nat → ℂ) (shift : ℝ) (v : Nat → ℂ) (k : Nat) : ℂ :=
  star (∑ r ∈ range rows, star (∑ l ∈ range K, O r l * v l) * O r k) + shift * v k

/-- qgt_jacobian_dense.py:167-176: with the scale. -/
noncomputable def scaledCore (rows K : Nat) (O : Nat → Nat → ℂ) (scale : Option (Nat → ℝ)) (shift : ℝ) (v : Nat → ℂ) (k : Nat) : ℂ :=
  match scale with
  | none => core rows K O shift v k
  | some c => core rows K O shift (fun l => v l * c l) k * c k

/-- qgt_jacobian_dense_logic.py:79-105: `vec_to_real` of a complex vector. -/
noncomputable def vecToReal (np : Nat) (v : Nat → ℂ) (k : Nat) : ℂ := (((if k < np then (v k).re else (v (k - np)).im) : ℝ) : ℂ)

/-- qgt_jacobian_dense_logic.py:96-101: its inverse. -/
noncomputable def reassemble (np : Nat) (x : Nat → ℂ) (k : Nat) : ℂ := x k + Complex.I * x (np + k)

/-- number of rows of the stored gradients
(netket/optimizer/qgt/qgt_jacobian_dense_logic.py:208-290). -/
def nRows (mode : Mode) (ns : Nat) : Nat := match mode with | .complex => ns * 2 | _ => ns

/-- qgt_jacobian_dense_logic.py:207-293: `prepare_centered_oks` (without rescaling). -/
noncomputable def oks (mode : Mode) (ns np : Nat) (J : Jac) : Nat → Nat → ℂ :=
  match mode with
  | .real => oksReal ns np J
  | .complex => oksComplex ns np J
  | .holomorphic => oksHolo ns J

/-- qgt_jacobian_dense.py:153-184: `__matmul__`; `cplx` tells that all parameters and the vector are complex (otherwise all are real). -/
noncomputable def matmul (mode : Mode) (cplx : Bool) (ns np : Nat) (J : Jac) (scale : Option (Nat → ℝ)) (O : Nat → Nat → ℂ) (shift : ℝ)
    (v : Nat → ℂ) : Nat → ℂ :=
  if mode ≠ .holomorphic ∧ cplx then
    reassemble np (scaledCore (nRows mode ns) (np + np) O scale shift (vecToReal np v))
  else scaledCore (nRows mode ns) np O scale shift v

/-- qgt_jacobian_dense.py:221-230: `to_dense` from `rows` × K gradients. -/
noncomputable def toDense (rows : Nat) (O : Nat → Nat → ℂ) (scale : Option (Nat → ℝ)) (shift : ℝ) (k l : Nat) : ℂ :=
  match scale with
  | none => (∑ r ∈ range rows, star (O r k) * O r l) + shift * (if k = l then 1 else 0)
  | some c => (∑ r ∈ range rows, star (O r k * c k) * (O r l * c l)) + shift * (if k = l then ((c k : ℂ)) ^ 2 else 0)

/-- qgt_jacobian_dense_logic.py:196-201: the norms of the columns. -/
noncomputable def scaleOf (rows : Nat) (O : Nat → Nat → ℂ) (k : Nat) : ℝ := Real.sqrt (∑ r ∈ range rows, (O r k * star (O r k)).re)

/-- qgt_jacobian_dense_logic.py:202: the divided gradients; `none` is NaN, zero divided by zero. -/
noncomputable def rescaled (rows : Nat) (O : Nat → Nat → ℂ) (r k : Nat) : Option ℂ :=
  open Classical in if scaleOf rows O k = 0 then none else some (O r k / ((scaleOf rows O k : ℝ) : ℂ))

/-- qgt_jacobian_dense.py:187-218: `_solve` on split vectors, for a solver given as a function of the operator and the right-hand side. -/
noncomputable def solve (rows K : Nat) (O : Nat → Nat → ℂ) (scale : Option (Nat → ℝ)) (shift : ℝ)
    (solver : ((Nat → ℂ) → Nat → ℂ) → (Nat → ℂ) → Nat → ℂ) (y : Nat → ℂ) (k : Nat) : ℂ :=
  match scale with
  | none => solver (core rows K O shift) y k
  | some c => solver (core rows K O shift) (fun l => y l / c l) k / c k

/-! ## Jacobian as a tree -/

/-- derivative with respect to the real or the imaginary part of a parameter (qgt_jacobian_pytree_logic.py:246-252). -/
def pyDeriv (J : Jac) (part : Bool) (s k : Nat) : ℂ := if part then J.im s k else J.re s k

/-- qgt_jacobian_pytree_logic.py:183-267: `prepare_centered_oks` in the split modes: entry of row `r` for parameter `k`, real or imaginary
    part; in mode "complex" the imaginary parts are stacked below the real parts (121-132). -/
noncomputable def pyOks (mode : Mode) (ns : Nat) (J : Jac) (r k : Nat) (part : Bool) : ℂ :=
  match mode with
  | .complex =>
    if r < ns then centered ns (fun s k => (((pyDeriv J part s k).re : ℝ) : ℂ)) r k
    else centered ns (fun s k => (((-Complex.I * pyDeriv J part s k).re : ℝ) : ℂ)) (r - ns) k
  | .real => centered ns (fun s k => (((pyDeriv J part s k).re : ℝ) : ℂ)) r k
  | .holomorphic => oksHolo ns J r k

/-- number of rows (qgt_jacobian_pytree_logic.py:121-132). -/
def pyRows (mode : Mode) (ns : Nat) : Nat := match mode with | .complex => ns + ns | _ => ns

/-- qgt_jacobian_pytree_logic.py:153-158: `_jvp` on a split vector: imaginary parts exist for complex parameters only. -/
noncomputable def pyJvp (np : Nat) (cplx : Nat → Bool) (O : Nat → Nat → Bool → ℂ) (v : Nat → ℂ) (r : Nat) : ℂ :=
  ∑ k ∈ range np, (O r k false * ((v k).re : ℂ) + if cplx k then O r k true * ((v k).im : ℂ) else 0)

/-- qgt_jacobian_pytree_logic.py:161-174, 270-285: `mat_vec` on a split vector. -/
noncomputable def pyMatVec (rows np : Nat) (cplx : Nat → Bool) (O : Nat → Nat → Bool → ℂ) (shift : ℝ) (v : Nat → ℂ) (k : Nat) (part : Bool) :
    ℂ :=
  star (∑ r ∈ range rows, star (pyJvp np cplx O v r) * O r k part) + shift * (((if part then (v k).im else (v k).re) : ℝ) : ℂ)

/-- qgt_jacobian_pytree.py:166-199: `_matmul` without scale; `cplx k` tells that parameter `k` is complex. -/
noncomputable def pyMatmul (mode : Mode) (ns np : Nat) (cplx : Nat → Bool) (J : Jac) (shift : ℝ) (v : Nat → ℂ) (k : Nat) : ℂ :=
  match mode with
  | .holomorphic => core ns np (oksHolo ns J) shift v k
  | _ =>
    let P := pyMatVec (pyRows mode ns) np cplx (pyOks mode ns J) shift v k
    if cplx k then P false + Complex.I * P true else P false

/-! ## Shapes -/

/-- a leaf of the parameters: number of entries, complex or not
(netket/optimizer/qgt/qgt_jacobian_pytree.py:166-199). -/
abbrev Leaf := Nat × Bool

/-- number of parameters (netket/optimizer/qgt/qgt_jacobian_pytree.py:166-199). -/
def sizeOf (ls : List Leaf) : Nat := (ls.map Prod.fst).sum

/-- qgt_jacobian_dense_logic.py:33-53, 268-277: columns of the gradients in the split modes: imaginary parts only for complex leaves. -/
def columns (ls : List Leaf) : Nat := sizeOf ls + ((ls.filter Prod.snd).map Prod.fst).sum

/-- qgt_jacobian_dense.py:158-165, qgt_jacobian_dense_logic.py:92-95: length of the vector after ravelling (which promotes everything to
    complex if one leaf is) and `vec_to_real`. -/
def splitLength (ls : List Leaf) : Nat := if ls.any Prod.snd then 2 * sizeOf ls else sizeOf ls

/-- qgt_jacobian_dense.py:170: the product of gradients and vector, a TypeError if the sizes differ. -/
def matmulShape (ls : List Leaf) : Except Err Nat := if columns ls = splitLength ls then .ok (columns ls) else .error .typeError

/-- qgt_jacobian_dense.py:191-211: what `_solve` passes to an iterative solver: the right-hand side is split, the initial guess only ravelled
    (and scaled); the solver refuses a guess of another size, the scaling cannot be broadcast. -/
def solveShape (mode : Mode) (ls : List Leaf) (guess scaled : Bool) : Except Err Nat :=
  let n := if mode = .holomorphic then sizeOf ls else splitLength ls
  let cols := if mode = .holomorphic then sizeOf ls else columns ls
  if cols ≠ n then .error .typeError
  else if guess = true ∧ sizeOf ls ≠ n then (if scaled then .error .typeError else .error .valueError)
  else .ok n

end Verif.QGT

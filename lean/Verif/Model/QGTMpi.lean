import Verif.Model.QGT

/-! The quantum geometric tensor with several processes: netket/optimizer/qgt and netket/optimizer/solver/solvers.py.

`J q` are the derivatives at the `ns` samples of process `q < R`.  A sum over the communicator is a sum over the processes, so every process gets
the same.  The other simplifications are those of `Model/QGT`. -/

namespace Verif.QGT
open Verif.Hilbert (Err)
open Finset

/-- netket/stats/mpi_stats.py:20-62: `subtract_mean` along the samples, with the mean over the processes of their means. -/
noncomputable def centerMpi (R ns : Nat) (w : Nat → Nat → ℂ) (q s : Nat) : ℂ :=
  w q s - (∑ p ∈ range R, (∑ t ∈ range ns, w p t) / ns) / R

/-! ## On the fly -/

/-- qgt_onthefly_logic.py:35-38: `O_vjp`, summed over the processes. -/
noncomputable def vjpMpi (R ns : Nat) (J : Nat → Jac) (w : Nat → Nat → ℂ) (k : Nat) : ℂ := ∑ q ∈ range R, vjp ns (J q) (w q) k

/-- qgt_onthefly_logic.py:41-51: `OH_w`. -/
noncomputable def ohwMpi (R ns : Nat) (J : Nat → Jac) (w : Nat → Nat → ℂ) (k : Nat) : ℂ := star (vjpMpi R ns J (fun q s => star (w q s)) k)

/-- qgt_onthefly_logic.py:54-98: `Odagger_O_v` with `center=True` and `mat_vec`. -/
noncomputable def matVecMpi (R ns np : Nat) (J : Nat → Jac) (shift : ℝ) (v : Nat → ℂ) (k : Nat) : ℂ :=
  shift * v k + ohwMpi R ns J (centerMpi R ns fun q s => jvp np (J q) v s * (1 / ((ns * R : Nat) : ℂ))) k

/-- qgt_onthefly.py:113-157: `onthefly_mat_treevec` for an array `v` with `ndim` axes and `size` entries: the errors. -/
def checkVec (np ndim size : Nat) : Except Err Unit :=
  if ndim ≠ 1 then .error .valueError else if np ≠ size then .error .valueError else .ok ()

/-! ## Precomputed Jacobian -/

/-- qgt_jacobian_dense_logic.py:284-287, qgt_jacobian_pytree_logic.py:46-50, 103-108: the mean subtracted, divided by the root of the number of
    samples of all processes. -/
noncomputable def centeredMpi (R ns : Nat) (A : Nat → Nat → Nat → ℂ) (q s k : Nat) : ℂ :=
  centerMpi R ns (fun p t => A p t k) q s / ((Real.sqrt (ns * R : Nat) : ℝ) : ℂ)

/-- qgt_jacobian_dense_logic.py:128-173, 184-187, 252-260, 284-289, mode "complex". -/
noncomputable def oksComplexMpi (R ns np : Nat) (J : Nat → Jac) (q r k : Nat) : ℂ :=
  centeredMpi R ns (fun q s k => (((if r % 2 = 0 then (splitJac np (J q) s k).re else (-Complex.I * splitJac np (J q) s k).re) : ℝ) : ℂ)) q (r / 2) k

/-- qgt_jacobian_dense_logic.py:113-127, 249-251, 284-289, mode "real". -/
noncomputable def oksRealMpi (R ns np : Nat) (J : Nat → Jac) (q r k : Nat) : ℂ :=
  centeredMpi R ns (fun q s k => (((splitJac np (J q) s k).re : ℝ) : ℂ)) q r k

/-- qgt_jacobian_dense_logic.py:113-127, 261-263, 284-289, qgt_jacobian_pytree_logic.py:54-68, mode "holomorphic". -/
noncomputable def oksHoloMpi (R ns : Nat) (J : Nat → Jac) (q r k : Nat) : ℂ :=
  centeredMpi R ns (fun q s k => (((J q).re s k).re : ℂ) - Complex.I * (((J q).im s k).re : ℂ)) q r k

/-- qgt_jacobian_dense_logic.py:207-293: `prepare_centered_oks` on process `q`. -/
noncomputable def oksMpi (mode : Mode) (R ns np : Nat) (J : Nat → Jac) : Nat → Nat → Nat → ℂ :=
  match mode with
  | .real => oksRealMpi R ns np J
  | .complex => oksComplexMpi R ns np J
  | .holomorphic => oksHoloMpi R ns J

/-- qgt_jacobian_dense_logic.py:196-201: the norms of the columns, over all processes. -/
noncomputable def scaleMpi (R rows : Nat) (O : Nat → Nat → Nat → ℂ) (k : Nat) : ℝ :=
  Real.sqrt (∑ q ∈ range R, ∑ r ∈ range rows, (O q r k * star (O q r k)).re)

/-- qgt_jacobian_dense_logic.py:202: the divided gradients; `none` is NaN. -/
noncomputable def rescaledMpi (R rows : Nat) (O : Nat → Nat → Nat → ℂ) (q r k : Nat) : Option ℂ :=
  open Classical in if scaleMpi R rows O k = 0 then none else some (O q r k / ((scaleMpi R rows O k : ℝ) : ℂ))

/-- qgt_jacobian_dense.py:170-173: the product, summed over the processes. -/
noncomputable def coreMpi (R rows K : Nat) (O : Nat → Nat → Nat → ℂ) (shift : ℝ) (v : Nat → ℂ) (k : Nat) : ℂ :=
  (∑ q ∈ range R, star (∑ r ∈ range rows, star (∑ l ∈ range K, O q r l * v l) * O q r k)) + shift * v k

/-- qgt_jacobian_dense.py:167-176: with the scale. -/
noncomputable def scaledCoreMpi (R rows K : Nat) (O : Nat → Nat → Nat → ℂ) (scale : Option (Nat → ℝ)) (shift : ℝ) (v : Nat → ℂ) (k : Nat) : ℂ :=
  match scale with
  | none => coreMpi R rows K O shift v k
  | some c => coreMpi R rows K O shift (fun l => v l * c l) k * c k

/-- qgt_jacobian_dense.py:153-184: `__matmul__`. -/
noncomputable def matmulMpi (mode : Mode) (cplx : Bool) (R ns np : Nat) (scale : Option (Nat → ℝ)) (O : Nat → Nat → Nat → ℂ) (shift : ℝ)
    (v : Nat → ℂ) : Nat → ℂ :=
  if mode ≠ .holomorphic ∧ cplx then
    reassemble np (scaledCoreMpi R (nRows mode ns) (np + np) O scale shift (vecToReal np v))
  else scaledCoreMpi R (nRows mode ns) np O scale shift v

/-- qgt_jacobian_dense.py:221-230: `to_dense`. -/
noncomputable def toDenseMpi (R rows : Nat) (O : Nat → Nat → Nat → ℂ) (scale : Option (Nat → ℝ)) (shift : ℝ) (k l : Nat) : ℂ :=
  match scale with
  | none => (∑ q ∈ range R, ∑ r ∈ range rows, star (O q r k) * O q r l) + shift * (if k = l then 1 else 0)
  | some c => (∑ q ∈ range R, ∑ r ∈ range rows, star (O q r k * c k) * (O q r l * c l)) + shift * (if k = l then ((c k : ℂ)) ^ 2 else 0)

/-- solvers.py:21-72: `svd`, `cholesky`, `LU` and `solve`: the matrix of the operator and the ravelled right-hand side go to a routine for dense
    systems. -/
def denseSolve (lin : (Nat → Nat → ℂ) → (Nat → ℂ) → Nat → ℂ) (A : Nat → Nat → ℂ) (y : Nat → ℂ) : Nat → ℂ := lin A y

/-- qgt_jacobian_dense.py:187-218: `_solve` with a dense solver: right-hand side split and divided by the scale, the operator without scale, the
    solution divided by the scale and reassembled. -/
noncomputable def solveDenseMpi (mode : Mode) (cplx : Bool) (R ns np : Nat) (scale : Option (Nat → ℝ)) (O : Nat → Nat → Nat → ℂ) (shift : ℝ)
    (lin : (Nat → Nat → ℂ) → (Nat → ℂ) → Nat → ℂ) (y : Nat → ℂ) : Nat → ℂ :=
  let y' := if mode ≠ .holomorphic ∧ cplx then vecToReal np y else y
  let y2 : Nat → ℂ := match scale with
    | none => y'
    | some c => fun k => y' k / c k
  let x := denseSolve lin (toDenseMpi R (nRows mode ns) O none shift) y2
  let x2 : Nat → ℂ := match scale with
    | none => x
    | some c => fun k => x k / c k
  if mode ≠ .holomorphic ∧ cplx then reassemble np x2 else x2

/-! ## Jacobian as a tree -/

/-- qgt_jacobian_pytree_logic.py:183-267: `prepare_centered_oks` on process `q`, in mode "complex" real parts above imaginary parts (72-96, 121-132). -/
noncomputable def pyOksMpi (mode : Mode) (R ns : Nat) (J : Nat → Jac) (q r k : Nat) (part : Bool) : ℂ :=
  match mode with
  | .complex =>
    if r < ns then centeredMpi R ns (fun q s k => (((pyDeriv (J q) part s k).re : ℝ) : ℂ)) q r k
    else centeredMpi R ns (fun q s k => (((-Complex.I * pyDeriv (J q) part s k).re : ℝ) : ℂ)) q (r - ns) k
  | .real => centeredMpi R ns (fun q s k => (((pyDeriv (J q) part s k).re : ℝ) : ℂ)) q r k
  | .holomorphic => oksHoloMpi R ns J q r k

/-- qgt_jacobian_pytree_logic.py:135-150: `_rescale`: the norms of the columns, over all processes. -/
noncomputable def pyScale (R rows : Nat) (O : Nat → Nat → Nat → Bool → ℂ) (k : Nat) (part : Bool) : ℝ :=
  Real.sqrt (∑ q ∈ range R, ∑ r ∈ range rows, (O q r k part * star (O q r k part)).re)

/-- a vector split to real and imaginary parts (netket/jax/utils.py:236-266: `tree_to_real`). -/
noncomputable def pySplit (v : Nat → ℂ) (k : Nat) (part : Bool) : ℂ := (((if part then (v k).im else (v k).re) : ℝ) : ℂ)

/-- qgt_jacobian_pytree_logic.py:153-174, 270-285: `mat_vec` of a split vector, with the sum over the processes; imaginary parts exist for complex
    parameters only. -/
noncomputable def pyCore (R rows np : Nat) (cplx : Nat → Bool) (O : Nat → Nat → Nat → Bool → ℂ) (shift : ℝ) (u : Nat → Bool → ℂ) (k : Nat)
    (part : Bool) : ℂ :=
  star (∑ q ∈ range R, ∑ r ∈ range rows,
    star (∑ l ∈ range np, (O q r l false * u l false + if cplx l then O q r l true * u l true else 0)) * O q r k part) + shift * u k part

/-- qgt_jacobian_pytree.py:166-199: `_matmul` in the split modes, before reassembling: with the scale. -/
noncomputable def pyScaled (R rows np : Nat) (cplx : Nat → Bool) (O : Nat → Nat → Nat → Bool → ℂ) (scale : Option (Nat → Bool → ℝ)) (shift : ℝ)
    (u : Nat → Bool → ℂ) (k : Nat) (part : Bool) : ℂ :=
  match scale with
  | none => pyCore R rows np cplx O shift u k part
  | some c => pyCore R rows np cplx O shift (fun l p => u l p * c l p) k part * c k part

/-- the entry of parameter `k` after reassembling (netket/jax/utils.py:247-250). -/
noncomputable def pyJoin (cplx : Nat → Bool) (u : Nat → Bool → ℂ) (k : Nat) : ℂ :=
  if cplx k then u k false + Complex.I * u k true else u k false

/-- qgt_jacobian_pytree.py:166-199: `_matmul` in the split modes. -/
noncomputable def pyMatmulMpi (R rows np : Nat) (cplx : Nat → Bool) (O : Nat → Nat → Nat → Bool → ℂ) (scale : Option (Nat → Bool → ℝ)) (shift : ℝ)
    (v : Nat → ℂ) (k : Nat) : ℂ :=
  pyJoin cplx (pyScaled R rows np cplx O scale shift (pySplit v)) k

/-- the entries of the ravelled split tree, leaf by leaf: real parts, then imaginary parts of complex leaves (netket/jax/utils.py:236-246). -/
def treeCols : Nat → List Leaf → List (Nat × Bool)
  | _, [] => []
  | o, (n, c) :: ls =>
    ((List.range n).map fun i => (o + i, false)) ++ (if c then (List.range n).map fun i => (o + i, true) else []) ++ treeCols (o + n) ls

/-- whether parameter `k` belongs to a complex leaf
(netket/optimizer/qgt/qgt_jacobian_pytree.py:166-199). -/
def leafCplx : List Leaf → Nat → Bool
  | [], _ => false
  | (n, c) :: ls, k => if k < n then c else leafCplx ls (k - n)

/-- qgt_jacobian_pytree.py:233-243: `_to_dense`; rows and columns are those of the ravelled tree. -/
noncomputable def pyToDense (R rows : Nat) (cols : List (Nat × Bool)) (O : Nat → Nat → Nat → Bool → ℂ) (scale : Option (Nat → Bool → ℝ)) (shift : ℝ)
    (i j : Nat) : ℂ :=
  let a := cols.getD i (0, false)
  let b := cols.getD j (0, false)
  match scale with
  | none => (∑ q ∈ range R, ∑ r ∈ range rows, star (O q r a.1 a.2) * O q r b.1 b.2) + shift * (if i = j then 1 else 0)
  | some c => (∑ q ∈ range R, ∑ r ∈ range rows, star (O q r a.1 a.2 * c a.1 a.2) * (O q r b.1 b.2 * c b.1 b.2))
      + shift * (if i = j then ((c a.1 a.2 : ℝ) : ℂ) ^ 2 else 0)

/-- the position of an entry in the ravelled tree
(netket/optimizer/qgt/qgt_jacobian_pytree.py:233-243). -/
def colIndex (cols : List (Nat × Bool)) (k : Nat) (part : Bool) : Nat := cols.idxOf (k, part)

/-- qgt_jacobian_pytree.py:202-229: `_solve` in the split modes with a dense solver. -/
noncomputable def pySolveDense (R rows : Nat) (cols : List (Nat × Bool)) (cplx : Nat → Bool) (O : Nat → Nat → Nat → Bool → ℂ)
    (scale : Option (Nat → Bool → ℝ)) (shift : ℝ) (lin : (Nat → Nat → ℂ) → (Nat → ℂ) → Nat → ℂ) (y : Nat → ℂ) (k : Nat) : ℂ :=
  let c : Nat → Bool → ℝ := match scale with
    | none => fun _ _ => 1
    | some c => c
  let b : Nat → ℂ := fun i => pySplit y (cols.getD i (0, false)).1 (cols.getD i (0, false)).2 / c (cols.getD i (0, false)).1 (cols.getD i (0, false)).2
  let x := denseSolve lin (pyToDense R rows cols O none shift) b
  pyJoin cplx (fun k part => x (colIndex cols k part) / c k part) k

/-- qgt_jacobian_pytree.py:202-229: what `_solve` passes to an iterative solver: the right-hand side is split in the split modes, the initial guess is not;
    with a scale the product of an array and a pair (213) is a `TypeError`, without the solver refuses a guess of another structure. -/
def pySolveGuess (mode : Mode) (ls : List Leaf) (guess scaled : Bool) : Except Err Unit :=
  if mode ≠ .holomorphic ∧ guess = true ∧ ls.any Prod.snd = true then (if scaled then .error .typeError else .error .valueError) else .ok ()

end Verif.QGT

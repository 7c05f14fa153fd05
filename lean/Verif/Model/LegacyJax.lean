import Verif.Model.LegacyMachine
import Verif.Model.QGT

/-! The jax machines of `netket/legacy/machine` (jax.py, _jax_utils.py, density_matrix/jax.py) and the stochastic reconfiguration for them
(netket/legacy/optimizer/jax).

Arrays are functions of indices, the sizes being separate arguments. Simplified: exact numbers; one configuration instead of a batch, unless
the batch matters; pytrees are lists of leaves; the functions of jax enter through the derivatives at the samples. -/

namespace Verif.LegacyJax
open Verif.Hilbert (Err)
open Verif.LegacyMachine (sgn)
open Finset

/-! ## Wave functions -/

/-- `logcosh` (jax.py:321-323). -/
noncomputable def logcosh (x : ℂ) : ℂ :=
  let y := x * sgn x.re
  y + Complex.log (1 + Complex.exp (-2 * y)) - Complex.log 2

/-- `stax.Dense` as used at jax.py:332, 505-506. -/
noncomputable def dense (n : Nat) (W : Nat → Nat → ℂ) (b : Nat → ℂ) (x : Nat → ℂ) (j : Nat) : ℂ := ∑ i ∈ range n, x i * W i j + b j

/-- `LogCoshLayer` and `SumLayer` (jax.py:307-326). -/
noncomputable def sumLogCosh (m : Nat) (θ : Nat → ℂ) : ℂ := ∑ j ∈ range m, logcosh (θ j)

/-- `JaxRbm` (jax.py:329-334) with `m = alpha * hilbert.size` hidden units; `JaxRbmSpin` (density_matrix/jax.py:441-446) with twice as many. -/
noncomputable def jaxRbm (n m : Nat) (W : Nat → Nat → ℂ) (b : Nat → ℂ) (x : Nat → ℂ) : ℂ := sumLogCosh m (dense n W b x)

/-- `jaxRbmSpinPhase` (jax.py:501-517): two networks and `FanInSum2ModPhase` (484-498). -/
noncomputable def jaxRbmPhase (n m : Nat) (Wr Wp : Nat → Nat → ℂ) (br bp : Nat → ℂ) (x : Nat → ℂ) : ℂ :=
  1 * jaxRbm n m Wr br x + Complex.I * jaxRbm n m Wp bp x

/-- `apply_fun` of `DenseReal` (jax.py:286-302); `cplx` says that the input is a complex array; the bias is absent with `use_bias=False`. -/
noncomputable def denseReal (cplx : Bool) (n : Nat) (Wr Wi : Nat → Nat → ℝ) (bias : Option ((Nat → ℝ) × (Nat → ℝ))) (x : Nat → ℂ) (j : Nat) : ℂ :=
  let y := if cplx then ∑ i ∈ range n, x i * ((Wr i j : ℂ) + Complex.I * (Wi i j : ℂ))
    else ∑ i ∈ range n, x i * (Wr i j : ℂ) + Complex.I * ∑ i ∈ range n, x i * (Wi i j : ℂ)
  match bias with
  | none => y
  | some (br, bi) => y + (br j : ℂ) + Complex.I * (bi j : ℂ)

/-- `init_fun` of `DenseReal` (jax.py:268-284): the arrays made from the key; `split`, `wInit` and `bInit` are `random.split` and the
    initialisers. -/
def denseRealInit {Key W B : Type} (split : Key → Key × Key) (wInit : Key → W) (bInit : Key → B) (useBias : Bool) (rng : Key) :
    W × W × Option (B × B) :=
  let (k1, k2) := split rng
  (wInit k1, wInit k1, if useBias then some (bInit k2, bInit k2) else none)

/-! ## Matrix product states -/

/-- the differences `roll(local_states, -1)[0:-1] - local_states[0:-1]` (jax.py:381-382). -/
def spacings : List ℚ → List ℚ
  | a :: b :: r => (b - a) :: spacings (b :: r)
  | _ => []

/-- jax.py:380-389: the spacing and the bias of the local states; the maximum of an empty array is a ValueError. -/
def localIndexing (states : List ℚ) : Except Err (ℚ × ℚ) :=
  match spacings states, states with
  | d :: ds, s :: r =>
    if ds.foldl max d = ds.foldl min d then .ok (d, r.foldl min s) else .error .assertionError
  | _, _ => .error .valueError

/-- jax.py:399-410: the period of the unit cell; `%` of python, by zero a ZeroDivisionError. -/
def unitCell (L : Nat) (symperiod : Option Int) : Except Err Nat :=
  match symperiod with
  | none => if L = 0 then .error .zeroDivision else .ok L
  | some p =>
    if p = 0 then .error .zeroDivision
    else if (L : Int) % p = 0 ∧ 0 < p then .ok p.toNat
    else .error .assertionError

/-- `(x - loc_vals_bias) / loc_vals_spacing` and `index.astype(int)` (jax.py:447, 452): truncation towards zero. -/
def toIndex (spacing bias x : ℚ) : Int :=
  let q := (x - bias) / spacing
  if 0 ≤ q then q.floor else -(-q).floor

/-- indexing of a jax array with `d` entries (jax.py:452): negative indices count from the end, others are clamped. -/
def jaxIndex (d : Nat) (i : Int) : Nat :=
  let j := if i < 0 then i + d else i
  if j < 0 then 0 else min j.toNat (d - 1)

/-- jax.py:437-441: diagonal tensors are expanded to matrices. -/
noncomputable def expandDiag (params : Nat → Nat → Nat → ℂ) (i s k l : Nat) : ℂ := params i s k * if k = l then 1 else 0

/-- `jax.numpy.tile(params, (L // symperiod, 1, 1, 1))` (jax.py:444). -/
def tile (p : Nat) (params : Nat → Nat → Nat → Nat → ℂ) (i : Nat) : Nat → Nat → Nat → ℂ := params (i % p)

/-- `einsum("ij,jk->ik", left, right)` (jax.py:471). -/
noncomputable def matMul (D : Nat) (A B : Nat → Nat → ℂ) (i k : Nat) : ℂ := ∑ j ∈ range D, A i j * B j k

/-- `trace_mps` (jax.py:460-475): the scan starts with the identity. -/
noncomputable def traceMps (D : Nat) (tensors : List (Nat → Nat → ℂ)) : ℂ :=
  let edge := tensors.foldl (matMul D) fun i j => if i = j then 1 else 0
  ∑ i ∈ range D, edge i i

/-- `apply_fun` of `mpsPeriodic` (jax.py:436-479), the value of `log_val`; `params` are the (expanded) tensors of the unit cell. -/
noncomputable def mpsLogVal (L p d D : Nat) (spacing bias : ℚ) (params : Nat → Nat → Nat → Nat → ℂ) (x : Nat → ℚ) : ℂ :=
  traceMps D ((List.range L).map fun i => tile p params i (jaxIndex d (toIndex spacing bias (x i))))

/-! ## Density matrices -/

/-- `_dminput` (density_matrix/jax.py:45-50): `hstack((xr, xc))` for arrays with `n` columns each. -/
def dmInput (n : Nat) (xr : Nat → ℝ) (xc : Option (Nat → ℝ)) (i : Nat) : ℝ :=
  match xc with
  | none => xr i
  | some c => if i < n then xr i else c (i - n)

/-- the arrays of `DensePurificationComplex` (density_matrix/jax.py:85-111). -/
structure Purif where
  Wr : Nat → Nat → ℝ
  Wi : Nat → Nat → ℝ
  Vr : Nat → Nat → ℝ
  Vi : Nat → Nat → ℝ
  bias : Option ((Nat → ℝ) × (Nat → ℝ) × (Nat → ℝ))

/-- `thetar` (density_matrix/jax.py:122-127, 149). -/
noncomputable def thetaR (n : Nat) (P : Purif) (xr : Nat → ℝ) (j : Nat) : ℂ :=
  let t := ∑ i ∈ range n, (xr i : ℂ) * ((P.Wr i j : ℂ) + Complex.I * (P.Wi i j : ℂ))
  match P.bias with
  | none => t
  | some (br, bi, _) => t + ((br j : ℂ) + Complex.I * (bi j : ℂ))

/-- `thetac` (density_matrix/jax.py:128-133, 150). -/
noncomputable def thetaC (n : Nat) (P : Purif) (xc : Nat → ℝ) (j : Nat) : ℂ :=
  let t := ∑ i ∈ range n, (xc i : ℂ) * ((P.Wr i j : ℂ) - Complex.I * (P.Wi i j : ℂ))
  match P.bias with
  | none => t
  | some (br, bi, _) => t + ((br j : ℂ) - Complex.I * (bi j : ℂ))

/-- `thetam` (density_matrix/jax.py:135-146, 151). -/
noncomputable def thetaM (n : Nat) (P : Purif) (xr xc : Nat → ℝ) (j : Nat) : ℂ :=
  let t := ∑ i ∈ range n, (xr i : ℂ) * ((P.Vr i j : ℂ) + Complex.I * (P.Vi i j : ℂ))
    + ∑ i ∈ range n, (xc i : ℂ) * ((P.Vr i j : ℂ) - Complex.I * (P.Vi i j : ℂ))
  match P.bias with
  | none => t
  | some (_, _, cr) => t + 2 * (cr j : ℂ)

/-- `hstack((thetar, thetam, thetac))` (density_matrix/jax.py:120, 153). -/
noncomputable def purification (n p q : Nat) (P : Purif) (x : Nat → ℝ) (j : Nat) : ℂ :=
  let xr := x
  let xc := fun i => x (n + i)
  if j < p then thetaR n P xr j else if j < p + q then thetaM n P xr xc (j - p) else thetaC n P xc (j - (p + q))

/-- `log_val` of `NdmSpin` (density_matrix/jax.py:52-55, 161-195) with `p` pure and `q` mixing hidden units; `n` sites. -/
noncomputable def ndmLogVal (n p q : Nat) (P : Purif) (xr : Nat → ℝ) (xc : Option (Nat → ℝ)) : ℂ :=
  sumLogCosh (2 * p + q) (purification n p q P (dmInput n xr xc))

/-- `DensePureRowCol` (density_matrix/jax.py:254-302) on the two halves; without a bias the parameters are a tuple of one array, and line 279
    takes the tuple for the array: `jnp.dot` of a tuple is a TypeError. -/
noncomputable def densePureRowCol (n : Nat) (W : Nat → Nat → ℝ) (b : Option (Nat → ℝ)) (xr xc : Nat → ℝ) :
    Except Err ((Nat → ℂ) × (Nat → ℂ)) :=
  match b with
  | none => .error .typeError
  | some b => .ok (fun j => ∑ i ∈ range n, (xr i : ℂ) * (W i j : ℂ) + (b j : ℂ), fun j => ∑ i ∈ range n, (xc i : ℂ) * (W i j : ℂ) + (b j : ℂ))

/-- `DenseMixingReal` (density_matrix/jax.py:198-251). -/
noncomputable def denseMixing (n : Nat) (Ur Ui : Nat → Nat → ℝ) (d : Option (Nat → ℝ)) (xr xc : Nat → ℝ) (j : Nat) : ℂ :=
  let t := ∑ i ∈ range n, (xr i : ℂ) * ((1 / 2 : ℂ) * (Ur i j : ℂ) + Complex.I / 2 * (Ui i j : ℂ))
    + ∑ i ∈ range n, (xc i : ℂ) * ((1 / 2 : ℂ) * (Ur i j : ℂ) - Complex.I / 2 * (Ui i j : ℂ))
  match d with
  | none => t
  | some d => t + (d j : ℂ)

/-- `BiasRealModPhase` (density_matrix/jax.py:339-373). -/
noncomputable def biasModPhase (n : Nat) (br bj : Nat → ℝ) (xr xc : Nat → ℝ) : ℂ :=
  1 / 2 * ∑ i ∈ range n, ((xr i : ℂ) + (xc i : ℂ)) * (br i : ℂ) + Complex.I / 2 * ∑ i ∈ range n, ((xr i : ℂ) - (xc i : ℂ)) * (bj i : ℂ)

/-- the parameters of `ndmSpinPhase` (density_matrix/jax.py:376-411): modulus, phase, mixing and visible biases. -/
structure PhaseParams where
  Wm : Nat → Nat → ℝ
  bm : Nat → ℝ
  Wp : Nat → Nat → ℝ
  bp : Nat → ℝ
  Ur : Nat → Nat → ℝ
  Ui : Nat → Nat → ℝ
  d : Nat → ℝ
  visible : Option ((Nat → ℝ) × (Nat → ℝ))

/-- `log_val` of `NdmSpinPhase` (density_matrix/jax.py:376-438) on a row and a column configuration: `FanInSum2` (305-319), `FanInSub2`
    (322-336) and the sum of the parts; `hb` is `use_hidden_bias`. -/
noncomputable def ndmPhaseLogVal (hb : Bool) (n p q : Nat) (P : PhaseParams) (xr xc : Nat → ℝ) : Except Err ℂ := do
  let m ← densePureRowCol n P.Wm (if hb then some P.bm else none) xr xc
  let f ← densePureRowCol n P.Wp (if hb then some P.bp else none) xr xc
  let pure1 := 1 / 2 * (sumLogCosh p m.1 + sumLogCosh p m.2)
  let pure2 := Complex.I / 2 * (sumLogCosh p f.1 - sumLogCosh p f.2)
  let mixing := sumLogCosh q (denseMixing n P.Ur P.Ui (if hb then some P.d else none) xr xc)
  let biases := match P.visible with
    | none => 0
    | some (br, bj) => biasModPhase n br bj xr xc
  .ok (pure1 + pure2 + mixing + biases)

/-! ## Derivatives -/

/-- `_grad_RC` (_jax_utils.py:87-99): derivatives of the real and the imaginary part. -/
noncomputable def gradRC (Jr Ji : Nat → Nat → ℝ) (s k : Nat) : ℂ := (Jr s k : ℂ) + Complex.I * (Ji s k : ℂ)

/-- the two questions which choose the derivative (_jax_utils.py:102-112, 178-191): are the parameters complex, is the output complex. -/
inductive Kind
  | cc
  | rc
  | rr
  deriving DecidableEq

/-- the dispatch of `_grad` and `_vjp` (_jax_utils.py:102-112, 178-191). -/
def kindOf (parsComplex outComplex : Bool) : Except Err Kind :=
  match parsComplex, outComplex with
  | true, true => .ok .cc
  | true, false => .error .runtimeError
  | false, true => .ok .rc
  | false, false => .ok .rr

/-- `_vjp_CC` (_jax_utils.py:118-126) for a holomorphic function with derivatives `J`. -/
noncomputable def vjpCC (ns : Nat) (J : Nat → Nat → ℂ) (vec : Nat → ℂ) (conjugate : Bool) (k : Nat) : ℂ :=
  let out := ∑ s ∈ range ns, star (vec s) * J s k
  if conjugate then star out else out

/-- `_vjp_RR` (_jax_utils.py:129-140). -/
noncomputable def vjpRR (ns : Nat) (J : Nat → Nat → ℝ) (vec : Nat → ℂ) (conjugate : Bool) (k : Nat) : ℂ :=
  let outR : ℝ := ∑ s ∈ range ns, (vec s).re * J s k
  let outI : ℝ := ∑ s ∈ range ns, -(vec s).im * J s k
  if conjugate then (outR : ℂ) - Complex.I * (outI : ℂ) else (outR : ℂ) + Complex.I * (outI : ℂ)

/-- `_vjp_RC` (_jax_utils.py:143-169). -/
noncomputable def vjpRC (ns : Nat) (Jr Ji : Nat → Nat → ℝ) (vec : Nat → ℂ) (conjugate : Bool) (k : Nat) : ℂ :=
  let vrjr : ℝ := ∑ s ∈ range ns, (vec s).re * Jr s k
  let vjjr : ℝ := ∑ s ∈ range ns, (vec s).im * Jr s k
  let vrjj : ℝ := ∑ s ∈ range ns, (vec s).re * Ji s k
  let vjjj : ℝ := ∑ s ∈ range ns, (vec s).im * Ji s k
  let r := (vrjr : ℂ) - Complex.I * (vjjr : ℂ)
  let i := (vrjj : ℂ) - Complex.I * (vjjj : ℂ)
  let out := r + Complex.I * i
  if conjugate then star out else out

/-- `vector_jacobian_prod` with `return_jacobian=True` (jax.py:188-203), the product; `dtypeComplex` is `self._dtype is complex`. -/
noncomputable def vjpWithJacobian (dtypeComplex : Bool) (ns : Nat) (jac : Nat → Nat → ℂ) (vec : Nat → ℂ) (conjugate : Bool) (k : Nat) : ℂ :=
  if conjugate ∧ dtypeComplex then ∑ s ∈ range ns, vec s * star (jac s k) else ∑ s ∈ range ns, star (vec s) * jac s k

/-! ## Parameters -/

/-- a leaf of a pytree: shape and entries in order (jax.py:205-256). -/
structure Leaf (α : Type) where
  shape : List Nat
  data : List α

/-- the leaf is an array (jax.py:205-256). -/
def Leaf.Valid {α : Type} (l : Leaf α) : Prop := l.data.length = l.shape.prod

/-- `tree_size` (_jax_utils.py:41-47). -/
def treeSize {α : Type} (t : List (Leaf α)) : Nat := (t.map fun l => l.shape.prod).sum

/-- `numpy_flatten` (jax.py:222-233). -/
def numpyFlatten {α : Type} (t : List (Leaf α)) : List α := t.flatMap fun l => l.data

/-- `numpy_unflatten` (jax.py:235-256): the leaves take consecutive pieces; a piece that is too short cannot be reshaped (TypeError); what
    remains is ignored. -/
def numpyUnflatten {α : Type} (data : List α) : List (Leaf α) → Except Err (List (Leaf α))
  | [] => .ok []
  | s :: r =>
    if (data.take s.shape.prod).length = s.shape.prod then
      (numpyUnflatten (data.drop s.shape.prod) r).map fun t => ⟨s.shape, data.take s.shape.prod⟩ :: t
    else .error .typeError

/-- the setter of `parameters` (jax.py:217-220): the new parameters, or the error and the old ones. -/
def setParams {α : Type} (nPar : Nat) (old p : List (Leaf α)) : List (Leaf α) × Option Err :=
  if treeSize p = nPar then (p, none) else (old, some .assertionError)

/-- `jax_init_parameters` (jax.py:83-112): a network is accepted if the shape of its output is `(-1, 1)` or `(-1,)`. -/
def checkOutput (shape : List Int) : Except Err Unit := if shape ≠ [-1, 1] ∧ shape ≠ [-1] then .error .valueError else .ok ()

/-- `maybe_wrap_module` (jax.py:51-57): the first wrapper whose condition holds is used. -/
def maybeWrap {M : Type} (wrappers : List ((M → Bool) × (M → M))) (m : M) : M :=
  match wrappers with
  | [] => m
  | (c, w) :: r => if c m then w m else maybeWrap r m

/-! ## Stochastic reconfiguration -/

/-- the derivatives of the `R` processes: process, sample, parameter (_sr_onthefly.py:67-85). -/
abbrev Ranks := Nat → QGT.Jac

/-- `O_mean` with `allreduce=False` (_sr_onthefly.py:88-95): the product of the Jacobian with the constant vector, in the convention of
    jax. -/
noncomputable def oMean (R ns : Nat) (J : QGT.Jac) (k : Nat) : ℂ := QGT.vjp ns J (fun _ => 1 / ((ns : ℂ) * (R : ℂ))) k

/-- `omeanv` (_sr_onthefly.py:133-134): `tree_dot` and the sum over the processes. -/
noncomputable def oMeanV (R ns np : Nat) (J : Ranks) (v : Nat → ℂ) : ℂ :=
  ∑ r ∈ range R, ∑ k ∈ range np, oMean R ns (J r) k * v k

/-- `v_tilde` on process `r` (_sr_onthefly.py:136-141). -/
noncomputable def vTilde (R ns np : Nat) (J : Ranks) (v : Nat → ℂ) (r s : Nat) : ℂ :=
  (QGT.jvp np (J r) v s - oMeanV R ns np J v) * (1 / ((ns : ℂ) * (R : ℂ)))

/-- `OH_w` (_sr_onthefly.py:98-111): the sum over the processes happens inside `O_vjp`; a real leaf keeps the real part. -/
noncomputable def ohw (R ns : Nat) (J : Ranks) (realLeaf : Nat → Bool) (w : Nat → Nat → ℂ) (k : Nat) : ℂ :=
  let res := star (∑ r ∈ range R, QGT.vjp ns (J r) (fun s => star (w r s)) k)
  if realLeaf k then (res.re : ℂ) else res

/-- `mat_vec` (_sr_onthefly.py:114-170). -/
noncomputable def matVec (R ns np : Nat) (J : Ranks) (realLeaf : Nat → Bool) (shift : ℝ) (v : Nat → ℂ) (k : Nat) : ℂ :=
  shift * v k + ohw R ns J realLeaf (vTilde R ns np J v) k

/-- `_subtract_mean_from_oks` (legacy/optimizer/jax/stochastic_reconfiguration.py:99-101). -/
noncomputable def centred (R ns : Nat) (O : Nat → Nat → Nat → ℂ) (r s k : Nat) : ℂ :=
  O r s k - ∑ r' ∈ range R, (∑ t ∈ range ns, O r' t k) / ((ns : ℂ) * (R : ℂ))

/-- `_matvec_cmplx` and `_matvec_real` with `_S_grad_mul` (legacy/optimizer/jax/stochastic_reconfiguration.py:16-43). -/
noncomputable def matVecOks (real : Bool) (R ns np : Nat) (O : Nat → Nat → Nat → ℂ) (shift : ℝ) (v : Nat → ℂ) (k : Nat) : ℂ :=
  let y := ∑ r ∈ range R, ∑ s ∈ range ns, star (O r s k) * ((∑ l ∈ range np, O r s l * v l) / ((ns : ℂ) * (R : ℂ)))
  let z := v k * shift + y
  if real then (z.re : ℂ) else z

/-- the names of solvers (legacy/optimizer/jax/stochastic_reconfiguration.py:150-167); `other` stands for any other text. -/
inductive Solver
  | cg
  | gmres
  | minres
  | jaxcg
  | dense
  | other
  deriving DecidableEq

/-- what the constructor of `SR` ends with (legacy/optimizer/jax/stochastic_reconfiguration.py:109-167); `warning` is the exception `Warning`
    of line 162. -/
inductive Outcome
  | cg
  | warning
  | error (e : Err)
  deriving DecidableEq

/-- `__init__` and `_init_solver` (legacy/optimizer/jax/stochastic_reconfiguration.py:109-167); `mpi` says that there are several processes
    and mpi4jax is missing. -/
def srInit (mpi : Bool) (solver : Option Solver) (useIterative : Bool) : Outcome :=
  if mpi then .error .runtimeError
  else
    let it := match solver with
      | some .cg | some .gmres | some .minres | some .jaxcg => true
      | some .dense => false
      | _ => useIterative
    if it then
      match solver with
      | none | some .cg => .cg
      | some .gmres | some .minres => .warning
      | _ => .error .runtimeError
    else .error .notImplemented

end Verif.LegacyJax

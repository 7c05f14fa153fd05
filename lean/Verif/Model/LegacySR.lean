import Verif.Model.DiscreteHilbert
import Mathlib.Analysis.Complex.Basic
import Mathlib.Analysis.SpecialFunctions.Pow.Real

/-! Model of `netket/legacy/optimizer/numpy/stochastic_reconfiguration.py`.

Arrays are functions of their indices with the sizes given separately.  The processes of an MPI run are a list; what is summed over the
communicator is a sum over that list.  The linear solvers of scipy are arguments. -/

namespace Verif.LegacySR
open Verif.Hilbert (Err)
open Finset

/-! ## Choice of the solver -/

/-- the argument `lsq_solver`; `other` is any further string without one of the known names in it
(netket/legacy/optimizer/numpy/stochastic_reconfiguration.py:56-92). -/
inductive Lsq
  | gmres | cg | minres | colPiv | qr | svd | cholesky | other
  deriving DecidableEq

/-- `_sparse_solver` (stochastic_reconfiguration.py:68-79). -/
inductive Sparse
  | gmres | cg | minres
  deriving DecidableEq

/-- `_lapack_driver` (stochastic_reconfiguration.py:82-92); `dflt` is `None`. -/
inductive Driver
  | gelsy | dflt
  deriving DecidableEq

/-- the attributes which `_init_solver` reads and writes (stochastic_reconfiguration.py:31-49). -/
structure St where
  lsq : Option Lsq
  iterative : Bool
  complex : Option Bool
  threshold : Bool
  sparse : Option Sparse
  driver : Option Driver
  scaleInv : Bool
  deriving DecidableEq

/-- stochastic_reconfiguration.py:59-62. -/
def iterativeOf (lsq : Option Lsq) (it : Bool) : Bool :=
  match lsq with
  | some .gmres => true
  | some .cg => true
  | some .minres => true
  | some .colPiv => false
  | some .qr => false
  | some .svd => false
  | some .cholesky => false
  | _ => it

/-- stochastic_reconfiguration.py:64-79: the sparse solver; `_has_complex_parameters` may be `None`, which counts as false. -/
def sparseOf (lsq : Option Lsq) (complex : Bool) : Except Err Sparse :=
  match lsq with
  | none => .ok (if complex then .gmres else .minres)
  | some .gmres => .ok .gmres
  | some .cg => .ok .cg
  | some .minres => if complex then .error .runtimeError else .ok .minres
  | some _ => .error .runtimeError

/-- stochastic_reconfiguration.py:81-92. -/
def driverOf (lsq : Option Lsq) : Except Err Driver :=
  match lsq with
  | none => .ok .gelsy
  | some .colPiv => .ok .gelsy
  | some .qr => .ok .gelsy
  | some .svd => .ok .dflt
  | some .cholesky => .ok .dflt
  | some _ => .error .runtimeError

/-- `_init_solver` (stochastic_reconfiguration.py:56-97). -/
def initSolver (s : St) : Except Err St :=
  let it := iterativeOf s.lsq s.iterative
  if it then
    match sparseOf s.lsq (s.complex.getD false) with
    | .error e => .error e
    | .ok k => if s.threshold then .error .valueError else .ok { s with iterative := true, sparse := some k }
  else
    match driverOf s.lsq with
    | .error e => .error e
    | .ok d => .ok { s with iterative := false, driver := some d }

/-- `__init__` (stochastic_reconfiguration.py:20-54) followed by `setup(machine)` (99-110) if a machine is given. -/
def construct (machine : Option Bool) (lsq : Option Lsq) (iterative threshold : Bool) : Except Err St :=
  match initSolver ⟨lsq, iterative, none, threshold, none, none, false⟩ with
  | .error e => .error e
  | .ok s =>
    match machine with
    | none => .ok s
    | some c => initSolver { s with complex := some c }

/-- the setter of `scale_invariant_regularization` (stochastic_reconfiguration.py:268-278); the argument is `True`, `False` or something
    else. -/
def setScale (s : St) (activate : Option Bool) : Except Err St :=
  match activate with
  | none => .error .assertionError
  | some b => if b ∧ s.iterative then .error .notImplemented else .ok { s with scaleInv := b }

/-- `__repr__` (stochastic_reconfiguration.py:280-291): whether a text is made; line 286 adds `_lsq_solver` to a string, line 288 uses `<<`.
    The text names the solver: `none` stands for "iterative:CG". -/
def reprText (s : St) : Except Err (Option Lsq) :=
  if s.iterative then .ok none
  else match s.lsq with
    | none => .error .typeError
    | some l => if s.threshold then .error .typeError else .ok (some l)

/-! ## The linear system -/

/-- the log-derivatives on one process: `n` samples, `o s k` is the derivative along parameter `k`
(netket/legacy/optimizer/numpy/stochastic_reconfiguration.py:112-140). -/
structure Rank where
  n : Nat
  o : Nat → Nat → ℂ

/-- `n_samp` (stochastic_reconfiguration.py:136). -/
def nSamp (rs : List Rank) : Nat := (rs.map Rank.n).sum

/-- `_mean(oks, axis=0)` (stochastic_reconfiguration.py:129, mpi_stats.py:52-57): the mean over the processes of their means. -/
noncomputable def meanOks (rs : List Rank) (k : Nat) : ℂ :=
  (rs.map fun r => (∑ s ∈ range r.n, r.o s k) / (r.n : ℂ)).sum / (rs.length : ℂ)

/-- `oks -= _mean(oks, axis=0)` (stochastic_reconfiguration.py:129), on every process; the array of the caller is changed. -/
noncomputable def centre (rs : List Rank) : List Rank := rs.map fun r => ⟨r.n, fun s k => r.o s k - meanOks rs k⟩

/-- `matvec` for complex parameters (stochastic_reconfiguration.py:300-307). -/
noncomputable def matvecC (P : Nat) (shift : ℝ) (rs : List Rank) (v : Nat → ℂ) (i : Nat) : ℂ :=
  (rs.map fun r => ∑ s ∈ range r.n, (∑ k ∈ range P, r.o s k * v k) / (nSamp rs : ℂ) * star (r.o s i)).sum + (shift : ℂ) * v i

/-- `matvec` for real parameters (stochastic_reconfiguration.py:311-319). -/
noncomputable def matvecR (P : Nat) (shift : ℝ) (rs : List Rank) (v : Nat → ℝ) (i : Nat) : ℝ :=
  (matvecC P shift rs (fun k => (v k : ℂ)) i).re

/-- `matmul(oks.conj().T, oks)` on one process (stochastic_reconfiguration.py:162, 200). -/
noncomputable def gram (r : Rank) (i j : Nat) : ℂ := ∑ s ∈ range r.n, star (r.o s i) * r.o s j

/-- `_S` for complex parameters (stochastic_reconfiguration.py:162-164). -/
noncomputable def covC (rs : List Rank) (i j : Nat) : ℂ := (rs.map fun r => gram r i j).sum / (nSamp rs : ℂ)

/-- `_S` for real parameters (stochastic_reconfiguration.py:200-201): there is no sum over the processes. -/
noncomputable def covR (rs : List Rank) (me : Rank) (i j : Nat) : ℂ := gram me i j / (nSamp rs : ℂ)

/-- `_diag_S` (stochastic_reconfiguration.py:230-235). -/
noncomputable def diagS (S : Nat → Nat → ℂ) (i : Nat) : ℝ :=
  let d := Real.sqrt (S i i).re
  if d ≤ 1 / 10 ^ 10 then 1 else d

/-- `_apply_preconditioning` (stochastic_reconfiguration.py:226-245), the matrix: indexing with a boolean array makes a copy, so lines 236 and
    237 have no effect; line 240 divides by a number. -/
noncomputable def preS (P : Nat) (scale : Bool) (shift : ℝ) (S : Nat → Nat → ℂ) (i j : Nat) : ℂ :=
  (if scale then (if i = j then 1 else S i j) / ((∑ k ∈ range P, diagS S k * diagS S k : ℝ) : ℂ) else S i j)
    + if i = j then (shift : ℂ) else 0

/-- `_apply_preconditioning` (stochastic_reconfiguration.py:242), the forces, in place. -/
noncomputable def preF (scale : Bool) (S : Nat → Nat → ℂ) (f : Nat → ℂ) (i : Nat) : ℂ := if scale then f i / (diagS S i : ℂ) else f i

/-- `_revert_preconditioning` (stochastic_reconfiguration.py:255-258). -/
noncomputable def revert (scale : Bool) (S : Nat → Nat → ℂ) (x : Nat → ℂ) (i : Nat) : ℂ := if scale then x i / (diagS S i : ℂ) else x i

/-- the solvers: an iterative one gets the operator, the right side and a first guess, and returns a solution and `info`; the dense ones get
    the matrix and the right side (stochastic_reconfiguration.py:150-156, 168-178, 189-195, 205-214). -/
structure Solvers where
  iterC : ((Nat → ℂ) → Nat → ℂ) → (Nat → ℂ) → (Nat → ℂ) → (Nat → ℂ) × Int
  iterR : ((Nat → ℝ) → Nat → ℝ) → (Nat → ℝ) → (Nat → ℝ) → (Nat → ℝ) × Int
  chol : (Nat → Nat → ℂ) → (Nat → ℂ) → Nat → ℂ
  lstsqC : (Nat → Nat → ℂ) → (Nat → ℂ) → Nat → ℂ
  lstsqR : (Nat → Nat → ℝ) → (Nat → ℝ) → Nat → ℝ

/-- what a call of `compute_update` leaves: the result, the array `grad` of the caller, the first guess for the next call
(netket/legacy/optimizer/numpy/stochastic_reconfiguration.py:112-224). -/
structure Out where
  x : Nat → ℂ
  grad : Nat → ℂ
  x0 : Nat → ℂ

/-- `compute_update` for complex parameters (stochastic_reconfiguration.py:143-180), without the broadcast; the log-derivatives are already
    centred. -/
noncomputable def updateC (s : St) (sv : Solvers) (P : Nat) (shift : ℝ) (rs : List Rank) (x0 f : Nat → ℂ) : Except Err Out :=
  if s.iterative then
    let r := sv.iterC (matvecC P shift rs) f x0
    if r.2 < 0 then .error .runtimeError else .ok ⟨r.1, f, r.1⟩
  else
    let S := covC rs
    let A := preS P s.scaleInv shift S
    let g := preF s.scaleInv S f
    let y := if s.lsq = some .cholesky then sv.chol A g else sv.lstsqC A g
    .ok ⟨revert s.scaleInv S y, g, x0⟩

/-- `compute_update` for real parameters (stochastic_reconfiguration.py:182-218); `me` are the samples of this process. -/
noncomputable def updateR (s : St) (sv : Solvers) (P : Nat) (shift : ℝ) (rs : List Rank) (me : Rank) (x0 f : Nat → ℂ) : Except Err Out :=
  if s.iterative then
    let r := sv.iterR (matvecR P shift rs) (fun i => (f i).re) (fun i => (x0 i).re)
    if r.2 < 0 then .error .runtimeError else .ok ⟨fun i => (r.1 i : ℂ), f, fun i => (r.1 i : ℂ)⟩
  else
    let S := covR rs me
    let A := preS P s.scaleInv shift S
    let g := preF s.scaleInv S f
    let y : Nat → ℂ := if s.lsq = some .cholesky then fun i => ((sv.chol A g i).re : ℂ)
      else fun i => ((sv.lstsqR (fun i j => (A i j).re) (fun i => (g i).re) i : ℝ) : ℂ)
    .ok ⟨revert s.scaleInv S y, g, x0⟩

/-- `compute_update` (stochastic_reconfiguration.py:112-224) on process number `me`: the centred log-derivatives (the arrays of the callers are
    changed before the test of line 131) and the result.  The value of the broadcast (221) is not used. -/
noncomputable def computeUpdate (s : St) (sv : Solvers) (P : Nat) (shift : ℝ) (rs : List Rank) (me : Nat) (x0 f : Nat → ℂ) :
    List Rank × Except Err Out :=
  let cs := centre rs
  (cs, match s.complex with
    | none => .error .valueError
    | some true => updateC s sv P shift cs x0 f
    | some false => updateR s sv P shift cs (cs.getD me ⟨0, fun _ _ => 0⟩) x0 f)

end Verif.LegacySR

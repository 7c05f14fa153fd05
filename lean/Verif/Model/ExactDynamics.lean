import Mathlib.LinearAlgebra.Matrix.Hermitian
import Mathlib.Data.Matrix.Mul
import Mathlib.Analysis.Complex.Basic
import Verif.Model.DiscreteHilbert

/-! Exact time propagation: netket/_exact_dynamics.py.

States are vectors over a finite index set, operators their matrices (`to_sparse`/`to_dense`), numbers exact; the integrator of scipy is an
argument. -/

namespace Verif.ExactDynamics
open Verif.Hilbert

variable {ι : Type} [Fintype ι]

/-- `np.vdot(a, b)` (_exact_dynamics.py:56, 164-165). -/
def vdot (a b : ι → ℂ) : ℂ := ∑ i, star (a i) * b i

/-- the argument `propagation_type` (_exact_dynamics.py:42-59). -/
inductive Prop_ where
  | real
  | imaginary
  | other
  deriving DecidableEq

/-- _exact_dynamics.py:45-47: right-hand side of real time propagation. -/
def rhsReal (H : Matrix ι ι ℂ) (state : ι → ℂ) : ι → ℂ := (-Complex.I) • H.mulVec state

/-- _exact_dynamics.py:53-57: right-hand side of imaginary time propagation. -/
def rhsImag (H : Matrix ι ι ℂ) (state : ι → ℂ) : ι → ℂ :=
  let v0 := H.mulVec state
  let mean := vdot state v0
  mean • state + -v0

/-- _exact_dynamics.py:42-59: `_make_rhs`; `None` for other strings. -/
def makeRhs (H : Matrix ι ι ℂ) : Prop_ → Option ((ι → ℂ) → ι → ℂ)
  | .real => some (rhsReal H)
  | .imaginary => some (rhsImag H)
  | .other => none

/-- the argument `matrix_type` (_exact_dynamics.py:33-39). -/
inductive MatType where
  | sparse
  | dense
  | direct
  | other
  deriving DecidableEq

/-- _exact_dynamics.py:33-39: `_make_op`; `to_linear_op` does not exist (operators have `to_linear_operator`), other strings give `None`. -/
def makeOp (H : Matrix ι ι ℂ) : MatType → Except Err (Option (Matrix ι ι ℂ))
  | .sparse => .ok (some H)
  | .dense => .ok (some H)
  | .direct => .error .attributeError
  | .other => .ok none

/-- _exact_dynamics.py:157-167: `_estimate_stats`: mean and variance. -/
def estimate (O : Matrix ι ι ℂ) (state : ι → ℂ) : ℂ × ℝ :=
  let v0 := O.mulVec state
  let mean := vdot state v0
  let variance := vdot state (O.mulVec v0) - mean ^ 2
  (mean, variance.re)

/-- attributes of the driver (_exact_dynamics.py:136-153); `stepAttr` and `t0Attr` are the attributes `_step` and `t0`, which `__init__` does
    not create. -/
structure Driver (Y : Type) where
  state : Y
  dt : ℚ
  t0 : ℚ
  t : ℚ
  steps : Nat
  stepAttr : Option Nat
  t0Attr : Option ℚ

/-- _exact_dynamics.py:76-153. -/
def init {Y : Type} (initial : Y) (dt t0 : ℚ) : Driver Y := ⟨initial, dt, t0, t0, 0, none, none⟩

/-- _exact_dynamics.py:188-190: the property `step_count`. -/
def stepCount {Y : Type} (d : Driver Y) : Except Err Nat :=
  match d.stepAttr with
  | some s => .ok s
  | none => .error .attributeError

/-- _exact_dynamics.py:192-211: `advance`; `solve t y t_bound` is what the integrator reaches (`none`: it failed, and `raise ...` is a TypeError). -/
def advance {Y : Type} (solve : ℚ → Y → ℚ → Option (ℚ × Y)) (d : Driver Y) (nSteps : ℤ) : Driver Y × Option Err :=
  match solve d.t d.state (d.t + nSteps * d.dt) with
  | some (t, y) => ({ d with state := y, t := t }, none)
  | none => (d, some .typeError)

/-- _exact_dynamics.py:213-228: `iter`: what a consumer sees at every yield (number, time, state), and the driver at the end. -/
def iter {Y : Type} (solve : ℚ → Y → ℚ → Option (ℚ × Y)) (step : ℤ) : Nat → Nat → Driver Y → List (Nat × ℚ × Y) × Driver Y × Option Err
  | 0, _, d => ([], d, none)
  | n + 1, i, d =>
    match advance solve d step with
    | (d', some e) => ([(i, d.t, d.state)], d', some e)
    | (d', none) =>
      let r := iter solve step n (i + 1) d'
      ((i, d.t, d.state) :: r.1, r.2)

/-- _exact_dynamics.py:230-235: `reset`. -/
def reset {Y : Type} (d : Driver Y) : Driver Y := { d with t0Attr := some d.t, stepAttr := some 0 }

/-- the value given for `save_params_every` in `run`: the code passes it as the mode of the logger (_exact_dynamics.py:266). -/
inductive SaveEvery where
  | number (n : ℤ)
  | writeMode
  deriving DecidableEq

/-- _exact_dynamics.py:237-296 and logging/json_log.py:98-118: `run`: the logger is constructed with `save_params_every` as mode (ValueError
    unless it is a mode); the loop reads `_loss_stats`, which does not exist, in its first pass, before the state is advanced. -/
def run {Y : Type} (nIter : Nat) (save : SaveEvery) (d : Driver Y) : Driver Y × Option Err :=
  match save with
  | .number _ => (d, some .valueError)
  | .writeMode => if nIter = 0 then (d, none) else (d, some .attributeError)

end Verif.ExactDynamics

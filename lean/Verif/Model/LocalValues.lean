import Mathlib.Analysis.SpecialFunctions.Exp
import Mathlib.Analysis.Complex.Exponential
import Verif.Model.LocalOperator

/-! Local values and their derivatives: netket/operator/_local_values.py, _der_local_values.py, _local_cost_functions.py.

Arrays are lists, one entry per row; a machine is its function `log_val` (and `der_log`) on configurations; numbers are exact complex numbers.
The shape of the argument `v` is given by `ndim` and `width` next to its rows. -/

namespace Verif.LocalValues
open Verif.LocalOp Verif.Hilbert

/-- `array[low:s]` for `0 ≤ low` (_local_values.py:30). -/
def slice {β : Type} (l : List β) (low s : Nat) : List β := (l.drop low).take (s - low)

/-- _local_values.py:29-31: `(mels * np.exp(log_val_primes - log_val)).sum()` on one section. -/
noncomputable def weightSum (mels logP : List ℂ) (lv : ℂ) : ℂ := (List.zipWith (fun m l => m * Complex.exp (l - lv)) mels logP).sum

/-- _local_values.py:25-32: `_local_values_kernel`; the result is the contents of `out`. -/
noncomputable def kernel (logP mels : List ℂ) : Nat → List ℂ → List Nat → List ℂ
  | low, lv :: lvs, s :: ss => weightSum (slice mels low s) (slice logP low s) lv :: kernel logP mels s lvs ss
  | _, _, _ => []

/-- _local_values.py:47-55: `_op_op_unpack_kernel`: row `i` repeated over its section. -/
def unpack {β : Type} : Nat → List β → List Nat → List β
  | low, v :: vs, s :: ss => List.replicate (s - low) v ++ unpack s vs ss
  | _, _, _ => []

variable {N : Nat} {α : Type} [LinearOrder α] [Inhabited α]

/-- _local_values.py:74-127 with `_local_values_impl` (35-44), for wave functions. -/
noncomputable def localValues (hi : Fin N → List α) (op : LOp ℂ α N) (gm : Nat → ℂ) (gx : Nat → Fin N → α) (logVal : (Fin N → α) → ℂ)
    (ndim width : Nat) (v : List (Fin N → α)) (logVals : Option (List ℂ)) : Except Err (List ℂ) :=
  if ndim ≠ 2 then .error .runtimeError
  else if width ≠ N then .error .assertionError
  else
    let r := connFlattened hi op gm gx v
    .ok (kernel (r.1.xp.map logVal) r.1.mels 0 (logVals.getD (v.map logVal)) r.2)

/-- _local_values.py:74-127 with `_local_values_op_op_impl` (58-71), for density matrices and operators on the physical space;
    `sections[-1]` of an empty batch is an IndexError (64). -/
noncomputable def localValuesOpOp (hi : Fin N → List α) (op : LOp ℂ α N) (gm : Nat → ℂ) (gx : Nat → Fin N → α)
    (logVal : (Fin N → α) → (Fin N → α) → ℂ) (ndim width : Nat) (v : List (Fin N → α)) (logVals : Option (List ℂ)) : Except Err (List ℂ) :=
  if ndim ≠ 2 then .error .runtimeError
  else if width ≠ N then .error .assertionError
  else if v = [] then .error .indexError
  else
    let r := connFlattened hi op gm gx v
    .ok (kernel (List.zipWith logVal r.1.xp (unpack 0 v r.2)) r.1.mels 0 (logVals.getD (v.map fun x => logVal x x)) r.2)

/-- _der_local_values.py:29-35: one section of `_der_local_values_kernel`, for one parameter. -/
noncomputable def derSum (mels logP derP : List ℂ) (lv d : ℂ) : ℂ :=
  (List.zipWith (fun m p => m * Complex.exp (p.1 - lv) * (p.2 - d)) mels (List.zip logP derP)).sum

/-- _der_local_values.py:23-36: `_der_local_values_kernel`, for one parameter. -/
noncomputable def derKernel (logP mels derP : List ℂ) : Nat → List ℂ → List ℂ → List Nat → List ℂ
  | low, lv :: lvs, d :: ds, s :: ss =>
    derSum (slice mels low s) (slice logP low s) (slice derP low s) lv d :: derKernel logP mels derP s lvs ds ss
  | _, _, _, _ => []

/-- _der_local_values.py:63-70: one section of `_der_local_values_notcentered_kernel`, for one parameter. -/
noncomputable def derSumNC (mels logP derP : List ℂ) (lv : ℂ) : ℂ :=
  (List.zipWith (fun m p => m * Complex.exp (p.1 - lv) * p.2) mels (List.zip logP derP)).sum

/-- _der_local_values.py:58-70: `_der_local_values_notcentered_kernel`, for one parameter. -/
noncomputable def derKernelNC (logP mels derP : List ℂ) : Nat → List ℂ → List Nat → List ℂ
  | low, lv :: lvs, s :: ss => derSumNC (slice mels low s) (slice logP low s) (slice derP low s) lv :: derKernelNC logP mels derP s lvs ss
  | _, _, _ => []

/-- _der_local_values.py:46-51, 81-86: `for s in range(0, n, batch_size): der_log_primes[s:end] = machine.der_log(v_primes[s:end])`; `fuel`
    bounds the number of passes; `garbage` is the contents of the uninitialised array. -/
def fillBatches {β : Type} (derLog : β → ℂ) (vp : List β) (batch : Nat) : Nat → Nat → List ℂ → List ℂ
  | 0, _, out => out
  | fuel + 1, s, out =>
    if s < vp.length then
      let e := min (s + batch) vp.length
      fillBatches derLog vp batch fuel (s + batch) (out.take s ++ (slice vp s e).map derLog ++ out.drop e)
    else out

/-- _der_local_values.py:43-51, 78-86: `range` with step zero is a ValueError, with a negative step it is empty. -/
def derLogBatches {β : Type} (derLog : β → ℂ) (vp : List β) (batch : ℤ) (garbage : Nat → ℂ) : Except Err (List ℂ) :=
  let init := (List.range vp.length).map garbage
  if batch = 0 then .error .valueError
  else if batch < 0 then .ok init
  else .ok (fillBatches derLog vp batch.toNat vp.length 0 init)

/-- _der_local_values.py:93-170 for machines without jax, one parameter; `center_derivative` chooses the kernel. -/
noncomputable def derLocalValues (hi : Fin N → List α) (op : LOp ℂ α N) (gm : Nat → ℂ) (gx : Nat → Fin N → α) (garbage : Nat → ℂ)
    (logVal derLog : (Fin N → α) → ℂ) (ndim width : Nat) (v : List (Fin N → α)) (center : Bool) (batch : ℤ) : Except Err (List ℂ) :=
  if ndim ≠ 2 then .error .runtimeError
  else if width ≠ N then .error .assertionError
  else
    let r := connFlattened hi op gm gx v
    match derLogBatches derLog r.1.xp batch garbage with
    | .error e => .error e
    | .ok derP =>
      if center then .ok (derKernel (r.1.xp.map logVal) r.1.mels derP 0 (v.map logVal) (v.map derLog) r.2)
      else .ok (derKernelNC (r.1.xp.map logVal) r.1.mels derP 0 (v.map logVal) r.2)

/-! ## Cost functions -/

/-- `jax.vmap(f, in_axes)` (_local_cost_functions.py:107-113) on arguments given as batches (`Sum.inr`) or single values (`Sum.inl`): an axis for every argument, at least one
    mapped axis and equal batch sizes are required (ValueErrors of jax); axis 0 only. -/
def vmap {V W : Type} (f : List V → W) (axes : List (Option Nat)) (args : List (V × List V)) : Except Err (List W) :=
  if axes.length ≠ args.length then .error .valueError
  else
    match ((axes.zip args).filter fun p => p.1.isSome).map fun p => p.2.2.length with
    | [] => .error .valueError
    | n :: rest =>
      if rest.all (· = n) then
        .ok ((List.range n).filterMap fun b =>
          ((axes.zip args).mapM (m := Option) fun (p : Option Nat × (V × List V)) => if p.1.isSome then p.2.2[b]? else some p.2.1).map f)
      else .error .valueError

/-- _local_cost_functions.py:24-34: what is stored about a cost function. -/
structure CostFun (V W : Type) where
  fn : List V → W
  axes : List (Option Nat)

/-- _local_cost_functions.py:37-84: `define_local_cost_function` for a function of `npars` parameters. -/
def define {V W : Type} (fn : List V → W) (npars : Nat) (batchAxes : Option (List (Option Nat))) : Except Err (CostFun V W) :=
  if npars < 2 then .error .valueError
  else .ok ⟨fn, batchAxes.getD ([none, none] ++ List.replicate (npars - 2) none)⟩

/-- _local_cost_functions.py:105-131: `local_cost_function`; functions that were not defined with the decorator are a KeyError. The first two
    arguments are the network and its parameters. -/
def localCost {V W : Type} (c : Option (CostFun V W)) (args : List (V × List V)) : Except Err (List W) :=
  match c with
  | none => .error .keyError
  | some c => vmap c.fn c.axes args

/-- _local_cost_functions.py:203-205, mc_state.py:63-64: the cost function of one configuration with its (padded) connected elements. -/
noncomputable def localValueCost {β : Type} (logpsi : β → ℂ) (vp : List β) (mel : List ℂ) (v : β) : ℂ :=
  (List.zipWith (fun m l => m * Complex.exp (l - logpsi v)) mel (vp.map logpsi)).sum

end Verif.LocalValues

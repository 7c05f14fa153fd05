import Mathlib.Analysis.Calculus.Deriv.Basic
import Mathlib.Analysis.Complex.Basic
import Mathlib.Analysis.SpecialFunctions.Log.Basic
import Verif.Model.DiscreteHilbert

/-! Model of `netket/legacy/machine/torch.py`.

Simplifications: numbers are exact. A module is its list of parameter tensors, and the function computed by it: from the flat array of the
differentiable parameters and a configuration to the two outputs. `torch.autograd.grad` gives partial derivatives; `backward` adds the derivative
of the weighted sum of the outputs to the gradients kept by the parameters. Arrays given as parameters are one-dimensional. -/

namespace Verif.LegacyTorch

open Verif.Hilbert (Err)

/-- one parameter tensor of the module: `requires_grad` and its entries (torch.py:11-18). -/
structure Tensor where
  grad : Bool
  data : List ℝ

/-- `_get_differentiable_parameters` (torch.py:16-18). -/
def differentiable (m : List Tensor) : List Tensor := m.filter fun t => t.grad

/-- `_get_number_parameters` (torch.py:11-13), the attribute `_n_par` (24). -/
def nPar (m : List Tensor) : Nat := ((differentiable m).map fun t => t.data.length).sum

/-- the property `parameters` (torch.py:35-44). -/
noncomputable def parameters (m : List Tensor) : List ℂ := ((differentiable m).flatMap fun t => t.data).map fun r : ℝ => (r : ℂ)

/-- the loop of the setter (torch.py:71-76): consecutive pieces are copied into the differentiable tensors. -/
def copyLoop : List ℝ → List Tensor → List Tensor
  | _, [] => []
  | p, t :: ts =>
    if t.grad then { t with data := p.take t.data.length } :: copyLoop (p.drop t.data.length) ts
    else t :: copyLoop p ts

open Classical in
/-- the setter of `parameters` (torch.py:58-76): the tensors afterwards, whether a warning was given, and the error. -/
noncomputable def setParameters (m : List Tensor) (p : List ℂ) : List Tensor × Bool × Option Err :=
  let warn := !p.all fun z => decide (z.im = 0)
  if p.length ≠ nPar m then (m, warn, some .valueError)
  else (copyLoop (p.map Complex.re) m, warn, none)

section network
variable {X : Type} {P : Nat}

/-- `torch.autograd.grad` of one number with respect to the parameters, flattened (torch.py:130-137). -/
noncomputable def autograd (f : (Fin P → ℝ) → ℝ) (θ : Fin P → ℝ) (k : Fin P) : ℝ :=
  deriv (fun t => f (Function.update θ k t)) (θ k)

/-- `log_val` (torch.py:83-94) of one row: the two outputs viewed as a complex number (89). -/
noncomputable def value (net : (Fin P → ℝ) → X → ℝ × ℝ) (θ : Fin P → ℝ) (x : X) : ℂ := ⟨(net θ x).1, (net θ x).2⟩

/-- what `log_val` is given and what it returns: one configuration or a batch; a number or an array
(netket/legacy/machine/torch.py:83-118). -/
inductive Input (X : Type)
  | vector (x : X)
  | batch (xs : List X)

/-- what `log_val` returns: a number or an array (netket/legacy/machine/torch.py:83-118). -/
inductive Output
  | number (z : ℂ)
  | array (zs : List ℂ)

/-- `log_val` (torch.py:83-94): a vector becomes a batch of one row (84-85). -/
noncomputable def logVal (net : (Fin P → ℝ) → X → ℝ × ℝ) (θ : Fin P → ℝ) : Input X → Output
  | .vector x => .array [value net θ x]
  | .batch xs => .array (xs.map (value net θ))

/-- `der_log` without BackPACK (torch.py:128-140). -/
noncomputable def derLog (net : (Fin P → ℝ) → X → ℝ × ℝ) (θ : Fin P → ℝ) (xs : List X) : List (Fin P → ℂ) :=
  xs.map fun x k => ⟨autograd (fun q => (net q x).1) θ k, autograd (fun q => (net q x).2) θ k⟩

/-- `BatchGrad` of BackPACK for a sum over the rows (torch.py:97-108): the derivative of the term of every row. -/
noncomputable def batchGrad (out : (Fin P → ℝ) → X → ℝ) (θ : Fin P → ℝ) (xs : List X) : List (Fin P → ℝ) :=
  xs.map fun x => autograd (fun q => out q x) θ

/-- `_der_log_backpack` (torch.py:96-118). -/
noncomputable def derLogBackpack (net : (Fin P → ℝ) → X → ℝ × ℝ) (θ : Fin P → ℝ) (xs : List X) : List (Fin P → ℂ) :=
  List.zipWith (fun (r i : Fin P → ℝ) k => ⟨r k, i k⟩) (batchGrad (fun q x => (net q x).1) θ xs) (batchGrad (fun q x => (net q x).2) θ xs)

/-- `der_log` (torch.py:120-140). -/
noncomputable def derLogOf (backpack : Bool) (net : (Fin P → ℝ) → X → ℝ × ℝ) (θ : Fin P → ℝ) (xs : List X) : List (Fin P → ℂ) :=
  if backpack then derLogBackpack net θ xs else derLog net θ xs

/-- `y.backward(vecj)` (torch.py:173, 180): the gradients kept by the parameters afterwards. -/
noncomputable def backward (net : (Fin P → ℝ) → X → ℝ × ℝ) (θ : Fin P → ℝ) (xs : List X) (vecj : List (ℝ × ℝ)) (g : Fin P → ℝ) : Fin P → ℝ :=
  fun k => g k + (List.zipWith (fun x (v : ℝ × ℝ) => v.1 * autograd (fun q => (net q x).1) θ k
    + v.2 * autograd (fun q => (net q x).2) θ k) xs vecj).sum

/-- `vector_jacobian_prod` (torch.py:142-184); `g` are the gradients kept by the parameters before; returns `out`, the Jacobian if requested, and
    the gradients kept afterwards (`zero_grad`: 139, 159, 175, 182). -/
noncomputable def vjp (backpack : Bool) (net : (Fin P → ℝ) → X → ℝ × ℝ) (θ : Fin P → ℝ) (xs : List X) (vec : List ℂ) (conjugate returnJac : Bool)
    (_g : Fin P → ℝ) : (Fin P → ℂ) × Option (List (Fin P → ℂ)) × (Fin P → ℝ) :=
  if returnJac then
    let jac := derLogOf backpack net θ xs
    let out : Fin P → ℂ := fun k => (List.zipWith (fun v (j : Fin P → ℂ) => v * star (j k)) vec jac).sum
    (if conjugate then out else fun k => star (out k), some jac, fun _ => 0)
  else
    let g0 : Fin P → ℝ := fun _ => 0
    let re := backward net θ xs (vec.map fun v => (v.re, v.im)) g0
    let vecj := vec.map fun v => (v.im, -v.re)
    let vecj := if conjugate then vecj else vecj.map fun v => (v.1 * -1, v.2 * -1)
    let im := backward net θ xs vecj g0
    (fun k => ⟨re k, im k⟩, none, fun _ => 0)

end network

open Classical in
/-- `torch.nn.functional.softplus` with the default threshold 20 (called in torch.py:215). -/
noncomputable def softplus (x : ℝ) : ℝ := if 20 < x then x else Real.log (1 + Real.exp x)

/-- `TorchLogCosh.forward` (torch.py:211-215). -/
noncomputable def torchLogCosh (x : ℝ) : ℝ := -x + softplus (2 * x)

end Verif.LegacyTorch

import Mathlib.Algebra.BigOperators.Group.Finset.Basic
import Mathlib.Algebra.Order.Monoid.Unbundled.WithTop
import Mathlib.Analysis.SpecialFunctions.Complex.Log
import Verif.Model.DiscreteHilbert

/-! The dense ansätze: netket/nn/activation.py (log_cosh), netket/models/rbm.py, jastrow.py, ndm.py.

Arrays are functions of indices, the sizes being separate arguments. Simplified: exact complex numbers; real arrays are complex arrays with
zero imaginary part; minus infinity (the logarithm of zero) is `⊥`, absorbing under addition; one configuration instead of a batch; no
`precision`. -/

namespace Verif.Machines
open Verif.Hilbert (Err)
open Finset

/-- logarithm of an array entry, minus infinity at zero (`jnp.log`, used at activation.py:55 through `log1p`). -/
noncomputable def clog (w : ℂ) : WithBot ℂ := open Classical in if w = 0 then ⊥ else ((Complex.log w : ℂ) : WithBot ℂ)

/-- activation.py:52-55: `log_cosh`. -/
noncomputable def logCosh (x : ℂ) : WithBot ℂ :=
  let y := if x.re < 0 then -x else x
  ((y : ℂ) : WithBot ℂ) + clog (1 + Complex.exp (-2 * y)) + ((-(Real.log 2 : ℂ) : ℂ) : WithBot ℂ)

/-- nn/linear.py (`Dense`): `x @ kernel + bias`. -/
noncomputable def dense (n : Nat) (W : Nat → Nat → ℂ) (b : Option (Nat → ℂ)) (x : Nat → ℂ) (j : Nat) : ℂ :=
  match b with
  | none => ∑ i ∈ range n, x i * W i j
  | some b => ∑ i ∈ range n, x i * W i j + b j

/-- rbm.py:68-69 and ndm.py:69-70: an activation applied to the hidden units and summed. -/
noncomputable def hiddenSum (act : ℂ → WithBot ℂ) (n F : Nat) (W : Nat → Nat → ℂ) (b : Option (Nat → ℂ)) (x : Nat → ℂ) : WithBot ℂ :=
  ∑ j ∈ range F, act (dense n W b x j)

/-- rbm.py:57-78: `RBM.__call__`. -/
noncomputable def rbm (act : ℂ → WithBot ℂ) (n F : Nat) (W : Nat → Nat → ℂ) (hb vb : Option (Nat → ℂ)) (x : Nat → ℂ) : WithBot ℂ :=
  match vb with
  | none => hiddenSum act n F W hb x
  | some a => hiddenSum act n F W hb x + ((∑ i ∈ range n, x i * a i : ℂ) : WithBot ℂ)

/-- multiplication of an array entry by a non-zero number (for `1j` times minus infinity the code has NaN in a part)
(netket/models/ndm.py:131, 225; rbm.py:137). -/
noncomputable def scale (a : ℂ) (x : WithBot ℂ) : WithBot ℂ := x.map fun y => a * y

/-- rbm.py:113-136: `RBMModPhase.__call__`. -/
noncomputable def rbmModPhase (act : ℂ → WithBot ℂ) (n F : Nat) (Wr : Nat → Nat → ℂ) (br : Option (Nat → ℂ)) (Wi : Nat → Nat → ℂ)
    (bi : Option (Nat → ℂ)) (x : Nat → ℂ) : WithBot ℂ :=
  hiddenSum act n F Wr br x + scale Complex.I (hiddenSum act n F Wi bi x)

/-- rbm.py:187-189: `one_hot` (`x[..., None] == arange(n_classes)`) and the flattening of the last two dimensions. -/
noncomputable def oneHotFlat (nClasses : Nat) (x : Nat → ℂ) (k : Nat) : ℂ :=
  open Classical in if x (k / nClasses) = ((k % nClasses : Nat) : ℂ) then 1 else 0

/-- rbm.py:182-191: `RBMMultiVal.__call__`; the inner RBM sees `n_classes * N` sites. -/
noncomputable def rbmMultiVal (act : ℂ → WithBot ℂ) (nClasses n F : Nat) (W : Nat → Nat → ℂ) (hb vb : Option (Nat → ℂ)) (x : Nat → ℂ) :
    WithBot ℂ :=
  rbm act (nClasses * n) F W hb vb (oneHotFlat nClasses x)

/-- jastrow.py:35-46: `Jastrow.__call__`. -/
noncomputable def jastrow (n : Nat) (w : Nat → Nat → ℂ) (x : Nat → ℂ) : ℂ :=
  ∑ i ∈ range n, ∑ j ∈ range n, x i * (w i j + w j i) * x j

/-- ndm.py:58-88: `PureRBM.__call__`. -/
noncomputable def pureRBM (act : ℂ → WithBot ℂ) (n F : Nat) (W : Nat → Nat → ℂ) (hb vb : Option (Nat → ℂ)) (symmetric : Bool)
    (r c : Nat → ℂ) : WithBot ℂ :=
  let xr := hiddenSum act n F W hb r
  let xc := hiddenSum act n F W hb c
  let y := if symmetric then xr + xc else xr + scale (-1) xc
  scale (1 / 2) (match vb with
    | none => y
    | some a => y + (((if symmetric then ∑ i ∈ range n, (r i + c i) * a i else ∑ i ∈ range n, (r i - c i) * a i) : ℂ) : WithBot ℂ))

/-- ndm.py:113-143: `MixedRBM.__call__`. -/
noncomputable def mixedRBM (act : ℂ → WithBot ℂ) (n F : Nat) (US UA : Nat → Nat → ℂ) (b : Option (Nat → ℂ)) (r c : Nat → ℂ) : WithBot ℂ :=
  ∑ j ∈ range F, act (
    let y := dense n US none (fun i => 1 / 2 * (r i + c i)) j + Complex.I * dense n UA none (fun i => 1 / 2 * (r i - c i)) j
    match b with
    | none => y
    | some b => y + b j)

/-- parameters of an NDM (ndm.py:184-226): the pure parts `W…`, `h…`, `v…`, the mixed part `US`, `UA`, `b`. -/
structure NDMParams where
  WS : Nat → Nat → ℂ
  hS : Option (Nat → ℂ)
  vS : Option (Nat → ℂ)
  WA : Nat → Nat → ℂ
  hA : Option (Nat → ℂ)
  vA : Option (Nat → ℂ)
  US : Nat → Nat → ℂ
  UA : Nat → Nat → ℂ
  b : Option (Nat → ℂ)

/-- ndm.py:187-226: `NDM.__call__` on a configuration of `N` sites, with `Fp` and `Fm` hidden units in the pure and mixed part;
    `jnp.split` is a ValueError for odd `N`. -/
noncomputable def ndm (act : ℂ → WithBot ℂ) (N Fp Fm : Nat) (P : NDMParams) (σ : Nat → ℂ) : Except Err (WithBot ℂ) :=
  if N % 2 = 0 then
    let n := N / 2
    let r := fun i => if i < n then σ i else 0
    let c := fun i => if i < n then σ (n + i) else 0
    .ok (pureRBM act n Fp P.WS P.hS P.vS true r c + scale Complex.I (pureRBM act n Fp P.WA P.hA P.vA false r c)
      + mixedRBM act n Fm P.US P.UA P.b r c)
  else .error .valueError

end Verif.Machines

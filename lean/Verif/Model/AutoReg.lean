import Mathlib.Analysis.SpecialFunctions.Log.Basic
import Mathlib.Algebra.BigOperators.Intervals
import Mathlib.Analysis.Complex.Basic

/-! Models of `netket/sampler/autoreg.py` (batch_choice, ARDirectSampler), `netket/models/autoreg.py`
(l2_normalize, conditionals, log-amplitude), `netket/sampler/exact.py` and the masked layers of
`netket/nn/masked_linear.py`.

Batched arrays are treated row by row; real parts of log-amplitudes are real numbers. -/

namespace Verif.AutoReg

/-! ### batch_choice -/

section
variable {R : Type} [Field R] [LinearOrder R]

/-- autoreg.py:39, `p.cumsum(axis=1)` for one row: entry `k` is `p_0 + ... + p_k`. -/
def cumsum (p : List R) : List R := (List.range p.length).map fun k => (p.take (k + 1)).sum

/-- autoreg.py:39-41: index chosen for the row `p` by the uniform number `u`. -/
def choiceIndex (p : List R) (u : R) : Nat :=
  let c := cumsum p
  let r := c.getLastD 0 * u
  c.countP fun x => decide (r > x)

/-- autoreg.py:42: `a[indices]`, jax gather (clamped). -/
def batchChoice {A : Type} (a : List A) (p : List R) (u : R) : Option A :=
  a[min (choiceIndex p u) (a.length - 1)]?

end

/-- `jax.random.choice(key, n, p=p, replace=True)` (jax, called in exact.py:58-64 and 137-143):
    `searchsorted(cumsum(p), cumsum(p)[-1] * (1 - uniform))`, the number of entries of the cumulative sum
    smaller than that value. -/
def jaxChoice {R : Type} [Field R] [LinearOrder R] (p : List R) (u : R) : Nat :=
  let c := cumsum p
  let r := c.getLastD 0 * (1 - u)
  c.countP fun x => decide (x < r)

/-! ### exact sampler -/

/-- exact.py:30-32. -/
structure ExactState (R Key : Type) where
  pdf : List R
  rng : Key

/-- exact.py:54-61 (`_init_state`): the pdf is all zeros. -/
def exactInit {R Key : Type} [Zero R] (nStates : Nat) (seed : Key) : ExactState R Key :=
  ⟨List.replicate nStates 0, seed⟩

/-- exact.py:63-69 (`_reset`), `amps = to_array(hilbert, machine.apply, parameters)`. -/
noncomputable def exactReset {Key : Type} (amps : List ℂ) (pow : Nat) (st : ExactState ℝ Key) :
    ExactState ℝ Key :=
  let pdf := amps.map fun a => ‖a ^ pow‖
  { st with pdf := pdf.map fun x => x / pdf.sum }

/-- exact.py:71-94 (`_sample_next`): `split` and `uniforms` stand for `jax.random`, `toState` for
    `hilbert.numbers_to_states`. -/
def exactNext {R Key S : Type} [Field R] [LinearOrder R] (split : Key → Key × Key)
    (uniforms : Key → Nat → List R) (toState : Nat → S) (nChains : Nat) (st : ExactState R Key) :
    ExactState R Key × List S :=
  let r := split st.rng
  let numbers := (uniforms r.2 nChains).map (jaxChoice st.pdf)
  ({ st with rng := r.1 }, numbers.map toState)

/-- exact.py:125-160 (`_sample_chain`): all numbers of the chain are drawn from one key and the result is
    reshaped to `(chain_length, n_chains_per_rank)`. -/
def exactChain {R Key S : Type} [Field R] [LinearOrder R] (split : Key → Key × Key)
    (uniforms : Key → Nat → List R) (toState : Nat → S) (nChains len : Nat) (st : ExactState R Key) :
    List (List S) × ExactState R Key :=
  let r := split st.rng
  let numbers := (uniforms r.2 (len * nChains)).map (jaxChoice st.pdf)
  let samples := numbers.map toState
  ((List.range len).map fun i => (samples.drop (i * nChains)).take nChains, { st with rng := r.1 })

/-! ### autoregressive networks -/

/-- models/autoreg.py:168-174, one row along the last axis (real parts). -/
noncomputable def l2Normalize (x : List ℝ) : List ℝ :=
  x.map fun v => v - 1 / 2 * Real.log ((x.map fun w => Real.exp (2 * w)).sum)

/-- models/autoreg.py:177-192: `net t σ` is the output of the last layer at site `t` on the inputs `σ`
    (a list of `local_size` numbers). -/
noncomputable def condLogPsi (net : Nat → List Int → List ℝ) (t : Nat) (σ : List Int) : List ℝ :=
  l2Normalize (net t σ)

/-- models/autoreg.py:195-201. -/
noncomputable def conditional (net : Nat → List Int → List ℝ) (t : Nat) (σ : List Int) : List ℝ :=
  (condLogPsi net t σ).map fun v => Real.exp (2 * v)

/-- models/autoreg.py:220-224, spins; `n = local_size`. -/
def spinNumber (n : Nat) (x : Int) : Nat := ((x + n - 1) / 2).toNat

/-- models/autoreg.py:227-230, Fock. -/
def fockNumber (x : Int) : Nat := x.toNat

/-- models/autoreg.py:204-217: the (real part of the) log-amplitude of `σ`; `number` is
    `_local_states_to_numbers`. -/
noncomputable def logPsi (net : Nat → List Int → List ℝ) (number : Int → Nat) (σ : List Int) : ℝ :=
  ((List.range σ.length).map fun t => (condLogPsi net t σ).getD (number (σ.getD t 0)) 0).sum

/-- sampler/autoreg.py:97-112, one step of the scan for one row. -/
noncomputable def arStep (net : Nat → List Int → List ℝ) (ls : List Int) (σ : List Int) (t : Nat)
    (u : ℝ) : List Int :=
  σ.set t ((batchChoice ls (conditional net t σ) u).getD 0)

/-- sampler/autoreg.py:118-132 for one row with `N` sites; `us t` is the uniform number drawn at
    site `t`. `sampler.machine_pow` is not used. -/
noncomputable def arSample (net : Nat → List Int → List ℝ) (ls : List Int) (N : Nat)
    (us : Nat → ℝ) : List Int :=
  (List.range N).foldl (fun σ t => arStep net ls σ t (us t)) (List.replicate N 0)

/-! ### masked layers -/

section
variable {R : Type} [CommSemiring R]

/-- masked_linear.py:85-86: `triu(ones(size,size), exclusive)`. -/
def triu (exclusive : Bool) (s t : Nat) : R :=
  if s + (if exclusive then 1 else 0) ≤ t then 1 else 0

/-- masked_linear.py:87: `kron(mask, ones(in_features, features))`. -/
def kronMask (exclusive : Bool) (inF outF : Nat) (row col : Nat) : R :=
  triu exclusive (row / inF) (col / outF)

/-- masked_linear.py:82-110: output feature `f` of site `t`; `x s g` is input feature `g` of site `s`;
    the input is flattened to `size * inF` numbers and multiplied by the masked kernel. -/
def maskedDense (exclusive : Bool) (size inF outF : Nat) (kernel : Nat → Nat → R)
    (bias : Nat → Nat → R) (x : Nat → Nat → R) (t f : Nat) : R :=
  ((List.range (size * inF)).map fun r =>
    x (r / inF) (r % inF) * (kronMask exclusive inF outF r (t * outF + f)
      * kernel r (t * outF + f))).sum + bias t f

/-- masked_linear.py:180-191: the input, without its last `dilation` sites if exclusive, padded on the
    left with zeros: number of sites and entry `p` (feature `g`). `K` is `self.kernel_size -
    self.exclusive`. -/
def conv1dPadLen (exclusive : Bool) (size K dil : Nat) : Nat :=
  (K - (if exclusive then 0 else 1)) * dil + (if exclusive then size - dil else size)

/-- masked_linear.py:180-191, entry `p` of the padded input. -/
def conv1dPad (exclusive : Bool) (size K dil : Nat) (x : Nat → Nat → R) (p g : Nat) : R :=
  let off := (K - (if exclusive then 0 else 1)) * dil
  let len := if exclusive then size - dil else size
  if off ≤ p ∧ p < off + len then x (p - off) g else 0

/-- `lax.conv_general_dilated(..., padding="VALID", rhs_dilation=dil)`: number of output sites for a
    kernel with `K ≥ 1` taps (netket/nn/masked_linear.py:194-202, 308-316). -/
def convLen (padLen K dil : Nat) : Nat := padLen - (K - 1) * dil

/-- masked_linear.py:144-214, output feature `f` of site `t`; `kernel k c f`; grouped convolution with
    `groups = feature_group_count`. -/
def maskedConv1d (exclusive : Bool) (size K dil inF outF groups : Nat)
    (kernel : Nat → Nat → Nat → R) (bias : Nat → R) (x : Nat → Nat → R) (t f : Nat) : R :=
  ((List.range K).map fun k => ((List.range (inF / groups)).map fun c =>
    conv1dPad exclusive size K dil x (t + k * dil) (f / (outF / groups) * (inF / groups) + c)
      * kernel k c f).sum).sum + bias f

/-- masked_linear.py:250-254. -/
def conv2dMask (exclusive : Bool) (kh kw : Nat) (a b : Nat) : R :=
  if a + 1 = kh ∧ kw / 2 + (if exclusive then 0 else 1) ≤ b then 0 else 1

/-- masked_linear.py:297-305, entry `(p, q)` of the padded input. -/
def conv2dPad (H W kh kw dh dw : Nat) (x : Nat → Nat → Nat → R) (p q g : Nat) : R :=
  let offh := (kh - 1) * dh
  let offw := kw / 2 * dw
  if (offh ≤ p ∧ p < offh + H) ∧ (offw ≤ q ∧ q < offw + W) then x (p - offh) (q - offw) g else 0

/-- masked_linear.py:297-305: padded width. -/
def conv2dPadW (W kw dw : Nat) : Nat := kw / 2 * dw + W + (kw - 1) / 2 * dw

/-- masked_linear.py:256-328, output at `(i, j)`, feature `f`. -/
def maskedConv2d (exclusive : Bool) (H W kh kw dh dw inF outF groups : Nat)
    (kernel : Nat → Nat → Nat → Nat → R) (bias : Nat → R) (x : Nat → Nat → Nat → R)
    (i j f : Nat) : R :=
  ((List.range kh).map fun a => ((List.range kw).map fun b => ((List.range (inF / groups)).map fun c =>
    conv2dPad H W kh kw dh dw x (i + a * dh) (j + b * dw) (f / (outF / groups) * (inF / groups) + c)
      * (conv2dMask exclusive kh kw a b * kernel a b c f)).sum).sum).sum + bias f

/-- models/autoreg.py:186-189: activation between layers, each layer given as a function on
    (site, feature) arrays. -/
def stack (act : R → R) : List ((Nat → Nat → R) → Nat → Nat → R) → (Nat → Nat → R) → Nat → Nat → R
  | [], x => x
  | l :: ls, x => ls.foldl (fun y l => l fun t f => act (y t f)) (l x)

end

end Verif.AutoReg

import Verif.Model.DiscreteHilbert
import Mathlib.Algebra.Order.Floor.Ring
import Mathlib.Data.Rat.Floor

/-! Models of `netket/hilbert/random/*.py`: `flip_state_scalar` of every space
(`flip_state_batch` is the same row by row, base.py:124-131, custom.py:49-63).

Local values are integers (spins 2*m, occupations, labels of a CustomHilbert; only their order matters).
One `key` gives either one uniform number or one bounded random integer. -/

namespace Verif.Flip

/-- what a jax PRNG key delivers: `jax.random.uniform(key)` and `jax.random.randint(key, (), 0, m)`
(netket/hilbert/random/fock.py:72; custom.py:43). -/
structure Draw where
  uniform : ℚ
  randint : Nat → Nat

/-- range of the jax generators; `randint` with an empty range returns `minval`
(netket/hilbert/random/fock.py:72; custom.py:43). -/
structure Draw.Valid (d : Draw) : Prop where
  nonneg : 0 ≤ d.uniform
  lt_one : d.uniform < 1
  randint_lt : ∀ m, 0 < m → d.randint m < m

/-- jax gather `x[i]` on a 1d array: negative indices wrap once, then clamp (jax default mode)
(netket/hilbert/random/custom.py:46). -/
def jaxIdx (n : Nat) (i : Int) : Nat :=
  min (if i < 0 then i + n else i).toNat (n - 1)

/-- jax gather (netket/hilbert/random/custom.py:46). -/
def jaxGet (x : List Int) (i : Int) : Int := (x[jaxIdx x.length i]?).getD 0

/-- `jax.ops.index_update(x, i, v)`: negative indices wrap once, updates out of bounds are dropped
(netket/hilbert/random/custom.py:46; fock.py:76). -/
def jaxSet (x : List Int) (i : Int) (v : Int) : List Int :=
  let j := if i < 0 then i + x.length else i
  if 0 ≤ j ∧ j < x.length then x.set j.toNat v else x

/-- random/qubit.py:29-30: `-x[i] + 1`. -/
def qubitLocal (_ : Draw) (x : Int) : Int := -x + 1

/-- random/spin.py:106-108 (`_flipat_N2`, s = 1/2). -/
def spinHalfLocal (_ : Draw) (x : Int) : Int := -x

/-- random/spin.py:111-120 (`_flipat_generic`); `t = 2 s`, `n_states - 1 = t`. -/
def spinLocal (t : Nat) (d : Draw) (x : Int) : Int :=
  let new := ⌊d.uniform * t⌋ * 2 - t
  new + 2 * (if new ≥ x then 1 else 0)

/-- random/spin.py:98-103. -/
def spinFlipLocal (t : Nat) : Draw → Int → Int :=
  if t = 1 then spinHalfLocal else spinLocal t

/-- random/fock.py:64-76. -/
def fockLocal (nmax : Nat) (d : Draw) (x : Int) : Int :=
  if nmax = 0 then x
  else
    let new := ⌊d.uniform * nmax⌋
    new + (if new ≥ x then 1 else 0)

/-- random/custom.py:39-46: `local_states[rs + (local_states[rs] >= σ[indx])]`. -/
def customLocal (ls : List Int) (d : Draw) (x : Int) : Int :=
  let rs := d.randint (ls.length - 1)
  jaxGet ls (rs + (if jaxGet ls rs ≥ x then 1 else 0))

/-- `index_update(σ, i, f(σ[i])), σ[i]`, the shape shared by qubit.py:30, spin.py:107/119,
    fock.py:76, custom.py:46. -/
def flipAt (f : Draw → Int → Int) (d : Draw) (σ : List Int) (i : Int) : List Int × Int :=
  (jaxSet σ i (f d (jaxGet σ i)), jaxGet σ i)

/-- a homogeneous factor: its local flip, its size
(netket/hilbert/random/tensor_hilbert.py:34-49). -/
structure Factor where
  flip : Draw → Int → Int
  size : Nat

/-- tensor_hilbert.py:39-41: `_hilbert_i`, the factor of every site; `k` counts factors. -/
def hilbertI : List Factor → Nat → List Nat
  | [], _ => []
  | h :: hs, k => List.replicate h.size k ++ hilbertI hs (k + 1)

/-- tensor_hilbert.py:43-45: `_cum_indices[i]`. -/
def cumIndex (hs : List Factor) (i : Nat) : Nat := ((hs.take i).map Factor.size).sum

/-- random/tensor_hilbert.py:34-48: the branch of factor `k`. -/
def tensorBranch (hs : List Factor) (k : Nat) (d : Draw) (σ : List Int) (i : Int) :
    List Int × Int :=
  match hs[k]? with
  | none => (σ, 0)
  | some h =>
    let a := cumIndex hs k
    let r := flipAt h.flip d ((σ.drop a).take h.size) (i - a)
    (σ.take a ++ r.1 ++ σ.drop (a + h.size), r.2)

/-- random/tensor_hilbert.py:51-62: `lax.switch(index, branches, ...)`, the index is clamped. -/
def tensorFlip (hs : List Factor) (d : Draw) (σ : List Int) (i : Int) : List Int × Int :=
  let br := hilbertI hs 0
  match br[min i.toNat (br.length - 1)]? with
  | none => (σ, 0)
  | some k => tensorBranch hs k d σ i

/-- random/doubled.py:42-49, unconstrained homogeneous physical space. -/
def doubledHomogFlip (f : Draw → Int → Int) := flipAt f

/-- random/doubled.py:52-67: the fallback; the whole doubled state is passed to the physical
    space's flip and `hilb.size` (the doubled size) is subtracted. -/
def doubledFallback (physFlip : Draw → List Int → Int → List Int × Int) (physSize : Nat)
    (d : Draw) (σ : List Int) (i : Int) : List Int × Int :=
  if i < physSize then physFlip d σ i else physFlip d σ (i - (2 * physSize : Nat))

end Verif.Flip

import Verif.Model.DiscreteHilbert
import Mathlib.Algebra.Order.Floor.Ring
import Mathlib.Data.Rat.Floor

/-! Model of the samplers of `netket/legacy/sampler` (numpy versions) and of `netket/legacy/random.py`.

Simplifications: floats are elements of an ordered field `R`; only the real part of `log_val` enters the
acceptance tests, so log values are kept in `R`. Random numbers are arguments. `numba` does not check
indices: a read outside an array is `none`. The array `_state` lives in a heap, because `__next__` returns
the array itself. -/

namespace Verif.Legacy

open Verif.Hilbert (Err)

section random
variable {R : Type} [Field R] [LinearOrder R] [IsStrictOrderedRing R] [FloorRing R]

/-- legacy/random.py:49-65 (`randint`), `x` is the number drawn by `rand`. -/
def randint (x : R) (low high : Int) : Int := ⌊x * ((high : R) - (low : R))⌋ + low

end random

/-! ### kernels -/

/-- sampler/numpy/local_kernel.py:10 (`_np.sort`). -/
def sortStates (ls : List Int) : List Int := ls.mergeSort (fun a b => decide (a ≤ b))

/-- sampler/numpy/local_kernel.py:22-24, the new value of the site. -/
def localValue (ls : List Int) (rs : Nat) (v : Int) : Option Int :=
  match ls[rs]? with
  | none => none
  | some a => ls[rs + (if a ≥ v then 1 else 0)]?

/-- sampler/numpy/local_kernel.py:14-24 for one row: site `si`, draw `rs`. -/
def localRow (ls : List Int) (si rs : Nat) (σ : List Int) : Option (List Int) :=
  match σ[si]? with
  | none => none
  | some v => (localValue ls rs v).map (fun w => σ.set si w)

/-- sampler/numpy/local_kernel.py:28-33 for one row: one draw per site. -/
def localRandomRow (ls : List Int) (rs : List Nat) : Option (List Int) :=
  rs.mapM (fun r => ls[r]?)

/-- sampler/numpy/exchange_kernel.py:13-29 for one row (`k`): the sites of cluster `cl` are exchanged. -/
def exchangeSites (clusters : List (Nat × Nat)) (cl : Nat) (σ : List Int) : Option (List Int) :=
  match clusters[cl]? with
  | none => none
  | some c =>
    match σ[c.1]?, σ[c.2]? with
    | some a, some b => some ((σ.set c.1 b).set c.2 a)
    | _, _ => none

/-- sampler/metropolis_exchange.py:6-20 (`_compute_clusters`), `dist` is `graph.distances()`. -/
def clustersOf (dist : Nat → Nat → Nat) (n dMax : Nat) : List (Nat × Nat) :=
  (List.range n).flatMap (fun i =>
    ((List.range n).filter (fun j => decide (i < j) && decide (dist i j ≤ dMax))).map (fun j => (i, j)))

/-- sampler/metropolis_exchange.py:77-88: which clusters the sampler is built with. -/
def exchangeClusters (clusters : Option (List (Nat × Nat))) (graph : Option (Nat × (Nat → Nat → Nat)))
    (hilbertSize dMax : Nat) : Except Err (List (Nat × Nat)) :=
  match clusters, graph with
  | none, some g => if g.1 = hilbertSize then .ok (clustersOf g.2 g.1 dMax) else .error .assertionError
  | some c, none => .ok c
  | _, _ => .error .valueError

/-- sampler/numpy/hamiltonian_kernel.py:16-28, 33-41 for one row: the connected configuration number `r`
    and the reported correction; `conn x` are the configurations returned by `get_conn_flattened`. -/
def hamRow {X R : Type} [Field R] (log : R → R) (conn : X → List X) (r : Nat) (x : X) : Option (X × R) :=
  match (conn x)[r]? with
  | none => none
  | some y => some (y, log ((conn x).length : R) - log ((conn y).length : R))

/-! ### MetropolisHastings -/

section mh
variable {X R K : Type} [Field R] [LinearOrder R]

/-- sampler/numpy/metropolis_hastings.py:80-85, the test of one row (with `beta` in
    metropolis_hastings_pt.py:110-118). -/
def acceptRow (exp : R → R) (pow l1 l corr u : R) : Bool := decide (exp (pow * (l1 - l + corr)) > u)

/-- sampler/numpy/metropolis_hastings.py:79-90: rows, log values, number of acceptances. -/
def accKernel (exp : R → R) (pow : R) :
    List X → List X → List R → List R → List R → List R → List X × List R × Nat
  | x :: xs, y :: ys, l :: ls, l1 :: ls1, c :: cs, u :: us =>
    let r := accKernel exp pow xs ys ls ls1 cs us
    if acceptRow exp pow l1 l c u then (y :: r.1, l1 :: r.2.1, r.2.2 + 1)
    else (x :: r.1, l :: r.2.1, r.2.2)
  | xs, _, ls, _, _, _ => (xs, ls, 0)

/-- the machine, the kernel and the generator used by a sampler: `transition` returns the proposals and
    the corrections (metropolis_hastings.py:109), `randomState` fills the rows (66). -/
structure Env (X R K : Type) where
  exp : R → R
  logVal : X → R
  transition : K → List X → List X × List R × K
  uniform : K → Nat → List R × K
  randomState : K → Nat → List X × K
  inputSize : Nat
  zeroRow : X

/-- attributes of a `MetropolisHastings` object (metropolis_hastings.py:13-70, abstract_sampler.py:8-10,
    31-36); `state` is the address of the array `_state`, `sampleShape0` the number `sample_shape[0]`. -/
structure Mh (R : Type) where
  nChains : Nat
  sampleShape0 : Nat
  state : Nat
  logValues : List R
  sweepSize : Nat
  pow : R
  accepted : Nat
  total : Nat

/-- the arrays of configurations in memory, and the next free address
(netket/legacy/sampler/numpy/metropolis_hastings.py:13-42, 92-127). -/
structure Heap (X : Type) where
  get : Nat → List X
  next : Nat

/-- write the array at address `a` (netket/legacy/sampler/numpy/metropolis_hastings.py:74-127). -/
def Heap.set (h : Heap X) (a : Nat) (v : List X) : Heap X :=
  { h with get := fun b => if b = a then v else h.get b }

/-- metropolis_hastings.py:30-42 (setter of `n_chains`): the arrays are allocated anew, filled with
    zeros; nothing else of the sampler is touched. -/
def setChains (env : Env X R K) (s : Mh R) (h : Heap X) (n : Int) : Except Err (Mh R × Heap X) :=
  if n < 0 then .error .valueError
  else .ok ({ s with nChains := n.toNat, state := h.next, logValues := List.replicate n.toNat 0 },
    { get := fun b => if b = h.next then List.replicate n.toNat env.zeroRow else h.get b,
      next := h.next + 1 })

/-- metropolis_hastings.py:58-62 (setter of `sweep_size`): the attribute is written before the check. -/
def setSweep (env : Env X R K) (n : Option Int) : Int × Option Err :=
  let v := n.getD env.inputSize
  (v, if v < 0 then some .valueError else none)

/-- metropolis_hastings.py:64-70 (`reset`). -/
def mhReset (env : Env X R K) (initRandom : Bool) (k : K) (s : Mh R) (h : Heap X) :
    Mh R × Heap X × K :=
  let r := env.randomState k s.nChains
  let h' := if initRandom then h.set s.state r.1 else h
  ({ s with logValues := (h'.get s.state).map env.logVal, accepted := 0, total := 0 }, h',
    if initRandom then r.2 else k)

/-- metropolis_hastings.py:106-121, one pass of the loop: rows, log values, acceptances, generator. -/
def mhPass (env : Env X R K) (pow : R) (c : List X × List R × Nat × K) : List X × List R × Nat × K :=
  let t := env.transition c.2.2.2 c.1
  let u := env.uniform t.2.2 c.1.length
  let r := accKernel env.exp pow c.1 t.1 c.2.1 (t.1.map env.logVal) t.2.1 u.1
  (r.1, r.2.1, c.2.2.1 + r.2.2, u.2)

/-- metropolis_hastings.py:106. -/
def mhLoop (env : Env X R K) (pow : R) : Nat → List X × List R × Nat × K → List X × List R × Nat × K
  | 0, c => c
  | n + 1, c => mhLoop env pow n (mhPass env pow c)

/-- metropolis_hastings.py:92-126 (`__next__`): the array `_state` is changed in place and its address
    returned. -/
def mhNext (env : Env X R K) (k : K) (s : Mh R) (h : Heap X) : Nat × Mh R × Heap X × K :=
  let c := mhLoop env s.pow s.sweepSize (h.get s.state, s.logValues, 0, k)
  (s.state, { s with logValues := c.2.1, accepted := s.accepted + c.2.2.1,
                     total := s.total + s.sweepSize * s.nChains },
    h.set s.state c.1, c.2.2.2)

/-- abstract_sampler.py:46-49: addresses yielded by the generator after `reset`. -/
def samplesLoop (env : Env X R K) : Nat → K → Mh R → Heap X → List Nat × Mh R × Heap X × K
  | 0, k, s, h => ([], s, h, k)
  | n + 1, k, s, h =>
    let r := mhNext env k s h
    let t := samplesLoop env n r.2.2.2 r.2.1 r.2.2.1
    (r.1 :: t.1, t.2)

/-- abstract_sampler.py:42-49 (`samples`), consumed by `list`. -/
def samplesOf (env : Env X R K) (n : Nat) (initRandom : Bool) (k : K) (s : Mh R) (h : Heap X) :
    List Nat × Mh R × Heap X × K :=
  let r := mhReset env initRandom k s h
  samplesLoop env n r.2.2 r.1 r.2.1

/-- abstract_sampler.py:57-58: each array returned is copied into `samples[i]`. -/
def generateLoop (env : Env X R K) : Nat → K → Mh R → Heap X → List (List X) × Mh R × Heap X × K
  | 0, k, s, h => ([], s, h, k)
  | n + 1, k, s, h =>
    let r := mhNext env k s h
    let t := generateLoop env n r.2.2.2 r.2.1 r.2.2.1
    (r.2.2.1.get r.1 :: t.1, t.2)

/-- abstract_sampler.py:51-59 (`generate_samples`, without an output array): the rows must have the shape
    `sample_shape` (numpy assignment `samples[i] = ...`; a single row is broadcast). -/
def generateSamples (env : Env X R K) (n : Nat) (initRandom : Bool) (k : K) (s : Mh R) (h : Heap X) :
    Except Err (List (List X)) × Mh R × Heap X × K :=
  let r := mhReset env initRandom k s h
  let t := generateLoop env n r.2.2 r.1 r.2.1
  (if n = 0 ∨ s.nChains = s.sampleShape0 then .ok t.1
   else if s.nChains = 1 then .ok (t.1.map fun rows => rows.flatMap (List.replicate s.sampleShape0))
   else .error .valueError, t.2)

/-- metropolis_hastings.py:13-24 (constructor): the array allocated by the setter, the default power. -/
def mhInit (env : Env X R K) (nChains : Int) (sweep : Option Int) (k : K) (h : Heap X) :
    Except Err (Mh R × Heap X × K) :=
  let s0 : Mh R :=
    { nChains := 0, sampleShape0 := nChains.toNat, state := 0, logValues := [], sweepSize := 0, pow := 2,
      accepted := 0, total := 0 }
  match setChains env s0 h nChains with
  | .error e => .error e
  | .ok (s, h') =>
    match setSweep env sweep with
    | (_, some e) => .error e
    | (v, none) => .ok (mhReset env true k { s with sweepSize := v.toNat } h')

/-- metropolis_hastings.py:128-131 on one process; division by zero of two numpy numbers is NaN. -/
def acceptance (s : Mh R) : Option R := if s.total = 0 then none else some ((s.accepted : R) / (s.total : R))

end mh

/-! ### MetropolisHastingsPt -/

section pt
variable {R : Type} [Field R] [LinearOrder R]

/-- metropolis_hastings_pt.py:58-61 (`_beta`). -/
def ladder (n i : Nat) : R := 1 - (i : R) / (n : R)

/-- attributes of `MetropolisHastingsPt` used by the exchange step: `_beta`, `_accepted_samples`,
    `_beta_prob`, and `_beta_stats` (metropolis_hastings_pt.py:30-35, 64-65). -/
structure Pt (R : Type) where
  beta : Nat → R
  acc : Nat → R
  prob : Nat → R
  pos : Nat
  mean : R
  m2 : R
  cnt : R

/-- tuple assignment `a[i], a[j] = a[j], a[i]` (metropolis_hastings_pt.py:202-206). -/
def swapAt {α : Type} (f : Nat → α) (i j : Nat) : Nat → α :=
  fun k => if k = j then f i else if k = i then f j else f k

/-- `range(swap_order, n_replicas, 2)` (metropolis_hastings_pt.py:185, 195). -/
def evens (order n : Nat) : List Nat := (List.range ((n - order + 1) / 2)).map (fun k => order + 2 * k)

/-- metropolis_hastings_pt.py:186, 196. -/
def partner (n i : Nat) : Nat := (i + 1) % n

/-- metropolis_hastings_pt.py:185-188; `old` are the entries left in the temporary array. -/
def proposedBeta (n order : Nat) (beta old : Nat → R) : Nat → R :=
  (evens order n).foldl (fun p i => fun k => if k = partner n i then beta i
    else if k = i then beta (partner n i) else p k) old

/-- metropolis_hastings_pt.py:190-193. -/
def exchangeProbs (exp : R → R) (pow : R) (lv beta prop : Nat → R) : Nat → R :=
  fun i => exp (pow * (prop i - beta i) * lv i)

/-- metropolis_hastings_pt.py:195-211, one pass with the random number `u`. -/
def exchangeOne (n : Nat) (p : Pt R) (i : Nat) (u : R) : Pt R :=
  let inn := partner n i
  let pr := p.prob i * p.prob inn
  let p := { p with prob := fun k => if k = i then pr else p.prob k }
  if pr > u then
    { p with beta := swapAt p.beta i inn, acc := swapAt p.acc i inn,
             pos := if p.pos = i then inn else if p.pos = inn then i else p.pos }
  else p

/-- metropolis_hastings_pt.py:195-211. -/
def exchangeLoop (n : Nat) : List Nat → List R → Pt R → Pt R
  | i :: is, u :: us, p => exchangeLoop n is us (exchangeOne n p i u)
  | _, _, p => p

/-- metropolis_hastings_pt.py:213-220. -/
def welford (p : Pt R) : Pt R :=
  let cnt := p.cnt + 1
  let delta := (p.pos : R) - p.mean
  let mean := p.mean + delta / cnt
  let delta2 := (p.pos : R) - mean
  { p with cnt := cnt, mean := mean, m2 := p.m2 + delta * delta2 }

/-- metropolis_hastings_pt.py:177-220 (`_exchange_step_kernel`). -/
def exchangeStep (exp : R → R) (pow : R) (n order : Nat) (lv old : Nat → R) (us : List R) (p : Pt R) :
    Pt R :=
  welford (exchangeLoop n (evens order n) us
    { p with prob := exchangeProbs exp pow lv p.beta (proposedBeta n order p.beta old) })

/-- metropolis_hastings_pt.py:85-94 (`reset`): `_beta_stats[0]` is kept. -/
def ptReset (p : Pt R) : Pt R := { p with acc := fun _ => 0, mean := 0, m2 := 0, cnt := 0 }

/-- metropolis_hastings_pt.py:20-37 (constructor): `_beta_stats` is zero. -/
def ptInit (n : Nat) : Pt R :=
  { beta := fun i => ladder n i, acc := fun _ => 0, prob := fun _ => 0, pos := 0, mean := 0, m2 := 0,
    cnt := 0 }

/-- metropolis_hastings_pt.py:43-65 (setter of `n_replicas`): `_beta` is written, `_beta_stats` not. -/
def setReplicas (n : Int) (p : Pt R) : Except Err (Pt R) :=
  if n < 1 then .error .valueError else .ok { p with beta := fun i => ladder n.toNat i, prob := fun _ => 0 }

/-- metropolis_hastings_pt.py:173: which replica `__next__` returns (numpy checks this index). -/
def returned (n : Nat) (p : Pt R) : Except Err Nat := if p.pos < n then .ok p.pos else .error .indexError

/-- metropolis_hastings_pt.py:234-236; a python float divided by a python float zero raises, but
    `_beta_stats[1]` is a numpy float: NaN or infinite (`none`). -/
def positionStat (n : Nat) (p : Pt R) : Option R :=
  if n = 1 then none else some (p.mean / ((n : R) - 1) - 1 / 2)

end pt

/-! ### ExactSampler -/

section exact
variable {R : Type} [Field R] [LinearOrder R]

/-- exact_sampler.py:30-36, 39-40: attributes; `prob` is `_prob`. -/
structure Exact (R : Type) where
  amps : List R
  pow : Nat
  prob : List R

/-- exact_sampler.py:38-40 (`reset`); `amps` are the absolute values of `machine.to_array()`. -/
def exactReset (s : Exact R) : Exact R :=
  let w := s.amps.map (fun a => |a| ^ s.pow)
  { s with prob := w.map (fun x => x / w.sum) }

/-- exact_sampler.py:18-36. -/
def exactInit (amps : List R) : Exact R := exactReset { amps := amps, pow := 2, prob := [] }

/-- exact_sampler.py:67-70 (setter of `machine_pow`). -/
def exactSetPow (m : Nat) (s : Exact R) : Exact R := exactReset { s with pow := m }

/-- new values of the parameters of the machine change `to_array()`, nothing in the sampler
    (exact_sampler.py:39 is the only place where it is read). -/
def setAmps (amps : List R) (s : Exact R) : Exact R := { s with amps := amps }

/-- exact_sampler.py:48-61 (`generate_samples`): the probabilities handed to `choice`. -/
def exactGenerateLaw (s : Exact R) : List R := s.prob

/-- abstract_sampler.py:42-49 (`samples`): the probabilities handed to `choice` by `__next__` after the
    `reset`. -/
def exactSamplesLaw (s : Exact R) : List R := (exactReset s).prob

end exact

end Verif.Legacy

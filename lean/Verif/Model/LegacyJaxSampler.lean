import Verif.Model.LegacySampler

/-! Model of the JAX samplers of the legacy interface: netket/legacy/sampler/jax/*.py, netket/legacy/sampler/_kernels.py and the
constructors in netket/legacy/sampler/*.py that choose between the versions.

Keys of `jax.random` are elements of a type `K`; `split`, `randint` and `uniform` are arbitrary functions of the key and of the position
in the result (and of the number of values). Floats are elements of an ordered field. JAX reads outside an array at the nearest
entry and drops writes outside. Simplified: shapes are numbers of rows and lengths of rows. -/

namespace Verif.LegacyJs

open Verif.Hilbert (Err)

/-- a configuration (metropolis_hastings.py:40). -/
abbrev Row := List Int

/-- `jax.random`: `split k n i` is key `i` of `split(k, n)`, `randint k n i` entry `i` of integers in `[0, n)`, `uniform k i` entry `i`
    (metropolis_hastings.py:47, 54, local_kernel.py:12-14, 22-26). -/
structure Rng (K R : Type) where
  /-- keys -/
  split : K → Nat → Nat → K
  /-- integers -/
  randint : K → Nat → Nat → Nat
  /-- numbers in [0, 1) -/
  uniform : K → Nat → R

/-- reading an entry of a JAX array (local_kernel.py:17, exchange_kernel.py:20-23). -/
def jget (l : List Int) (i : Nat) : Int := l.getD (min i (l.length - 1)) 0

/-- local_kernel.py:16-18: the proposal from the two numbers drawn. -/
def localMove (ls : List Int) (si rs : Nat) (σ : Row) : Row :=
  σ.set si (jget ls (rs + if jget ls rs ≥ jget σ si then 1 else 0))

/-- exchange_kernel.py:19-24: the proposal from the number of the cluster. -/
def exchangeMove (clusters : List (Nat × Nat)) (cl : Nat) (σ : Row) : Row :=
  let c := clusters.getD (min cl (clusters.length - 1)) (0, 0)
  (σ.set c.1 (jget σ c.2)).set c.2 (jget σ c.1)

/-- a kernel: proposals from a key, and random states.  The second argument of `random` is what Python-level random functions return
    while the function is traced (metropolis_hastings.py:13-14). -/
structure Kernel (K : Type) where
  /-- `transition(key, state)` -/
  transition : K → Row → Row
  /-- `random_state(key, state)` -/
  random : K → Row → K × Row

section
variable {K R : Type}

/-- local_kernel.py:4-28: `_JaxLocalKernel(local_states, size)`. -/
def localKernel (g : Rng K R) (raw : List Int) (size : Nat) : Kernel K where
  transition key σ :=
    let ls := Legacy.sortStates raw
    localMove ls (g.randint (g.split key 2 0) size 0) (g.randint (g.split key 2 1) (ls.length - 1) 0) σ
  random key _ :=
    let ls := Legacy.sortStates raw
    (g.split key 2 0, (List.range size).map fun i => jget ls (g.randint (g.split key 2 1) ls.length i))

/-- exchange_kernel.py:5-27: `_JaxExchangeKernel(hilbert, clusters)`: `hilbert.random_state()` is not a JAX function. -/
def exchangeKernel (g : Rng K R) (clusters : List (Nat × Nat)) : Kernel K where
  transition key σ := exchangeMove clusters (g.randint key clusters.length 0) σ
  random key drawn := (key, drawn)

variable [Field R] [LinearOrder R]

/-- the walker: key, states, log-probabilities (metropolis_hastings.py:43). -/
structure Walker (K R : Type) where
  /-- key -/
  key : K
  /-- one row per chain -/
  rows : List Row
  /-- `log_prob` -/
  logs : List R

/-- metropolis_hastings.py:42-66: `chains_one_step`; `lp` is the real part of the log-amplitude. -/
def oneStep (g : Rng K R) (exp : R → R) (lp : Row → R) (kern : Kernel K) (pow : R) (w : Walker K R) : Walker K R :=
  let n := w.rows.length
  let ks := g.split w.key (2 + n)
  let prop := w.rows.mapIdx fun i σ => kern.transition (ks (2 + i)) σ
  let plog := prop.map fun σ => pow * lp σ
  let acc := (List.range n).map fun i => decide (g.uniform (ks 1) i < exp (plog.getD i 0 - w.logs.getD i 0))
  { key := ks 0
    rows := (List.range n).map fun i => if acc.getD i false then prop.getD i [] else w.rows.getD i []
    logs := (List.range n).map fun i => if acc.getD i false then plog.getD i 0 else w.logs.getD i 0 }

/-- metropolis_hastings.py:69-74: `fori_loop(0, sweep_size, …)`; no step for a negative number. -/
def oneSweep (g : Rng K R) (exp : R → R) (lp : Row → R) (kern : Kernel K) (pow : R) (sweep : Int) (w : Walker K R) : Walker K R :=
  (List.range sweep.toNat).foldl (fun w _ => oneStep g exp lp kern pow w) w

/-- metropolis_hastings.py:78-85: `scan` over the samples. -/
def sweeps (g : Rng K R) (exp : R → R) (lp : Row → R) (kern : Kernel K) (pow : R) (sweep : Int) : Nat → Walker K R → List (List Row)
  | 0, _ => []
  | n + 1, w =>
    let w1 := oneSweep g exp lp kern pow sweep w
    w1.rows :: sweeps g exp lp kern pow sweep n w1

/-- metropolis_hastings.py:27-88: `_metropolis_kernel`. -/
def metropolisKernel (g : Rng K R) (exp : R → R) (lp : Row → R) (kern : Kernel K) (n : Nat) (sweep : Int) (init : List Row) (pow : R)
    (key : K) : K × List (List Row) :=
  (g.split key 2 0, sweeps g exp lp kern pow sweep n ⟨g.split key 2 1, init, init.map fun σ => pow * lp σ⟩)

/-- the attributes (metropolis_hastings.py:9-25, abstract_sampler.py:8-10, 31-36). -/
structure Mh (K R : Type) where
  /-- `_n_chains` -/
  nChains : Int
  /-- `sample_shape` -/
  shape : Int × Nat
  /-- `machine_pow` -/
  pow : R
  /-- `sweep_size` -/
  sweep : Int
  /-- `_state` -/
  state : List Row
  /-- `_rng_key` -/
  key : K
  /-- what Python-level random functions returned when `random_state` was traced -/
  traced : Option Row

/-- metropolis_hastings.py:120-122: `scan` of the random states of `n` chains. -/
def randomRows (kern : Kernel K) (drawn : Row) : Nat → K → K × List Row
  | 0, k => (k, [])
  | n + 1, k =>
    let r := kern.random k drawn
    let rest := randomRows kern drawn n r.1
    (rest.1, r.2 :: rest.2)

/-- metropolis_hastings.py:117-127: `reset(init_random)`; `drawn` is what Python-level random functions would return now: used only when
    the function is traced for the first time. The attributes are set before the assertion. -/
def reset (kern : Kernel K) (drawn : Row) (initRandom : Bool) (s : Mh K R) : Mh K R × Option Err :=
  if initRandom then
    let c := s.traced.getD drawn
    let r := randomRows kern c s.nChains.toNat s.key
    let s1 := { s with key := r.1, state := r.2, traced := some c }
    if (r.2.length : Int) = s.shape.1 ∧ ∀ σ ∈ r.2, σ.length = s.shape.2 then (s1, none) else (s1, some .assertionError)
  else (s, none)

/-- metropolis_hastings.py:94-99: the setter of `n_chains`. -/
def setChains (kern : Kernel K) (drawn : Row) (n : Int) (s : Mh K R) : Mh K R × Option Err :=
  if n < 0 then (s, some .valueError) else reset kern drawn true { s with nChains := n }

/-- metropolis_hastings.py:111-115: the setter of `sweep_size`. -/
def setSweep (n : Option Int) (s : Mh K R) : Mh K R × Option Err :=
  let m := n.getD (s.shape.2 : Int)
  ({ s with sweep := m }, if m < 0 then some .valueError else none)

/-- metropolis_hastings.py:9-25: the constructor for a machine of `size` inputs; `fresh` is the key made from the global generator. -/
def mkMh (kern : Kernel K) (size : Nat) (drawn : Row) (nChains : Int) (sweep : Option Int) (rngKey : Option K) (fresh : K) :
    Except Err (Mh K R) :=
  let s0 : Mh K R := { nChains := nChains, shape := (nChains, size), pow := 2, sweep := 0, state := [], key := rngKey.getD fresh, traced := none }
  match setChains kern drawn nChains s0 with
  | (_, some e) => .error e
  | (s1, none) =>
    match setSweep sweep s1 with
    | (_, some e) => .error e
    | (s2, none) => .ok s2

/-- metropolis_hastings.py:129-148: `generate_samples(n_samples, init_random)`; the result is `None` for `n_samples = 0`. -/
def generateSamples (g : Rng K R) (exp : R → R) (lp : Row → R) (kern : Kernel K) (drawn : Row) (n : Nat) (initRandom : Bool) (s : Mh K R) :
    Mh K R × Except Err (Option (List (List Row))) :=
  if n = 0 then (s, .ok none)
  else
    match reset kern drawn initRandom s with
    | (s1, some e) => (s1, .error e)
    | (s1, none) =>
      let r := metropolisKernel g exp lp kern n s1.sweep s1.state s1.pow s1.key
      ({ s1 with key := r.1, state := r.2.getLast?.getD [] }, .ok (some r.2))

/-- metropolis_hastings.py:150-163: `__next__`. -/
def next (g : Rng K R) (exp : R → R) (lp : Row → R) (kern : Kernel K) (s : Mh K R) : Mh K R × List Row :=
  let r := metropolisKernel g exp lp kern 1 s.sweep s.state s.pow s.key
  let st := r.2.getLast?.getD []
  ({ s with key := r.1, state := st }, st)

end

/-! ## The choice of the version -/

/-- the samplers of the legacy interface with Markov chains (legacy/sampler/metropolis_*.py, custom_sampler.py). -/
inductive Kind
  | localMoves
  | exchange
  | hamiltonian
  | custom
  deriving DecidableEq

/-- which implementation of sampler is made (legacy/sampler/metropolis_hastings.py:5-77, jax/__init__.py:6-15). -/
inductive Version
  | numpy
  | jax
  deriving DecidableEq

/-- legacy/sampler/_kernels.py:7-25, jax/__init__.py:23-41: the kernels. -/
def kernelFor (jaxMachine : Bool) (k : Kind) : Except Err Version :=
  if jaxMachine then
    match k with
    | .localMoves => .ok .jax
    | .exchange => .ok .jax
    | .hamiltonian => .error .notImplemented
    | .custom => .error .notImplemented
  else .ok .numpy

/-- legacy/sampler/metropolis_local.py:58-81, metropolis_exchange.py:88-92, 149-152, metropolis_hamiltonian.py:47-84, custom_sampler.py:64-100 with
    metropolis_hastings.py:5-77 and jax/__init__.py:6-15: the sampler, with parallel tempering or not; only the JAX version has the argument `rng_key`. -/
def makeSampler (jaxMachine : Bool) (k : Kind) (pt hasKey : Bool) : Except Err Version :=
  match kernelFor jaxMachine k with
  | .error e => .error e
  | .ok v =>
    if jaxMachine then (if pt then .error .notImplemented else .ok v)
    else if hasKey then .error .typeError else .ok v

end Verif.LegacyJs

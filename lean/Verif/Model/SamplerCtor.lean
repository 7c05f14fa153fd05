import Verif.Model.Metropolis
import Verif.Model.MCState

/-! Construction of samplers: netket/sampler/base.py, metropolis.py, metropolis_numpy.py, metropolis_pt.py, metropolis_pmap.py and the constructors of
netket/sampler/rules; the sampler that distributes its chains over devices (metropolis_pmap.py).

Keyword arguments that are not given are `none`; an explicit `None` is `some none`. Hilbert spaces are a number that identifies them with their size. Legacy
machines (`wraps_legacy`) and warnings other than those on the number of chains are left out. -/

namespace Verif.SamplerCtor
open Verif.Hilbert (Err)
open Verif.VState (ceilDiv)

/-- a Hilbert space: equal identifiers for equal spaces (netket/sampler/base.py:59). -/
structure Hil where
  tag : Nat
  size : Nat
deriving DecidableEq

/-- an argument `hilbert`: a Hilbert space or something else (netket/sampler/base.py:72, 118). -/
inductive HArg
  | hil (h : Hil)
  | other
deriving DecidableEq

/-- an argument `machine_pow`: a number of an integer type (`bool` is none) or something else
(netket/sampler/base.py:65, 126-130). -/
inductive Pow
  | int (p : Int)
  | other
deriving DecidableEq

/-- types of samples (netket/sampler/base.py:68). -/
inductive Dt
  | float64
  | float32
  | int8
deriving DecidableEq

/-- an argument that should be an operator (rules/hamiltonian.py:45-64). -/
inductive OpArg
  | op (h : Hil)
  | other
deriving DecidableEq

/-- transition rules (rules/*.py); `custom` is any other instance of `MetropolisRule`, `none` an object that is no rule. -/
inductive Rule
  | localRule
  | exchange (clusters : List (Int × Int))
  | hamiltonian (h : Hil)
  | localNumpy
  | hamiltonianNumpy (h : Hil)
  | custom
  | noRule
deriving DecidableEq

/-- keyword arguments of the constructors; `unknown` if there is a keyword that is no field, `args` the number of additional positional arguments
(netket/sampler/base.py:71-112). -/
structure Kw where
  nChains : Option (Option Int) := none
  nChainsPerRank : Option (Option Int) := none
  nChainsPerDevice : Option Int := none
  machinePow : Pow := .int 2
  dtype : Dt := .float64
  nSweeps : Option Int := none
  resetChains : Option (Option Bool) := none
  resetChain : Option (Option Bool) := none
  unknown : Bool := false
  args : Nat := 0

/-- base.py:60-72 and metropolis.py:221-227: fields of a sampler. A `reset_chains` that is no boolean is `none`. -/
structure Smp where
  hilbert : HArg
  nChainsPerRank : Option Int
  machinePow : Pow
  dtype : Dt
  rule : Rule
  nSweeps : Option Int
  resetChains : Option Bool
deriving DecidableEq

/-- base.py:85-115 `Sampler.__pre_init__` on `p` processes: the field `n_chains_per_rank` and whether the process `rank` warns. -/
def basePreInit (p rank : Nat) (kw : Kw) : Except Err (Option Int × Bool) :=
  match kw.nChainsPerRank with
  | some v => if (kw.nChains.getD none).isSome then .error .valueError else .ok (v, false)
  | none =>
    let n := (kw.nChains.getD none).getD 16
    let k := max (ceilDiv n p) 1
    .ok (some k, decide (p > 1 ∧ rank = 0 ∧ k * p ≠ n))

/-- base.py:117-131 `Sampler.__post_init__`. -/
def basePostInit (s : Smp) : Option Err :=
  if s.hilbert = .other then some .valueError
  else if s.machinePow = .other then some .valueError
  else none

/-- metropolis.py:258-271 `MetropolisSampler.__post_init__`. -/
def postInit (s : Smp) : Except Err Smp :=
  match basePostInit s with
  | some e => .error e
  | none =>
    if s.rule = .noRule then .error .typeError
    else if s.resetChains = none then .error .typeError
    else
      match s.hilbert, s.nSweeps with
      | .hil h, none => .ok { s with nSweeps := some h.size }
      | _, _ => .ok s

/-- metropolis.py:229-256 `MetropolisSampler.__pre_init__`, then the generated `__init__` and `__post_init__`: positional arguments after the rule and unknown
    keywords are TypeErrors. -/
def metropolis (p rank : Nat) (hilbert : HArg) (rule : Rule) (kw : Kw) : Except Err (Smp × Bool) :=
  if kw.args ≠ 0 then .error .typeError
  else
    match basePreInit p rank kw with
    | .error e => .error e
    | .ok (k, w) =>
      if kw.unknown ∨ kw.nChainsPerDevice.isSome then .error .typeError
      else
        let rc := kw.resetChain.getD (kw.resetChains.getD (some false))
        (postInit { hilbert := hilbert, nChainsPerRank := k, machinePow := kw.machinePow, dtype := kw.dtype, rule := rule, nSweeps := kw.nSweeps,
                    resetChains := rc }).map fun (s : Smp) => (s, w)

/-- base.py:133-141 `n_chains`; `None * n` is a TypeError. -/
def nChains (p : Nat) (s : Smp) : Except Err Int :=
  match s.nChainsPerRank with
  | none => .error .typeError
  | some k => .ok (k * p)

/-! ## Rules -/

/-- rules/exchange.py:137-143: `clusters` or `graph` (its distances for `n` sites), not both and not none. -/
def exchangeRule (clusters : Option (List (Int × Int))) (graph : Option (Nat × (Nat → Nat → Nat))) (dMax : Nat) : Except Err Rule :=
  match clusters, graph with
  | none, some g => .ok (.exchange ((Metro.computeClusters g.1 g.2 dMax).map fun p : Nat × Nat => ((p.1 : Int), (p.2 : Int))))
  | some c, none => .ok (.exchange c)
  | _, _ => .error .valueError

/-- rules/hamiltonian.py:58-64. -/
def hamiltonianRule : OpArg → Except Err Rule
  | .op h => .ok (.hamiltonian h)
  | .other => .error .typeError

/-- rules/hamiltonian_numpy.py:50-56. -/
def hamiltonianRuleNumpy : OpArg → Except Err Rule
  | .op h => .ok (.hamiltonianNumpy h)
  | .other => .error .typeError

/-- rules/hamiltonian.py:48-56, hamiltonian_numpy.py:58-69, and `MetropolisRule.init_state`: called by `init_state` of the sampler. -/
def ruleInit (s : Smp) : Option Err :=
  match s.rule with
  | .hamiltonian h => if s.hilbert ≠ .hil h then some .valueError else none
  | .hamiltonianNumpy h => if s.hilbert ≠ .hil h then some .valueError else none
  | _ => none

/-- metropolis.py:414. -/
def metropolisLocal (p rank : Nat) (hilbert : HArg) (kw : Kw) : Except Err (Smp × Bool) := metropolis p rank hilbert .localRule kw

/-- metropolis.py:472-474. -/
def metropolisExchange (p rank : Nat) (hilbert : HArg) (clusters : Option (List (Int × Int))) (graph : Option (Nat × (Nat → Nat → Nat))) (dMax : Nat)
    (kw : Kw) : Except Err (Smp × Bool) :=
  match exchangeRule clusters graph dMax with
  | .error e => .error e
  | .ok r => metropolis p rank hilbert r kw

/-- metropolis.py:526-527. -/
def metropolisHamiltonian (p rank : Nat) (hilbert : HArg) (ham : OpArg) (kw : Kw) : Except Err (Smp × Bool) :=
  match hamiltonianRule ham with
  | .error e => .error e
  | .ok r => metropolis p rank hilbert r kw

/-- metropolis_numpy.py:284-288 (`MetropolisSamplerNumpy` has the constructor of `MetropolisSampler`). -/
def metropolisLocalNumpy (p rank : Nat) (hilbert : HArg) (kw : Kw) : Except Err (Smp × Bool) := metropolis p rank hilbert .localNumpy kw

/-- metropolis_numpy.py:291-295. -/
def metropolisHamiltonianNumpy (p rank : Nat) (hilbert : HArg) (ham : OpArg) (kw : Kw) : Except Err (Smp × Bool) :=
  match hamiltonianRuleNumpy ham with
  | .error e => .error e
  | .ok r => metropolis p rank hilbert r kw

/-- updates for `replace` (utils/struct/dataclass.py:411-417): `dataclasses.replace` calls the constructor with all fields as keywords, updated. -/
structure Upd where
  hilbert : Option HArg := none
  nChains : Option (Option Int) := none
  nChainsPerRank : Option (Option Int) := none
  machinePow : Option Pow := none
  dtype : Option Dt := none
  nSweeps : Option (Option Int) := none

/-- utils/struct/dataclass.py:411-417 with metropolis.py:229-271: `sampler.replace(**updates)`. -/
def replace (p rank : Nat) (s : Smp) (u : Upd) : Except Err (Smp × Bool) :=
  metropolis p rank (u.hilbert.getD s.hilbert) s.rule
    { nChains := u.nChains, nChainsPerRank := some (u.nChainsPerRank.getD s.nChainsPerRank), machinePow := u.machinePow.getD s.machinePow, dtype := u.dtype.getD s.dtype,
      nSweeps := u.nSweeps.getD s.nSweeps, resetChains := some s.resetChains }

/-- metropolis_pt.py:412-436: `repr` and `str` of a parallel tempering sampler read the attribute `reset_chain`; the fields of the class are those of
    `MetropolisSampler` (`reset_chains`) and `n_replicas`. -/
def ptRepr (fields : List String) : Option Err :=
  if "reset_chain" ∈ fields then none else some .attributeError

/-- base.py:60-72, metropolis.py:221-227, metropolis_pt.py:110: the fields of `MetropolisPtSampler`. -/
def ptFields : List String := ["hilbert", "n_chains_per_rank", "machine_pow", "dtype", "rule", "n_sweeps", "reset_chains", "n_replicas"]

/-- metropolis.py:149-179: `acceptance` and `acceptance_ratio`; `None * 100` is a TypeError. -/
def acceptanceRatio (acceptance : Option ℚ) : Except Err ℚ :=
  match acceptance with
  | none => .error .typeError
  | some a => .ok (a * 100)

/-! ## Samplers on several devices -/

/-- metropolis_pmap.py:80-127 `__pre_init__` with `D` devices: keyword arguments for the constructor and whether it warns (lines 117-125). -/
def pmapPreInit (p rank D : Nat) (kw : Kw) : Except Err (Int × Bool) :=
  if (kw.nChains.isSome ∨ kw.nChainsPerRank.isSome) ∧ kw.nChainsPerDevice.isSome then .error .valueError
  else
    match basePreInit p rank kw with
    | .error e => .error e
    | .ok (k, w) =>
      match kw.nChainsPerDevice, k with
      | some d, _ => .ok (d * D, w || decide (d * D ≠ d * D))
      | none, none => .error .typeError
      | none, some k => .ok (max (ceilDiv k D) 1 * D, w || decide (max (ceilDiv k D) 1 * D ≠ max (ceilDiv k D) 1 * D))

/-- a sampler on several devices: its own fields and the sampler of every device (`_sampler_device`)
(netket/sampler/metropolis_pmap.py:56, 145-158). -/
structure Pmap where
  main : Smp
  device : Smp
deriving DecidableEq

/-- metropolis_pmap.py:129-158 `__post_init__`: `dtype` is not passed to the sampler of the devices. -/
def pmapPostInit (p rank D : Nat) (experimental : Bool) (s : Smp) : Except Err Pmap :=
  if !experimental then .error .runtimeError
  else
    match postInit s with
    | .error e => .error e
    | .ok s' =>
      match s'.nChainsPerRank with
      | none => .error .typeError
      | some k =>
        match metropolis p rank s'.hilbert s'.rule { nChainsPerRank := some (some (k / (D : Int))), nSweeps := s'.nSweeps, resetChains := some s'.resetChains,
                                                      machinePow := s'.machinePow } with
        | .error e => .error e
        | .ok (d, _) => .ok ⟨s', d⟩

/-- metropolis_pmap.py:55-158: the constructor of `MetropolisSamplerPmap`. -/
def pmap (p rank D : Nat) (experimental : Bool) (hilbert : HArg) (rule : Rule) (kw : Kw) : Except Err (Pmap × Bool) :=
  if kw.args ≠ 0 then .error .typeError
  else
    match pmapPreInit p rank D kw with
    | .error e => .error e
    | .ok (k, w) =>
      if kw.unknown then .error .typeError
      else
        let rc := kw.resetChain.getD (kw.resetChains.getD (some false))
        (pmapPostInit p rank D experimental { hilbert := hilbert, nChainsPerRank := some k, machinePow := kw.machinePow, dtype := kw.dtype, rule := rule, nSweeps := kw.nSweeps, resetChains := rc }).map fun (s : Pmap) => (s, w)

section
variable {X R K S : Type} [Field R] [LinearOrder R]
open Verif.Metro (sampleNext scanChain initState reset)

/-- metropolis_pmap.py:164-174, 223-227 `_init_state`: one key per device; `s` is the sampler of one device. -/
def pmapInit (splitN : K → Nat → List K) (D : Nat) (s : Metro.Sampler X R K S) (key : K) : List (Metro.State X K S) :=
  (splitN key D).map fun k : K => initState s k

/-- metropolis_pmap.py:176-185, 230-234 `_reset`. -/
def pmapReset (s : Metro.Sampler X R K S) (sts : List (Metro.State X K S)) : List (Metro.State X K S) := sts.map fun st => reset s st

/-- metropolis_pmap.py:187-198, 237-244 `_sample_next`: configurations are reshaped to one batch. -/
def pmapNext (s : Metro.Sampler X R K S) (sts : List (Metro.State X K S)) : List (Metro.State X K S) × List X :=
  (sts.map fun st => (sampleNext s st).1, (sts.map fun st => (sampleNext s st).2).flatten)

/-- metropolis_pmap.py:200-217, 247-254 `_sample_chain`: the axis of the devices is the second (`out_axes=(1, 0)`), then devices and chains are one axis. -/
def pmapChain (s : Metro.Sampler X R K S) (n : Nat) (sts : List (Metro.State X K S)) : List (List X) × List (Metro.State X K S) :=
  let r := sts.map fun st => scanChain (sampleNext s) n st
  ((List.range n).map fun t : Nat => (r.map fun q => q.1.getD t []).flatten, r.map (·.2))

/-- metropolis_pmap.py:41-43 `n_steps`. -/
def pmapSteps (p : Nat) (sts : List (Metro.State X K S)) : Nat := (sts.map (·.nStepsProc)).sum * p

/-- metropolis_pmap.py:45-49 `n_accepted`: summed over devices, then over processes. -/
def pmapAccepted (ranks : List (List (Metro.State X K S))) : Nat := (ranks.map fun sts => (sts.map (·.nAcceptedProc)).sum).sum

/-- metropolis.py:149-159 with the attributes above. -/
def pmapAcceptance (p : Nat) (ranks : List (List (Metro.State X K S))) (sts : List (Metro.State X K S)) : Option ℚ :=
  if pmapSteps p sts = 0 then none else some ((pmapAccepted ranks : ℚ) / (pmapSteps p sts : ℚ))

/-- a sequence of calls: `reset` or `sample` with a chain length
(netket/sampler/base.py:217-300). -/
inductive Call
  | reset
  | sample (n : Nat)

/-- base.py:215-279 for a sampler on several devices. -/
def pmapRun (s : Metro.Sampler X R K S) : List Call → List (Metro.State X K S) → List (List (List X)) × List (Metro.State X K S)
  | [], sts => ([], sts)
  | .reset :: cs, sts => pmapRun s cs (pmapReset s sts)
  | .sample n :: cs, sts =>
    let r := pmapChain s n sts
    let q := pmapRun s cs r.2
    (r.1 :: q.1, q.2)

/-- base.py:215-279 for one sampler of one device. -/
def run (s : Metro.Sampler X R K S) : List Call → Metro.State X K S → List (List (List X)) × Metro.State X K S
  | [], st => ([], st)
  | .reset :: cs, st => run s cs (reset s st)
  | .sample n :: cs, st =>
    let r := scanChain (sampleNext s) n st
    let q := run s cs r.2
    (r.1 :: q.1, q.2)

end

end Verif.SamplerCtor

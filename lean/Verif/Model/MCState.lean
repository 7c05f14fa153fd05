import Verif.Model.DiscreteHilbert

/-! Models of `netket/sampler/base.py` (number of chains), `netket/vqs/mc_state.py` (number of samples,
sampling, cache, serialization), `netket/vqs/base.py` (parameters, model_state, variables) and
`netket/vqs/mc_mixed_state.py`.

`n` (or `nNodes`) is `mpi.n_nodes`. The sampler's methods are arbitrary functions of the variables and the
sampler state. Freezing of dictionaries, deprecation warnings and jax compilation are left out; the
quotient inside `np.ceil` is exact instead of a float. -/

namespace Verif.VState

open Verif.Hilbert (Err)

/-- `int(np.ceil(a / b))` for a positive integer `b`
(netket/sampler/base.py:97; netket/vqs/mc_state.py:59). -/
def ceilDiv (a : Int) (b : Nat) : Int := -((-a) / (b : Int))

/-- sampler/base.py:85-112 (`__pre_init__`): `n_chains`, `n_chains_per_rank` as passed (`none` = not
    passed); result: the field `n_chains_per_rank`. -/
def preInit (nNodes : Nat) (nChains nChainsPerRank : Option Int) : Except Err Int :=
  match nChainsPerRank with
  | some k => if nChains.isSome then .error .valueError else .ok k
  | none => .ok (max (ceilDiv (nChains.getD 16) nNodes) 1)

/-- The parts of a `Sampler` used by `MCState`; sampler/base.py:60-72, 142-150 and the methods
    `init_state` (180-218), `reset` (220-252), `sample` (281-311). -/
structure Sampler (V Sd S X : Type) where
  nChainsPerRank : Nat
  isExact : Bool
  machinePow : Nat
  init : V → Sd → S
  reset : V → S → S
  chain : V → S → Nat → X × S

/-- sampler/base.py:132-139. -/
def Sampler.nChains {V Sd S X : Type} (s : Sampler V Sd S X) (nNodes : Nat) : Nat :=
  s.nChainsPerRank * nNodes

/-- mc_state.py:55-60. -/
def computeChainLength (nChains : Nat) (nSamples : Int) : Except Err Nat :=
  if nSamples ≤ 0 then .error .valueError
  else if nChains = 0 then .error .zeroDivision
  else .ok (ceilDiv nSamples nChains).toNat

/-- mc_state.py:76-102 and vqs/base.py:51-55: attributes of an `MCState`. -/
structure MC (P M Sd S X : Type) where
  params : P
  mstate : M
  sampler : Sampler (P × M) Sd S X
  seed : Sd
  samplerState : S
  nSamples : Nat
  chainLength : Nat
  nPerNode : Nat
  nDiscard : Nat
  samples : Option X

section
variable {P M Sd S X : Type}

/-- vqs/base.py:98-103 (`variables`). -/
def MC.vars (v : MC P M Sd S X) : P × M := (v.params, v.mstate)

/-- mc_state.py:365-370. -/
def MC.reset (v : MC P M Sd S X) : MC P M Sd S X := { v with samples := none }

/-- vqs/base.py:75-82. -/
def MC.setParams (v : MC P M Sd S X) (p : P) : MC P M Sd S X := ({ v with params := p }).reset

/-- vqs/base.py:89-96. -/
def MC.setMState (v : MC P M Sd S X) (m : M) : MC P M Sd S X := ({ v with mstate := m }).reset

/-- vqs/base.py:105-110: first the model state, then the parameters. -/
def MC.setVars (v : MC P M Sd S X) (w : P × M) : MC P M Sd S X := (v.setMState w.2).setParams w.1

/-- mc_state.py:257-270. -/
def MC.setSampler (v : MC P M Sd S X) (s : Sampler (P × M) Sd S X) : MC P M Sd S X :=
  let v := { v with sampler := s }
  let v := { v with samplerState := v.sampler.init v.vars v.seed }
  v.reset

/-- mc_state.py:277-287. -/
def MC.setNSamples (n : Nat) (v : MC P M Sd S X) (k : Int) : MC P M Sd S X × Option Err :=
  match computeChainLength (v.sampler.nChains n) k with
  | .error e => (v, some e)
  | .ok l => (({ v with nSamples := l * v.sampler.nChains n, chainLength := l,
                        nPerNode := l * v.sampler.nChainsPerRank }).reset, none)

/-- mc_state.py:289-292 (getter). -/
def MC.nSamplesPerRank (n : Nat) (v : MC P M Sd S X) : Nat := v.chainLength * n

/-- mc_state.py:294-296 (setter). -/
def MC.setNSamplesPerRank (n : Nat) (v : MC P M Sd S X) (k : Int) : MC P M Sd S X × Option Err :=
  v.setNSamples n (k * n)

/-- mc_state.py:307-310 (setter). -/
def MC.setChainLength (n : Nat) (v : MC P M Sd S X) (l : Int) : MC P M Sd S X × Option Err :=
  match v.setNSamples n (l * v.sampler.nChains n * n) with
  | (v, some e) => (v, some e)
  | (v, none) => (v.reset, none)

/-- mc_state.py:319-340 (setter). -/
def MC.setNDiscard (v : MC P M Sd S X) (d : Option Int) : MC P M Sd S X × Option Err :=
  if (d.any fun d => decide (d < 0)) then (v, some .valueError)
  else
    let d := if v.sampler.isExact then some 0 else d
    ({ v with nDiscard := match d with
        | some d => d.toNat
        | none => v.nSamples / 10 }, none)

/-- mc_state.py:388-394: length of the chain used by `sample`. -/
def MC.resolveLength (n : Nat) (v : MC P M Sd S X) (chainLength : Option Nat) (nSamples : Option Int) :
    Except Err Nat :=
  match nSamples, chainLength with
  | none, none => .ok v.chainLength
  | some k, none => computeChainLength (v.sampler.nChains n) k
  | _, some l => .ok l

/-- mc_state.py:372-416 (`sample`); the returned samples are also stored. -/
def MC.sample (n : Nat) (v : MC P M Sd S X) (chainLength : Option Nat) (nSamples : Option Int)
    (nDiscard : Option Nat) : MC P M Sd S X × Except Err X :=
  match v.resolveLength n chainLength nSamples with
  | .error e => (v, .error e)
  | .ok l =>
    let d := nDiscard.getD v.nDiscard
    let st := v.sampler.reset v.vars v.samplerState
    let st := if 0 < v.nDiscard then (v.sampler.chain v.vars st d).2 else st
    let r := v.sampler.chain v.vars st l
    ({ v with samplerState := r.2, samples := some r.1 }, .ok r.1)

/-- mc_state.py:418-431 (`samples`). -/
def MC.getSamples (n : Nat) (v : MC P M Sd S X) : MC P M Sd S X × Except Err X :=
  match v.samples with
  | some x => (v, .ok x)
  | none => v.sample n none none none

/-- mc_state.py:197-236, end of `__init__`: the sampler is set, then the number of samples, then the
    number of discarded samples. `n_samples`/`n_samples_per_rank` as passed. The attributes that are not
    yet set get the class defaults of mc_state.py:91-96. -/
def MC.make (n : Nat) (vars : P × M) (s : Sampler (P × M) Sd S X) (seed : Sd)
    (nSamples nPerRank : Option Int) (nDiscard : Option Int) : Except Err (MC P M Sd S X) :=
  match nSamples, nPerRank with
  | some _, some _ => .error .valueError
  | a, b =>
    let v : MC P M Sd S X := ⟨vars.1, vars.2, s, seed, s.init vars seed, 0, 0, 0, 0, none⟩
    let v := v.setSampler s
    let r := match a, b with
      | none, some k => v.setNSamplesPerRank n k
      | a, _ => v.setNSamples n (a.getD 1000)
    match r with
    | (_, some e) => .error e
    | (v, none) =>
      match v.setNDiscard nDiscard with
      | (_, some e) => .error e
      | (v, none) => .ok v

/-- Calls on an `MCState` (netket/vqs/mc_state.py: the public methods and setters of the class). -/
inductive Op (P M Sd S X : Type) where
  | setParams (p : P)
  | setMState (m : M)
  | setVars (w : P × M)
  | setSampler (s : Sampler (P × M) Sd S X)
  | setSamplerState (s : S)
  | setNSamples (k : Int)
  | setNSamplesPerRank (k : Int)
  | setChainLength (k : Int)
  | setNDiscard (d : Option Int)
  | reset
  | sample (len : Option Nat) (k : Option Int) (d : Option Nat)
  | getSamples

/-- effect of a call on the object (vqs/base.py and mc_state.py as cited above; `sampler_state` is a
    plain attribute, mc_state.py:88-89). -/
def MC.apply (n : Nat) (v : MC P M Sd S X) : Op P M Sd S X → MC P M Sd S X
  | .setParams p => v.setParams p
  | .setMState m => v.setMState m
  | .setVars w => v.setVars w
  | .setSampler s => v.setSampler s
  | .setSamplerState s => { v with samplerState := s }
  | .setNSamples k => (v.setNSamples n k).1
  | .setNSamplesPerRank k => (v.setNSamplesPerRank n k).1
  | .setChainLength k => (v.setChainLength n k).1
  | .setNDiscard d => (v.setNDiscard d).1
  | .reset => v.reset
  | .sample l k d => (v.sample n l k d).1
  | .getSamples => (v.getSamples n).1

/-! ### serialization -/

/-- mc_state.py:852-859. -/
structure Dict (P M S : Type) where
  vars : P × M
  samplerState : S
  nSamples : Nat
  nDiscard : Nat

/-- mc_state.py:852-859. -/
def MC.serialize (v : MC P M Sd S X) : Dict P M S := ⟨v.vars, v.samplerState, v.nSamples, v.nDiscard⟩

/-- mc_state.py:862-880; the result is a new object (`copy.copy`), every attribute of which is rebound. -/
def MC.deserialize (n : Nat) (v : MC P M Sd S X) (d : Dict P M S) : Except Err (MC P M Sd S X) :=
  let w := v.reset
  let w := w.setVars d.vars
  let w := { w with samplerState := d.samplerState }
  match w.setNSamples n d.nSamples with
  | (_, some e) => .error e
  | (w, none) =>
    match w.setNDiscard (some d.nDiscard) with
    | (_, some e) => .error e
    | (w, none) => .ok w

/-! ### mixed states -/

/-- mc_mixed_state.py:51-167: an `MCMixedState` with its diagonal state. -/
structure Mixed (P M Sd S X : Type) where
  main : MC P M Sd S X
  diag : MC P M Sd S X

/-- mc_mixed_state.py:258-261. -/
def Mixed.reset (v : Mixed P M Sd S X) : Mixed P M Sd S X := ⟨v.main.reset, v.diag.reset⟩

/-- mc_mixed_state.py:246-250; `MCState.parameters.fset` calls the mixed state's `reset`. -/
def Mixed.setParams (v : Mixed P M Sd S X) (p : P) : Mixed P M Sd S X :=
  let v : Mixed P M Sd S X := (⟨{ v.main with params := p }, v.diag⟩ : Mixed P M Sd S X).reset
  ⟨v.main, v.diag.setParams p⟩

/-- mc_mixed_state.py:252-256. -/
def Mixed.setMState (v : Mixed P M Sd S X) (m : M) : Mixed P M Sd S X :=
  let v : Mixed P M Sd S X := (⟨{ v.main with mstate := m }, v.diag⟩ : Mixed P M Sd S X).reset
  ⟨v.main, v.diag.setMState m⟩

/-- vqs/base.py:105-110 on a mixed state (the overridden setters are used). -/
def Mixed.setVars (v : Mixed P M Sd S X) (w : P × M) : Mixed P M Sd S X := (v.setMState w.2).setParams w.1

/-- the setters inherited from `MCState` end in `self.reset()`, which resets the diagonal as well
    (mc_state.py:270, 287, 310 with mc_mixed_state.py:258-261). -/
def Mixed.onMain (n : Nat) (v : Mixed P M Sd S X) (op : Op P M Sd S X) : Mixed P M Sd S X :=
  match op with
  | .setParams p => v.setParams p
  | .setMState m => v.setMState m
  | .setVars w => v.setVars w
  | .setSampler s => ⟨v.main.setSampler s, v.diag.reset⟩
  | .setNSamples k =>
    match v.main.setNSamples n k with
    | (m, none) => ⟨m, v.diag.reset⟩
    | (m, some _) => ⟨m, v.diag⟩
  | .setNSamplesPerRank k =>
    match v.main.setNSamplesPerRank n k with
    | (m, none) => ⟨m, v.diag.reset⟩
    | (m, some _) => ⟨m, v.diag⟩
  | .setChainLength k =>
    match v.main.setChainLength n k with
    | (m, none) => ⟨m, v.diag.reset⟩
    | (m, some _) => ⟨m, v.diag⟩
  | .reset => v.reset
  | .setSamplerState s => ⟨v.main.apply n (.setSamplerState s), v.diag⟩
  | .setNDiscard d => ⟨v.main.apply n (.setNDiscard d), v.diag⟩
  | .sample l k d => ⟨v.main.apply n (.sample l k d), v.diag⟩
  | .getSamples => ⟨v.main.apply n .getSamples, v.diag⟩

/-- Calls on an `MCMixedState`: those of `MCState`, and the `*_diag` setters of
    mc_mixed_state.py:177-243 (also `diagonal.sample`, `diagonal.samples`, used by `expect_operator`). -/
inductive MixedOp (P M Sd S X : Type) where
  | main (op : Op P M Sd S X)
  | samplerDiag (s : Sampler (P × M) Sd S X)
  | nSamplesDiag (k : Int)
  | chainLengthDiag (k : Int)
  | nDiscardDiag (d : Option Int)
  | sampleDiag (len : Option Nat) (k : Option Int) (d : Option Nat)
  | samplesDiag

/-- effect of a call (mc_mixed_state.py:177-261). -/
def Mixed.apply (n : Nat) (v : Mixed P M Sd S X) : MixedOp P M Sd S X → Mixed P M Sd S X
  | .main op => v.onMain n op
  | .samplerDiag s => ⟨v.main, v.diag.setSampler s⟩
  | .nSamplesDiag k => ⟨v.main, (v.diag.setNSamples n k).1⟩
  | .chainLengthDiag k => ⟨v.main, (v.diag.setChainLength n k).1⟩
  | .nDiscardDiag d => ⟨v.main, (v.diag.setNDiscard d).1⟩
  | .sampleDiag l k d => ⟨v.main, (v.diag.sample n l k d).1⟩
  | .samplesDiag => ⟨v.main, (v.diag.getSamples n).1⟩

/-- mc_mixed_state.py:131: the sampler of the diagonal gets `machine_pow = 1`. -/
def diagSampler (s : Sampler (P × M) Sd S X) : Sampler (P × M) Sd S X := { s with machinePow := 1 }

/-- mc_mixed_state.py:113-161: construction. `samplerDiag` is the given or derived sampler of the
    diagonal; `nSamples`, `nPerRank`, `nDiscard` are keyword arguments of the mixed state, the others
    those for the diagonal. `n_samples` and `n_discard_per_chain` are removed from `kwargs` before they
    are passed on, `n_samples_per_rank` and `apply_fun` (`applyFun`: whether it is passed instead of a
    model) are not, so that passing them gives a duplicate keyword. -/
def Mixed.make (n : Nat) (applyFun : Bool) (vars : P × M) (s samplerDiag : Sampler (P × M) Sd S X) (seed seedDiag : Sd)
    (nSamples nPerRank nDiscard nSamplesDiag nPerRankDiag nDiscardDiag : Option Int) :
    Except Err (Mixed P M Sd S X) :=
  match MC.make n vars s seed nSamples nPerRank nDiscard with
  | .error e => .error e
  | .ok m =>
    if nPerRank.isSome || applyFun then .error .typeError
    else
      match MC.make n m.vars (diagSampler samplerDiag) seedDiag nSamplesDiag nPerRankDiag nDiscardDiag with
      | .error e => .error e
      | .ok d => .ok ⟨m, d⟩

/-- mc_mixed_state.py:322-330. -/
structure MixedDict (P M S : Type) where
  main : Dict P M S
  diagonal : Dict P M S

/-- mc_mixed_state.py:322-330. -/
def Mixed.serialize (v : Mixed P M Sd S X) : MixedDict P M S := ⟨v.main.serialize, v.diag.serialize⟩

/-- mc_mixed_state.py:333-358. `copy.copy` is shallow, so the new object first shares the diagonal with
    the original, and `new_vstate.reset()` resets that shared diagonal. Result: the original afterwards
    and the restored object. -/
def Mixed.deserialize (n : Nat) (v : Mixed P M Sd S X) (d : MixedDict P M S) :
    Mixed P M Sd S X × Except Err (Mixed P M Sd S X) :=
  let shared := v.diag.reset
  let orig : Mixed P M Sd S X := ⟨v.main, shared⟩
  let new : Mixed P M Sd S X := ⟨v.main.reset, shared⟩
  match shared.deserialize n d.diagonal with
  | .error e => (orig, .error e)
  | .ok dg =>
    let new : Mixed P M Sd S X := ⟨new.main, dg⟩
    let new := new.setVars d.main.vars
    let new : Mixed P M Sd S X := ⟨{ new.main with samplerState := d.main.samplerState }, new.diag⟩
    match new.main.setNSamples n d.main.nSamples with
    | (_, some e) => (orig, .error e)
    | (m, none) =>
      match m.setNDiscard (some d.main.nDiscard) with
      | (_, some e) => (orig, .error e)
      | (m, none) => (orig, .ok ⟨m, new.diag.reset⟩)

end

end Verif.VState

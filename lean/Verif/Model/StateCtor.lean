import Verif.Model.MCState

/-!
Construction of an `MCState`: netket/vqs/mc_state.py:104-255, with the wrappers of models of other frameworks (netket/utils/model_frameworks) and of functions
(netket/utils/jax.py).

Python objects passed as a model are those of the frameworks, tuples and other objects with the methods `init` and `apply`; the functions of a model are arbitrary
functions of keys, arrays and parameters. The serialization of haiku's mappings is the pair of functions which is registered with flax. `R` is the type of the
argument `rngs` of haiku.
-/

namespace Verif.StateCtor
open Verif.Hilbert (Err)
open Verif.VState (MC Sampler)

/-- exceptions: those of the other models, and ModuleNotFoundError (utils/model_frameworks/haiku.py:67). -/
inductive Exc where
  | err (e : Err)
  | moduleNotFound
deriving DecidableEq

/-- a callable with the number of its named positional arguments, `len(inspect.getfullargspec(f).args)` (utils/model_frameworks/jax.py:73-77). -/
structure Callee (F : Type) where
  nArgs : Nat
  fn : F

/-- objects passed as `model` (utils/model_frameworks/flax.py:32-36, jax.py:63-80, haiku.py:65-73). A pair whose entry is `none` contains something that is not callable there. -/
inductive Module (Key Sh X P M Y R : Type) where
  | flax (init : Key → X → P × M) (apply : P × M → X → Y)
  | pair (ifun : Option (Callee (Key → Sh → P))) (afun : Option (Callee (P → X → Y)))
  | tuple (n : Nat)
  | haiku (ifun : Callee (Key → X → P)) (afun : Callee (P → Option R → X → Y))
  | other (init : Key → X → P × M) (apply : P × M → X → Y)

/-- the registered frameworks and `UnknownFramework` (utils/model_frameworks/base.py:49-77). -/
inductive Framework where
  | flax
  | jax
  | haiku
  | unknown
deriving DecidableEq

/-- a model after wrapping (utils/model_frameworks/jax.py:24-47, haiku.py:23-52): the methods `init` and `apply`, if it has any; `fixed` tells that `apply` refuses `mutable`. -/
structure Wrapped (Key X P M Y : Type) where
  init : Option (Key → X → P × M)
  apply : Option (P × M → X → Y)
  fixed : Bool

variable {Key Sh X P M Y R : Type}

/-- utils/model_frameworks/flax.py:32-36. -/
def isFlax : Module Key Sh X P M Y R → Bool
  | .flax .. => true
  | _ => false

/-- utils/model_frameworks/jax.py:63-80; haiku's `Transformed` is a tuple of two functions as well. -/
def isJax : Module Key Sh X P M Y R → Bool
  | .pair (some i) (some a) => decide (i.nArgs = 2) && decide (a.nArgs = 2)
  | .haiku i a => decide (i.nArgs = 2) && decide (a.nArgs = 2)
  | _ => false

/-- utils/model_frameworks/haiku.py:65-73: begins with `import haiku`. -/
def isHaiku (installed : Bool) : Module Key Sh X P M Y R → Except Exc Bool
  | m => if !installed then .error .moduleNotFound
    else match m with
      | .haiku .. => .ok true
      | _ => .ok false

/-- utils/model_frameworks/base.py:80-85: `identify_framework`, with the frameworks in the order of their registration (__init__.py:28). `is_loaded` is not used. -/
def identify (installed : Bool) (m : Module Key Sh X P M Y R) : Except Exc Framework :=
  if isFlax m then .ok .flax
  else if isJax m then .ok .jax
  else match isHaiku installed m with
    | .error e => .error e
    | .ok true => .ok .haiku
    | .ok false => .ok .unknown

/-- the methods of an object that is not wrapped (utils/model_frameworks/flax.py:38-40, base.py:71-73). -/
def plain : Module Key Sh X P M Y R → Wrapped Key X P M Y
  | .flax i a => ⟨some i, some a, false⟩
  | .other i a => ⟨some i, some a, false⟩
  | _ => ⟨none, none, false⟩

/-- `JaxWrapper` (utils/model_frameworks/jax.py:24-47, 82-84): the initialiser gets the shape of the input, the only variables are the parameters. -/
def wrapJax (shape : X → Sh) (noState : M) : Module Key Sh X P M Y R → Wrapped Key X P M Y
  | .pair (some i) (some a) => ⟨some fun k x => (i.fn k (shape x), noState), some fun v x => a.fn v.1 x, true⟩
  | m => plain m

/-- `HaikuWrapper` (utils/model_frameworks/haiku.py:23-52, 75-78): `rngs` is `None` unless given. -/
def wrapHaiku (noState : M) : Module Key Sh X P M Y R → Wrapped Key X P M Y
  | .haiku i a => ⟨some fun k x => (i.fn k x, noState), some fun v x => a.fn v.1 none x, true⟩
  | m => plain m

/-- utils/model_frameworks/base.py:88-99: `maybe_wrap_module`. -/
def maybeWrap (installed : Bool) (shape : X → Sh) (noState : M) (m : Module Key Sh X P M Y R) : Except Exc (Framework × Wrapped Key X P M Y) :=
  match identify installed m with
  | .error e => .error e
  | .ok .flax => .ok (.flax, plain m)
  | .ok .jax => .ok (.jax, wrapJax shape noState m)
  | .ok .haiku => .ok (.haiku, wrapHaiku noState m)
  | .ok .unknown => .ok (.unknown, plain m)

/-- `apply(variables, x, mutable=…)` of a wrapped model (utils/model_frameworks/jax.py:33-44, haiku.py:32-44); `new` is what a flax model makes of the model state. -/
def Wrapped.call (w : Wrapped Key X P M Y) (new : P × M → X → M) (v : P × M) (x : X) (mutable : Bool) : Except Exc (Y × Option M) :=
  match w.apply with
  | none => .error (.err .attributeError)
  | some a =>
    if mutable then
      if w.fixed then .error (.err .valueError) else .ok (a v x, some (new v x))
    else .ok (a v x, none)

/-- a seed: a number or a key (utils/types.py, jax/utils.py:321-331). -/
inductive Seed (Key : Type) where
  | int (i : Int)
  | key (k : Key)

/-- `nkjax.PRNGKey(seed)` on one process (jax/utils.py:321-335); `drawn` is the number drawn without a seed. -/
def prngKey (mk : Int → Key) (drawn : Int) : Option (Seed Key) → Key
  | none => mk drawn
  | some (.int i) => mk i
  | some (.key k) => k

/-- the arguments of `MCState.__init__` (vqs/mc_state.py:104-121). -/
structure Args (Key Sh X P M Y R : Type) where
  model : Option (Module Key Sh X P M Y R) := none
  initFun : Option (Key → X → P × M) := none
  applyFun : Option (P × M → X → Y) := none
  sampleFun : Option (P × M → X → Y) := none
  vars : Option (P × M) := none
  seed : Option (Seed Key) := none
  samplerSeed : Option (Seed Key) := none
  nSamples : Option Int := none
  nSamplesPerRank : Option Int := none
  nDiscard : Option Int := none
  nDiscardPerChain : Option Int := none

/-- the attributes of the state that are set by the constructor (vqs/mc_state.py:155-186, 209-236); `mc` are those in `Model/MCState`. -/
structure State (Key X P M Y S Smp : Type) where
  initFun : Option (Key → X → P × M)
  applyFun : P × M → X → Y
  sampleFun : P × M → X → Y
  mc : MC P M (Option (Seed Key)) S Smp

/-- the two functions, from the model or from the arguments (vqs/mc_state.py:149-186). The methods of a model are looked up when they are used;
    a model without them is refused here already (AttributeError) because the constructor uses them below. -/
def functions (installed : Bool) (shape : X → Sh) (noState : M) (a : Args Key Sh X P M Y R) :
    Except Exc (Option (Key → X → P × M) × (P × M → X → Y)) :=
  match a.model with
  | some m =>
    match maybeWrap installed shape noState m with
    | .error e => .error e
    | .ok (_, w) => match w.init, w.apply with
      | some i, some f => .ok (some i, f)
      | _, _ => .error (.err .attributeError)
  | none =>
    match a.applyFun with
    | none => .error (.err .valueError)
    | some f => match a.initFun with
      | some i => .ok (some i, f)
      | none => if a.vars.isNone then .error (.err .valueError) else .ok (none, f)

/-- the seed of the sampler (vqs/mc_state.py:222-226); `split` is `jax.random.split(key, 2)`. -/
def samplerSeed (mk : Int → Key) (split : Key → Key × Key) (a : Args Key Sh X P M Y R) : Option (Seed Key) :=
  match a.samplerSeed, a.seed with
  | none, some s => some (.key (split (prngKey mk 0 (some s))).2)
  | s, _ => s

/-- the initial variables (vqs/mc_state.py:217-220, 238-255). -/
def initialVars (mk : Int → Key) (drawn : Int) (dummy : X) (initFun : Option (Key → X → P × M)) (a : Args Key Sh X P M Y R) : Except Exc (P × M) :=
  match a.vars with
  | some v => .ok v
  | none => match initFun with
    | none => .error (.err .runtimeError)
    | some i => .ok (i (prngKey mk drawn a.seed) dummy)

/-- `MCState(sampler, …)` on `n` processes (vqs/mc_state.py:104-236); `dummy` is the input of zeros (line 252). -/
def construct {S Smp : Type} (installed : Bool) (shape : X → Sh) (noState : M) (mk : Int → Key) (drawn : Int) (split : Key → Key × Key) (n : Nat) (dummy : X)
    (s : Sampler (P × M) (Option (Seed Key)) S Smp) (a : Args Key Sh X P M Y R) : Except Exc (State Key X P M Y S Smp) :=
  match functions installed shape noState a with
  | .error e => .error e
  | .ok (i, f) =>
    if a.nSamples.isSome && a.nSamplesPerRank.isSome then .error (.err .valueError)
    else if a.nDiscard.isSome && a.nDiscardPerChain.isSome then .error (.err .valueError)
    else
      let nDiscard := if a.nDiscard.isSome then a.nDiscard else a.nDiscardPerChain
      match initialVars mk drawn dummy i a with
      | .error e => .error e
      | .ok v =>
        match MC.make n v s (samplerSeed mk split a) a.nSamples a.nSamplesPerRank nDiscard with
        | .error e => .error (.err e)
        | .ok mc => .ok ⟨i, f, a.sampleFun.getD f, mc⟩

/-- `state.init(seed)` (vqs/mc_state.py:238-255). -/
def State.init {S Smp : Type} (mk : Int → Key) (drawn : Int) (dummy : X) (st : State Key X P M Y S Smp) (seed : Option (Seed Key)) :
    State Key X P M Y S Smp × Option Err :=
  match st.initFun with
  | none => (st, some .runtimeError)
  | some i => ({ st with mc := st.mc.setVars (i (prngKey mk drawn seed) dummy) }, none)

/-- utils/model_frameworks/haiku.py:102-103: `serialize_flat_mapping`. -/
def serializeHaiku (mapping : P) : P := mapping

/-- utils/model_frameworks/haiku.py:105-112: `deserialize_flat_mapping(flat_mapping, _)`, which flax calls with the object to be restored and the stored state. -/
def deserializeHaiku (flatMapping _state : P) : P := flatMapping

end Verif.StateCtor

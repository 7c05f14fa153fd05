import Verif.Model.Flip

/-! Models of `netket/sampler/metropolis.py`, `netket/sampler/base.py` (sampling loops),
`netket/sampler/metropolis_numpy.py` and `netket/sampler/rules/*.py`.

Configurations are an arbitrary type `X` (rows of the array σ), real numbers an arbitrary ordered
field `R` with `exp`/`log` given as arguments, PRNG keys an arbitrary type `K` whose `split` and
`uniform` are arguments.  The machine enters through `logPsi x = machine.apply(parameters, x).real`,
evaluated row by row.  Array broadcasting errors (row counts that differ) are not modelled in the jax
sampler: every array has `n_chains_per_rank` rows by construction. -/

namespace Verif.Metro

open Verif.Flip (jaxGet jaxSet)

/-! ### jax sampler -/

/-- metropolis.py:40-126, the methods of a `MetropolisRule`; `transition` returns the proposed rows
    and the optional `log_prob_correction`. -/
structure Rule (X R K S : Type) where
  initState : K → S
  reset : S → S
  transition : S → K → List X → List X × Option (List R)
  randomState : S → K → List X

/-- `jax.random.split(key)`, `split(key, 3)`, `uniform(key, shape=(n,))`
(netket/sampler/metropolis.py:291, 305, 317, 326). -/
structure Rng (R K : Type) where
  split2 : K → K × K
  split3 : K → K × K × K
  uniform : K → Nat → List R

/-- metropolis.py:204-227 and base.py:52-68, together with the machine and its parameters, which
    every method receives. `zeroRow` is a row of `jnp.zeros`. -/
structure Sampler (X R K S : Type) where
  rng : Rng R K
  rule : Rule X R K S
  exp : R → R
  logPsi : X → R
  pow : Nat
  nSweeps : Nat
  nChainsPerRank : Nat
  nNodes : Nat
  resetChains : Bool
  zeroRow : X

/-- metropolis.py:131-147. -/
structure State (X K S : Type) where
  σ : List X
  rng : K
  ruleState : S
  nStepsProc : Nat := 0
  nAcceptedProc : Nat := 0

section
variable {X R K S : Type} [Field R] [LinearOrder R]

/-- metropolis.py:310: `machine_pow * machine.apply(parameters, σ).real` for one row. -/
def logProb (s : Sampler X R K S) (x : X) : R := s.pow * s.logPsi x

/-- metropolis.py:328-333 for one row: `uniform < exp(new - old [+ correction])`. -/
def acceptOne (exp : R → R) (u new old : R) (corr : Option R) : Bool :=
  match corr with
  | some c => decide (u < exp (new - old + c))
  | none => decide (u < exp (new - old))

/-- metropolis.py:328-333 for all rows. -/
def doAccept (exp : R → R) (u new old : List R) (corr : Option (List R)) : List Bool :=
  match corr with
  | some cs => List.zipWith (fun (p : R × R × R) c => acceptOne exp p.1 p.2.1 p.2.2 (some c))
      (u.zip (new.zip old)) cs
  | none => (u.zip (new.zip old)).map fun p => acceptOne exp p.1 p.2.1 p.2.2 none

/-- `jnp.where(mask, a, b)` row by row (metropolis.py:336, 339-341). -/
def whereRows {α : Type} (m : List Bool) (a b : List α) : List α :=
  List.zipWith (fun (c : Bool) (p : α × α) => if c then p.1 else p.2) m (a.zip b)

/-- metropolis.py:307-313, variables of the loop scope. -/
structure Scope (X R K : Type) where
  key : K
  σ : List X
  logProb : List R
  accepted : Nat

/-- metropolis.py:315-341, one pass of the loop. -/
def sweep (s : Sampler X R K S) (ruleState : S) (c : Scope X R K) : Scope X R K :=
  let ks := s.rng.split3 c.key
  let t := s.rule.transition ruleState ks.2.1 c.σ
  let lp := t.1.map (logProb s)
  let u := s.rng.uniform ks.2.2 s.nChainsPerRank
  let acc := doAccept s.exp u lp c.logProb t.2
  { key := ks.1
    σ := whereRows acc t.1 c.σ
    logProb := whereRows acc lp c.logProb
    accepted := c.accepted + acc.count true }

/-- metropolis.py:315 (`for i in s.range(n_sweeps)`). -/
def sweeps (s : Sampler X R K S) (ruleState : S) : Nat → Scope X R K → Scope X R K
  | 0, c => c
  | n + 1, c => sweeps s ruleState n (sweep s ruleState c)

/-- metropolis.py:304-313. -/
def startScope (s : Sampler X R K S) (st : State X K S) : Scope X R K :=
  { key := (s.rng.split2 st.rng).2
    σ := st.σ
    logProb := st.σ.map (logProb s)
    accepted := st.nAcceptedProc }

/-- metropolis.py:304-351. -/
def sampleNext (s : Sampler X R K S) (st : State X K S) : State X K S × List X :=
  let c := sweeps s st.ruleState s.nSweeps (startScope s st)
  let new : State X K S :=
    { σ := c.σ
      rng := (s.rng.split2 st.rng).1
      ruleState := st.ruleState
      nStepsProc := st.nStepsProc + s.nSweeps * s.nChainsPerRank
      nAcceptedProc := c.accepted }
  (new, new.σ)

/-- metropolis.py:290-302. -/
def reset (s : Sampler X R K S) (st : State X K S) : State X K S :=
  let ks := s.rng.split2 st.rng
  { σ := if s.resetChains then s.rule.randomState st.ruleState ks.2 else st.σ
    rng := ks.1
    ruleState := s.rule.reset st.ruleState
    nStepsProc := 0
    nAcceptedProc := 0 }

/-- metropolis.py:272-288. -/
def initState (s : Sampler X R K S) (key : K) : State X K S :=
  let ks := s.rng.split2 key
  let rs := s.rule.initState ks.2
  let st : State X K S :=
    { σ := List.replicate s.nChainsPerRank s.zeroRow, rng := ks.1, ruleState := rs }
  if s.resetChains then st
  else
    let ks' := s.rng.split2 ks.1
    { st with σ := s.rule.randomState rs ks'.2, rng := ks'.1 }

/-- metropolis.py:181-184. -/
def nSteps (s : Sampler X R K S) (st : State X K S) : Nat := st.nStepsProc * s.nNodes

/-- metropolis.py:186-190: `mpi_sum_jax` over the ranks' states. -/
def nAccepted (sts : List (State X K S)) : Nat := (sts.map (·.nAcceptedProc)).sum

/-- metropolis.py:149-159; `None` when nothing was sampled. -/
def acceptance (s : Sampler X R K S) (sts : List (State X K S)) (st : State X K S) : Option ℚ :=
  if nSteps s st = 0 then none else some ((nAccepted sts : ℚ) / (nSteps s st : ℚ))

end

/-- base.py:455-489: `lax.scan` of a `sample_next` function; returns samples and final state. -/
def scanChain {St A : Type} (next : St → St × A) : Nat → St → List A × St
  | 0, st => ([], st)
  | n + 1, st =>
    let r := next st
    let q := scanChain next n r.1
    (r.2 :: q.1, q.2)

/-- base.py:514-516 (`samples` generator): one-sample chains, the state threaded through. -/
def samplesGen {St A : Type} (chain : Nat → St → List A × St) : Nat → St → List A × St
  | 0, st => ([], st)
  | n + 1, st =>
    let r := chain 1 st
    let q := samplesGen chain n r.2
    (r.1.take 1 ++ q.1, q.2)

/-- base.py:449-452: `sample`, resetting only when no state is passed. -/
def sampleFn {St A : Type} (freshReset : St) (chain : Nat → St → List A × St) (st : Option St)
    (n : Nat) : List A × St :=
  match st with
  | some st => chain n st
  | none => chain n freshReset

/-- base.py:276-279 (`Sampler.sample_next`): without a state, `sampler_state` is used un-reset. -/
def sampleNextFn {St A : Type} (freshInit : St) (next : St → St × A) (st : Option St) : St × A :=
  match st with
  | some st => next st
  | none => next freshInit

/-- base.py:249-252 (`Sampler.reset`). -/
def resetFn {St : Type} (freshInit : St) (reset : St → St) (st : Option St) : St :=
  match st with
  | some st => reset st
  | none => reset freshInit

/-- base.py:378-400 (module-level `reset`): the result of `sampler.reset` is not returned. -/
def moduleReset {St : Type} (freshInit : St) (reset : St → St) (st : Option St) : Option St :=
  let _ := resetFn freshInit reset st
  none

/-! ### rules -/

/-- rules/exchange.py:65-71 (`scalar_update_fun`) with the two sites of the cluster. -/
def exchangeRow (σ : List Int) (si sj : Int) : List Int :=
  jaxSet (jaxSet σ si (jaxGet σ sj)) sj (jaxGet σ si)

/-- rules/exchange.py:57-76; `ids` are the random cluster indices, `clusters[cluster, ·]` a jax
    gather. -/
def exchangeTransition {R : Type} (clusters : List (Int × Int)) (ids : List Nat)
    (σ : List (List Int)) : List (List Int) × Option (List R) :=
  (List.zipWith (fun row id =>
      let c := (clusters[min id (clusters.length - 1)]?).getD (0, 0)
      exchangeRow row c.1 c.2) σ ids, none)

/-- rules/exchange.py:82-96; `dist i j` is `graph.distances()[i][j]`, in any type with a decidable
    order (igraph returns non-negative integers and `inf`). -/
def computeClusters {D : Type} [LE D] [DecidableLE D] (n : Nat) (dist : Nat → Nat → D) (dMax : D) :
    List (Nat × Nat) :=
  (List.range n).flatMap fun i =>
    ((List.range' (i + 1) (n - (i + 1))).filter fun j => decide (dist i j ≤ dMax)).map fun j => (i, j)

/-- rules/local.py:42-51: `flip_state` on every row at a random site (the flip functions are in
    Model/Flip.lean), no correction. -/
def localTransition {R : Type} (flip : Verif.Flip.Draw → List Int → Int → List Int × Int)
    (sites : List Nat) (draws : List Verif.Flip.Draw) (σ : List (List Int)) :
    List (List Int) × Option (List R) :=
  (List.zipWith (fun row p => (flip (Prod.snd p) row ((Prod.fst p : Nat) : Int)).1) σ
    (sites.zip draws), none)

/-- rules/local_numpy.py:54-56, the new local value `local_states[rs + (local_states[rs] >= x)]`. -/
def otherLocal (ls : List Int) (rs : Nat) (x : Int) : Int :=
  ls.getD (rs + (if ls.getD rs 0 ≥ x then 1 else 0)) 0

/-- rules/local_numpy.py:47-56 (`_kernel`) for one row. -/
def localNumpyRow (ls : List Int) (si rs : Nat) (σ : List Int) : List Int :=
  σ.set si (otherLocal ls rs (σ.getD si 0))

/-- the `sections` array of `get_conn_flattened`: running totals of the number of connected
    elements (base of hamiltonian.py:86-88). -/
def sectionsOf (ns : List Nat) : List Nat := ((List.range ns.length).map fun i => (ns.take (i + 1)).sum)

/-- operator/_abstract_operator.py:224-233 (`_n_conn_from_sections`). -/
def nConnFromSections (low : Nat) : List Nat → List Nat
  | [] => []
  | s :: ss => (s - low) :: nConnFromSections s ss

section
variable {X R : Type} [Field R] [LinearOrder R] [FloorRing R]

/-- rules/hamiltonian.py:109-116 (`_choose`), identical to hamiltonian_numpy.py:89-96. An index past
    the end of `vp` gives `none`. -/
def choose (log : R → R) (vp : List X) (low : Nat) : List Nat → List R → List (Option X × R)
  | s :: ss, r :: rs =>
    (vp[low + ⌊r * ((s : R) - (low : R))⌋.toNat]?, log ((s : R) - (low : R))) ::
      choose log vp s ss rs
  | _, _ => []

/-- rules/hamiltonian.py:66-103. `conn x` are the connected configurations of `x` in the order of
    `get_conn`. `none` if some row has no connected element. -/
def hamiltonianTransition (log : R → R) (conn : X → List X) (rand : List R) (v : List X) :
    Option (List X × Option (List R)) :=
  let vp := v.flatMap conn
  let ch := choose log vp 0 (sectionsOf (v.map fun x => (conn x).length)) rand
  match ch.mapM (·.1) with
  | none => none
  | some vProp =>
    let n' := nConnFromSections 0 (sectionsOf (vProp.map fun x => (conn x).length))
    some (vProp, some (List.zipWith (fun c (n : Nat) => c - log (n : R)) (ch.map (·.2)) n'))

end

/-- the row-wise move of the jax sampler, spelled out for one chain: proposal `prop`, acceptance by
    `acceptOne` (metropolis.py:318-336). -/
def moveOne {X R : Type} [Field R] [LinearOrder R] (exp : R → R) (lp : X → R) (u : R) (x y : X)
    (corr : Option R) : X :=
  if acceptOne exp u (lp y) (lp x) corr then y else x

end Verif.Metro

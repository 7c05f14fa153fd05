import Verif.Model.Metropolis

/-! Model of `netket/sampler/metropolis_numpy.py`. numpy arrays are mutable: the array `state.σ` lives
in a heap (list of arrays), the state holds its address. `log_values` and `log_prob_corr` are arrays
that only the state refers to, and are kept by value. -/

namespace Verif.Metro

open Verif.Hilbert (Err)

/-- rules of the numpy sampler: `transition` writes `σ1` and possibly `log_prob_corr`, and advances
    the generator (local_numpy.py:34-41, hamiltonian_numpy.py:71-83). -/
structure NpRule (X R K S : Type) where
  initState : K → S
  reset : S → S
  transition : S → K → List X → List X × Option (List R) × K
  randomState : S → K → List X × K

/-- metropolis_numpy.py:118 (fields inherited from metropolis.py:204-227), with the machine. -/
structure NpSampler (X R K S : Type) where
  rule : NpRule X R K S
  uniform : K → Nat → List R × K
  exp : R → R
  logPsi : X → R
  pow : Nat
  nSweeps : Nat
  nChainsPerRank : Nat
  nNodes : Nat
  resetChains : Bool
  zeroRow : X

/-- metropolis_numpy.py:37-58; `accSamples`/`totSamples` are the attributes `_accepted_samples`,
    `_total_samples` written by `_reset`. -/
structure NpState (R K S : Type) where
  σ : Nat
  logValues : List R
  logProbCorr : List R
  ruleState : S
  rng : K
  nStepsProc : Nat := 0
  nAcceptedProc : Nat := 0
  accSamples : Option Nat := none
  totSamples : Option Nat := none

section
variable {X R K S : Type} [Field R] [LinearOrder R]

/-- one row of `acceptance_kernel`: does the proposal replace the row? (metropolis_numpy.py:271-276) -/
def npAcceptOne (exp : R → R) (pow : Nat) (lv1 lv corr u : R) : Bool :=
  decide (exp (pow * (lv1 - lv) + corr) > u)

/-- metropolis_numpy.py:264-281: new rows, new log values, number of acceptances. -/
def acceptanceKernel (exp : R → R) (pow : Nat) :
    List X → List X → List R → List R → List R → List R → List X × List R × Nat
  | x :: xs, y :: ys, l :: ls, l1 :: ls1, c :: cs, u :: us =>
    let r := acceptanceKernel exp pow xs ys ls ls1 cs us
    if npAcceptOne exp pow l1 l c u then (y :: r.1, l1 :: r.2.1, r.2.2 + 1)
    else (x :: r.1, l :: r.2.1, r.2.2)
  | xs, _, ls, _, _, _ => (xs, ls, 0)

/-- local variables of `_sample_next` (metropolis_numpy.py:186-195). -/
structure NpScope (X R K : Type) where
  σ : List X
  lv : List R
  corr : List R
  rng : K
  accepted : Nat

/-- metropolis_numpy.py:197-217, one pass of the loop. -/
def npSweep (s : NpSampler X R K S) (rs : S) (c : NpScope X R K) : NpScope X R K :=
  let t := s.rule.transition rs c.rng c.σ
  let corr := t.2.1.getD c.corr
  let u := s.uniform t.2.2 c.σ.length
  let r := acceptanceKernel s.exp s.pow c.σ t.1 c.lv (t.1.map s.logPsi) corr u.1
  { σ := r.1, lv := r.2.1, corr := corr, rng := u.2, accepted := c.accepted + r.2.2 }

/-- metropolis_numpy.py:197. -/
def npSweeps (s : NpSampler X R K S) (rs : S) : Nat → NpScope X R K → NpScope X R K
  | 0, c => c
  | n + 1, c => npSweeps s rs n (npSweep s rs c)

/-- metropolis_numpy.py:185-220. The array of `state.σ` is overwritten and its address returned. -/
def npSampleNext (s : NpSampler X R K S) (h : List (List X)) (st : NpState R K S) :
    List (List X) × NpState R K S × Nat :=
  let c := npSweeps s st.ruleState s.nSweeps
    { σ := h.getD st.σ [], lv := st.logValues, corr := st.logProbCorr, rng := st.rng, accepted := 0 }
  (h.set st.σ c.σ,
    { st with
      logValues := c.lv
      logProbCorr := c.corr
      rng := c.rng
      nStepsProc := st.nStepsProc + s.nSweeps * (s.nChainsPerRank * s.nNodes)
      nAcceptedProc := st.nAcceptedProc + c.accepted },
    st.σ)

/-- metropolis_numpy.py:137-165. -/
def npInitState (s : NpSampler X R K S) (h : List (List X)) (key : K) :
    List (List X) × NpState R K S :=
  let n := s.nChainsPerRank
  let rs := s.rule.initState key
  let st : NpState R K S :=
    { σ := h.length, logValues := List.replicate n 0, logProbCorr := List.replicate n 0,
      ruleState := rs, rng := key }
  if s.resetChains then (h ++ [List.replicate n s.zeroRow], st)
  else
    let r := s.rule.randomState rs key
    (h ++ [r.1], { st with rng := r.2 })

/-- metropolis_numpy.py:167-183. -/
def npReset (s : NpSampler X R K S) (h : List (List X)) (st : NpState R K S) :
    List (List X) × NpState R K S :=
  let r := s.rule.randomState st.ruleState st.rng
  let h' := if s.resetChains then h ++ [r.1] else h
  let a := if s.resetChains then h.length else st.σ
  (h', { st with
    σ := a
    rng := if s.resetChains then r.2 else st.rng
    ruleState := s.rule.reset st.ruleState
    logValues := (h'.getD a []).map s.logPsi
    accSamples := some 0
    totSamples := some 0 })

/-- metropolis_numpy.py:92-95. -/
def npNSteps (s : NpSampler X R K S) (st : NpState R K S) : Nat := st.nStepsProc * s.nNodes

/-- `samples[i] = σ` (metropolis_numpy.py:236): assigning an array of `rows` rows to a slice with
    `n` rows; numpy broadcasts a single row and rejects other sizes. -/
def assignRows (n : Nat) (rows : List X) : Except Err (List X) :=
  if rows.length = n then .ok rows
  else match rows with
    | [x] => .ok (List.replicate n x)
    | _ => .error .valueError

/-- metropolis_numpy.py:222-238. -/
def npSampleChain (s : NpSampler X R K S) :
    Nat → List (List X) → NpState R K S → Except Err (List (List X) × List (List X) × NpState R K S)
  | 0, h, st => .ok ([], h, st)
  | n + 1, h, st =>
    let r := npSampleNext s h st
    match assignRows (s.nChainsPerRank * s.nNodes) (r.1.getD r.2.2 []) with
    | .error e => .error e
    | .ok row =>
      match npSampleChain s n r.1 r.2.1 with
      | .error e => .error e
      | .ok q => .ok (row :: q.1, q.2.1, q.2.2)

end

end Verif.Metro

import Verif.Model.MetropolisNumpy
import Verif.Props.Rules
import Mathlib.Algebra.BigOperators.Group.List.Lemmas
import Mathlib.Algebra.Order.BigOperators.Group.List

/-! C46 (acceptance counters), C47 (splitting a chain), and the numpy sampler's part of C44. -/

namespace Verif.Metro

open Verif.Hilbert (Err)

set_option linter.unusedSectionVars false

/-! ### C47, jax -/

/-- Sampling `n + m` at once is sampling `n`, then `m` from the returned state. -/
theorem C47_split {St A : Type} (next : St → St × A) (n m : Nat) (st : St) :
    scanChain next (n + m) st
      = ((scanChain next n st).1 ++ (scanChain next m (scanChain next n st).2).1,
         (scanChain next m (scanChain next n st).2).2) := by
  induction n generalizing st with
  | zero => simp [scanChain]
  | succ n ih =>
    rw [Nat.add_right_comm]
    simp only [scanChain]
    rw [ih]
    simp

/-- The `samples` generator yields the same configurations and state as one `sample` call. -/
theorem C47_generator {St A : Type} (next : St → St × A) (n : Nat) (st : St) :
    samplesGen (scanChain next) n st = scanChain next n st := by
  induction n generalizing st with
  | zero => rfl
  | succ n ih => simp [samplesGen, scanChain, ih]

/-- A chain has the requested number of samples, and sample `k` is the `k`-th iterate. -/
theorem C47_iterate {St A : Type} (next : St → St × A) (n : Nat) (st : St) :
    (scanChain next n st).1.length = n ∧
      (scanChain next n st).2 = (fun s => (next s).1)^[n] st ∧
      ∀ (k : Nat), k < n → (scanChain next n st).1[k]? = some (next ((fun s => (next s).1)^[k] st)).2 := by
  induction n generalizing st with
  | zero => exact ⟨rfl, rfl, fun k hk => absurd hk (by omega)⟩
  | succ n ih =>
    obtain ⟨h1, h2, h3⟩ := ih (next st).1
    refine ⟨by simp [scanChain, h1], by simp [scanChain, h2], ?_⟩
    intro k hk
    cases k with
    | zero => simp [scanChain]
    | succ k => simp only [scanChain, List.getElem?_cons_succ, h3 k (by omega)]; rfl

section
variable {X R K S : Type} [Field R] [LinearOrder R]

/-- For the jax Metropolis sampler: drawing in two calls of `sample`, passing the state, equals one
    call; the last sample is the configuration in the state. -/
theorem C47_metropolis_split (s : Sampler X R K S) (fresh : State X K S) (st : State X K S)
    (n m : Nat) :
    sampleFn fresh (scanChain (sampleNext s)) (some st) (n + m)
      = ((sampleFn fresh (scanChain (sampleNext s)) (some st) n).1 ++
          (sampleFn fresh (scanChain (sampleNext s))
            (some (sampleFn fresh (scanChain (sampleNext s)) (some st) n).2) m).1,
         (sampleFn fresh (scanChain (sampleNext s))
            (some (sampleFn fresh (scanChain (sampleNext s)) (some st) n).2) m).2) :=
  C47_split (sampleNext s) n m st

/-! ### C46, jax -/

theorem doAccept_length (exp : R → R) (u new old : List R) (corr : Option (List R)) :
    (doAccept exp u new old corr).length ≤ u.length := by
  cases corr <;> simp [doAccept] <;> omega

/-- calls of the sampler API between which counters are observed. -/
inductive Op | sample | reset
  deriving DecidableEq, Repr

/-- effect of a call. -/
def runOp (s : Sampler X R K S) (st : State X K S) : Op → State X K S
  | .sample => (sampleNext s st).1
  | .reset => reset s st

/-- a sequence of calls. -/
def runOps (s : Sampler X R K S) (st : State X K S) (ops : List Op) : State X K S :=
  ops.foldl (runOp s) st

/-- number of samples drawn since the last reset. -/
def drawn (ops : List Op) : Nat :=
  ops.foldl (fun n o => match o with | .sample => n + 1 | .reset => 0) 0

theorem sweeps_accepted (s : Sampler X R K S) (rs : S)
    (hu : ∀ k n, (s.rng.uniform k n).length = n) (n : Nat) (c : Scope X R K) :
    c.accepted ≤ (sweeps s rs n c).accepted ∧
      (sweeps s rs n c).accepted ≤ c.accepted + n * s.nChainsPerRank := by
  induction n generalizing c with
  | zero => simp [sweeps]
  | succ n ih =>
    have hs : c.accepted ≤ (sweep s rs c).accepted ∧
        (sweep s rs c).accepted ≤ c.accepted + s.nChainsPerRank := by
      simp only [sweep]
      refine ⟨Nat.le_add_right _ _, Nat.add_le_add_left ?_ _⟩
      refine le_trans List.count_le_length (le_trans (doAccept_length _ _ _ _ _) ?_)
      rw [hu]
    obtain ⟨h1, h2⟩ := ih (sweep s rs c)
    simp only [sweeps]
    refine ⟨hs.1.trans h1, h2.trans ?_⟩
    calc (sweep s rs c).accepted + n * s.nChainsPerRank
        ≤ c.accepted + s.nChainsPerRank + n * s.nChainsPerRank := Nat.add_le_add_right hs.2 _
      _ = c.accepted + (n + 1) * s.nChainsPerRank := by ring

/-- After any calls, `n_steps` is the number of moves proposed since the last reset over all chains
    and ranks. -/
theorem C46_n_steps (s : Sampler X R K S) (key : K) (ops : List Op) :
    nSteps s (runOps s (initState s key) ops)
      = drawn ops * s.nSweeps * (s.nChainsPerRank * s.nNodes) := by
  have h : (runOps s (initState s key) ops).nStepsProc
      = drawn ops * (s.nSweeps * s.nChainsPerRank) := by
    induction ops using List.reverseRecOn with
    | nil => simp only [runOps, drawn, List.foldl_nil, initState]; split <;> simp
    | append_singleton ops o ih =>
      simp only [runOps, drawn, List.foldl_append, List.foldl_cons, List.foldl_nil] at ih ⊢
      cases o with
      | sample => simp only [runOp, sampleNext]; rw [ih]; ring
      | reset => simp [runOp, reset]
  rw [nSteps, h]; ring

/-- `reset` zeroes both counters. -/
theorem C46_reset_zero (s : Sampler X R K S) (st : State X K S) :
    (reset s st).nStepsProc = 0 ∧ (reset s st).nAcceptedProc = 0 ∧ nSteps s (reset s st) = 0 ∧
      acceptance s [reset s st] (reset s st) = none := by
  refine ⟨rfl, rfl, ?_, ?_⟩
  · simp [nSteps, reset]
  · simp [acceptance, nSteps, reset]

/-- Never more acceptances than moves, after any sequence of calls. -/
theorem C46_accepted_le (s : Sampler X R K S) (hu : ∀ k n, (s.rng.uniform k n).length = n) (key : K)
    (ops : List Op) :
    (runOps s (initState s key) ops).nAcceptedProc ≤ (runOps s (initState s key) ops).nStepsProc := by
  induction ops using List.reverseRecOn with
  | nil => simp only [runOps, List.foldl_nil, initState]; split <;> simp
  | append_singleton ops o ih =>
    simp only [runOps, List.foldl_append, List.foldl_cons, List.foldl_nil] at ih ⊢
    cases o with
    | sample =>
      simp only [runOp, sampleNext]
      refine le_trans (sweeps_accepted s _ hu _ _).2 ?_
      simp only [startScope]
      omega
    | reset => simp [runOp, reset]

theorem sweeps_shift (s : Sampler X R K S) (rs : S) (n d : Nat) (c : Scope X R K) :
    sweeps s rs n { c with accepted := c.accepted + d }
      = { sweeps s rs n c with accepted := (sweeps s rs n c).accepted + d } := by
  induction n generalizing c with
  | zero => rfl
  | succ n ih =>
    simp only [sweeps]
    rw [← ih (sweep s rs c)]
    congr 1
    simp only [sweep, Scope.mk.injEq, true_and]
    omega

/-- The acceptances of a call are added to those counted before, and the chains do not depend on the counters. -/
theorem C46_accumulate (s : Sampler X R K S) (st : State X K S) (a b : Nat) :
    (sampleNext s { st with nAcceptedProc := a + b }).1.nAcceptedProc
        = (sampleNext s { st with nAcceptedProc := a }).1.nAcceptedProc + b
      ∧ (sampleNext s { st with nAcceptedProc := a + b }).2 = (sampleNext s { st with nAcceptedProc := a }).2 := by
  have h := sweeps_shift s st.ruleState s.nSweeps b (startScope s { st with nAcceptedProc := a })
  constructor
  · have h2 := congrArg (fun c : Scope X R K => c.accepted) h
    exact h2
  · have h2 := congrArg (fun c : Scope X R K => c.σ) h
    exact h2

/-- `reset` keeps the chains if `reset_chains` is False; if it is True the new chains do not depend on the old ones, and come from
    the rule's `random_state`. -/
theorem C46_reset_chains (s : Sampler X R K S) (st : State X K S) :
    (s.resetChains = false → (reset s st).σ = st.σ)
    ∧ (s.resetChains = true → (∀ σ', (reset s { st with σ := σ' }).σ = (reset s st).σ)
        ∧ ∃ k, (reset s st).σ = s.rule.randomState st.ruleState k) := by
  constructor
  · intro h
    simp [reset, h]
  · intro h
    exact ⟨fun σ' => by simp [reset, h], (s.rng.split2 st.rng).2, by simp [reset, h]⟩

/-- The acceptance over all ranks (same calls on every rank, different random numbers) lies in [0,1]. -/
theorem C46_acceptance_range (s : Sampler X R K S) (hu : ∀ k n, (s.rng.uniform k n).length = n)
    (keys : List K) (hk : keys.length = s.nNodes) (ops : List Op) (st : State X K S)
    (hst : st ∈ keys.map fun k => runOps s (initState s k) ops) (a : ℚ)
    (ha : acceptance s (keys.map fun k => runOps s (initState s k) ops) st = some a) :
    0 ≤ a ∧ a ≤ 1 := by
  have hstep : ∀ k, (runOps s (initState s k) ops).nStepsProc * s.nNodes
      = drawn ops * s.nSweeps * (s.nChainsPerRank * s.nNodes) := fun k => C46_n_steps s k ops
  simp only [List.mem_map] at hst
  obtain ⟨k0, hk0, rfl⟩ := hst
  have hpos : 0 < s.nNodes := by
    rw [← hk]; exact List.length_pos_of_mem hk0
  simp only [acceptance] at ha
  split at ha
  · simp at ha
  · rename_i hne
    simp only [Option.some.injEq] at ha
    have hle : nAccepted (keys.map fun k => runOps s (initState s k) ops)
        ≤ nSteps s (runOps s (initState s k0) ops) := by
      simp only [nAccepted, List.map_map]
      have hb : ∀ v ∈ keys.map ((fun x : State X K S => x.nAcceptedProc) ∘
          fun k => runOps s (initState s k) ops), v ≤ (runOps s (initState s k0) ops).nStepsProc := by
        intro v hv
        simp only [List.mem_map, Function.comp_apply] at hv
        obtain ⟨k, _, rfl⟩ := hv
        refine le_trans (C46_accepted_le s hu k ops) ?_
        have := (hstep k).trans (hstep k0).symm
        exact (Nat.eq_of_mul_eq_mul_right hpos this).le
      refine le_trans (List.sum_le_card_nsmul _ _ hb) ?_
      simp only [List.length_map, smul_eq_mul, nSteps, hk]
      rw [Nat.mul_comm]
    have hd : (0 : ℚ) < (nSteps s (runOps s (initState s k0) ops) : ℚ) := by
      exact_mod_cast Nat.pos_of_ne_zero hne
    rw [← ha]
    refine ⟨by positivity, ?_⟩
    rw [div_le_one hd]
    exact_mod_cast hle

/-- The counter of accepted moves grows by the number of rows passing the acceptance test. -/
theorem C46_accepted_counts (s : Sampler X R K S) (rs : S) (c : Scope X R K) :
    (sweep s rs c).accepted = c.accepted + (doAccept s.exp
      (s.rng.uniform (s.rng.split3 c.key).2.2 s.nChainsPerRank)
      ((s.rule.transition rs (s.rng.split3 c.key).2.1 c.σ).1.map (fun z => s.pow * s.logPsi z)) c.logProb
      (s.rule.transition rs (s.rng.split3 c.key).2.1 c.σ).2).count true := rfl

/-! ### invariants of the rows along a chain -/

theorem whereRows_forall2 {α : Type} (Q : α → α → Prop) (m : List Bool) (a b base : List α)
    (hm : m.length = base.length) (ha : List.Forall₂ Q base a) (hb : List.Forall₂ Q base b) :
    List.Forall₂ Q base (whereRows m a b) := by
  induction base generalizing m a b with
  | nil =>
    cases ha; cases hb
    simp only [List.length_nil, List.length_eq_zero_iff] at hm
    subst hm; simp [whereRows]
  | cons x base ih =>
    cases ha with
    | cons h1 ha =>
      cases hb with
      | cons h2 hb =>
        cases m with
        | nil => simp at hm
        | cons c m =>
          have := ih m _ _ (by simpa using hm) ha hb
          simp only [whereRows, List.zip_cons_cons, List.zipWith_cons_cons] at this ⊢
          refine List.Forall₂.cons ?_ this
          cases c
          · exact h2
          · exact h1

theorem forall2_trans {α : Type} {Q : α → α → Prop} (ht : ∀ x y z, Q x y → Q y z → Q x z)
    {a b c : List α} (h1 : List.Forall₂ Q a b) (h2 : List.Forall₂ Q b c) : List.Forall₂ Q a c := by
  induction h1 generalizing c with
  | nil => cases h2; exact .nil
  | cons h _ ih =>
    cases h2 with
    | cons h' t => exact .cons (ht _ _ _ h h') (ih t)

/-- A relation kept by every proposal is kept by the whole chain: every row of every sample is
    related to the row the chain started from. For the exchange rule the relation is "is a
    rearrangement of". -/
theorem C45_chain (s : Sampler X R K S) (Q : X → X → Prop) (hrefl : ∀ x, Q x x)
    (htrans : ∀ x y z, Q x y → Q y z → Q x z)
    (hu : ∀ k n, (s.rng.uniform k n).length = n)
    (hnone : ∀ rs k σ, (s.rule.transition rs k σ).2 = none)
    (hprop : ∀ rs k σ, σ.length = s.nChainsPerRank → List.Forall₂ Q σ (s.rule.transition rs k σ).1)
    (st : State X K S) (hlen : st.σ.length = s.nChainsPerRank) (n : Nat) :
    ∀ smp ∈ (scanChain (sampleNext s) n st).1, List.Forall₂ Q st.σ smp := by
  have hsweep : ∀ rs (c : Scope X R K), c.logProb = c.σ.map (logProb s) →
      c.σ.length = s.nChainsPerRank → List.Forall₂ Q c.σ (sweep s rs c).σ := by
    intro rs c hc hl
    simp only [sweep]
    have hp := hprop rs (s.rng.split3 c.key).2.1 c.σ hl
    refine whereRows_forall2 Q _ _ _ _ ?_ hp ?_
    · rw [hnone]
      simp [doAccept, hu, hp.length_eq.symm, hc, hl]
    · exact List.forall₂_same.2 fun x _ => hrefl x
  have hsweeps : ∀ k rs (c : Scope X R K), c.logProb = c.σ.map (logProb s) →
      c.σ.length = s.nChainsPerRank → List.Forall₂ Q c.σ (sweeps s rs k c).σ := by
    intro k rs
    induction k with
    | zero => intro c _ _; exact List.forall₂_same.2 fun x _ => hrefl x
    | succ k ih =>
      intro c hc hl
      have h1 := hsweep rs c hc hl
      have h2 := ih (sweep s rs c) (C44_cache s rs 1 c hc) (h1.length_eq ▸ hl)
      simp only [sweeps]
      exact forall2_trans htrans h1 h2
  have hnext : ∀ st : State X K S, st.σ.length = s.nChainsPerRank →
      List.Forall₂ Q st.σ (sampleNext s st).2 ∧ (sampleNext s st).1.σ = (sampleNext s st).2 :=
    fun st hl => ⟨hsweeps s.nSweeps st.ruleState (startScope s st) rfl hl, rfl⟩
  induction n generalizing st with
  | zero => intro smp h; simp [scanChain] at h
  | succ n ih =>
    intro smp h
    obtain ⟨h1, h2⟩ := hnext st hlen
    simp only [scanChain, List.mem_cons] at h
    rcases h with rfl | h
    · exact h1
    · have hl : (sampleNext s st).1.σ.length = s.nChainsPerRank := by
        rw [h2, ← h1.length_eq, hlen]
      have h3 := ih (sampleNext s st).1 hl smp h
      rw [h2] at h3
      exact forall2_trans htrans h1 h3

theorem exchange_rows {R' : Type} (N : Nat) (clusters : List (Int × Int)) (hne : clusters ≠ [])
    (hcl : ∀ c ∈ clusters, (-(N : Int) ≤ c.1 ∧ c.1 < N) ∧ (-(N : Int) ≤ c.2 ∧ c.2 < N))
    (σ : List (List Int)) (ids : List Nat) (hl : ids.length = σ.length) :
    List.Forall₂ (fun x y : List Int => x.length = N → y.Perm x) σ
      (exchangeTransition (R := R') clusters ids σ).1 := by
  simp only [exchangeTransition]
  induction σ generalizing ids with
  | nil => simp
  | cons x σ ih =>
    cases ids with
    | nil => simp at hl
    | cons i ids =>
      rw [List.zipWith_cons_cons]
      refine List.Forall₂.cons (fun hx => ?_) (ih ids (by simpa using hl))
      have hi : min i (clusters.length - 1) < clusters.length := by
        have := List.length_pos_iff.2 hne; omega
      rw [List.getElem?_eq_getElem hi, Option.getD_some]
      have := hcl _ (List.getElem_mem hi)
      rw [← hx] at this
      exact C45_perm x _ _ this.1 this.2

/-- Along a whole chain of the exchange sampler every sampled configuration is a rearrangement of the
    configuration its chain started from, for every wavefunction, random numbers and chain length. -/
theorem C45_exchange_chain (N : Nat) (clusters : List (Int × Int)) (hne : clusters ≠ [])
    (hcl : ∀ c ∈ clusters, (-(N : Int) ≤ c.1 ∧ c.1 < N) ∧ (-(N : Int) ≤ c.2 ∧ c.2 < N))
    (ids : K → Nat → List Nat) (hids : ∀ k n, (ids k n).length = n)
    (s : Sampler (List Int) R K S)
    (hrule : ∀ rs k σ, s.rule.transition rs k σ = exchangeTransition clusters (ids k σ.length) σ)
    (hu : ∀ k n, (s.rng.uniform k n).length = n)
    (st : State (List Int) K S) (hlen : st.σ.length = s.nChainsPerRank)
    (hN : ∀ x ∈ st.σ, x.length = N) (n : Nat) :
    ∀ smp ∈ (scanChain (sampleNext s) n st).1, List.Forall₂ (fun x y => y.Perm x) st.σ smp := by
  have h := C45_chain s (fun x y : List Int => x.length = N → y.Perm x) (fun x _ => List.Perm.refl x)
    (fun x y z h1 h2 hx => (h2 ((h1 hx).length_eq.trans hx)).trans (h1 hx)) hu
    (fun rs k σ => by rw [hrule]; rfl)
    (fun rs k σ _ => by rw [hrule]; exact exchange_rows N clusters hne hcl σ _ (hids _ _)) st hlen n
  intro smp hs
  have h1 := h smp hs
  refine List.Forall₂.imp ?_ ((List.forall₂_and_left _ _).2 ⟨hN, h1⟩)
  rintro x y ⟨hx, hp⟩
  exact hp hx

/-! ### numpy sampler -/

/-- the numpy acceptance test is the jax test on the density `pow * Re log psi` with the correction. -/
theorem C44_numpy_accept (exp : R → R) (pow : Nat) (lv1 lv corr u : R) :
    npAcceptOne exp pow lv1 lv corr u = acceptOne exp u (pow * lv1) (pow * lv) (some corr) := by
  simp only [npAcceptOne, acceptOne]
  rw [mul_sub]

theorem acceptanceKernel_spec (s : NpSampler X R K S) (xs ys : List X) (cs us : List R)
    (hy : ys.length = xs.length) (hc : cs.length = xs.length) (hu : us.length = xs.length) :
    let r := acceptanceKernel s.exp s.pow xs ys (xs.map s.logPsi) (ys.map s.logPsi) cs us
    r.2.1 = r.1.map s.logPsi ∧ r.1.length = xs.length ∧ r.2.2 ≤ xs.length ∧
      ∀ (i : Nat) (x y : X) (c u : R), xs[i]? = some x → ys[i]? = some y → cs[i]? = some c →
        us[i]? = some u →
        r.1[i]? = some (moveOne s.exp (fun z => (s.pow : R) * s.logPsi z) u x y (some c)) := by
  induction xs generalizing ys cs us with
  | nil => simp [acceptanceKernel]
  | cons x xs ih =>
    cases ys with
    | nil => simp at hy
    | cons y ys =>
      cases cs with
      | nil => simp at hc
      | cons c cs =>
        cases us with
        | nil => simp at hu
        | cons u us =>
          obtain ⟨h1, h2, h3, h4⟩ := ih ys cs us (by simpa using hy) (by simpa using hc)
            (by simpa using hu)
          have hacc := C44_numpy_accept s.exp s.pow (s.logPsi y) (s.logPsi x) c u
          simp only [List.map_cons, acceptanceKernel]
          by_cases ha : npAcceptOne s.exp s.pow (s.logPsi y) (s.logPsi x) c u = true
          · rw [if_pos ha]
            refine ⟨by simp [h1], by simp [h2], by simp; omega, ?_⟩
            intro i x' y' c' u' hx hy' hc' hu'
            cases i with
            | zero =>
              simp only [List.getElem?_cons_zero, Option.some.injEq] at hx hy' hc' hu' ⊢
              subst hx hy' hc' hu'
              rw [moveOne, if_pos (hacc ▸ ha)]
            | succ i =>
              simp only [List.getElem?_cons_succ] at hx hy' hc' hu' ⊢
              exact h4 i x' y' c' u' hx hy' hc' hu'
          · rw [if_neg ha]
            refine ⟨by simp [h1], by simp [h2], by simp; omega, ?_⟩
            intro i x' y' c' u' hx hy' hc' hu'
            cases i with
            | zero =>
              simp only [List.getElem?_cons_zero, Option.some.injEq] at hx hy' hc' hu' ⊢
              subst hx hy' hc' hu'
              rw [moveOne, if_neg (hacc ▸ ha)]
            | succ i =>
              simp only [List.getElem?_cons_succ] at hx hy' hc' hu' ⊢
              exact h4 i x' y' c' u' hx hy' hc' hu'

/-- shapes delivered by the rule and the generator. -/
structure NpValid (s : NpSampler X R K S) : Prop where
  uniform : ∀ k n, (s.uniform k n).1.length = n
  prop : ∀ rs k σ, (s.rule.transition rs k σ).1.length = σ.length
  corr : ∀ rs k σ cs, (s.rule.transition rs k σ).2.1 = some cs → cs.length = σ.length
  random : ∀ rs k, (s.rule.randomState rs k).1.length = s.nChainsPerRank

/-- the numpy state agrees with the machine: cached log values are those of the stored rows. -/
def NpFresh (s : NpSampler X R K S) (h : List (List X)) (st : NpState R K S) : Prop :=
  st.σ < h.length ∧ (h.getD st.σ []).length = s.nChainsPerRank ∧
    st.logProbCorr.length = s.nChainsPerRank ∧ st.logValues = (h.getD st.σ []).map s.logPsi

theorem npSweeps_fresh (s : NpSampler X R K S) (hv : NpValid s) (rs : S) (n : Nat)
    (c : NpScope X R K) (hl : c.lv = c.σ.map s.logPsi) (hc : c.corr.length = c.σ.length) :
    let c' := npSweeps s rs n c
    c'.lv = c'.σ.map s.logPsi ∧ c'.corr.length = c'.σ.length ∧ c'.σ.length = c.σ.length ∧
      c.accepted ≤ c'.accepted ∧ c'.accepted ≤ c.accepted + n * c.σ.length := by
  induction n generalizing c with
  | zero => simp [npSweeps, hl, hc]
  | succ n ih =>
    have hcorr : ((s.rule.transition rs c.rng c.σ).2.1.getD c.corr).length = c.σ.length := by
      rcases h : (s.rule.transition rs c.rng c.σ).2.1 with _ | cs
      · simpa using hc
      · simpa using hv.corr rs c.rng c.σ cs h
    obtain ⟨h1, h2, h3, _⟩ := acceptanceKernel_spec s c.σ (s.rule.transition rs c.rng c.σ).1
      ((s.rule.transition rs c.rng c.σ).2.1.getD c.corr)
      (s.uniform (s.rule.transition rs c.rng c.σ).2.2 c.σ.length).1
      (hv.prop _ _ _) hcorr (hv.uniform _ _)
    rw [← hl] at h1 h2 h3
    obtain ⟨i1, i2, i3, i4, i5⟩ := ih (npSweep s rs c) h1 (by
      simp only [npSweep]; rw [hcorr, h2])
    have e1 : (npSweep s rs c).σ.length = c.σ.length := h2
    have e2 : (npSweep s rs c).accepted ≤ c.accepted + c.σ.length := by
      simp only [npSweep]; omega
    have e3 : c.accepted ≤ (npSweep s rs c).accepted := by simp [npSweep]
    simp only [npSweeps]
    refine ⟨i1, i2, i3.trans e1, e3.trans i4, i5.trans ?_⟩
    rw [e1]
    calc (npSweep s rs c).accepted + n * c.σ.length ≤ c.accepted + c.σ.length + n * c.σ.length :=
          Nat.add_le_add_right e2 _
      _ = c.accepted + (n + 1) * c.σ.length := by ring

/-- After `reset` the numpy sampler's cached log values are those of its rows, and every sampling step
    keeps them so. -/
theorem C44_numpy_cache (s : NpSampler X R K S) (hv : NpValid s) (h : List (List X))
    (st : NpState R K S) :
    (st.σ < h.length → (h.getD st.σ []).length = s.nChainsPerRank →
      st.logProbCorr.length = s.nChainsPerRank →
      NpFresh s (npReset s h st).1 (npReset s h st).2) ∧
    (NpFresh s h st → NpFresh s (npSampleNext s h st).1 (npSampleNext s h st).2.1) := by
  constructor
  · intro h1 h2 h3
    simp only [NpFresh, npReset]
    cases hr : s.resetChains
    · simpa using ⟨h1, by simpa using h2, h3⟩
    · simp [h3, hv.random]
  · rintro ⟨h1, h2, h3, h4⟩
    obtain ⟨i1, i2, i3, _⟩ := npSweeps_fresh s hv st.ruleState s.nSweeps
      { σ := h.getD st.σ [], lv := st.logValues, corr := st.logProbCorr, rng := st.rng, accepted := 0 }
      h4 (by simp only; rw [h3, h2])
    simp only [] at i3
    have hg : (h.set st.σ (npSweeps s st.ruleState s.nSweeps
      { σ := h.getD st.σ [], lv := st.logValues, corr := st.logProbCorr, rng := st.rng,
        accepted := 0 }).σ).getD st.σ [] = (npSweeps s st.ruleState s.nSweeps
      { σ := h.getD st.σ [], lv := st.logValues, corr := st.logProbCorr, rng := st.rng,
        accepted := 0 }).σ := by simp [h1]
    simp only [NpFresh, npSampleNext]
    rw [hg]
    exact ⟨by simpa using h1, by rw [i3, h2], by rw [i2, i3, h2], i1⟩

/-- The numpy sampler never counts more acceptances than moves. -/
theorem C117_accepted_le (s : NpSampler X R K S) (hv : NpValid s) (hn : 0 < s.nNodes)
    (h : List (List X)) (st : NpState R K S) (hf : NpFresh s h st)
    (hle : st.nAcceptedProc ≤ st.nStepsProc) :
    (npSampleNext s h st).2.1.nAcceptedProc ≤ (npSampleNext s h st).2.1.nStepsProc := by
  obtain ⟨h1, h2, h3, h4⟩ := hf
  obtain ⟨_, _, _, _, i5⟩ := npSweeps_fresh s hv st.ruleState s.nSweeps
    { σ := h.getD st.σ [], lv := st.logValues, corr := st.logProbCorr, rng := st.rng, accepted := 0 }
    h4 (by simp only; rw [h3, h2])
  simp only [h2] at i5
  simp only [npSampleNext]
  have : s.nSweeps * s.nChainsPerRank ≤ s.nSweeps * (s.nChainsPerRank * s.nNodes) := by
    refine Nat.mul_le_mul_left _ ?_
    exact Nat.le_mul_of_pos_right _ hn
  omega

/-- On one rank, and as long as `reset` is not called, the numpy counter is the number of moves. -/
theorem C117_steps_partial (s : NpSampler X R K S) (h1 : s.nNodes = 1) (h : List (List X))
    (st : NpState R K S) :
    npNSteps s (npSampleNext s h st).2.1
      = npNSteps s st + s.nSweeps * s.nChainsPerRank := by
  simp [npNSteps, npSampleNext, h1]

/-- `reset` leaves the numpy counters as they are. -/
theorem C117_reset_keeps (s : NpSampler X R K S) (h : List (List X)) (st : NpState R K S) :
    (npReset s h st).2.nStepsProc = st.nStepsProc ∧
      (npReset s h st).2.nAcceptedProc = st.nAcceptedProc := ⟨rfl, rfl⟩

end

/-- a numpy sampler on one site, two chains per rank, that always proposes the negated value. -/
def flipSampler (nodes chains : Nat) : NpSampler Int ℚ Nat Unit where
  rule := { initState := fun _ => (), reset := id,
            transition := fun _ k σ => (σ.map (- ·), none, k),
            randomState := fun _ k => (List.replicate chains 1, k) }
  uniform := fun k n => (List.replicate n 0, k)
  exp := fun x => if 0 ≤ x then 1 else 0
  logPsi := fun x => (x : ℚ)
  pow := 2
  nSweeps := 1
  nChainsPerRank := chains
  nNodes := nodes
  resetChains := false
  zeroRow := 0

example : NpValid (flipSampler 1 2) :=
  ⟨fun _ _ => by simp [flipSampler], fun _ _ _ => by simp [flipSampler],
    fun _ _ _ cs h => by simp [flipSampler] at h, fun _ _ => by simp [flipSampler]⟩

/-- The numpy counters are not zero after a reset. -/
theorem C117_reset_refuted :
    ¬ ∀ (s : NpSampler Int ℚ Nat Unit) (h : List (List Int)) (st : NpState ℚ Nat Unit),
      (npReset s h st).2.nStepsProc = 0 := by
  intro h
  have := h (flipSampler 1 2) (npSampleNext (flipSampler 1 2) (npInitState (flipSampler 1 2) [] 0).1
    (npInitState (flipSampler 1 2) [] 0).2).1
    (npSampleNext (flipSampler 1 2) (npInitState (flipSampler 1 2) [] 0).1
    (npInitState (flipSampler 1 2) [] 0).2).2.1
  revert this
  decide +kernel

/-- On several ranks the numpy sampler counts every move once per rank too often: two ranks with two
    chains each perform 4 moves, `n_steps` says 8. -/
theorem C117_ranks_refuted :
    ¬ ∀ (s : NpSampler Int ℚ Nat Unit) (h : List (List Int)) (st : NpState ℚ Nat Unit),
      npNSteps s (npSampleNext s h st).2.1
        = npNSteps s st + s.nSweeps * (s.nChainsPerRank * s.nNodes) := by
  intro h
  have := h (flipSampler 2 2) (npInitState (flipSampler 2 2) [] 0).1
    (npInitState (flipSampler 2 2) [] 0).2
  revert this
  decide +kernel

/-- The array returned by the numpy `sample_next` is overwritten by the next call. -/
theorem C117_alias_refuted :
    ¬ ∀ (s : NpSampler Int ℚ Nat Unit) (h : List (List Int)) (st : NpState ℚ Nat Unit),
      let r1 := npSampleNext s h st
      let r2 := npSampleNext s r1.1 r1.2.1
      r2.1.getD r1.2.2 [] = r1.1.getD r1.2.2 [] := by
  intro h
  have := h { flipSampler 1 1 with exp := fun _ => 1 } [[-1]]
    { σ := 0, logValues := [0], logProbCorr := [0], ruleState := (), rng := 0 }
  revert this
  decide +kernel

/-- On several ranks with at least two chains each, drawing a chain with the numpy sampler always
    fails: the buffer has rows for the chains of all ranks. -/
theorem C117_chain_ranks_refuted :
    ¬ ∀ (s : NpSampler Int ℚ Nat Unit) (h : List (List Int)) (st : NpState ℚ Nat Unit) (n : Nat),
      NpFresh s h st → ∃ r, npSampleChain s n h st = .ok r := by
  intro h
  obtain ⟨r, hr⟩ := h (flipSampler 2 2) [[1, 1]]
    { σ := 0, logValues := [1, 1], logProbCorr := [0, 0], ruleState := (), rng := 0 } 1
    (by refine ⟨by decide, by decide, by decide, by decide +kernel⟩)
  have hw : (match npSampleChain (flipSampler 2 2) 1 [[1, 1]]
    { σ := 0, logValues := [1, 1], logProbCorr := [0, 0], ruleState := (), rng := 0 } with
    | .ok _ => false | .error _ => true) = true := by decide +kernel
  rw [hr] at hw
  simp at hw

/-- With one chain per rank and several ranks the single row is copied to all: the returned samples
    contain the same chain several times. -/
theorem C117_duplicate (nodes : Nat) (x : Int) (hn : nodes ≠ 1) :
    assignRows nodes [x] = .ok (List.replicate nodes x) := by
  simp [assignRows, Ne.symm hn]

/-- Without a state, `sample_next` uses a state that was not reset: the cached log values are zero,
    not those of the random rows. -/
theorem C117_stale_refuted :
    ¬ ∀ (s : NpSampler Int ℚ Nat Unit) (key : Nat), NpValid s →
      NpFresh s (npInitState s [] key).1 (npInitState s [] key).2 := by
  intro h
  have := (h (flipSampler 1 2) 0 ⟨fun _ _ => by simp [flipSampler], fun _ _ _ => by simp [flipSampler],
    fun _ _ _ cs h => by simp [flipSampler] at h, fun _ _ => by simp [flipSampler]⟩).2.2.2
  revert this
  decide +kernel

section
variable {X R K S : Type} [Field R] [LinearOrder R]

theorem npChain_ok (s : NpSampler X R K S) (hv : NpValid s) (h1 : s.nNodes = 1) (n : Nat)
    (h : List (List X)) (st : NpState R K S) (hf : NpFresh s h st) :
    ∃ r, npSampleChain s n h st = .ok r ∧ NpFresh s r.2.1 r.2.2 ∧ r.1.length = n := by
  induction n generalizing h st with
  | zero => exact ⟨_, rfl, hf, rfl⟩
  | succ n ih =>
    have hf' := (C44_numpy_cache s hv h st).2 hf
    have haddr : (npSampleNext s h st).2.2 = (npSampleNext s h st).2.1.σ := rfl
    obtain ⟨r, hr, hr2, hr3⟩ := ih _ _ hf'
    have hrow : assignRows (s.nChainsPerRank * s.nNodes)
        ((npSampleNext s h st).1.getD (npSampleNext s h st).2.2 [])
        = .ok ((npSampleNext s h st).1.getD (npSampleNext s h st).2.2 []) := by
      have hl : ((npSampleNext s h st).1.getD (npSampleNext s h st).2.2 []).length
          = s.nChainsPerRank * s.nNodes := by rw [haddr, hf'.2.1, h1, Nat.mul_one]
      simp only [assignRows, hl, if_true]
    refine ⟨((npSampleNext s h st).1.getD (npSampleNext s h st).2.2 [] :: r.1, r.2.1, r.2.2), ?_,
      hr2, by simp [hr3]⟩
    simp only [npSampleChain]
    rw [hrow]
    simp only [hr]

/-- On one rank, drawing a chain with the numpy sampler in two calls equals drawing it at once; the
    samples are copies. -/
theorem C117_split_partial (s : NpSampler X R K S) (hv : NpValid s) (h1 : s.nNodes = 1)
    (n m : Nat) (h : List (List X)) (st : NpState R K S) (hf : NpFresh s h st) :
    ∃ a b, npSampleChain s n h st = .ok a ∧ npSampleChain s m a.2.1 a.2.2 = .ok b ∧
      npSampleChain s (n + m) h st = .ok (a.1 ++ b.1, b.2.1, b.2.2) := by
  induction n generalizing h st with
  | zero =>
    obtain ⟨b, hb, _⟩ := npChain_ok s hv h1 m h st hf
    exact ⟨_, b, rfl, hb, by rw [Nat.zero_add, hb]; rfl⟩
  | succ n ih =>
    have hf' := (C44_numpy_cache s hv h st).2 hf
    obtain ⟨a, b, ha, hb, hab⟩ := ih _ _ hf'
    have haddr : (npSampleNext s h st).2.2 = (npSampleNext s h st).2.1.σ := rfl
    have hrow : assignRows (s.nChainsPerRank * s.nNodes)
        ((npSampleNext s h st).1.getD (npSampleNext s h st).2.2 [])
        = .ok ((npSampleNext s h st).1.getD (npSampleNext s h st).2.2 []) := by
      have hl : ((npSampleNext s h st).1.getD (npSampleNext s h st).2.2 []).length
          = s.nChainsPerRank * s.nNodes := by rw [haddr, hf'.2.1, h1, Nat.mul_one]
      simp only [assignRows, hl, if_true]
    refine ⟨((npSampleNext s h st).1.getD (npSampleNext s h st).2.2 [] :: a.1, a.2.1, a.2.2), b, ?_,
      hb, ?_⟩
    · simp only [npSampleChain]; rw [hrow]; simp only [ha]
    · rw [Nat.add_right_comm]
      simp only [npSampleChain]; rw [hrow]; simp only [hab]
      rfl

end

/-- The module-level `reset` returns nothing, whatever the sampler and the state. -/
theorem C118_module_reset_refuted :
    ¬ ∀ (St : Type) (fresh : St) (rst : St → St) (st : Option St),
      moduleReset fresh rst st = some (resetFn fresh rst st) := by
  intro h
  have := h Unit () id none
  simp [moduleReset] at this

/-! cases for the theorems about the samplers -/

theorem exValid (n m : Nat) : NpValid (flipSampler n m) :=
  ⟨fun _ _ => by simp [flipSampler], fun _ _ _ => by simp [flipSampler],
    fun _ _ _ cs h => by simp [flipSampler] at h, fun _ _ => by simp [flipSampler]⟩

example := C44_numpy_cache (flipSampler 1 2) (exValid 1 2) (npInitState (flipSampler 1 2) [] 0).1 (npInitState (flipSampler 1 2) [] 0).2

example := C117_accepted_le (flipSampler 2 2) (exValid 2 2) (by decide) _ _
  ((C44_numpy_cache (flipSampler 2 2) (exValid 2 2) (npInitState (flipSampler 2 2) [] 0).1 (npInitState (flipSampler 2 2) [] 0).2).1
    (by decide +kernel) (by decide +kernel) (by decide +kernel)) (by decide +kernel)

example := C117_steps_partial (flipSampler 1 2) rfl (npInitState (flipSampler 1 2) [] 0).1 (npInitState (flipSampler 1 2) [] 0).2

example := C117_duplicate 2 7 (by decide)

example := C117_split_partial (flipSampler 1 2) (exValid 1 2) rfl 2 3 _ _
  ((C44_numpy_cache (flipSampler 1 2) (exValid 1 2) (npInitState (flipSampler 1 2) [] 0).1 (npInitState (flipSampler 1 2) [] 0).2).1
    (by decide +kernel) (by decide +kernel) (by decide +kernel))

/-- two chains of spins, every update flips them all. -/
def flipMetro : Sampler Int ℚ Nat Unit where
  rng := ⟨fun k => (k, k + 1), fun k => (k, k + 1, k + 2), fun _ n => List.replicate n 0⟩
  rule := ⟨fun _ => (), id, fun _ _ σ => (σ.map (- ·), none), fun _ _ => [1, 1]⟩
  exp x := if 0 ≤ x then 1 else 0
  logPsi x := x
  pow := 2
  nSweeps := 1
  nChainsPerRank := 2
  nNodes := 1
  resetChains := false
  zeroRow := 0

example := C46_accepted_le flipMetro (fun _ n => by simp [flipMetro]) 5 [.sample, .reset, .sample]

example := C46_acceptance_range flipMetro (fun _ n => by simp [flipMetro]) [5] rfl [.sample, .sample] _ (List.mem_singleton.2 rfl) _ rfl

example := C45_chain flipMetro (fun x y => x = y ∨ x = -y) (fun _ => Or.inl rfl) (by omega) (fun _ n => by simp [flipMetro]) (fun _ _ _ => rfl)
  (fun rs k σ _ => by
    change List.Forall₂ _ σ (σ.map (- ·))
    clear * -
    induction σ with
    | nil => exact .nil
    | cons a l ih => exact .cons (by simp) ih) (initState flipMetro 5) rfl 3

/-- one chain of three sites; the rule exchanges the ends. -/
def swapMetro : Sampler (List ℤ) ℚ Nat Unit where
  rng := ⟨fun k => (k, k + 1), fun k => (k, k + 1, k + 2), fun _ n => List.replicate n 0⟩
  rule := ⟨fun _ => (), id, fun _ k σ => exchangeTransition [(0, 2), (1, -1)] (List.replicate σ.length (k % 2)) σ, fun _ _ => [[1, 2, 3]]⟩
  exp x := if 0 ≤ x then 1 else 0
  logPsi x := x.headD 0
  pow := 2
  nSweeps := 1
  nChainsPerRank := 1
  nNodes := 1
  resetChains := false
  zeroRow := [0, 0, 0]

example := C45_exchange_chain 3 [(0, 2), (1, -1)] (by decide) (by decide) (fun k n => List.replicate n (k % 2)) (by simp) swapMetro (fun _ _ _ => rfl)
  (fun _ n => by simp [swapMetro]) { initState swapMetro 5 with σ := [[1, 2, 3]] } rfl (by simp) 3

end Verif.Metro

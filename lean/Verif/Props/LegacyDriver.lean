import Verif.Model.LegacyDriver
import Verif.Props.Driver
import Mathlib.Data.List.Lookmap

/-! C181, C182: the loop of the legacy drivers and their numbers of samples. -/

set_option linter.unusedVariables false
set_option linter.unusedSectionVars false

namespace Verif.LegacyDriver
open Verif.Hilbert (Err)
open Verif.Driver (Env rangeLen oneStep IsCeil rangeLen_eq)

variable {W D O V : Type}

/-! ## Specification -/

/-- some callback asks to stop in turn `b`. -/
def Stops (cbs : Iter) (answer : Nat → Nat → Bool) (b : Nat) : Prop := ∃ i < cbs.seen b, answer b i = false

/-- the events up to and including the callbacks of turn `b`, which starts at step `s` in state `w`. -/
def reportTrace (env : Env W D) (data : W → Data V) (logs cbs : Iter) (b : Nat) (s : Int) (w : W) : List (Event W V) :=
  .forward :: ((List.range (logs.seen b)).map fun i => .log i s (data (env.fwd w).1) (env.fwd w).1)
    ++ (List.range (cbs.seen b)).map fun i => .callback i s (data (env.fwd w).1)

/-- the events of a full turn. -/
def turnTrace (env : Env W D) (data : W → Data V) (step : Nat) (logs cbs : Iter) (b : Nat) (s : Int) (w : W) : List (Event W V) :=
  reportTrace env data logs cbs b s w ++ .update :: (List.replicate (step - 1) [.forward, .update]).flatten

/-! ## Lemmas -/

theorem inner_eq (env : Env W D) (m : Nat) : ∀ d : Drv W V, inner env m d =
    { stepCount := d.stepCount + m, world := (oneStep env)^[m] d.world
      trace := d.trace ++ (List.replicate m [Event.forward, .update]).flatten } := by
  induction m with
  | zero => intro d; simp [inner]
  | succ m ih =>
    intro d
    rw [inner, ih]
    simp only [update, forward, Function.iterate_succ, Function.comp, oneStep, List.replicate_succ,
      List.flatten_cons, List.append_assoc, List.cons_append, List.nil_append, Drv.mk.injEq, and_true]
    push_cast
    ring

theorem stop_iff (cbs : Iter) (answer : Nat → Nat → Bool) (b : Nat) : stopFlag (cbs.seen b) (answer b) = true ↔ Stops cbs answer b := by
  simp [stopFlag, Stops]

theorem loop_eq (env : Env W D) (r : Report W O V) (obs : Obs O) (data : W → Data V) (hd : ∀ w, logData r obs w = .ok (data w)) (step : Nat) (hs : 0 < step)
    (logs cbs : Iter) (answer : Nat → Nat → Bool) : ∀ (fuel k b : Nat) (d : Drv W V), k ≤ fuel →
    (∀ j < k, ¬Stops cbs answer (b + j)) → (k = fuel ∨ Stops cbs answer (b + k)) →
    loop env r obs step logs cbs answer fuel b d =
      ({ stepCount := d.stepCount + k * step
         world := if k < fuel then (env.fwd ((oneStep env)^[k * step] d.world)).1
           else (oneStep env)^[k * step] d.world
         trace := d.trace ++ (List.range k).flatMap (fun j : Nat =>
             turnTrace env data step logs cbs (b + j) (d.stepCount + j * step) ((oneStep env)^[j * step] d.world))
           ++ if k < fuel then reportTrace env data logs cbs (b + k) (d.stepCount + k * step)
               ((oneStep env)^[k * step] d.world) else [] }, none) := by
  intro fuel
  induction fuel with
  | zero =>
    intro k b d hk _ _
    obtain rfl : k = 0 := by omega
    simp [loop]
  | succ fuel ih =>
    intro k b d hk hno hend
    unfold loop
    rw [if_neg (by omega)]
    simp only [hd]
    cases k with
    | zero =>
      have hst : Stops cbs answer b := by
        rcases hend with h | h
        · omega
        · exact h
      rw [if_pos ((stop_iff cbs answer b).2 hst)]
      simp [reportAll, forward, reportTrace]
    | succ k =>
      have hns : ¬Stops cbs answer b := hno 0 (by omega)
      rw [if_neg (fun h => hns ((stop_iff cbs answer b).1 h)),
        ih k (b + 1) _ (by omega) (by intro j hj; have := hno (j + 1) (by omega); rwa [show b + 1 + j = b + (j + 1) by omega])
          (by rcases hend with h | h
              · left; omega
              · right; rwa [show b + 1 + k = b + (k + 1) by omega]), inner_eq]
      have hworld : ∀ j : Nat, (oneStep env)^[j * step] ((oneStep env)^[step - 1] (oneStep env d.world))
          = (oneStep env)^[(j + 1) * step] d.world := by
        intro j
        rw [← Function.iterate_succ_apply, ← Function.iterate_add_apply]
        congr 1
        rw [Nat.succ_mul]
        omega
      have hw0 : env.upd (env.fwd d.world).1 (env.fwd d.world).2 = oneStep env d.world := rfl
      have hcount : ∀ j : Nat, d.stepCount + 1 + ((step - 1 : Nat) : Int) + j * step
          = d.stepCount + ((j + 1 : Nat) : Int) * step := by
        intro j
        have : ((step - 1 : Nat) : Int) = (step : Int) - 1 := by omega
        rw [this]
        push_cast
        ring
      have hb : ∀ j : Nat, b + 1 + j = b + (j + 1) := fun j => by omega
      simp only [update, reportAll, forward, hw0, hworld, hcount, hb, Nat.add_lt_add_iff_right,
        List.range_succ_eq_map, List.flatMap_cons, List.flatMap_map, Drv.mk.injEq, true_and, Prod.mk.injEq, and_true]
      simp [turnTrace, reportTrace]

/-! ## C181: runs -/

/-- C181: `run(n)` with a positive step size and containers of loggers and callbacks: the turns before the first stopping one (all `nB = ⌈n/step⌉` of
    them if there is none) are performed in full: gradient, loggers and then all callbacks with the state before the update, and `step` updates.  A
    stopping turn ends after its callbacks, without update.  At the end all loggers are flushed.  Only the root logs. -/
theorem C181_run (env : Env W D) (r : Report W O V) (obs : Obs O) (data : W → Data V) (hd : ∀ w, logData r obs w = .ok (data w)) (n : Int) (step : Nat)
    (hs : 0 < step) (nB : Nat) (hB : IsCeil n step nB) (root : Bool) (nlog ncb : Nat) (answer : Nat → Nat → Bool) (d : Drv W V) (k : Nat) (hk : k ≤ nB)
    (hno : ∀ b < k, ∀ i < ncb, answer b i = true) (hend : k = nB ∨ ∃ i < ncb, answer k i = false) :
    let ls : Iter := ⟨if root then nlog else 0, false⟩
    let cs : Iter := ⟨ncb, false⟩
    let wk := (oneStep env)^[k * step] d.world
    let w' := if k < nB then (env.fwd wk).1 else wk
    run env r (.int n) step root obs ⟨nlog, false⟩ cs answer d =
      ({ stepCount := d.stepCount + k * step
         world := w'
         trace := d.trace ++ (List.range k).flatMap (fun j : Nat =>
             turnTrace env data step ls cs j (d.stepCount + j * step) ((oneStep env)^[j * step] d.world))
           ++ (if k < nB then reportTrace env data ls cs k (d.stepCount + k * step) wk else [])
           ++ (List.range (if root then nlog else 0)).map fun i => .flush i w' }, none) := by
  intro ls cs wk w'
  have hseen : ∀ b, cs.seen b = ncb := fun b => by simp [cs, Iter.seen]
  have hls : (if root then (⟨nlog, false⟩ : Iter) else ⟨0, false⟩) = ls := by cases root <;> rfl
  have hlseen : ∀ b, ls.seen b = if root then nlog else 0 := fun b => by simp [ls, Iter.seen]
  unfold run
  simp only [rangeLen_eq n step nB hs hB, hls, Int.toNat_natCast]
  have h := loop_eq env r obs data hd step hs ls cs answer nB k 0 d hk
    (fun j hj => by
      rintro ⟨i, hi, e⟩
      rw [hseen] at hi
      rw [hno (0 + j) (by omega) i hi] at e
      exact Bool.noConfusion e)
    (by rcases hend with h | ⟨i, hi, e⟩
        · exact Or.inl h
        · exact Or.inr ⟨i, by rw [hseen]; exact hi, by simpa using e⟩)
  rw [h]
  simp only [flushAll, hlseen, Nat.zero_add, Prod.mk.injEq, and_true, Drv.mk.injEq, true_and]
  exact ⟨rfl, rfl⟩

/-- C181: without a stopping callback, `run(n)` performs `⌈n/step⌉·step` optimisation steps, each of which is a gradient at the current parameters
    and an update with it. -/
theorem C181_run_all (env : Env W D) (r : Report W O V) (obs : Obs O) (data : W → Data V) (hd : ∀ w, logData r obs w = .ok (data w)) (n : Int) (step : Nat)
    (hs : 0 < step) (nB : Nat) (hB : IsCeil n step nB) (root : Bool) (nlog ncb : Nat) (answer : Nat → Nat → Bool) (d : Drv W V)
    (hno : ∀ b < nB, ∀ i < ncb, answer b i = true) :
    let o := run env r (.int n) step root obs ⟨nlog, false⟩ ⟨ncb, false⟩ answer d
    o.2 = none ∧ o.1.world = (oneStep env)^[nB * step] d.world ∧ o.1.stepCount = d.stepCount + nB * step := by
  intro o
  have h := C181_run env r obs data hd n step hs nB hB root nlog ncb answer d nB (le_refl _) hno (Or.inl rfl)
  simp only [lt_irrefl, if_false] at h
  refine ⟨?_, ?_, ?_⟩
  · exact congrArg (fun x => x.2) h
  · exact congrArg (fun x => x.1.world) h
  · exact congrArg (fun x => x.1.stepCount) h

/-- C181: the number of iterations must be a number (`ValueError`), and the step size must not be zero. -/
theorem C181_run_errors (env : Env W D) (r : Report W O V) (obs : Obs O) (n step : Int) (root : Bool) (logs cbs : Iter) (answer : Nat → Nat → Bool) (d : Drv W V) :
    run env r .other step root obs logs cbs answer d = (d, some .valueError) ∧
    run env r (.int n) 0 root obs logs cbs answer d = (d, some .valueError) := ⟨rfl, rfl⟩

/-- C181: `advance(m)` performs `m` optimisation steps and nothing else. -/
theorem C181_advance (env : Env W D) (m : Nat) (d : Drv W V) :
    advance env m d = { stepCount := d.stepCount + m, world := (oneStep env)^[m] d.world
                        trace := d.trace ++ (List.replicate m [Event.forward, .update]).flatten } := inner_eq env m d

theorem lookup_cons_if (a : Nat) (w : V) (l : List (Nat × V)) (k : Nat) : ((a, w) :: l).lookup k = if k = a then some w else l.lookup k := by
  rw [List.lookup_cons]
  by_cases h : k = a
  · subst h; simp
  · rw [if_neg h]; simp [beq_eq_false_iff_ne.2 h]

theorem lookup_setKey (l : List (Nat × V)) (key : Nat) (v : V) (k : Nat) :
    (setKey l key v).lookup k = if k = key then some v else l.lookup k := by
  induction l with
  | nil => rw [setKey, lookup_cons_if]
  | cons p l ih =>
    obtain ⟨a, w⟩ := p
    unfold setKey
    by_cases h : a = key
    · subst h
      rw [if_pos rfl, lookup_cons_if, lookup_cons_if]
      by_cases hk : k = a <;> simp [hk]
    · rw [if_neg h, lookup_cons_if, lookup_cons_if, ih]
      by_cases hk : k = a
      · subst hk; simp [h]
      · simp [hk]

/-- C181: the data handed to loggers and callbacks contains the loss under its name, and the estimate of every observable under its key. -/
theorem C181_log_data (r : Report W O V) (l : List (Nat × O)) (w : W) (v : V) (hv : r.loss w = some v) :
    ∃ d, logData r (.dict l) w = .ok (.dict d) ∧ d.lookup r.name = some v ∧
      ∀ k, k ≠ r.name → d.lookup k = (l.lookup k).map (r.est w) := by
  refine ⟨setKey (l.map fun p => (p.1, r.est w p.2)) r.name v, ?_, ?_, fun k hk => ?_⟩
  · simp [logData, hv]
  · rw [lookup_setKey, if_pos rfl]
  · rw [lookup_setKey, if_neg hk]
    induction l with
    | nil => rfl
    | cons p l ih =>
      obtain ⟨a, o⟩ := p
      rw [List.map_cons, lookup_cons_if, lookup_cons_if, ih]
      by_cases h : k = a <;> simp [h]

/-! ## C181: numbers of samples -/

theorem ceilDiv_spec (a b : Nat) (hb : 0 < b) : a ≤ ceilDiv a b * b ∧ (0 < a → ceilDiv a b * b < a + b) ∧ ∀ m, a ≤ m * b → ceilDiv a b ≤ m := by
  unfold ceilDiv
  have e := Nat.div_add_mod (a + b - 1) b
  have e2 := Nat.mod_lt (a + b - 1) hb
  rw [Nat.mul_comm] at e
  refine ⟨by omega, fun _ => by omega, fun m hm => ?_⟩
  have : (a + b - 1) / b < m + 1 := by
    rw [Nat.div_lt_iff_lt_mul hb]
    have : (m + 1) * b = m * b + b := by ring
    omega
  omega

/-- C181: a positive number of samples is rounded up to the next multiple of the number of chains times the number of processes, and every process
    draws the same number per chain; other numbers are a `ValueError`. -/
theorem C181_n_samples (n : Int) (batch nodes : Nat) (hb : 0 < batch) (hn : 0 < nodes) :
    (n ≤ 0 → setSamples n batch nodes = .error .valueError) ∧
    (0 < n → ∃ node tot, setSamples n batch nodes = .ok (node, tot) ∧ tot = node * (batch * nodes) ∧ n ≤ tot ∧
      ∀ m : Nat, n ≤ (m * (batch * nodes) : Nat) → tot ≤ m * (batch * nodes)) := by
  refine ⟨fun h => if_pos h, fun h => ⟨samplesNode n batch nodes, samplesNode n batch nodes * batch * nodes, if_neg (by omega), by ring, ?_, fun m hm => ?_⟩⟩
  · obtain ⟨a1, _, _⟩ := ceilDiv_spec n.toNat batch hb
    obtain ⟨b1, _, _⟩ := ceilDiv_spec (ceilDiv n.toNat batch) nodes hn
    have : ceilDiv n.toNat batch * batch ≤ ceilDiv (ceilDiv n.toNat batch) nodes * nodes * batch := Nat.mul_le_mul_right _ b1
    unfold samplesNode
    have e : ceilDiv (ceilDiv n.toNat batch) nodes * batch * nodes = ceilDiv (ceilDiv n.toNat batch) nodes * nodes * batch := by ring
    rw [e]
    omega
  · obtain ⟨_, _, a3⟩ := ceilDiv_spec n.toNat batch hb
    obtain ⟨_, _, b3⟩ := ceilDiv_spec (ceilDiv n.toNat batch) nodes hn
    have h1 : ceilDiv n.toNat batch ≤ m * nodes := a3 _ (by
      have : m * nodes * batch = m * (batch * nodes) := by ring
      rw [this]; omega)
    have h2 := b3 m h1
    unfold samplesNode
    calc ceilDiv (ceilDiv n.toNat batch) nodes * batch * nodes = ceilDiv (ceilDiv n.toNat batch) nodes * (batch * nodes) := by ring
      _ ≤ m * (batch * nodes) := Nat.mul_le_mul_right _ h2

/-- C181: also `Qsr` refuses numbers of samples which are not positive with a `ValueError`, and otherwise draws the number of `n_samples` of the other
    drivers. -/
theorem C181_n_samples_qsr (n : Int) (batch nodes : Nat) :
    (n ≤ 0 → setSamplesQsr n batch nodes = .error .valueError) ∧
    (setSamplesQsr n batch nodes).map (fun r : Nat × Nat => r.1) = (setSamples n batch nodes).map (fun r : Nat × Nat => r.1) := by
  refine ⟨fun h => if_pos h, ?_⟩
  by_cases h : n ≤ 0
  · rw [setSamplesQsr, setSamples, if_pos h, if_pos h]
  · rw [setSamplesQsr, setSamples, if_neg h, if_neg h]
    rfl

/-- C181: `n_discard` is what is given, also zero, and one tenth of the samples of the process by default; negative numbers are a `ValueError`. -/
theorem C181_n_discard (node batch : Nat) :
    setDiscard none node batch = .ok (node * batch / 10) ∧ (∀ m : Nat, setDiscard (some m) node batch = .ok m) ∧
    (∀ m : Int, m < 0 → setDiscard (some m) node batch = .error .valueError) := by
  refine ⟨rfl, fun m => ?_, fun m hm => if_pos hm⟩
  unfold setDiscard
  simp only
  rw [if_neg (by omega), Int.toNat_natCast]

example : setSamples 1000 16 3 = .ok (21, 1008) := by decide
example : setDiscard none 21 16 = .ok 33 := by decide

/-! ## C182 -/

/-- C182: an iterator of loggers is documented ("an iterable of loggers"), but it is empty after the first turn: the loggers are called once and
    never flushed, whatever the number of turns. -/
theorem C182_iterator_loggers_refuted (env : Env W D) (r : Report W O V) (obs : Obs O) (data : W → Data V) (hd : ∀ w, logData r obs w = .ok (data w)) (n : Int)
    (step : Nat) (hs : 0 < step) (nB : Nat) (hB : IsCeil n step nB) (h0 : 0 < nB) (nlog : Nat) (answer : Nat → Nat → Bool) (w : W) :
    let o := run env r (.int n) step true obs ⟨nlog, true⟩ ⟨0, false⟩ answer ⟨0, w, []⟩
    o.2 = none ∧ o.1.stepCount = nB * step ∧ (∀ i u, Event.flush i u ∉ o.1.trace) ∧ (∀ i s x u, Event.log i s x u ∈ o.1.trace → s = 0) := by
  intro o
  have hl := loop_eq env r obs data hd step hs ⟨nlog, true⟩ ⟨0, false⟩ answer nB nB 0 ⟨0, w, []⟩ (le_refl _)
    (fun j hj => by rintro ⟨i, hi, e⟩; simp [Iter.seen] at hi) (Or.inl rfl)
  have ho : o = (flushAll 0 (loop env r obs step ⟨nlog, true⟩ ⟨0, false⟩ answer nB 0 ⟨0, w, []⟩).1, none) := by
    simp only [o, run, rangeLen_eq n step nB hs hB, if_true, Int.toNat_natCast]
    rw [hl]
    simp only [if_neg (show ¬ step = 0 by omega)]
    have : (⟨nlog, true⟩ : Iter).seen nB = 0 := by simp [Iter.seen, h0]
    rw [this]
  rw [ho, hl]
  simp only [flushAll, List.range_zero, List.map_nil, List.append_nil, lt_irrefl, if_false, List.nil_append, Nat.zero_add]
  refine ⟨trivial, by simp, fun i u hm => ?_, fun i s x u hm => ?_⟩
  · rw [List.mem_flatMap] at hm
    obtain ⟨j, _, hm⟩ := hm
    simp [turnTrace, reportTrace] at hm
  · rw [List.mem_flatMap] at hm
    obtain ⟨j, hj, hm⟩ := hm
    by_cases hj0 : j = 0
    · subst hj0
      simp [turnTrace, reportTrace] at hm
      exact hm.2.1.symm
    · have : (⟨nlog, true⟩ : Iter).seen j = 0 := by simp [Iter.seen]; omega
      simp [turnTrace, reportTrace, this] at hm

/-- C182: and callbacks in an iterator are asked in the first turn only: the run goes on to the end whatever they would answer later. -/
theorem C182_iterator_callbacks_refuted (env : Env W D) (r : Report W O V) (obs : Obs O) (data : W → Data V) (hd : ∀ w, logData r obs w = .ok (data w)) (n : Int)
    (step : Nat) (hs : 0 < step) (nB : Nat) (hB : IsCeil n step nB) (nlog ncb : Nat) (answer : Nat → Nat → Bool) (h0 : ∀ i < ncb, answer 0 i = true) (d : Drv W V) :
    let o := run env r (.int n) step true obs ⟨nlog, false⟩ ⟨ncb, true⟩ answer d
    o.2 = none ∧ o.1.world = (oneStep env)^[nB * step] d.world ∧ o.1.stepCount = d.stepCount + nB * step := by
  intro o
  have hl := loop_eq env r obs data hd step hs ⟨nlog, false⟩ ⟨ncb, true⟩ answer nB nB 0 d (le_refl _)
    (fun j hj => by
      rintro ⟨i, hi, e⟩
      by_cases hj0 : j = 0
      · subst hj0
        simp only [Iter.seen, Nat.add_zero, lt_irrefl, and_false, if_false] at hi
        rw [Nat.add_zero, h0 i hi] at e
        exact Bool.noConfusion e
      · have : (⟨ncb, true⟩ : Iter).seen (0 + j) = 0 := by simp [Iter.seen]; omega
        omega) (Or.inl rfl)
  simp only [o, run, rangeLen_eq n step nB hs hB, if_true, Int.toNat_natCast]
  rw [hl]
  simp [flushAll]

/-- C182: a list of observables, which is documented, ends the run with a `TypeError` in the first turn, for every driver with a loss: after the
    sampling and before the first update. -/
theorem C182_list_of_observables_refuted (env : Env W D) (r : Report W O V) (l : List O) (hloss : ∀ w, r.loss w ≠ none) (n : Int)
    (step : Nat) (hs : 0 < step) (nB : Nat) (hB : IsCeil n step nB) (h0 : 0 < nB) (root : Bool) (logs cbs : Iter) (answer : Nat → Nat → Bool) (d : Drv W V) :
    run env r (.int n) step root (.seq l) logs cbs answer d
      = ({ d with world := (env.fwd d.world).1, trace := d.trace ++ [.forward] }, some .typeError) := by
  obtain ⟨k, rfl⟩ : ∃ k, nB = k + 1 := ⟨nB - 1, by omega⟩
  have e : ∀ w, logData r (.seq l) w = .error .typeError := by
    intro w
    unfold logData
    cases h : r.loss w with
    | none => exact absurd h (hloss w)
    | some v => rfl
  simp only [run, rangeLen_eq n step (k + 1) hs hB, Int.toNat_natCast]
  unfold loop
  rw [if_neg (by omega)]
  simp only [e, forward]

/-- C182 (partial): without a loss, as for `Qsr`, a list is accepted; missing: drivers with a loss. -/
theorem C182_list_of_observables_partial (r : Report W O V) (l : List O) (w : W) (hloss : r.loss w = none) :
    logData r (.seq l) w = .ok (.seq (l.map (r.est w))) := by
  simp [logData, hloss]

/-- C182: `reset` is an `AttributeError` for every driver, after the sampler has been reset; the step count stays. -/
theorem C182_reset_refuted (f : W → W) (d : Drv W V) :
    (reset f d).2 = some .attributeError ∧ (reset f d).1.stepCount = d.stepCount ∧ (reset f d).1.world = f d.world := ⟨rfl, rfl, rfl⟩

/-- C182: a number of iterations which is not an integer passes the check of `run` and is a `TypeError` of `range` later. -/
theorem C182_float_iterations_refuted (env : Env W D) (r : Report W O V) (step : Int) (root : Bool) (obs : Obs O) (logs cbs : Iter) (answer : Nat → Nat → Bool) (d : Drv W V) :
    run env r .number step root obs logs cbs answer d = (d, some .typeError) := rfl

/-- C182: `Qsr.n_samples` is the number asked for and not that drawn; the two are equal only for multiples of chains times processes. -/
theorem C182_qsr_samples_refuted (n : Int) (hn : 0 < n) (batch nodes : Nat) (hb : 0 < batch) (hm : 0 < nodes) :
    ∃ node, setSamplesQsr n batch nodes = .ok (node, n.toNat) ∧ (node * batch * nodes = n.toNat ↔ (batch * nodes) ∣ n.toNat) := by
  refine ⟨samplesNode n batch nodes, if_neg (by omega), ?_⟩
  have e0 : samplesNode n batch nodes * batch * nodes = samplesNode n batch nodes * (batch * nodes) := by ring
  constructor
  · intro e
    exact ⟨samplesNode n batch nodes, by rw [← e]; ring⟩
  · rintro ⟨m, hm'⟩
    obtain ⟨node, tot, h1, h2, h3, h4⟩ := (C181_n_samples n batch nodes hb hm).2 hn
    have hle := h4 m (by rw [Nat.mul_comm m, ← hm']; omega)
    rw [setSamples, if_neg (by omega)] at h1
    injection h1 with h1
    injection h1 with h5 h6
    have : m * (batch * nodes) = n.toNat := by rw [hm']; ring
    omega

/-- C182: `Qsr(n_samples_data=0)` is a `NameError` instead of a `ValueError`. -/
theorem C182_qsr_data_refuted (n : Int) (hn : n ≤ 0) (nodes : Nat) : setData n nodes = .error .nameError := if_pos hn

/-- C182 (partial): positive numbers of data samples are divided among the processes, rounded up; missing: the error of the others. -/
theorem C182_qsr_data_partial (n : Int) (hn : 0 < n) (nodes : Nat) (h : 0 < nodes) :
    ∃ m, setData n nodes = .ok m ∧ n ≤ (m * nodes : Nat) ∧ ∀ m' : Nat, n ≤ (m' * nodes : Nat) → m ≤ m' := by
  obtain ⟨a, _, c⟩ := ceilDiv_spec n.toNat nodes h
  exact ⟨ceilDiv n.toNat nodes, if_neg (by omega), by omega, fun m' hm => c m' (by omega)⟩

/-- C182: `SteadyState` without `sampler_obs` cannot estimate observables (documented default: the same sampler), and with one the documented default
    of `n_samples_obs` is a `TypeError`. -/
theorem C182_steady_defaults_refuted (dObs : Option Int) (batch nodes discard : Nat) (nObs : Option Int) :
    (∃ o, mkObs false nObs dObs batch nodes = .ok o ∧ sweepDiagonal o discard = .error .attributeError) ∧
    mkObs true none dObs batch nodes = .error .typeError := ⟨⟨none, rfl, rfl⟩, rfl⟩

/-- C182: the samples of the observables are preceded by `n_discard` and not by `n_discard_obs` sweeps. -/
theorem C182_steady_discard_refuted (n : Int) (hn : 0 < n) (m batch nodes discard : Nat) :
    ∃ o, mkObs true (some n) (some m) batch nodes = .ok (some o) ∧ o.discard = m ∧
      ∃ kept, sweepDiagonal (some o) discard = .ok (discard, kept) ∧ kept = o.samplesNode := by
  refine ⟨⟨samplesNode n batch nodes, samplesNode n batch nodes * batch * nodes, m⟩, ?_, rfl, samplesNode n batch nodes, rfl, rfl⟩
  simp only [mkObs, setSamples]
  rw [if_neg (by simp), if_neg (by omega)]
  simp only [setDiscard]
  rw [if_neg (by omega), Int.toNat_natCast]

/-- C182: with the numpy optimizers a machine with real parameters can be optimised by `Vmc` and `SteadyState` without SR only; with SR, and with `Qsr`,
    the update is a complex array and a `TypeError`. -/
theorem C182_real_machines_refuted (k : Kind) (sr : Bool) :
    (applyUpdate true (complexDp k sr true) = .error .typeError ↔ k = .qsr ∨ sr = true) ∧ applyUpdate false (complexDp k sr false) = .ok () := by
  cases k <;> cases sr <;> simp [applyUpdate, complexDp]

/-- a driver with two loggers, two callbacks, step size 2 and five iterations: three turns and six updates. -/
example : (run (⟨fun w => (w, w), fun w x => w + 1⟩ : Env Nat Nat) ⟨fun w o => w + o, fun w => some w, 7⟩ (.int 5) 2 true
    (.dict [(1, 10)]) ⟨2, false⟩ ⟨2, false⟩ (fun _ _ => true) ⟨0, 0, []⟩).1.world = 6 := by decide

example : IsCeil 5 2 3 := ⟨by decide, fun m' h => by omega⟩

/-! cases for the theorems: the world is a counter, one observable, two loggers and two callbacks -/

/-- every step adds one. -/
def exEnv : Env Nat Nat := ⟨fun w => (w, w), fun w _ => w + 1⟩

/-- the estimate of `o` is `w + o`, the loss is `w`. -/
def exRep : Report Nat Nat Nat := ⟨fun w o => w + o, fun w => some w, 7⟩

theorem exCeil : IsCeil 5 2 3 := ⟨by decide, fun m' h => by omega⟩

example := C181_run exEnv exRep (.dict [(1, 10)]) _ (fun _ => rfl) 5 2 (by decide) 3 exCeil true 2 2 (fun b _ => b != 1) ⟨0, 0, []⟩ 1 (by decide)
  (by decide) (Or.inr ⟨0, by decide, by decide⟩)

example := C181_run_all exEnv exRep (.dict [(1, 10)]) _ (fun _ => rfl) 5 2 (by decide) 3 exCeil true 2 2 (fun _ _ => true) ⟨0, 0, []⟩ (by decide)

example := C181_log_data exRep [(1, 10), (2, 20)] 3 3 rfl

example := C181_n_samples 1000 16 3 (by decide) (by decide)

example := C182_iterator_loggers_refuted exEnv exRep (.dict [(1, 10)]) _ (fun _ => rfl) 5 2 (by decide) 3 exCeil (by decide) 2 (fun _ _ => true) 0

example := C182_iterator_callbacks_refuted exEnv exRep (.dict [(1, 10)]) _ (fun _ => rfl) 5 2 (by decide) 3 exCeil 2 2 (fun b _ => b == 0) (by decide) ⟨0, 0, []⟩

example := C182_list_of_observables_refuted exEnv exRep [10] (fun _ => by simp [exRep]) 5 2 (by decide) 3 exCeil (by decide) true ⟨2, false⟩ ⟨2, false⟩
  (fun _ _ => true) ⟨0, 0, []⟩

example := C182_list_of_observables_partial (⟨fun w o => w + o, fun _ => none, 7⟩ : Report Nat Nat Nat) [10] 3 rfl

example := C182_qsr_samples_refuted 1000 (by decide) 16 3 (by decide) (by decide)

example := C182_qsr_data_refuted (-3) (by decide) 2

example := C182_qsr_data_partial 1000 (by decide) 3 (by decide)

example := C182_steady_discard_refuted 1000 (by decide) 21 16 3 33

end Verif.LegacyDriver

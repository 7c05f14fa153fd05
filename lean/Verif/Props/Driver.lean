import Verif.Model.Driver
import Mathlib.Data.List.Basic
import Mathlib.Logic.Function.Iterate
import Mathlib.Tactic.Ring
import Mathlib.Tactic.Linarith

/-! C30: a driver performs the requested number of updates. -/

set_option linter.unusedSectionVars false
set_option linter.unusedVariables false

namespace Verif.Driver
open Verif.Hilbert (Err)

variable {W D : Type}

/-! ## Specification -/

/-- one optimisation step: gradient, then update with this gradient. -/
def oneStep (env : Env W D) (w : W) : W := env.upd (env.fwd w).1 (env.fwd w).2

/-- `m` is `n / step` rounded up, and 0 for negative `n`. -/
def IsCeil (n : Int) (step m : Nat) : Prop := n ≤ m * step ∧ ∀ m' : Nat, n ≤ m' * step → m ≤ m'

/-- turn `b` stops the run: some callback, here or on another rank, asks for it. -/
def Stops (ncb : Nat) (answer : Nat → Nat → Bool) (others : Nat → Bool) (b : Nat) : Prop :=
  0 < ncb ∧ ((∃ i < ncb, answer b i = false) ∨ others b = true)

/-- the events up to and including the loggers of a turn which starts at step `s` in state `w`. -/
def reportTrace (env : Env W D) (ncb nlog : Nat) (s : Int) (w : W) : List (Event W) :=
  .forward :: ((List.range ncb).map fun i => .callback i s)
    ++ (List.range nlog).map fun i => .log i s (env.fwd w).1

/-- the events of a full turn. -/
def turnTrace (env : Env W D) (step ncb nlog : Nat) (s : Int) (w : W) : List (Event W) :=
  reportTrace env ncb nlog s w ++ .update :: (List.replicate (step - 1) [.forward, .update]).flatten

/-! ## Lemmas -/

theorem inner_eq (env : Env W D) (m : Nat) : ∀ d : Drv W, inner env m d =
    { stepCount := d.stepCount + m, world := (oneStep env)^[m] d.world
      trace := d.trace ++ (List.replicate m [Event.forward, .update]).flatten } := by
  induction m with
  | zero => intro d; simp [inner]
  | succ m ih =>
    intro d
    rw [inner, ih]
    simp only [update, forward, Function.iterate_succ, Function.comp, oneStep, List.replicate_succ,
      List.flatten_cons, List.append_assoc, List.cons_append, List.nil_append, Drv.mk.injEq, and_true]
    push_cast
    ring

theorem stopFlag_eq (ncb : Nat) (a : Nat → Bool) (flag : Bool) :
    stopFlag ncb a flag = true ↔ flag = true ∨ ∃ i < ncb, a i = false := by
  induction ncb with
  | zero => simp [stopFlag]
  | succ n ih =>
    unfold stopFlag at *
    rw [List.range_succ, List.foldl_append, List.foldl_cons, List.foldl_nil]
    split_ifs with h
    · rw [ih]
      constructor
      · rintro (h' | ⟨i, hi, e⟩)
        · exact Or.inl h'
        · exact Or.inr ⟨i, by omega, e⟩
      · rintro (h' | ⟨i, hi, e⟩)
        · exact Or.inl h'
        · refine Or.inr ⟨i, ?_, e⟩
          rcases Nat.lt_succ_iff_lt_or_eq.1 hi with h2 | rfl
          · exact h2
          · rw [h] at e; simp at e
    · simp only [true_iff]
      exact Or.inr ⟨n, by omega, by simpa using h⟩

theorem stops_iff (ncb : Nat) (answer : Nat → Nat → Bool) (others : Nat → Bool) (b : Nat) :
    (0 < ncb ∧ (stopFlag ncb (answer b) false || others b) = true) ↔ Stops ncb answer others b := by
  unfold Stops
  rw [Bool.or_eq_true, stopFlag_eq]
  simp

theorem loop_eq (env : Env W D) (step : Nat) (hs : 0 < step) (ncb nlog : Nat) (answer : Nat → Nat → Bool)
    (others : Nat → Bool) : ∀ (fuel k b : Nat) (d : Drv W), k ≤ fuel →
    (∀ j < k, ¬Stops ncb answer others (b + j)) → (k = fuel ∨ Stops ncb answer others (b + k)) →
    loop env step ncb nlog answer others fuel b false d =
      { stepCount := d.stepCount + k * step
        world := if k < fuel then (env.fwd ((oneStep env)^[k * step] d.world)).1
          else (oneStep env)^[k * step] d.world
        trace := d.trace ++ (List.range k).flatMap (fun j : Nat =>
            turnTrace env step ncb nlog (d.stepCount + j * step) ((oneStep env)^[j * step] d.world))
          ++ if k < fuel then reportTrace env ncb nlog (d.stepCount + k * step)
              ((oneStep env)^[k * step] d.world) else [] } := by
  intro fuel
  induction fuel with
  | zero =>
    intro k b d hk _ _
    obtain rfl : k = 0 := by omega
    simp [loop]
  | succ fuel ih =>
    intro k b d hk hno hend
    unfold loop
    rw [if_neg (by omega)]
    cases k with
    | zero =>
      have hst : Stops ncb answer others b := by
        rcases hend with h | h
        · omega
        · exact h
      simp only
      rw [if_pos ((stops_iff ncb answer others b).2 hst)]
      simp [callLoggers, callCallbacks, forward, reportTrace]
    | succ k =>
      have hns : ¬Stops ncb answer others b := hno 0 (by omega)
      have hflag : stopFlag ncb (answer b) false = false := by
        rw [← Bool.not_eq_true, stopFlag_eq]
        rintro (h | h)
        · simp at h
        · obtain ⟨i, hi, e⟩ := h
          exact hns ⟨by omega, Or.inl ⟨i, hi, e⟩⟩
      simp only
      rw [if_neg (fun h => hns ((stops_iff ncb answer others b).1 h)), hflag,
        ih k (b + 1) _ (by omega) (by intro j hj; have := hno (j + 1) (by omega); rwa [show b + 1 + j = b + (j + 1) by omega])
          (by rcases hend with h | h
              · left; omega
              · right; rwa [show b + 1 + k = b + (k + 1) by omega]), inner_eq]
      have hworld : ∀ j : Nat, (oneStep env)^[j * step] ((oneStep env)^[step - 1] (oneStep env d.world))
          = (oneStep env)^[(j + 1) * step] d.world := by
        intro j
        rw [← Function.iterate_succ_apply, ← Function.iterate_add_apply]
        congr 1
        rw [Nat.succ_mul]
        omega
      have hw0 : env.upd (env.fwd d.world).1 (env.fwd d.world).2 = oneStep env d.world := rfl
      have hcount : ∀ j : Nat, d.stepCount + 1 + ((step - 1 : Nat) : Int) + j * step
          = d.stepCount + ((j + 1 : Nat) : Int) * step := by
        intro j
        have : ((step - 1 : Nat) : Int) = (step : Int) - 1 := by omega
        rw [this]
        push_cast
        ring
      simp only [update, callLoggers, callCallbacks, forward, hw0, hworld, hcount, Nat.add_lt_add_iff_right,
        List.range_succ_eq_map, List.flatMap_cons, List.flatMap_map, Drv.mk.injEq, true_and]
      simp [turnTrace, reportTrace]

theorem rangeLen_eq (n : Int) (step m : Nat) (hs : 0 < step) (hm : IsCeil n step m) :
    rangeLen n step = .ok m := by
  unfold rangeLen
  rw [if_neg (by omega), if_pos (by omega)]
  congr 1
  obtain ⟨h1, h2⟩ := hm
  have hp : (0 : Int) < step := by omega
  apply le_antisymm
  · rw [Int.toNat_le]
    apply Int.le_of_lt_add_one
    rw [Int.ediv_lt_iff_lt_mul hp]
    nlinarith
  · apply h2
    by_cases hneg : (n + step - 1) / (step : Int) < 0
    · have : (n + step - 1) < 0 := by
        by_contra hc
        have := Int.ediv_nonneg (by omega : 0 ≤ n + (step : Int) - 1) (by omega : (0 : Int) ≤ step)
        omega
      have h3 : (0 : Int) ≤ (((n + step - 1) / (step : Int)).toNat : Int) * step :=
        Int.mul_nonneg (by omega) (by omega)
      omega
    · rw [Int.toNat_of_nonneg (by omega)]
      have e := Int.mul_ediv_add_emod (n + step - 1) step; rw [Int.mul_comm] at e
      have e2 := Int.emod_lt_of_pos (n + step - 1) hp
      omega

/-! ## Theorems -/

/-- C30: a run of `n` iterations with a positive step size: the turns before the first stopping one (all `nB = ⌈n/step⌉` of
    them if there is none) are performed in full: gradient, callbacks, loggers with the state before the updates, and `step`
    updates.  A stopping turn ends after its loggers, without update.  All loggers are flushed with the final state. -/
theorem C30_run (env : Env W D) (n : Int) (step : Nat) (hs : 0 < step) (nB : Nat) (hB : IsCeil n step nB)
    (root : Bool) (ncb nlog : Nat) (answer : Nat → Nat → Bool) (others : Nat → Bool) (d : Drv W)
    (k : Nat) (hk : k ≤ nB) (hno : ∀ j < k, ¬Stops ncb answer others j)
    (hend : k = nB ∨ Stops ncb answer others k) :
    ∃ d', run env n step root ncb nlog answer others d = .ok d'
      ∧ d'.stepCount = d.stepCount + k * step
      ∧ d'.world = (if k < nB then (env.fwd ((oneStep env)^[k * step] d.world)).1
          else (oneStep env)^[k * step] d.world)
      ∧ d'.trace = d.trace ++ (List.range k).flatMap (fun j : Nat =>
            turnTrace env step ncb (if root then nlog else 0) (d.stepCount + j * step)
              ((oneStep env)^[j * step] d.world))
          ++ (if k < nB then reportTrace env ncb (if root then nlog else 0) (d.stepCount + k * step)
              ((oneStep env)^[k * step] d.world) else [])
          ++ (List.range (if root then nlog else 0)).map (fun i => Event.flush i d'.world) := by
  have hl := loop_eq env step hs ncb (if root then nlog else 0) answer others nB k 0 d hk
    (by simpa using hno) (by simpa using hend)
  have hr : run env n step root ncb nlog answer others d
      = .ok (flushAll (if root then nlog else 0)
          (loop env step ncb (if root then nlog else 0) answer others nB 0 false d)) := by
    unfold run
    rw [rangeLen_eq n step nB hs hB]
    simp only [Int.toNat_natCast]
  rw [hl] at hr
  exact ⟨_, hr, by simp [flushAll]⟩

/-- number of updates in a trace. -/
def updates (t : List (Event W)) : Nat := t.countP fun e => match e with
  | .update => true
  | _ => false

theorem updates_append (a b : List (Event W)) : updates (a ++ b) = updates a + updates b :=
  List.countP_append

theorem updates_report (env : Env W D) (ncb nlog : Nat) (s : Int) (w : W) :
    updates (reportTrace env ncb nlog s w) = 0 := by
  simp [updates, reportTrace, List.countP_cons, List.countP_append, List.countP_map, Function.comp_def]

theorem updates_turn (env : Env W D) (step : Nat) (hs : 0 < step) (ncb nlog : Nat) (s : Int) (w : W) :
    updates (turnTrace env step ncb nlog s w) = step := by
  have h : ∀ m : Nat, updates (List.replicate m [Event.forward, (.update : Event W)]).flatten = m := by
    intro m
    induction m with
    | zero => rfl
    | succ m ih =>
      rw [List.replicate_succ, List.flatten_cons, updates_append, ih]
      simp [updates, List.countP_cons]
      omega
  rw [turnTrace, updates_append, updates_report]
  have := h (step - 1)
  unfold updates at *
  rw [List.countP_cons, this]
  simp
  omega

/-- C30: the number of updates performed, when the run is not stopped before turn `k`. -/
theorem C30_updates (env : Env W D) (n : Int) (step : Nat) (hs : 0 < step) (nB : Nat) (hB : IsCeil n step nB)
    (root : Bool) (ncb nlog : Nat) (answer : Nat → Nat → Bool) (others : Nat → Bool) (d : Drv W)
    (k : Nat) (hk : k ≤ nB) (hno : ∀ j < k, ¬Stops ncb answer others j)
    (hend : k = nB ∨ Stops ncb answer others k) :
    ∃ d', run env n step root ncb nlog answer others d = .ok d'
      ∧ updates d'.trace = updates d.trace + k * step
      ∧ d'.stepCount = d.stepCount + (updates d'.trace - updates d.trace : Int) := by
  obtain ⟨d', h1, h2, -, h4⟩ := C30_run env n step hs nB hB root ncb nlog answer others d k hk hno hend
  have hu : updates d'.trace = updates d.trace + k * step := by
    rw [h4, updates_append, updates_append, updates_append]
    have e1 : ∀ (m : Nat) (w : W), updates ((List.range m).map fun i => Event.flush i w) = 0 := by
      intro m w; simp [updates, List.countP_map, Function.comp_def]
    have e2 : updates ((List.range k).flatMap (fun j : Nat =>
            turnTrace env step ncb (if root then nlog else 0) (d.stepCount + j * step)
              ((oneStep env)^[j * step] d.world))) = k * step := by
      clear h4 hk hno hend h2
      induction k with
      | zero => simp [updates]
      | succ k ih =>
        rw [List.range_succ, List.flatMap_append, updates_append, List.flatMap_cons, List.flatMap_nil,
          List.append_nil, updates_turn env step hs, Nat.succ_mul]
        congr 1
    have e3 : ∀ (c : Prop) [Decidable c] (a : List (Event W)), updates a = 0 → updates (if c then a else []) = 0 := by
      intro c _ a h
      split_ifs
      · exact h
      · rfl
    rw [e1, e2, e3 _ _ (updates_report env ncb _ _ _)]
    omega
  refine ⟨d', h1, hu, ?_⟩
  rw [h2, hu]
  push_cast
  ring

/-- C114: with a step size dividing the number of iterations and no stop, exactly `n` updates are performed.
    Missing: other step sizes, see `C114_step_refuted`. -/
theorem C114_exact_partial (env : Env W D) (n step : Nat) (hs : 0 < step) (hd : step ∣ n)
    (root : Bool) (ncb nlog : Nat) (answer : Nat → Nat → Bool) (others : Nat → Bool) (d : Drv W)
    (hno : ∀ j, ¬Stops ncb answer others j) :
    ∃ d', run env n step root ncb nlog answer others d = .ok d'
      ∧ updates d'.trace = updates d.trace + n ∧ d'.stepCount = d.stepCount + n
      ∧ d'.world = (oneStep env)^[n] d.world := by
  obtain ⟨m, rfl⟩ := hd
  have hc : IsCeil ((step * m : Nat) : Int) step m := by
    constructor
    · push_cast; rw [Int.mul_comm]
    · intro m' h
      have h' : step * m ≤ step * m' := by
        have : ((step * m : Nat) : Int) ≤ ((step * m' : Nat) : Int) := by push_cast at *; linarith [Int.mul_comm m' step]
        exact_mod_cast this
      exact Nat.le_of_mul_le_mul_left h' hs
  obtain ⟨d', h1, h2, h3, _⟩ := C30_run env _ step hs m hc root ncb nlog answer others d m (le_refl _)
    (fun j _ => hno j) (Or.inl rfl)
  obtain ⟨d'', g1, g2, _⟩ := C30_updates env _ step hs m hc root ncb nlog answer others d m (le_refl _)
    (fun j _ => hno j) (Or.inl rfl)
  rw [h1] at g1
  obtain rfl := Except.ok.inj g1
  refine ⟨d', h1, by rw [g2, Nat.mul_comm], by rw [h2]; push_cast; ring, ?_⟩
  rw [h3, if_neg (lt_irrefl _), Nat.mul_comm]

/-- C30: `advance(n)` performs exactly `n` steps. -/
theorem C30_advance (env : Env W D) (n : Nat) (d : Drv W) :
    ∃ d', advance env n d = .ok d' ∧ d'.stepCount = d.stepCount + n
      ∧ d'.world = (oneStep env)^[n] d.world
      ∧ d'.trace = d.trace ++ (List.replicate n [Event.forward, .update]).flatten := by
  have hc : IsCeil (n : Int) 1 n := ⟨by simp, by intro m h; simpa using h⟩
  have hl := loop_eq env 1 (by omega) 0 0 (fun _ _ => true) (fun _ => false) n n 0 d (le_refl _) (by simp [Stops])
    (Or.inl rfl)
  have hr : advance env n d = .ok (loop env 1 0 0 (fun _ _ => true) (fun _ => false) n 0 false d) := by
    unfold advance
    have := rangeLen_eq (n : Int) 1 n (by omega) hc
    rw [Nat.cast_one] at this
    rw [this]
  rw [hl] at hr
  refine ⟨_, hr, ?_⟩
  · simp only [lt_irrefl, if_false, Nat.mul_one, List.append_nil, Nat.cast_one, Int.mul_one, true_and,
      List.append_cancel_left_eq]
    clear hr hl
    clear hc
    induction n with
    | zero => rfl
    | succ n ih =>
      rw [List.range_succ, List.flatMap_append, ih, List.replicate_succ', List.flatten_append]
      simp [turnTrace, reportTrace]

/-- C30: a zero step size is a ValueError; no other step size is an error. -/
theorem C30_zero_step (env : Env W D) (n : Int) (root : Bool) (ncb nlog : Nat) (answer : Nat → Nat → Bool)
    (others : Nat → Bool) (d : Drv W) :
    run env n 0 root ncb nlog answer others d = .error .valueError ∧
    ∀ step, (∃ e, run env n step root ncb nlog answer others d = .error e) ↔ step = 0 := by
  refine ⟨rfl, fun step => ⟨fun ⟨e, he⟩ => ?_, fun h => ⟨.valueError, by subst h; rfl⟩⟩⟩
  by_contra h
  unfold run rangeLen at he
  rw [if_neg h] at he
  by_cases hp : step > 0
  · rw [if_pos hp] at he
    cases he
  · rw [if_neg hp] at he
    cases he

/-- a driver whose state counts the updates, for the examples. -/
def counting : Env Nat Nat := ⟨fun w => (w, 1), fun w dp => w + dp⟩

/-- C114 is false in general: 3 iterations with step size 2 perform 4 updates. -/
theorem C114_step_refuted :
    ¬ ∀ (n step : Nat) (d d' : Drv Nat), 0 < step →
      run counting n step true 1 1 (fun _ _ => true) (fun _ => false) d = .ok d' →
      updates d'.trace = updates d.trace + n := by
  intro hall
  have hw : (match run counting (3 : Nat) (2 : Nat) true 1 1 (fun _ _ => true) (fun _ => false) ⟨0, 0, []⟩ with
    | .ok d' => decide (updates d'.trace = 4)
    | .error _ => false) = true := by decide +kernel
  rcases hm : run counting (3 : Nat) (2 : Nat) true 1 1 (fun _ _ => true) (fun _ => false) ⟨0, 0, []⟩ with e | h
  · rw [hm] at hw; exact absurd hw Bool.false_ne_true
  · rw [hm] at hw
    have h2 := hall 3 2 _ _ (by decide) hm
    simp only [decide_eq_true_eq] at hw
    rw [hw] at h2
    simp [updates] at h2

example : IsCeil 5 2 3 := ⟨by decide, by intro m h; omega⟩

example : (match run counting 4 2 true 1 1 (fun b _ => b != 1) (fun _ => false) ⟨10, 0, []⟩ with
    | .ok d' => some d'
    | .error _ => none) = some ⟨12, 2, [.forward, .callback 0 10, .log 0 10 0, .update, .forward, .update,
      .forward, .callback 0 12, .log 0 12 2, .flush 0 2]⟩ := by decide +kernel

example : Stops 1 (fun b _ => b != 1) (fun _ => false) 1 := ⟨by decide, Or.inl ⟨0, by decide, rfl⟩⟩

end Verif.Driver

import Verif.Model.Driver
import Mathlib.Algebra.Order.Ring.Rat
import Mathlib.Data.List.Basic
import Mathlib.Algebra.Order.Group.Defs
import Mathlib.Tactic.Linarith

/-! C31 (EarlyStopping), C32 (Timeout), C33 (restart of the linear solver). -/

set_option linter.unusedSectionVars false
set_option linter.unusedVariables false

namespace Verif.Driver
open Verif.Hilbert (Err)

/-! ## C31: EarlyStopping -/

section
variable {K : Type} [Field K] [LinearOrder K] [IsStrictOrderedRing K]

/-- call `k` is a record: its loss is a number and at most every loss seen before. -/
def IsRecord (f : Nat → Option K) (k : Nat) : Prop :=
  ∃ x, f k = some x ∧ ∀ j < k, ∀ y, f j = some y → x ≤ y

/-- call `r` is the last record up to call `n`. -/
def LastRecord (f : Nat → Option K) (n r : Nat) : Prop :=
  r ≤ n ∧ IsRecord f r ∧ ∀ k, r < k → k ≤ n → ¬IsRecord f k

/-- the callback before call `n` of the calls `(s i, f i)`. -/
def esState (e : EarlyStopping K) (s : Nat → Int) (f : Nat → Option K) : Nat → EarlyStopping K
  | 0 => e
  | n + 1 => (esCall (esState e s f n) (s n) (f n)).1

/-- its answer to call `n`. -/
def esAnswer (e : EarlyStopping K) (s : Nat → Int) (f : Nat → Option K) (n : Nat) : Bool :=
  (esCall (esState e s f n) (s n) (f n)).2

theorem esCall_fst (e : EarlyStopping K) (s : Int) (l : Option K) : (esCall e s l).1 = trackBest e s l := by
  unfold esCall
  simp only
  split_ifs <;> rfl

theorem trackBest_params (e : EarlyStopping K) (s : Int) (l : Option K) :
    (trackBest e s l).minDelta = e.minDelta ∧ (trackBest e s l).patience = e.patience
      ∧ (trackBest e s l).baseline = e.baseline := by
  unfold trackBest
  split_ifs <;> simp

theorem esState_params (e : EarlyStopping K) (s : Nat → Int) (f : Nat → Option K) (n : Nat) :
    (esState e s f n).minDelta = e.minDelta ∧ (esState e s f n).patience = e.patience
      ∧ (esState e s f n).baseline = e.baseline := by
  induction n with
  | zero => exact ⟨rfl, rfl, rfl⟩
  | succ n ih =>
    rw [esState, esCall_fst]
    obtain ⟨a, b, c⟩ := trackBest_params (esState e s f n) (s n) (f n)
    exact ⟨a.trans ih.1, b.trans ih.2.1, c.trans ih.2.2⟩

/-- the tracked best value after `n` calls: infinity if all losses were NaN, else the smallest one, together with the step
    of the last call which attained it. -/
theorem esState_best (d p : K) (b : Option K) (s : Nat → Int) (f : Nat → Option K) (n : Nat) :
    let e := esState (mkEarlyStopping d p b) s f n
    (e.bestVal = none ∧ ∀ j < n, f j = none) ∨
      ∃ r < n, IsRecord f r ∧ (∀ k, r < k → k < n → ¬IsRecord f k) ∧ e.bestVal = f r ∧ e.bestIter = s r
        ∧ ∀ x, f r = some x → ∀ j < n, ∀ y, f j = some y → x ≤ y := by
  induction n with
  | zero => left; exact ⟨rfl, by omega⟩
  | succ n ih =>
    simp only at ih ⊢
    rw [esState, esCall_fst]
    generalize esState (mkEarlyStopping d p b) s f n = e at ih ⊢
    unfold trackBest
    rcases ih with ⟨h1, h2⟩ | ⟨r, hr, h1, h2, h3, h4, h5⟩
    · rcases hf : f n with _ | x
      · left
        simp only [leBest, Bool.false_eq_true, if_false]
        refine ⟨h1, fun j hj => ?_⟩
        rcases Nat.lt_succ_iff_lt_or_eq.1 hj with h | rfl
        · exact h2 j h
        · exact hf
      · right
        rw [h1]
        simp only [leBest, if_true]
        refine ⟨n, by omega, ⟨x, hf, fun j hj y hy => by rw [h2 j hj] at hy; simp at hy⟩, by omega, hf.symm,
          rfl, ?_⟩
        intro z hz j hj y hy
        rcases Nat.lt_succ_iff_lt_or_eq.1 hj with h | rfl
        · rw [h2 j h] at hy; simp at hy
        · rw [hz] at hy; exact le_of_eq (Option.some.inj hy)
    · right
      obtain ⟨x, hx, hx2⟩ := h1
      rcases hf : f n with _ | z
      · simp only [leBest, Bool.false_eq_true, if_false]
        refine ⟨r, by omega, ⟨x, hx, hx2⟩, ?_, h3, h4, ?_⟩
        · intro k hk hk2
          rcases Nat.lt_succ_iff_lt_or_eq.1 hk2 with h | rfl
          · exact h2 k hk h
          · rintro ⟨w, hw, _⟩; rw [hf] at hw; simp at hw
        · intro w hw j hj y hy
          rcases Nat.lt_succ_iff_lt_or_eq.1 hj with h | rfl
          · exact h5 w hw j h y hy
          · rw [hf] at hy; simp at hy
      · rw [h3, hx]
        by_cases hle : z ≤ x
        · simp only [leBest, hle, decide_true, if_true]
          refine ⟨n, by omega, ⟨z, hf, fun j hj y hy => le_trans hle (h5 x hx j hj y hy)⟩, by omega, hf.symm,
            rfl, ?_⟩
          intro w hw j hj y hy
          rw [hf] at hw
          obtain rfl := Option.some.inj hw
          rcases Nat.lt_succ_iff_lt_or_eq.1 hj with h | rfl
          · exact le_trans hle (h5 x hx j h y hy)
          · rw [hf] at hy; exact le_of_eq (Option.some.inj hy)
        · simp only [leBest, hle, decide_false, Bool.false_eq_true, if_false]
          refine ⟨r, by omega, ⟨x, hx, hx2⟩, ?_, h3, h4, ?_⟩
          · intro k hk hk2
            rcases Nat.lt_succ_iff_lt_or_eq.1 hk2 with h | rfl
            · exact h2 k hk h
            · rintro ⟨w, hw, hw2⟩
              rw [hf] at hw
              obtain rfl := Option.some.inj hw
              exact hle (hw2 r hr x hx)
          · intro w hw j hj y hy
            rcases Nat.lt_succ_iff_lt_or_eq.1 hj with h | rfl
            · exact h5 w hw j h y hy
            · rw [hf] at hy
              rw [hx] at hw
              obtain rfl := Option.some.inj hy
              obtain rfl := Option.some.inj hw
              exact le_of_lt (not_le.1 hle)

/-- C31: what the callback does, for all sequences of losses and all parameters: it stops at call `n` exactly if the loss is at
    most the baseline, or if at least `patience` steps passed since the last call `r` which was at least as good as all before
    it and the loss is above the best loss minus `min_delta`. -/
theorem C31_exact (d p : K) (b : Option K) (s : Nat → Int) (f : Nat → Option K) (n : Nat) :
    esAnswer (mkEarlyStopping d p b) s f n = false ↔
      ∃ x, f n = some x ∧ ((∃ y, b = some y ∧ x ≤ y) ∨
        ∃ r z, LastRecord f n r ∧ f r = some z ∧ p ≤ ((s n - s r : Int) : K) ∧ z - d < x) := by
  have hpar := esState_params (mkEarlyStopping d p b) s f n
  have hbest := esState_best d p b s f (n + 1)
  simp only at hbest
  rw [esState, esCall_fst] at hbest
  have hp2 := trackBest_params (esState (mkEarlyStopping d p b) s f n) (s n) (f n)
  unfold esAnswer esCall
  simp only
  rw [hp2.1, hp2.2.1, hp2.2.2, hpar.1, hpar.2.1, hpar.2.2]
  generalize trackBest (esState (mkEarlyStopping d p b) s f n) (s n) (f n) = e at hbest ⊢
  rcases hf : f n with _ | x
  · simp [hitsBaseline, aboveBest]
  · rcases hbest with ⟨_, h2⟩ | ⟨r, hr, h1, h2, h3, h4, h5⟩
    · have := h2 n (by omega); rw [hf] at this; simp at this
    · obtain ⟨z, hz, hz2⟩ := h1
      have hlast : ∀ r', LastRecord f n r' ↔ r' = r := by
        intro r'
        constructor
        · rintro ⟨a1, a2, a3⟩
          rcases lt_trichotomy r r' with h | h | h
          · exact absurd a2 (h2 r' h (by omega))
          · exact h.symm
          · exact absurd ⟨z, hz, hz2⟩ (a3 r h (by omega))
        · rintro rfl
          exact ⟨by omega, ⟨z, hz, hz2⟩, fun k hk hk2 => h2 k hk (by omega)⟩
      rw [h3, h4, hz]
      have hbase : (hitsBaseline (some x) b = true) ↔ ∃ y, b = some y ∧ x ≤ y := by
        cases b <;> simp [hitsBaseline]
      show (if hitsBaseline (some x) b then (e, false)
        else if ((s n - s r : Int) : K) ≥ p ∧ aboveBest (some x) (some z) d then (e, false) else (e, true)).2
          = false ↔ _
      by_cases hb1 : hitsBaseline (some x) b = true
      · rw [if_pos hb1]
        simp only [true_iff]
        exact ⟨x, rfl, Or.inl (hbase.1 hb1)⟩
      · rw [if_neg hb1]
        rw [hbase] at hb1
        constructor
        · intro h
          split_ifs at h with hc
          refine ⟨x, rfl, Or.inr ⟨r, z, (hlast r).2 rfl, hz, hc.1, ?_⟩⟩
          have := hc.2
          simpa [aboveBest] using this
        · rintro ⟨x', hx', h | ⟨r', z', hr', hz', hp, hlt⟩⟩
          · obtain rfl := Option.some.inj hx'
            exact absurd h hb1
          · obtain rfl := (hlast r').1 hr'
            obtain rfl := Option.some.inj hx'
            rw [hz] at hz'
            obtain rfl := Option.some.inj hz'
            rw [if_pos ⟨hp, by simpa [aboveBest] using hlt⟩]

/-- the documented claim: an improvement is a loss below every earlier one by more than `min_delta` (the first call always is). -/
def Improves (d : K) (f : Nat → Option K) (k : Nat) : Prop :=
  ∃ x, f k = some x ∧ ∀ j < k, ∀ y, f j = some y → x < y - d

/-- C114 for `min_delta = 0` and without baseline, with strictly decreasing records counted as improvements: when no loss
    occurs twice and none is NaN, the run is stopped at call `n` exactly if the last improvement is at least `patience` steps,
    and at least one call, ago.
    Missing: `min_delta ≠ 0`, see `C114_min_delta_first_refuted` and `C114_min_delta_slow_refuted`; repeated losses, which
    count as improvements, see `C31_exact`. -/
theorem C114_no_improvement_partial (p : K) (s : Nat → Int) (f : Nat → K) (hinj : Function.Injective f) (n : Nat) :
    esAnswer (mkEarlyStopping 0 p none) s (fun i => some (f i)) n = false ↔
      ∃ r < n, Improves 0 (fun i => some (f i)) r ∧ (∀ k, r < k → k ≤ n → ¬Improves 0 (fun i => some (f i)) k)
        ∧ p ≤ ((s n - s r : Int) : K) := by
  have himp : ∀ k, IsRecord (fun i => some (f i)) k ↔ Improves 0 (fun i => some (f i)) k := by
    intro k
    simp only [IsRecord, Improves, Option.some.injEq, sub_zero]
    constructor
    · rintro ⟨x, rfl, h⟩
      refine ⟨_, rfl, ?_⟩
      rintro j hj y rfl
      exact lt_of_le_of_ne (h j hj _ rfl) fun h' => by have := hinj h'; omega
    · rintro ⟨x, rfl, h⟩
      exact ⟨_, rfl, fun j hj y hy => le_of_lt (h j hj y hy)⟩
  rw [C31_exact]
  simp only [Option.some.injEq, reduceCtorEq, false_and, exists_false, false_or, LastRecord, himp, sub_zero]
  constructor
  · rintro ⟨x, rfl, r, z, ⟨h1, h2, h3⟩, rfl, h5, h6⟩
    have : r ≠ n := by rintro rfl; exact lt_irrefl _ h6
    exact ⟨r, by omega, h2, h3, h5⟩
  · rintro ⟨r, h1, h2, h3, h4⟩
    refine ⟨_, rfl, r, _, ⟨by omega, h2, h3⟩, rfl, h4, ?_⟩
    by_contra hc
    have hle : f n ≤ f r := not_lt.1 hc
    -- then `n` would be a record
    apply h3 n h1 (le_refl _)
    rw [← himp]
    have hall : ∀ m, r ≤ m → m < n → f r ≤ f m := by
      intro m
      induction m using Nat.strong_induction_on with
      | _ m ih =>
        intro h5 h6
        by_contra hlt
        have hlt := not_le.1 hlt
        have hne : r ≠ m := by rintro rfl; exact lt_irrefl _ hlt
        apply h3 m (by omega) (by omega)
        rw [← himp]
        refine ⟨_, rfl, ?_⟩
        rintro j hj y hy
        obtain rfl := Option.some.inj hy
        rcases Nat.lt_or_ge j r with h7 | h7
        · obtain ⟨w, hw, hw2⟩ := h2
          obtain rfl := Option.some.inj hw
          have := hw2 j h7 _ rfl
          rw [sub_zero] at this
          exact le_of_lt (lt_trans hlt this)
        · exact le_trans (le_of_lt hlt) (ih j hj h7 (by omega))
    refine ⟨_, rfl, ?_⟩
    intro j hj y hy
    obtain rfl := Option.some.inj hy
    rcases Nat.lt_or_ge j r with h7 | h7
    · obtain ⟨w, hw, hw2⟩ := h2
      obtain rfl := Option.some.inj hw
      have := hw2 j h7 _ rfl
      rw [sub_zero] at this
      exact le_trans hle (le_of_lt this)
    · exact le_trans hle (hall j h7 hj)

example := C114_no_improvement_partial (1 / 10 : ℚ) (fun n => (n : ℤ)) (fun n => (n : ℚ)) (fun a b h => by simpa using h) 5

end

/-- C114 is false for a positive `min_delta`: with `patience = 0` the very first call stops the run. -/
theorem C114_min_delta_first_refuted :
    ¬ ∀ (d p : ℚ) (f : Nat → Option ℚ) (n : Nat), 0 < d → 0 ≤ p → Improves d f n →
      esAnswer (mkEarlyStopping d p none) (fun i => i) f n = true := by
  intro hall
  have h := hall (1/2) 0 (fun i => some i) 0 (by norm_num) (le_refl _) ⟨0, by simp, by omega⟩
  have h2 : esAnswer (mkEarlyStopping (1/2) 0 none) (fun i => i) (fun i => some (i : ℚ)) 0 = false := by
    rw [C31_exact]
    refine ⟨0, by simp, Or.inr ⟨0, 0, ⟨le_refl _, ⟨0, by simp, by omega⟩, by omega⟩, by simp, by simp, by norm_num⟩⟩
  rw [h2] at h
  exact absurd h (by decide)

/-- C114 is false for a positive `min_delta`: losses which decrease by less than `min_delta` in total never stop the
    run, however many calls bring no improvement. -/
theorem C114_min_delta_slow_refuted :
    ¬ ∀ (d p : ℚ) (f : Nat → Option ℚ) (n : Nat), 0 < d → 0 < p → (∀ i, (f i).isSome) →
      p ≤ n → (∀ k, 0 < k → k ≤ n → ¬Improves d f k) →
      esAnswer (mkEarlyStopping d p none) (fun i => i) f n = false := by
  intro hall
  have h := hall 1 2 (fun i => some (-(i : ℚ) / 100)) 5 (by norm_num) (by norm_num) (by simp) (by norm_num) (by
    intro k hk hk2
    rintro ⟨x, hx, h⟩
    obtain rfl := Option.some.inj hx
    have := h 0 hk 0 (by simp)
    have hk3 : (k : ℚ) ≤ 5 := by exact_mod_cast hk2
    linarith)
  rw [C31_exact] at h
  obtain ⟨x, hx, h | ⟨r, z, ⟨h1, h2, h3⟩, hz, hp, _⟩⟩ := h
  · obtain ⟨y, hy, _⟩ := h; simp at hy
  · have hr : r = 5 := by
      by_contra hne
      apply h3 5 (by omega) (le_refl _)
      refine ⟨_, rfl, ?_⟩
      intro j hj y hy
      obtain rfl := Option.some.inj hy
      have : (j : ℚ) ≤ 5 := by exact_mod_cast (by omega : j ≤ 5)
      push_cast
      linarith
    subst hr
    norm_num at hp

example : esRun (mkEarlyStopping (0 : ℚ) 2 none)
    [(0, some 5), (1, some 4), (2, some 6), (3, some 7), (4, none)] = [true, true, true, false, true] := by
  decide +kernel

example : LastRecord (fun i => if i = 1 then some (4 : ℚ) else some 6) 3 1 := by
  refine ⟨by decide, ⟨4, by simp, ?_⟩, ?_⟩
  · intro j hj y hy
    obtain rfl : j = 0 := by omega
    simp at hy
    subst hy
    norm_num
  · rintro k h1 h2 ⟨x, hx, h⟩
    simp only at hx
    rw [if_neg (by omega)] at hx
    have := h 1 h1 4 (by simp)
    obtain rfl := Option.some.inj hx
    norm_num at this

/-! ## C32: Timeout -/

section
variable {K : Type} [Field K] [LinearOrder K] [IsStrictOrderedRing K]

/-- C32: the first call of a new (or reset) `Timeout` starts the clock and continues; every later call continues exactly if the
    clock, read during this call, shows less than `timeout` since then. -/
theorem C32_answers (t : K) (ht : 0 < t) (t1 t2 : K) (calls : List (K × K)) :
    ∃ c, mkTimeout t = .ok c
      ∧ c.runCalls ((t1, t2) :: calls) = true :: calls.map (fun q => decide (q.2 - t1 < t)) := by
  refine ⟨⟨t, none⟩, by simp [mkTimeout, ht], ?_⟩
  have h : ∀ l : List (K × K), (Timeout.mk t (some t1)).runCalls l = l.map (fun q => decide (q.2 - t1 < t)) := by
    intro l
    induction l with
    | nil => rfl
    | cons q l ih =>
      obtain ⟨a, b⟩ := q
      rw [Timeout.runCalls, List.map_cons]
      by_cases hc : b - t1 ≥ t
      · simp only [Timeout.call, if_pos hc, ih, not_lt.2 hc, decide_false]
      · simp only [Timeout.call, if_neg hc, ih, not_le.1 hc, decide_true]
  rw [Timeout.runCalls]
  simp only [Timeout.call, h]

example := C32_answers (10 : ℚ) (by decide +kernel) 100 101 [(104, 105), (109, 110), (112, 113)]

/-- C32: with a clock that does not run backwards no call continues after one that stopped. -/
theorem C32_stays_stopped (t : K) (ht : 0 < t) (t1 t2 : K) (calls : List (K × K))
    (hmono : calls.Pairwise fun q q' => q.2 ≤ q'.2) :
    ∃ c, mkTimeout t = .ok c ∧
      (c.runCalls ((t1, t2) :: calls)).Pairwise fun a b => a = false → b = false := by
  obtain ⟨c, h1, h2⟩ := C32_answers t ht t1 t2 calls
  refine ⟨c, h1, ?_⟩
  rw [h2, List.pairwise_cons]
  refine ⟨by simp, ?_⟩
  rw [List.pairwise_map]
  refine hmono.imp ?_
  intro q q' h ha
  rw [decide_eq_false_iff_not, not_lt] at ha ⊢
  linarith

example := C32_stays_stopped (10 : ℚ) (by decide +kernel) 100 101 [(104, 105), (109, 110), (112, 113)] (by decide +kernel)

/-- C32: after `reset` the next call starts the clock again. -/
theorem C32_reset (t : K) (ht : 0 < t) (before : List (K × K)) (t1 t2 : K) (calls : List (K × K)) :
    ∃ c, mkTimeout t = .ok c ∧ (before.foldl (fun (c : Timeout K) q => (c.call q.1 q.2).1) c).reset.runCalls ((t1, t2) :: calls)
      = true :: calls.map (fun q => decide (q.2 - t1 < t)) := by
  obtain ⟨c, h1, h2⟩ := C32_answers t ht t1 t2 calls
  refine ⟨c, h1, ?_⟩
  have hc : c = ⟨t, none⟩ := by
    simp only [mkTimeout, gt_iff_lt, ht, if_true, Except.ok.injEq] at h1
    exact h1.symm
  have key : ∀ (l : List (K × K)) (c : Timeout K), (l.foldl (fun (c : Timeout K) q => (c.call q.1 q.2).1) c).timeout = c.timeout := by
    intro l
    induction l with
    | nil => exact fun _ => rfl
    | cons q l ih =>
      intro c
      rw [List.foldl_cons, ih]
      unfold Timeout.call
      split
      · rfl
      · split <;> rfl
  have hr : (before.foldl (fun (c : Timeout K) q => (c.call q.1 q.2).1) c).reset = c := by
    unfold Timeout.reset
    rw [key before c, hc]
  rw [hr, h2]

example := C32_reset (10 : ℚ) (by decide +kernel) [(0, 1), (20, 21)] 100 101 [(104, 105), (112, 113)]

/-- C32: a limit that is not positive is rejected. -/
theorem C32_rejects (t : K) (ht : t ≤ 0) : mkTimeout t = .error .assertionError := by
  simp [mkTimeout, not_lt.2 ht]

example := C32_rejects (-1 : ℚ) (by decide +kernel)

end

example : (Timeout.mk (10 : ℚ) none).runCalls [(100, 100), (104, 105), (109, 110), (112, 113)]
    = [true, true, false, false] := by decide +kernel

/-! ## C33: LinearPreconditioner -/

/-- the start of the solve number `n`, if the solutions returned so far are `xs`: nothing if there was none before. -/
def lastOf {X : Type} (xs : List X) (n : Nat) : Option X :=
  match n with
  | 0 => none
  | n + 1 => xs[n]?

theorem runCalls_get {X V G : Type} (solve : V → G → Option X → X) (calls : List (V × G)) :
    ∀ (p : Precond X) (n : Nat) (v : V) (g : G), calls[n]? = some (v, g) →
      (p.runCalls solve calls)[n]? = some (solve v g (if p.solverRestart then
        (match n with
          | 0 => p.x0
          | n + 1 => (p.runCalls solve calls)[n]?) else none)) := by
  induction calls with
  | nil => intro p n v g h; simp at h
  | cons c r ih =>
    obtain ⟨v0, g0⟩ := c
    intro p n v g h
    rw [Precond.runCalls]
    cases n with
    | zero =>
      simp only [List.getElem?_cons_zero, Option.some.injEq, Prod.mk.injEq] at h
      obtain ⟨rfl, rfl⟩ := h
      simp only [List.getElem?_cons_zero, Precond.call]
    | succ n =>
      rw [List.getElem?_cons_succ] at h ⊢
      rw [ih _ n v g h]
      congr 1
      cases n with
      | zero => simp [Precond.call]; rfl
      | succ n => simp [Precond.call]; rfl

/-- C33: what the code does: with `solver_restart=True` every solve starts from the previous solution, with False
    from nothing.  Missing: the documentation says the opposite, see `C33_documented_refuted`. -/
theorem C33_starts_partial {X V G : Type} (solve : V → G → Option X → X) (restart : Bool) (calls : List (V × G))
    (n : Nat) (v : V) (g : G) (h : calls[n]? = some (v, g)) :
    ((mkPrecond restart).runCalls solve calls)[n]? =
      some (solve v g (if restart then lastOf ((mkPrecond restart).runCalls solve calls) n else none)) := by
  rw [runCalls_get solve calls (mkPrecond restart) n v g h]
  cases n <;> rfl

example := C33_starts_partial (fun (_ g : Nat) x => g + (x.getD 0)) true [(0, 5), (0, 5), (0, 7)] 2 0 7 rfl

/-- C33 is false: with `solver_restart=False`, the default, the previous solution is not used. -/
theorem C33_documented_refuted :
    ¬ ∀ (solve : Nat → Nat → Option Nat → Nat) (calls : List (Nat × Nat)) (n v g : Nat), calls[n]? = some (v, g) →
      ((mkPrecond false).runCalls solve calls)[n]? =
        some (solve v g (lastOf ((mkPrecond false).runCalls solve calls) n)) := by
  intro hall
  have := hall (fun v g x => g + (x.getD 0)) [(0, 5), (0, 5)] 1 0 5 rfl
  exact absurd this (by decide +kernel)

example : (mkPrecond true).runCalls (fun (_ g : Nat) x => g + (x.getD 0)) [(0, 5), (0, 5), (0, 7)]
    = [5, 10, 17] := by decide +kernel

end Verif.Driver

import Verif.Model.Logging
import Mathlib.Tactic.Linarith

/-! C27, C28: what is on disk while a `JsonLog` is used. -/

set_option linter.unusedSectionVars false
set_option linter.unusedVariables false

namespace Verif.Log
open Verif.Hilbert (Err)

variable {Data P β I : Type}

/-- number of logged items among some operations. -/
def calls : List (Op I P) → Nat
  | [] => 0
  | .call .. :: r => calls r + 1
  | .flush .. :: r => calls r

theorem calls_append (a b : List (Op I P)) : calls (a ++ b) = calls a + calls b := by
  induction a with
  | nil => simp [calls]
  | cons o a ih => cases o <;> simp [calls, ih]; omega

section
variable (accum : Data → Int → I → Except Err Data) (dumps : Data → Except Err (List β))
  (toBytes : P → List β)

theorem run_append (a b : List (Op I P)) : ∀ (l : JsonLog Data β) l',
    run accum dumps toBytes l a = (l', none) →
    run accum dumps toBytes l (a ++ b) = run accum dumps toBytes l' b := by
  induction a with
  | nil => intro l l' h; simp only [run, Prod.mk.injEq, and_true] at h; subst h; rfl
  | cons o a ih =>
    intro l l' h
    simp only [run, List.cons_append] at h ⊢
    rcases hs : step accum dumps toBytes l o with ⟨l1, _ | e⟩
    · rw [hs] at h; exact ih l1 l' h
    · rw [hs] at h; simp at h

/-- effect of the second half of a call on everything but the parameter file. -/
theorem callParams_same {l l' : JsonLog Data β} {os s : Int} {v : P}
    (h : callParams toBytes l os s v = (l', none)) :
    l'.data = l.data ∧ l'.logFile = l.logFile ∧ l'.nWrite = l.nWrite + 1
      ∧ l'.writeEvery = l.writeEvery ∧ l'.saveParamsEvery = l.saveParamsEvery
      ∧ l'.saveParams = l.saveParams := by
  unfold callParams at h
  split at h
  · simp at h
  · simp only [Prod.mk.injEq, and_true] at h
    subst h
    unfold finishCall flushParams
    split_ifs <;> simp
  · simp only [Prod.mk.injEq, and_true] at h
    subst h
    simp [finishCall]

/-- one operation: the data grow by the item, and either the file holds the new data and the counter restarts, or the
    file is unchanged and the counter grows. -/
theorem step_cases {l l' : JsonLog Data β} {o : Op I P}
    (h : step accum dumps toBytes l o = (l', none)) :
    l'.writeEvery = l.writeEvery
    ∧ ((∃ bs, dumps l'.data = .ok bs ∧ l'.logFile = some bs ∧ l'.nWrite ≤ 1)
      ∨ ((∃ s i v now t0 t1, o = .call s i v now t0 t1) ∧ l'.logFile = l.logFile
          ∧ l'.nWrite = l.nWrite + 1 ∧ l.writeEvery ≠ 0 ∧ l.nWrite % l.writeEvery ≠ 0)) := by
  cases o with
  | flush v t0 t1 =>
    simp only [step, flush, flushLog] at h
    rcases hd : dumps l.data with e | bs
    · rw [hd] at h; simp at h
    · rw [hd] at h
      cases v with
      | none =>
        simp only [Prod.mk.injEq, and_true] at h
        subst h
        exact ⟨rfl, Or.inl ⟨bs, hd, rfl, by simp⟩⟩
      | some v =>
        simp only [Prod.mk.injEq, and_true] at h
        subst h
        unfold flushParams
        split_ifs
        · exact ⟨rfl, Or.inl ⟨bs, hd, rfl, by simp⟩⟩
        · exact ⟨rfl, Or.inl ⟨bs, hd, rfl, by simp⟩⟩
  | call s i v now t0 t1 =>
    simp only [step, call] at h
    rcases ha : accum l.data s i with e | d
    · rw [ha] at h; simp at h
    rw [ha] at h
    simp only at h
    rcases hw : wantsFlush { l with data := d, oldStep := s } l.oldStep s now with e | b
    · rw [hw] at h; simp at h
    rw [hw] at h
    cases b with
    | true =>
      simp only [flushLog] at h
      rcases hd : dumps d with e | bs
      · rw [hd] at h; simp at h
      · rw [hd] at h
        obtain ⟨h1, h2, h3, h4, _⟩ := callParams_same toBytes h
        refine ⟨h4, Or.inl ⟨bs, ?_, h2, ?_⟩⟩
        · rw [h1]; exact hd
        · rw [h3]
    | false =>
      obtain ⟨h1, h2, h3, h4, _⟩ := callParams_same toBytes h
      refine ⟨h4, Or.inr ⟨⟨s, i, v, now, t0, t1, rfl⟩, h2, h3, ?_⟩⟩
      unfold wantsFlush at hw
      split_ifs at hw with e1 e2
      · refine ⟨e2, ?_⟩
        have := Except.ok.inj hw
        simp only [Bool.or_eq_false_iff, decide_eq_false_iff_not] at this
        exact this.1.1

theorem run_inv (ops : List (Op I P)) : ∀ (l l' : JsonLog Data β) (m : Nat),
    0 < l.writeEvery → l.nWrite ≤ l.writeEvery → (m + 1 ≤ l.nWrite ∨ m = 0) →
    run accum dumps toBytes l ops = (l', none) →
    (l'.logFile = l.logFile ∧ m + calls ops ≤ l.writeEvery - 1 ∧ (l.nWrite = 0 → ops = []))
    ∨ ∃ pre post lm bs, ops = pre ++ post ∧ run accum dumps toBytes l pre = (lm, none)
      ∧ dumps lm.data = .ok bs ∧ l'.logFile = some bs ∧ calls post ≤ l.writeEvery - 1 := by
  induction ops with
  | nil =>
    intro l l' m h0 h1 h2 h
    simp only [run, Prod.mk.injEq, and_true] at h
    subst h
    left
    refine ⟨rfl, ?_, fun _ => rfl⟩
    simp only [calls]
    omega
  | cons o ops ih =>
    intro l l' m h0 h1 h2 h
    simp only [run] at h
    rcases hs : step accum dumps toBytes l o with ⟨l1, _ | e⟩
    swap
    · rw [hs] at h; simp at h
    rw [hs] at h
    simp only at h
    obtain ⟨hw, hc⟩ := step_cases accum dumps toBytes hs
    have hone : run accum dumps toBytes l [o] = (l1, none) := by simp only [run, hs]
    rcases hc with ⟨bs, c1, c2, c3⟩ | ⟨⟨a1, a2, a3, a4, a5, a6, rfl⟩, c1, c2, c3, c4⟩
    · right
      rcases ih l1 l' 0 (by omega) (by omega) (Or.inr rfl) h with ⟨e1, e2, _⟩ |
        ⟨pre, post, lm, bs', e1, e2, e3, e4, e5⟩
      · refine ⟨[o], ops, l1, bs, rfl, hone, c1, by rw [e1, c2], by omega⟩
      · refine ⟨o :: pre, post, lm, bs', by simp [e1], ?_, e3, e4, by omega⟩
        simp only [run, hs, e2]
    · have hne : l.nWrite ≠ 0 := by rintro hz; rw [hz] at c4; simp at c4
      have hlt : l.nWrite ≠ l.writeEvery := by
        rintro hz
        apply c4
        rw [hz]
        exact Nat.mod_self _
      rcases ih l1 l' (m + 1) (by omega) (by omega) (Or.inl (by omega)) h with ⟨e1, e2, _⟩ |
        ⟨pre, post, lm, bs', e1, e2, e3, e4, e5⟩
      · left
        refine ⟨by rw [e1, c1], ?_, fun hz => absurd hz hne⟩
        simp only [calls]
        omega
      · right
        refine ⟨.call a1 a2 a3 a4 a5 a6 :: pre, post, lm, bs', by simp [e1], ?_, e3, e4, by omega⟩
        simp only [run, hs, e2]

/-- C27: after any non-empty sequence of calls and flushes of a new logger (none of which raised) the file holds exactly
    the data as of some earlier moment, after which at most `write_every - 1` items were logged. -/
theorem C27_log_file (l l' : JsonLog Data β) (ops : List (Op I P)) (hnew : l.nWrite = 0)
    (hw : 0 < l.writeEvery) (hne : ops ≠ []) (h : run accum dumps toBytes l ops = (l', none)) :
    ∃ pre post lm bs, ops = pre ++ post ∧ run accum dumps toBytes l pre = (lm, none)
      ∧ dumps lm.data = .ok bs ∧ l'.logFile = some bs ∧ calls post ≤ l.writeEvery - 1 := by
  rcases run_inv accum dumps toBytes ops l l' 0 hw (by omega) (Or.inr rfl) h with ⟨_, _, e⟩ | e
  · exact absurd (e hnew) hne
  · exact e

/-- C27: after `flush` the file holds all data. -/
theorem C27_flush (l l' : JsonLog Data β) (v : Option P) (t0 t1 : Rat)
    (h : flush dumps toBytes l v t0 t1 = (l', none)) :
    l'.data = l.data ∧ ∃ bs, dumps l.data = .ok bs ∧ l'.logFile = some bs := by
  simp only [flush, flushLog] at h
  rcases hd : dumps l.data with e | bs
  · rw [hd] at h; simp at h
  · rw [hd] at h
    cases v with
    | none =>
      simp only [Prod.mk.injEq, and_true] at h
      subst h
      exact ⟨rfl, bs, rfl, rfl⟩
    | some v =>
      simp only [Prod.mk.injEq, and_true] at h
      subst h
      unfold flushParams
      split_ifs <;> exact ⟨rfl, bs, rfl, rfl⟩

/-- the variational state handed over by an operation. -/
def Op.vars : Op I P → Option P
  | .call _ _ v _ _ _ => some v
  | .flush v _ _ => v

/-- one operation and the parameter file. -/
theorem step_params {l l' : JsonLog Data β} {o : Op I P} (hp : l.saveParams = true)
    (h : step accum dumps toBytes l o = (l', none)) :
    l'.saveParamsEvery = l.saveParamsEvery ∧ l'.saveParams = true
    ∧ ((∃ v, o.vars = some v ∧ l'.parFile = some (toBytes v) ∧ l'.nPars ≤ 1)
      ∨ ((∃ s i v now t0 t1, o = .call s i v now t0 t1) ∧ l'.parFile = l.parFile
          ∧ l'.nPars = l.nPars + 1 ∧ l.saveParamsEvery ≠ 0 ∧ l.nPars % l.saveParamsEvery ≠ 0)
      ∨ (o.vars = none ∧ l'.parFile = l.parFile ∧ l'.nPars = l.nPars)) := by
  cases o with
  | flush v t0 t1 =>
    simp only [step, flush, flushLog] at h
    rcases hd : dumps l.data with e | bs
    · rw [hd] at h; simp at h
    · rw [hd] at h
      cases v with
      | none =>
        simp only [Prod.mk.injEq, and_true] at h
        subst h
        exact ⟨rfl, hp, Or.inr (Or.inr ⟨rfl, rfl, rfl⟩)⟩
      | some v =>
        simp only [Prod.mk.injEq, and_true] at h
        subst h
        unfold flushParams
        rw [if_neg (by simp [hp])]
        exact ⟨rfl, hp, Or.inl ⟨v, rfl, rfl, by simp⟩⟩
  | call s i v now t0 t1 =>
    have key : ∀ l0 : JsonLog Data β, l0.saveParams = true → l0.saveParamsEvery = l.saveParamsEvery →
        l0.nPars = l.nPars → l0.parFile = l.parFile →
        callParams toBytes l0 l.oldStep s v = (l', none) →
        l'.saveParamsEvery = l.saveParamsEvery ∧ l'.saveParams = true
        ∧ ((∃ v', (Op.call s i v now t0 t1).vars = some v' ∧ l'.parFile = some (toBytes v') ∧ l'.nPars ≤ 1)
          ∨ ((∃ s' i' v' now' t0' t1', Op.call s i v now t0 t1 = .call s' i' v' now' t0' t1') ∧
            l'.parFile = l.parFile
            ∧ l'.nPars = l.nPars + 1 ∧ l.saveParamsEvery ≠ 0 ∧ l.nPars % l.saveParamsEvery ≠ 0)
          ∨ ((Op.call s i v now t0 t1).vars = none ∧ l'.parFile = l.parFile ∧ l'.nPars = l.nPars)) := by
      intro l0 q1 q2 q3 q4 h
      unfold callParams at h
      rcases hw : wantsParams l0 l.oldStep s with e | b
      · rw [hw] at h; simp at h
      rw [hw] at h
      cases b with
      | true =>
        simp only [Prod.mk.injEq, and_true] at h
        subst h
        unfold flushParams finishCall
        rw [if_neg (by simp [q1])]
        exact ⟨q2, q1, Or.inl ⟨v, rfl, rfl, by simp⟩⟩
      | false =>
        simp only [Prod.mk.injEq, and_true] at h
        subst h
        unfold wantsParams at hw
        split_ifs at hw with e1
        have := Except.ok.inj hw
        simp only [Bool.or_eq_false_iff, decide_eq_false_iff_not] at this
        refine ⟨q2, q1, Or.inr (Or.inl ⟨⟨s, i, v, now, t0, t1, rfl⟩, q4, ?_, ?_, ?_⟩)⟩
        · simp [finishCall, q3]
        · rw [← q2]; exact e1
        · rw [← q2, ← q3]; exact this.1
    simp only [step, call] at h
    rcases ha : accum l.data s i with e | d
    · rw [ha] at h; simp at h
    rw [ha] at h
    simp only at h
    rcases hw : wantsFlush { l with data := d, oldStep := s } l.oldStep s now with e | b
    · rw [hw] at h; simp at h
    rw [hw] at h
    cases b with
    | true =>
      simp only [flushLog] at h
      rcases hd : dumps d with e | bs
      · rw [hd] at h; simp at h
      · rw [hd] at h
        exact key { l with data := d, oldStep := s, lastFlushTime := t0, logFile := some bs, nWrite := 0,
                           lastRuntime := t1 - t0 } hp rfl rfl rfl h
    | false => exact key { l with data := d, oldStep := s } hp rfl rfl rfl h

theorem run_params (ops : List (Op I P)) : ∀ (l l' : JsonLog Data β) (m : Nat),
    l.saveParams = true → 0 < l.saveParamsEvery → l.nPars ≤ l.saveParamsEvery →
    (m + 1 ≤ l.nPars ∨ m = 0) → run accum dumps toBytes l ops = (l', none) →
    (l'.parFile = l.parFile ∧ m + calls ops ≤ l.saveParamsEvery - 1 ∧ (l.nPars = 0 → calls ops = 0))
    ∨ ∃ pre o v post, ops = pre ++ o :: post ∧ o.vars = some v ∧ l'.parFile = some (toBytes v)
      ∧ calls post ≤ l.saveParamsEvery - 1 := by
  induction ops with
  | nil =>
    intro l l' m hp h0 h1 h2 h
    simp only [run, Prod.mk.injEq, and_true] at h
    subst h
    left
    refine ⟨rfl, ?_, fun _ => rfl⟩
    simp only [calls]
    omega
  | cons o ops ih =>
    intro l l' m hp h0 h1 h2 h
    simp only [run] at h
    rcases hs : step accum dumps toBytes l o with ⟨l1, _ | e⟩
    swap
    · rw [hs] at h; simp at h
    rw [hs] at h
    simp only at h
    obtain ⟨hw, hp1, hc⟩ := step_params accum dumps toBytes hp hs
    rcases hc with ⟨v, c1, c2, c3⟩ | ⟨⟨a1, a2, a3, a4, a5, a6, rfl⟩, c1, c2, c3, c4⟩ | ⟨c1, c2, c3⟩
    · right
      rcases ih l1 l' 0 hp1 (by omega) (by omega) (Or.inr rfl) h with ⟨e1, e2, _⟩ |
        ⟨pre, o', v', post, e1, e2, e3, e4⟩
      · exact ⟨[], o, v, ops, rfl, c1, by rw [e1, c2], by omega⟩
      · exact ⟨o :: pre, o', v', post, by simp [e1], e2, e3, by omega⟩
    · have hne : l.nPars ≠ 0 := by rintro hz; rw [hz] at c4; simp at c4
      have hlt : l.nPars ≠ l.saveParamsEvery := by
        rintro hz
        apply c4
        rw [hz]
        exact Nat.mod_self _
      rcases ih l1 l' (m + 1) hp1 (by omega) (by omega) (Or.inl (by omega)) h with ⟨e1, e2, _⟩ |
        ⟨pre, o', v', post, e1, e2, e3, e4⟩
      · left
        refine ⟨by rw [e1, c1], ?_, fun hz => absurd hz hne⟩
        simp only [calls]
        omega
      · right
        exact ⟨.call a1 a2 a3 a4 a5 a6 :: pre, o', v', post, by simp [e1], e2, e3, by omega⟩
    · have hcalls : calls (o :: ops) = calls ops := by
        cases o with
        | call s i v now t0 t1 => simp [Op.vars] at c1
        | flush v t0 t1 => rfl
      rcases ih l1 l' m hp1 (by omega) (by omega) (by omega) h with ⟨e1, e2, e3⟩ |
        ⟨pre, o', v', post, e1, e2, e3, e4⟩
      · left
        exact ⟨by rw [e1, c2], by omega, fun hz => by rw [hcalls]; exact e3 (by omega)⟩
      · right
        exact ⟨o :: pre, o', v', post, by simp [e1], e2, e3, by omega⟩

/-- C27: after at least one call the parameter file holds the parameters handed over by some operation, after which at
    most `save_params_every - 1` items were logged. -/
theorem C27_param_file (l l' : JsonLog Data β) (ops : List (Op I P)) (hp : l.saveParams = true)
    (hnew : l.nPars = 0) (hw : 0 < l.saveParamsEvery) (hne : calls ops ≠ 0)
    (h : run accum dumps toBytes l ops = (l', none)) :
    ∃ pre o v post, ops = pre ++ o :: post ∧ o.vars = some v ∧ l'.parFile = some (toBytes v)
      ∧ calls post ≤ l.saveParamsEvery - 1 := by
  rcases run_params accum dumps toBytes ops l l' 0 hp hw (by omega) (Or.inr rfl) h with ⟨_, _, e⟩ | e
  · exact absurd (e hnew) hne
  · exact e

/-- C27: a new logger satisfies the hypotheses of the theorems above. -/
theorem C27_new_log (empty : Data) (mode : String) (sp we : Nat) (save : Bool) (cost now : Rat)
    (f g : Option (List β)) (l : JsonLog Data β)
    (h : mkJsonLog empty mode sp we save cost now f g = .ok l) :
    l.nWrite = 0 ∧ l.nPars = 0 ∧ l.writeEvery = we ∧ l.saveParamsEvery = sp ∧ l.saveParams = save
      ∧ l.logFile = f ∧ l.parFile = g ∧ l.data = empty := by
  unfold mkJsonLog at h
  split at h
  · simp at h
  · simp at h
  · split_ifs at h
    obtain rfl := Except.ok.inj h
    simp

/-- C27: when a logger is made: never in append mode; in fail mode only if neither file exists; in write mode always. -/
theorem C27_modes (empty : Data) (sp we : Nat) (save : Bool) (cost now : Rat) (f g : Option (List β)) :
    (∃ l, mkJsonLog empty "write" sp we save cost now f g = .ok l)
    ∧ mkJsonLog empty "append" sp we save cost now f g = .error .valueError
    ∧ ((∃ l, mkJsonLog empty "fail" sp we save cost now f g = .ok l) ↔ f = none ∧ g = none) := by
  have h1 : parseMode "write" = .ok .write := by decide
  have h2 : parseMode "append" = .ok .append := by decide
  have h3 : parseMode "fail" = .ok .fail := by decide
  refine ⟨by simp [mkJsonLog, h1], by simp [mkJsonLog, h2], ?_⟩
  cases f <;> cases g <;> simp [mkJsonLog, h3]

/-- C27: a second call within the clock resolution raises ZeroDivisionError; the item is in memory, not on disk. -/
theorem C27_zero_elapsed (l : JsonLog Data β) (s : Int) (i : I) (v : P) (t0 t1 : Rat) (d : Data)
    (ha : accum l.data s i = .ok d) :
    call accum dumps toBytes l s i v l.lastFlushTime t0 t1
      = ({ l with data := d, oldStep := s }, some .zeroDivision) := by
  simp [call, ha, wantsFlush]

/-! ## C28 -/

/-- the contents the log file may have if the process stops at any moment of an operation: the file before, and, if
    the operation flushes, every intermediate state of the flush. -/
def crashStates (l : JsonLog Data β) : List (Option (List β)) :=
  [l.logFile] ++ (flushStates dumps l).map some

/-- C28 is false: a crash right after the file was opened leaves it empty, whatever it contained. -/
theorem C28_truncated_refuted :
    ¬ ∀ (dumps : Nat → Except Err (List Nat)) (l : JsonLog Nat Nat),
      ∀ f ∈ crashStates dumps l, f = l.logFile ∨ ∃ bs, dumps l.data = .ok bs ∧ f = some bs := by
  intro hall
  have := hall (fun n => .ok [n]) ⟨7, 0, 1, 1, 0, 0, false, 0, 0, 0, some [5], none⟩ (some [])
    (by decide)
  rcases this with h | ⟨bs, h1, h2⟩
  · simp at h
  · simp at h1 h2
    rw [← h1] at h2
    simp at h2

/-- C28: exactly these states are possible: the old file, the empty file and every prefix of the new contents; in
    particular every flush passes through the empty file. -/
theorem C28_crash_states (l : JsonLog Data β) (bs : List β)
    (hd : dumps l.data = .ok bs) (f : Option (List β)) :
    f ∈ crashStates dumps l ↔ f = l.logFile ∨ ∃ g, f = some g ∧ g <+: bs := by
  unfold crashStates flushStates
  rw [hd]
  simp only [List.cons_append, List.nil_append, List.mem_cons, List.mem_map, List.mem_range]
  refine or_congr Iff.rfl ⟨?_, ?_⟩
  · rintro ⟨g, ⟨k, _, rfl⟩, rfl⟩
    exact ⟨_, rfl, List.take_prefix _ _⟩
  · rintro ⟨g, rfl, hg⟩
    refine ⟨g, ⟨g.length, ?_, ?_⟩, rfl⟩
    · have := hg.length_le; omega
    · exact (List.prefix_iff_eq_take.1 hg).symm

/-- C28 is false even without a crash: an item that cannot be serialised (such as a matrix) raises and leaves an
    empty file behind, although the previous data had been written. -/
theorem C28_unserialisable_refuted :
    ¬ ∀ (accum : List Nat → Int → Nat → Except Err (List Nat)) (dumps : List Nat → Except Err (List Nat))
      (toBytes : Unit → List Nat) (l l' : JsonLog (List Nat) Nat) (o : Op Nat Unit) (e : Err),
      step accum dumps toBytes l o = (l', some e) → l'.logFile = l.logFile := by
  intro hall
  have h1 : (step (fun (d : List Nat) _ i => .ok (d ++ [i]))
      (fun d => if 9 ∈ d then .error .typeError else .ok d) (fun _ : Unit => [])
      ⟨[1, 2], 3, 1, 1, 1, 1, false, 0, 0, 0, some [1, 2], none⟩
      (.call 4 9 () 1 1 2)).2 = some .typeError := by decide +kernel
  have := hall _ _ _ _ _ _ _ (Prod.ext rfl h1)
  exact absurd this (by decide +kernel)

/-- C28, the part that holds: an operation that does not flush leaves both files alone; so a crash outside of a flush
    loses nothing that was on disk. -/
theorem C28_outside_flush_partial (l l' : JsonLog Data β) (s : Int) (i : I) (v : P)
    (now t0 t1 : Rat) (d : Data) (ha : accum l.data s i = .ok d)
    (h1 : wantsFlush { l with data := d, oldStep := s } l.oldStep s now = .ok false)
    (h2 : wantsParams { l with data := d, oldStep := s } l.oldStep s = .ok false)
    (h : call accum dumps toBytes l s i v now t0 t1 = (l', none)) :
    l'.logFile = l.logFile ∧ l'.parFile = l.parFile := by
  simp only [call, ha, h1, callParams, h2, Prod.mk.injEq, and_true] at h
  subst h
  simp [finishCall]

end

/-! ## Examples -/

/-- a logger of natural numbers that writes every third item. -/
def demo : JsonLog (List Nat) Nat := ⟨[], 0, 3, 2, 0, 0, true, 0, 0, 0, none, none⟩

/-- five calls. -/
def demoOps : List (Op Nat Nat) :=
  [.call 0 10 100 1 1 2, .call 1 11 101 3 3 4, .call 2 12 102 5 5 6, .call 3 13 103 7 7 8,
   .call 4 14 104 9 9 10]

/-- the accumulation and serialisation of the example. -/
def demoRun (n : Nat) : JsonLog (List Nat) Nat × Option Err :=
  run (fun d _ i => .ok (d ++ [i])) (fun d => .ok d) (fun v => [v]) demo (demoOps.take n)

example : (demoRun 1).1.logFile = some [10] ∧ (demoRun 3).1.logFile = some [10]
    ∧ (demoRun 4).1.logFile = some [10, 11, 12, 13] ∧ (demoRun 5).1.logFile = some [10, 11, 12, 13]
    ∧ (demoRun 4).1.parFile = some [102] ∧ (demoRun 5).1.parFile = some [104]
    ∧ (demoRun 5).2 = none := by decide +kernel

example : mkJsonLog ([] : List Nat) "w" 2 3 true 0 0 none none = .ok demo := rfl

example : ∃ pre post lm bs, demoOps = pre ++ post
    ∧ run (fun (d : List Nat) _ i => .ok (d ++ [i])) (fun d => .ok d) (fun v : Nat => [v]) demo pre = (lm, none)
    ∧ (Except.ok lm.data : Except Err (List Nat)) = .ok bs ∧ (demoRun 5).1.logFile = some bs ∧ calls post ≤ 2 :=
  C27_log_file _ _ _ demo _ demoOps rfl (by decide) (by decide)
    (Prod.ext rfl (by decide +kernel))

end Verif.Log

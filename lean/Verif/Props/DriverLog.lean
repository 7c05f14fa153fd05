import Verif.Model.DriverLog
import Verif.Props.Driver
import Mathlib.Data.List.Forall2
import Mathlib.Order.Monotone.Basic
import Mathlib.Tactic.Linarith
import Mathlib.Tactic.Ring

/-! C221, C222: what a run of a driver gives to its loggers. -/

namespace Verif.DriverLog
open Verif.Hilbert (Err)
open Verif.Driver (Env rangeLen oneStep IsCeil rangeLen_eq)

variable {W D V S : Type}

/-! ## Specification -/

/-- what is reported about a state: every observable under its name and the loss under its own, which wins. -/
def baseItems (obs : List (Nat × (W → V))) (name : Nat) (loss : Option V) (w : W) : List (Nat × V) :=
  match loss with
  | none => obs.map fun p => (p.1, p.2 w)
  | some v =>
    (obs.map fun p => (p.1, if p.1 = name then v else p.2 w))
      ++ if name ∈ obs.map Prod.fst then [] else [(name, v)]

/-- the callbacks, one after the other, turn the data `d` into `d'` and answer `answers`. -/
inductive Chain (b : Nat) (step : Int) (w : W) : List (Callback W V) → Data V → List Bool → Data V → Prop
  | nil (d) : Chain b step w [] d [] d
  | cons {c cs d d1 d2 ans answers} : c b step d w = .ok (ans, d1) → Chain b step w cs d1 answers d2 →
      Chain b step w (c :: cs) d (ans :: answers) d2

/-- a logger in state `s` accepts the entries one after the other and ends in state `s'`. -/
inductive Fed (lg : Logger S V W) : S → List (Int × Data V × W) → S → Prop
  | nil (s) : Fed lg s [] s
  | cons {s s1 s2 e es} : lg.call s e.1 e.2.1 e.2.2 = (s1, none) → Fed lg s1 es s2 → Fed lg s (e :: es) s2

/-- the state at the beginning of turn `j`. -/
def stateAt (env : Env W D) (step : Nat) (w : W) (j : Nat) : W := (oneStep env)^[j * step] w

/-- the state that is reported in turn `j`. -/
def seen (env : Env W D) (step : Nat) (w : W) (j : Nat) : W := (env.fwd (stateAt env step w j)).1

/-- the entries of the first `k` turns. -/
def entries (env : Env W D) (step : Nat) (start : Int) (w : W) (data : Nat → Data V) (k : Nat) :
    List (Int × Data V × W) :=
  (List.range k).map fun j : Nat => (start + j * step, data j, seen env step w j)

/-- turn `j` ends the run. -/
def Ends (a : Args W D V S) (answers : Nat → List Bool) (j : Nat) : Prop :=
  a.callbacks ≠ [] ∧ (false ∈ answers j ∨ a.others j = true)

/-- the data reported in turn `j` (and the answers of the callbacks). -/
def Reported (a : Args W D V S) (obs : List (Nat × (W → V))) (step : Nat) (start : Int) (w : W) (answers : Nat → List Bool)
    (data : Nat → Data V) (j : Nat) : Prop :=
  Chain j (start + j * step) (seen a.env step w j) a.callbacks
    (.dict (baseItems obs a.lossName (a.loss (seen a.env step w j)) (seen a.env step w j))) (answers j) (data j)

/-! ## Lemmas -/

theorem setItem_map (name : Nat) (v : V) (l : List (Nat × V)) (hn : (l.map Prod.fst).Nodup) :
    setItem name v l = (l.map fun p => (p.1, if p.1 = name then v else p.2))
      ++ if name ∈ l.map Prod.fst then [] else [(name, v)] := by
  induction l with
  | nil => simp [setItem]
  | cons p r ih =>
    simp only [List.map_cons, List.nodup_cons] at hn
    unfold setItem
    by_cases h : p.1 = name
    · have hr : (r.map fun p => (p.1, if p.1 = name then v else p.2)) = r := by
        conv_rhs => rw [← List.map_id r]
        refine List.map_congr_left fun q hq => ?_
        have : q.1 ≠ name := fun hq' => hn.1 (by rw [h, ← hq']; exact List.mem_map_of_mem hq)
        simp [this]
      simp [h, hr]
    · rw [if_neg h, ih hn.2]
      have h' : ¬ name = p.1 := fun e => h e.symm
      simp only [List.map_cons, h, if_false, List.cons_append, List.mem_cons, h', false_or]

theorem addLoss_base (obs : List (Nat × (W → V))) (hn : (obs.map Prod.fst).Nodup) (name : Nat) (loss : Option V) (w : W) :
    addLoss name loss (estimate (.dict obs) w) = .ok (.dict (baseItems obs name loss w)) := by
  cases loss with
  | none => simp [addLoss, estimate, baseItems]
  | some v =>
    have hn' : ((obs.map fun p => (p.1, p.2 w)).map Prod.fst).Nodup := by
      simpa [List.map_map, Function.comp_def] using hn
    simp only [addLoss, estimate, baseItems]
    rw [setItem_map _ _ _ hn']
    have hk : (obs.map fun p => (p.1, p.2 w)).map Prod.fst = obs.map Prod.fst := by simp [List.map_map, Function.comp_def]
    rw [hk]
    simp [List.map_map, Function.comp_def]

theorem runCallbacks_chain {b : Nat} {step : Int} {w : W} {cs : List (Callback W V)} {d d' : Data V} {answers : List Bool}
    (h : Chain b step w cs d answers d') : ∀ stop,
    runCallbacks b step w cs stop d = .ok (stop || decide (false ∈ answers), d') := by
  induction h with
  | nil d => intro stop; simp [runCallbacks]
  | cons hc _ ih =>
    intro stop
    rename_i ans answers _
    rw [runCallbacks, hc]
    dsimp only
    rw [ih]
    cases ans <;> simp

theorem each_ok {f : S → S × Option Err} {l l' : List S} (h : List.Forall₂ (fun s s' => f s = (s', none)) l l') :
    each f l = (l', none) := by
  induction h with
  | nil => rfl
  | cons h1 _ ih => simp [each, h1, ih]

theorem each_error {f : S → S × Option Err} {l1 l1' : List S} (h : List.Forall₂ (fun s s' => f s = (s', none)) l1 l1')
    (s s' : S) (e : Err) (hs : f s = (s', some e)) (l2 : List S) :
    each f (l1 ++ s :: l2) = (l1' ++ s' :: l2, some e) := by
  induction h with
  | nil => simp [each, hs]
  | cons h1 _ ih => simp [each, h1, ih]

theorem each_length {f : S → S × Option Err} (l : List S) : (each f l).1.length = l.length := by
  induction l with
  | nil => rfl
  | cons s r ih =>
    unfold each
    split <;> simp_all

theorem inner_eq (env : Env W D) (m : Nat) : ∀ r : Run W S,
    inner env m r = { r with step := r.step + m, world := (oneStep env)^[m] r.world } := by
  induction m with
  | zero => intro r; simp [inner]
  | succ m ih =>
    intro r
    rw [inner, ih]
    simp only [Function.iterate_succ, Function.comp, oneStep, Run.mk.injEq, and_true]
    push_cast
    ring

theorem fed_split {lg : Logger S V W} {e : Int × Data V × W} {es : List (Int × Data V × W)} {l l' : List S}
    (h : List.Forall₂ (fun s s' => Fed lg s (e :: es) s') l l') :
    ∃ mid, List.Forall₂ (fun s s' => lg.call s e.1 e.2.1 e.2.2 = (s', none)) l mid
      ∧ List.Forall₂ (fun s s' => Fed lg s es s') mid l' := by
  induction h with
  | nil => exact ⟨[], .nil, .nil⟩
  | cons h1 _ ih =>
    obtain ⟨mid, ha, hb⟩ := ih
    cases h1 with
    | cons hc hf => exact ⟨_ :: mid, .cons hc ha, .cons hf hb⟩

theorem fed_nil {lg : Logger S V W} {l l' : List S} (h : List.Forall₂ (fun s s' => Fed lg s [] s') l l') : l' = l := by
  induction h with
  | nil => rfl
  | cons h1 _ ih => cases h1; rw [ih]

/-- one turn in which nothing raises. -/
theorem report_ok (a : Args W D V S) (hc : a.cbKind = .container) (hl : a.logKind = .container)
    (obs : List (Nat × (W → V))) (ho : a.obs = .dict obs) (hn : (obs.map Prod.fst).Nodup) (b : Nat) (r : Run W S)
    (answers : List Bool) (d : Data V) (mid : List S)
    (hch : Chain b r.step (a.env.fwd r.world).1 a.callbacks
      (.dict (baseItems obs a.lossName (a.loss (a.env.fwd r.world).1) (a.env.fwd r.world).1)) answers d)
    (hm : List.Forall₂ (fun s s' => a.logger.call s r.step d (a.env.fwd r.world).1 = (s', none)) r.logs mid) :
    report a b r = ({ r with world := (a.env.fwd r.world).1, logs := mid, used := true },
      .ok (decide (0 < a.callbacks.length) && (decide (false ∈ answers) || a.others b))) := by
  unfold report turnData
  rw [ho, addLoss_base obs hn]
  simp only [hc, sees, if_true]
  rw [runCallbacks_chain hch]
  simp only [turnLogs, hl, sees, if_true, each_ok hm, leaves, hc, Bool.false_or]

theorem stateAt_succ (env : Env W D) (step : Nat) (w : W) (j : Nat) :
    stateAt env step ((oneStep env)^[step] w) j = stateAt env step w (j + 1) := by
  unfold stateAt
  rw [← Function.iterate_add_apply]
  congr 1
  ring

theorem after_turn (a : Args W D V S) (step : Nat) (hs : 0 < step) (r : Run W S) (mid : List S) :
    inner a.env (step - 1) (finish a.env r.world
      { r with world := (a.env.fwd r.world).1, logs := mid, used := true })
      = ⟨r.step + step, (oneStep a.env)^[step] r.world, mid, true⟩ := by
  obtain ⟨m, rfl⟩ : ∃ m, step = m + 1 := ⟨step - 1, by omega⟩
  rw [inner_eq]
  simp only [finish, Nat.add_sub_cancel, Function.iterate_succ, Function.comp, oneStep, Run.mk.injEq, and_true]
  push_cast
  ring

theorem loop_ok (a : Args W D V S) (hc : a.cbKind = .container) (hl : a.logKind = .container)
    (obs : List (Nat × (W → V))) (ho : a.obs = .dict obs) (hn : (obs.map Prod.fst).Nodup) (step : Nat) (hs : 0 < step)
    (answers : Nat → List Bool) (data : Nat → Data V) : ∀ (fuel k b : Nat) (r : Run W S) (logs' : List S), k ≤ fuel →
    (∀ j, j ≤ k → j < fuel → Chain (b + j) (r.step + j * step) (seen a.env step r.world j) a.callbacks
      (.dict (baseItems obs a.lossName (a.loss (seen a.env step r.world j)) (seen a.env step r.world j)))
      (answers (b + j)) (data (b + j))) →
    (∀ j < k, ¬Ends a answers (b + j)) → (k = fuel ∨ Ends a answers (b + k)) →
    List.Forall₂ (fun s s' => Fed a.logger s
      ((List.range (if k < fuel then k + 1 else k)).map fun j : Nat =>
        (r.step + j * step, data (b + j), seen a.env step r.world j)) s') r.logs logs' →
    loop a step fuel b r =
      ({ step := r.step + k * step
         world := if k < fuel then seen a.env step r.world k else stateAt a.env step r.world k
         logs := logs', used := r.used || decide (0 < fuel) }, none) := by
  intro fuel
  induction fuel with
  | zero =>
    intro k b r logs' hk _ _ _ hf
    obtain rfl : k = 0 := by omega
    simp only [lt_irrefl, if_false, List.range_zero, List.map_nil] at hf
    rw [loop, fed_nil hf]
    cases r
    simp [stateAt]
  | succ fuel ih =>
    intro k b r logs' hk hd hno hend hf
    have hs0 : step ≠ 0 := by omega
    have hw0 : seen a.env step r.world 0 = (a.env.fwd r.world).1 := by simp [seen, stateAt]
    have h0 := hd 0 (Nat.zero_le _) (by omega)
    simp only [Nat.add_zero, Nat.cast_zero, zero_mul, add_zero, hw0] at h0
    obtain ⟨t, ht⟩ : ∃ t, (if k < fuel + 1 then k + 1 else k) = t + 1 := by
      by_cases h : k < fuel + 1
      · exact ⟨k, by rw [if_pos h]⟩
      · exact ⟨k - 1, by rw [if_neg h]; omega⟩
    rw [ht, List.range_succ_eq_map, List.map_cons] at hf
    obtain ⟨mid, hm, hrest⟩ := fed_split hf
    simp only [Nat.cast_zero, zero_mul, add_zero, Nat.add_zero, hw0] at hm
    have hr := report_ok a hc hl obs ho hn b r _ _ _ h0 hm
    by_cases hk0 : k = 0
    · subst hk0
      have hE : Ends a answers b := by
        rcases hend with h | h
        · omega
        · simpa using h
      have hb : (decide (0 < a.callbacks.length) && (decide (false ∈ answers b) || a.others b)) = true := by
        obtain ⟨h1, h2⟩ := hE
        have : 0 < a.callbacks.length := List.length_pos_iff.2 h1
        rcases h2 with h2 | h2 <;> simp [this, h2]
      have ht0 : t = 0 := by
        rw [if_pos (by omega)] at ht
        omega
      subst ht0
      simp only [List.range_zero, List.map_nil] at hrest
      rw [loop, if_neg hs0, hr, hb, fed_nil hrest]
      simp [hw0]
    · have hE : ¬Ends a answers b := by
        have := hno 0 (by omega)
        simpa using this
      have hb : (decide (0 < a.callbacks.length) && (decide (false ∈ answers b) || a.others b)) = false := by
        by_contra hcon
        apply hE
        simp only [Bool.not_eq_false, Bool.and_eq_true, decide_eq_true_eq, Bool.or_eq_true] at hcon
        exact ⟨List.length_pos_iff.1 hcon.1, hcon.2⟩
      obtain ⟨k', rfl⟩ : ∃ k', k = k' + 1 := ⟨k - 1, by omega⟩
      rw [loop, if_neg hs0, hr, hb]
      dsimp only
      rw [after_turn a step hs r mid]
      have ht' : t = if k' < fuel then k' + 1 else k' := by
        by_cases h : k' < fuel
        · rw [if_pos h]; rw [if_pos (by omega)] at ht; omega
        · rw [if_neg h]; rw [if_neg (by omega)] at ht; omega
      have hseen : ∀ j, seen a.env step ((oneStep a.env)^[step] r.world) j = seen a.env step r.world (j + 1) := by
        intro j
        unfold seen
        rw [stateAt_succ]
      have hst : ∀ j : Nat, r.step + (step : Int) + j * step = r.step + ((j + 1 : Nat) : Int) * step := by
        intro j; push_cast; ring
      have hbj : ∀ j : Nat, b + 1 + j = b + (j + 1) := by intro j; omega
      rw [ih k' (b + 1) ⟨r.step + step, (oneStep a.env)^[step] r.world, mid, true⟩ logs' (by omega)]
      · simp only [hseen, stateAt_succ, hst, Prod.mk.injEq, Run.mk.injEq, true_and, and_true]
        refine ⟨?_, by simp⟩
        by_cases h : k' < fuel
        · rw [if_pos h, if_pos (by omega)]
        · rw [if_neg h, if_neg (by omega)]
      · intro j hj hjf
        simp only [hseen, hst, hbj]
        exact hd (j + 1) (by omega) (by omega)
      · intro j hj
        rw [hbj]
        exact hno (j + 1) (by omega)
      · rw [hbj]
        rcases hend with h | h
        · exact Or.inl (by omega)
        · exact Or.inr h
      · simp only [hseen, hst, hbj, ← ht']
        simpa only [List.map_map, Function.comp_def] using hrest

/-! ## C221 -/

/-- C221: a run in which nothing raises.  There are `m` turns unless turn `k` ends the run.  Every logger is given, in order, the
    step count, the data and the state of each turn (including the one that ends the run), and is then flushed with the final
    state.  The data of a turn are those of `baseItems`, modified by the callbacks in order. -/
theorem C221_run (a : Args W D V S) (hc : a.cbKind = .container) (hl : a.logKind = .container)
    (obs : List (Nat × (W → V))) (ho : a.obs = .dict obs) (hn : (obs.map Prod.fst).Nodup)
    (n : Int) (step m k : Nat) (hs : 0 < step) (hm : IsCeil n step m) (hk : k ≤ m)
    (start : Int) (w : W) (logs mid logs' : List S) (answers : Nat → List Bool) (data : Nat → Data V)
    (hd : ∀ j, j ≤ k → j < m → Reported a obs step start w answers data j)
    (hno : ∀ j < k, ¬Ends a answers j) (hend : k = m ∨ Ends a answers k)
    (hf : List.Forall₂ (fun s s' => Fed a.logger s
      (entries a.env step start w data (if k < m then k + 1 else k)) s') logs mid)
    (hfl : List.Forall₂ (fun s s' => a.logger.flush s
      (if k < m then seen a.env step w k else stateAt a.env step w k) = (s', none)) mid logs') :
    runRank a true (.int n) step ⟨start, w, logs, false⟩ =
      ({ step := start + k * step
         world := if k < m then seen a.env step w k else stateAt a.env step w k
         logs := logs', used := decide (0 < m) }, none) := by
  unfold runRank runLoggers
  simp only [if_true]
  rw [rangeLen_eq n step m hs hm]
  dsimp only
  have := loop_ok a hc hl obs ho hn step hs answers data m k 0 ⟨start, w, logs, false⟩ mid hk
    (by simpa only [Nat.zero_add, Reported] using hd) (by simpa only [Nat.zero_add] using hno)
    (by simpa only [Nat.zero_add] using hend) (by simpa only [Nat.zero_add, entries] using hf)
  rw [Int.toNat_natCast, this]
  simp only [flushAll, hl, sees, if_true, each_ok hfl, Bool.false_or]

theorem inner_logs (env : Env W D) : ∀ (k : Nat) (r : Run W S), (inner env k r).logs = r.logs
  | 0, _ => rfl
  | k + 1, r => by rw [inner, inner_logs env k]

/-- without loggers their class does not matter. -/
theorem loop_empty (a : Args W D V S) (L : Logger S V W) (hl : a.logKind = .container) (step : Nat) : ∀ (fuel b : Nat) (r : Run W S), r.logs = [] →
    loop { a with logger := L } step fuel b r = loop a step fuel b r ∧ (loop a step fuel b r).1.logs = [] := by
  intro fuel
  induction fuel with
  | zero => intro b r h; exact ⟨rfl, h⟩
  | succ fuel ih =>
    intro b r h
    rw [loop, loop]
    by_cases hs : step = 0
    · rw [if_pos hs, if_pos hs]
      exact ih _ _ h
    rw [if_neg hs, if_neg hs]
    have hr : report { a with logger := L } b r = report a b r ∧ (report a b r).1.logs = [] := by
      unfold report turnLogs turnData leaves
      simp only [hl, sees, h, each, if_true]
      split
      · exact ⟨trivial, rfl⟩
      · exact ⟨trivial, rfl⟩
    rw [hr.1]
    rcases e : report a b r with ⟨r', o⟩
    have hl' : r'.logs = [] := by simpa [e] using hr.2
    rcases o with e' | ⟨_ | _⟩
    · exact ⟨rfl, hl'⟩
    · exact ih _ _ (by rw [inner_logs]; exact hl')
    · exact ⟨rfl, hl'⟩

/-- C221: the ranks other than the root touch no logger, and what the loggers are and would do makes no difference to them. -/
theorem C221_other_ranks (a : Args W D V S) (n : NIter) (step : Int) (r : Run W S) :
    (runRank a false n step r).1.logs = r.logs
    ∧ ∀ (L : Logger S V W) (kind : Iterable) (logs : List S),
      runRank { a with logger := L, logKind := kind } false n step { r with logs := logs }
        = ({ (runRank a false n step r).1 with logs := logs }, (runRank a false n step r).2) := by
  refine ⟨by unfold runRank; simp, fun L kind logs => ?_⟩
  have key : runLoggers { a with logger := L, logKind := .container } n step { r with logs := [], used := false }
      = runLoggers { a with logKind := .container } n step { r with logs := [], used := false } := by
    unfold runLoggers
    rcases n with n | _ | _
    · dsimp only
      rcases rangeLen n step with e | k
      · rfl
      · dsimp only
        obtain ⟨h1, h2⟩ := loop_empty { a with logKind := .container } L rfl step.toNat k 0 { r with logs := [], used := false } rfl
        dsimp only at h1
        rw [h1]
        rcases e : loop { a with logKind := .container } step.toNat k 0 { r with logs := [], used := false } with ⟨r', o⟩
        rw [e] at h2
        rcases o with _ | e'
        · dsimp only
          dsimp only at h2
          simp only [flushAll, sees, if_true, h2, each]
        · rfl
    · rfl
    · rfl
  unfold runRank
  simp only [Bool.false_eq_true, if_false]
  rw [key]

/-- the turns of two runs which differ in their loggers only. -/
theorem loop_same (a : Args W D V S) (step : Nat) : ∀ (fuel b : Nat) (r : Run W S) (logs : List S) (r1 r2 : Run W S),
    loop a step fuel b r = (r1, none) → loop a step fuel b { r with logs := logs } = (r2, none) →
    r1.step = r2.step ∧ r1.world = r2.world ∧ r1.used = r2.used := by
  intro fuel
  induction fuel with
  | zero =>
    intro b r logs r1 r2 h1 h2
    simp only [loop, Prod.mk.injEq, and_true] at h1 h2
    subst h1; subst h2
    simp
  | succ fuel ih =>
    intro b r logs r1 r2 h1 h2
    rw [loop] at h1 h2
    by_cases hs : step = 0
    · rw [if_pos hs] at h1 h2
      exact ih _ _ _ _ _ h1 h2
    rw [if_neg hs] at h1 h2
    unfold report at h1 h2
    dsimp only at h1 h2
    cases hd : turnData a b r.used r.step (a.env.fwd r.world).1 with
    | error e => rw [hd] at h1; simp at h1
    | ok p =>
      obtain ⟨stop, d⟩ := p
      rw [hd] at h1 h2
      dsimp only at h1 h2
      rcases hl1 : turnLogs a r.used r.step d (a.env.fwd r.world).1 r.logs with ⟨l1, o1⟩
      rcases hl2 : turnLogs a r.used r.step d (a.env.fwd r.world).1 logs with ⟨l2, o2⟩
      rw [hl1] at h1
      rw [hl2] at h2
      cases o1 with
      | some e => simp at h1
      | none =>
      cases o2 with
      | some e => simp at h2
      | none =>
      dsimp only at h1 h2
      cases hlv : leaves a b stop with
      | error e => rw [hlv] at h1; simp at h1
      | ok x =>
        rw [hlv] at h1 h2
        cases x with
        | true =>
          simp only [Prod.mk.injEq, and_true] at h1 h2
          subst h1; subst h2
          simp
        | false =>
          dsimp only at h1 h2
          rw [inner_eq] at h1 h2
          simp only [finish] at h1 h2
          exact ih _ _ l2 r1 r2 h1 h2

/-- C221: loggers only look: whatever loggers are attached, a run that does not raise leaves the driver in the same state and at
    the same step. -/
theorem C221_loggers_only_look (a : Args W D V S) (n : NIter) (step start : Int) (w : W) (logs1 logs2 : List S)
    (r1 r2 : Run W S) (h1 : runRank a true n step ⟨start, w, logs1, false⟩ = (r1, none))
    (h2 : runRank a true n step ⟨start, w, logs2, false⟩ = (r2, none)) :
    r1.step = r2.step ∧ r1.world = r2.world := by
  unfold runRank runLoggers at h1 h2
  simp only [if_true] at h1 h2
  cases n with
  | other => simp at h1
  | float => simp at h1
  | int n =>
    dsimp only at h1 h2
    cases hr : rangeLen n step with
    | error e => rw [hr] at h1; simp at h1
    | ok k =>
      rw [hr] at h1 h2
      dsimp only at h1 h2
      rcases e1 : loop a step.toNat k 0 ⟨start, w, logs1, false⟩ with ⟨q1, o1⟩
      rcases e2 : loop a step.toNat k 0 ⟨start, w, logs2, false⟩ with ⟨q2, o2⟩
      rw [e1] at h1
      rw [e2] at h2
      cases o1 with
      | some e => simp at h1
      | none =>
      cases o2 with
      | some e => simp at h2
      | none =>
      have hsame := loop_same a step.toNat k 0 ⟨start, w, logs1, false⟩ logs2 q1 q2 e1 e2
      dsimp only at h1 h2
      have hfl : ∀ q q' : Run W S, flushAll a q = (q', none) → q'.step = q.step ∧ q'.world = q.world := by
        intro q q' h
        unfold flushAll at h
        split at h <;> · simp only [Prod.mk.injEq] at h; rw [← h.1]; simp
      obtain ⟨x1, y1⟩ := hfl _ _ h1
      obtain ⟨x2, y2⟩ := hfl _ _ h2
      rw [x1, x2, y1, y2]
      exact ⟨hsame.1, hsame.2.1⟩

/-- some turns in which nothing raises and which do not end the run. -/
theorem loop_prefix (a : Args W D V S) (hc : a.cbKind = .container) (hl : a.logKind = .container)
    (obs : List (Nat × (W → V))) (ho : a.obs = .dict obs) (hn : (obs.map Prod.fst).Nodup) (step : Nat) (hs : 0 < step)
    (answers : Nat → List Bool) (data : Nat → Data V) (fuel : Nat) : ∀ (k b : Nat) (r : Run W S) (mid : List S),
    (∀ j < k, Chain (b + j) (r.step + j * step) (seen a.env step r.world j) a.callbacks
      (.dict (baseItems obs a.lossName (a.loss (seen a.env step r.world j)) (seen a.env step r.world j)))
      (answers (b + j)) (data (b + j))) →
    (∀ j < k, ¬Ends a answers (b + j)) →
    List.Forall₂ (fun s s' => Fed a.logger s
      ((List.range k).map fun j : Nat =>
        (r.step + j * step, data (b + j), seen a.env step r.world j)) s') r.logs mid →
    loop a step (k + fuel) b r = loop a step fuel (b + k)
      ⟨r.step + k * step, stateAt a.env step r.world k, mid, r.used || decide (0 < k)⟩ := by
  intro k
  induction k with
  | zero =>
    intro b r mid _ _ hf
    simp only [List.range_zero, List.map_nil] at hf
    rw [fed_nil hf]
    cases r
    simp [stateAt]
  | succ k ih =>
    intro b r mid hd hno hf
    have hs0 : step ≠ 0 := by omega
    have hw0 : seen a.env step r.world 0 = (a.env.fwd r.world).1 := by simp [seen, stateAt]
    have h0 := hd 0 (by omega)
    simp only [Nat.cast_zero, zero_mul, add_zero, hw0] at h0
    rw [List.range_succ_eq_map, List.map_cons] at hf
    obtain ⟨m1, hm, hrest⟩ := fed_split hf
    simp only [Nat.cast_zero, zero_mul, add_zero, hw0] at hm
    have hr := report_ok a hc hl obs ho hn b r _ _ _ h0 hm
    have hE : ¬Ends a answers b := by
      have := hno 0 (by omega)
      simpa using this
    have hb : (decide (0 < a.callbacks.length) && (decide (false ∈ answers b) || a.others b)) = false := by
      by_contra hcon
      apply hE
      simp only [Bool.not_eq_false, Bool.and_eq_true, decide_eq_true_eq, Bool.or_eq_true] at hcon
      exact ⟨List.length_pos_iff.1 hcon.1, hcon.2⟩
    have hseen : ∀ j, seen a.env step ((oneStep a.env)^[step] r.world) j = seen a.env step r.world (j + 1) := by
      intro j
      unfold seen
      rw [stateAt_succ]
    have hst : ∀ j : Nat, r.step + (step : Int) + j * step = r.step + ((j + 1 : Nat) : Int) * step := by
      intro j; push_cast; ring
    have hbj : ∀ j : Nat, b + 1 + j = b + (j + 1) := by intro j; omega
    rw [show k + 1 + fuel = (k + fuel) + 1 by omega, loop, if_neg hs0, hr, hb]
    dsimp only
    rw [after_turn a step hs r m1, ih (b + 1) ⟨r.step + step, (oneStep a.env)^[step] r.world, m1, true⟩ mid]
    · simp only [stateAt_succ, hst, hbj]
      congr 2
      simp
    · intro j hj
      simp only [hseen, hst, hbj]
      exact hd (j + 1) (by omega)
    · intro j hj
      rw [hbj]
      exact hno (j + 1) (by omega)
    · simp only [hseen, hst, hbj]
      simpa only [List.map_map, Function.comp_def] using hrest

/-- C221: an exception in a logger, in turn `k`, ends the run at once: the loggers before it have the entry of this turn, those
    after it do not, nothing is flushed and the parameters are not updated any more. -/
theorem C221_logger_raises (a : Args W D V S) (hc : a.cbKind = .container) (hl : a.logKind = .container)
    (obs : List (Nat × (W → V))) (ho : a.obs = .dict obs) (hn : (obs.map Prod.fst).Nodup)
    (n : Int) (step m k : Nat) (hs : 0 < step) (hm : IsCeil n step m) (hk : k < m) (start : Int) (w : W) (logs : List S)
    (l1 l1' : List S) (s s' : S) (l2 : List S) (e : Err) (answers : Nat → List Bool) (data : Nat → Data V)
    (hd : ∀ j ≤ k, Reported a obs step start w answers data j) (hno : ∀ j < k, ¬Ends a answers j)
    (hf : List.Forall₂ (fun s s' => Fed a.logger s (entries a.env step start w data k) s') logs (l1 ++ s :: l2))
    (h1 : List.Forall₂ (fun s s' => a.logger.call s (start + k * step) (data k) (seen a.env step w k) = (s', none)) l1 l1')
    (h2 : a.logger.call s (start + k * step) (data k) (seen a.env step w k) = (s', some e)) :
    runRank a true (.int n) step ⟨start, w, logs, false⟩ =
      (⟨start + k * step, seen a.env step w k, l1' ++ s' :: l2, true⟩, some e) := by
  have hdk := hd k le_rfl
  unfold Reported at hdk
  have hwk : seen a.env step w k = (a.env.fwd (stateAt a.env step w k)).1 := rfl
  obtain ⟨fuel, rfl⟩ : ∃ fuel, m = k + (fuel + 1) := ⟨m - k - 1, by omega⟩
  unfold runRank runLoggers
  simp only [if_true]
  rw [rangeLen_eq n step _ hs hm]
  dsimp only
  rw [Int.toNat_natCast, loop_prefix a hc hl obs ho hn step hs answers data (fuel + 1) k 0 ⟨start, w, logs, false⟩
    (l1 ++ s :: l2) (fun j hj => by simpa only [Nat.zero_add, Reported] using hd j (by omega))
    (by simpa only [Nat.zero_add] using hno) (by simpa only [Nat.zero_add, entries] using hf)]
  rw [loop, if_neg (by omega)]
  unfold report turnData
  rw [ho, addLoss_base obs hn]
  simp only [hc, sees, if_true, Nat.zero_add, ← hwk]
  rw [runCallbacks_chain hdk]
  simp only [turnLogs, hl, sees, if_true, each_error h1 s s' e h2 l2]

/-- the callbacks before the one which raises. -/
theorem runCallbacks_raises {b : Nat} {step : Int} {w : W} {cs : List (Callback W V)} {d d' : Data V} {answers : List Bool}
    (h : Chain b step w cs d answers d') (c : Callback W V) (rest : List (Callback W V)) (e : Err)
    (hc : c b step d' w = .error e) : ∀ stop, runCallbacks b step w (cs ++ c :: rest) stop d = .error e := by
  induction h with
  | nil d => intro stop; simp [runCallbacks, hc]
  | cons h1 _ ih =>
    intro stop
    rw [List.cons_append, runCallbacks, h1]
    exact ih hc _

/-- C221: an exception in a callback, in turn `k`, ends the run before any logger sees this turn. -/
theorem C221_callback_raises (a : Args W D V S) (hc : a.cbKind = .container) (hl : a.logKind = .container)
    (obs : List (Nat × (W → V))) (ho : a.obs = .dict obs) (hn : (obs.map Prod.fst).Nodup)
    (n : Int) (step m k : Nat) (hs : 0 < step) (hm : IsCeil n step m) (hk : k < m) (start : Int) (w : W)
    (logs mid : List S) (cs rest : List (Callback W V)) (c : Callback W V) (e : Err) (hcb : a.callbacks = cs ++ c :: rest)
    (answers : Nat → List Bool) (data : Nat → Data V) (ans : List Bool) (d : Data V)
    (hd : ∀ j < k, Reported a obs step start w answers data j) (hno : ∀ j < k, ¬Ends a answers j)
    (hf : List.Forall₂ (fun s s' => Fed a.logger s (entries a.env step start w data k) s') logs mid)
    (h1 : Chain k (start + k * step) (seen a.env step w k) cs
      (.dict (baseItems obs a.lossName (a.loss (seen a.env step w k)) (seen a.env step w k))) ans d)
    (h2 : c k (start + k * step) d (seen a.env step w k) = .error e) :
    runRank a true (.int n) step ⟨start, w, logs, false⟩ =
      (⟨start + k * step, seen a.env step w k, mid, true⟩, some e) := by
  have hwk : seen a.env step w k = (a.env.fwd (stateAt a.env step w k)).1 := rfl
  obtain ⟨fuel, rfl⟩ : ∃ fuel, m = k + (fuel + 1) := ⟨m - k - 1, by omega⟩
  unfold runRank runLoggers
  simp only [if_true]
  rw [rangeLen_eq n step _ hs hm]
  dsimp only
  rw [Int.toNat_natCast, loop_prefix a hc hl obs ho hn step hs answers data (fuel + 1) k 0 ⟨start, w, logs, false⟩
    mid (fun j hj => by simpa only [Nat.zero_add, Reported] using hd j hj)
    (by simpa only [Nat.zero_add] using hno) (by simpa only [Nat.zero_add, entries] using hf)]
  rw [loop, if_neg (by omega)]
  unfold report turnData
  rw [ho, addLoss_base obs hn]
  simp only [hc, sees, if_true, Nat.zero_add, ← hwk, hcb]
  rw [runCallbacks_raises h1 c rest e h2]

/-! ### The JSON logger -/

section
variable {Acc P β : Type} (accum : Acc → Int → Data V → Except Err Acc) (dumps : Acc → Except Err (List β))
  (toBytes : P → List β) (vars : W → P)

/-- the data of the entries, one after the other, lead from `x` to `y`; every stage can be serialised. -/
inductive Accumulated : Acc → List (Int × Data V × W) → Acc → Prop
  | nil (x) : Accumulated x [] x
  | cons {x x1 x2 e es bs} : accum x e.1 e.2.1 = .ok x1 → dumps x1 = .ok bs → Accumulated x1 es x2 →
      Accumulated x (e :: es) x2

/-- a JSON logger with sensible settings and a running clock. -/
structure Ready (s : Timed Acc β) : Prop where
  clock : StrictMono s.clock
  last : s.log.lastFlushTime < s.clock s.read
  write : 0 < s.log.writeEvery
  save : 0 < s.log.saveParamsEvery
  params : s.log.saveParams = true

theorem callParams_ready (l : Verif.Log.JsonLog Acc β) (os st : Int) (v : P) (h : 0 < l.saveParamsEvery) :
    ∃ l', Verif.Log.callParams toBytes l os st v = (l', none) ∧ l'.data = l.data ∧ l'.lastFlushTime = l.lastFlushTime
      ∧ l'.writeEvery = l.writeEvery ∧ l'.saveParamsEvery = l.saveParamsEvery ∧ l'.saveParams = l.saveParams := by
  unfold Verif.Log.callParams Verif.Log.wantsParams
  rw [if_neg (by omega)]
  cases (decide (l.nPars % l.saveParamsEvery = 0) || decide (st = os - 1)) with
  | false => exact ⟨_, rfl, rfl, rfl, rfl, rfl, rfl⟩
  | true =>
    refine ⟨_, rfl, ?_⟩
    unfold Verif.Log.finishCall Verif.Log.flushParams
    split <;> simp

theorem call_ready (s : Timed Acc β) (hr : Ready s) (st : Int) (d : Data V) (w : W) (x : Acc) (bs : List β)
    (ha : accum s.log.data st d = .ok x) (hb : dumps x = .ok bs) :
    ∃ s', (jsonLogger accum dumps toBytes vars).call s st d w = (s', none) ∧ Ready s' ∧ s'.log.data = x := by
  have hm : ∀ i j, i < j → s.clock i < s.clock j := fun i j h => hr.clock h
  have hne : s.clock s.read - s.log.lastFlushTime ≠ 0 := by have := hr.last; intro h; linarith
  have hw : s.log.writeEvery ≠ 0 := by have := hr.write; omega
  suffices h : ∃ l', Verif.Log.call accum dumps toBytes s.log st d (vars w) (s.clock s.read) (s.clock (s.read + 1))
      (s.clock (s.read + 2)) = (l', none) ∧ l'.data = x
      ∧ (l'.lastFlushTime = s.log.lastFlushTime ∨ l'.lastFlushTime = s.clock (s.read + 1))
      ∧ l'.writeEvery = s.log.writeEvery ∧ l'.saveParamsEvery = s.log.saveParamsEvery
      ∧ l'.saveParams = s.log.saveParams by
    obtain ⟨l', h1, h2, h3, h4, h5, h6⟩ := h
    refine ⟨⟨l', s.clock, s.read + 3⟩, ?_, ⟨hr.clock, ?_, ?_, ?_, ?_⟩, h2⟩
    · simp only [jsonLogger, h1]
    · rcases h3 with h3 | h3
      · dsimp only; rw [h3]
        exact lt_trans hr.last (hm _ _ (by omega))
      · dsimp only; rw [h3]
        exact hm _ _ (by omega)
    · dsimp only; rw [h4]; exact hr.write
    · dsimp only; rw [h5]; exact hr.save
    · dsimp only; rw [h6]; exact hr.params
  unfold Verif.Log.call
  rw [ha]
  dsimp only
  unfold Verif.Log.wantsFlush
  dsimp only
  rw [if_neg hne, if_neg hw]
  split
  · rename_i h; simp at h
  · unfold Verif.Log.flushLog
    dsimp only
    rw [hb]
    dsimp only
    obtain ⟨l', h1, h2, h3, h4, h5, h6⟩ := callParams_ready toBytes
      ({ s.log with
          data := x, oldStep := st, lastFlushTime := s.clock (s.read + 1), logFile := some bs, nWrite := 0
          lastRuntime := s.clock (s.read + 2) - s.clock (s.read + 1) } : Verif.Log.JsonLog Acc β) s.log.oldStep st (vars w) hr.save
    exact ⟨l', h1, h2, Or.inr h3, h4, h5, h6⟩
  · obtain ⟨l', h1, h2, h3, h4, h5, h6⟩ := callParams_ready toBytes
      ({ s.log with data := x, oldStep := st } : Verif.Log.JsonLog Acc β) s.log.oldStep st (vars w) hr.save
    exact ⟨l', h1, h2, Or.inl h3, h4, h5, h6⟩

theorem fed_ready {x y : Acc} {es : List (Int × Data V × W)} (h : Accumulated accum dumps x es y) :
    ∀ s : Timed Acc β, Ready s → s.log.data = x →
    ∃ s', Fed (jsonLogger accum dumps toBytes vars) s es s' ∧ Ready s' ∧ s'.log.data = y := by
  induction h with
  | nil x => intro s hs hx; exact ⟨s, .nil s, hs, hx⟩
  | cons h1 h2 _ ih =>
    intro s hs hx
    subst hx
    rename_i e _ _ _
    obtain ⟨s1, hc, hr1, hd1⟩ := call_ready accum dumps toBytes vars s hs e.1 e.2.1 e.2.2 _ _ h1 h2
    obtain ⟨s2, hf, hr2, hd2⟩ := ih s1 hr1 hd1
    exact ⟨s2, .cons hc hf, hr2, hd2⟩

theorem flush_ready (s : Timed Acc β) (hs : Ready s) (w : W) (bs : List β) (hb : dumps s.log.data = .ok bs) :
    ∃ s', (jsonLogger (V := V) accum dumps toBytes vars).flush s w = (s', none) ∧ Ready s' ∧ s'.log.data = s.log.data
      ∧ s'.log.logFile = some bs ∧ s'.log.parFile = some (toBytes (vars w)) := by
  refine ⟨⟨{ s.log with
      lastFlushTime := s.clock s.read, logFile := some bs, nWrite := 0
      lastRuntime := s.clock (s.read + 1) - s.clock s.read, parFile := some (toBytes (vars w)), nPars := 0 },
    s.clock, s.read + 2⟩, ?_, ⟨hs.clock, ?_, hs.write, hs.save, hs.params⟩, rfl, rfl, rfl⟩
  · simp [jsonLogger, Verif.Log.flush, Verif.Log.flushLog, hb, Verif.Log.flushParams, hs.params]
  · exact hs.clock (by simp)

/-- C221: a run with a JSON logger: it succeeds, the log file contains the data accumulated over all turns on top of those the
    logger had before, the parameter file the final parameters; the logger is ready for the next run. -/
theorem C221_json (a : Args W D V (Timed Acc β)) (hlog : a.logger = jsonLogger accum dumps toBytes vars)
    (hc : a.cbKind = .container) (hl : a.logKind = .container)
    (obs : List (Nat × (W → V))) (ho : a.obs = .dict obs) (hn : (obs.map Prod.fst).Nodup)
    (n : Int) (step m k : Nat) (hs : 0 < step) (hm : IsCeil n step m) (hk : k ≤ m)
    (start : Int) (w : W) (answers : Nat → List Bool) (data : Nat → Data V)
    (hd : ∀ j, j ≤ k → j < m → Reported a obs step start w answers data j)
    (hno : ∀ j < k, ¬Ends a answers j) (hend : k = m ∨ Ends a answers k)
    (s : Timed Acc β) (hr : Ready s) (y : Acc) (bs : List β)
    (hy : Accumulated accum dumps s.log.data (entries a.env step start w data (if k < m then k + 1 else k)) y)
    (hb : dumps y = .ok bs) :
    ∃ s', runRank a true (.int n) step ⟨start, w, [s], false⟩ =
        (⟨start + k * step, if k < m then seen a.env step w k else stateAt a.env step w k, [s'], decide (0 < m)⟩, none)
      ∧ Ready s' ∧ s'.log.data = y ∧ s'.log.logFile = some bs
      ∧ s'.log.parFile
        = some (toBytes (vars (if k < m then seen a.env step w k else stateAt a.env step w k))) := by
  obtain ⟨s1, hf, hr1, hd1⟩ := fed_ready accum dumps toBytes vars hy s hr rfl
  obtain ⟨s2, hfl, hr2, hd2, h3, h4⟩ := flush_ready (V := V) accum dumps toBytes vars s1 hr1
    (if k < m then seen a.env step w k else stateAt a.env step w k) bs (by rw [hd1]; exact hb)
  refine ⟨s2, ?_, hr2, hd2.trans hd1, h3, h4⟩
  refine C221_run a hc hl obs ho hn n step m k hs hm hk start w [s] [s1] [s2] answers data hd hno hend ?_ ?_
  · rw [hlog]; exact .cons hf .nil
  · rw [hlog]; exact .cons hfl .nil

/-- C221: `run(n, out=<str>)` overwrites: whatever files exist under this name, afterwards they hold the data of this run only
    and the final parameters. -/
theorem C221_path (a : Args W D V (Timed Acc β)) (hlog : a.logger = jsonLogger accum dumps toBytes vars)
    (hc : a.cbKind = .container)
    (obs : List (Nat × (W → V))) (ho : a.obs = .dict obs) (hn : (obs.map Prod.fst).Nodup)
    (n : Int) (step m k : Nat) (hs : 0 < step) (hm : IsCeil n step m) (hk : k ≤ m)
    (start : Int) (w : W) (answers : Nat → List Bool) (data : Nat → Data V)
    (hd : ∀ j, j ≤ k → j < m → Reported a obs step start w answers data j)
    (hno : ∀ j < k, ¬Ends a answers j) (hend : k = m ∨ Ends a answers k)
    (empty : Acc) (saveEvery writeEvery : Nat) (hse : 0 < saveEvery) (hwe : 0 < writeEvery) (cost now : Rat)
    (clock : Nat → Rat) (hcl : StrictMono clock) (hnow : now < clock 0) (logFile parFile : Option (List β))
    (y : Acc) (bs : List β)
    (hy : Accumulated accum dumps empty (entries a.env step start w data (if k < m then k + 1 else k)) y)
    (hb : dumps y = .ok bs) :
    ∃ r s, runPath a empty saveEvery writeEvery cost now clock logFile parFile (.int n) step start w = .ok (r, none)
      ∧ r.step = start + k * step ∧ r.logs = [s] ∧ s.log.logFile = some bs ∧ s.log.parFile = some (toBytes (vars r.world)) := by
  have hp : Verif.Log.parseMode "w" = .ok .write := by decide
  have hmk : Verif.Log.mkJsonLog empty "w" saveEvery writeEvery true cost now logFile parFile = .ok
      { data := empty, oldStep := 0, writeEvery := writeEvery, saveParamsEvery := saveEvery
        nWrite := 0, nPars := 0, saveParams := true, cost := cost, lastFlushTime := now
        lastRuntime := 0, logFile := logFile, parFile := parFile } := by
    unfold Verif.Log.mkJsonLog
    rw [hp]
    dsimp only
    rw [if_neg (by simp)]
  obtain ⟨s', h1, _, _, h4, h5⟩ := C221_json accum dumps toBytes vars { a with logKind := .container } hlog hc rfl obs ho hn
    n step m k hs hm hk start w answers data hd hno hend
    ⟨{ data := empty, oldStep := 0, writeEvery := writeEvery, saveParamsEvery := saveEvery
       nWrite := 0, nPars := 0, saveParams := true, cost := cost, lastFlushTime := now
       lastRuntime := 0, logFile := logFile, parFile := parFile }, clock, 0⟩ ⟨hcl, hnow, hwe, hse, rfl⟩ y bs hy hb
  refine ⟨⟨start + k * step, if k < m then seen a.env step w k else stateAt a.env step w k, [s'], decide (0 < m)⟩, s',
    ?_, rfl, rfl, h4, h5⟩
  unfold runPath defaultLogger
  rw [hmk]
  dsimp only
  rw [← h1]
  simp only [runRank, if_true]

end

/-! ## C222 -/

/-- a run with at least one iteration has at least one turn. -/
theorem rangeLen_pos (n : Int) (step : Nat) (hs : 0 < step) (hn : 0 < n) : ∃ m, rangeLen n step = .ok (m + 1) := by
  unfold rangeLen
  rw [if_neg (by omega), if_pos (by omega)]
  have h1 : 1 ≤ (n + step - 1) / (step : Int) := by
    rw [Int.le_ediv_iff_mul_le (by omega)]
    omega
  exact ⟨((n + step - 1) / (step : Int)).toNat - 1, by congr 1; omega⟩

/-- C222 is false: observables in a list (an "iterable containing all observables") always make the first turn of a driver with
    a loss raise TypeError, before anything is logged or updated. -/
theorem C222_list_refuted (a : Args W D V S) (l : List (W → V)) (ho : a.obs = .list l) (n : Int) (hn0 : 0 < n)
    (step : Nat) (hs : 0 < step) (start : Int) (w : W) (logs : List S) (v : V)
    (hv : a.loss (seen a.env step w 0) = some v) :
    runRank a true (.int n) step ⟨start, w, logs, false⟩ = (⟨start, seen a.env step w 0, logs, true⟩, some .typeError) := by
  have hw0 : seen a.env step w 0 = (a.env.fwd w).1 := by simp [seen, stateAt]
  rw [hw0] at hv ⊢
  obtain ⟨m, hm⟩ := rangeLen_pos n step hs hn0
  unfold runRank runLoggers
  simp only [if_true]
  rw [hm]
  dsimp only
  rw [Int.toNat_natCast, loop, if_neg (by omega)]
  simp only [report, turnData, ho, hv, estimate, addLoss]

/-- C222, the part that holds: the same observables under names are reported with the loss. -/
theorem C222_dict_partial (a : Args W D V S) (hc : a.cbKind = .container) (hl : a.logKind = .container)
    (hcb : a.callbacks = []) (l : List (W → V)) (names : List Nat) (hlen : names.length = l.length) (hnd : names.Nodup)
    (hnew : a.lossName ∉ names) (ho : a.obs = .dict (names.zip l)) (start : Int) (w : W) (s s' : S) (v : V)
    (hv : a.loss (a.env.fwd w).1 = some v)
    (hcall : a.logger.call s start
      (.dict (names.zip (l.map fun f => f (a.env.fwd w).1) ++ [(a.lossName, v)])) (a.env.fwd w).1 = (s', none)) :
    report a 0 ⟨start, w, [s], false⟩ = (⟨start, (a.env.fwd w).1, [s'], true⟩, .ok false) := by
  have hfst : (names.zip l).map Prod.fst = names := by
    rw [List.map_fst_zip (by omega)]
  have hzip : (names.zip l).map (fun p => (p.1, if p.1 = a.lossName then v else p.2 (a.env.fwd w).1))
      = names.zip (l.map fun f => f (a.env.fwd w).1) := by
    rw [List.zip_map_right]
    refine List.map_congr_left fun p hp => ?_
    have hp1 : p.1 ∈ names := by rw [← hfst]; exact List.mem_map_of_mem hp
    have : p.1 ≠ a.lossName := fun h => hnew (h ▸ hp1)
    simp [this, Prod.map]
  have := report_ok a hc hl (names.zip l) ho (by rw [hfst]; exact hnd) 0 ⟨start, w, [s], false⟩ []
    (.dict (names.zip (l.map fun f => f (a.env.fwd w).1) ++ [(a.lossName, v)])) [s']
    (by
      rw [hcb]
      simp only [baseItems, hv, hzip, hfst, hnew, if_false]
      exact .nil _) (.cons hcall .nil)
  rw [this, hcb]
  simp

/-- once an iterator is used up, the loggers are left alone. -/
theorem loop_used (a : Args W D V S) (hl : a.logKind = .iterator) (step : Nat) : ∀ (fuel b : Nat) (r : Run W S),
    r.used = true → (loop a step fuel b r).1.logs = r.logs ∧ (loop a step fuel b r).1.used = true := by
  intro fuel
  induction fuel with
  | zero => intro b r h; exact ⟨rfl, h⟩
  | succ fuel ih =>
    intro b r h
    rw [loop]
    by_cases hs : step = 0
    · rw [if_pos hs]; exact ih _ _ h
    rw [if_neg hs]
    have hrep : (report a b r).1.logs = r.logs ∧ (report a b r).1.used = true := by
      unfold report
      cases turnData a b r.used r.step (a.env.fwd r.world).1 with
      | error e => exact ⟨rfl, rfl⟩
      | ok p => simp [turnLogs, hl, sees, h]
    rcases hr : report a b r with ⟨r', o⟩
    rw [hr] at hrep
    cases o with
    | error e => exact hrep
    | ok x =>
      cases x with
      | true => exact hrep
      | false =>
        dsimp only
        have hu : (inner a.env (step - 1) (finish a.env r.world r')).used = true := by
          rw [inner_eq]; exact hrep.2
        have hg : (inner a.env (step - 1) (finish a.env r.world r')).logs = r.logs := by
          rw [inner_eq]; exact hrep.1
        have := ih (b + 1) _ hu
        rw [hg] at this
        exact this

/-- C222 is false: loggers given as an iterator (a generator, `map(...)`, ...) receive the first turn only and are never flushed,
    however many turns the run has. -/
theorem C222_iterator_refuted (a : Args W D V S) (hc : a.cbKind = .container) (hl : a.logKind = .iterator)
    (obs : List (Nat × (W → V))) (ho : a.obs = .dict obs) (hn : (obs.map Prod.fst).Nodup) (n : Int) (hn0 : 0 < n)
    (step : Nat) (hs : 0 < step) (start : Int) (w : W) (logs logs' : List S)
    (answers : Nat → List Bool) (data : Nat → Data V) (hd : Reported a obs step start w answers data 0)
    (hf : List.Forall₂ (fun s s' => a.logger.call s start (data 0) (seen a.env step w 0) = (s', none)) logs logs') :
    (runRank a true (.int n) step ⟨start, w, logs, false⟩).1.logs = logs' := by
  have hw0 : seen a.env step w 0 = (a.env.fwd w).1 := by simp [seen, stateAt]
  unfold Reported at hd
  simp only [Nat.cast_zero, zero_mul, add_zero, hw0] at hd
  rw [hw0] at hf
  obtain ⟨m, hm⟩ := rangeLen_pos n step hs hn0
  have hrep : (report a 0 ⟨start, w, logs, false⟩).1 = ⟨start, (a.env.fwd w).1, logs', true⟩ := by
    unfold report turnData
    rw [ho, addLoss_base obs hn]
    simp only [hc, sees, if_true]
    rw [runCallbacks_chain hd]
    simp only [turnLogs, hl, sees, Bool.not_false, if_true, each_ok hf]
  have hloop : (loop a step (m + 1) 0 ⟨start, w, logs, false⟩).1.logs = logs'
      ∧ (loop a step (m + 1) 0 ⟨start, w, logs, false⟩).1.used = true := by
    rw [loop, if_neg (by omega)]
    rcases hr : report a 0 ⟨start, w, logs, false⟩ with ⟨r', o⟩
    rw [hr] at hrep
    dsimp only at hrep
    subst hrep
    cases o with
    | error e => exact ⟨rfl, rfl⟩
    | ok x =>
      cases x with
      | true => exact ⟨rfl, rfl⟩
      | false =>
        dsimp only
        have := loop_used a hl step m 1 (inner a.env (step - 1) (finish a.env w ⟨start, (a.env.fwd w).1, logs', true⟩))
          (by rw [inner_eq]; rfl)
        rw [inner_eq] at this ⊢
        exact this
  unfold runRank runLoggers
  simp only [if_true]
  rw [hm]
  dsimp only
  rw [Int.toNat_natCast]
  rcases he : loop a step (m + 1) 0 ⟨start, w, logs, false⟩ with ⟨r', o⟩
  rw [he] at hloop
  cases o with
  | some e => exact hloop.1
  | none =>
    have hu : r'.used = true := hloop.2
    simp only [flushAll, hl, sees, hu]
    exact hloop.1

/-- C222 is false: callbacks given as an iterator make the first turn raise TypeError after the loggers were called, before any
    update. -/
theorem C222_callbacks_refuted (a : Args W D V S) (hc : a.cbKind = .iterator)
    (obs : List (Nat × (W → V))) (ho : a.obs = .dict obs) (hn : (obs.map Prod.fst).Nodup) (n : Int) (hn0 : 0 < n)
    (step : Nat) (hs : 0 < step) (start : Int) (w : W) (logs logs' : List S)
    (answers : Nat → List Bool) (data : Nat → Data V) (hd : Reported a obs step start w answers data 0)
    (hf : List.Forall₂ (fun s s' => a.logger.call s start (data 0) (seen a.env step w 0) = (s', none)) logs logs') :
    runRank a true (.int n) step ⟨start, w, logs, false⟩ = (⟨start, seen a.env step w 0, logs', true⟩, some .typeError) := by
  have hw0 : seen a.env step w 0 = (a.env.fwd w).1 := by simp [seen, stateAt]
  unfold Reported at hd
  simp only [Nat.cast_zero, zero_mul, add_zero, hw0] at hd
  rw [hw0] at hf ⊢
  obtain ⟨m, hm⟩ := rangeLen_pos n step hs hn0
  have hsee : sees a.logKind false = true := by cases a.logKind <;> rfl
  unfold runRank runLoggers
  simp only [if_true]
  rw [hm]
  dsimp only
  rw [Int.toNat_natCast, loop, if_neg (by omega)]
  unfold report turnData
  rw [ho, addLoss_base obs hn]
  simp only [hc, sees, Bool.not_false, if_true]
  rw [runCallbacks_chain hd]
  simp only [turnLogs, hsee, if_true, each_ok hf, leaves, hc]

/-- C222 is false: an observable with the name of the loss is not reported. -/
theorem C222_name_refuted (obs : List (Nat × (W → V))) (hn : (obs.map Prod.fst).Nodup) (name : Nat) (f : W → V)
    (hmem : (name, f) ∈ obs) (v : V) (w : W) :
    ∃ items, addLoss name (some v) (estimate (.dict obs) w) = .ok (.dict items) ∧ items.length = obs.length
      ∧ ∀ x, (name, x) ∈ items ↔ x = v := by
  refine ⟨baseItems obs name (some v) w, addLoss_base obs hn name (some v) w, ?_, ?_⟩
  · have : name ∈ obs.map Prod.fst := List.mem_map_of_mem (f := Prod.fst) hmem
    simp [baseItems, this]
  · intro x
    have : name ∈ obs.map Prod.fst := List.mem_map_of_mem (f := Prod.fst) hmem
    simp only [baseItems, this, if_true, List.append_nil, List.mem_map, Prod.mk.injEq]
    constructor
    · rintro ⟨p, _, h1, h2⟩
      rw [if_pos h1] at h2
      exact h2.symm
    · rintro rfl
      exact ⟨(name, f), hmem, rfl, by simp⟩

/-! ## Examples -/

/-- a driver that counts up; observable 5 is twice the state, the loss (name 0) is the state itself; the callback stops in turn 2;
    the logger is a list of its entries and the state it was flushed with. -/
def exArgs (lk : Iterable) (ck : Iterable) (obs : Obs Int Int) :
    Args Int Int Int (List (Int × Data Int × Int) × Option Int) where
  env := ⟨fun w => (w, 1), fun w d => w + d⟩
  lossName := 0
  loss := fun w => some w
  obs := obs
  callbacks := [fun b _ d _ => .ok (decide (b < 2), d)]
  cbKind := ck
  logger := ⟨fun s step d w => ((s.1 ++ [(step, d, w)], s.2), none), fun s w => ((s.1, some w), none)⟩
  logKind := lk
  others := fun _ => false

example : runRank (exArgs .container .container (.dict [(5, fun w => 2 * w)])) true (.int 10) 2
    ⟨100, 7, [([], none)], false⟩
    = (⟨104, 11, [([(100, .dict [(5, 14), (0, 7)], 7), (102, .dict [(5, 18), (0, 9)], 9),
        (104, .dict [(5, 22), (0, 11)], 11)], some 11)], true⟩, none) := by rfl

example : runRank (exArgs .iterator .container (.dict [(5, fun w => 2 * w)])) true (.int 10) 2
    ⟨100, 7, [([], none)], false⟩
    = (⟨104, 11, [([(100, .dict [(5, 14), (0, 7)], 7)], none)], true⟩, none) := by rfl

example : runRank (exArgs .container .iterator (.dict [(5, fun w => 2 * w)])) true (.int 10) 2
    ⟨100, 7, [([], none)], false⟩
    = (⟨100, 7, [([(100, .dict [(5, 14), (0, 7)], 7)], none)], true⟩, some .typeError) := by rfl

example : runRank (exArgs .container .container (.list [fun w => 2 * w])) true (.int 10) 2
    ⟨100, 7, [([], none)], false⟩ = (⟨100, 7, [([], none)], true⟩, some .typeError) := by rfl

/-- the hypotheses of `C221_run` are met by the example above. -/
example : runRank (exArgs .container .container (.dict [(5, fun w => 2 * w)])) true (.int 10) (2 : Nat)
    ⟨100, 7, [([], none)], false⟩
    = (⟨100 + (2 : Nat) * (2 : Nat), 11, [([(100, .dict [(5, 14), (0, 7)], 7), (102, .dict [(5, 18), (0, 9)], 9),
        (104, .dict [(5, 22), (0, 11)], 11)], some 11)], true⟩, none) := by
  refine C221_run (exArgs .container .container (.dict [(5, fun w => 2 * w)])) rfl rfl [(5, fun w => 2 * w)] rfl (by simp)
    10 2 5 2 (by omega) ⟨by norm_num, by intro m' h; omega⟩ (by omega) 100 7 _
    [([(100, .dict [(5, 14), (0, 7)], 7), (102, .dict [(5, 18), (0, 9)], 9), (104, .dict [(5, 22), (0, 11)], 11)], none)] _
    (fun b => [decide (b < 2)]) (fun j => .dict [(5, 14 + 4 * j), (0, 7 + 2 * j)]) ?_ ?_ ?_ ?_ ?_
  · intro j hj _
    have : j = 0 ∨ j = 1 ∨ j = 2 := by omega
    rcases this with rfl | rfl | rfl <;> exact .cons rfl (.nil _)
  · intro j hj h
    have : j = 0 ∨ j = 1 := by omega
    rcases this with rfl | rfl <;> simp [Ends, exArgs] at h
  · right; exact ⟨by simp [exArgs], Or.inl (by simp)⟩
  · refine .cons ?_ .nil
    exact .cons rfl (.cons rfl (.cons rfl (.nil _)))
  · exact .cons rfl .nil

/-- a logger which raises at step 102, behind one which does not: the first has two entries, the second one; nothing is flushed. -/
example : runRank { exArgs .container .container (.dict [(5, fun w => 2 * w)]) with
      logger := ⟨fun s step d w => if s.2 = some 0 ∧ step = 102 then (s, some .runtimeError) else ((s.1 ++ [(step, d, w)], s.2), none),
        fun s w => ((s.1, some w), none)⟩ } true (.int 10) 2
    ⟨100, 7, [([], none), ([], some 0)], false⟩
    = (⟨102, 9, [([(100, .dict [(5, 14), (0, 7)], 7), (102, .dict [(5, 18), (0, 9)], 9)], none),
        ([(100, .dict [(5, 14), (0, 7)], 7)], some 0)], true⟩, some .runtimeError) := by rfl

/-- a callback which raises in turn 1. -/
example : runRank { exArgs .container .container (.dict [(5, fun w => 2 * w)]) with
      callbacks := [fun b _ d _ => if b = 1 then .error .keyError else .ok (true, d)] } true (.int 10) 2
    ⟨100, 7, [([], none)], false⟩
    = (⟨102, 9, [([(100, .dict [(5, 14), (0, 7)], 7)], none)], true⟩, some .keyError) := by rfl

/-- the hypotheses of `C221_json` about the logger and the data are met. -/
example : ∃ s : Timed (List (Int × Data Int)) Nat, Ready s
    ∧ Accumulated (W := Int) (fun x st d => .ok (x ++ [(st, d)])) (fun x => .ok [x.length]) s.log.data
      [(100, .dict [(0, 7)], 7), (102, .dict [(0, 9)], 9)] [(100, .dict [(0, 7)]), (102, .dict [(0, 9)])] :=
  ⟨⟨⟨[], 0, 50, 50, 0, 0, true, 0, -1, 0, some [1], none⟩, fun i => i, 0⟩,
    ⟨fun i j h => by simpa using h, by norm_num, by norm_num, by norm_num, rfl⟩, .cons rfl rfl (.cons rfl rfl (.nil _))⟩

end Verif.DriverLog

import Verif.Model.Config

/-! C146, C147: configuration flags. -/

namespace Verif.Config

open Verif.Hilbert (Err)

/-- the words documented for true and false. -/
def specYes : List Str := ["y", "yes", "t", "true", "on", "1"].map String.toList
/-- the words documented for false. -/
def specNo : List Str := ["n", "no", "f", "false", "off", "0"].map String.toList

/-- Upper and lower case do not matter, and an unset variable means the default. -/
theorem C146_bool_env :
    (∀ (v w : Str) (d : Bool), v.map Char.toLower = w.map Char.toLower → boolEnv (some v) d = boolEnv (some w) d) ∧
    (∀ d, boolEnv none d = .ok d) ∧
    (∀ (v : Str) (d : Bool), boolEnv (some v) d = .ok true ↔ v.map Char.toLower ∈ specYes) ∧
    (∀ (v : Str) (d : Bool), boolEnv (some v) d = .ok false ↔ v.map Char.toLower ∈ specNo) ∧
    (∀ (v : Str) (d : Bool), boolEnv (some v) d = .error .valueError ↔
      v.map Char.toLower ∉ specYes ∧ v.map Char.toLower ∉ specNo) := by
  rw [show specYes = yesWords from by decide +kernel, show specNo = noWords from by decide +kernel]
  have disj : ∀ s : Str, s ∈ noWords → s ∉ yesWords := by
    decide
  refine ⟨fun v w d h => by simp only [boolEnv, Option.getD_some, h], fun d => by cases d <;> rfl, ?_, ?_, ?_⟩ <;>
    intro v d <;> simp only [boolEnv, Option.getD_some]
  · by_cases h1 : v.map Char.toLower ∈ yesWords
    · simp [h1]
    · by_cases h2 : v.map Char.toLower ∈ noWords <;> simp [h1, h2]
  · by_cases h1 : v.map Char.toLower ∈ noWords
    · rw [if_neg (disj _ h1), if_pos h1]; simp [h1]
    · by_cases h2 : v.map Char.toLower ∈ yesWords <;> simp [h1, h2]
  · by_cases h1 : v.map Char.toLower ∈ yesWords
    · simp [h1]
    · by_cases h2 : v.map Char.toLower ∈ noWords <;> simp [h1, h2]

example : boolEnv (some ['Y', 'E', 's']) false = .ok true ∧ boolEnv (some ['2']) true = .error .valueError := by
  decide +kernel

/-- An integer variable is read as an integer; what is not an integer is a ValueError, and an unset variable means the default. -/
theorem C146_int_env (parse : Str → Option Int) (d : Int) :
    intEnv parse none d = .ok d ∧
    (∀ s i, parse s = some i → intEnv parse (some s) d = .ok i) ∧
    (∀ s, parse s = none → intEnv parse (some s) d = .error .valueError) :=
  ⟨rfl, fun s i h => by simp only [intEnv, h], fun s h => by simp only [intEnv, h]⟩

example : intEnv (fun s => if s = ['7'] then some 7 else none) (some ['7']) 1 = .ok 7 ∧
    intEnv (fun s => if s = ['7'] then some 7 else none) (some ['x']) 1 = .error .valueError := by decide +kernel

/-- A flag defined for the first time has the value of the environment variable, or the default;
    other flags keep their values. -/
theorem C146_define (parse : Str → Option Int) (env : Str → Option Str) (c : Cfg) (name : Str) (ty : Ty)
    (db : Bool) (di : Int) (rt : Bool) (hnew : flag c name = .error .keyError) :
    let r := define parse env c name ty db di rt
    (∀ v, getEnv parse (env name) ty db di = .ok v → r.2 = none ∧ flag r.1 name = .ok v) ∧
    (∀ e, getEnv parse (env name) ty db di = .error e → r.2 = some e ∧ flag r.1 name = .error .keyError) ∧
    (∀ k ≠ name, flag r.1 k = flag c k) ∧
    (env name = none → ty = .bool → flag r.1 name = .ok (.bool db)) ∧
    (env name = none → ty = .int → flag r.1 name = .ok (.int di)) := by
  have hn : c.values name = none := by
    unfold flag at hnew
    split at hnew
    · cases hnew
    · assumption
  intro r
  have hdef : r = match getEnv parse (env name) ty db di with
      | .error e => ({ c with types := c.types.set name ty, runtime := c.runtime.set name rt }, some e)
      | .ok v => ({ types := c.types.set name ty, runtime := c.runtime.set name rt,
                    values := c.values.set name v }, none) := by
    simp only [r, define, hn, Option.isSome_none, Bool.false_eq_true, if_false]
    rfl
  have hval : ∀ v, getEnv parse (env name) ty db di = .ok v → r.2 = none ∧ flag r.1 name = .ok v := by
    intro v hv
    rw [hdef, hv]
    exact ⟨rfl, by simp [flag, Dict.set]⟩
  refine ⟨hval, ?_, ?_, ?_, ?_⟩
  · intro e he
    rw [hdef, he]
    exact ⟨rfl, by simp [flag, hn]⟩
  · intro k hk
    rw [hdef]
    split
    · rfl
    · simp [flag, Dict.set, hk]
  · intro he ht
    refine (hval (.bool db) ?_).2
    subst ht
    rw [he]
    cases db <;> rfl
  · intro he ht
    refine (hval (.int di) ?_).2
    subst ht
    rw [he]
    rfl

example := C146_define (fun _ => none) (fun _ => some ['y']) empty ['A'] .bool false 0 true rfl

/-- Defining a flag twice is a KeyError and changes nothing. -/
theorem C146_define_twice (parse : Str → Option Int) (env : Str → Option Str) (c : Cfg) (name : Str) (ty : Ty)
    (db : Bool) (di : Int) (rt : Bool) (v : Val) (h : flag c name = .ok v) :
    define parse env c name ty db di rt = (c, some .keyError) := by
  have : (c.values name).isSome := by
    unfold flag at h
    split at h
    · simp_all
    · cases h
  rw [define, if_pos this]

example := C146_define_twice (fun _ => none) (fun _ => none) (define (fun _ => none) (fun _ => some ['y']) empty ['A'] .bool false 0 true).1 ['A'] .int false 3 false
  (.bool true) rfl

/-- flags whose values have the type they were defined with. -/
def Typed (c : Cfg) : Prop := ∀ name v, c.values name = some v →
  (∃ b, v = .bool b ∧ c.types name = some .bool) ∨ (∃ i, v = .int i ∧ c.types name = some .int)

theorem typed_empty : Typed empty := fun _ _ h => by cases h

/-- Whatever is defined or updated, the flags keep the types they were defined with. -/
theorem C146_typed (parse : Str → Option Int) (env : Str → Option Str) (c : Cfg) (h : Typed c) :
    (∀ name ty db di rt, Typed (define parse env c name ty db di rt).1) ∧
    (∀ name v, Typed (update parse c name v).1) := by
  constructor
  · intro name ty db di rt k v hv
    unfold define at hv ⊢
    by_cases hn : (c.values name).isSome
    · rw [if_pos hn] at hv ⊢; exact h k v hv
    · rw [if_neg hn] at hv ⊢
      have hnone : c.values name = none := by simpa using hn
      dsimp only at hv ⊢
      by_cases hk : k = name
      · subst hk
        cases hg : getEnv parse (env k) ty db di with
        | error e => rw [hg] at hv; dsimp only at hv; rw [hnone] at hv; cases hv
        | ok w =>
          rw [hg] at hv
          simp only [Dict.set, if_true, Option.some.injEq] at hv ⊢
          subst hv
          cases ty with
          | int =>
            simp only [getEnv] at hg
            split at hg
            · exact Or.inr ⟨_, (Except.ok.inj hg).symm, rfl⟩
            · cases hg
          | bool =>
            simp only [getEnv] at hg
            split at hg
            · exact Or.inl ⟨_, (Except.ok.inj hg).symm, rfl⟩
            · cases hg
          | other => cases hg
      · have hold : c.values k = some v := by
          cases hg : getEnv parse (env name) ty db di with
          | error e => rw [hg] at hv; exact hv
          | ok w => rw [hg] at hv; simpa [Dict.set, hk] using hv
        have := h k v hold
        cases hg : getEnv parse (env name) ty db di <;> simpa [Dict.set, hk] using this
  · intro name v k w hw
    unfold update at hw ⊢
    cases ht : c.types name with
    | none => rw [ht] at hw; exact h k w hw
    | some ty =>
      rw [ht] at hw
      dsimp only at hw ⊢
      cases hc : convert parse ty v with
      | error e => rw [hc] at hw; exact h k w hw
      | ok u =>
        rw [hc] at hw
        dsimp only at hw ⊢
        by_cases hk : k = name
        · subst hk
          simp only [Dict.set, if_true, Option.some.injEq] at hw
          subst hw
          rw [ht]
          cases ty <;> cases v <;> simp only [convert] at hc
          all_goals first
            | exact Or.inl ⟨_, (Except.ok.inj hc).symm, rfl⟩
            | exact Or.inr ⟨_, (Except.ok.inj hc).symm, rfl⟩
            | cases hc
            | (split at hc
               · exact Or.inr ⟨_, (Except.ok.inj hc).symm, rfl⟩
               · cases hc)
        · rw [show (Dict.set c.values name u) k = c.values k from if_neg hk] at hw
          exact h k w hw

example := C146_typed (fun _ => none) (fun _ => some ['y']) _ ((C146_typed (fun _ => none) (fun _ => some ['y']) empty typed_empty).1 ['A'] .bool false 0 true)

/-- `update` changes the flag named, to the value converted to its type, and no other; the read-only view
    shows the new value. A name without definition is a KeyError and nothing changes. -/
theorem C146_update (parse : Str → Option Int) (c : Cfg) (name : Str) (v : Val) :
    (c.types name = none → update parse c name v = (c, some .keyError)) ∧
    (∀ ty u, c.types name = some ty → convert parse ty v = .ok u →
      (update parse c name v).2 = none ∧ flag (update parse c name v).1 name = .ok u) ∧
    (∀ ty e, c.types name = some ty → convert parse ty v = .error e → update parse c name v = (c, some e)) ∧
    (∀ k ≠ name, flag (update parse c name v).1 k = flag c k) ∧
    (∀ b, v = .bool b → c.types name = some .bool → flag (update parse c name v).1 name = .ok (.bool b)) := by
  refine ⟨fun h => by simp only [update, h], fun ty u h1 h2 => ?_, fun ty e h1 h2 => by simp only [update, h1, h2],
    fun k hk => ?_, fun b hb ht => ?_⟩
  · simp only [update, h1, h2]
    exact ⟨trivial, by simp [flag, Dict.set]⟩
  · unfold update
    split
    · rfl
    · split
      · rfl
      · simp [flag, Dict.set, hk]
  · subst hb
    simp [update, ht, convert, flag, Dict.set]

/-! ### deviations -/

/-- the flag NETKET_EXPERIMENTAL after import (config_flags.py:109-115), here with the name "E". -/
def imported : Cfg := (define (fun _ => none) (fun _ => none) empty ['E'] .bool false 0 false).1

/-- `update` does not read strings like the environment: "0" turns a flag on. -/
theorem C147_update_string_refuted : ¬ ∀ (parse : Str → Option Int) (c : Cfg) (name s : Str) (d b : Bool),
    c.types name = some .bool → boolEnv (some s) d = .ok b →
    flag (update parse c name (.str s)).1 name = .ok (.bool b) := by
  intro h
  have := h (fun _ => none) imported ['E'] ['0'] true false rfl (by decide +kernel)
  cases this

/-- What holds: words for true are read alike; any other non-empty string means true. -/
theorem C147_update_string_partial (parse : Str → Option Int) (c : Cfg) (name s : Str) (d : Bool)
    (ht : c.types name = some .bool) :
    flag (update parse c name (.str s)).1 name = .ok (.bool (s ≠ [])) ∧
      (boolEnv (some s) d = .ok true → flag (update parse c name (.str s)).1 name = .ok (.bool true)) := by
  have h1 : flag (update parse c name (.str s)).1 name = .ok (.bool (s ≠ [])) := by
    simp [update, ht, convert, flag, Dict.set]
  refine ⟨h1, fun hb => ?_⟩
  rw [h1]
  have hy := (C146_bool_env.2.2.1 s d).1 hb
  have : s ≠ [] := by
    rintro rfl
    revert hy
    decide
  simp [this]

example := C147_update_string_partial (fun _ => none) (define (fun _ => none) (fun _ => none) empty ['A'] .bool false 0 true).1 ['A'] ['n', 'o'] true rfl

/-- Flags defined with `runtime=False` can be changed at runtime. -/
theorem C147_runtime_refuted : ¬ ∀ (parse : Str → Option Int) (c : Cfg) (name : Str) (v : Val),
    c.runtime name = some false → flag (update parse c name v).1 name = flag c name := by
  intro h
  have := h (fun _ => none) imported ['E'] (.bool true) rfl
  cases this

/-- What holds: the result of `update` does not depend on `runtime` at all. -/
theorem C147_runtime_partial (parse : Str → Option Int) (c : Cfg) (r : Dict Bool) (name : Str) (v : Val) (k : Str) :
    flag (update parse { c with runtime := r } name v).1 k = flag (update parse c name v).1 k := by
  unfold update
  dsimp only
  split
  · rfl
  · split <;> rfl

/-- After a failed definition (bad environment variable) the flag does not exist but can be updated. -/
theorem C147_failed_refuted : ¬ ∀ (parse : Str → Option Int) (env : Str → Option Str) (c : Cfg) (name : Str)
    (ty : Ty) (db : Bool) (di : Int) (rt : Bool) (e : Err),
    (define parse env c name ty db di rt).2 = some e →
    (define parse env c name ty db di rt).1 = c := by
  intro h
  have := h (fun _ => none) (fun _ => some ['2']) empty ['E'] .bool false 0 false .valueError (by decide +kernel)
  have h2 := congrArg (fun c : Cfg => c.types ['E']) this
  revert h2
  decide +kernel

/-- What holds: no flag changes its value, and the definition can be repeated. -/
theorem C147_failed_partial (parse : Str → Option Int) (env : Str → Option Str) (c : Cfg) (name : Str)
    (ty : Ty) (db : Bool) (di : Int) (rt : Bool) (e : Err) (h : (define parse env c name ty db di rt).2 = some e) :
    (define parse env c name ty db di rt).1.values = c.values := by
  unfold define at h ⊢
  by_cases hn : (c.values name).isSome
  · rw [if_pos hn]
  · rw [if_neg hn] at h ⊢
    dsimp only at h ⊢
    cases hg : getEnv parse (env name) ty db di with
    | error e => rfl
    | ok v => rw [hg] at h; cases h

example := C147_failed_partial (fun _ => none) (fun _ => some ['2']) empty ['A'] .bool false 0 true .valueError rfl

end Verif.Config

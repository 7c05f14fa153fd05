import Verif.Model.JitRule
import Verif.Props.HamiltonianRule
import Mathlib.Data.Rat.Floor
import Mathlib.Tactic.NormNum

/-! C198, C199: `HamiltonianRule` and operators changed in place. -/

namespace Verif.JitRule
open Verif.Metro (hamiltonianTransition)

variable {X : Type}

/-! ## Spec -/

/-- what an operator is after a program. -/
def contents (heap : Nat → X → List X) (op : Nat) : List (Event X) → X → List X
  | [] => heap op
  | .inplace op' new :: es => contents (Function.update heap op' new) op es
  | _ :: es => contents heap op es

/-- the program samples with the key. -/
def Samples (k : Key) (es : List (Event X)) : Prop := .sample k ∈ es

/-- the program changes the operator. -/
def Changes (op : Nat) (es : List (Event X)) : Prop := ∃ new, .inplace op new ∈ es

/-! ## Lemmas -/

theorem sample_heap (w : World X) (k : Key) : (sample w k).1.heap = w.heap := by
  unfold sample; split <;> rfl

theorem run_heap (es : List (Event X)) (w : World X) (op : Nat) : (run w es).heap op = contents w.heap op es := by
  induction es generalizing w with
  | nil => rfl
  | cons e es ih =>
    change (run (step w e) es).heap op = _
    rw [ih]
    cases e with
    | inplace o new => rfl
    | sample k => simp only [step, sample_heap, contents]
    | sampleNext o => rfl
    | numpy o => rfl

theorem run_append (w : World X) (es fs : List (Event X)) : run w (es ++ fs) = run (run w es) fs := List.foldl_append

theorem lookup_sample (w : World X) (k k' : Key) :
    (sample w k').1.cache.lookup k = if k = k' then some (sample w k').2 else w.cache.lookup k := by
  unfold sample
  split
  · rename_i conn h
    split_ifs with hk
    · subst hk; exact h
    · rfl
  · rename_i h
    simp only [List.lookup_cons]
    split_ifs with hk
    · subst hk; simp
    · rw [show (k == k') = false by simpa using hk]

/-- an entry stays. -/
theorem lookup_run (es : List (Event X)) (w : World X) (k : Key) (c : X → List X) (h : w.cache.lookup k = some c) : (run w es).cache.lookup k = some c := by
  induction es generalizing w with
  | nil => exact h
  | cons e es ih =>
    change (run (step w e) es).cache.lookup k = _
    apply ih
    cases e with
    | inplace o new => exact h
    | sample k' =>
      simp only [step, lookup_sample]
      split_ifs with hk
      · subst hk
        unfold sample
        rw [h]
      · exact h
    | sampleNext o => exact h
    | numpy o => exact h

theorem lookup_none (es : List (Event X)) (w : World X) (k : Key) (h : w.cache.lookup k = none) (hs : ¬ Samples k es) : (run w es).cache.lookup k = none := by
  induction es generalizing w with
  | nil => exact h
  | cons e es ih =>
    change (run (step w e) es).cache.lookup k = _
    apply ih
    · cases e with
      | inplace o new => exact h
      | sample k' =>
        simp only [step, lookup_sample]
        have hk : k ≠ k' := by rintro rfl; exact hs (List.mem_cons_self ..)
        rw [if_neg hk]
        exact h
      | sampleNext o => exact h
      | numpy o => exact h
    · exact fun hm => hs (List.mem_cons_of_mem _ hm)

theorem contents_unchanged (es : List (Event X)) (heap : Nat → X → List X) (op : Nat) (h : ¬ Changes op es) : contents heap op es = heap op := by
  induction es generalizing heap with
  | nil => rfl
  | cons e es ih =>
    have h' : ¬ Changes op es := fun ⟨n, hn⟩ => h ⟨n, List.mem_cons_of_mem _ hn⟩
    cases e with
    | inplace o new =>
      have ho : op ≠ o := by rintro rfl; exact h ⟨new, List.mem_cons_self ..⟩
      simp only [contents]
      rw [ih _ h', Function.update_of_ne ho]
    | sample k => exact ih _ h'
    | sampleNext o => exact ih _ h'
    | numpy o => exact ih _ h'

theorem contents_append (es fs : List (Event X)) (heap : Nat → X → List X) (op : Nat) :
    contents heap op (es ++ fs) = contents (fun o => contents heap o es) op fs := by
  induction es generalizing heap with
  | nil => rfl
  | cons e es ih => cases e <;> simp only [List.cons_append, contents, ih]

/-! ## C198 -/

/-- C198: the first time a chain is sampled with these static arguments, whatever happened before to this and other operators, the rule uses the operator as
    it is. -/
theorem C198_first (heap : Nat → X → List X) (es : List (Event X)) (k : Key) (h : ¬ Samples k es) : (sample (run (start heap) es) k).2 = contents heap k.op es := by
  have hl := lookup_none es (start heap) k rfl h
  unfold sample
  rw [hl]
  exact run_heap es (start heap) k.op

/-- C198: and later ones, as long as the operator was not changed since. -/
theorem C198_unchanged (heap : Nat → X → List X) (es fs : List (Event X)) (k : Key) (hs : ¬ Samples k es) (hc : ¬ Changes k.op fs) :
    (sample (run (start heap) (es ++ .sample k :: fs)) k).2 = contents heap k.op (es ++ .sample k :: fs) := by
  have h1 := C198_first heap es k hs
  rw [run_append]
  have hl : (run (run (start heap) es) (.sample k :: fs)).cache.lookup k = some (contents heap k.op es) := by
    change (run (step (run (start heap) es) (.sample k)) fs).cache.lookup k = _
    apply lookup_run
    simp only [step, lookup_sample, if_true, h1]
  rw [contents_append]
  simp only [contents]
  rw [contents_unchanged fs _ k.op hc]
  unfold sample
  rw [hl]

/-- C198: `sample_next` and `HamiltonianRuleNumpy` always use the operator as it is. -/
theorem C198_direct (heap : Nat → X → List X) (es : List (Event X)) (op : Nat) : direct (run (start heap) es) op = contents heap op es :=
  run_heap es (start heap) op

/-- C198: without changes of the operator since the first call, every proposal is a connected configuration of the operator as it is. -/
theorem C198_connected {R : Type} [Field R] [LinearOrder R] [IsStrictOrderedRing R] [FloorRing R] (log : R → R) (heap : Nat → X → List X) (es fs : List (Event X)) (k : Key) (hs : ¬ Samples k es)
    (hc : ¬ Changes k.op fs) (v : List X) (rand : List R) (hlen : rand.length = v.length)
    (hne : ∀ x ∈ v, contents heap k.op (es ++ .sample k :: fs) x ≠ []) (hr : ∀ r ∈ rand, 0 ≤ r ∧ r < 1) :
    ∃ props corr, propose log (run (start heap) (es ++ .sample k :: fs)) k rand v = some (props, some corr) ∧ props.length = v.length
      ∧ ∀ (i : Nat) (x y : X), v[i]? = some x → props[i]? = some y → y ∈ contents heap k.op (es ++ .sample k :: fs) x := by
  unfold propose
  rw [C198_unchanged heap es fs k hs hc]
  obtain ⟨props, corr, h1, h2, -, h3⟩ := Verif.Metro.C53_transition log (contents heap k.op (es ++ .sample k :: fs)) v rand hlen hne hr
  refine ⟨props, corr, h1, h2, fun i x y hx hy => ?_⟩
  have hi : i < rand.length := by
    rw [hlen]
    exact (List.getElem?_eq_some_iff.1 hx).1
  obtain ⟨y', hy1, hy2, -⟩ := h3 i x rand[i] hx (List.getElem?_eq_getElem hi)
  rw [hy] at hy2
  cases hy2
  exact List.mem_of_getElem? hy1

/-! ## C199 -/

/-- C199: whatever happens to the operator after the first call with these static arguments, all later calls use the operator as it was at the first. -/
theorem C199_stale_refuted (heap : Nat → X → List X) (es fs : List (Event X)) (k : Key) (hs : ¬ Samples k es) :
    (sample (run (start heap) (es ++ .sample k :: fs)) k).2 = contents heap k.op es := by
  have h1 := C198_first heap es k hs
  rw [run_append]
  have hl : (run (run (start heap) es) (.sample k :: fs)).cache.lookup k = some (contents heap k.op es) := by
    change (run (step (run (start heap) es) (.sample k)) fs).cache.lookup k = _
    apply lookup_run
    simp only [step, lookup_sample, if_true, h1]
  unfold sample
  rw [hl]

/-- C199: so that for an operator changed in place between two calls with the same static arguments, the proposals are connected configurations of the
    operator before the change; if the two have none in common, no proposal of the second call is connected by the operator. -/
theorem C199_proposals_refuted {R : Type} [Field R] [LinearOrder R] [IsStrictOrderedRing R] [FloorRing R] (log : R → R) (heap : Nat → X → List X) (k : Key) (new : X → List X) (v : List X)
    (rand : List R) (hlen : rand.length = v.length) (hne : ∀ x ∈ v, heap k.op x ≠ []) (hr : ∀ r ∈ rand, 0 ≤ r ∧ r < 1)
    (hd : ∀ x ∈ v, ∀ y ∈ heap k.op x, y ∉ new x) :
    ∃ props corr, propose log (run (start heap) [.sample k, .inplace k.op new]) k rand v = some (props, some corr) ∧ props.length = v.length
      ∧ contents heap k.op [.sample k, .inplace k.op new] = new ∧ ∀ (i : Nat) (x y : X), v[i]? = some x → props[i]? = some y → y ∉ new x := by
  have hst : (sample (run (start heap) [.sample k, .inplace k.op new]) k).2 = heap k.op :=
    C199_stale_refuted heap [] [.inplace k.op new] k (by simp [Samples])
  unfold propose
  rw [hst]
  obtain ⟨props, corr, h1, h2, -, h3⟩ := Verif.Metro.C53_transition log (heap k.op) v rand hlen hne hr
  refine ⟨props, corr, h1, h2, by simp [contents], fun i x y hx hy => ?_⟩
  have hi : i < rand.length := by
    rw [hlen]
    exact (List.getElem?_eq_some_iff.1 hx).1
  obtain ⟨y', hy1, hy2, -⟩ := h3 i x rand[i] hx (List.getElem?_eq_getElem hi)
  rw [hy] at hy2
  cases hy2
  exact hd x (List.mem_of_getElem? hx) y (List.mem_of_getElem? hy1)

/-- C199: `sample_next` and `sample` then use different operators. -/
theorem C199_direct_refuted (heap : Nat → X → List X) (k : Key) (new : X → List X) (h : heap k.op ≠ new) :
    direct (run (start heap) [.sample k, .inplace k.op new]) k.op = new
      ∧ (sample (run (start heap) [.sample k, .inplace k.op new]) k).2 ≠ direct (run (start heap) [.sample k, .inplace k.op new]) k.op := by
  have h1 : direct (run (start heap) [.sample k, .inplace k.op new]) k.op = new := by
    rw [C198_direct]; simp [contents]
  refine ⟨h1, ?_⟩
  rw [h1, show (sample (run (start heap) [.sample k, .inplace k.op new]) k).2 = heap k.op from
    C199_stale_refuted heap [] [.inplace k.op new] k (by simp [Samples])]
  exact h

/-- C199 (part that holds): chains of another length, or of another operator, sampled for the first time after the change use the operator as it is.
    Missing: repeated calls with the same static arguments after a change. -/
theorem C199_other_length_partial (heap : Nat → X → List X) (es : List (Event X)) (k k' : Key) (new : X → List X) (hk : k ≠ k') (ho : k'.op = k.op)
    (hs : ¬ Samples k' es) : (sample (run (start heap) (es ++ [.sample k, .inplace k.op new])) k').2 = new := by
  rw [C198_first heap _ k' (by
    simp only [Samples, List.mem_append, List.mem_cons, List.not_mem_nil, or_false, not_or]
    exact ⟨hs, fun h => hk (Event.sample.inj h).symm, by simp⟩)]
  rw [contents_append]
  simp [contents, ho]

/-! ## Examples -/

/-- an operator that connects `x` with `x + 1` and one that connects it with `x + 2`. -/
def up (n : Nat) : Nat → List Nat := fun x => [x + n]

/-- the hypotheses of C198 and C199: two chains, the operator changed in between from steps by one to steps by two. -/
example : let k : Key := ⟨0, 0, 10, 0⟩
    ¬ Samples k ([.inplace 0 (up 1), .sample ⟨1, 0, 10, 0⟩] : List (Event Nat)) ∧ ¬ Changes k.op ([.inplace 1 (up 3), .numpy 0] : List (Event Nat))
      ∧ (∀ x ∈ [5, 7], up 1 x ≠ []) ∧ (∀ x ∈ [5, 7], ∀ y ∈ up 1 x, y ∉ up 2 x) ∧ ∀ r ∈ [(1 : ℚ) / 3, 1 / 2], 0 ≤ r ∧ r < 1 := by
  refine ⟨by simp [Samples], by simp [Changes], by simp [up], by simp [up], ?_⟩
  intro r hr
  simp only [List.mem_cons, List.not_mem_nil, or_false] at hr
  rcases hr with rfl | rfl <;> norm_num

/-- the proposal of the second call is `5 + 1`, although the operator now connects 5 with 7 only. -/
example : (sample (run (start fun _ => up 1) [.sample ⟨0, 0, 10, 0⟩, .inplace 0 (up 2)]) ⟨0, 0, 10, 0⟩).2 5 = [6] := by decide

end Verif.JitRule

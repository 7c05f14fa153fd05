import Verif.Model.Keys
import Mathlib.Data.List.Nodup
import Mathlib.Data.List.Range

/-!
C67: keys of a `PRNGSeq`.
-/

namespace Verif.Keys

/-- specification: `a` is a proper ancestor of `k`: `k` was obtained from `a` by splitting one or more times. -/
inductive Anc (a : Key) : Key → Prop where
  /-- `k` is split from `a` -/
  | here (n i : Nat) : Anc a (.split a n i)
  /-- `k` is split from a descendant of `a` -/
  | there {k : Key} (n i : Nat) (h : Anc a k) : Anc a (.split k n i)

/-- number of splittings. -/
def depth : Key → Nat
  | .base => 0
  | .split p _ _ => depth p + 1

theorem anc_depth {a k : Key} (h : Anc a k) : depth a < depth k := by
  induction h with
  | here => simp [depth]
  | there n i _ ih => simp only [depth]; omega

theorem anc_trans {a b c : Key} (h : Anc a b) (g : Anc b c) : Anc a c := by
  induction g with
  | here n i => exact .there n i h
  | there n i _ ih => exact .there n i ih

/-- two ancestors of the same key are comparable. -/
theorem anc_linear {a b k : Key} (h : Anc a k) (g : Anc b k) : a = b ∨ Anc a b ∨ Anc b a := by
  induction g with
  | here n i =>
    cases h with
    | here => exact Or.inl rfl
    | there _ _ h => exact Or.inr (Or.inl h)
  | @there k n i g ih =>
    cases h with
    | here => exact Or.inr (Or.inr g)
    | there _ _ h => exact ih h

/-- `k` is `a` or comes from it. -/
theorem step_mem {cur k : Key} {op : Op} (h : k ∈ (step cur op).2) : ∃ n i, k = .split cur n i := by
  cases op with
  | next => exact ⟨1, 0, by simpa [step] using h⟩
  | take num =>
    simp only [step, List.mem_map] at h
    obtain ⟨i, _, rfl⟩ := h
    exact ⟨num + 1, i, rfl⟩

theorem step_cur (cur : Key) (op : Op) : ∃ n i, (step cur op).1 = .split cur n i := by
  cases op with
  | next => exact ⟨1, 0, rfl⟩
  | take num => exact ⟨num + 1, num, rfl⟩

theorem run_anc {cur k : Key} {ops : List Op} (h : k ∈ run cur ops) : Anc cur k := by
  induction ops generalizing cur with
  | nil => simp [run] at h
  | cons op ops ih =>
    simp only [run, List.mem_append] at h
    rcases h with h | h
    · obtain ⟨n, i, rfl⟩ := step_mem h
      exact .here n i
    · obtain ⟨n, i, e⟩ := step_cur cur op
      have := ih h
      rw [e] at this
      exact anc_trans (.here n i) this

/-- **No key is handed out twice**, for any mixture of `next` and `take`. -/
theorem C67_distinct (cur : Key) (ops : List Op) : (run cur ops).Nodup := by
  induction ops generalizing cur with
  | nil => simp [run]
  | cons op ops ih =>
    rw [run, List.nodup_append]
    refine ⟨?_, ih _, ?_⟩
    · cases op with
      | next => simp [step]
      | take num =>
        simp only [step]
        apply List.Nodup.map _ List.nodup_range
        intro i j h
        simpa using h
    · intro a ha b hb e
      obtain ⟨n, i, rfl⟩ := step_mem ha
      obtain ⟨m, j, e2⟩ := step_cur cur op
      have h := anc_depth (run_anc hb)
      rw [e2] at h
      rw [← e] at h
      simp [depth] at h

/-- the key the sequence was created with is never handed out. -/
theorem C67_base (cur : Key) (ops : List Op) : cur ∉ run cur ops := by
  intro h
  have := anc_depth (run_anc h)
  omega

/-- number of keys handed out. -/
theorem C67_count (cur : Key) (ops : List Op) :
    (run cur ops).length = (ops.map fun o => match o with | .next => 1 | .take n => n).sum := by
  induction ops generalizing cur with
  | nil => rfl
  | cons op ops ih =>
    simp only [run, List.length_append, ih, List.map_cons, List.sum_cons]
    cases op <;> simp [step]

/-- a call of `take`. -/
def Op.isTake : Op → Bool
  | .next => false
  | .take _ => true

theorem take_run (cur : Key) (ops : List Op) (h : ∀ o ∈ ops, o.isTake = true) (a b : Key)
    (ha : a ∈ run cur ops) (hb : b ∈ run cur ops) : ¬ Anc a b := by
  induction ops generalizing cur with
  | nil => simp [run] at ha
  | cons op ops ih =>
    have ih' := ih (step cur op).1 (fun o ho => h o (List.mem_cons_of_mem _ ho))
    obtain ⟨num, rfl⟩ : ∃ num, op = .take num := by
      have := h op List.mem_cons_self
      cases op with
      | next => cases this
      | take num => exact ⟨num, rfl⟩
    simp only [run, step, List.mem_append, List.mem_map, List.mem_range] at ha hb
    rcases ha with ⟨i, hi, rfl⟩ | ha
    · rcases hb with ⟨j, hj, rfl⟩ | hb
      · intro hab
        have := anc_depth hab
        simp [depth] at this
      · intro hab
        have h2 := run_anc hb
        rcases anc_linear hab h2 with e | e | e
        · simp at e; omega
        · have := anc_depth e
          simp [depth] at this
        · have := anc_depth e
          simp [depth] at this
    · rcases hb with ⟨j, hj, rfl⟩ | hb
      · intro hab
        have h1 := anc_depth hab
        have h2 := anc_depth (run_anc ha)
        simp [depth] at h1 h2
        omega
      · exact ih' ha hb

/-- For sequences used only through `take`: no key is an ancestor of another.
Not covered: sequences with `next`, for which it fails (`C124_ancestor_refuted`). -/
theorem C67_take_ancestor (cur : Key) (ops : List Op) (h : ∀ o ∈ ops, o.isTake = true) :
    ∀ a ∈ run cur ops, ∀ b ∈ run cur ops, ¬ Anc a b :=
  fun a ha b hb => take_run cur ops h a b ha hb

/-- `next` hands out the key from which all later ones are derived. -/
theorem C124_next_ancestor (cur : Key) (ops : List Op) (b : Key) (hb : b ∈ run (.split cur 1 0) ops) :
    Anc (.split cur 1 0) b ∧ .split cur 1 0 ∈ run cur (.next :: ops) :=
  ⟨run_anc hb, by simp [run, step]⟩

/-- The claim as stated is false. -/
theorem C124_ancestor_refuted :
    ¬ ∀ (cur : Key) (ops : List Op), ∀ a ∈ run cur ops, ∀ b ∈ run cur ops, ¬ Anc a b := by
  intro h
  exact h .base [.next, .next] (.split .base 1 0) (by simp [run, step]) (.split (.split .base 1 0) 1 0)
    (by simp [run, step]) (.here 1 0)

example : (run .base [.next, .take 2, .next]).length = 4 ∧ ∀ o ∈ [Op.take 2, Op.take 3], o.isTake = true := by
  refine ⟨by rfl, by decide⟩

end Verif.Keys

import Verif.Model.Dataclass
import Mathlib.Data.List.Basic
import Mathlib.Data.List.Nodup

/-!
C70: cached properties and serialisation of dataclasses. C83: cached properties under `jax.tree_map`.
-/

namespace Verif.Dataclass

open Verif.Hilbert (Err)

variable {V : Type}

/-- specification: every stored value is what recomputation from the fields gives. -/
def Fresh (c : Cls V) (o : Obj V) : Prop := ∀ p v, o.cache p = some v → v = c.compute p o.fields

theorem read_fresh (c : Cls V) (o : Obj V) (p : Nat) (h : Fresh c o) :
    Fresh c (read c o p).2 ∧ (read c o p).1 = c.compute p o.fields ∧ (read c o p).2.fields = o.fields := by
  unfold read
  cases hc : o.cache p with
  | some v => exact ⟨h, h p v hc, rfl⟩
  | none =>
    refine ⟨?_, rfl, rfl⟩
    intro q v hq
    simp only at hq
    by_cases hqp : q = p
    · subst hqp
      rw [if_pos rfl] at hq
      exact (Option.some.inj hq).symm
    · rw [if_neg hqp] at hq
      exact h q v hq

theorem replace_fresh (c : Cls V) (o : Obj V) (u : List (Nat × V)) : Fresh c (replace o u) := by
  intro p v h
  simp [replace] at h

/-- specification of the fields after a sequence of operations: the last value given to each. -/
def fieldsAfter (f : Nat → V) : List (Op V) → Nat → V
  | [] => f
  | .read _ :: ops => fieldsAfter f ops
  | .replace u :: ops => fieldsAfter (fun n => match u.find? fun w => w.1 == n with
      | some w => w.2
      | none => f n) ops

theorem run_fresh (c : Cls V) (ops : List (Op V)) : ∀ (o : Obj V), Fresh c o →
    Fresh c (ops.foldl (apply c) o) ∧ (ops.foldl (apply c) o).fields = fieldsAfter o.fields ops := by
  induction ops with
  | nil => intro o h; exact ⟨h, rfl⟩
  | cons op ops ih =>
    intro o h
    cases op with
    | read p =>
      have h1 := read_fresh c o p h
      have h2 := ih (read c o p).2 h1.1
      rw [h1.2.2] at h2
      exact h2
    | replace u => exact ih (replace o u) (replace_fresh c o u)

/-- **Never stale.** After any sequence of reads and replacements, starting from an object whose caches are
empty, reading a cached property gives what recomputation from the current fields gives. -/
theorem C70_cache (c : Cls V) (f : Nat → V) (ops : List (Op V)) (p : Nat) :
    (read c (ops.foldl (apply c) ⟨f, fun _ => none⟩) p).1 = c.compute p (fieldsAfter f ops) := by
  have h := run_fresh c ops ⟨f, fun _ => none⟩ (by intro p v h; simp at h)
  rw [(read_fresh c _ p h.1).2.1, h.2]

/-- reading does not change the fields, and the second read returns the same value. -/
theorem C70_read_twice (c : Cls V) (o : Obj V) (p : Nat) :
    (read c (read c o p).2 p).1 = (read c o p).1 ∧ (read c o p).2.fields = o.fields := by
  unfold read
  cases hc : o.cache p with
  | some v => simp [hc]
  | none => simp

/-! ### serialisation -/

/-- the names that are serialised. -/
def names (c : Cls V) : List Nat := c.dataFields.filter fun n => !c.skip n

theorem find_none {n : Nat} {s : List (Nat × V)} : (s.find? fun u => u.1 == n) = none ↔ n ∉ s.map Prod.fst := by
  rw [List.find?_eq_none]
  constructor
  · intro h hm
    obtain ⟨u, hu, e⟩ := List.mem_map.mp hm
    exact h u hu (by simp [e])
  · intro h u hu e
    exact h (List.mem_map.mpr ⟨u, hu, by simpa using e⟩)

/-- value stored under a name. -/
def lookup (s : List (Nat × V)) (n : Nat) : Option V := (s.find? fun u => u.1 == n).map Prod.snd

theorem find_filter_ne {m n : Nat} (h : m ≠ n) (s : List (Nat × V)) :
    ((s.filter fun w => !(w.1 == n)).find? fun u => u.1 == m) = s.find? fun u => u.1 == m := by
  induction s with
  | nil => rfl
  | cons u s ih =>
    by_cases hu : u.1 = n
    · have e1 : (!(u.1 == n)) = false := by simp [hu]
      have e2 : (u.1 == m) = false := by simp [hu]; exact fun e => h e.symm
      rw [List.filter_cons, e1, List.find?_cons, e2]
      simpa using ih
    · have e1 : (!(u.1 == n)) = true := by simp [hu]
      rw [List.filter_cons, e1]
      simp only [if_true, List.find?_cons]
      cases hm : (u.1 == m) with
      | true => rfl
      | false => exact ih

/-- the loop succeeds exactly if all names are present. -/
theorem loop_error (ns : List Nat) (hn : ns.Nodup) : ∀ (s acc : List (Nat × V)),
    (∃ n ∈ ns, n ∉ s.map Prod.fst) → restoreLoop ns s acc = .error .valueError := by
  induction ns with
  | nil => intro s acc h; obtain ⟨n, h, _⟩ := h; cases h
  | cons n ns ih =>
    intro s acc h
    rw [List.nodup_cons] at hn
    unfold restoreLoop
    cases hf : s.find? fun u => u.1 == n with
    | none => rfl
    | some u =>
      simp only
      apply ih hn.2
      obtain ⟨m, hm, hms⟩ := h
      rcases List.mem_cons.mp hm with rfl | hm
      · rw [← find_none] at hms
        rw [hms] at hf
        cases hf
      · refine ⟨m, hm, ?_⟩
        have hne : m ≠ n := fun e => hn.1 (e ▸ hm)
        rw [← find_none, find_filter_ne hne, find_none]
        exact hms

theorem loop_ok (ns : List Nat) (hn : ns.Nodup) : ∀ (s acc : List (Nat × V)),
    (∀ n ∈ ns, n ∈ s.map Prod.fst) →
    restoreLoop ns s acc = .ok (acc ++ ns.filterMap (fun n => s.find? fun u => u.1 == n),
      s.filter fun w => !(ns.contains w.1)) := by
  induction ns with
  | nil =>
    intro s acc _
    simp [restoreLoop]
  | cons n ns ih =>
    intro s acc h
    rw [List.nodup_cons] at hn
    unfold restoreLoop
    cases hf : s.find? fun u => u.1 == n with
    | none =>
      rw [find_none] at hf
      exact absurd (h n List.mem_cons_self) hf
    | some u =>
      have hun : u.1 = n := by
        have := List.find?_some hf
        simpa using this
      simp only
      rw [ih hn.2]
      · rw [List.filterMap_cons, hf]
        have e1 : ns.filterMap (fun m => (s.filter fun w => !(w.1 == n)).find? fun u => u.1 == m) =
            ns.filterMap (fun m => s.find? fun u => u.1 == m) := by
          apply List.filterMap_congr
          intro m hm
          have hne : m ≠ n := fun e => hn.1 (e ▸ hm)
          exact find_filter_ne hne s
        rw [e1, List.filter_filter]
        have e2 : (fun w : Nat × V => !(ns.contains w.1) && !(w.1 == n)) = fun w => !((n :: ns).contains w.1) := by
          funext w
          by_cases hw : w.1 = n
          · simp [hw]
          · simp [hw]
        rw [e2]
        congr 2
        rw [List.append_assoc]
        congr 1
        simp only [List.cons_append, List.nil_append, List.cons.injEq, and_true]
        rw [← hun]
      · intro m hm
        have hne : m ≠ n := fun e => hn.1 (e ▸ hm)
        by_contra hc
        rw [← find_none, find_filter_ne hne, find_none] at hc
        exact hc (h m (List.mem_cons_of_mem _ hm))

/-- **Missing fields are rejected.** -/
theorem C70_missing (c : Cls V) (hn : (names c).Nodup) (o : Obj V) (s : List (Nat × V))
    (h : ∃ n ∈ names c, n ∉ s.map Prod.fst) : fromStateDict c o s = .error .valueError := by
  have := loop_error (names c) hn s [] h
  simp only [names] at this
  rw [fromStateDict, this]

/-- **Unknown fields are rejected.** -/
theorem C70_unknown (c : Cls V) (hn : (names c).Nodup) (o : Obj V) (s : List (Nat × V))
    (h : ∃ m ∈ s.map Prod.fst, m ∉ names c) : fromStateDict c o s = .error .valueError := by
  by_cases hm : ∀ n ∈ names c, n ∈ s.map Prod.fst
  · have := loop_ok (names c) hn s [] hm
    rw [fromStateDict]
    have e : restoreLoop (c.dataFields.filter fun n => !c.skip n) s [] = restoreLoop (names c) s [] := rfl
    rw [e, this]
    simp only
    rw [if_neg]
    obtain ⟨m, hm1, hm2⟩ := h
    obtain ⟨u, hu, rfl⟩ := List.mem_map.mp hm1
    intro he
    rw [List.isEmpty_iff, List.filter_eq_nil_iff] at he
    exact he u hu (by simpa using hm2)
  · push Not at hm
    exact C70_missing c hn o s hm

/-- **Otherwise the fields are restored**, the others kept, and no cache survives. -/
theorem C70_restore (c : Cls V) (hn : (names c).Nodup) (o : Obj V) (s : List (Nat × V))
    (h1 : ∀ n ∈ names c, n ∈ s.map Prod.fst) (h2 : ∀ m ∈ s.map Prod.fst, m ∈ names c) :
    ∃ o', fromStateDict c o s = .ok o' ∧ (∀ p, o'.cache p = none) ∧
      (∀ n ∈ names c, some (o'.fields n) = lookup s n) ∧ ∀ n, n ∉ names c → o'.fields n = o.fields n := by
  have hl := loop_ok (names c) hn s [] h1
  have he : (s.filter fun w => !((names c).contains w.1)).isEmpty = true := by
    rw [List.isEmpty_iff, List.filter_eq_nil_iff]
    intro u hu
    have := h2 u.1 (List.mem_map_of_mem hu)
    simpa using this
  refine ⟨replace o ((names c).filterMap fun n => s.find? fun u => u.1 == n), ?_, fun p => rfl, ?_, ?_⟩
  · rw [fromStateDict]
    have e : restoreLoop (c.dataFields.filter fun n => !c.skip n) s [] = restoreLoop (names c) s [] := rfl
    rw [e, hl]
    simp only [List.nil_append]
    rw [if_pos he]
  · intro n hn'
    have hfind : ((names c).filterMap fun n => s.find? fun u => u.1 == n).find? (fun u => u.1 == n) =
        s.find? fun u => u.1 == n := by
      have : ∀ l : List Nat, n ∈ l → (∀ m ∈ l, m ∈ s.map Prod.fst) →
          (l.filterMap fun n => s.find? fun u => u.1 == n).find? (fun u => u.1 == n) =
            s.find? fun u => u.1 == n := by
        intro l
        induction l with
        | nil => intro h; cases h
        | cons m l ih =>
          intro hm hs
          cases hf : s.find? fun u => u.1 == m with
          | none =>
            rw [find_none] at hf
            exact absurd (hs m List.mem_cons_self) hf
          | some u =>
            have hu : u.1 = m := by simpa using List.find?_some hf
            rw [List.filterMap_cons, hf]
            simp only [List.find?_cons]
            by_cases hmn : m = n
            · subst hmn
              have : (u.1 == m) = true := by simp [hu]
              rw [this, hf]
            · have : (u.1 == n) = false := by simp [hu, hmn]
              rw [this]
              rcases List.mem_cons.mp hm with e | hm
              · exact absurd e.symm hmn
              · exact ih hm fun k hk => hs k (List.mem_cons_of_mem _ hk)
      exact this (names c) hn' h1
    simp only [replace, hfind, lookup]
    cases hf : s.find? fun u => u.1 == n with
    | none =>
      rw [find_none] at hf
      exact absurd (h1 n hn') hf
    | some u => rfl
  · intro n hn'
    simp only [replace]
    have : (((names c).filterMap fun n => s.find? fun u => u.1 == n).find? fun u => u.1 == n) = none := by
      rw [List.find?_eq_none]
      intro u hu e
      obtain ⟨m, hm, hf⟩ := List.mem_filterMap.mp hu
      have h3 : u.1 = m := by simpa using List.find?_some hf
      have h4 : u.1 = n := by simpa using e
      exact hn' (h4 ▸ h3 ▸ hm)
    rw [this]

theorem dict_names (c : Cls V) (o : Obj V) : (toStateDict c o).map Prod.fst = names c := by
  simp [toStateDict, names, Function.comp_def]

theorem dict_lookup (c : Cls V) (o : Obj V) (n : Nat) (h : n ∈ names c) : lookup (toStateDict c o) n = some (o.fields n) := by
  have : ∀ l : List Nat, n ∈ l → lookup (l.map fun n => (n, o.fields n)) n = some (o.fields n) := by
    intro l
    induction l with
    | nil => intro h; cases h
    | cons m l ih =>
      intro hm
      by_cases e : m = n
      · subst e
        simp [lookup]
      · have h2 := ih ((List.mem_cons.mp hm).resolve_left fun h => e h.symm)
        simp only [lookup, List.map_cons, List.find?_cons] at h2 ⊢
        have : (m == n) = false := by simp [e]
        rw [this]
        exact h2
  exact this (names c) h

/-- **Round trip.** Restoring the state of `o` into any object of the class gives the serialised fields of `o`,
whatever caches there were; the other fields are those of the target. -/
theorem C70_round_trip (c : Cls V) (hn : (names c).Nodup) (o target : Obj V) :
    ∃ o', fromStateDict c target (toStateDict c o) = .ok o' ∧ Fresh c o' ∧
      (∀ n ∈ names c, o'.fields n = o.fields n) ∧ ∀ n, n ∉ names c → o'.fields n = target.fields n := by
  obtain ⟨o', h1, h2, h3, h4⟩ := C70_restore c hn target (toStateDict c o)
    (by rw [dict_names]; exact fun n h => h) (by rw [dict_names]; exact fun n h => h)
  refine ⟨o', h1, ?_, ?_, h4⟩
  · intro p v hp
    rw [h2] at hp
    cases hp
  · intro n hn'
    have := h3 n hn'
    rw [dict_lookup c o n hn'] at this
    exact Option.some.inj this

/-! ### `jax.tree_map` -/

/-- Without filled caches, mapping over the leaves leaves nothing stale. Missing: objects one of whose cached
properties has been read. -/
theorem C83_tree_map_partial (c : Cls V) (o : Obj V) (f : V → V) (h : ∀ p, o.cache p = none) (p : Nat) :
    (read c (treeMap c o f) p).1 = c.compute p (treeMap c o f).fields := by
  simp [read, treeMap, h]

/-- After a cached property has been read, `tree_map` produces an object that returns the old value. -/
theorem C83_tree_map_refuted :
    ¬ ∀ (c : Cls Nat) (o : Obj Nat) (f : Nat → Nat) (p : Nat), Fresh c o →
      (read c (treeMap c o f) p).1 = c.compute p (treeMap c o f).fields := by
  intro h
  have := h ⟨[0], fun _ => false, fun _ f => f 0⟩
    (read ⟨[0], fun _ => false, fun _ f => f 0⟩ ⟨fun _ => 1, fun _ => none⟩ 0).2 (fun x => x + 1) 0
    (read_fresh _ _ _ (by intro p v h; simp at h)).1
  simp [read, treeMap] at this

/-- What is returned: the value computed before, so that it is right only if the property does not depend on
what was mapped. -/
theorem C83_tree_map_value (c : Cls V) (o : Obj V) (f : V → V) (p : Nat) :
    (read c (treeMap c (read c o p).2 f) p).1 = (read c o p).1 := by
  unfold read
  cases hc : o.cache p with
  | some v => simp [hc, treeMap]
  | none => simp [treeMap]

/-- a class with two serialised fields, one that is skipped, and one cached property (the sum) -/
def exCls : Cls Nat := ⟨[0, 1, 2], fun n => n == 2, fun _ f => f 0 + f 1⟩

example : (names exCls).Nodup ∧
    (read exCls ([.read 0, .replace [(1, 5)], .read 0].foldl (apply exCls) ⟨fun n => n, fun _ => none⟩) 0).1 = 5 ∧
    (∃ n ∈ names exCls, n ∉ ([(0, 1)] : List (Nat × Nat)).map Prod.fst) ∧
    (∃ m ∈ ([(0, 1), (1, 1), (2, 3)] : List (Nat × Nat)).map Prod.fst, m ∉ names exCls) := by
  decide

example := C70_missing exCls (by decide) ⟨fun n => n, fun _ => none⟩ [(0, 1)] (by decide)

example := C70_unknown exCls (by decide) ⟨fun n => n, fun _ => none⟩ [(0, 1), (1, 1), (2, 3)] (by decide)

example := C70_restore exCls (by decide) ⟨fun n => n, fun _ => some 3⟩ [(0, 1), (1, 4)] (by decide) (by decide)

example := C70_round_trip exCls (by decide) ⟨fun n => n, fun _ => some 3⟩ ⟨fun _ => 0, fun _ => none⟩

example := C83_tree_map_partial exCls ⟨fun n => n, fun _ => none⟩ (fun v => v + 1) (fun _ => rfl) 0

end Verif.Dataclass

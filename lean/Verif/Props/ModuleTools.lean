import Verif.Model.ModuleTools
import Mathlib.Data.List.Perm.Basic

/-! C233: hiding submodules, exporting names and the renamed modules. C234: what does not hold. -/

namespace Verif.ModTools

open Verif.Hilbert (Err)

/-- specification: the public attributes with the name of a python file of the package, unless excepted. -/
def Hides {V : Type} (m : Attrs V) (files ignore : List Name) (n : Name) : Prop :=
  n.head? ≠ some '_' ∧ n ∉ ignore ∧ n ++ ".py".toList ∈ files ∧ (m n).isSome = true

theorem hides_iff {V : Type} {m : Attrs V} {files ignore : List Name} {n : Name} :
    Hides m files ignore n ↔ n.head? ≠ some '_' ∧ n ∉ ignore ∧ n ++ py ∈ files ∧ (m n).isSome = true := Iff.rfl

open Classical in
/-- specification: the attributes afterwards. -/
noncomputable def after {V : Type} (m : Attrs V) (files ignore : List Name) : Attrs V := fun k =>
  if Hides m files ignore k then none
  else if k.head? = some '_' ∧ Hides m files ignore k.tail then m k.tail else m k

theorem modName_some {f n : Name} (h : modName f = some n) : f = n ++ py := by
  unfold modName at h
  split at h
  · next hc =>
    simp only [Option.some.injEq] at h
    rw [← h, ← hc.1, List.take_append_drop]
  · simp at h

theorem modName_append {n : Name} (h : n.head? ≠ some '_') : modName (n ++ py) = some n := by
  have h1 : (n ++ py).length - 3 = n.length := by simp [py]
  unfold modName
  rw [h1, List.drop_left, List.take_left, if_pos]
  refine ⟨rfl, fun hc => h ?_⟩
  cases n with
  | nil => exact absurd hc (by decide)
  | cons c t =>
    have h2 : "__init__.py".toList = '_' :: "_init__.py".toList := by decide
    rw [h2, List.cons_append, List.cons.injEq] at hc
    rw [hc.1]; rfl

theorem hides_nil {V : Type} {m : Attrs V} {ignore : List Name} {k : Name} : ¬ Hides m [] ignore k := by
  rw [hides_iff]; simp

theorem after_nil {V : Type} (m : Attrs V) (ignore : List Name) : after m [] ignore = m := by
  funext k
  simp [after, hides_nil]

theorem after_empty {V : Type} {m : Attrs V} (h0 : m [] = none) (files ignore : List Name) :
    after m files ignore [] = none := by
  simp [after, hides_iff, h0]

theorem after_underscore {V : Type} {m : Attrs V} {files ignore : List Name} {n : Name}
    (h : Hides m files ignore n) : after m files ignore ('_' :: n) = m n := by
  have : ¬ Hides m files ignore ('_' :: n) := fun hc => hc.1 rfl
  simp [after, this, h]

theorem after_hidden {V : Type} {m : Attrs V} {files ignore : List Name} {n : Name}
    (h : Hides m files ignore n) : after m files ignore n = none := by
  simp [after, h]

theorem after_public {V : Type} {m : Attrs V} {files ignore : List Name} {n : Name} (hu : n.head? ≠ some '_')
    (h : ¬ Hides m files ignore n) : after m files ignore n = m n := by
  simp [after, h, hu]

theorem after_private {V : Type} {m : Attrs V} {files ignore : List Name} {n : Name}
    (h : ¬ Hides m files ignore n) : after m files ignore ('_' :: n) = m ('_' :: n) := by
  have : ¬ Hides m files ignore ('_' :: n) := fun hc => hc.1 rfl
  simp [after, this, h]

/-- one file. -/
theorem hideFile_eq {V : Type} {m : Attrs V} (h0 : m [] = none) (ignore : List Name) (f : Name) :
    hideFile ignore m f = (after m [f] ignore, none) := by
  have key : (∀ n, ¬ Hides m [f] ignore n) → after m [f] ignore = m := by
    intro h; funext k; simp [after, h]
  unfold hideFile
  split
  · next hn =>
    rw [key]
    intro n hh
    have := hh.2.2.1
    rw [List.mem_singleton] at this
    rw [← this] at hn
    have h2 := modName_append hh.1
    exact absurd (hn.symm.trans h2) (by simp)
  · next n hn =>
    have hf := modName_some hn
    have uniq : ∀ k, k ++ py ∈ [f] → k = n := by
      intro k hk
      rw [List.mem_singleton, hf] at hk
      exact List.append_cancel_right hk
    split
    · next hm =>
      rw [key]
      intro k hk
      have := uniq k hk.2.2.1
      have h3 := hk.2.2.2
      rw [this, hm] at h3
      simp at h3
    · next v hm =>
      cases n with
      | nil => rw [h0] at hm; simp at hm
      | cons c t =>
        dsimp only
        split
        · next hc =>
          have hh : Hides m [f] ignore (c :: t) :=
            ⟨by simpa using hc.1, hc.2, by rw [hf]; exact List.mem_singleton.mpr rfl, by rw [hm]; rfl⟩
          congr 1
          funext k
          unfold delattr setattr
          by_cases hk : k = c :: t
          · rw [if_pos hk, hk, after_hidden hh]
          · rw [if_neg hk]
            by_cases hk2 : k = '_' :: c :: t
            · rw [if_pos hk2, hk2, after_underscore hh, hm]
            · rw [if_neg hk2]
              have hnk : ¬ Hides m [f] ignore k := fun h => hk (uniq k h.2.2.1)
              cases k with
              | nil => rw [after_empty h0, h0]
              | cons d u =>
                by_cases hd : d = '_'
                · subst hd
                  rw [after_private]
                  intro h
                  exact hk2 (by rw [uniq u h.2.2.1])
                · rw [after_public (by simpa using hd) hnk]
        · next hc =>
          rw [key]
          intro k hk
          have hkk := uniq k hk.2.2.1
          rw [hkk] at hk
          exact hc ⟨by simpa using hk.1, hk.2.1⟩

theorem hides_cons {V : Type} {m : Attrs V} {f : Name} {fs ignore : List Name} {n : Name} :
    Hides m (f :: fs) ignore n ↔ Hides m [f] ignore n ∨ Hides m fs ignore n := by
  simp only [hides_iff, List.mem_cons, List.not_mem_nil, or_false]
  tauto

theorem hides_after {V : Type} {m : Attrs V} {f : Name} {fs ignore : List Name} {n : Name} :
    Hides (after m [f] ignore) fs ignore n ↔ Hides m fs ignore n ∧ ¬ Hides m [f] ignore n := by
  by_cases hu : n.head? = some '_'
  · simp only [hides_iff, hu]; tauto
  · by_cases h : Hides m [f] ignore n
    · simp only [h, not_true_eq_false, and_false, iff_false]
      intro hc
      have := hc.2.2.2
      rw [after_hidden h] at this
      simp at this
    · have e := after_public hu h
      simp only [h, not_false_eq_true, and_true]
      rw [hides_iff, hides_iff, e]

/-- composition of the steps. -/
theorem after_cons {V : Type} {m : Attrs V} (h0 : m [] = none) (f : Name) (fs ignore : List Name) :
    after (after m [f] ignore) fs ignore = after m (f :: fs) ignore := by
  funext k
  cases k with
  | nil => rw [after_empty (after_empty h0 _ _), after_empty h0]
  | cons c t =>
    by_cases hc : c = '_'
    · subst hc
      by_cases h1 : Hides m [f] ignore t
      · have hn : ¬ Hides (after m [f] ignore) fs ignore t := by rw [hides_after]; tauto
        rw [after_private hn, after_underscore h1, after_underscore (hides_cons.mpr (.inl h1))]
      · by_cases h2 : Hides m fs ignore t
        · rw [after_underscore (hides_after.mpr ⟨h2, h1⟩), after_public h2.1 h1,
            after_underscore (hides_cons.mpr (.inr h2))]
        · have hn : ¬ Hides (after m [f] ignore) fs ignore t := by rw [hides_after]; tauto
          rw [after_private hn, after_private h1, after_private (by rw [hides_cons]; tauto)]
    · have hu : (c :: t).head? ≠ some '_' := by simpa using hc
      by_cases h1 : Hides m [f] ignore (c :: t)
      · have hn : ¬ Hides (after m [f] ignore) fs ignore (c :: t) := by rw [hides_after]; tauto
        rw [after_public hu hn, after_hidden h1, after_hidden (hides_cons.mpr (.inl h1))]
      · by_cases h2 : Hides m fs ignore (c :: t)
        · rw [after_hidden (hides_after.mpr ⟨h2, h1⟩), after_hidden (hides_cons.mpr (.inr h2))]
        · have hn : ¬ Hides (after m [f] ignore) fs ignore (c :: t) := by rw [hides_after]; tauto
          rw [after_public hu hn, after_public hu h1, after_public hu (by rw [hides_cons]; tauto)]

theorem hideLoop_eq {V : Type} (ignore : List Name) (files : List Name) :
    ∀ (m : Attrs V), m [] = none → hideLoop ignore m files = (after m files ignore, none) := by
  induction files with
  | nil => intro m _; rw [after_nil]; rfl
  | cons f fs ih =>
    intro m h0
    unfold hideLoop
    rw [hideFile_eq h0]
    dsimp only
    rw [ih _ (after_empty h0 _ _), after_cons h0]

theorem hideSubmodules_eq {V : Type} {m : Attrs V} (h0 : m [] = none) (files : List Name) (rs : Bool)
    (ignore : List Name) :
    hideSubmodules m files rs ignore =
      (fun k => if rs = true ∧ k = selfName then none else after m files ignore k, none) := by
  unfold hideSubmodules
  rw [hideLoop_eq ignore files m h0]
  dsimp only
  congr 1
  funext k
  cases rs with
  | false => simp
  | true =>
    by_cases hk : k = selfName
    · subst hk
      cases hs : after m files ignore selfName with
      | none => simp [hs]
      | some v => simp [delattr]
    · cases hs : after m files ignore selfName with
      | none => simp [hk]
      | some v => simp [delattr, hk]

/-- C233: the public attributes with the name of a file are renamed with an underscore; all others that are public keep
their values; nothing raises. -/
theorem C233_hide {V : Type} {m : Attrs V} (h0 : m [] = none) (files : List Name) (rs : Bool) (ignore : List Name) :
    (hideSubmodules m files rs ignore).2 = none ∧
    (∀ n, Hides m files ignore n →
      (hideSubmodules m files rs ignore).1 n = none ∧
      ('_' :: n ≠ "_hide_submodules".toList → (hideSubmodules m files rs ignore).1 ('_' :: n) = m n)) ∧
    (∀ n, n.head? ≠ some '_' → ¬ Hides m files ignore n → (hideSubmodules m files rs ignore).1 n = m n) ∧
    (hideSubmodules m files true ignore).1 "_hide_submodules".toList = none := by
  rw [hideSubmodules_eq h0, hideSubmodules_eq h0]
  have hsn : selfName.head? = some '_' := by decide
  refine ⟨rfl, fun n hn => ⟨?_, fun hne => ?_⟩, fun n hu hn => ?_, ?_⟩
  · dsimp only
    rw [after_hidden hn, ite_self]
  · dsimp only
    rw [if_neg (fun h => hne h.2), after_underscore hn]
  · dsimp only
    rw [if_neg, after_public hu hn]
    rintro ⟨_, rfl⟩
    exact hu hsn
  · dsimp only
    rw [if_pos (⟨rfl, rfl⟩ : true = true ∧ "_hide_submodules".toList = selfName)]

/-- C233: private attributes keep their values unless a hidden submodule takes their name, or the function removes itself as
asked to. -/
theorem C233_private {V : Type} {m : Attrs V} (h0 : m [] = none) (files : List Name) (rs : Bool) (ignore : List Name)
    (n : Name) (hn : ¬ Hides m files ignore n) (hs : rs = true → '_' :: n ≠ "_hide_submodules".toList) :
    (hideSubmodules m files rs ignore).1 ('_' :: n) = m ('_' :: n) := by
  rw [hideSubmodules_eq h0]
  dsimp only
  rw [if_neg (fun h => hs h.1 h.2), after_private hn]

/-- C233: the order in which the operating system lists the directory does not matter, nor do repetitions. -/
theorem C233_order {V : Type} {m : Attrs V} (h0 : m [] = none) {files files' : List Name}
    (h : ∀ f, f ∈ files ↔ f ∈ files') (rs : Bool) (ignore : List Name) :
    hideSubmodules m files rs ignore = hideSubmodules m files' rs ignore := by
  rw [hideSubmodules_eq h0, hideSubmodules_eq h0]
  have hh : ∀ n, Hides m files ignore n ↔ Hides m files' ignore n := fun n => by
    rw [hides_iff, hides_iff, h]
  have : after m files ignore = after m files' ignore := by
    have hp : Hides m files ignore = Hides m files' ignore := funext fun n => propext (hh n)
    unfold after
    rw [hp]
  rw [this]

/-- C233: a second call changes nothing. -/
theorem C233_idempotent {V : Type} {m : Attrs V} (h0 : m [] = none) (files : List Name) (rs : Bool)
    (ignore : List Name) :
    hideSubmodules (hideSubmodules m files rs ignore).1 files rs ignore = hideSubmodules m files rs ignore := by
  have e := hideSubmodules_eq h0 files rs ignore
  have hsn : selfName.head? = some '_' := by decide
  have h0' : (hideSubmodules m files rs ignore).1 [] = none := by
    rw [e]; dsimp only; rw [after_empty h0, ite_self]
  have hno : ∀ n, ¬ Hides (hideSubmodules m files rs ignore).1 files ignore n := by
    intro n hn
    have hs := hn.2.2.2
    obtain ⟨-, hc, hp, -⟩ := C233_hide h0 files rs ignore
    by_cases hh : Hides m files ignore n
    · rw [(hc n hh).1] at hs; simp at hs
    · rw [hp n hn.1 hh] at hs
      exact hh ⟨hn.1, hn.2.1, hn.2.2.1, hs⟩
  rw [hideSubmodules_eq h0']
  have ha : after (hideSubmodules m files rs ignore).1 files ignore = (hideSubmodules m files rs ignore).1 := by
    funext k; simp [after, hno]
  rw [ha, e]
  congr 1
  funext k
  dsimp only
  split <;> rfl

/-- C233: `dir` of a module shows the exported names in the order of their definitions. -/
theorem C233_export (all : All) (names : List Name) (hn : names ≠ [] ∨ all ≠ none) :
    dirOf (names.foldl export_ all) = .ok (all.getD [] ++ names) := by
  induction names generalizing all with
  | nil =>
    cases all with
    | none => simp at hn
    | some l => simp [dirOf]
  | cons n ns ih =>
    rw [List.foldl_cons, ih _ (.inr (by cases all <;> simp [export_]))]
    cases all <;> simp [export_]

/-- C233: `netket.optim.X` is `netket.optimizer.X` for all public names that the new module has at the import and when
the name is used; all other names raise AttributeError. -/
theorem C233_shim {V : Type} (atImport now : List (Name × V)) (n : Name) :
    (∀ v, n ∈ atImport.map Prod.fst → n.head? ≠ some '_' → now.lookup n = some v →
      shimGetattr (deprecatedNames atImport) now n = .ok v) ∧
    (n ∉ atImport.map Prod.fst ∨ n.head? = some '_' →
      shimGetattr (deprecatedNames atImport) now n = .error .attributeError) := by
  constructor
  · intro v h1 h2 h3
    have : n ∈ deprecatedNames atImport := by
      unfold deprecatedNames
      rw [List.mem_filter]
      exact ⟨h1, by simpa using h2⟩
    simp [shimGetattr, this, h3]
  · intro h
    have : n ∉ deprecatedNames atImport := by
      unfold deprecatedNames
      rw [List.mem_filter]
      rintro ⟨h1, h2⟩
      rcases h with h | h
      · exact h h1
      · simp [h] at h2
    simp [shimGetattr, this]

/-- a package with the files `a.py`, `_a.py`, `b.py`, `__init__.py`. -/
def exFiles : List Name := ["__init__.py".toList, "_a.py".toList, "a.py".toList, "b.py".toList]

/-- its attributes: the submodules and a function named `f`. -/
def exMod : Attrs Nat := fun k =>
  if k = "a".toList then some 1 else if k = "_a".toList then some 2 else if k = "b".toList then some 3
  else if k = "f".toList then some 4 else if k = "_hide_submodules".toList then some 5 else none

theorem exMod_empty : exMod [] = none := by decide

example : Hides exMod exFiles [] "b".toList := by unfold Hides; decide
example : ¬ Hides exMod exFiles ["b".toList] "b".toList := by unfold Hides; decide
example : ¬ Hides exMod exFiles [] "f".toList := by unfold Hides; decide
example : ¬ Hides exMod exFiles [] "hide_submodules".toList := by unfold Hides; decide
example : (hideSubmodules exMod exFiles true []).1 "_b".toList = some 3 := by decide
example : dirOf (["f".toList, "g".toList].foldl export_ none) = .ok ["f".toList, "g".toList] := rfl

/-- C234: it is not true that all objects of the package can still be reached after hiding: a private submodule `_a` is
lost when there is a public one `a`. -/
theorem C234_lost_refuted :
    ¬ ∀ (m : Attrs Nat) (files : List Name) (v : Nat), m [] = none → m "_hide_submodules".toList ≠ some v →
      (∃ k, m k = some v) → ∃ k, (hideSubmodules m files true []).1 k = some v := by
  intro h
  obtain ⟨k, hk⟩ := h exMod exFiles 2 exMod_empty (by decide) ⟨"_a".toList, by decide⟩
  rw [hideSubmodules_eq exMod_empty] at hk
  dsimp only at hk
  split at hk
  · simp at hk
  · unfold after at hk
    split at hk
    · simp at hk
    · have h2 : ∀ j, exMod j = some 2 → j = "_a".toList := by
        intro j hj
        unfold exMod at hj
        by_cases h1 : j = "a".toList
        · rw [if_pos h1] at hj; exact absurd hj (by decide)
        rw [if_neg h1] at hj
        by_cases h3 : j = "_a".toList
        · exact h3
        rw [if_neg h3] at hj
        by_cases h4 : j = "b".toList
        · rw [if_pos h4] at hj; exact absurd hj (by decide)
        rw [if_neg h4] at hj
        by_cases h5 : j = "f".toList
        · rw [if_pos h5] at hj; exact absurd hj (by decide)
        rw [if_neg h5] at hj
        by_cases h6 : j = "_hide_submodules".toList
        · rw [if_pos h6] at hj; exact absurd hj (by decide)
        rw [if_neg h6] at hj; exact absurd hj (by decide)
      have ha : Hides exMod exFiles [] "a".toList := by unfold Hides; decide
      split at hk
      · next hc =>
        have := h2 _ hk
        have hf := hc.2.1
        rw [this] at hf
        exact hf (by decide)
      · next hc =>
        have := h2 _ hk
        apply hc
        rw [this]
        exact ⟨by decide, ha⟩

/-- C234, the part that holds: an attribute is kept, or reached with an underscore, unless a public submodule takes its
name or it is the function itself. -/
theorem C234_kept_partial {V : Type} {m : Attrs V} (h0 : m [] = none) (files : List Name) (ignore : List Name)
    (k : Name) (v : V) (hk : m k = some v) (hs : k ≠ "_hide_submodules".toList ∧ '_' :: k ≠ "_hide_submodules".toList)
    (hclash : ∀ n, k = '_' :: n → ¬ Hides m files ignore n) :
    (hideSubmodules m files true ignore).1 k = some v ∨ (hideSubmodules m files true ignore).1 ('_' :: k) = some v := by
  rw [hideSubmodules_eq h0]
  dsimp only
  have e1 : ¬ (true = true ∧ k = selfName) := fun h => hs.1 h.2
  have e2 : ¬ (true = true ∧ '_' :: k = selfName) := fun h => hs.2 h.2
  rw [if_neg e1, if_neg e2]
  by_cases hh : Hides m files ignore k
  · right; rw [after_underscore hh, hk]
  · left
    cases k with
    | nil => rw [h0] at hk; simp at hk
    | cons c t =>
      by_cases hc : c = '_'
      · subst hc
        rw [after_private (hclash t rfl), hk]
      · rw [after_public (by simpa using hc) hh, hk]

example : (hideSubmodules exMod exFiles true []).1 "f".toList = some 4 ∨
    (hideSubmodules exMod exFiles true []).1 ('_' :: "f".toList) = some 4 :=
  C234_kept_partial exMod_empty exFiles [] "f".toList 4 (by decide) ⟨by decide, by decide⟩
    (fun n hn => absurd (congrArg List.head? hn) (by simp))

/-- C234: `dir(netket.optim)` lists names that `netket.optim` refuses. -/
theorem C234_dir_refuted :
    ¬ ∀ (new : List (Name × Nat)) (n : Name), n ∈ shimDir new → ∃ v, shimGetattr (deprecatedNames new) new n = .ok v := by
  intro h
  obtain ⟨v, hv⟩ := h [("_x".toList, 1)] "_x".toList (by decide)
  rw [(C233_shim [("_x".toList, 1)] [("_x".toList, 1)] "_x".toList).2 (.inr (by decide))] at hv
  simp at hv

/-- C234: a module with no exported name cannot be listed once its unexported names are hidden. -/
theorem C234_unexported_refuted : ¬ ∀ all : All, ∃ l, dirOf all = .ok l := by
  intro h
  obtain ⟨l, hl⟩ := h none
  simp [dirOf] at hl

end Verif.ModTools

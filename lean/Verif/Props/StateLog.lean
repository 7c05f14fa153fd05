import Verif.Model.Logging
import Mathlib.Data.List.Basic
import Mathlib.Tactic.Ring

/-! C29: `StateLog` writes every k-th state to a fresh name. -/

set_option linter.unusedSectionVars false
set_option linter.unusedVariables false

namespace Verif.Log
open Verif.Hilbert (Err)

variable {B : Type}

/-! ## Specification -/

/-- the states of the calls number `k·j` among the calls numbered from `i`. -/
def everyKth (k : Nat) : Nat → List (Int × B) → List B
  | _, [] => []
  | i, (_, b) :: r => if i % k = 0 then b :: everyKth k (i + 1) r else everyKth k (i + 1) r

/-- the given states under consecutive numbers from `n` on. -/
def numbered (n : Int) : List B → List (Name × B)
  | [] => []
  | b :: r => (.mpack (toString n), b) :: numbered (n + 1) r

/-- the step of no call is one less than the step of the call before (`prev` for the first). -/
def NoBack : Int → List (Int × B) → Prop
  | _, [] => True
  | prev, (s, _) :: r => s ≠ prev - 1 ∧ NoBack s r

theorem succ_mod (i k : Nat) (hk : 0 < k) : (i + 1) % k = if i % k + 1 = k then 0 else i % k + 1 := by
  have hlt := Nat.mod_lt i hk
  have e : i + 1 = k * (i / k) + (i % k + 1) := by have := Nat.div_add_mod i k; omega
  rw [e, Nat.mul_add_mod]
  have e2 : (k * (i / k) + (i % k + 1) - 1) % k = i % k := by
    rw [← e]; simp
  split_ifs with h
  · rw [h, Nat.mod_self]
  · exact Nat.mod_eq_of_lt (by omega)

theorem everyKth_get (k : Nat) (hk : 0 < k) (calls : List (Int × B)) :
    ∀ i j, (everyKth k i calls)[j]? = (calls[(if i % k = 0 then 0 else k - i % k) + k * j]?).map Prod.snd := by
  induction calls with
  | nil => intro i j; simp [everyKth]
  | cons c r ih =>
    obtain ⟨s, b⟩ := c
    intro i j
    have hlt := Nat.mod_lt i hk
    have hs := succ_mod i k hk
    unfold everyKth
    by_cases h : i % k = 0
    · rw [if_pos h, if_pos h]
      cases j with
      | zero => simp
      | succ j =>
        rw [List.getElem?_cons_succ, ih]
        have e1 : 0 + k * (j + 1) = ((if (i + 1) % k = 0 then 0 else k - (i + 1) % k) + k * j) + 1 := by
          rw [hs, Nat.mul_succ, h]
          generalize k * j = m
          by_cases h2 : 0 + 1 = k
          · rw [if_pos h2, if_pos rfl]; omega
          · rw [if_neg h2, if_neg (by omega)]; omega
        rw [e1, List.getElem?_cons_succ]
    · rw [if_neg h, if_neg h, ih]
      have e1 : (k - i % k) + k * j = ((if (i + 1) % k = 0 then 0 else k - (i + 1) % k) + k * j) + 1 := by
        rw [hs]
        generalize k * j = m
        by_cases h2 : i % k + 1 = k
        · rw [if_pos h2, if_pos rfl]; omega
        · rw [if_neg h2, if_neg (by omega)]; omega
      rw [e1, List.getElem?_cons_succ]

/-- the states picked by `everyKth k 0` are those of the calls 0, k, 2k, ... -/
theorem everyKth_zero (k : Nat) (hk : 0 < k) (calls : List (Int × B)) (j : Nat) :
    (everyKth k 0 calls)[j]? = (calls[k * j]?).map Prod.snd := by
  rw [everyKth_get k hk calls 0 j]
  simp

/-! ## Writing -/

theorem putFile_fresh (n : Name) (b : B) (l : List (Name × B)) (h : n ∉ l.map Prod.fst) :
    putFile n b l = l ++ [(n, b)] := by
  induction l with
  | nil => rfl
  | cons p l ih =>
    obtain ⟨k, c⟩ := p
    rw [List.map_cons, List.mem_cons, not_or] at h
    simp only [putFile, if_neg (Ne.symm h.1), ih h.2, List.cons_append]

/-- no file of `S` has a number `≥ n` as name. -/
def FreshFrom (n : Int) (S : List (Name × B)) : Prop :=
  ∀ m, n ≤ m → (Name.mpack (toString m)) ∉ S.map Prod.fst

theorem writeState_fresh (intOf : String → Option Int) (hint : ∀ n : Int, intOf (toString n) = some n)
    (l : StateLog B) (b : B) (S : List (Name × B)) (hS : l.store = some S) (hf : FreshFrom l.fileStep S) :
    (writeState l b).store = some (S ++ numbered l.fileStep [b])
    ∧ FreshFrom (l.fileStep + 1) (S ++ numbered l.fileStep [b]) := by
  constructor
  · unfold writeState
    simp only [hS, Option.getD_some, numbered, fileName]
    split_ifs
    · rfl
    · rw [putFile_fresh _ _ _ (hf _ (le_refl _))]
  · intro m hm hmem
    rw [List.map_append, List.mem_append] at hmem
    rcases hmem with hmem | hmem
    · exact hf m (by omega) hmem
    · simp only [numbered, List.map_cons, List.map_nil, List.mem_singleton, Name.mpack.injEq] at hmem
      have := hint m
      rw [hmem, hint] at this
      have := Option.some.inj this
      omega

theorem numbered_append (n : Int) (a b : List B) :
    numbered n (a ++ b) = numbered n a ++ numbered (n + a.length) b := by
  induction a generalizing n with
  | nil => simp [numbered]
  | cons x a ih =>
    simp only [List.cons_append, numbered, ih, List.length_cons]
    congr 3
    push_cast
    ring

/-- after the first save: the remaining calls append the picked states under consecutive numbers. -/
theorem stateRun_init (intOf : String → Option Int) (hint : ∀ n : Int, intOf (toString n) = some n)
    (calls : List (Int × B)) : ∀ (l : StateLog B) (S : List (Name × B)), l.init = true →
    0 < l.saveEvery → l.store = some S → FreshFrom l.fileStep S → NoBack l.oldStep calls →
    ∃ l', stateRun intOf l calls = .ok l'
      ∧ l'.store = some (S ++ numbered l.fileStep (everyKth l.saveEvery l.nNotSaved calls)) := by
  induction calls with
  | nil =>
    intro l S _ _ hS _ _
    exact ⟨l, rfl, by simp [everyKth, numbered, hS]⟩
  | cons c r ih =>
    obtain ⟨s, b⟩ := c
    intro l S h1 h2 hS hf hb
    obtain ⟨hb1, hb2⟩ := hb
    by_cases hm : l.nNotSaved % l.saveEvery = 0
    · obtain ⟨w1, w2⟩ := writeState_fresh intOf hint l b S hS hf
      obtain ⟨l', e1, e2⟩ := ih { writeState l b with oldStep := s, nNotSaved := l.nNotSaved + 1 }
        (S ++ numbered l.fileStep [b]) h1 h2 w1 w2 hb2
      refine ⟨l', ?_, ?_⟩
      · simp only [stateRun, stateCall, if_neg (by omega : ¬l.saveEvery = 0), hm, true_or, if_true,
          saveVariables, h1]
        exact e1
      · rw [e2]
        simp only [everyKth, hm, if_true, writeState, numbered, List.append_assoc, List.cons_append,
          List.nil_append]
    · obtain ⟨l', e1, e2⟩ := ih { l with oldStep := s, nNotSaved := l.nNotSaved + 1 } S h1 h2 hS hf hb2
      refine ⟨l', ?_, ?_⟩
      · simp only [stateRun, stateCall, if_neg (by omega : ¬l.saveEvery = 0)]
        rw [if_neg (by rintro (h | h); exacts [hm h, hb1 h])]
        exact e1
      · rw [e2]
        simp only [everyKth, hm, if_false]

/-- C29: for a new logger whose output was initialised with contents `S` and next number `n` free of clashes, the states of
    the calls 0, k, 2k, ... are stored under `n`, `n+1`, ... after the contents `S`, which stay as they are. -/
theorem saved_from (intOf : String → Option Int) (hint : ∀ n : Int, intOf (toString n) = some n)
    (l l0 : StateLog B) (S : List (Name × B)) (hi : l.init = false) (hn : l.nNotSaved = 0)
    (ho : l.oldStep = 0)
    (hk : 0 < l.saveEvery) (h0 : initOutput intOf l = .ok l0) (hS : l0.store = some S)
    (hsame : l0.saveEvery = l.saveEvery ∧ l0.nNotSaved = l.nNotSaved ∧ l0.init = true)
    (hf : FreshFrom l0.fileStep S)
    (calls : List (Int × B)) (hne : calls ≠ []) (hb : NoBack 0 calls) :
    ∃ l', stateRun intOf l calls = .ok l'
      ∧ l'.store = some (S ++ numbered l0.fileStep (everyKth l.saveEvery 0 calls)) := by
  obtain _ | ⟨⟨s, b⟩, r⟩ := calls
  · exact absurd rfl hne
  obtain ⟨w1, w2⟩ := writeState_fresh intOf hint l0 b S hS hf
  obtain ⟨hb1, hb2⟩ := hb
  obtain ⟨l', e1, e2⟩ := stateRun_init intOf hint r
    { writeState l0 b with oldStep := s, nNotSaved := l0.nNotSaved + 1 }
    (S ++ numbered l0.fileStep [b]) hsame.2.2 (by rw [← hsame.1] at hk; exact hk) w1 w2 hb2
  refine ⟨l', ?_, ?_⟩
  · have hm : l.nNotSaved % l.saveEvery = 0 := by rw [hn]; simp
    simp only [stateRun, stateCall, if_neg (by omega : ¬l.saveEvery = 0), hm, true_or, if_true,
      saveVariables, hi, h0]
    exact e1
  · rw [e2]
    simp only [everyKth, Nat.zero_mod, if_true, writeState, numbered, List.append_assoc, List.cons_append,
      List.nil_append, hsame.1, hsame.2.1, hn]

/-! ## The modes -/

theorem le_foldl_max' (l : List Int) : ∀ a : Int, a ≤ l.foldl max a ∧ ∀ x ∈ l, x ≤ l.foldl max a := by
  induction l with
  | nil => intro a; simp
  | cons y l ih =>
    intro a
    rw [List.foldl_cons]
    obtain ⟨h1, h2⟩ := ih (max a y)
    refine ⟨le_trans (le_max_left _ _) h1, ?_⟩
    intro x hx
    rcases List.mem_cons.1 hx with rfl | hx
    · exact le_trans (le_max_right _ _) h1
    · exact h2 x hx

theorem foldl_max_mem (l : List Int) : ∀ a : Int, l.foldl max a = a ∨ l.foldl max a ∈ l := by
  induction l with
  | nil => intro a; simp
  | cons y l ih =>
    intro a
    rw [List.foldl_cons]
    rcases ih (max a y) with h | h
    · rw [h]
      rcases max_choice a y with h' | h' <;> simp [h']
    · exact Or.inr (List.mem_cons_of_mem _ h)

theorem numbers_mem {intOf : String → Option Int} {names : List Name} {ns : List Int}
    (h : numbers intOf names = .ok ns) :
    (∀ f ∈ names, ∃ n ∈ ns, intOf (stem f) = some n) ∧
      ∀ n ∈ ns, ∃ f ∈ names, intOf (stem f) = some n := by
  induction names generalizing ns with
  | nil =>
    simp only [numbers] at h
    obtain rfl := Except.ok.inj h
    simp
  | cons f r ih =>
    simp only [numbers] at h
    rcases h1 : intOf (stem f) with _ | n
    · rw [h1] at h; simp at h
    rw [h1] at h
    simp only at h
    rcases h2 : numbers intOf r with e | ms
    · rw [h2] at h; simp at h
    rw [h2] at h
    obtain rfl := Except.ok.inj h
    obtain ⟨a, b⟩ := ih h2
    constructor
    · intro g hg
      rcases List.mem_cons.1 hg with rfl | hg
      · exact ⟨n, by simp, h1⟩
      · obtain ⟨m, hm, e⟩ := a g hg
        exact ⟨m, by simp [hm], e⟩
    · intro m hm
      rcases List.mem_cons.1 hm with rfl | hm
      · exact ⟨f, by simp, h1⟩
      · obtain ⟨g, hg, e⟩ := b m hm
        exact ⟨g, by simp [hg], e⟩

/-- the next number is one more than the largest number among the names. -/
theorem appendStart_ok {intOf : String → Option Int} {names : List Name} {n : Int}
    (h : appendStart intOf names = .ok n) :
    (∀ f ∈ names, ∃ m, intOf (stem f) = some m ∧ m < n) ∧
      ∃ f ∈ names, intOf (stem f) = some (n - 1) := by
  unfold appendStart at h
  rcases h1 : numbers intOf names with e | ns
  · rw [h1] at h; simp at h
  rw [h1] at h
  obtain ⟨a, b⟩ := numbers_mem h1
  obtain _ | ⟨m, ms⟩ := ns
  · simp [nextNumber] at h
  simp only [nextNumber] at h
  obtain rfl := Except.ok.inj h
  obtain ⟨c, d⟩ := le_foldl_max' ms m
  constructor
  · intro f hf
    obtain ⟨k, hk, e⟩ := a f hf
    refine ⟨k, e, ?_⟩
    rcases List.mem_cons.1 hk with rfl | hk
    · omega
    · have := d k hk; omega
  · have hm : ms.foldl max m ∈ m :: ms := by
      rcases foldl_max_mem ms m with h | h
      · rw [h]; simp
      · exact List.mem_cons_of_mem _ h
    obtain ⟨f, hf, e⟩ := b _ hm
    exact ⟨f, hf, by rw [e]; congr 1; omega⟩

/-- C29, mode "write": the numbering starts at 0; an archive is emptied, in a folder the old `.mpack` files are removed and all
    other files kept. -/
theorem C29_write (intOf : String → Option Int) (hint : ∀ n : Int, intOf (toString n) = some n)
    (m : String) (hm : m = "w" ∨ m = "write") (k : Nat) (hk : 0 < k) (tar : Bool) (store : Store B)
    (calls : List (Int × B)) (hne : calls ≠ []) (hb : NoBack 0 calls) :
    ∃ l l', mkStateLog m k tar store = .ok l ∧ stateRun intOf l calls = .ok l'
      ∧ l'.store = some ((if tar then [] else (store.getD []).filter fun p => !isMpack p.1)
          ++ numbered 0 (everyKth k 0 calls)) := by
  have hmode : parseMode m = .ok .write := by
    unfold parseMode; rw [if_pos hm]
  have hmk : mkStateLog m k tar store = .ok
      { mode := .write, tar := tar, saveEvery := k, oldStep := 0, nNotSaved := 0, init := false
        fileStep := 0, store := if tar then store else some (store.getD []) } := by
    simp [mkStateLog, hmode]
  cases tar with
  | true =>
    obtain ⟨l', h1, h2⟩ := saved_from intOf hint
      { mode := .write, tar := true, saveEvery := k, oldStep := 0, nNotSaved := 0, init := false
        fileStep := 0, store := store } _ [] rfl rfl rfl hk rfl rfl ⟨rfl, rfl, rfl⟩ (by
          intro m _; simp) calls hne hb
    exact ⟨_, l', hmk, h1, h2⟩
  | false =>
    obtain ⟨l', h1, h2⟩ := saved_from intOf hint
      { mode := .write, tar := false, saveEvery := k, oldStep := 0, nNotSaved := 0, init := false
        fileStep := 0, store := some (store.getD []) } _ ((store.getD []).filter fun p => !isMpack p.1)
        rfl rfl rfl hk rfl rfl ⟨rfl, rfl, rfl⟩ (by
          intro m _ hmem
          rw [List.mem_map] at hmem
          obtain ⟨p, hp, e⟩ := hmem
          rw [List.mem_filter] at hp
          rw [e] at hp
          simp [isMpack] at hp) calls hne hb
    exact ⟨_, l', hmk, h1, h2⟩

/-- C29, mode "append": the existing files are kept unchanged and the numbering continues after the largest existing
    number.  Not covered: targets without files (see `C113_append_empty_refuted`) and folders with `.mpack` files whose stem is not a
    number, for which the code raises. -/
theorem C29_append (intOf : String → Option Int) (hint : ∀ n : Int, intOf (toString n) = some n)
    (m : String) (hm : m = "a" ∨ m = "append") (k : Nat) (hk : 0 < k) (tar : Bool)
    (S : List (Name × B)) (hnum : ∀ p ∈ S, (tar = true ∨ isMpack p.1 = true) → (intOf (stem p.1)).isSome)
    (hex : ∃ p ∈ S, tar = true ∨ isMpack p.1 = true)
    (calls : List (Int × B)) (hne : calls ≠ []) (hb : NoBack 0 calls) :
    ∃ l l' n, mkStateLog m k tar (some S) = .ok l ∧ stateRun intOf l calls = .ok l'
      ∧ l'.store = some (S ++ numbered n (everyKth k 0 calls))
      ∧ (∀ p ∈ S, (tar = true ∨ isMpack p.1 = true) → ∃ z, intOf (stem p.1) = some z ∧ z < n)
      ∧ ∃ p ∈ S, intOf (stem p.1) = some (n - 1) := by
  have hmode : parseMode m = .ok .append := by
    unfold parseMode
    rw [if_neg (by rcases hm with rfl | rfl <;> decide), if_pos hm]
  have hmk : mkStateLog m k tar (some S) = .ok
      { mode := .append, tar := tar, saveEvery := k, oldStep := 0, nNotSaved := 0, init := false
        fileStep := 0, store := some S } := by
    cases tar <;> simp [mkStateLog, hmode]
  have hnumbers : ∀ names : List Name, (∀ f ∈ names, (intOf (stem f)).isSome) →
      ∃ ns, numbers intOf names = .ok ns ∧ ns.length = names.length := by
    intro names
    induction names with
    | nil => intro _; exact ⟨[], rfl, rfl⟩
    | cons f r ih =>
      intro h
      obtain ⟨ns, e, e2⟩ := ih fun g hg => h g (List.mem_cons_of_mem _ hg)
      obtain ⟨z, hz⟩ := Option.isSome_iff_exists.1 (h f (by simp))
      exact ⟨z :: ns, by simp only [numbers, hz, e], by simp [e2]⟩
  have hstart : ∀ names : List Name, (∀ f ∈ names, (intOf (stem f)).isSome) → names ≠ [] →
      ∃ n, appendStart intOf names = .ok n := by
    intro names h1 h2
    obtain ⟨ns, e, e2⟩ := hnumbers names h1
    obtain _ | ⟨z, ns⟩ := ns
    · exact absurd (List.eq_nil_of_length_eq_zero e2.symm) h2
    · exact ⟨_, by simp only [appendStart, e, nextNumber]; rfl⟩
  cases tar with
  | true =>
    obtain ⟨n, hn⟩ := hstart (S.map Prod.fst) (by
      intro f hf
      obtain ⟨p, hp, rfl⟩ := List.mem_map.1 hf
      exact hnum p hp (Or.inl rfl)) (by
      obtain ⟨p, hp, _⟩ := hex
      intro h
      rw [List.map_eq_nil_iff] at h
      rw [h] at hp
      simp at hp)
    obtain ⟨a, b⟩ := appendStart_ok hn
    have hinit : initOutput intOf
        { mode := .append, tar := true, saveEvery := k, oldStep := 0, nNotSaved := 0, init := false
          fileStep := 0, store := some S } = .ok
        { mode := .append, tar := true, saveEvery := k, oldStep := 0, nNotSaved := 0, init := true
          fileStep := n, store := some S } := by
      simp only [initOutput, createTar, Option.getD_some, hn, if_true]
    obtain ⟨l', h1, h2⟩ := saved_from intOf hint _ _ S rfl rfl rfl hk hinit rfl ⟨rfl, rfl, rfl⟩ (by
      intro m hm hmem
      obtain ⟨z, hz, hlt⟩ := a _ hmem
      simp only [stem, hint, Option.some.injEq] at hz
      simp only at hm
      omega) calls hne hb
    refine ⟨_, l', n, hmk, h1, h2, ?_, ?_⟩
    · intro p hp _
      exact a p.1 (List.mem_map.2 ⟨p, hp, rfl⟩)
    · obtain ⟨f, hf, e⟩ := b
      obtain ⟨p, hp, rfl⟩ := List.mem_map.1 hf
      exact ⟨p, hp, e⟩
  | false =>
    obtain ⟨n, hn⟩ := hstart ((S.map Prod.fst).filter isMpack) (by
      intro f hf
      rw [List.mem_filter] at hf
      obtain ⟨p, hp, rfl⟩ := List.mem_map.1 hf.1
      exact hnum p hp (Or.inr hf.2)) (by
      obtain ⟨p, hp, h⟩ := hex
      rcases h with h | h
      · simp at h
      · intro h0
        have : p.1 ∈ (S.map Prod.fst).filter isMpack :=
          List.mem_filter.2 ⟨List.mem_map.2 ⟨p, hp, rfl⟩, h⟩
        rw [h0] at this
        simp at this)
    obtain ⟨a, b⟩ := appendStart_ok hn
    have hinit : initOutput intOf
        { mode := .append, tar := false, saveEvery := k, oldStep := 0, nNotSaved := 0, init := false
          fileStep := 0, store := some S } = .ok
        { mode := .append, tar := false, saveEvery := k, oldStep := 0, nNotSaved := 0, init := true
          fileStep := n, store := some S } := by
      simp [initOutput, checkFolder, hn]
    obtain ⟨l', h1, h2⟩ := saved_from intOf hint _ _ S rfl rfl rfl hk hinit rfl ⟨rfl, rfl, rfl⟩ (by
      intro m hm hmem
      obtain ⟨z, hz, hlt⟩ := a _ (List.mem_filter.2 ⟨hmem, rfl⟩)
      simp only [stem, hint, Option.some.injEq] at hz
      simp only at hm
      omega) calls hne hb
    refine ⟨_, l', n, hmk, h1, h2, ?_, ?_⟩
    · intro p hp h
      rcases h with h | h
      · simp at h
      · exact a p.1 (List.mem_filter.2 ⟨List.mem_map.2 ⟨p, hp, rfl⟩, h⟩)
    · obtain ⟨f, hf, e⟩ := b
      rw [List.mem_filter] at hf
      obtain ⟨p, hp, rfl⟩ := List.mem_map.1 hf.1
      exact ⟨p, hp, e⟩

/-- C29, mode "fail" on a new folder: as mode "write". An existing target is rejected. -/
theorem C29_fail (intOf : String → Option Int) (hint : ∀ n : Int, intOf (toString n) = some n)
    (m : String) (hm : m = "x" ∨ m = "fail") (k : Nat) (hk : 0 < k)
    (calls : List (Int × B)) (hne : calls ≠ []) (hb : NoBack 0 calls) :
    (∀ tar (S : List (Name × B)), mkStateLog m k tar (some S) = .error .valueError)
    ∧ ∃ l l', mkStateLog m k false (none : Store B) = .ok l ∧ stateRun intOf l calls = .ok l'
      ∧ l'.store = some (numbered 0 (everyKth k 0 calls)) := by
  have hmode : parseMode m = .ok .fail := by
    unfold parseMode
    rw [if_neg (by rcases hm with rfl | rfl <;> decide), if_neg (by rcases hm with rfl | rfl <;> decide),
      if_pos hm]
  refine ⟨fun tar S => by simp [mkStateLog, hmode], ?_⟩
  obtain ⟨l', h1, h2⟩ := saved_from intOf hint
    { mode := .fail, tar := false, saveEvery := k, oldStep := 0, nNotSaved := 0, init := false
      fileStep := 0, store := some ([] : List (Name × B)) } _ [] rfl rfl rfl hk rfl rfl ⟨rfl, rfl, rfl⟩ (by
      intro m _; simp) calls hne hb
  exact ⟨_, l', by simp [mkStateLog, hmode], h1, by simpa using h2⟩

/-! ## Refutations -/

/-- digits to a number. -/
def readDigits (cs : List Char) : Option Int :=
  if cs = [] ∨ ¬cs.all Char.isDigit then none else some (Nat.ofDigitChars 10 cs 0 : Nat)

/-- a reader of decimal numbers, an instance of `intOf`. -/
def readInt (s : String) : Option Int :=
  match s.toList with
  | '-' :: cs => (readDigits cs).map fun n => -n
  | cs => readDigits cs

theorem readDigits_toDigits (n : Nat) : readDigits (Nat.toDigits 10 n) = some (n : Int) := by
  have h2 : (Nat.toDigits 10 n).all Char.isDigit = true := by
    rw [List.all_eq_true]
    intro c hc
    exact Nat.isDigit_of_mem_toDigits (by omega) (by omega) hc
  unfold readDigits
  rw [if_neg (by rintro (h | h); exacts [Nat.toDigits_ne_nil h, h h2]), Nat.ofDigitChars_ten_toDigits]

/-- the hypothesis on `intOf` in the theorems above is met. -/
theorem readInt_toString (n : Int) : readInt (toString n) = some n := by
  cases n with
  | ofNat n =>
    have e : (toString (Int.ofNat n)).toList = Nat.toDigits 10 n := by
      rw [← Nat.toList_repr]; rfl
    unfold readInt
    rw [e]
    split
    · rename_i cs hcs
      have : ('-' : Char).isDigit := Nat.isDigit_of_mem_toDigits (b := 10) (n := n) (by omega) (by omega) (by rw [hcs]; simp)
      exact absurd this (by decide)
    · exact readDigits_toDigits n
  | negSucc n =>
    have e : (toString (Int.negSucc n)).toList = '-' :: Nat.toDigits 10 (n + 1) := by
      rw [← Nat.toList_repr]
      show ("-" ++ Nat.repr (n + 1)).toList = _
      rw [String.toList_append]; rfl
    unfold readInt
    rw [e]
    simp only [readDigits_toDigits, Option.map_some, Option.some.injEq]
    omega

/-- C113 is false for mode "append" on a target without files, where the documentation promises a new one:
    IndexError at the first save. -/
theorem C113_append_empty_refuted :
    ¬ ∀ (tar : Bool) (l : StateLog Nat), mkStateLog "append" 1 tar none = .ok l →
      ∃ l', stateRun readInt l [(0, 7)] = .ok l' := by
  intro hall
  obtain ⟨l', h⟩ := hall false _ rfl
  have : (match stateRun readInt (B := Nat)
      { mode := .append, tar := false, saveEvery := 1, oldStep := 0, nNotSaved := 0, init := false
        fileStep := 0, store := some [] } [(0, 7)] with
      | .ok _ => true
      | .error _ => false) = false := by decide +kernel
  have e : stateRun readInt (B := Nat)
      { mode := .append, tar := false, saveEvery := 1, oldStep := 0, nNotSaved := 0, init := false
        fileStep := 0, store := some [] } [(0, 7)] = .ok l' := h
  rw [e] at this
  simp at this

/-- C113 is false for mode "fail" with a tar archive: `TarFile` does not know the mode "f", so every first save raises. -/
theorem C113_fail_tar_refuted :
    ¬ ∀ (l : StateLog Nat), mkStateLog "fail" 1 true none = .ok l →
      ∃ l', stateRun readInt l [(0, 7)] = .ok l' := by
  intro hall
  obtain ⟨l', h⟩ := hall _ rfl
  have e : stateRun readInt (B := Nat)
      { mode := .fail, tar := true, saveEvery := 1, oldStep := 0, nNotSaved := 0, init := false
        fileStep := 0, store := none } [(0, 7)] = .ok l' := h
  simp [stateRun, stateCall, saveVariables, initOutput, createTar] at e

/-! ## Examples -/

/-- contents of the output after some calls, for evaluation. -/
def outcome (mode : String) (k : Nat) (tar : Bool) (store : Store Nat) (calls : List (Int × Nat)) :
    Option (List (Name × Nat)) :=
  match mkStateLog mode k tar store with
  | .error _ => none
  | .ok l => match stateRun readInt l calls with
    | .error _ => none
    | .ok l' => l'.store

example : outcome "w" 2 false (some [(.mpack "0", 1), (.other "notes.txt", 2)])
    [(0, 10), (1, 11), (2, 12), (3, 13), (4, 14)]
    = some [(.other "notes.txt", 2), (.mpack "0", 10), (.mpack "1", 12), (.mpack "2", 14)] := by
  decide +kernel

example : outcome "a" 2 true (some [(.mpack "3", 1), (.mpack "11", 2)]) [(0, 10), (1, 11), (2, 12)]
    = some [(.mpack "3", 1), (.mpack "11", 2), (.mpack "12", 10), (.mpack "13", 12)] := by
  decide +kernel

example := C29_append readInt readInt_toString "a" (Or.inl rfl) 2 (by decide) false
  [(.mpack "3", 1), (.other "notes.txt", 2)] (by decide +kernel) ⟨(.mpack "3", 1), by simp, Or.inr rfl⟩
  [(0, 10), (1, 11), (2, 12)] (by simp) (by simp [NoBack])

example : NoBack 0 [(0, 10), (1, 11), (2, 12), (3, 13), (4, 14)] := by simp [NoBack]

end Verif.Log

import Verif.Model.LatticeArgs
import Verif.Props.Lattice
import Verif.Props.CharTable
import Mathlib.Data.List.Dedup

/-! Theorems on the arguments of lattices (C160, C161). -/

set_option linter.unusedSectionVars false
set_option linter.unusedVariables false

namespace Verif.LatArgs
open Verif.Lat
open Verif.Hilbert (Err)

/-! ## C160: basis vectors and boundary conditions -/

/-- Exactly square arrays are accepted as basis vectors; anything else is a ValueError. -/
theorem C160_basis (shape : List Nat) :
    (∀ n, cleanBasis shape = .ok n ↔ shape = [n, n]) ∧ ((¬ ∃ n, shape = [n, n]) → cleanBasis shape = .error .valueError) := by
  rcases shape with _ | ⟨m, _ | ⟨n, _ | ⟨k, r⟩⟩⟩
  · simp [cleanBasis]
  · simp [cleanBasis]
  · unfold cleanBasis
    by_cases h : m = n
    · subst h
      simp
    · have h' : m ≠ n := h
      simp only [if_pos h']
      refine ⟨?_, fun _ => trivial⟩
      intro k
      simp
      intro h1 h2
      exact h (h1.trans h2.symm)
  · simp [cleanBasis]

theorem allBools_iff (items : List PbcItem) (l : List Bool) : allBools items = some l ↔ items = l.map .bool := by
  induction items generalizing l with
  | nil => cases l <;> simp [allBools]
  | cons x r ih =>
    cases x with
    | other => cases l <;> simp [allBools]
    | bool b =>
      cases l with
      | nil => simp [allBools]
      | cons c l => simp [allBools, ih, and_comm]

/-- A boolean stands for all axes; a sequence of booleans is taken as it is when it has one entry for each axis; anything else
    is a ValueError. -/
theorem C160_pbc (pbc : PbcArg) (ndim : Nat) :
    (∀ l, cleanPbc pbc ndim = .ok l ↔ (∃ b, pbc = .bool b ∧ l = List.replicate ndim b) ∨ (pbc = .seq (l.map .bool) ∧ l.length = ndim))
    ∧ ((∀ l, cleanPbc pbc ndim ≠ .ok l) → cleanPbc pbc ndim = .error .valueError) := by
  cases pbc with
  | bool b => simp [cleanPbc, eq_comm]
  | other => simp [cleanPbc]
  | seq items =>
    unfold cleanPbc
    by_cases h : items.length = ndim
    · simp only [h, ne_eq, not_true_eq_false, if_false]
      rcases hb : allBools items with _ | l
      · simp only [reduceCtorEq, false_and, exists_false, false_or, false_iff, not_false_eq_true, implies_true, and_true,
          PbcArg.seq.injEq]
        rintro l ⟨h1, _⟩
        rw [(allBools_iff items l).2 h1] at hb
        simp at hb
      · refine ⟨?_, fun hn => absurd rfl (hn l)⟩
        intro l'
        have := (allBools_iff items l).1 hb
        simp only [Except.ok.injEq, reduceCtorEq, false_and, exists_false, false_or, PbcArg.seq.injEq]
        constructor
        · rintro rfl
          exact ⟨this, by rw [← h, this, List.length_map]⟩
        · rintro ⟨h1, _⟩
          rw [(allBools_iff items l').2 h1] at hb
          exact (Option.some.inj hb).symm
    · have h' : items.length ≠ ndim := h
      simp only [if_pos h']
      refine ⟨?_, fun _ => trivial⟩
      intro l
      simp only [reduceCtorEq, false_and, exists_false, false_or, PbcArg.seq.injEq, false_iff, not_and]
      rintro rfl h2
      exact h (by rw [List.length_map, h2])

example : cleanPbc (.seq [.bool true, .bool false]) 2 = .ok [true, false] ∧ cleanPbc (.bool true) 2 = .ok [true, true]
    ∧ cleanPbc (.seq [.bool true]) 2 = .error .valueError ∧ cleanPbc (.seq [.bool true, .other]) 2 = .error .valueError
    ∧ cleanPbc .other 2 = .error .valueError := by decide

/-! ## Site offsets -/

theorem lexLt_irrefl (a : List Int) : lexLt a a = false := by
  induction a with
  | nil => rfl
  | cons x r ih => simp [lexLt, ih]

theorem lexLt_trans (a b c : List Int) (h1 : lexLt a b = true) (h2 : lexLt b c = true) : lexLt a c = true := by
  induction a generalizing b c with
  | nil =>
    cases b with
    | nil => simp [lexLt] at h1
    | cons y b =>
      cases c with
      | nil => simp [lexLt] at h2
      | cons z c => rfl
  | cons x a ih =>
    cases b with
    | nil => simp [lexLt] at h1
    | cons y b =>
      cases c with
      | nil => simp [lexLt] at h2
      | cons z c =>
        unfold lexLt at h1 h2 ⊢
        split_ifs at h1 h2 ⊢ <;> first | rfl | omega | exact ih b c h1 h2

theorem lexLt_total (a b : List Int) (hne : a ≠ b) (h : lexLt a b = false) : lexLt b a = true := by
  induction a generalizing b with
  | nil =>
    cases b with
    | nil => exact absurd rfl hne
    | cons y b => simp [lexLt] at h
  | cons x a ih =>
    cases b with
    | nil => rfl
    | cons y b =>
      unfold lexLt at h ⊢
      by_cases h1 : x < y
      · rw [if_pos h1] at h; cases h
      · rw [if_neg h1] at h
        by_cases h2 : y < x
        · rw [if_pos h2]
        · rw [if_neg h2] at h
          rw [if_neg h2, if_neg h1]
          have : x = y := by omega
          subst this
          exact ih b (fun he => hne (by rw [he])) h

theorem mem_insertRow (k : List Int) (i : Nat) (l : List (List Int × Nat)) (p : List Int × Nat) :
    p ∈ insertRow k i l → p = (k, i) ∨ p ∈ l := by
  induction l with
  | nil => simp [insertRow]
  | cons q r ih =>
    obtain ⟨k', i'⟩ := q
    unfold insertRow
    split_ifs with h1 h2
    · exact Or.inr
    · intro h
      rcases List.mem_cons.1 h with h | h
      · exact Or.inl h
      · exact Or.inr h
    · intro h
      rcases List.mem_cons.1 h with h | h
      · exact Or.inr (by rw [h]; simp)
      · rcases ih h with h | h
        · exact Or.inl h
        · exact Or.inr (List.mem_cons_of_mem _ h)

theorem insertRow_mem (k : List Int) (i : Nat) (l : List (List Int × Nat)) :
    (∀ p ∈ l, p ∈ insertRow k i l) ∧ (∃ j, (k, j) ∈ insertRow k i l)
    ∧ ((∃ j, (k, j) ∈ l) → (l.Pairwise fun p q => lexLt p.1 q.1 = true) → insertRow k i l = l) := by
  induction l with
  | nil => exact ⟨by simp, ⟨i, by simp [insertRow]⟩, by simp⟩
  | cons q r ih =>
    obtain ⟨k', i'⟩ := q
    unfold insertRow
    split_ifs with h1 h2
    · subst h1
      exact ⟨fun p hp => hp, ⟨i', by simp⟩, fun _ _ => rfl⟩
    · refine ⟨fun p hp => List.mem_cons_of_mem _ hp, ⟨i, by simp⟩, ?_⟩
      rintro ⟨j, hj⟩ hs
      exfalso
      rcases List.mem_cons.1 hj with hj | hj
      · exact h1 (by rw [Prod.mk.injEq] at hj; exact hj.1)
      · have h3 := List.rel_of_pairwise_cons hs hj
        have h4 := lexLt_trans _ _ _ h2 h3
        rw [lexLt_irrefl] at h4
        cases h4
    · refine ⟨?_, ?_, ?_⟩
      · intro p hp
        rcases List.mem_cons.1 hp with rfl | hp
        · simp
        · exact List.mem_cons_of_mem _ (ih.1 p hp)
      · obtain ⟨j, hj⟩ := ih.2.1
        exact ⟨j, List.mem_cons_of_mem _ hj⟩
      · rintro ⟨j, hj⟩ hs
        rcases List.mem_cons.1 hj with hj | hj
        · exact absurd (by rw [Prod.mk.injEq] at hj; exact hj.1) h1
        · rw [ih.2.2 ⟨j, hj⟩ (List.pairwise_cons.1 hs).2]

theorem insertRow_sorted (k : List Int) (i : Nat) (l : List (List Int × Nat)) (h : l.Pairwise fun p q => lexLt p.1 q.1 = true) :
    (insertRow k i l).Pairwise fun p q => lexLt p.1 q.1 = true := by
  induction l with
  | nil => simp [insertRow]
  | cons q r ih =>
    obtain ⟨k', i'⟩ := q
    rw [List.pairwise_cons] at h
    unfold insertRow
    split_ifs with h1 h2
    · exact List.pairwise_cons.2 h
    · refine List.pairwise_cons.2 ⟨?_, List.pairwise_cons.2 h⟩
      intro p hp
      rcases List.mem_cons.1 hp with rfl | hp
      · exact h2
      · exact lexLt_trans _ _ _ h2 (h.1 p hp)
    · refine List.pairwise_cons.2 ⟨?_, ih h.2⟩
      intro p hp
      rcases mem_insertRow k i r p hp with rfl | hp
      · exact lexLt_total _ _ h1 (by simpa using h2)
      · exact h.1 p hp

/-- the rows in increasing order, each with the index of its first occurrence. -/
theorem uniqueRows_spec (keys : List (List Int)) :
    ((uniqueRows keys).Pairwise fun p q => lexLt p.1 q.1 = true)
    ∧ (∀ k i, (k, i) ∈ uniqueRows keys ↔ keys[i]? = some k ∧ ∀ j < i, keys[j]? ≠ some k) := by
  suffices h : ∀ (l : List (List Int)), ((l.zipIdx).foldl (fun acc p => insertRow p.1 p.2 acc) [] |>.Pairwise
      fun p q => lexLt p.1 q.1 = true)
      ∧ (∀ k i, (k, i) ∈ (l.zipIdx).foldl (fun acc p => insertRow p.1 p.2 acc) [] ↔ l[i]? = some k ∧ ∀ j < i, l[j]? ≠ some k) from
    h keys
  intro l
  induction l using List.reverseRecOn with
  | nil => simp
  | append_singleton l x ih =>
    rw [List.zipIdx_append, List.foldl_append]
    set acc := (l.zipIdx).foldl (fun acc p => insertRow p.1 p.2 acc) [] with hacc
    simp only [List.zipIdx_cons, List.zipIdx_nil, List.foldl_cons, List.foldl_nil, Nat.zero_add]
    refine ⟨insertRow_sorted _ _ _ ih.1, ?_⟩
    have hold : ∀ (k : List Int) (i : Nat), i < l.length → ((l ++ [x])[i]? = l[i]?) := fun k i hi => List.getElem?_append_left hi
    by_cases hx : x ∈ l
    · -- already present: nothing changes
      obtain ⟨i0, hi0⟩ := List.mem_iff_getElem?.1 hx
      have hex : ∃ i : Nat, l[i]? = some x ∧ ∀ j < i, l[j]? ≠ some x := by
        classical
        have hP : ∃ i : Nat, l[i]? = some x := ⟨i0, hi0⟩
        exact ⟨Nat.find hP, Nat.find_spec hP, fun j hj => Nat.find_min hP hj⟩
      obtain ⟨i1, h1, h2⟩ := hex
      have hmem : ∃ j, (x, j) ∈ acc := ⟨i1, (ih.2 x i1).2 ⟨h1, h2⟩⟩
      rw [(insertRow_mem x l.length acc).2.2 hmem ih.1]
      intro k i
      rw [ih.2 k i]
      constructor
      · rintro ⟨g1, g2⟩
        have hi := (List.getElem?_eq_some_iff.1 g1).1
        refine ⟨by rw [hold k i hi]; exact g1, fun j hj => ?_⟩
        rw [hold k j (by omega)]
        exact g2 j hj
      · rintro ⟨g1, g2⟩
        have hi : i < l.length := by
          by_contra hge
          have hlt := (List.getElem?_eq_some_iff.1 g1).1
          have : i = l.length := by simp at hlt; omega
          subst this
          rw [List.getElem?_append_right (le_refl _)] at g1
          simp at g1
          subst g1
          have hi1 := (List.getElem?_eq_some_iff.1 h1).1
          exact g2 i1 hi1 (by rw [hold x i1 hi1]; exact h1)
        refine ⟨by rw [← hold k i hi]; exact g1, fun j hj => ?_⟩
        rw [← hold k j (by omega)]
        exact g2 j hj
    · -- a new row
      have hnot : ∀ j, (x, j) ∉ acc := fun j hj => hx (List.mem_of_getElem? ((ih.2 x j).1 hj).1)
      intro k i
      constructor
      · intro h
        rcases mem_insertRow x l.length acc (k, i) h with he | he
        · rw [Prod.mk.injEq] at he
          obtain ⟨rfl, rfl⟩ := he
          refine ⟨by rw [List.getElem?_append_right (le_refl _)]; simp, fun j hj => ?_⟩
          rw [hold k j hj]
          intro hc
          exact hx (List.mem_of_getElem? hc)
        · obtain ⟨g1, g2⟩ := (ih.2 k i).1 he
          have hi := (List.getElem?_eq_some_iff.1 g1).1
          refine ⟨by rw [hold k i hi]; exact g1, fun j hj => ?_⟩
          rw [hold k j (by omega)]
          exact g2 j hj
      · rintro ⟨g1, g2⟩
        by_cases hi : i < l.length
        · refine (insertRow_mem x l.length acc).1 _ ((ih.2 k i).2 ⟨by rw [← hold k i hi]; exact g1, fun j hj => ?_⟩)
          rw [← hold k j (by omega)]
          exact g2 j hj
        · have hlt := (List.getElem?_eq_some_iff.1 g1).1
          have : i = l.length := by simp at hlt; omega
          subst this
          rw [List.getElem?_append_right (le_refl _)] at g1
          simp at g1
          subst g1
          obtain ⟨j, hj⟩ := (insertRow_mem x l.length acc).2.1
          rcases mem_insertRow x l.length acc (x, j) hj with he | he
          · rw [← he]; exact hj
          · exact absurd he (hnot j)

theorem uniqueRows_nodup (keys : List (List Int)) : ((uniqueRows keys).map Prod.fst).Nodup := by
  rw [List.Nodup, List.pairwise_map]
  refine (uniqueRows_spec keys).1.imp ?_
  intro p q h he
  rw [he, lexLt_irrefl] at h
  cases h

theorem uniqueRows_mem (keys : List (List Int)) (k : List Int) : k ∈ (uniqueRows keys).map Prod.fst ↔ k ∈ keys := by
  rw [List.mem_map]
  constructor
  · rintro ⟨⟨k', i⟩, h, rfl⟩
    exact List.mem_of_getElem? (((uniqueRows_spec keys).2 _ _).1 h).1
  · intro h
    classical
    have hP : ∃ i : Nat, keys[i]? = some k := List.mem_iff_getElem?.1 h
    exact ⟨(k, Nat.find hP), ((uniqueRows_spec keys).2 _ _).2 ⟨Nat.find_spec hP, fun j hj => Nat.find_min hP hj⟩, rfl⟩

theorem uniqueRows_length (keys : List (List Int)) : keys.length = (uniqueRows keys).length ↔ keys.Nodup := by
  classical
  have h1 : ((uniqueRows keys).map Prod.fst).Perm keys.dedup := by
    rw [List.perm_ext_iff_of_nodup (uniqueRows_nodup keys) (List.nodup_dedup keys)]
    intro k
    rw [uniqueRows_mem, List.mem_dedup]
  have h2 := h1.length_eq
  rw [List.length_map] at h2
  rw [h2]
  constructor
  · intro h
    have := (List.dedup_sublist keys).eq_of_length h.symm
    rw [← this]
    exact List.nodup_dedup keys
  · intro h
    rw [List.Nodup.dedup h]

section
variable {K : Type} [Field K] [LinearOrder K] [IsStrictOrderedRing K] [FloorRing K]

/-- the bins of the fractional coordinates, modulo the cell. -/
def cellKey (f : List K) : List Int := f.map fun x => comparable x % 3326400

/-- what `_clean_site_offsets` returns: the offsets given (by either name), or the origin. -/
def offsetsGiven (ndim : Nat) (siteOffsets atomsCoord : Option (List (List K))) : List (List K) :=
  match atomsCoord, siteOffsets with
  | some l, _ => l
  | none, some l => l
  | none, none => [List.replicate ndim 0]

theorem cellKey_eq (f : List K) : (f.map (comparablePeriodic true)) = cellKey f := by
  apply List.map_congr_left
  intro x _
  simp [comparablePeriodic]

/-- Both names at once are a ValueError; otherwise the offsets are the ones given (the origin if none), of each class of offsets
    equal modulo the cell the first one is kept, a warning says so if there was a repetition, in which case the
    offsets are ordered by their position in the cell; without repetition they stay as given. -/
theorem C160_offsets (ndim : Nat) (toFrac : List K → List K) (siteOffsets atomsCoord : Option (List (List K))) :
    (siteOffsets.isSome ∧ atomsCoord.isSome → cleanOffsets ndim toFrac siteOffsets atomsCoord = .error .valueError)
    ∧ (¬(siteOffsets.isSome ∧ atomsCoord.isSome) → ∃ offs w, cleanOffsets ndim toFrac siteOffsets atomsCoord = .ok (offs, offs.map toFrac, w)
      ∧ (Warning.atomsCoord ∈ w ↔ atomsCoord.isSome)
      ∧ (((offsetsGiven ndim siteOffsets atomsCoord).map fun o => cellKey (toFrac o)).Nodup →
        offs = offsetsGiven ndim siteOffsets atomsCoord ∧ Warning.duplicates ∉ w)
      ∧ (¬((offsetsGiven ndim siteOffsets atomsCoord).map fun o => cellKey (toFrac o)).Nodup →
        Warning.duplicates ∈ w
        ∧ (offs.Pairwise fun o o' => lexLt (cellKey (toFrac o)) (cellKey (toFrac o')) = true)
        ∧ ∀ o, o ∈ offs ↔ ∃ i : Nat, (offsetsGiven ndim siteOffsets atomsCoord)[i]? = some o
          ∧ ∀ (j : Nat) o', j < i → (offsetsGiven ndim siteOffsets atomsCoord)[j]? = some o' → cellKey (toFrac o') ≠ cellKey (toFrac o))) := by
  constructor
  · rintro ⟨h1, h2⟩
    obtain ⟨a, rfl⟩ := Option.isSome_iff_exists.1 h1
    obtain ⟨b, rfl⟩ := Option.isSome_iff_exists.1 h2
    rfl
  · intro hne
    set given := offsetsGiven ndim siteOffsets atomsCoord with hg
    set keys := given.map fun o => cellKey (toFrac o) with hk
    set u := uniqueRows keys with hu
    obtain ⟨wout, hw⟩ : ∃ w3 : List Warning, (w3 = [] ∨ w3 = [Warning.outside]) ∧ cleanOffsets ndim toFrac siteOffsets atomsCoord =
        .ok (if given.length ≠ u.length then u.map fun p => given.getD p.2 [] else given,
          if given.length ≠ u.length then u.map fun p => (given.map toFrac).getD p.2 [] else given.map toFrac,
          (if atomsCoord.isSome then [Warning.atomsCoord] else []) ++ (if given.length ≠ u.length then [Warning.duplicates] else []) ++ w3) := by
      have hkeys : ((given.map toFrac).map fun f => f.map (comparablePeriodic true)) = keys := by
        rw [hk, List.map_map]
        apply List.map_congr_left
        intro o _
        exact cellKey_eq _
      have hgiven : (if atomsCoord.isSome then atomsCoord else siteOffsets).getD [List.replicate ndim (0 : K)] = given := by
        rw [hg]
        unfold offsetsGiven
        cases atomsCoord <;> cases siteOffsets <;> rfl
      unfold cleanOffsets
      split
      · exact absurd ⟨rfl, rfl⟩ hne
      · simp only [hgiven, hkeys, ← hu, decide_eq_true_eq]
        refine ⟨_, ?_, rfl⟩
        split_ifs <;> simp
    have hlen : given.length = u.length ↔ keys.Nodup := by
      rw [← uniqueRows_length keys, hk, List.length_map]
    have hpk : ∀ p ∈ u, ∃ o, given[p.2]? = some o ∧ cellKey (toFrac o) = p.1
        ∧ ∀ (j : Nat) o', j < p.2 → given[j]? = some o' → cellKey (toFrac o') ≠ p.1 := by
      rintro ⟨k, i⟩ hp
      obtain ⟨h1, h2⟩ := ((uniqueRows_spec keys).2 k i).1 hp
      rw [hk, List.getElem?_map] at h1
      rcases ho : given[i]? with _ | o
      · rw [ho] at h1; simp at h1
      · rw [ho] at h1
        refine ⟨o, rfl, by simpa using h1, ?_⟩
        intro j o' hj ho' he
        apply h2 j hj
        rw [hk, List.getElem?_map, ho']
        simpa using he
    by_cases hd : keys.Nodup
    · have hl := hlen.2 hd
      refine ⟨given, (if atomsCoord.isSome then [Warning.atomsCoord] else []) ++ [] ++ wout, ?_, ?_, fun _ => ⟨rfl, ?_⟩,
        fun h => absurd hd h⟩
      · rw [hw.2]
        simp only [hl, ne_eq, not_true_eq_false, if_false]
      · rcases hw.1 with h | h <;> rw [h] <;> cases atomsCoord <;> simp [hl]
      · rcases hw.1 with h | h <;> rw [h] <;> cases atomsCoord <;> simp [hl]
    · have hl : given.length ≠ u.length := fun h => hd (hlen.1 h)
      refine ⟨u.map fun p => given.getD p.2 [], (if atomsCoord.isSome then [Warning.atomsCoord] else []) ++ [Warning.duplicates] ++ wout, ?_, ?_, fun h => absurd h hd, fun _ => ⟨?_, ?_, ?_⟩⟩
      · rw [hw.2]
        rw [if_pos hl, if_pos hl, if_pos hl, List.map_map]
        congr 2
        congr 1
        apply List.map_congr_left
        intro p hp
        obtain ⟨o, ho, _⟩ := hpk p hp
        simp only [Function.comp, List.getD_eq_getElem?_getD, List.getElem?_map, ho, Option.map_some, Option.getD_some]
      · rcases hw.1 with h | h <;> rw [h] <;> cases atomsCoord <;> simp
      · simp
      · rw [List.pairwise_map]
        refine (uniqueRows_spec keys).1.imp_of_mem ?_
        intro p q hp hq h
        obtain ⟨o, ho, hko, _⟩ := hpk p hp
        obtain ⟨o', ho', hko', _⟩ := hpk q hq
        simp only [List.getD_eq_getElem?_getD, ho, ho', Option.getD_some]
        rw [hko, hko']
        exact h
      · intro o
        rw [List.mem_map]
        constructor
        · rintro ⟨p, hp, rfl⟩
          obtain ⟨o, ho, hko, hfirst⟩ := hpk p hp
          rw [List.getD_eq_getElem?_getD, ho, Option.getD_some]
          refine ⟨p.2, ho, fun j o' hj ho' => ?_⟩
          rw [hko]
          exact hfirst j o' hj ho'
        · rintro ⟨i, ho, hfirst⟩
          refine ⟨(cellKey (toFrac o), i), ((uniqueRows_spec keys).2 _ _).2 ⟨?_, ?_⟩, ?_⟩
          · rw [hk, List.getElem?_map, ho]; rfl
          · intro j hj he
            rw [hk, List.getElem?_map] at he
            rcases hoj : given[j]? with _ | o'
            · rw [hoj] at he; simp at he
            · rw [hoj] at he
              exact hfirst j o' hj hoj (by simpa using he)
          · simp only [List.getD_eq_getElem?_getD, ho, Option.getD_some]

/-- offsets that differ by lattice vectors fall into the same class. -/
theorem C160_offsets_cell (f : List K) (ns : List Int) (h : f.length = ns.length) :
    cellKey (List.zipWith (fun x (n : Int) => x + (n : K)) f ns) = cellKey f := by
  induction f generalizing ns with
  | nil => simp [cellKey]
  | cons x f ih =>
    cases ns with
    | nil => simp at h
    | cons n ns =>
      have h1 := comparablePeriodic_shift x n
      simp only [comparablePeriodic, if_true] at h1
      have h2 := ih ns (by simpa using h)
      simp only [cellKey, List.zipWith_cons_cons, List.map_cons] at h2 ⊢
      rw [h1, h2]

end

/-! ## Grid and its special cases -/

/-- `Grid`: exactly one of `extent` and the deprecated `length` must be given (TypeError otherwise); both mean the same; a wrong `pbc` is
    a ValueError. -/
theorem C160_grid (extent length : Option (List Nat)) (pbc : PbcArg) :
    ((extent.isSome = length.isSome) → grid extent length pbc = .error .typeError)
    ∧ (∀ ext, (extent = some ext ∧ length = none ∨ extent = none ∧ length = some ext) →
      ((∀ p, cleanPbc pbc ext.length ≠ .ok p) → grid extent length pbc = .error .valueError)
      ∧ ∀ p, cleanPbc pbc ext.length = .ok p → (∀ e ∈ ext, 0 < e) → Extended ext p →
        ∃ L, mkGrid ext p = .ok L ∧ grid extent length pbc = .ok (L, p) ∧ L.nNodes = ext.prod) := by
  constructor
  · intro h
    cases extent <;> cases length <;> simp at h <;> rfl
  · intro ext h
    have hg : ∃ b, gridExtent extent length = .ok (ext, b) := by
      rcases h with ⟨rfl, rfl⟩ | ⟨rfl, rfl⟩
      · exact ⟨false, rfl⟩
      · exact ⟨true, rfl⟩
    obtain ⟨b, hg⟩ := hg
    refine ⟨?_, ?_⟩
    · intro hp
      have := (C160_pbc pbc ext.length).2 hp
      simp only [grid, hg, this]
    · intro p hp hpos hext
      have hl : ext.length = p.length := by
        rcases ((C160_pbc pbc ext.length).1 p).1 hp with ⟨b, _, rfl⟩ | ⟨_, h⟩
        · simp
        · exact h.symm
      obtain ⟨L, h1, h2, _⟩ := C34_grid ext p hl hpos hext
      exact ⟨L, h1, by simp only [grid, hg, hp, h1], h2⟩

/-- `Chain`, `Square` and `Cube` are the grids of equal sides: `length ^ n_dim` sites, and their edges are those of the grid. -/
theorem C160_hypercube (length : Nat) (b : Bool) (hl : 0 < length) (hb : b = true ∨ 2 ≤ length) :
    (∀ nDim, 0 < nDim → ∃ L, hypercube length nDim (.bool b) = .ok (L, List.replicate nDim b)
      ∧ mkGrid (List.replicate nDim length) (List.replicate nDim b) = .ok L ∧ L.nNodes = length ^ nDim)
    ∧ chain length (.bool b) = hypercube length 1 (.bool b) ∧ square length (.bool b) = hypercube length 2 (.bool b)
    ∧ cube length (.bool b) = hypercube length 3 (.bool b) := by
  refine ⟨?_, rfl, rfl, rfl⟩
  intro nDim hn
  obtain ⟨L, h1, h2, h3⟩ := ((C160_grid (some (List.replicate nDim length)) none (.bool b)).2 _ (Or.inl ⟨rfl, rfl⟩)).2
    (List.replicate nDim b) (by simp [cleanPbc]) (by
      intro e he
      rw [List.mem_replicate] at he
      omega) (by
      refine ⟨(length, b), ?_, hb⟩
      rw [List.zip_replicate']
      rw [List.mem_replicate]
      exact ⟨by omega, rfl⟩)
  refine ⟨L, h2, h1, ?_⟩
  rw [h3, List.prod_replicate]

example : gridExtent none (some [2, 3]) = .ok ([2, 3], true) ∧ (∃ L, chain 5 (.bool true) = .ok (L, [true]) ∧ L.nNodes = 5) := by
  refine ⟨rfl, ?_⟩
  obtain ⟨L, h, _, h2⟩ := (C160_hypercube 5 true (by omega) (Or.inl rfl)).1 1 (by omega)
  exact ⟨L, h, h2⟩

/-! ## C161: sites outside of the unit cell -/

theorem comparable_zero_one : comparable (0 : ℝ) = 0 ∧ comparable (1 : ℝ) = 3326400 := by
  have h0 : ⌊(5413 / 15629 : ℝ)⌋ = 0 := by
    rw [Int.floor_eq_iff]
    norm_num
  have h1 : ⌊(3326400 + 5413 / 15629 : ℝ)⌋ = 3326400 := by
    rw [Int.floor_eq_iff]
    norm_num
  constructor
  · unfold comparable rint
    rw [zero_mul, zero_add, h0]
    norm_num
  · unfold comparable rint
    rw [one_mul, h1]
    norm_num

/-- The warning about sites outside of the unit cell is never issued, wherever the sites are: the check is made on
    coordinates that are already reduced to the cell. -/
theorem C161_outside_refuted (ndim : Nat) (toFrac : List ℝ → List ℝ) (siteOffsets atomsCoord : Option (List (List ℝ)))
    (offs fr : List (List ℝ)) (w : List Warning)
    (h : cleanOffsets ndim toFrac siteOffsets atomsCoord = .ok (offs, fr, w)) : Warning.outside ∉ w := by
  unfold cleanOffsets at h
  split at h
  · cases h
  · simp only [Except.ok.injEq, Prod.mk.injEq] at h
    obtain ⟨_, _, rfl⟩ := h
    have hout : ∀ (keys : List (List Int)), (∀ k ∈ keys, ∀ x ∈ k, 0 ≤ x ∧ x < 3326400) →
        (keys.any fun k => k.any fun x => decide (x < comparable (0 : ℝ)) || decide (comparable (1 : ℝ) < x)) = false := by
      intro keys hk
      rw [List.any_eq_false]
      intro k hkk
      rw [Bool.not_eq_true, List.any_eq_false]
      intro x hx
      have := hk k hkk x hx
      rw [comparable_zero_one.1, comparable_zero_one.2]
      simp
      omega
    set given := (if atomsCoord.isSome then atomsCoord else siteOffsets).getD [List.replicate ndim (0 : ℝ)] with hg
    have hmod : ∀ k ∈ (given.map toFrac).map (fun f => f.map (comparablePeriodic true)), ∀ x ∈ k, (0 : Int) ≤ x ∧ x < 3326400 := by
      intro k hk x hx
      obtain ⟨f, _, rfl⟩ := List.mem_map.1 hk
      obtain ⟨y, _, rfl⟩ := List.mem_map.1 hx
      simp only [comparablePeriodic, if_true]
      exact ⟨Int.emod_nonneg _ (by norm_num), Int.emod_lt_of_pos _ (by norm_num)⟩
    rw [hout]
    · simp
    · intro k hk
      split_ifs at hk
      · obtain ⟨p, _, rfl⟩ := List.mem_map.1 hk
        rw [List.getD_eq_getElem?_getD]
        rcases hp : ((given.map toFrac).map (fun f => f.map (comparablePeriodic true)))[p.2]? with _ | k'
        · rw [hp]; simp
        · rw [hp]; exact hmod k' (List.mem_of_getElem? hp)
      · exact hmod k hk

/-- a chain with cells of length 1 and two sites per cell, the second one given at 5/2 instead of 1/2. -/
noncomputable def displaced : CommonLat.Geometry 1 where
  basis := ![![1]]
  offsets := [![0], ![5 / 2]]

/-- twice the position, as an integer. -/
def twice (c : List Int) : Int := 2 * c.getD 0 0 + ([0, 5] : List Int).getD (c.getD 1 0).toNat 0

/-- the bin of the distance. -/
def displacedNear (a b : List Int) : Option Int :=
  if (twice a - twice b).natAbs = 1 then some 1663200 else if (twice a - twice b).natAbs = 2 then some 3326400 else none

theorem displaced_pos (c : List Int) : CommonLat.position displaced c 0 = (twice c : ℝ) / 2 := by
  unfold CommonLat.position twice displaced
  rw [Finset.univ_unique, Finset.sum_singleton, Fin.default_eq_zero]
  have : ∀ n : Nat, ([![0], ![5 / 2]] : List (Fin 1 → ℝ)).getD n (fun _ => 0) 0 = ((([0, 5] : List Int).getD n 0 : Int) : ℝ) / 2 := by
    intro n
    rcases n with _ | _ | n <;> simp
  rw [this]
  push_cast
  simp
  ring

theorem comparable_half : comparable (1 / 2 : ℝ) = 1663200 := by
  have h1 : ⌊(1 / 2 * 3326400 + 5413 / 15629 : ℝ)⌋ = 1663200 := by
    rw [Int.floor_eq_iff]
    norm_num
  unfold comparable rint
  rw [h1]
  norm_num

theorem displaced_near : CommonLat.geomNear displaced (1 / 100000) = displacedNear := by
  funext a b
  have hd : CommonLat.dist displaced a b = ((twice a - twice b).natAbs : ℝ) / 2 := by
    unfold CommonLat.dist
    rw [Finset.univ_unique, Finset.sum_singleton, Fin.default_eq_zero, displaced_pos, displaced_pos, Real.sqrt_sq_eq_abs,
      ← sub_div, abs_div, abs_two]
    congr 1
    rw [← Int.cast_sub, ← Int.cast_abs, Int.abs_eq_natAbs]
    rfl
  have hc : CommonLat.cutoff displaced (1 / 100000) = 1 + 1 / 100000 := by
    unfold CommonLat.cutoff
    simp [displaced, List.finRange_succ]
  unfold CommonLat.geomNear displacedNear
  rw [hd, hc]
  generalize (twice a - twice b).natAbs = n
  rcases n with _ | _ | _ | n
  · simp
  · have h : (0 : ℝ) < ((0 + 1 : Nat) : ℝ) / 2 ∧ ((0 + 1 : Nat) : ℝ) / 2 ≤ 1 + 1 / 100000 := by norm_num
    rw [if_pos h, if_pos rfl]
    have : ((0 + 1 : Nat) : ℝ) / 2 = 1 / 2 := by norm_num
    rw [this, comparable_half]
  · have h : (0 : ℝ) < ((0 + 1 + 1 : Nat) : ℝ) / 2 ∧ ((0 + 1 + 1 : Nat) : ℝ) / 2 ≤ 1 + 1 / 100000 := by norm_num
    rw [if_pos h, if_neg (by omega), if_pos rfl]
    have : ((0 + 1 + 1 : Nat) : ℝ) / 2 = 1 := by norm_num
    rw [this, comparable_zero_one.2]
  · have h : ¬((0 : ℝ) < ((n + 1 + 1 + 1 : Nat) : ℝ) / 2 ∧ ((n + 1 + 1 + 1 : Nat) : ℝ) / 2 ≤ 1 + 1 / 100000) := by
      rintro ⟨_, h⟩
      push_cast at h
      have : (0 : ℝ) ≤ n := Nat.cast_nonneg n
      norm_num at h
      linarith
    rw [if_neg h, if_neg (by omega), if_neg (by omega)]

/-- Nearest neighbours are lost when a site is given outside of the unit cell: the ring of six sites at distance 1/2 obtained from
    two sites per cell, the second one given two cells further, lacks an edge, and no warning is issued. -/
theorem C161_edges_refuted :
    ∃ L, CommonLat.mkGeom displaced (1 / 100000) [3] [true] = .ok L ∧ L.nNodes = 6 ∧ L.edges.length = 5
      ∧ (∃ (a b : Nat) (u v v' : List Int), L.basisCoords[a]? = some u ∧ L.basisCoords[b]? = some v
        ∧ v'.getD 0 0 = v.getD 0 0 + 3 ∧ v'.getD 1 0 = v.getD 1 0 ∧ CommonLat.dist displaced u v' = 1 / 2
        ∧ (a, b) ∉ L.edges ∧ (b, a) ∉ L.edges)
      ∧ ∃ offs fr, cleanOffsets 1 (fun x => x) (some [[(0 : ℝ)], [5 / 2]]) none = .ok (offs, fr, []) := by
  have hw : (match mkLattice [3] [true] 2 displacedNear with
    | .ok L => decide (L.nNodes = 6) && decide (L.edges.length = 5) && decide (L.basisCoords[3]? = some [1, 1])
      && decide (L.basisCoords[2]? = some [1, 0]) && decide ((3, 2) ∉ L.edges) && decide ((2, 3) ∉ L.edges)
    | .error _ => false) = true := by decide +kernel
  unfold CommonLat.mkGeom
  rw [displaced_near, show displaced.offsets.length = 2 from rfl]
  rcases hm : mkLattice [3] [true] 2 displacedNear with e | L
  · rw [hm] at hw
    exact absurd hw Bool.false_ne_true
  · rw [hm] at hw
    simp only [Bool.and_eq_true, decide_eq_true_eq] at hw
    obtain ⟨⟨⟨⟨⟨h1, h2⟩, h3⟩, h4⟩, h5⟩, h6⟩ := hw
    refine ⟨L, rfl, h1, h2, ⟨3, 2, [1, 1], [1, 0], [4, 0], h3, h4, rfl, rfl, ?_, h5, h6⟩, ?_⟩
    · unfold CommonLat.dist
      rw [Finset.univ_unique, Finset.sum_singleton, Fin.default_eq_zero, displaced_pos, displaced_pos, Real.sqrt_sq_eq_abs]
      have e1 : twice [1, 1] = 7 := by decide
      have e2 : twice [4, 0] = 8 := by decide
      rw [e1, e2]
      norm_num
    · obtain ⟨offs, w, h7, h8, h9, h10⟩ := (C160_offsets 1 (fun x : List ℝ => x) (some [[(0 : ℝ)], [5 / 2]]) none).2 (by simp)
      have hk : ∀ o ∈ ([Warning.atomsCoord, Warning.duplicates, Warning.outside] : List Warning), o ∉ w := by
        intro o ho
        simp only [List.mem_cons, List.not_mem_nil, or_false] at ho
        rcases ho with rfl | rfl | rfl
        · rw [h8]; simp
        · refine (h9 ?_).2
          have e1 : comparable (5 / 2 : ℝ) = comparable (1 / 2 : ℝ) + 2 * 3326400 := by
            have h1 : ⌊(5 / 2 * 3326400 + 5413 / 15629 : ℝ)⌋ = 8316000 := by
              rw [Int.floor_eq_iff]
              norm_num
            rw [comparable_half]
            unfold comparable rint
            rw [h1]
            norm_num
          simp only [offsetsGiven, List.map_cons, List.map_nil, cellKey, comparable_zero_one.1, e1, comparable_half]
          decide
        · exact C161_outside_refuted _ _ _ _ _ _ _ h7
      have hw0 : w = [] := by
        rw [List.eq_nil_iff_forall_not_mem]
        intro o ho
        cases o
        · exact hk _ (by simp) ho
        · exact hk _ (by simp) ho
        · exact hk _ (by simp) ho
      rw [hw0] at h7
      exact ⟨offs, _, h7⟩

/-- What holds: offsets that are different modulo the cell are left as given and no warning is issued (inside of the cell as well as
    outside of it). -/
theorem C161_inside_partial (ndim : Nat) (toFrac : List ℝ → List ℝ) (l : List (List ℝ))
    (hd : (l.map fun o => cellKey (toFrac o)).Nodup) :
    cleanOffsets ndim toFrac (some l) none = .ok (l, l.map toFrac, []) := by
  obtain ⟨offs, w, h7, h8, h9, h10⟩ := (C160_offsets ndim toFrac (some l) none).2 (by simp)
  obtain ⟨h11, h12⟩ := h9 hd
  have : w = [] := by
    rw [List.eq_nil_iff_forall_not_mem]
    intro o ho
    cases o
    · have := h8.1 ho; simp at this
    · exact h12 ho
    · exact C161_outside_refuted _ _ _ _ _ _ _ h7 ho
  rw [h7, this, h11]
  rfl

end Verif.LatArgs

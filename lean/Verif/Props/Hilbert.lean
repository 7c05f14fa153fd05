import Verif.Lemmas.DiscreteHilbert

/-! Properties C01 - C05: indexing of discrete Hilbert spaces. -/

namespace Verif.Hilbert
open Verif.HilbertIndex Verif.Radix

variable {α : Type}

/-! ### Specification -/

/-- `h` numbers exactly the configurations satisfying `valid`: `numbers_to_states` and
    `states_to_numbers` are mutually inverse between `0 .. n_states-1` and the valid configurations,
    and the numbering is the lexicographic order of configurations (first site most significant). -/
structure Indexes [LinearOrder α] (h : Disc α) (valid : List α → Prop) : Prop where
  size : ∀ σ, valid σ → σ.length = h.size
  toState : ∀ n : Nat, n < h.nStates →
    ∃ σ, h.numbersToStates n = .ok σ ∧ valid σ ∧ h.statesToNumbers σ = .ok n
  toNum : ∀ σ, valid σ →
    ∃ n : Nat, n < h.nStates ∧ h.statesToNumbers σ = .ok n ∧ h.numbersToStates n = .ok σ
  order : ∀ σ τ m n, valid σ → valid τ → h.statesToNumbers σ = .ok m → h.statesToNumbers τ = .ok n →
    (m < n ↔ σ < τ)

/-- configurations of `N` sites with values among `ls`. -/
def ValidHomog (ls : List α) (N : Nat) (σ : List α) : Prop :=
  σ.length = N ∧ ∀ x ∈ σ, x ∈ ls

/-- concatenations of valid configurations of the factors. -/
def ValidTensor : List (Disc α × (List α → Prop)) → List α → Prop
  | [], σ => σ = []
  | p :: ps, σ => ∃ a b, p.2 a ∧ ValidTensor ps b ∧ σ = a ++ b

/-- pairs (row configuration, column configuration). -/
def ValidDoubled (valid : List α → Prop) (σ : List α) : Prop :=
  ∃ a b, valid a ∧ valid b ∧ σ = a ++ b

/-! ### C01 -/

/-- C01: for any non-empty list of distinct local values (in any order) and any number of sites,
    the unconstrained homogeneous space numbers its configurations bijectively and
    lexicographically. -/
theorem C01_homogeneous_indexing [LinearOrder α] (ls : List α) (hn : ls.Nodup) (hne : ls ≠ [])
    (N : Nat) : Indexes (homog ls N) (ValidHomog ls N) where
  size σ h := h.1
  toState n h := by
    rw [show (homog ls N).nStates = ls.length ^ N from nStates_mk ls N] at h
    obtain ⟨σ, h1, h2, h3⟩ := hindex_toState ls hn hne N n h
    refine ⟨σ, ?_, h2, ?_⟩
    · rw [numbersToStates_ok _ _ (by rwa [show (homog ls N).nStates = ls.length ^ N from nStates_mk ls N])]
      simp [homog, h1, orIndexError]
    · rw [statesToNumbers_ok _ _ h2.1]
      simp [homog, h3, orIndexError]
  toNum σ h := by
    obtain ⟨n, h1, h2, h3⟩ := hindex_toNum ls hn hne N σ h
    have hlt : n < (homog ls N).nStates := by
      rwa [show (homog ls N).nStates = ls.length ^ N from nStates_mk ls N]
    refine ⟨n, hlt, ?_, ?_⟩
    · rw [statesToNumbers_ok _ _ h.1]
      simp [homog, h2, orIndexError]
    · rw [numbersToStates_ok _ _ hlt]
      simp [homog, h3, orIndexError]
  order σ τ m n hσ hτ hm hn' := by
    obtain ⟨m', _, h2, _⟩ := hindex_toNum ls hn hne N σ hσ
    obtain ⟨n', _, h2', _⟩ := hindex_toNum ls hn hne N τ hτ
    rw [statesToNumbers_ok _ _ hσ.1] at hm
    rw [statesToNumbers_ok _ _ hτ.1] at hn'
    simp [homog, h2, orIndexError] at hm
    simp [homog, h2', orIndexError] at hn'
    subst hm hn'
    exact hindex_order ls hn N σ τ _ _ hσ hτ h2 h2'

/-- C01: the number of states is `local_size ^ N`. -/
theorem C01_n_states [LinearOrder α] (ls : List α) (N : Nat) :
    (homog ls N).nStates = ls.length ^ N := nStates_mk ls N

example : Indexes (homog [1, -1, 0] 4) (ValidHomog [1, -1, (0 : Int)] 4) :=
  C01_homogeneous_indexing _ (by decide) (by decide) 4
example : (homog [1, (-1 : Int)] 3).numbersToStates 6 = .ok [1, 1, -1] := by decide +kernel

/-- every indexed space: `all_states` lists exactly the valid configurations, in strictly
    increasing lexicographic order (hence each once). -/
theorem C02_all_states [LinearOrder α] (h : Disc α) (valid : List α → Prop) (hi : Indexes h valid) :
    ∃ L, h.allStates = .ok L ∧ L.Pairwise (· < ·) ∧ ∀ σ, σ ∈ L ↔ valid σ := by
  have hex : ∀ n : Nat, ∃ σ, n < h.nStates →
      h.numbersToStates n = .ok σ ∧ valid σ ∧ h.statesToNumbers σ = .ok n := by
    intro n
    by_cases hn : n < h.nStates
    · obtain ⟨σ, hσ⟩ := hi.toState n hn
      exact ⟨σ, fun _ => hσ⟩
    · exact ⟨[], fun hh => absurd hh hn⟩
  choose f hf using hex
  have hmap : ∀ l : List Nat, (∀ n ∈ l, n < h.nStates) →
      l.mapM (fun n : Nat => h.numbersToStates (n : Int)) = Except.ok (l.map f) := by
    intro l
    induction l with
    | nil => intro _; rfl
    | cons a l ih =>
      intro hl
      rw [List.mapM_cons, (hf a (hl a List.mem_cons_self)).1,
        ih fun n hn => hl n (List.mem_cons_of_mem _ hn)]
      rfl
  refine ⟨(List.range h.nStates).map f, hmap _ (by simp), ?_, ?_⟩
  · rw [List.pairwise_map]
    refine List.Pairwise.imp_of_mem ?_ List.pairwise_lt_range
    intro a b ha hb hab
    have ha' := hf a (by simpa using ha)
    have hb' := hf b (by simpa using hb)
    exact (hi.order _ _ _ _ ha'.2.1 hb'.2.1 ha'.2.2 hb'.2.2).1 hab
  · intro σ
    simp only [List.mem_map, List.mem_range]
    constructor
    · rintro ⟨n, hn, rfl⟩
      exact (hf n hn).2.1
    · intro hσ
      obtain ⟨n, hn, h1, h2⟩ := hi.toNum σ hσ
      refine ⟨n, hn, ?_⟩
      have := (hf n hn).1
      rw [h2] at this
      exact (Except.ok.inj this).symm

/-! ### C02 -/

/-- C02 (indexing part; the rejection of invalid states is refuted below): with an arbitrary
    constraint the space numbers exactly the configurations satisfying it. -/
theorem C02_constrained_indexing [LinearOrder α] (ls : List α) (hn : ls.Nodup) (hne : ls ≠ [])
    (N : Nat) (c : List α → Bool) :
    Indexes (homogConstrained ls N c) (fun σ => ValidHomog ls N σ ∧ c σ = true) := by
  have hsorted : (bareNumbers ls N c).Pairwise (· < ·) := filter_range_sorted _ _
  -- state at position k of the bare numbers
  have hraw : ∀ k (hk : k < (bareNumbers ls N c).length), ∃ σ,
      (homogConstrained ls N c).numbersToStates k = .ok σ ∧ (ValidHomog ls N σ ∧ c σ = true) ∧
      (HIndex.mk' ls N).stateToNumber σ = some (bareNumbers ls N c)[k] ∧
      (homogConstrained ls N c).statesToNumbers σ = .ok k := by
    intro k hk
    have hmem := (mem_bareNumbers ls N c (bareNumbers ls N c)[k]).1 (List.getElem_mem hk)
    obtain ⟨hlt, σ, h1, h2⟩ := hmem
    obtain ⟨σ', h1', h3, h4⟩ := hindex_toState ls hn hne N _ hlt
    rw [h1] at h1'
    obtain rfl := Option.some.inj h1'
    refine ⟨σ, ?_, ⟨h3, h2⟩, h4, ?_⟩
    · rw [numbersToStates_ok _ _ hk]
      have hp : pyIndex (bareNumbers ls N c) (k : Int) = .ok (bareNumbers ls N c)[k] := by
        simp [pyIndex, orIndexError, hk]
      simp only [homogConstrained, hp]
      simp [bind, Except.bind, h1, orIndexError]
    · rw [statesToNumbers_ok _ _ h3.1]
      simp only [homogConstrained, h4, orIndexError, bind, Except.bind, toConstrainedNumber]
      rw [searchsorted_getElem hsorted hk, if_neg (by omega)]
  constructor
  · intro σ h; exact h.1.1
  · intro n hn'
    obtain ⟨σ, h1, h2, _, h4⟩ := hraw n hn'
    exact ⟨σ, h1, h2, h4⟩
  · intro σ h
    obtain ⟨n, h1, h2, h3⟩ := hindex_toNum ls hn hne N σ h.1
    have hmem : n ∈ bareNumbers ls N c := (mem_bareNumbers ls N c n).2 ⟨h1, σ, h3, h.2⟩
    obtain ⟨k, hk, rfl⟩ := List.mem_iff_getElem.1 hmem
    obtain ⟨σ', g1, g2, g3, g4⟩ := hraw k hk
    have : σ' = σ := by
      obtain ⟨n', _, e2, e3⟩ := hindex_toNum ls hn hne N σ' g2.1
      rw [g3] at e2
      obtain rfl := Option.some.inj e2
      rw [h3] at e3
      exact (Option.some.inj e3).symm
    subst this
    exact ⟨k, hk, g4, g1⟩
  · intro σ τ m n hσ hτ hm hn'
    obtain ⟨a, _, a2, a3⟩ := hindex_toNum ls hn hne N σ hσ.1
    obtain ⟨b, _, b2, b3⟩ := hindex_toNum ls hn hne N τ hτ.1
    have ha : a ∈ bareNumbers ls N c := (mem_bareNumbers ls N c a).2 ⟨‹_›, σ, a3, hσ.2⟩
    have hb : b ∈ bareNumbers ls N c := (mem_bareNumbers ls N c b).2 ⟨‹_›, τ, b3, hτ.2⟩
    rw [statesToNumbers_ok _ _ hσ.1.1] at hm
    rw [statesToNumbers_ok _ _ hτ.1.1] at hn'
    have sa := searchsorted_mem hsorted ha
    have sb := searchsorted_mem hsorted hb
    simp only [homogConstrained, a2, orIndexError, bind, Except.bind, toConstrainedNumber] at hm
    simp only [homogConstrained, b2, orIndexError, bind, Except.bind, toConstrainedNumber] at hn'
    rw [if_neg (by omega)] at hm
    rw [if_neg (by omega)] at hn'
    rw [← Except.ok.inj hm, ← Except.ok.inj hn', searchsorted_lt_iff hsorted ha hb]
    exact hindex_order ls hn N σ τ _ _ hσ.1 hτ.1 a2 b2

example : Indexes (homogConstrained [0, 1, 2] 3 (fun σ => σ.sum == 2))
    (fun σ => ValidHomog [0, 1, (2 : Int)] 3 σ ∧ (σ.sum == 2) = true) :=
  C02_constrained_indexing _ (by decide) (by decide) 3 _

/-- the rejection clause of C02. -/
def RejectsViolating [LinearOrder α] (ls : List α) (N : Nat) (c : List α → Bool) : Prop :=
  ∀ σ, ValidHomog ls N σ → c σ = false →
    ∃ e, (homogConstrained ls N c).statesToNumbers σ = .error e

/-- C100 refuted: a configuration violating the constraint is silently given the index of another
    configuration: two occupation numbers, total constrained to 1, state (0,0) gets index 0,
    which is the index of (0,1). -/
theorem C100_constraint_refuted :
    ¬ ∀ (ls : List Int) (N : Nat) (c : List Int → Bool), ls.Nodup → ls ≠ [] →
      RejectsViolating ls N c := by
  intro h
  obtain ⟨e, he⟩ := h [0, 1] 2 (fun σ => σ.sum == 1) (by decide) (by decide) [0, 0]
    ⟨rfl, by simp⟩ rfl
  have h2 : (homogConstrained [0, (1 : Int)] 2 (fun σ => σ.sum == 1)).statesToNumbers [0, 0] = .ok 0 := by
    decide +kernel
  rw [h2] at he
  cases he

/-- C100: what happens instead.  A violating configuration is rejected exactly when every allowed
    configuration is lexicographically smaller; otherwise it gets the index of the next allowed one. -/
theorem C100_violating_gets_next_index [LinearOrder α] (ls : List α) (hn : ls.Nodup) (hne : ls ≠ [])
    (N : Nat) (c : List α → Bool) (σ : List α) (hσ : ValidHomog ls N σ) (hc : c σ = false) :
    (∃ k τ, (homogConstrained ls N c).statesToNumbers σ = .ok k ∧
        (homogConstrained ls N c).numbersToStates k = .ok τ ∧ c τ = true ∧ σ < τ ∧
        ∀ υ, ValidHomog ls N υ → c υ = true → υ < τ → υ < σ) ∨
    ((homogConstrained ls N c).statesToNumbers σ = .error .runtimeError ∧
        ∀ υ, ValidHomog ls N υ → c υ = true → υ < σ) := by
  have hsorted : (bareNumbers ls N c).Pairwise (· < ·) := filter_range_sorted _ _
  obtain ⟨n, h1, h2, h3⟩ := hindex_toNum ls hn hne N σ hσ
  have hnmem : n ∉ bareNumbers ls N c := by
    intro hm
    obtain ⟨_, τ, e1, e2⟩ := (mem_bareNumbers ls N c n).1 hm
    rw [h3] at e1
    obtain rfl := Option.some.inj e1
    simp [hc] at e2
  -- entries before the insertion point are smaller, the one at it is larger
  have hbefore : ∀ b ∈ bareNumbers ls N c, searchsorted (bareNumbers ls N c) b <
      searchsorted (bareNumbers ls N c) n → b < n := by
    intro b hb hlt
    have hget := (searchsorted_mem hsorted hb)
    unfold searchsorted at hlt hget
    have hm : b ∈ (bareNumbers ls N c).takeWhile (· < n) := by
      have hpre := List.takeWhile_prefix (p := fun x => decide (x < n)) (l := bareNumbers ls N c)
      obtain ⟨t, ht⟩ := hpre
      have : ((bareNumbers ls N c).takeWhile (· < n))[((bareNumbers ls N c).takeWhile (· < b)).length]? = some b := by
        have h4 := hget.2
        rw [← ht, List.getElem?_append_left (by rw [ht]; exact hlt)] at h4
        rw [← h4, ht]
      exact List.mem_of_getElem? this
    simpa using List.mem_takeWhile_imp hm
  have hval : ∀ υ, ValidHomog ls N υ → c υ = true → ∃ b ∈ bareNumbers ls N c,
      (HIndex.mk' ls N).stateToNumber υ = some b := by
    intro υ hυ hcυ
    obtain ⟨b, b1, b2, b3⟩ := hindex_toNum ls hn hne N υ hυ
    exact ⟨b, (mem_bareNumbers ls N c b).2 ⟨b1, υ, b3, hcυ⟩, b2⟩
  have hstn : (homogConstrained ls N c).statesToNumbers σ =
      toConstrainedNumber (bareNumbers ls N c) n := by
    rw [statesToNumbers_ok _ _ hσ.1]
    simp [homogConstrained, h2, orIndexError, bind, Except.bind]
  by_cases hlt : searchsorted (bareNumbers ls N c) n < (bareNumbers ls N c).length
  · left
    have hI := C02_constrained_indexing ls hn hne N c
    obtain ⟨τ, t1, t2, t3⟩ := hI.toState (searchsorted (bareNumbers ls N c) n) hlt
    refine ⟨searchsorted (bareNumbers ls N c) n, τ, ?_, t1, t2.2, ?_, ?_⟩
    · rw [hstn, toConstrainedNumber, if_neg (by omega)]
    · -- n < bare[k]
      obtain ⟨b, hb, b2⟩ := hval τ t2.1 t2.2
      rw [statesToNumbers_ok _ _ t2.1.1] at t3
      simp only [homogConstrained, b2, orIndexError, bind, Except.bind, toConstrainedNumber] at t3
      have hbk := (searchsorted_mem hsorted hb)
      rw [if_neg (by omega)] at t3
      have hk := Except.ok.inj t3
      rw [← hindex_order ls hn N σ τ n b hσ t2.1 h2 b2]
      rcases Nat.lt_trichotomy n b with h | h | h
      · exact h
      · subst h; exact absurd hb hnmem
      · exfalso
        have heq : (bareNumbers ls N c).dropWhile (· < n) =
            (bareNumbers ls N c).drop (searchsorted (bareNumbers ls N c) n) := by
          have := List.takeWhile_append_dropWhile (p := fun x => decide (x < n)) (l := bareNumbers ls N c)
          have h7 := congrArg (List.drop (searchsorted (bareNumbers ls N c) n)) this
          rw [show searchsorted (bareNumbers ls N c) n =
            ((bareNumbers ls N c).takeWhile (· < n)).length from rfl, List.drop_left] at h7
          exact h7
        have hne' : (bareNumbers ls N c).dropWhile (· < n) ≠ [] := by
          rw [heq]; simp; omega
        have h5 := List.head_dropWhile_not (fun x => decide (x < n)) hne'
        have h6 : ((bareNumbers ls N c).dropWhile (· < n)).head hne' = b := by
          have hh : ((bareNumbers ls N c).dropWhile (· < n)).head? = some b := by
            rw [heq, List.head?_drop]
            have := hbk.2
            rwa [hk] at this
          rw [List.head?_eq_some_head hne'] at hh
          exact Option.some.inj hh
        rw [h6] at h5
        simp at h5
        omega
    · intro υ hυ hcυ hlt'
      obtain ⟨b, hb, b2⟩ := hval υ hυ hcυ
      have hI4 : ∃ m, (homogConstrained ls N c).statesToNumbers υ = .ok m ∧
          m = searchsorted (bareNumbers ls N c) b := by
        refine ⟨_, ?_, rfl⟩
        rw [statesToNumbers_ok _ _ hυ.1]
        simp only [homogConstrained, b2, orIndexError, bind, Except.bind, toConstrainedNumber]
        have := (searchsorted_mem hsorted hb).1
        rw [if_neg (by omega)]
      obtain ⟨m, m1, m2⟩ := hI4
      have := (hI.order υ τ _ _ ⟨hυ, hcυ⟩ t2 m1 t3).2 hlt'
      rw [← hindex_order ls hn N υ σ b n hυ hσ b2 h2]
      exact hbefore b hb (by omega)
  · right
    refine ⟨by rw [hstn, toConstrainedNumber, if_pos (by omega)], ?_⟩
    intro υ hυ hcυ
    obtain ⟨b, hb, b2⟩ := hval υ hυ hcυ
    rw [← hindex_order ls hn N υ σ b n hυ hσ b2 h2]
    refine hbefore b hb ?_
    have := (searchsorted_mem hsorted hb).1
    omega

end Verif.Hilbert

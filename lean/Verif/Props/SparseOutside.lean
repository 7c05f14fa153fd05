import Verif.Props.Sparse

/-! C108: `to_sparse` and `to_dense` when the operator leaves a constrained space.  The documented behaviour is
refuted in `Props/Sparse.lean`; here is what the code does instead, for every operator and every constraint. -/

set_option linter.unusedSectionVars false

namespace Verif.Sparse
open Verif.Hilbert Verif.LocalOp

section
variable {K : Type} [CommRing K] {α : Type} [LinearOrder α]

theorem mapM_ok_all {β γ : Type} (f : β → Except Err γ) (l : List β) (r : List γ)
    (h : l.mapM f = .ok r) : ∀ b ∈ l, ∃ c, f b = .ok c := by
  intro b hb
  obtain ⟨i, hi, rfl⟩ := List.mem_iff_getElem.1 hb
  obtain ⟨c, _, hc⟩ := (mapM_ok_get f l r h).2 i _ (List.getElem?_eq_getElem hi)
  exact ⟨c, hc⟩

/-- rows of the CSR matrix of an operator that may leave the space. -/
theorem toSparse_outside (h : Disc α) (valid : List α → Prop) (hi : Indexes h valid)
    (flat : List (List α) → List (List α × K) × List Nat) (conn : List α → List (List α × K))
    (hcat : ∀ L, (∀ σ ∈ L, valid σ) → (flat L).1 = L.flatMap conn)
    (hspl : ∀ L, (∀ σ ∈ L, valid σ) → splitSections (flat L).1 0 (flat L).2 = L.map conn) :
    ((∃ m, toSparse h flat = .ok m) ↔ ∀ σ, valid σ → ∀ p ∈ conn σ, ∃ k, h.statesToNumbers p.1 = .ok k)
    ∧ ∀ m, toSparse h flat = .ok m → ∀ σ i j, valid σ → h.statesToNumbers σ = .ok i →
        m.dense i j = ((conn σ).map fun p =>
          match h.statesToNumbers p.1 with
          | .ok k => if k = j then p.2 else 0
          | .error _ => 0).sum := by
  classical
  obtain ⟨L, hL, _, hmem⟩ := C02_all_states h valid hi
  have hvalL : ∀ σ ∈ L, valid σ := fun σ hσ => (hmem σ).1 hσ
  let num : List α → Nat := fun σ => match h.statesToNumbers σ with
    | .ok k => k
    | .error _ => 0
  have hnum : ∀ σ k, h.statesToNumbers σ = .ok k → num σ = k := by
    intro σ k hk
    simp only [num, hk]
  have hall : ∀ (r : List Nat), (flat L).1.mapM (fun p => h.statesToNumbers p.1) = .ok r →
      (∀ σ, valid σ → ∀ p ∈ conn σ, ∃ k, h.statesToNumbers p.1 = .ok k) := by
    intro r hr σ hv p hp
    exact mapM_ok_all _ _ _ hr p (by rw [hcat L hvalL, List.mem_flatMap]; exact ⟨σ, (hmem σ).2 hv, hp⟩)
  have hm : (∀ σ, valid σ → ∀ p ∈ conn σ, ∃ k, h.statesToNumbers p.1 = .ok k) →
      (flat L).1.mapM (fun p => h.statesToNumbers p.1) = .ok ((flat L).1.map fun p => num p.1) := by
    intro hk
    apply mapM_ok_iff_map
    intro p hp
    rw [hcat L hvalL, List.mem_flatMap] at hp
    obtain ⟨σ, hσ, hp⟩ := hp
    obtain ⟨k, hk'⟩ := hk σ (hvalL σ hσ) p hp
    rw [hk', hnum _ _ hk']
  have hsome : ∀ m, toSparse h flat = .ok m → (∀ σ, valid σ → ∀ p ∈ conn σ, ∃ k, h.statesToNumbers p.1 = .ok k)
      ∧ m = ⟨h.nStates, ((flat L).1.map fun p => num p.1).zip ((flat L).1.map Prod.snd), 0 :: (flat L).2⟩ := by
    intro m hm'
    unfold toSparse at hm'
    rw [hL] at hm'
    simp only at hm'
    rcases hr : (flat L).1.mapM (fun p => h.statesToNumbers p.1) with e | r
    · rw [hr] at hm'; cases hm'
    · refine ⟨hall r hr, ?_⟩
      have hr' := hm (hall r hr)
      rw [hr'] at hm'
      exact (Except.ok.inj hm').symm
  refine ⟨⟨fun ⟨m, h1⟩ => (hsome m h1).1, fun hk => ?_⟩, ?_⟩
  · refine ⟨⟨h.nStates, ((flat L).1.map fun p => num p.1).zip ((flat L).1.map Prod.snd), 0 :: (flat L).2⟩, ?_⟩
    unfold toSparse
    rw [hL]
    simp only
    rw [hm hk]
  · intro m h1 σ i j hv hi'
    obtain ⟨hk, rfl⟩ := hsome m h1
    have hzip : ((flat L).1.map fun p => num p.1).zip ((flat L).1.map Prod.snd)
        = (flat L).1.map fun p => (num p.1, p.2) := by
      rw [List.zip_map']
    obtain ⟨n, hn1, hn2, hn3⟩ := hi.toNum σ hv
    rw [hi', Except.ok.injEq] at hn2
    subst hn2
    have hp : L[i]? = some σ := by
      obtain ⟨c, hc, hc'⟩ := (mapM_ok_get _ _ _ hL).2 i i (by simp [hn1])
      rw [hn3, Except.ok.injEq] at hc'
      rw [hc, ← hc']
    have hsec : (flat L).2.length = L.length := by
      have := congrArg List.length (hspl L hvalL)
      rw [length_splitSections, List.length_map] at this
      exact this
    have hlt : i < L.length := by
      by_contra hc
      rw [List.getElem?_eq_none (by omega)] at hp
      exact absurd hp (by simp)
    have h2 := splitSections_get (flat L).1 0 (flat L).2 i (by omega)
    rw [hspl L hvalL, List.getElem?_map, hp, Option.map_some, Option.some.injEq] at h2
    unfold CSR.dense CSR.row
    rw [hzip, ← List.map_drop, ← List.map_take]
    simp only
    rw [← h2, List.map_map]
    congr 1
    apply List.map_congr_left
    intro p hp'
    obtain ⟨k, hk'⟩ := hk σ hv p hp'
    simp only [Function.comp, hnum _ _ hk', hk']

/-- an allowed configuration. -/
def Allowed (ls : List α) (N : Nat) (c : List α → Bool) (σ : List α) : Prop := ValidHomog ls N σ ∧ c σ = true

/-- `τ` is the first allowed configuration, in lexicographic order, that is not before `ρ`. -/
def FirstFrom (ls : List α) (N : Nat) (c : List α → Bool) (ρ τ : List α) : Prop :=
  Allowed ls N c τ ∧ ρ ≤ τ ∧ ∀ υ, Allowed ls N c υ → υ < τ → υ < ρ

theorem FirstFrom.unique {ls : List α} {N : Nat} {c : List α → Bool} {ρ τ τ' : List α}
    (h : FirstFrom ls N c ρ τ) (h' : FirstFrom ls N c ρ τ') : τ = τ' := by
  rcases lt_trichotomy τ τ' with hlt | he | hlt
  · exact absurd (h'.2.2 τ h.1 hlt) (not_lt.2 h.2.1)
  · exact he
  · exact absurd (h.2.2 τ' h'.1 hlt) (not_lt.2 h'.2.1)

theorem FirstFrom.self {ls : List α} {N : Nat} {c : List α → Bool} {ρ : List α} (h : Allowed ls N c ρ) :
    FirstFrom ls N c ρ ρ := ⟨h, le_refl _, fun _ _ h => h⟩

/-- numbers of configurations of a constrained space, allowed or not. -/
theorem number_firstFrom (ls : List α) (hn : ls.Nodup) (hne : ls ≠ []) (N : Nat) (c : List α → Bool)
    (ρ : List α) (hρ : ValidHomog ls N ρ) :
    ((∃ k, (homogConstrained ls N c).statesToNumbers ρ = .ok k) ↔ ∃ τ, FirstFrom ls N c ρ τ)
    ∧ ∀ k, (homogConstrained ls N c).statesToNumbers ρ = .ok k →
        ∀ τ j, Allowed ls N c τ → (homogConstrained ls N c).statesToNumbers τ = .ok j →
          (k = j ↔ FirstFrom ls N c ρ τ) := by
  have hidx := C02_constrained_indexing ls hn hne N c
  -- the state with the number of ρ is the first from ρ
  have key : ∀ k, (homogConstrained ls N c).statesToNumbers ρ = .ok k →
      ∃ τ, FirstFrom ls N c ρ τ ∧ (homogConstrained ls N c).statesToNumbers τ = .ok k := by
    intro k hk
    rcases hc : c ρ with _ | _
    · rcases C100_violating_gets_next_index ls hn hne N c ρ hρ hc with ⟨k', τ, h1, h2, h3, h4, h5⟩ | ⟨h1, _⟩
      · rw [hk, Except.ok.injEq] at h1
        subst h1
        have hlt : k < (homogConstrained ls N c).nStates := by
          by_contra hge
          have : (homogConstrained ls N c).numbersToStates k = .error .valueError := by
            unfold Disc.numbersToStates
            simp [hge]
          rw [this] at h2
          cases h2
        obtain ⟨σ, g1, g2, g3⟩ := hidx.toState k hlt
        rw [h2, Except.ok.injEq] at g1
        subst g1
        exact ⟨τ, ⟨g2, le_of_lt h4, fun υ hυ hl => h5 υ hυ.1 hυ.2 hl⟩, g3⟩
      · rw [hk] at h1; cases h1
    · exact ⟨ρ, FirstFrom.self ⟨hρ, hc⟩, hk⟩
  refine ⟨⟨fun ⟨k, hk⟩ => ?_, fun ⟨τ, hτ⟩ => ?_⟩, ?_⟩
  · obtain ⟨τ, h1, _⟩ := key k hk
    exact ⟨τ, h1⟩
  · rcases hc : c ρ with _ | _
    · rcases C100_violating_gets_next_index ls hn hne N c ρ hρ hc with ⟨k', _, h1, _⟩ | ⟨_, h2⟩
      · exact ⟨k', h1⟩
      · exact absurd (h2 τ hτ.1.1 hτ.1.2) (not_lt.2 hτ.2.1)
    · obtain ⟨k, _, h2, _⟩ := hidx.toNum ρ ⟨hρ, hc⟩
      exact ⟨k, h2⟩
  · intro k hk τ j hτ hj
    obtain ⟨τ', h1, h2⟩ := key k hk
    constructor
    · rintro rfl
      obtain ⟨m, m1, m2, m3⟩ := hidx.toNum τ hτ
      obtain ⟨m', _, m2', m3'⟩ := hidx.toNum τ' h1.1
      rw [hj, Except.ok.injEq] at m2
      rw [h2, Except.ok.injEq] at m2'
      subst m2
      subst m2'
      rw [m3, Except.ok.injEq] at m3'
      rw [m3']; exact h1
    · intro h3
      rw [h1.unique h3, hj, Except.ok.injEq] at h2
      exact h2.symm

/-- C108, what the code does.  Full statement: elements leading out of the constrained space raise or are dropped
    (refuted by `C108_constrained_refuted`).  Proved: `to_sparse` raises exactly if some connected configuration
    lies after all allowed ones; otherwise the element of every connected configuration is added at the first
    allowed configuration from there on, so that nothing is dropped, and an operator that stays inside gives its
    matrix. -/
theorem C108_constrained_partial (ls : List α) (hn : ls.Nodup) (hne : ls ≠ []) (N : Nat) (c : List α → Bool)
    (flat : List (List α) → List (List α × K) × List Nat) (conn : List α → List (List α × K))
    (hcat : ∀ L, (∀ σ ∈ L, Allowed ls N c σ) → (flat L).1 = L.flatMap conn)
    (hspl : ∀ L, (∀ σ ∈ L, Allowed ls N c σ) → splitSections (flat L).1 0 (flat L).2 = L.map conn)
    (hval : ∀ σ, Allowed ls N c σ → ∀ p ∈ conn σ, ValidHomog ls N p.1) :
    ((∃ e, toSparse (homogConstrained ls N c) flat = .error e)
        ↔ ∃ σ, Allowed ls N c σ ∧ ∃ p ∈ conn σ, ∀ υ, Allowed ls N c υ → υ < p.1)
    ∧ (∀ m, toSparse (homogConstrained ls N c) flat = .ok m →
        ∀ σ τ i j, Allowed ls N c σ → Allowed ls N c τ →
          (homogConstrained ls N c).statesToNumbers σ = .ok i →
          (homogConstrained ls N c).statesToNumbers τ = .ok j →
          (∀ _ : DecidablePred fun ρ => FirstFrom ls N c ρ τ,
            m.dense i j = ((conn σ).map fun p => if FirstFrom ls N c p.1 τ then p.2 else 0).sum)
          ∧ ((∀ p ∈ conn σ, Allowed ls N c p.1) → m.dense i j = elementSum (conn σ) τ)) := by
  have hidx := C02_constrained_indexing ls hn hne N c
  obtain ⟨h1, h2⟩ := toSparse_outside (homogConstrained ls N c) _ hidx flat conn hcat hspl
  -- a configuration has a first allowed one from there on unless it lies after all of them
  have hfirst : ∀ ρ, ValidHomog ls N ρ →
      ((∃ k, (homogConstrained ls N c).statesToNumbers ρ = .ok k) ↔ ¬ ∀ υ, Allowed ls N c υ → υ < ρ) := by
    intro ρ hρ
    constructor
    · intro hk hall
      obtain ⟨τ, hτ⟩ := (number_firstFrom ls hn hne N c ρ hρ).1.1 hk
      exact absurd (hall τ hτ.1) (not_lt.2 hτ.2.1)
    · intro hnot
      rcases hc : c ρ with _ | _
      · rcases C100_violating_gets_next_index ls hn hne N c ρ hρ hc with ⟨k', _, g1, _⟩ | ⟨_, g2⟩
        · exact ⟨k', g1⟩
        · exact absurd (fun υ hυ => g2 υ hυ.1 hυ.2) hnot
      · obtain ⟨k, _, g2, _⟩ := hidx.toNum ρ ⟨hρ, hc⟩
        exact ⟨k, g2⟩
  refine ⟨?_, ?_⟩
  · constructor
    · rintro ⟨e, he⟩
      by_contra hno
      have : ∃ m, toSparse (homogConstrained ls N c) flat = .ok m := by
        refine h1.2 fun σ hσ p hp => (hfirst p.1 (hval σ hσ p hp)).2 fun hall => hno ⟨σ, hσ, p, hp, hall⟩
      obtain ⟨m, hm⟩ := this
      rw [he] at hm; cases hm
    · rintro ⟨σ, hσ, p, hp, hall⟩
      rcases hr : toSparse (homogConstrained ls N c) flat with e | m
      · exact ⟨e, rfl⟩
      · exact absurd hall ((hfirst p.1 (hval σ hσ p hp)).1 (h1.1 ⟨m, hr⟩ σ hσ p hp))
  · intro m hm σ τ i j hσ hτ hi hj
    have hA : ∀ hd : DecidablePred fun ρ => FirstFrom ls N c ρ τ,
        m.dense i j = ((conn σ).map fun p => if FirstFrom ls N c p.1 τ then p.2 else 0).sum := by
      intro hd
      rw [h2 m hm σ i j hσ hi]
      congr 1
      apply List.map_congr_left
      intro p hp
      obtain ⟨k, hk⟩ := h1.1 ⟨m, hm⟩ σ hσ p hp
      simp only [hk]
      have := (number_firstFrom ls hn hne N c p.1 (hval σ hσ p hp)).2 k hk τ j hτ hj
      by_cases hkj : k = j
      · rw [if_pos hkj, if_pos (this.1 hkj)]
      · rw [if_neg hkj, if_neg fun h => hkj (this.2 h)]
    refine ⟨hA, fun hin => ?_⟩
    classical
    rw [hA (fun _ => Classical.dec _)]
    unfold elementSum
    congr 1
    apply List.map_congr_left
    intro p hp
    by_cases he : p.1 = τ
    · rw [if_pos he, if_pos (by rw [he]; exact FirstFrom.self hτ)]
    · rw [if_neg he, if_neg fun h => he ((FirstFrom.self (hin p hp)).unique h)]

end

/-- an operator that removes the excitation from the first of two sites. -/
def leaveConn (σ : List ℤ) : List (List ℤ × ℤ) := if σ = [1, 0] then [([0, 0], 1)] else []

/-- its rows one after the other. -/
def leaveFlat (L : List (List ℤ)) : List (List ℤ × ℤ) × List Nat :=
  (L.flatMap leaveConn, runningTotals 0 ((L.map leaveConn).map List.length))

/-- one excitation on two sites: the hypotheses hold, nothing is raised, and the element appears. -/
example : (¬ ∃ e, toSparse (homogConstrained [0, (1 : ℤ)] 2 fun σ => σ.sum == 1) leaveFlat = .error e) ∧
    ∃ m, toSparse (homogConstrained [0, (1 : ℤ)] 2 fun σ => σ.sum == 1) leaveFlat = .ok m ∧ m.dense 1 0 = 1 := by
  constructor
  · rw [(C108_constrained_partial [0, (1 : ℤ)] (by decide) (by decide) 2 (fun σ => σ.sum == 1) leaveFlat leaveConn
      (fun _ _ => rfl) (fun L _ => split_runningTotals [] _ 0 rfl _ (by simp [leaveFlat, List.flatMap])) ?_).1]
    · rintro ⟨σ, hσ, p, hp, hall⟩
      have h1 := hall [0, 1] ⟨⟨rfl, by decide⟩, rfl⟩
      unfold leaveConn at hp
      split at hp
      · rw [List.mem_singleton] at hp
        subst hp
        exact absurd h1 (by decide)
      · cases hp
    · intro σ hσ p hp
      unfold leaveConn at hp
      split at hp
      · rw [List.mem_singleton] at hp
        subst hp
        exact ⟨rfl, by decide⟩
      · cases hp
  · have hw : (match toSparse (homogConstrained [0, (1 : ℤ)] 2 fun σ => σ.sum == 1) leaveFlat with
        | .ok m => decide (m.dense 1 0 = 1)
        | .error _ => false) = true := by decide +kernel
    rcases hm : toSparse (homogConstrained [0, (1 : ℤ)] 2 fun σ => σ.sum == 1) leaveFlat with e | m
    · rw [hm] at hw; exact absurd hw Bool.false_ne_true
    · rw [hm] at hw
      exact ⟨m, rfl, of_decide_eq_true hw⟩

end Verif.Sparse

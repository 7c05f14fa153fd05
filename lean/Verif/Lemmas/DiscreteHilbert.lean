import Verif.Lemmas.HilbertIndex
import Verif.Model.DiscreteHilbert

/-! Helper lemmas about discrete Hilbert space indexing. -/

namespace Verif.Hilbert
open Verif.HilbertIndex Verif.Radix

variable {α : Type}

theorem numbersToStates_ok (h : Disc α) (n : Nat) (hn : n < h.nStates) :
    h.numbersToStates n = h.rawToState n := by
  unfold Disc.numbersToStates
  rw [if_neg (by simp; omega)]

theorem statesToNumbers_ok (h : Disc α) (σ : List α) (hn : σ.length = h.size) :
    h.statesToNumbers σ = h.rawToNum σ := by
  unfold Disc.statesToNumbers
  rw [if_neg (by simpa using hn)]

theorem digits_replicate_lt {N d : Nat} {xs : List Nat} (h : Digits (List.replicate N d) xs) :
    ∀ x ∈ xs, x < d := by
  induction N generalizing xs with
  | zero => cases h; simp
  | succ N ih =>
    rw [List.replicate_succ] at h
    cases h with
    | cons hx hxs =>
      intro y hy
      rcases List.mem_cons.1 hy with rfl | hy
      · exact hx
      · exact ih hxs y hy

variable [LinearOrder α]

/-- forward direction at the level of `HilbertIndex`. -/
theorem hindex_toState (ls : List α) (hn : ls.Nodup) (hne : ls ≠ []) (N n : Nat)
    (h : n < ls.length ^ N) :
    ∃ σ, (HIndex.mk' ls N).numberToState n = some σ ∧ (σ.length = N ∧ ∀ x ∈ σ, x ∈ ls) ∧
      (HIndex.mk' ls N).stateToNumber σ = some n := by
  have hs := sorted_mk ls hn
  obtain ⟨z, hz, he⟩ := numberToState_eq ls N n h hne
  have hp : n < (List.replicate N ls.length).prod := by rwa [List.prod_replicate]
  have hdig := dec_digits hp
  have hlt := digits_replicate_lt hdig
  have hget : ∀ i ∈ dec (List.replicate N ls.length) n,
      ∃ hi : i < (ls.insertionSort (· ≤ ·)).length,
        (ls.insertionSort (· ≤ ·)).getD i z = (ls.insertionSort (· ≤ ·))[i] := by
    intro i hi
    have h1 : i < (ls.insertionSort (· ≤ ·)).length := by rw [length_mk]; exact hlt i hi
    exact ⟨h1, by rw [List.getD_eq_getElem?_getD, List.getElem?_eq_getElem h1]; rfl⟩
  refine ⟨_, he, ⟨by simp, ?_⟩, ?_⟩
  · intro x hx
    obtain ⟨i, hi, rfl⟩ := List.mem_map.1 hx
    obtain ⟨h1, h2⟩ := hget i hi
    rw [h2, ← mem_mk]
    exact List.getElem_mem _
  · rw [stateToNumber_eq _ _ _ (by simp), List.map_map]
    have : (dec (List.replicate N ls.length) n).map
        ((searchsorted (ls.insertionSort (· ≤ ·))) ∘ fun i => (ls.insertionSort (· ≤ ·)).getD i z)
        = dec (List.replicate N ls.length) n := by
      conv_rhs => rw [← List.map_id (dec (List.replicate N ls.length) n)]
      apply List.map_congr_left
      intro i hi
      obtain ⟨h1, h2⟩ := hget i hi
      simp only [Function.comp, h2, id]
      exact searchsorted_getElem hs h1
    rw [this, enc_dec hp]

/-- backward direction at the level of `HilbertIndex`. -/
theorem hindex_toNum (ls : List α) (hn : ls.Nodup) (hne : ls ≠ []) (N : Nat) (σ : List α)
    (hσ : σ.length = N ∧ ∀ x ∈ σ, x ∈ ls) :
    ∃ n, n < ls.length ^ N ∧ (HIndex.mk' ls N).stateToNumber σ = some n ∧
      (HIndex.mk' ls N).numberToState n = some σ := by
  have hs := sorted_mk ls hn
  obtain ⟨hl, hm⟩ := hσ
  subst hl
  have hd := digits_map hs hm
  have hlt := enc_lt hd
  rw [List.prod_replicate] at hlt
  refine ⟨_, hlt, stateToNumber_eq _ _ _ rfl, ?_⟩
  obtain ⟨z, hz, he⟩ := numberToState_eq ls σ.length _ hlt hne
  rw [he, dec_enc hd, List.map_map]
  congr 1
  conv_rhs => rw [← List.map_id σ]
  apply List.map_congr_left
  intro x hx
  obtain ⟨_, h2⟩ := searchsorted_mem hs ((mem_mk ls x).2 (hm x hx))
  simp [Function.comp, List.getD_eq_getElem?_getD, h2]

/-- numbering is the lexicographic order. -/
theorem hindex_order (ls : List α) (hn : ls.Nodup) (N : Nat) (σ τ : List α) (m n : Nat)
    (hσ : σ.length = N ∧ ∀ x ∈ σ, x ∈ ls) (hτ : τ.length = N ∧ ∀ x ∈ τ, x ∈ ls)
    (hm : (HIndex.mk' ls N).stateToNumber σ = some m)
    (hn' : (HIndex.mk' ls N).stateToNumber τ = some n) : m < n ↔ σ < τ := by
  have hs := sorted_mk ls hn
  rw [stateToNumber_eq _ _ _ hσ.1] at hm
  rw [stateToNumber_eq _ _ _ hτ.1] at hn'
  have hm := Option.some.inj hm
  have hn' := Option.some.inj hn'
  subst hm hn'
  have h1 := digits_map hs hσ.2
  have h2 := digits_map hs hτ.2
  rw [hσ.1] at h1
  rw [hτ.1] at h2
  rw [enc_lt_iff h1 h2, map_searchsorted_lt_iff hs]
  · intro x hx; exact (mem_mk _ _).2 (hσ.2 x hx)
  · intro x hx; exact (mem_mk _ _).2 (hτ.2 x hx)

theorem nStates_mk (ls : List α) (N : Nat) : (HIndex.mk' ls N).nStates = ls.length ^ N := by
  simp [HIndex.nStates, HIndex.mk']

theorem filter_range_sorted (p : Nat → Bool) (n : Nat) :
    ((List.range n).filter p).Pairwise (· < ·) :=
  List.Pairwise.filter _ List.pairwise_lt_range

theorem mem_bareNumbers (ls : List α) (N : Nat) (c : List α → Bool) (n : Nat) :
    n ∈ bareNumbers ls N c ↔
      n < ls.length ^ N ∧ ∃ σ, (HIndex.mk' ls N).numberToState n = some σ ∧ c σ = true := by
  unfold bareNumbers
  rw [List.mem_filter, List.mem_range, nStates_mk]
  refine and_congr_right fun _ => ?_
  cases (HIndex.mk' ls N).numberToState n <;> simp

omit [LinearOrder α]

theorem cumprodFrom_append (acc : Nat) (xs : List Nat) (x : Nat) :
    cumprodFrom acc (xs ++ [x]) = cumprodFrom acc xs ++ [acc * xs.prod * x] := by
  induction xs generalizing acc with
  | nil => simp [cumprodFrom]
  | cons y ys ih =>
    simp only [List.cons_append, cumprodFrom, ih, List.prod_cons, List.cons.injEq, true_and,
      List.append_cancel_left_eq, and_true]
    ring

/-- `_cum_ns_states_r[i]` is the product of the dimensions to the right of factor `i`. -/
theorem cumNsStatesR_cons (n : Nat) (ns : List Nat) :
    cumNsStatesR (n :: ns) = ns.prod :: cumNsStatesR ns := by
  unfold cumNsStatesR
  rw [List.reverse_cons, ← List.cons_append, cumprodFrom_append, List.dropLast_concat]
  cases ns with
  | nil => simp [cumprodFrom]
  | cons m ms =>
    rw [List.reverse_cons, ← List.cons_append, cumprodFrom_append, List.dropLast_concat]
    simp [List.prod_cons]
    ring

end Verif.Hilbert

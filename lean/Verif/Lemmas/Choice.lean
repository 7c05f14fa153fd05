import Verif.Model.AutoReg
import Mathlib.MeasureTheory.Measure.Lebesgue.Basic
import Mathlib.Algebra.Order.BigOperators.Group.List

/-! Counting entries of a cumulative sum. -/

namespace Verif.AutoReg

section
variable {R : Type} [Field R] [LinearOrder R] [IsStrictOrderedRing R]

theorem count_mono (f : Nat → R) (hf : ∀ i j, i ≤ j → f i ≤ f j) (r : R) (n : Nat) :
    (List.range n).countP (fun k => decide (f k < r)) ≤ n ∧
    ∀ j < n, (f j < r ↔ j < (List.range n).countP fun k => decide (f k < r)) := by
  induction n with
  | zero => simp
  | succ n ih =>
    obtain ⟨h1, h2⟩ := ih
    rw [List.range_succ, List.countP_append]
    by_cases h : f n < r
    · have hall : ∀ j, j ≤ n → f j < r := fun j hj => lt_of_le_of_lt (hf j n hj) h
      have hc : (List.range n).countP (fun k => decide (f k < r)) = n := by
        by_contra hne
        have := (h2 _ (lt_of_le_of_ne h1 hne)).1 (hall _ h1)
        omega
      rw [hc]
      simp only [List.countP_cons, List.countP_nil, h, decide_true, if_true]
      refine ⟨by omega, fun j hj => ⟨fun _ => by omega, fun _ => hall j (by omega)⟩⟩
    · simp only [List.countP_cons, List.countP_nil, h, decide_false, Bool.false_eq_true, if_false,
        Nat.add_zero]
      refine ⟨by omega, fun j hj => ?_⟩
      rcases Nat.lt_succ_iff_lt_or_eq.1 hj with hj | hj
      · exact h2 j hj
      · subst hj
        exact ⟨fun h' => absurd h' h, fun h' => by omega⟩

theorem take_sum_mono (p : List R) (hp : ∀ x ∈ p, 0 ≤ x) (i j : Nat) (h : i ≤ j) :
    (p.take i).sum ≤ (p.take j).sum := by
  have : p.take j = p.take i ++ (p.drop i).take (j - i) := by
    rw [← List.take_add]; congr 1; omega
  rw [this, List.sum_append]
  refine le_add_of_nonneg_right (List.sum_nonneg fun x hx => hp x ?_)
  exact List.mem_of_mem_drop (List.mem_of_mem_take hx)

theorem cumsum_last (p : List R) (h : p ≠ []) : (cumsum p).getLastD 0 = p.sum := by
  obtain ⟨n, hn⟩ : ∃ n, p.length = n + 1 :=
    Nat.exists_eq_succ_of_ne_zero (by simpa using h)
  unfold cumsum
  rw [hn, List.range_succ, List.map_append, List.getLastD_eq_getLast?]
  simp [← hn]

theorem cumsum_last' (p : List R) : (cumsum p).getLastD 0 = p.sum := by
  by_cases h : p = []
  · subst h; simp [cumsum]
  · exact cumsum_last p h

theorem cumsum_count (p : List R) (r : R) :
    (cumsum p).countP (fun x => decide (x < r))
      = (List.range p.length).countP fun k => decide ((p.take (k + 1)).sum < r) := by
  unfold cumsum
  rw [List.countP_map]; rfl

theorem choiceIndex_eq (p : List R) (u : R) : choiceIndex p u
    = (List.range p.length).countP fun k => decide ((p.take (k + 1)).sum < p.sum * u) := by
  simp only [choiceIndex, cumsum_last', ← cumsum_count, gt_iff_lt]

theorem jaxChoice_eq (p : List R) (u : R) : jaxChoice p u = choiceIndex p (1 - u) := rfl

/-- index `k` is chosen exactly when `T u` lies in the `k`-th interval of the cumulative sum. -/
theorem choice_iff (p : List R) (hp : ∀ x ∈ p, 0 ≤ x) (u : R) (k : Nat) (hk : k < p.length) :
    choiceIndex p u = k ↔
      (k = 0 ∨ (p.take k).sum < p.sum * u) ∧ p.sum * u ≤ (p.take (k + 1)).sum := by
  rw [choiceIndex_eq]
  obtain ⟨h1, h2⟩ := count_mono (fun k => (p.take (k + 1)).sum)
    (fun i j h => take_sum_mono p hp _ _ (by omega)) (p.sum * u) p.length
  constructor
  · intro h
    constructor
    · rcases Nat.eq_zero_or_pos k with h0 | h0
      · exact Or.inl h0
      · right
        have := (h2 (k - 1) (by omega)).2 (by omega)
        rwa [show k - 1 + 1 = k by omega] at this
    · by_contra hc
      have := (h2 k hk).1 (not_le.1 hc)
      omega
  · rintro ⟨ha, hb⟩
    have hle : ¬ k < (List.range p.length).countP fun k => decide ((p.take (k + 1)).sum < p.sum * u) :=
      fun h => absurd ((h2 k hk).2 h) (not_lt.2 hb)
    rcases ha with h0 | ha
    · omega
    · by_contra hne
      have hlt : (List.range p.length).countP
          (fun k => decide ((p.take (k + 1)).sum < p.sum * u)) < k := by omega
      have : k - 1 < (List.range p.length).countP
          fun k => decide ((p.take (k + 1)).sum < p.sum * u) := by
        refine (h2 (k - 1) (by omega)).1 ?_
        rwa [show k - 1 + 1 = k by omega]
      omega

theorem choice_lt (p : List R) (hp : ∀ x ∈ p, 0 ≤ x) (u : R) (hne : p ≠ [])
    (hu : p.sum * u ≤ p.sum) : choiceIndex p u < p.length := by
  rw [choiceIndex_eq]
  obtain ⟨h1, h2⟩ := count_mono (fun k => (p.take (k + 1)).sum)
    (fun i j h => take_sum_mono p hp _ _ (by omega)) (p.sum * u) p.length
  have hl : 0 < p.length := List.length_pos_iff.2 hne
  by_contra hc
  have := (h2 (p.length - 1) (by omega)).2 (by omega)
  rw [show p.length - 1 + 1 = p.length by omega, List.take_length] at this
  exact absurd this (not_lt.2 hu)

end

open MeasureTheory

/-- a set between the open and the closed interval has the length of the interval. -/
theorem volume_between (s : Set ℝ) (a b : ℝ) (h1 : Set.Ioo a b ⊆ s) (h2 : s ⊆ Set.Icc a b) :
    volume s = ENNReal.ofReal (b - a) := by
  refine le_antisymm ?_ ?_
  · calc volume s ≤ volume (Set.Icc a b) := measure_mono h2
      _ = _ := Real.volume_Icc
  · calc _ = volume (Set.Ioo a b) := Real.volume_Ioo.symm
      _ ≤ _ := measure_mono h1

theorem take_succ_sum (p : List ℝ) (k : Nat) (hk : k < p.length) :
    (p.take (k + 1)).sum = (p.take k).sum + p[k] := by
  rw [List.take_succ_eq_append_getElem hk, List.sum_append]; simp

theorem choice_volume (p : List ℝ) (hp : ∀ x ∈ p, 0 ≤ x) (hT : 0 < p.sum) (k : Nat)
    (hk : k < p.length) :
    volume {u : ℝ | (0 ≤ u ∧ u < 1) ∧ choiceIndex p u = k} = ENNReal.ofReal (p[k] / p.sum) := by
  have hS := take_succ_sum p k hk
  have h0 : 0 ≤ (p.take k).sum := List.sum_nonneg fun x hx => hp x (List.mem_of_mem_take hx)
  have h1 : (p.take (k + 1)).sum ≤ p.sum := by
    have := take_sum_mono p hp (k + 1) p.length (by omega)
    rwa [List.take_length] at this
  rw [volume_between _ ((p.take k).sum / p.sum) ((p.take (k + 1)).sum / p.sum)]
  · congr 1
    rw [← sub_div, hS]; ring
  · rintro u ⟨ha, hb⟩
    rw [div_lt_iff₀ hT] at ha
    rw [lt_div_iff₀ hT] at hb
    refine ⟨⟨?_, ?_⟩, (choice_iff p hp u k hk).2 ⟨Or.inr (by linarith), by linarith⟩⟩
    · by_contra hc; nlinarith
    · by_contra hc; nlinarith
  · rintro u ⟨⟨hu0, hu1⟩, hu⟩
    obtain ⟨ha, hb⟩ := (choice_iff p hp u k hk).1 hu
    constructor
    · rw [div_le_iff₀ hT]
      rcases ha with h | h
      · subst h; simp; positivity
      · linarith
    · rw [le_div_iff₀ hT]; linarith

theorem jaxChoice_volume (p : List ℝ) (hp : ∀ x ∈ p, 0 ≤ x) (hT : 0 < p.sum) (k : Nat)
    (hk : k < p.length) :
    volume {u : ℝ | (0 ≤ u ∧ u < 1) ∧ jaxChoice p u = k} = ENNReal.ofReal (p[k] / p.sum) := by
  have hS := take_succ_sum p k hk
  have h0 : 0 ≤ (p.take k).sum := List.sum_nonneg fun x hx => hp x (List.mem_of_mem_take hx)
  have h1 : (p.take (k + 1)).sum ≤ p.sum := by
    have := take_sum_mono p hp (k + 1) p.length (by omega)
    rwa [List.take_length] at this
  rw [volume_between _ (1 - (p.take (k + 1)).sum / p.sum) (1 - (p.take k).sum / p.sum)]
  · congr 1
    rw [hS]; ring
  · rintro u ⟨ha, hb⟩
    have ha' : 1 - u < (p.take (k + 1)).sum / p.sum := by linarith
    have hb' : (p.take k).sum / p.sum < 1 - u := by linarith
    rw [div_lt_iff₀ hT] at hb'
    rw [lt_div_iff₀ hT] at ha'
    refine ⟨⟨?_, ?_⟩, ?_⟩
    · by_contra hc; nlinarith
    · by_contra hc; nlinarith
    · rw [jaxChoice_eq]
      exact (choice_iff p hp _ k hk).2 ⟨Or.inr (by linarith), by linarith⟩
  · rintro u ⟨⟨hu0, hu1⟩, hu⟩
    rw [jaxChoice_eq] at hu
    obtain ⟨ha, hb⟩ := (choice_iff p hp _ k hk).1 hu
    have hb' : 1 - u ≤ (p.take (k + 1)).sum / p.sum := by rw [le_div_iff₀ hT]; linarith
    have ha' : (p.take k).sum / p.sum ≤ 1 - u := by
      rw [div_le_iff₀ hT]
      rcases ha with h | h
      · subst h; simp; nlinarith
      · linarith
    constructor <;> linarith

end Verif.AutoReg

import Verif.Model.CustomRule
import Verif.Lemmas.Choice
import Verif.Lemmas.LocalOpBuilt
import Mathlib.MeasureTheory.Measure.Lebesgue.Basic
import Mathlib.MeasureTheory.Measure.Prod

/-! Lemmas about the custom transition rule. -/

set_option linter.unusedSectionVars false

namespace Verif.Custom
open Verif.LocalOp Verif.Hilbert MeasureTheory

section walk
variable {R : Type} [Field R] [LinearOrder R] [IsStrictOrderedRing R] {β : Type}

theorem walk_append (p acc : R) (r rest : List (R × β)) (y : β) (h : walk p acc r = some y) :
    walk p acc (r ++ rest) = some y := by
  induction r generalizing acc with
  | nil => simp [walk] at h
  | cons q r ih =>
    obtain ⟨m, z⟩ := q
    simp only [walk, List.cons_append] at h ⊢
    split
    · rename_i hp; rw [if_pos hp] at h; exact ih _ h
    · rename_i hp; rw [if_neg hp] at h; exact h

theorem walk_some (p acc : R) (r : List (R × β)) (hr : r ≠ []) (hp : p ≤ acc + (r.map Prod.fst).sum) :
    ∃ y, walk p acc r = some y := by
  induction r generalizing acc with
  | nil => exact absurd rfl hr
  | cons q r ih =>
    obtain ⟨m, z⟩ := q
    simp only [walk]
    split
    · rename_i h
      rw [List.map_cons, List.sum_cons, ← add_assoc] at hp
      refine ih _ ?_ hp
      rintro rfl
      simp at hp
      exact absurd h (not_lt.2 hp)
    · exact ⟨z, rfl⟩

theorem walk_mem (p acc : R) (r : List (R × β)) (y : β) (h : walk p acc r = some y) :
    y ∈ r.map Prod.snd := by
  induction r generalizing acc with
  | nil => simp [walk] at h
  | cons q r ih =>
    obtain ⟨m, z⟩ := q
    simp only [walk] at h
    split at h
    · exact List.mem_cons_of_mem _ (ih _ h)
    · cases h; exact List.mem_cons_self

theorem takeWhile_count (l : List R) (h : l.Pairwise (· ≤ ·)) (x : R) :
    (l.takeWhile (· < x)).length = l.countP fun y => decide (y < x) := by
  induction l with
  | nil => rfl
  | cons a l ih =>
    rw [List.pairwise_cons] at h
    rw [List.takeWhile_cons, List.countP_cons]
    by_cases hx : a < x
    · simp [hx, ih h.2]
    · have : l.countP (fun y => decide (y < x)) = 0 := by
        rw [List.countP_eq_zero]
        intro b hb
        simpa using (not_lt.1 hx).trans (h.1 b hb)
      simp [hx, this]

theorem cumsum_pairwise (p : List R) (hp : ∀ x ∈ p, 0 ≤ x) :
    (Verif.AutoReg.cumsum p).Pairwise (· ≤ ·) := by
  unfold Verif.AutoReg.cumsum
  rw [List.pairwise_map]
  exact List.pairwise_lt_range.imp fun h => Verif.AutoReg.take_sum_mono p hp _ _ (by omega)

theorem pickOp_eq (w : List R) (hw : ∀ x ∈ w, 0 ≤ x) (h1 : w.sum = 1) (u : R) :
    pickOp w u = Verif.AutoReg.choiceIndex w u := by
  unfold pickOp Verif.HilbertIndex.searchsorted
  rw [takeWhile_count _ (cumsum_pairwise w hw)]
  simp only [Verif.AutoReg.choiceIndex, Verif.AutoReg.cumsum_last', h1, one_mul, gt_iff_lt]

end walk

section measure
variable {β : Type}

theorem walk_measurable (acc : ℝ) (r : List (ℝ × β)) (y : β) :
    MeasurableSet {u : ℝ | walk u acc r = some y} := by
  induction r generalizing acc with
  | nil => simp [walk]
  | cons q r ih =>
    obtain ⟨m, z⟩ := q
    by_cases hz : z = y
    · have : {u : ℝ | walk u acc ((m, z) :: r) = some y}
          = (Set.Ioi (acc + m) ∩ {u | walk u (acc + m) r = some y}) ∪ Set.Iic (acc + m) := by
        ext u
        simp only [walk, Set.mem_ofPred_eq, Set.mem_union, Set.mem_inter_iff, Set.mem_Ioi, Set.mem_Iic]
        by_cases h : u > acc + m
        · rw [if_pos h]; simp [h, not_le.2 h]
        · rw [if_neg h]; simp [h, not_lt.1 h, hz]
      rw [this]
      exact (measurableSet_Ioi.inter (ih _)).union measurableSet_Iic
    · have : {u : ℝ | walk u acc ((m, z) :: r) = some y}
          = Set.Ioi (acc + m) ∩ {u | walk u (acc + m) r = some y} := by
        ext u
        simp only [walk, Set.mem_ofPred_eq, Set.mem_inter_iff, Set.mem_Ioi]
        by_cases h : u > acc + m
        · rw [if_pos h]; simp [h]
        · rw [if_neg h]; simp [h, hz]
      rw [this]
      exact measurableSet_Ioi.inter (ih _)

variable [DecidableEq β]

theorem walk_volume_Ioc (acc : ℝ) (r : List (ℝ × β)) (y : β) (hr : ∀ q ∈ r, 0 ≤ q.1) :
    volume (Set.Ioc acc (acc + (r.map Prod.fst).sum) ∩ {u : ℝ | walk u acc r = some y})
      = ENNReal.ofReal (r.map fun q => if q.2 = y then q.1 else 0).sum := by
  induction r generalizing acc with
  | nil => simp [walk]
  | cons q r ih =>
    obtain ⟨m, z⟩ := q
    have hm : 0 ≤ m := hr (m, z) List.mem_cons_self
    have hr' : ∀ q ∈ r, 0 ≤ q.1 := fun q hq => hr q (List.mem_cons_of_mem _ hq)
    have hs : 0 ≤ (r.map Prod.fst).sum := List.sum_nonneg fun x hx => by
      obtain ⟨q, hq, rfl⟩ := List.mem_map.1 hx; exact hr' q hq
    have hs' : 0 ≤ (r.map fun q => if q.2 = y then q.1 else 0).sum := List.sum_nonneg fun x hx => by
      obtain ⟨q, hq, rfl⟩ := List.mem_map.1 hx
      split
      · exact hr' q hq
      · exact le_refl _
    have hset : Set.Ioc acc (acc + (((m, z) :: r).map Prod.fst).sum)
          ∩ {u : ℝ | walk u acc ((m, z) :: r) = some y}
        = (Set.Ioc acc (acc + m) ∩ {_u | z = y})
          ∪ (Set.Ioc (acc + m) (acc + m + (r.map Prod.fst).sum) ∩ {u : ℝ | walk u (acc + m) r = some y}) := by
      ext u
      simp only [walk, List.map_cons, List.sum_cons, Set.mem_ofPred_eq, Set.mem_union, Set.mem_inter_iff,
        Set.mem_Ioc]
      by_cases h : u > acc + m
      · rw [if_pos h]
        constructor
        · rintro ⟨⟨h1, h2⟩, h3⟩; exact Or.inr ⟨⟨h, by linarith⟩, h3⟩
        · rintro (⟨⟨_, h2⟩, _⟩ | ⟨⟨h1, h2⟩, h3⟩)
          · exact absurd h (not_lt.2 h2)
          · exact ⟨⟨by linarith, by linarith⟩, h3⟩
      · rw [if_neg h]
        rw [gt_iff_lt, not_lt] at h
        constructor
        · rintro ⟨⟨h1, h2⟩, h3⟩; exact Or.inl ⟨⟨h1, h⟩, Option.some.inj h3⟩
        · rintro (⟨⟨h1, h2⟩, h3⟩ | ⟨⟨h1, h2⟩, h3⟩)
          · exact ⟨⟨h1, by linarith⟩, by rw [h3]⟩
          · exact absurd h1 (not_lt.2 h)
    rw [hset, measure_union _ (measurableSet_Ioc.inter (walk_measurable _ _ _)), ih _ hr']
    · rw [List.map_cons, List.sum_cons]
      by_cases hz : z = y
      · simp only [hz, if_true, Set.setOf_true, Set.inter_univ, Real.volume_Ioc]
        rw [ENNReal.ofReal_add hm hs']
        congr 2
        ring
      · simp [hz]
    · rw [Set.disjoint_left]
      rintro u ⟨⟨_, h⟩, _⟩ ⟨⟨h', _⟩, _⟩
      exact absurd h' (not_lt.2 h)

theorem walk_volume (r : List (ℝ × β)) (y : β) (hr : ∀ q ∈ r, 0 ≤ q.1)
    (h1 : (r.map Prod.fst).sum = 1) :
    volume {u : ℝ | (0 ≤ u ∧ u < 1) ∧ walk u 0 r = some y}
      = ENNReal.ofReal (r.map fun q => if q.2 = y then q.1 else 0).sum := by
  rw [← walk_volume_Ioc 0 r y hr, h1, zero_add]
  apply le_antisymm
  · refine (measure_mono (t := (Set.Ioc 0 1 ∩ {u : ℝ | walk u 0 r = some y}) ∪ {0}) ?_).trans ?_
    · rintro u ⟨⟨h0, h2⟩, h3⟩
      rcases eq_or_lt_of_le h0 with h | h
      · right; exact h.symm
      · left; exact ⟨⟨h, h2.le⟩, h3⟩
    · refine (measure_union_le _ _).trans ?_
      simp
  · refine (measure_mono (t := {u : ℝ | (0 ≤ u ∧ u < 1) ∧ walk u 0 r = some y} ∪ {1}) ?_).trans ?_
    · rintro u ⟨⟨h0, h2⟩, h3⟩
      rcases eq_or_lt_of_le h2 with h | h
      · right; exact h
      · left; exact ⟨⟨h0.le, h⟩, h3⟩
    · refine (measure_union_le _ _).trans ?_
      simp

end measure

end Verif.Custom

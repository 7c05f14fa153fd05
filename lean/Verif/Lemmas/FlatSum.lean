import Mathlib.Algebra.BigOperators.Group.Finset.Basic
import Mathlib.Algebra.BigOperators.Intervals
import Mathlib.Data.Set.Finite.Basic
import Mathlib.Data.Fintype.EquivFin

/-! Sums over flattened indices and reindexing by a permutation of `range n`. -/

namespace Verif.Symm
open Finset

theorem divmod (b i j : Nat) (hj : j < b) : (i * b + j) / b = i ∧ (i * b + j) % b = j := by
  constructor
  · rw [Nat.add_comm, Nat.add_mul_div_right _ _ (by omega), Nat.div_eq_of_lt hj, Nat.zero_add]
  · rw [Nat.add_comm, Nat.add_mul_mod_self_right, Nat.mod_eq_of_lt hj]

theorem flat_lt {a b i j : Nat} (hi : i < a) (hj : j < b) : i * b + j < a * b := by
  calc i * b + j < i * b + b := by omega
    _ = (i + 1) * b := (Nat.succ_mul i b).symm
    _ ≤ a * b := Nat.mul_le_mul_right b hi

theorem sum_range_flat {M : Type} [AddCommMonoid M] (a b : Nat) (F : Nat → M) :
    ∑ q ∈ range (a * b), F q = ∑ i ∈ range a, ∑ j ∈ range b, F (i * b + j) := by
  induction a with
  | zero => simp
  | succ a ih => rw [Nat.succ_mul, sum_range_add, sum_range_succ, ih]

theorem sum_range_divmod {M : Type} [AddCommMonoid M] (a b : Nat) (F : Nat → Nat → M) :
    ∑ q ∈ range (a * b), F (q / b) (q % b) = ∑ i ∈ range a, ∑ j ∈ range b, F i j := by
  rw [sum_range_flat]
  refine sum_congr rfl fun i _ => sum_congr rfl fun j hj => ?_
  obtain ⟨h1, h2⟩ := divmod b i j (mem_range.1 hj)
  rw [h1, h2]

/-- an injection of `range n` into itself hits everything. -/
theorem range_surj {n : Nat} {s : Nat → Nat} (hlt : ∀ i < n, s i < n) (hinj : ∀ i < n, ∀ j < n, s i = s j → i = j) (k : Nat)
    (hk : k < n) : ∃ i < n, s i = k := by
  have := Finset.surj_on_of_inj_on_of_card_le (s := range n) (t := range n) (fun i _ => s i)
    (fun i hi => mem_range.2 (hlt i (mem_range.1 hi)))
    (fun i j hi hj h => hinj i (mem_range.1 hi) j (mem_range.1 hj) h) (le_refl _) k (mem_range.2 hk)
  obtain ⟨i, hi, h⟩ := this
  exact ⟨i, mem_range.1 hi, h.symm⟩

theorem sum_range_perm {M : Type} [AddCommMonoid M] {n : Nat} {s : Nat → Nat} (hlt : ∀ i < n, s i < n)
    (hinj : ∀ i < n, ∀ j < n, s i = s j → i = j) (F : Nat → M) : ∑ i ∈ range n, F (s i) = ∑ i ∈ range n, F i := by
  refine sum_bij (fun i _ => s i) (fun i hi => mem_range.2 (hlt i (mem_range.1 hi)))
    (fun i hi j hj h => hinj i (mem_range.1 hi) j (mem_range.1 hj) h) ?_ (fun _ _ => rfl)
  intro k hk
  obtain ⟨i, hi, h⟩ := range_surj hlt hinj k (mem_range.1 hk)
  exact ⟨i, mem_range.2 hi, h⟩

end Verif.Symm

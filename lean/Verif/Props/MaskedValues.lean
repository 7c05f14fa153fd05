import Verif.Model.AutoReg
import Mathlib.Algebra.BigOperators.Intervals
import Mathlib.Algebra.BigOperators.Ring.Finset
import Mathlib.Tactic.Ring

/-! C260: what the masked layers of `netket/nn/masked_linear.py` compute (C52 only says on which sites the outputs depend). -/

namespace Verif.AutoReg
open Finset

variable {R : Type} [CommSemiring R]

theorem list_sum_range (n : Nat) (f : Nat → R) : ((List.range n).map f).sum = ∑ k ∈ range n, f k := by
  induction n with
  | zero => simp
  | succ n ih => rw [List.range_succ, List.map_append, List.sum_append, ih, sum_range_succ]; simp

theorem sum_blocks (n m : Nat) (f : Nat → R) : (∑ r ∈ range (n * m), f r) = ∑ s ∈ range n, ∑ g ∈ range m, f (s * m + g) := by
  induction n with
  | zero => simp
  | succ n ih => rw [Nat.add_mul, Nat.one_mul, sum_range_add, ih, sum_range_succ]

/-- C260: `MaskedDense1D`: output feature `f` of site `t` is the bias plus the sum over the features of all earlier sites (and of `t` itself,
    unless exclusive) times the kernel. -/
theorem C260_dense (exclusive : Bool) (size inF outF : Nat) (kernel bias : Nat → Nat → R) (x : Nat → Nat → R) (t f : Nat) (ht : t < size) (hf : f < outF) :
    maskedDense exclusive size inF outF kernel bias x t f
      = (∑ s ∈ range (if exclusive then t else t + 1), ∑ g ∈ range inF, x s g * kernel (s * inF + g) (t * outF + f)) + bias t f := by
  have hcol : (t * outF + f) / outF = t := by
    rw [Nat.add_comm, Nat.add_mul_div_right _ _ (by omega), Nat.div_eq_of_lt hf, Nat.zero_add]
  have hsub : range (if exclusive then t else t + 1) ⊆ range size := by
    intro s hs
    rw [mem_range] at hs ⊢
    cases exclusive <;> simp at hs <;> omega
  rw [maskedDense, list_sum_range, sum_blocks, ← sum_subset hsub]
  · congr 1
    refine sum_congr rfl fun s hs => sum_congr rfl fun g hg => ?_
    rw [mem_range] at hs hg
    have h1 : (s * inF + g) / inF = s := by
      rw [Nat.add_comm, Nat.add_mul_div_right _ _ (by omega), Nat.div_eq_of_lt hg, Nat.zero_add]
    have h2 : (s * inF + g) % inF = g := by rw [Nat.add_comm, Nat.add_mul_mod_self_right, Nat.mod_eq_of_lt hg]
    have h3 : (s + if exclusive then 1 else 0) ≤ t := by cases exclusive <;> simp at hs ⊢ <;> omega
    simp only [kronMask, triu, h1, h2, hcol, if_pos h3, one_mul]
  · intro s _ hs
    refine sum_eq_zero fun g hg => ?_
    rw [mem_range] at hs hg
    have h1 : (s * inF + g) / inF = s := by
      rw [Nat.add_comm, Nat.add_mul_div_right _ _ (by omega), Nat.div_eq_of_lt hg, Nat.zero_add]
    have h3 : ¬ (s + if exclusive then 1 else 0) ≤ t := by cases exclusive <;> simp at hs ⊢ <;> omega
    simp only [kronMask, triu, h1, hcol, if_neg h3, zero_mul, mul_zero]

/-- C260: `MaskedConv1D` with a kernel of `K` entries: the last entry meets site `t` (the site one dilation before, if exclusive), every entry before
    it one dilation further back, and nothing where this is outside of the chain. -/
theorem C260_conv1d (exclusive : Bool) (size K dil inF outF groups : Nat) (kernel : Nat → Nat → Nat → R) (bias : Nat → R) (x : Nat → Nat → R) (t f : Nat)
    (ht : t < size) :
    maskedConv1d exclusive size K dil inF outF groups kernel bias x t f
      = (∑ j ∈ range K, ∑ c ∈ range (inF / groups),
          if (j + if exclusive then 1 else 0) * dil ≤ t
          then x (t - (j + if exclusive then 1 else 0) * dil) (f / (outF / groups) * (inF / groups) + c) * kernel (K - 1 - j) c f else 0) + bias f := by
  rw [maskedConv1d, list_sum_range]
  congr 1
  rw [← sum_range_reflect]
  refine sum_congr rfl fun j hj => ?_
  rw [mem_range] at hj
  rw [list_sum_range]
  refine sum_congr rfl fun c _ => ?_
  obtain ⟨m, rfl⟩ : ∃ m, K = j + 1 + m := ⟨K - (j + 1), by omega⟩
  have e1 : j + 1 + m - 1 - j = m := by omega
  rw [e1]
  cases exclusive
  · have e2 : (j + 1 + m - 1) * dil = j * dil + m * dil := by rw [← Nat.add_mul]; congr 1; omega
    simp only [conv1dPad, Bool.false_eq_true, if_false, e2, Nat.add_zero]
    by_cases h : j * dil ≤ t
    · rw [if_pos h, if_pos (by omega)]
      congr 2
      omega
    · rw [if_neg h, if_neg (by omega), zero_mul]
  · have e2 : (j + 1 + m) * dil = (j + 1) * dil + m * dil := Nat.add_mul _ _ _
    have e3 : (j + 1) * dil = j * dil + dil := by ring
    simp only [conv1dPad, if_true, Nat.sub_zero, e2]
    by_cases h : (j + 1) * dil ≤ t
    · rw [if_pos h, if_pos (by omega)]
      congr 2
      omega
    · rw [if_neg h, if_neg (by omega), zero_mul]

/-- site `(p, q)` comes before `(i, j)` in the order of the rows, or is `(i, j)` unless exclusive. -/
def Before (exclusive : Bool) (p q i j : Nat) : Prop := p < i ∨ (p = i ∧ (q < j ∨ (exclusive = false ∧ q = j)))

/-- C260: `MaskedConv2D` with a kernel of `kh × kw` entries: entry `(a, b)` meets the site `kh - 1 - a` dilations above and `b - kw // 2` dilations to
    the right, and counts if this is a site of the lattice before `(i, j)`. -/
theorem C260_conv2d (exclusive : Bool) (H W kh kw dh dw inF outF groups : Nat) (hdh : 0 < dh) (hdw : 0 < dw) (kernel : Nat → Nat → Nat → Nat → R) (bias : Nat → R)
    (x : Nat → Nat → Nat → R) (i j f : Nat) (hi : i < H) :
    ∃ w : Nat → Nat → Nat → R, maskedConv2d exclusive H W kh kw dh dw inF outF groups kernel bias x i j f
      = (∑ a ∈ range kh, ∑ b ∈ range kw, ∑ c ∈ range (inF / groups), w a b c) + bias f
    ∧ ∀ a < kh, ∀ b < kw, ∀ c,
      (∀ p q, p + (kh - 1 - a) * dh = i → q + kw / 2 * dw = j + b * dw → q < W → Before exclusive p q i j →
        w a b c = x p q (f / (outF / groups) * (inF / groups) + c) * kernel a b c f)
      ∧ ((¬ ∃ p q, p + (kh - 1 - a) * dh = i ∧ q + kw / 2 * dw = j + b * dw ∧ q < W ∧ Before exclusive p q i j) → w a b c = 0) := by
  refine ⟨fun a b c => conv2dPad H W kh kw dh dw x (i + a * dh) (j + b * dw) (f / (outF / groups) * (inF / groups) + c)
      * (conv2dMask exclusive kh kw a b * kernel a b c f), ?_, ?_⟩
  · simp only [maskedConv2d, list_sum_range]
  · intro a ha b hb c
    obtain ⟨m, rfl⟩ : ∃ m, kh = a + 1 + m := ⟨kh - (a + 1), by omega⟩
    have e1 : a + 1 + m - 1 - a = m := by omega
    have e2 : (a + 1 + m - 1) * dh = a * dh + m * dh := by rw [← Nat.add_mul]; congr 1; omega
    rw [e1]
    have hm : m * dh = 0 ↔ m = 0 := by rw [Nat.mul_eq_zero]; omega
    have hlt : ∀ q, q + kw / 2 * dw = j + b * dw → ((q < j ↔ b < kw / 2) ∧ (q = j ↔ b = kw / 2)) := by
      intro q hq
      have h1 : b < kw / 2 ↔ b * dw < kw / 2 * dw := (Nat.mul_lt_mul_right hdw).symm
      have h2 : b = kw / 2 ↔ b * dw = kw / 2 * dw := ⟨fun h => by rw [h], fun h => Nat.eq_of_mul_eq_mul_right hdw h⟩
      rw [h1, h2]
      omega
    have hmask : ∀ p q, p + m * dh = i → q + kw / 2 * dw = j + b * dw →
        (Before exclusive p q i j ↔ ¬ (a + 1 = a + 1 + m ∧ kw / 2 + (if exclusive then 0 else 1) ≤ b)) := by
      intro p q hp hq
      obtain ⟨h1, h2⟩ := hlt q hq
      unfold Before
      rw [h1, h2]
      cases exclusive <;> simp <;> omega
    refine ⟨fun p q hp hq hW hb' => ?_, fun hno => ?_⟩
    · have h3 := (hmask p q hp hq).1 hb'
      simp only [conv2dPad, conv2dMask, e2, if_neg h3, one_mul]
      rw [if_pos (by omega)]
      congr 2 <;> omega
    · by_cases hin : m * dh ≤ i ∧ kw / 2 * dw ≤ j + b * dw ∧ j + b * dw < kw / 2 * dw + W
      · have h3 : (a + 1 = a + 1 + m ∧ kw / 2 + (if exclusive then 0 else 1) ≤ b) := by
          by_contra hcon
          have hp : i - m * dh + m * dh = i := by omega
          have hq : j + b * dw - kw / 2 * dw + kw / 2 * dw = j + b * dw := by omega
          exact hno ⟨i - m * dh, j + b * dw - kw / 2 * dw, hp, hq, by omega, (hmask _ _ hp hq).2 hcon⟩
        simp only [conv2dMask, if_pos h3, zero_mul, mul_zero]
      · simp only [conv2dPad, e2]
        rw [if_neg (by omega), zero_mul]

/-- the last but one site of a chain of three, and the middle of a lattice of three rows. -/
example : 1 < 3 ∧ 2 < 4 ∧ Before true 0 2 1 1 ∧ ¬ Before true 1 1 1 1 ∧ Before false 1 1 1 1 := by
  unfold Before
  decide
example : maskedConv1d false 3 2 1 1 1 1 (fun k _ _ => if k = 0 then 10 else 1) (fun _ => 0) (fun s _ => s + 1) 2 0 = (23 : ℕ) := by decide
example : maskedConv1d true 3 2 1 1 1 1 (fun k _ _ => if k = 0 then 10 else 1) (fun _ => 0) (fun s _ => s + 1) 2 0 = (12 : ℕ) := by decide

end Verif.AutoReg

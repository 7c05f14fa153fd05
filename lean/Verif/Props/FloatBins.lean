import Verif.Model.FloatBins
import Verif.Props.Lattice

/-! C136: bins for floating-point numbers (netket/utils/float.py).  C137: `prune_zeros` and its arguments. -/

set_option linter.unusedSectionVars false

namespace Verif.Bins
open Verif.Lat (rint rint_add_even rint_bounds)
variable {K : Type} [Field K] [LinearOrder K] [IsStrictOrderedRing K] [FloorRing K]

theorem rint_of_lt (x : K) (m : ℤ) (h : |x - m| < 1 / 2) : rint x = m := by
  obtain ⟨h1, h2⟩ := rint_bounds x
  obtain ⟨h3, h4⟩ := abs_lt.1 h
  have a : (rint x : K) < m + 1 := by linarith
  have b : (m : K) < rint x + 1 := by linarith
  have a' : rint x < m + 1 := by exact_mod_cast a
  have b' : m < rint x + 1 := by exact_mod_cast b
  omega

theorem rint_mono {x y : K} (h : x ≤ y) : rint x ≤ rint y := by
  have hf := Int.floor_mono h
  have x1 := Int.floor_le x
  have y1 := Int.lt_floor_add_one y
  by_cases he : ⌊x⌋ = ⌊y⌋
  · unfold rint
    rw [he]
    have : x - (⌊y⌋ : K) ≤ y - (⌊y⌋ : K) := by linarith
    split_ifs <;> first | omega | (exfalso; linarith)
  · have hlt : ⌊x⌋ + 1 ≤ ⌊y⌋ := by omega
    have b1 : rint x ≤ ⌊x⌋ + 1 := by unfold rint; split_ifs <;> omega
    have b2 : ⌊y⌋ ≤ rint y := by unfold rint; split_ifs <;> omega
    omega

theorem rint_int (m : ℤ) : rint (m : K) = m := rint_of_lt _ _ (by simp)

/-! ## C136 -/

/-- the bin is a nearest integer to `D x + offset`. -/
theorem C136_nearest (D : ℤ) (off x : K) (n : ℤ) :
    |x * D + off - (comparable D off x : K)| ≤ |x * D + off - (n : K)| := by
  unfold comparable
  obtain ⟨h1, h2⟩ := rint_bounds (x * (D : K) + off)
  set y := x * (D : K) + off
  have h : |y - (rint y : K)| ≤ 1 / 2 := abs_le.2 ⟨by linarith, by linarith⟩
  by_cases hn : n = rint y
  · rw [hn]
  · have : (1 : K) ≤ |(rint y : K) - (n : K)| := by
      have h3 : (1 : ℤ) ≤ |rint y - n| := Int.one_le_abs (sub_ne_zero.2 (Ne.symm hn))
      have : ((1 : ℤ) : K) ≤ ((|rint y - n| : ℤ) : K) := by exact_mod_cast h3
      simpa using this
    have h4 : |(rint y : K) - n| ≤ |y - (rint y : K)| + |y - (n : K)| := by
      have e : (rint y : K) - n = -(y - rint y) + (y - n) := by ring
      rw [e]
      exact (abs_add_le _ _).trans (by rw [abs_neg])
    linarith

/-- numbers within `(1/2 - offset) / D` of the multiple `m / D` have the bin `m`. -/
theorem C136_multiples (D : ℤ) (hD : 0 < D) (off : K) (h0 : 0 ≤ off) (m : ℤ) (x : K) (hx : |x - (m : K) / D| * D < 1 / 2 - off) :
    comparable D off x = m := by
  have hD' : (0 : K) < D := by exact_mod_cast hD
  refine rint_of_lt _ _ ?_
  have e : x * (D : K) + off - m = (x - (m : K) / D) * D + off := by field_simp; ring
  rw [e]
  refine (abs_add_le _ _).trans_lt ?_
  rw [abs_mul, abs_of_pos hD', abs_of_nonneg h0]
  linarith

/-- with the default parameters: fractions `a / b` whose denominator divides 3326400, up to errors of `4.6e-8`; two of them are
    put in the same bin precisely if they are equal. -/
theorem C136_fractions (a b a' b' : ℤ) (hb : b ∣ 3326400) (hb' : b' ∣ 3326400) (x y : K) (hx : |x - (a : K) / b| < 46 / 10 ^ 9)
    (hy : |y - (a' : K) / b'| < 46 / 10 ^ 9) :
    (comparable 3326400 (5413 / 15629) x = comparable 3326400 (5413 / 15629) y ↔ (a : K) / b = a' / b') := by
  have key : ∀ (a b : ℤ) (x : K), b ∣ 3326400 → |x - (a : K) / b| < 46 / 10 ^ 9 →
      ∃ m : ℤ, (a : K) / b = (m : K) / (3326400 : ℤ) ∧ comparable 3326400 (5413 / 15629) x = m := by
    intro a b x ⟨c, hc⟩ hx
    have hb0 : (b : K) ≠ 0 := by
      have : b ≠ 0 := by rintro rfl; omega
      exact_mod_cast this
    have hc0 : (c : K) ≠ 0 := by
      have : c ≠ 0 := by rintro rfl; omega
      exact_mod_cast this
    have e : (a : K) / b = ((a * c : ℤ) : K) / (3326400 : ℤ) := by
      rw [hc]; push_cast; field_simp
    refine ⟨a * c, e, C136_multiples _ (by norm_num) _ (by norm_num) _ _ ?_⟩
    rw [← e]
    push_cast
    have : (46 : K) / 10 ^ 9 * 3326400 < 1 / 2 - 5413 / 15629 := by norm_num
    nlinarith
  obtain ⟨m, h1, h2⟩ := key a b x hb hx
  obtain ⟨m', h3, h4⟩ := key a' b' y hb' hy
  rw [h1, h2, h3, h4]
  constructor
  · rintro rfl; rfl
  · intro h
    have : (m : K) = m' := by
      have h0 : (((3326400 : ℤ) : K)) ≠ 0 := by norm_num
      field_simp at h
      exact h
    exact_mod_cast this

/-- bins are in the order of the numbers; numbers in the same bin differ by at most its width. -/
theorem C136_order (D : ℤ) (hD : 0 < D) (off x y : K) :
    (x ≤ y → comparable D off x ≤ comparable D off y) ∧ (comparable D off x = comparable D off y → |x - y| ≤ 1 / D) ∧
      (1 / (D : K) < y - x → comparable D off x < comparable D off y) := by
  have hD' : (0 : K) < D := by exact_mod_cast hD
  have mono : ∀ x y : K, x ≤ y → comparable D off x ≤ comparable D off y := fun x y h => rint_mono (by nlinarith)
  have close : ∀ x y : K, comparable D off x = comparable D off y → |x - y| ≤ 1 / D := by
    intro x y h
    unfold comparable at h
    obtain ⟨h1, h2⟩ := rint_bounds (x * (D : K) + off)
    obtain ⟨h3, h4⟩ := rint_bounds (y * (D : K) + off)
    rw [h] at h1 h2
    have e : |x - y| * (D : K) = |(x - y) * D| := by rw [abs_mul, abs_of_pos hD']
    rw [le_div_iff₀ hD', e]
    exact abs_le.2 ⟨by linarith, by linarith⟩
  refine ⟨mono x y, close x y, fun h => ?_⟩
  have hp : 0 < 1 / (D : K) := by positivity
  refine lt_of_le_of_ne (mono x y (by linarith)) fun he => ?_
  have := (abs_le.1 (close x y he)).1
  linarith

/-- `comparable_periodic` with `where=True` and an even bin density does not change under integer shifts, and is an index below the bin
    density; with `where=False` it is `comparable`. -/
theorem C136_periodic (D : ℤ) (hD : 0 < D) (off x : K) :
    comparablePeriodic D off false x = comparable D off x ∧ 0 ≤ comparablePeriodic D off true x ∧ comparablePeriodic D off true x < D ∧
      (D % 2 = 0 → ∀ n : ℤ, comparablePeriodic D off true (x + n) = comparablePeriodic D off true x) := by
  refine ⟨rfl, Int.emod_nonneg _ hD.ne', Int.emod_lt_of_pos _ hD, fun h n => ?_⟩
  unfold comparablePeriodic comparable
  have e : (x + n) * (D : K) + off = x * D + off + ((n * D : ℤ) : K) := by push_cast; ring
  rw [e, rint_add_even _ _ (by rw [Int.mul_emod, h]; simp)]
  simp

/-- two numbers have the same periodic bin precisely if some integer shift brings them to the same bin. -/
theorem C136_periodic_iff (D : ℤ) (hD : 0 < D) (hD2 : D % 2 = 0) (off x y : K) :
    comparablePeriodic D off true x = comparablePeriodic D off true y ↔ ∃ n : ℤ, comparable D off (x + n) = comparable D off y := by
  have sh : ∀ n : ℤ, comparable D off (x + n) = comparable D off x + n * D := by
    intro n
    unfold comparable
    have e : (x + n) * (D : K) + off = x * D + off + ((n * D : ℤ) : K) := by push_cast; ring
    rw [e, rint_add_even _ _ (by rw [Int.mul_emod, hD2]; simp)]
  unfold comparablePeriodic
  simp only [if_true, sh]
  constructor
  · intro h
    obtain ⟨n, h⟩ := Int.dvd_of_emod_eq_zero (Int.emod_eq_emod_iff_emod_sub_eq_zero.1 h.symm)
    exact ⟨n, by rw [mul_comm n D, ← h]; ring⟩
  · rintro ⟨n, h⟩
    rw [← h]; simp

/-- `is_approx_int`: within `atol` of an integer. -/
theorem C136_is_approx_int (atol x : K) : isApproxInt atol x = true ↔ ∃ n : ℤ, |x - n| ≤ atol := by
  unfold isApproxInt
  rw [decide_eq_true_iff]
  constructor
  · exact fun h => ⟨_, h⟩
  · rintro ⟨n, h⟩
    have := C136_nearest 1 0 x n
    unfold comparable at this
    simp only [Int.cast_one, mul_one, add_zero] at this
    exact this.trans h

/-! ## C137 -/

/-- `prune_zeros(x)` of a real array: entries within 1e-8 of zero become zero, all others are kept. -/
theorem C137_real (x : List K) : ∃ y, (pruneZerosReal (1 / 10 ^ 8) x).2 = .real y ∧ y.length = x.length ∧
    ∀ (i : Nat) v, x[i]? = some v → ∃ w, y[i]? = some w ∧ (|v| ≤ 1 / 10 ^ 8 → w = 0) ∧ (1 / 10 ^ 8 < |v| → w = v) := by
  refine ⟨_, rfl, by simp [pruneReal], fun i v h => ⟨_, by simp only [pruneReal, List.getElem?_map, h]; rfl, fun h => ?_, fun h => ?_⟩⟩
  · show (if _ then _ else _) = _
    rw [if_pos]; unfold defaultAtol; norm_num at h ⊢; exact h
  · show (if _ then _ else _) = _
    rw [if_neg]; unfold defaultAtol; norm_num at h ⊢; exact h

/-- `prune_zeros(x)` of a complex array: if all imaginary parts are within 1e-8 of zero the pruned real parts are returned, otherwise
    the array with both parts of every entry pruned. -/
theorem C137_complex (x : List (K × K)) :
    ((∀ z ∈ x, |z.2| ≤ 1 / 10 ^ 8) → ∃ y, (pruneZerosComplex (1 / 10 ^ 8) x).2 = .real y ∧ y.length = x.length ∧
      ∀ (i : Nat) z, x[i]? = some z → ∃ w, y[i]? = some w ∧ (|z.1| ≤ 1 / 10 ^ 8 → w = 0) ∧ (1 / 10 ^ 8 < |z.1| → w = z.1)) ∧
    ((∃ z ∈ x, 1 / 10 ^ 8 < |z.2|) → ∃ y, (pruneZerosComplex (1 / 10 ^ 8) x).2 = .cplx y ∧ y.length = x.length ∧
      ∀ (i : Nat) z, x[i]? = some z → ∃ w, y[i]? = some w ∧ (|z.1| ≤ 1 / 10 ^ 8 → w.1 = 0) ∧ (1 / 10 ^ 8 < |z.1| → w.1 = z.1) ∧
        (|z.2| ≤ 1 / 10 ^ 8 → w.2 = 0) ∧ (1 / 10 ^ 8 < |z.2| → w.2 = z.2)) := by
  have pr : ∀ v : K, (|v| ≤ 1 / 10 ^ 8 → (if |v| ≤ defaultAtol then 0 else v) = 0) ∧
      (1 / 10 ^ 8 < |v| → (if |v| ≤ defaultAtol then 0 else v) = v) := by
    intro v
    constructor <;> intro h
    · rw [if_pos]; unfold defaultAtol; norm_num at h ⊢; exact h
    · rw [if_neg]; unfold defaultAtol; norm_num at h ⊢; exact h
  constructor
  · intro h
    refine ⟨pruneReal defaultAtol (x.map Prod.fst), ?_, by simp [pruneReal], fun i z hz => ?_⟩
    · unfold pruneZerosComplex
      simp only
      rw [if_pos (by rw [List.all_eq_true]; intro z hz; simpa using h z hz)]
    · exact ⟨_, by simp only [pruneReal, List.getElem?_map, hz, Option.map_some], pr z.1⟩
  · rintro ⟨z0, hz0, h0⟩
    refine ⟨(pruneReal defaultAtol (x.map Prod.fst)).zip (pruneReal defaultAtol (x.map Prod.snd)), ?_, by simp [pruneReal],
      fun i z hz => ?_⟩
    · unfold pruneZerosComplex
      simp only
      rw [if_neg]
      rw [List.all_eq_true]
      intro hall
      have := of_decide_eq_true (hall z0 hz0)
      exact absurd this (not_le.2 h0)
    · refine ⟨(_, _), by simp only [pruneReal, List.getElem?_zip_eq_some, List.getElem?_map, hz, Option.map_some]; exact ⟨rfl, rfl⟩, ?_⟩
      exact ⟨(pr z.1).1, (pr z.1).2, (pr z.2).1, (pr z.2).2⟩

/-! ## C139: the argument of `prune_zeros` is changed, and `atol` is not used for the entries -/

/-- pruning does not leave the array passed by the caller alone: the entries found small are overwritten in it, and for a complex array
    the parts as well. -/
theorem C139_argument_changed_refuted : ¬∀ x : List ℚ, (pruneZerosReal (1 / 10 ^ 8) x).1 = x := by
  intro h
  have := h [1 / 10 ^ 9]
  simp [pruneZerosReal, pruneReal, defaultAtol] at this
  norm_num [abs_of_pos] at this

/-- entries below the tolerance given by the caller are not pruned unless they are below 1e-8. -/
theorem C139_atol_refuted : ¬∀ (atol : ℚ) (x : List ℚ), 0 < atol → ∃ y, (pruneZerosReal atol x).2 = .real y ∧
    ∀ (i : Nat) v, x[i]? = some v → |v| ≤ atol → y[i]? = some 0 := by
  intro h
  obtain ⟨y, h1, h2⟩ := h (1 / 10) [1 / 100] (by norm_num)
  have h3 := h2 0 (1 / 100) rfl (by rw [abs_of_pos] <;> norm_num)
  simp only [pruneZerosReal, Pruned.real.injEq] at h1
  rw [← h1] at h3
  simp [pruneReal, defaultAtol] at h3
  norm_num [abs_of_pos] at h3

/-- what becomes of the argument: it holds what is returned for a real array; a complex one keeps its imaginary parts if these are all
    small, and holds what is returned otherwise. -/
theorem C139_argument_partial (atol : K) (x : List K) (z : List (K × K)) :
    (pruneZerosReal atol x).2 = .real (pruneZerosReal atol x).1 ∧
    ((∃ w ∈ z, atol < |w.2|) → (pruneZerosComplex atol z).2 = .cplx (pruneZerosComplex atol z).1) ∧
    ((∀ w ∈ z, |w.2| ≤ atol) → (pruneZerosComplex atol z).2 = .real ((pruneZerosComplex atol z).1.map Prod.fst) ∧
      (pruneZerosComplex atol z).1.map Prod.snd = z.map Prod.snd) := by
  refine ⟨rfl, ?_, fun h => ?_⟩
  · rintro ⟨w, hw, h⟩
    unfold pruneZerosComplex
    simp only
    rw [if_neg]
    rw [List.all_eq_true]
    intro hall
    exact absurd (of_decide_eq_true (hall w hw)) (not_le.2 h)
  · unfold pruneZerosComplex
    simp only
    rw [if_pos (by rw [List.all_eq_true]; intro z hz; simpa using h z hz)]
    constructor
    · rw [List.map_fst_zip]
      simp [pruneReal]
    · rw [List.map_snd_zip]
      simp [pruneReal]

/-! ## Examples -/

/-- a fraction with a small error; the default bin density is even and positive. -/
example : (3 : ℤ) ∣ 3326400 ∧ |(333333334 / 10 ^ 9 : ℚ) - (1 : ℤ) / (3 : ℤ)| < 46 / 10 ^ 9 ∧ (3326400 : ℤ) % 2 = 0 ∧ (0 : ℤ) < 3326400 := by
  refine ⟨by norm_num, ?_, by norm_num, by norm_num⟩
  rw [abs_lt]; constructor <;> norm_num

example : |(3 / 10 + 1 / 10 ^ 8 : ℚ) - (997920 : ℤ) / (3326400 : ℤ)| * (3326400 : ℤ) < 1 / 2 - 5413 / 15629 := by
  rw [abs_of_pos] <;> norm_num

/-- an array with a small imaginary part, and one with a large one. -/
example : (∀ z ∈ [((1 : ℚ), (0 : ℚ))], |z.2| ≤ 1 / 10 ^ 8) ∧ ∃ z ∈ [((1 : ℚ), (1 : ℚ))], 1 / 10 ^ 8 < |z.2| := by
  refine ⟨by simp, (1, 1), by simp, ?_⟩
  norm_num

end Verif.Bins

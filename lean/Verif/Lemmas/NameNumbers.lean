import Verif.Model.GroupNames
import Verif.Props.Lattice
import Mathlib.NumberTheory.Real.Irrational
import Mathlib.Tactic.Linarith
import Mathlib.Tactic.Ring
import Mathlib.Tactic.FieldSimp
import Mathlib.Tactic.Positivity
import Mathlib.Tactic.NormNum

/-! Printed numbers and directions. -/

namespace Verif.GroupNames

open Verif.Lat (rint)
open Matrix

/-- an integer at distance less than one half is the rounded value. -/
theorem rint_eq (x : ℝ) (n : Int) (h : |x - (n : ℝ)| < 1 / 2) : rint x = n := by
  obtain ⟨b1, b2⟩ := Verif.Lat.rint_bounds x
  rw [abs_lt] at h
  have h1 : (rint x : ℝ) < (n : ℝ) + 1 := by linarith [h.2]
  have h2 : (n : ℝ) < (rint x : ℝ) + 1 := by linarith [h.1]
  have h3 : rint x < n + 1 := by exact_mod_cast h1
  have h4 : n < rint x + 1 := by exact_mod_cast h2
  omega

theorem rint_int (n : Int) : rint (n : ℝ) = n := rint_eq _ n (by simp)

/-- the first `d` from 1 to 99 with a property. -/
theorem find_first (P : Nat → Bool) (q : Nat) (h1 : 1 ≤ q) (h2 : q ≤ 99) (h3 : P q = true) (h4 : ∀ d, 1 ≤ d → d < q → P d = false) :
    ((List.range 99).map fun k : Nat => k + 1).find? P = some q := by
  rw [List.find?_map]
  have : (List.range 99).find? (P ∘ fun k : Nat => k + 1) = some (q - 1) := by
    rw [List.find?_range_eq_some]
    refine ⟨?_, by simp; omega, fun j hj => ?_⟩
    · simp only [Function.comp]
      rw [Nat.sub_add_cancel h1]
      exact h3
    · simp only [Function.comp]
      rw [h4 (j + 1) (by omega) (by omega)]
      rfl
  rw [this]
  simp only [Option.map_some]
  rw [Nat.sub_add_cancel h1]

theorem find_some (P : Nat → Bool) (q : Nat) (h : ((List.range 99).map fun k : Nat => k + 1).find? P = some q) : 1 ≤ q ∧ q ≤ 99 ∧ P q = true := by
  have h1 := List.mem_of_find?_eq_some h
  have h2 := List.find?_some h
  rw [List.mem_map] at h1
  obtain ⟨k, hk, rfl⟩ := h1
  rw [List.mem_range] at hk
  exact ⟨by omega, by omega, h2⟩

theorem find_none (P : Nat → Bool) (h : ((List.range 99).map fun k : Nat => k + 1).find? P = none) (d : Nat) (h1 : 1 ≤ d) (h2 : d ≤ 99) : P d = false := by
  rw [List.find?_eq_none] at h
  have := h d (List.mem_map.2 ⟨d - 1, List.mem_range.2 (by omega), by omega⟩)
  simpa using this

theorem toRat_spec (x : ℝ) (p : Int) (q : Nat) (h : toRat x = some (p, q)) : 1 ≤ q ∧ q ≤ 99 ∧ |x * (q : ℝ) - (p : ℝ)| ≤ tol := by
  unfold toRat at h
  rw [Option.map_eq_some_iff] at h
  obtain ⟨d, hd, e⟩ := h
  obtain ⟨h1, h2, h3⟩ := find_some _ _ hd
  injection e with e1 e2
  subst e2
  subst e1
  exact ⟨h1, h2, of_decide_eq_true h3⟩

/-- a rational with denominator up to 99 is found, in lowest terms. -/
theorem toRat_rat (r : ℚ) (h : r.den ≤ 99) : toRat (r : ℝ) = some (r.num, r.den) := by
  have hq : (0 : ℝ) < (r.den : ℝ) := by exact_mod_cast r.den_pos
  have er : (r : ℝ) = (r.num : ℝ) / (r.den : ℝ) := by exact_mod_cast (Rat.num_div_den r).symm
  have e1 : (r : ℝ) * (r.den : ℝ) = (r.num : ℝ) := by rw [er]; field_simp
  unfold toRat
  rw [find_first _ r.den r.den_pos h]
  · simp only [Option.map_some, e1, rint_int]
  · apply decide_eq_true
    rw [e1, rint_int]
    unfold tol
    simp
  · intro d hd hdq
    apply decide_eq_false
    intro hc
    generalize rint ((r : ℝ) * (d : ℝ)) = m at hc
    have e2 : ((r : ℝ) * (d : ℝ) - (m : ℝ)) * (r.den : ℝ) = ((r.num * d - m * r.den : Int) : ℝ) := by
      push_cast
      rw [← e1]; ring
    have hb : |((r.num * d - m * r.den : Int) : ℝ)| < 1 := by
      rw [← e2, abs_mul, abs_of_pos hq]
      have : (r.den : ℝ) ≤ 99 := by exact_mod_cast h
      unfold tol at hc
      calc |(r : ℝ) * (d : ℝ) - (m : ℝ)| * (r.den : ℝ) ≤ (1 / 10 ^ 6) * 99 := mul_le_mul hc this hq.le (by norm_num)
        _ < 1 := by norm_num
    have hz : r.num * d - m * r.den = 0 := by
      have : |r.num * d - m * r.den| < 1 := by exact_mod_cast hb
      exact Int.abs_lt_one_iff.1 this
    have hdvd : (r.den : Int) ∣ r.num * d := ⟨m, by linarith [hz, mul_comm m (r.den : Int)]⟩
    have hcop : IsCoprime (r.den : Int) r.num := by
      have := r.reduced
      rw [Int.isCoprime_iff_gcd_eq_one, Int.gcd_comm]
      exact this
    have := hcop.dvd_of_dvd_mul_left hdvd
    have := Int.le_of_dvd (by exact_mod_cast hd) this
    omega

/-- three times a nonzero square is no square. -/
theorem three_sq (a b : Int) (ha : a ≠ 0) : 3 * a ^ 2 - b ^ 2 ≠ 0 := by
  intro h
  have hirr : Irrational (Real.sqrt 3) := by
    have := Nat.Prime.irrational_sqrt (p := 3) Nat.prime_three
    simpa using this
  apply hirr
  refine ⟨(|b| : ℤ) / (|a| : ℤ), ?_⟩
  have ha' : (0 : ℝ) < |(a : ℝ)| := abs_pos.2 (by exact_mod_cast ha)
  have e : (3 : ℝ) * |(a : ℝ)| ^ 2 = |(b : ℝ)| ^ 2 := by
    rw [sq_abs, sq_abs]
    have : (3 * (a : ℝ) ^ 2 - (b : ℝ) ^ 2) = 0 := by exact_mod_cast h
    linarith
  have e2 : (3 : ℝ) = (|(b : ℝ)| / |(a : ℝ)|) ^ 2 := by
    rw [div_pow, ← e]; field_simp
  push_cast
  rw [e2, Real.sqrt_sq (by positivity)]

/-- a multiple of `√3` is not taken for a fraction. -/
theorem toRat_root3 (r : ℚ) (hr : r ≠ 0) (hb : r.num.natAbs * r.den ≤ 2500) : toRat ((r : ℝ) * Real.sqrt 3) = none := by
  unfold toRat
  rw [Option.map_eq_none_iff, List.find?_eq_none]
  intro d hd
  obtain ⟨k, hk, rfl⟩ := List.mem_map.1 hd
  rw [List.mem_range] at hk
  simp only [decide_eq_true_eq, not_le]
  generalize hm : rint ((r : ℝ) * Real.sqrt 3 * ((k + 1 : Nat) : ℝ)) = m
  by_contra hc
  rw [not_lt] at hc
  have hq : (0 : ℝ) < (r.den : ℝ) := by exact_mod_cast r.den_pos
  have er : (r : ℝ) = (r.num : ℝ) / (r.den : ℝ) := by exact_mod_cast (Rat.num_div_den r).symm
  have e1 : (r.num : ℝ) = (r : ℝ) * (r.den : ℝ) := by rw [er]; field_simp
  have hnum : r.num ≠ 0 := Rat.num_ne_zero.2 hr
  set y := (r : ℝ) * Real.sqrt 3 * ((k + 1 : Nat) : ℝ) with hy
  have s3 : Real.sqrt 3 ^ 2 = 3 := Real.sq_sqrt (by norm_num)
  have s2 : Real.sqrt 3 ≤ 1.74 := by
    rw [Real.sqrt_le_left (by norm_num)]; norm_num
  have s0 : 0 ≤ Real.sqrt 3 := Real.sqrt_nonneg 3
  have hint : (1 : ℝ) ≤ |((3 * (r.num * (k + 1 : Nat)) ^ 2 - (m * r.den) ^ 2 : Int) : ℝ)| := by
    have := Int.one_le_abs (three_sq (r.num * (k + 1 : Nat)) (m * r.den) (mul_ne_zero hnum (by omega)))
    exact_mod_cast this
  have efac : ((3 * (r.num * (k + 1 : Nat)) ^ 2 - (m * r.den) ^ 2 : Int) : ℝ) = (r.den : ℝ) ^ 2 * ((y - m) * (y + m)) := by
    push_cast
    rw [e1, hy]
    push_cast
    linear_combination (-(r : ℝ) ^ 2 * (r.den : ℝ) ^ 2 * ((k : ℝ) + 1) ^ 2) * s3
  rw [efac, abs_mul, abs_mul, abs_of_pos (by positivity : (0 : ℝ) < (r.den : ℝ) ^ 2)] at hint
  have hk' : ((k + 1 : Nat) : ℝ) ≤ 99 := by exact_mod_cast (by omega : k + 1 ≤ 99)
  have hb' : |(r.num : ℝ)| * (r.den : ℝ) ≤ 2500 := by
    have : ((r.num.natAbs * r.den : Nat) : ℝ) ≤ 2500 := by exact_mod_cast hb
    rw [Nat.cast_mul, Nat.cast_natAbs, Int.cast_abs] at this
    exact this
  have hden : (r.den : ℝ) ≤ 2500 := by
    have h1 : (1 : ℝ) ≤ |(r.num : ℝ)| := by exact_mod_cast Int.one_le_abs hnum
    nlinarith
  have hyq : (r.den : ℝ) ^ 2 * |y| ≤ 2500 * 1.74 * 99 := by
    have : (r.den : ℝ) ^ 2 * |y| = (|(r.num : ℝ)| * (r.den : ℝ)) * Real.sqrt 3 * ((k + 1 : Nat) : ℝ) := by
      rw [hy, abs_mul, abs_mul, abs_of_nonneg s0, abs_of_nonneg (Nat.cast_nonneg (k + 1) : (0 : ℝ) ≤ ((k + 1 : Nat) : ℝ)), e1, abs_mul, abs_of_pos hq]
      ring
    rw [this]
    apply mul_le_mul (mul_le_mul hb' s2 s0 (by norm_num)) hk' (Nat.cast_nonneg _) (by norm_num)
  have hym : |y + m| ≤ 2 * |y| + tol := by
    have : y + m = 2 * y - (y - m) := by ring
    rw [this]
    refine (abs_sub _ _).trans ?_
    rw [abs_mul, abs_of_pos (by norm_num : (0 : ℝ) < 2)]
    linarith
  unfold tol at *
  have h1 : (r.den : ℝ) ^ 2 * (|y - m| * |y + m|) ≤ (r.den : ℝ) ^ 2 * ((1 / 10 ^ 6) * (2 * |y| + 1 / 10 ^ 6)) := by
    apply mul_le_mul_of_nonneg_left _ (by positivity)
    exact mul_le_mul hc hym (abs_nonneg _) (by norm_num)
  have h2 : (r.den : ℝ) ^ 2 ≤ 2500 ^ 2 := by
    apply pow_le_pow_left₀ hq.le hden
  nlinarith

/-! ## Values -/

/-- the value of a printed number. -/
noncomputable def Num.val : Num → ℝ
  | .int n => (n : ℝ)
  | .frac p q => (p : ℝ) / (q : ℝ)
  | .root3 p q => (p : ℝ) * Real.sqrt 3 / (q : ℝ)
  | .dec k => (k : ℝ) / 1000

/-- numbers with an exact name: fractions with denominators up to 99, and small fractions times `√3`. -/
def Nice (x : ℝ) : Prop :=
  (∃ r : ℚ, r.den ≤ 99 ∧ x = (r : ℝ)) ∨ ∃ r : ℚ, r ≠ 0 ∧ r.den ≤ 99 ∧ r.num.natAbs * r.den ≤ 2500 ∧ x = (r : ℝ) * Real.sqrt 3

theorem mkFrac_val (p : Int) (q : Nat) : (mkFrac (p, q)).val = (p : ℝ) / (q : ℝ) := by
  unfold mkFrac
  by_cases h : q = 1
  · subst h; simp [Num.val]
  · simp [h, Num.val]

theorem nice_val (x : ℝ) (h : Nice x) : (toRational x).val = x := by
  rcases h with ⟨r, hr, rfl⟩ | ⟨r, h0, hr, hb, rfl⟩
  · unfold toRational
    rw [toRat_rat r hr]
    simp only
    rw [mkFrac_val]
    exact_mod_cast Rat.num_div_den r
  · unfold toRational
    rw [toRat_root3 r h0 hb]
    have e : (r : ℝ) * Real.sqrt 3 / Real.sqrt 3 = (r : ℝ) := by
      have : Real.sqrt 3 ≠ 0 := by positivity
      field_simp
    simp only [e, toRat_rat r hr, Num.val]
    have : (r : ℝ) = (r.num : ℝ) / (r.den : ℝ) := by exact_mod_cast (Rat.num_div_den r).symm
    rw [this]; ring

theorem approx_val (x : ℝ) : |(toRational x).val - x| ≤ 1 / 2000 := by
  have key : ∀ (y : ℝ) (p : Int) (q : Nat), toRat y = some (p, q) → |(p : ℝ) / (q : ℝ) - y| ≤ tol := by
    intro y p q h
    obtain ⟨h1, h2, h3⟩ := toRat_spec y p q h
    have hq : (1 : ℝ) ≤ (q : ℝ) := by exact_mod_cast h1
    have e : (p : ℝ) / (q : ℝ) - y = -(y * q - p) / q := by
      field_simp; ring
    rw [e, abs_div, abs_neg, abs_of_pos (by linarith : (0 : ℝ) < (q : ℝ)), div_le_iff₀ (by linarith)]
    have : 0 ≤ tol := by unfold tol; norm_num
    nlinarith
  have ht : tol ≤ 1 / 4000 := by unfold tol; norm_num
  unfold toRational
  match e : toRat x with
  | some (p, q) =>
    simp only
    rw [mkFrac_val]
    exact (key x p q e).trans (by linarith)
  | none =>
    simp only
    match e2 : toRat (x / Real.sqrt 3) with
    | some (p, q) =>
      simp only [Num.val]
      have := key _ p q e2
      have s : Real.sqrt 3 ≤ 2 := by rw [Real.sqrt_le_left (by norm_num)]; norm_num
      have s0 : 0 < Real.sqrt 3 := by positivity
      have e3 : (p : ℝ) * Real.sqrt 3 / (q : ℝ) - x = ((p : ℝ) / (q : ℝ) - x / Real.sqrt 3) * Real.sqrt 3 := by
        field_simp
      rw [e3, abs_mul, abs_of_pos s0]
      calc _ ≤ tol * 2 := mul_le_mul this s s0.le (by unfold tol; norm_num)
        _ ≤ _ := by linarith
    | none =>
      simp only [Num.val]
      obtain ⟨b1, b2⟩ := Verif.Lat.rint_bounds (1000 * x)
      rw [abs_le]
      constructor <;> linarith

/-- a number with an exact name which is close to zero is zero. -/
theorem nice_zero (x : ℝ) (h : Nice x) : close x 0 ↔ x = 0 := by
  constructor
  · intro hc
    by_contra hx
    unfold close tol at hc
    rw [sub_zero] at hc
    have key : ∀ r : ℚ, r ≠ 0 → r.den ≤ 99 → (1 : ℝ) / 99 ≤ |(r : ℝ)| := by
      intro r h0 hr
      have hq : (0 : ℝ) < (r.den : ℝ) := by exact_mod_cast r.den_pos
      have er : (r : ℝ) = (r.num : ℝ) / (r.den : ℝ) := by exact_mod_cast (Rat.num_div_den r).symm
      have h1 : (1 : ℝ) ≤ |(r.num : ℝ)| := by exact_mod_cast Int.one_le_abs (Rat.num_ne_zero.2 h0)
      have h2 : (r.den : ℝ) ≤ 99 := by exact_mod_cast hr
      rw [er, abs_div, abs_of_pos hq, div_le_div_iff₀ (by norm_num) hq]
      linarith
    rcases h with ⟨r, hr, rfl⟩ | ⟨r, h0, hr, hb, rfl⟩
    · have := key r (by rintro rfl; exact hx (by simp)) hr
      norm_num at hc this
      linarith
    · have := key r h0 hr
      rw [abs_mul, abs_of_nonneg (Real.sqrt_nonneg 3)] at hc
      have s1 : 1 ≤ Real.sqrt 3 := by
        rw [Real.le_sqrt (by norm_num) (by norm_num)]; norm_num
      have : (1 : ℝ) / 99 * 1 ≤ |(r : ℝ)| * Real.sqrt 3 := mul_le_mul this s1 (by norm_num) (abs_nonneg _)
      norm_num at hc this
      linarith
  · rintro rfl
    unfold close tol
    norm_num

/-- what the printed point stands for: nothing is printed for the origin. -/
def Denotes {d : Nat} (p : Option (Fin d → Num)) (x : Fin d → ℝ) : Prop :=
  match p with
  | none => x = 0
  | some f => x ≠ 0 ∧ ∀ i, (f i).val = x i

theorem vzero_iff {d : Nat} (v : Fin d → ℝ) (h : ∀ i, Nice (v i)) : vzero v ↔ v = 0 := by
  constructor
  · intro hz
    funext i
    exact (nice_zero _ (h i)).1 (hz i)
  · rintro rfl i
    unfold close tol
    simp

theorem originPart_denotes {d : Nat} (v : Fin d → ℝ) (h : ∀ i, Nice (v i)) : Denotes (originPart v) v := by
  unfold originPart
  by_cases hz : vzero v
  · rw [if_pos hz]; exact (vzero_iff v h).1 hz
  · rw [if_neg hz]
    exact ⟨fun e => hz ((vzero_iff v h).2 e), fun i => nice_val _ (h i)⟩

theorem transPart_eq {d : Nat} (v : Fin d → ℝ) : transPart v = originPart v := rfl

/-! ## Directions -/

/-- the integers of `m` have no common factor and are small. -/
structure Prim (m : Fin 3 → Int) : Prop where
  gcd : ∀ d : Int, (∀ i, d ∣ m i) → d ∣ 1
  small : |m 0| + |m 1| + |m 2| ≤ 99

theorem prim_pos (m : Fin 3 → Int) (h : Prim m) : 1 ≤ |m 0| + |m 1| + |m 2| := by
  by_contra hc
  have h0 : m 0 = 0 := by
    have := abs_nonneg (m 0); have := abs_nonneg (m 1); have := abs_nonneg (m 2)
    exact abs_eq_zero.1 (by omega)
  have h1 : m 1 = 0 := by
    have := abs_nonneg (m 0); have := abs_nonneg (m 1); have := abs_nonneg (m 2)
    exact abs_eq_zero.1 (by omega)
  have h2 : m 2 = 0 := by
    have := abs_nonneg (m 0); have := abs_nonneg (m 1); have := abs_nonneg (m 2)
    exact abs_eq_zero.1 (by omega)
  have := h.gcd 0 (by intro i; fin_cases i <;> simp [h0, h1, h2])
  simp at this

open Classical in
/-- a positive multiple of a small primitive integer vector is printed as this vector. -/
theorem toInts_prim (m : Fin 3 → Int) (h : Prim m) (c : ℝ) (hc : 0 < c) (v : Fin 3 → ℝ) (hv : ∀ i, v i = c * (m i : ℝ)) :
    toInts v = some (m 0, m 1, m 2) := by
  have hp := prim_pos m h
  obtain ⟨S, hS⟩ : ∃ S : Nat, |m 0| + |m 1| + |m 2| = (S : Int) := ⟨(|m 0| + |m 1| + |m 2|).toNat, by omega⟩
  have hSR : |(m 0 : ℝ)| + |(m 1 : ℝ)| + |(m 2 : ℝ)| = (S : ℝ) := by exact_mod_cast hS
  have hS1 : 1 ≤ S := by omega
  have hS2 : S ≤ 99 := by have := h.small; omega
  have hSpos : (0 : ℝ) < (S : ℝ) := by exact_mod_cast hS1
  have ea : absSum v = c * (S : ℝ) := by
    unfold absSum
    rw [hv, hv, hv, abs_mul, abs_mul, abs_mul, abs_of_pos hc, ← hSR]; ring
  have eq : ∀ i, v i / absSum v = (m i : ℝ) / (S : ℝ) := by
    intro i
    rw [ea, hv]
    field_simp
  have full : ∀ i, (S : ℝ) * (v i / absSum v) = (m i : ℝ) := by
    intro i
    rw [eq]; field_simp
  unfold toInts
  rw [if_neg (by rw [ea]; positivity), find_first _ S hS1 hS2]
  · simp only [Option.map_some, full, rint_int]
  · rw [decide_eq_true_iff]
    intro i
    rw [full, rint_int]
    unfold close tol
    simp
  · intro d hd hdS
    rw [decide_eq_false_iff_not]
    intro hcl
    have key : ∀ i, (S : Int) ∣ (d : Int) * m i := by
      intro i
      have := hcl i
      rw [eq] at this
      generalize rint ((d : ℝ) * ((m i : ℝ) / (S : ℝ))) = k at this
      unfold close tol at this
      refine ⟨k, ?_⟩
      have e2 : ((d : ℝ) * ((m i : ℝ) / (S : ℝ)) - (k : ℝ)) * (S : ℝ) = (((d : Int) * m i - S * k : Int) : ℝ) := by
        push_cast
        field_simp
      have hb : |(((d : Int) * m i - S * k : Int) : ℝ)| < 1 := by
        rw [← e2, abs_mul, abs_of_pos hSpos]
        have h99 : (S : ℝ) ≤ 99 := by exact_mod_cast hS2
        calc _ ≤ (1 / 10 ^ 6) * 99 := mul_le_mul this h99 hSpos.le (by norm_num)
          _ < 1 := by norm_num
      have : |(d : Int) * m i - S * k| < 1 := by exact_mod_cast hb
      have := Int.abs_lt_one_iff.1 this
      omega
    -- the gcd of `S` and `d`
    obtain ⟨g, hg⟩ : ∃ g : Nat, g = Nat.gcd S d := ⟨_, rfl⟩
    have hgS : g ∣ S := hg ▸ Nat.gcd_dvd_left S d
    obtain ⟨s', hs'⟩ := hgS
    obtain ⟨d', hd'⟩ : g ∣ d := hg ▸ Nat.gcd_dvd_right S d
    have hg0 : 0 < g := Nat.pos_of_ne_zero (by rintro rfl; omega)
    have hcop : IsCoprime (s' : Int) (d' : Int) := by
      rw [Nat.isCoprime_iff_coprime]
      have := Nat.coprime_div_gcd_div_gcd (m := S) (n := d) (by rw [← hg]; exact hg0)
      rw [← hg, hs', Nat.mul_div_cancel_left _ hg0] at this
      rw [hd', Nat.mul_div_cancel_left _ hg0] at this
      exact this
    have hall : ∀ i, (s' : Int) ∣ m i := by
      intro i
      obtain ⟨k, hk⟩ := key i
      have hk' : (d' : Int) * m i = s' * k := by
        have : (g : Int) * (d' * m i) = g * (s' * k) := by
          have e1 : (S : Int) = g * s' := by exact_mod_cast hs'
          have e2 : (d : Int) = g * d' := by exact_mod_cast hd'
          rw [e1, e2] at hk
          linarith
        exact mul_left_cancel₀ (by exact_mod_cast hg0.ne') this
      exact hcop.dvd_of_dvd_mul_left ⟨k, hk'⟩
    have h1 := h.gcd s' hall
    have h2 : s' = 1 := by
      have := Int.eq_one_of_dvd_one (by positivity) h1
      exact_mod_cast this
    rw [h2, Nat.mul_one] at hs'
    have : g ≤ d := Nat.le_of_dvd (by omega) (hg ▸ Nat.gcd_dvd_right S d)
    omega

end Verif.GroupNames

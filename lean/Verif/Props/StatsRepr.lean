import Verif.Model.StatsRepr
import Mathlib.Tactic.Linarith
import Mathlib.Tactic.Positivity
import Mathlib.Tactic.NormNum
import Mathlib.Tactic.FieldSimp
import Mathlib.Tactic.Ring
import Mathlib.Tactic.IntervalCases

/-! C246 (the text of `Stats` shows the numbers to the accuracy of the error), C247 (where it does not). -/

namespace Verif.StatsRepr

/-! ## Specification: reading numbers -/

/-- the number written by digits. -/
def digitsVal (l : List Char) : Nat := l.foldl (fun a c => 10 * a + (c.toNat - 48)) 0

/-- the sign in front of a text, and the rest. -/
def splitSign : List Char → ℝ × List Char
  | '-' :: u => (-1, u)
  | '+' :: u => (1, u)
  | u => (1, u)

/-- the number written with a decimal point. -/
noncomputable def readFixed (t : List Char) : ℝ :=
  let u := (splitSign t).2
  let w := u.takeWhile (· ≠ '.')
  let f := (u.dropWhile (· ≠ '.')).drop 1
  (splitSign t).1 * ((digitsVal w : ℝ) + (digitsVal f : ℝ) / 10 ^ f.length)

/-- the number of digits after the point. -/
def fracDigits (t : List Char) : Nat := ((t.dropWhile (· ≠ '.')).drop 1).length

/-- the exponent after `e`. -/
def readExp : List Char → Int
  | '-' :: ds => -(digitsVal ds : Int)
  | _ :: ds => (digitsVal ds : Int)
  | [] => 0

/-- the number written in scientific notation. -/
noncomputable def readSci (t : List Char) : ℝ :=
  readFixed (t.takeWhile (· ≠ 'e')) * (10 : ℝ) ^ readExp ((t.dropWhile (· ≠ 'e')).drop 1)

/-! ## Digits -/

/-- characters of numbers. -/
def NumChar (c : Char) : Prop := c ∈ "0123456789+-.einfaj".toList

theorem digitChar_spec (d : Nat) (h : d < 10) : (digitChar d).toNat - 48 = d ∧ digitChar d ≠ '.' ∧ digitChar d ≠ 'e' ∧ digitChar d ≠ '-'
    ∧ digitChar d ≠ '+' ∧ NumChar (digitChar d) := by
  unfold NumChar
  interval_cases d <;> decide

theorem pad_length (k n : Nat) : (pad k n).length = k := by
  induction k generalizing n with
  | zero => rfl
  | succ k ih => rw [pad, List.length_append, ih]; rfl

theorem pad_chars (k n : Nat) : ∀ c ∈ pad k n, ∃ d < 10, c = digitChar d := by
  induction k generalizing n with
  | zero => simp [pad]
  | succ k ih =>
    intro c hc
    rw [pad, List.mem_append] at hc
    rcases hc with hc | hc
    · exact ih _ c hc
    · exact ⟨n % 10, Nat.mod_lt _ (by norm_num), by simpa using hc⟩

theorem pad_val (k n : Nat) : digitsVal (pad k n) = n % 10 ^ k := by
  induction k generalizing n with
  | zero => simp [pad, digitsVal, Nat.mod_one]
  | succ k ih =>
    have h : digitsVal (pad k (n / 10) ++ [digitChar (n % 10)]) = 10 * digitsVal (pad k (n / 10)) + ((digitChar (n % 10)).toNat - 48) := by
      simp [digitsVal, List.foldl_append]
    rw [pad, h, ih, (digitChar_spec _ (Nat.mod_lt _ (by norm_num))).1, pow_succ, mul_comm (10 ^ k) 10, Nat.mod_mul, add_comm]

theorem whole_val (n : Nat) : digitsVal (whole n) = n := by
  rw [whole, pad_val, Nat.mod_eq_of_lt (Nat.lt_pow_succ_log_self (by norm_num) n)]

theorem whole_ne_nil (n : Nat) : whole n ≠ [] := by
  intro h
  have := pad_length (Nat.log 10 n + 1) n
  rw [whole] at h
  rw [h] at this
  simp at this

theorem rnd_near (x : ℝ) (h : 0 ≤ x) : |(rnd x : ℝ) - x| ≤ 1 / 2 := by
  have h1 := Nat.floor_le h
  have h2 := Nat.lt_floor_add_one x
  rw [abs_le]
  unfold rnd
  split
  · constructor <;> linarith
  · split
    · push_cast
      constructor <;> linarith
    · split
      · constructor <;> linarith
      · push_cast
        constructor <;> linarith

/-! ## Reading what was written -/

theorem takeWhile_dot (l r : List Char) (c : Char) (h : ∀ x ∈ l, x ≠ c) :
    (l ++ c :: r).takeWhile (· ≠ c) = l ∧ (l ++ c :: r).dropWhile (· ≠ c) = c :: r := by
  induction l with
  | nil => simp
  | cons a l ih =>
    have ha := h a (by simp)
    have ih := ih fun x hx => h x (by simp [hx])
    constructor
    · rw [List.cons_append, List.takeWhile_cons_of_pos (by simpa using ha), ih.1]
    · rw [List.cons_append, List.dropWhile_cons_of_pos (by simpa using ha), ih.2]

theorem splitSign_other (c : Char) (u : List Char) (h1 : c ≠ '-') (h2 : c ≠ '+') : splitSign (c :: u) = (1, c :: u) := by
  unfold splitSign
  split
  · rename_i h; exact absurd (List.cons.inj h).1 h1
  · rename_i h; exact absurd (List.cons.inj h).1 h2
  · rfl

/-- reading a sign, digits, a point and digits. -/
theorem readFixed_eq (x : ℝ) (n k m : Nat) :
    readFixed (sign x ++ whole n ++ '.' :: pad k m) = (if x < 0 then -1 else 1) * ((n : ℝ) + ((m % 10 ^ k : Nat) : ℝ) / 10 ^ k) := by
  have hw : ∀ c ∈ whole n, c ≠ '.' := by
    intro c hc
    obtain ⟨d, hd, rfl⟩ := pad_chars _ _ c hc
    exact (digitChar_spec d hd).2.1
  have key : splitSign (sign x ++ whole n ++ '.' :: pad k m) = (if x < 0 then -1 else 1, whole n ++ '.' :: pad k m) := by
    by_cases hx : x < 0
    · simp [sign, hx, splitSign]
    · simp only [sign, hx, if_false, List.nil_append]
      obtain ⟨c, u, hcu⟩ := List.exists_cons_of_ne_nil (whole_ne_nil n)
      obtain ⟨d, hd, hc⟩ := pad_chars _ _ c (by rw [← whole, hcu]; simp)
      have hs := digitChar_spec d hd
      rw [← hc] at hs
      rw [hcu, List.cons_append, splitSign_other _ _ hs.2.2.2.1 hs.2.2.2.2.1]
  unfold readFixed
  rw [key]
  dsimp only
  rw [(takeWhile_dot _ _ _ hw).1, (takeWhile_dot _ _ _ hw).2]
  simp only [List.drop_succ_cons, List.drop_zero, pad_length, pad_val, whole_val]

theorem readFixed_fixed (d : Nat) (x : ℝ) : readFixed (fixed d x) = (if x < 0 then -1 else 1) * ((rnd (|x| * 10 ^ d) : ℝ) / 10 ^ d) := by
  unfold fixed
  dsimp only
  rw [readFixed_eq]
  congr 1
  generalize rnd (|x| * 10 ^ d) = n
  have h : ((10 ^ d * (n / 10 ^ d) + n % 10 ^ d : Nat) : ℝ) = (n : ℝ) := by rw [Nat.div_add_mod]
  push_cast at h
  have hp : (10 : ℝ) ^ d ≠ 0 := by positivity
  rw [← h]
  field_simp

/-- a number written with `d` decimals is wrong by at most half a unit of the last. -/
theorem fixed_near (d : Nat) (x : ℝ) : |readFixed (fixed d x) - x| ≤ 1 / (2 * 10 ^ d) := by
  have hp : (0 : ℝ) < 10 ^ d := by positivity
  have h := rnd_near (|x| * 10 ^ d) (by positivity)
  rw [readFixed_fixed]
  have e : (if x < 0 then (-1 : ℝ) else 1) * ((rnd (|x| * 10 ^ d) : ℝ) / 10 ^ d) - x
      = (if x < 0 then (-1 : ℝ) else 1) * ((rnd (|x| * 10 ^ d) : ℝ) - |x| * 10 ^ d) / 10 ^ d := by
    split
    · rename_i hx
      rw [abs_of_neg hx]
      field_simp
      ring
    · rename_i hx
      rw [abs_of_nonneg (not_lt.1 hx)]
      field_simp
  rw [e, abs_div, abs_mul, abs_of_pos hp]
  have : |(if x < 0 then (-1 : ℝ) else 1)| = 1 := by split <;> simp
  rw [this, one_mul, div_le_div_iff₀ hp (by positivity)]
  nlinarith

theorem fracDigits_fixed (d : Nat) (x : ℝ) : fracDigits (fixed d x) = d := by
  have hw : ∀ c ∈ sign x ++ whole (rnd (|x| * 10 ^ d) / 10 ^ d), c ≠ '.' := by
    intro c hc
    rcases List.mem_append.1 hc with hc | hc
    · unfold sign at hc
      split at hc
      · simp at hc; rw [hc]; decide
      · simp at hc
    · obtain ⟨e, he, rfl⟩ := pad_chars _ _ c hc
      exact (digitChar_spec e he).2.1
  unfold fracDigits fixed
  dsimp only
  rw [(takeWhile_dot _ _ _ hw).2, List.drop_succ_cons, List.drop_zero, pad_length]

/-! ## Scientific notation -/

theorem sciParts_spec (x : ℝ) : |(if x < 0 then (-1 : ℝ) else 1) * ((sciParts x).1 : ℝ) / 1000 * (10 : ℝ) ^ (sciParts x).2 - x| ≤ |x| / 2000
    ∧ (x ≠ 0 → 1000 ≤ (sciParts x).1 ∧ (sciParts x).1 < 10000) := by
  by_cases hx : x = 0
  · subst hx
    simp [sciParts]
  · have hpos : 0 < |x| := abs_pos.2 hx
    have h10 : (1 : ℝ) < 10 := by norm_num
    set e := ⌊Real.logb 10 |x|⌋ with he
    have hl : (10 : ℝ) ^ e ≤ |x| := by
      rw [← Real.rpow_intCast, ← Real.le_logb_iff_rpow_le h10 hpos]
      exact Int.floor_le _
    have hu : |x| < (10 : ℝ) ^ (e + 1) := by
      rw [← Real.rpow_intCast, ← Real.logb_lt_iff_lt_rpow h10 hpos]
      push_cast
      exact Int.lt_floor_add_one _
    have hz : (10 : ℝ) ^ (3 - e) * (10 : ℝ) ^ e = 1000 := by
      rw [← zpow_add₀ (by norm_num : (10 : ℝ) ≠ 0)]
      norm_num
    have hz1 : (10 : ℝ) ^ (e + 1) = 10 * (10 : ℝ) ^ e := by
      rw [zpow_add₀ (by norm_num : (10 : ℝ) ≠ 0), zpow_one, mul_comm]
    have hP : (0 : ℝ) < (10 : ℝ) ^ (3 - e) := by positivity
    have hQ : (0 : ℝ) < (10 : ℝ) ^ e := by positivity
    generalize hPd : (10 : ℝ) ^ (3 - e) = P at hz hP
    generalize hQd : (10 : ℝ) ^ e = Q at hz hQ hl hz1
    have hr := rnd_near (|x| * P) (by positivity)
    rw [abs_le] at hr
    have hlow : (1000 : ℝ) ≤ |x| * P := by rw [← hz]; nlinarith
    have hhigh : |x| * P < 10000 := by rw [hz1] at hu; nlinarith
    have hm1 : 1000 ≤ rnd (|x| * P) := by
      have : (999 : ℝ) < (rnd (|x| * P) : ℝ) := by linarith
      have := (by exact_mod_cast this : 999 < rnd (|x| * P))
      omega
    have hm2 : rnd (|x| * P) ≤ 10000 := by
      have : (rnd (|x| * P) : ℝ) < 10001 := by linarith
      have := (by exact_mod_cast this : rnd (|x| * P) < 10001)
      omega
    have hfin : ∀ m : ℝ, m = (rnd (|x| * P) : ℝ) → |(if x < 0 then (-1 : ℝ) else 1) * (m / 1000 * Q) - x| ≤ |x| / 2000 := by
      intro m hm
      have hq : Q = 1000 / P := by rw [eq_div_iff hP.ne', mul_comm]; exact hz
      have e1 : m / 1000 * Q = m / P := by rw [hq]; field_simp
      have e2 : |m / P - (|x|)| ≤ |x| / 2000 := by
        have : m / P - |x| = (m - |x| * P) / P := by field_simp
        rw [this, abs_div, abs_of_pos hP, div_le_iff₀ hP, hm]
        refine le_trans (abs_le.2 hr) ?_
        linarith
      rw [e1]
      by_cases hx0 : x < 0
      · rw [if_pos hx0]
        rw [abs_of_neg hx0] at e2 ⊢
        rw [show -1 * (m / P) - x = -(m / P - -x) by ring, abs_neg]
        exact e2
      · rw [if_neg hx0]
        rw [abs_of_nonneg (not_lt.1 hx0)] at e2 ⊢
        rw [one_mul]
        exact e2
    have hparts : sciParts x = if rnd (|x| * P) = 10000 then (1000, e + 1) else (rnd (|x| * P), e) := by
      unfold sciParts
      rw [if_neg hx]
      simp only [← he, hPd]
    rw [hparts]
    by_cases hm : rnd (|x| * P) = 10000
    · rw [if_pos hm]
      refine ⟨?_, fun _ => by simp⟩
      have := hfin 10000 (by rw [hm]; norm_num)
      dsimp only
      rw [hz1]
      convert this using 3
      push_cast
      ring
    · rw [if_neg hm]
      refine ⟨?_, fun _ => ⟨hm1, by dsimp only; omega⟩⟩
      have := hfin _ rfl
      dsimp only
      rw [hQd]
      convert this using 3
      ring

theorem readExp_expText (e : Int) : readExp ((expText e).drop 1) = e := by
  have h0 : ∀ l, digitsVal ('0' :: l) = digitsVal l := fun l => by simp [digitsVal]
  unfold expText
  rw [List.drop_succ_cons, List.drop_zero]
  by_cases he : e < 0
  · rw [if_pos he]
    unfold readExp
    split
    · rename_i ds h
      obtain ⟨_, rfl⟩ := List.cons.inj h
      split <;> simp only [h0, whole_val] <;> omega
    · rename_i h hn
      exact absurd (List.cons.inj hn).1.symm h
    · rename_i h; cases h
  · rw [if_neg he]
    unfold readExp
    split
    · rename_i h
      exact absurd (List.cons.inj h).1 (by decide)
    · rename_i ds _ h
      obtain ⟨_, rfl⟩ := List.cons.inj h
      split <;> simp only [h0, whole_val] <;> omega
    · rename_i h; cases h

theorem readSci_sci (x : ℝ) : readSci (sci x) = (if x < 0 then (-1 : ℝ) else 1) * ((sciParts x).1 : ℝ) / 1000 * (10 : ℝ) ^ (sciParts x).2 := by
  have hw : ∀ c ∈ sign x ++ whole ((sciParts x).1 / 1000) ++ '.' :: pad 3 (sciParts x).1, c ≠ 'e' := by
    intro c hc
    simp only [List.mem_append, List.mem_cons] at hc
    rcases hc with (hc | hc) | hc | hc
    · unfold sign at hc
      split at hc
      · simp at hc; rw [hc]; decide
      · simp at hc
    · obtain ⟨e, he, rfl⟩ := pad_chars _ _ c hc
      exact (digitChar_spec e he).2.2.1
    · rw [hc]; decide
    · obtain ⟨e, he, rfl⟩ := pad_chars _ _ c hc
      exact (digitChar_spec e he).2.2.1
  obtain ⟨r, hr⟩ : ∃ r, expText (sciParts x).2 = 'e' :: r := ⟨_, rfl⟩
  have h2 := readExp_expText (sciParts x).2
  rw [hr, List.drop_succ_cons, List.drop_zero] at h2
  unfold readSci sci
  rw [hr, (takeWhile_dot _ _ _ hw).1, (takeWhile_dot _ _ _ hw).2, List.drop_succ_cons, List.drop_zero, h2, readFixed_eq]
  congr 1
  rw [mul_div_assoc]
  congr 1
  generalize (sciParts x).1 = n
  have h : ((1000 * (n / 1000) + n % 1000 : Nat) : ℝ) = (n : ℝ) := by rw [Nat.div_add_mod]
  push_cast at h
  norm_num
  linarith

/-- a number in scientific notation is wrong by at most a 2000th of itself. -/
theorem sci_near (x : ℝ) : |readSci (sci x) - x| ≤ |x| / 2000 := by
  rw [readSci_sci]
  exact (sciParts_spec x).1

/-! ## The texts of mean, error and variance -/

theorem decimals_spec (s : ℝ) (hs : 0 < s) : 1 / 10 ^ decimals s ≤ s ∧ (0 < decimals s → s < 10 / 10 ^ decimals s) := by
  have h10 : (1 : ℝ) < 10 := by norm_num
  set z := ⌈-Real.logb 10 s⌉ with hz
  have hc1 := Int.le_ceil (-Real.logb 10 s)
  have hc2 := Int.ceil_lt_add_one (-Real.logb 10 s)
  rw [← hz] at hc1 hc2
  have hd : (decimals s : ℤ) = max z 0 := by
    rw [decimals, ← hz]
    exact Int.toNat_of_nonneg (le_max_right _ _)
  have hdr : (decimals s : ℝ) = max (z : ℝ) 0 := by
    have : ((decimals s : ℤ) : ℝ) = ((max z 0 : ℤ) : ℝ) := by rw [hd]
    push_cast at this
    exact this
  constructor
  · rw [one_div, ← Real.rpow_natCast, ← Real.rpow_neg (by norm_num), ← Real.le_logb_iff_rpow_le h10 hs, hdr]
    have := le_max_left (z : ℝ) 0
    linarith
  · intro hpos
    have hz0 : (decimals s : ℝ) = z := by
      rw [hdr, max_eq_left]
      by_contra hneg
      have : z ≤ 0 := by
        have := not_le.1 hneg
        exact_mod_cast this.le
      omega
    have : (10 : ℝ) / 10 ^ decimals s = (10 : ℝ) ^ (1 - (decimals s : ℝ)) := by
      rw [Real.rpow_sub (by norm_num), Real.rpow_one, Real.rpow_natCast]
    rw [this, ← Real.logb_lt_iff_lt_rpow h10 hs, hz0]
    linarith

/-- for an error above 10^-7 the three numbers are written with the same number of decimals; mean, error and variance are wrong by at most a 20th of the error;
    the error is written with two digits (three for what rounds to 1.00, 0.100, ...) if it is less than one, else with one decimal. -/
theorem C246_error (v s w : ℝ) (hs : 1 / 10 ^ 7 < s) :
    let t := formatDecimal (.real (.fin v)) (.fin s) (.fin w)
    |readFixed t.1 - v| ≤ s / 20 ∧ |readFixed t.2.1 - s| ≤ s / 20 ∧ |readFixed t.2.2 - w| ≤ s / 20
    ∧ ∃ d : Nat, fracDigits t.1 = d + 1 ∧ fracDigits t.2.1 = d + 1 ∧ fracDigits t.2.2 = d + 1
      ∧ 1 / 10 ^ d ≤ s ∧ (0 < d → s < 10 / 10 ^ d)
      ∧ 10 ≤ readFixed t.2.1 * 10 ^ (d + 1) ∧ (0 < d → readFixed t.2.1 * 10 ^ (d + 1) ≤ 100) := by
  have h0 : 0 < s := lt_trans (by norm_num) hs
  obtain ⟨h1, h2⟩ := decimals_spec s h0
  simp only [formatDecimal, if_pos hs, fmtNum, fmtFl]
  have hb : 1 / (2 * (10 : ℝ) ^ (decimals s + 1)) ≤ s / 20 := by
    have : 1 / (2 * (10 : ℝ) ^ (decimals s + 1)) = (1 / 10 ^ decimals s) / 20 := by
      rw [pow_succ]
      field_simp
      norm_num
    rw [this]
    linarith
  refine ⟨(fixed_near _ _).trans hb, (fixed_near _ _).trans hb, (fixed_near _ _).trans hb, decimals s, fracDigits_fixed _ _, fracDigits_fixed _ _,
    fracDigits_fixed _ _, h1, h2, ?_⟩
  have hp : (0 : ℝ) < 10 ^ decimals s := by positivity
  have e : readFixed (fixed (decimals s + 1) s) * 10 ^ (decimals s + 1) = (rnd (s * 10 ^ (decimals s + 1)) : ℝ) := by
    rw [readFixed_fixed, if_neg (not_lt.2 h0.le), abs_of_pos h0, one_mul]
    field_simp
  have hr := rnd_near (s * 10 ^ (decimals s + 1)) (by positivity)
  rw [abs_le] at hr
  have hlow : (10 : ℝ) ≤ s * 10 ^ (decimals s + 1) := by
    rw [div_le_iff₀ hp] at h1
    rw [pow_succ]
    linarith
  rw [e]
  constructor
  · have : (9 : ℝ) < (rnd (s * 10 ^ (decimals s + 1)) : ℝ) := by linarith
    have := (by exact_mod_cast this : 9 < rnd (s * 10 ^ (decimals s + 1)))
    exact_mod_cast this
  · intro hd
    have h3 := h2 hd
    rw [lt_div_iff₀ hp] at h3
    have hlt : s * 10 ^ (decimals s + 1) < 100 := by
      rw [pow_succ]
      linarith
    have : (rnd (s * 10 ^ (decimals s + 1)) : ℝ) < 101 := by linarith
    have := (by exact_mod_cast this : rnd (s * 10 ^ (decimals s + 1)) < 101)
    exact_mod_cast (by omega : rnd (s * 10 ^ (decimals s + 1)) ≤ 100)

/-- for smaller errors, and errors which are no numbers, four digits are shown of each number, with a power of ten; NaN and infinities by name. -/
theorem C246_small (v w : Fl) (s : Fl) (hs : ∀ x, s = .fin x → x ≤ 1 / 10 ^ 7) :
    let t := formatDecimal (.real v) s w
    (∀ x, v = .fin x → |readSci t.1 - x| ≤ |x| / 2000) ∧ (∀ x, s = .fin x → |readSci t.2.1 - x| ≤ |x| / 2000)
    ∧ (∀ x, w = .fin x → |readSci t.2.2 - x| ≤ |x| / 2000) ∧ (v = .nan → t.1 = "nan".toList) ∧ (s = .nan → t.2.1 = "nan".toList)
    ∧ (w = .nan → t.2.2 = "nan".toList) ∧ ∀ b, v = .inf b → t.1 = if b then "-inf".toList else "inf".toList := by
  have e : formatDecimal (.real v) s w = (fmtFl sci v, fmtFl sci s, fmtFl sci w) := by
    cases s with
    | nan => rfl
    | inf b => rfl
    | fin x =>
      rw [formatDecimal, if_neg (by have := hs x rfl; linarith)]
      rfl
  rw [e]
  refine ⟨?_, ?_, ?_, ?_, ?_, ?_, ?_⟩
  · rintro x rfl; exact sci_near x
  · rintro x rfl; exact sci_near x
  · rintro x rfl; exact sci_near x
  · rintro rfl; rfl
  · rintro rfl; rfl
  · rintro rfl; rfl
  · rintro b rfl; cases b <;> rfl

theorem sign_chars (x : ℝ) : ∀ c ∈ sign x, c = '-' := by
  intro c hc
  unfold sign at hc
  split at hc
  · simpa using hc
  · simp at hc

theorem fixed_head (d : Nat) (x : ℝ) : ∀ u, fixed d x ≠ '+' :: u := by
  intro u h
  have hh : (fixed d x).head? = some '+' := by rw [h]; rfl
  unfold fixed at hh
  dsimp only at hh
  unfold sign at hh
  split at hh
  · simp at hh
  · obtain ⟨c, r, hcr⟩ := List.exists_cons_of_ne_nil (whole_ne_nil (rnd (|x| * 10 ^ d) / 10 ^ d))
    obtain ⟨e, he, hc⟩ := pad_chars _ _ c (by rw [← whole, hcr]; simp)
    rw [hcr] at hh
    simp at hh
    rw [hc] at hh
    exact (digitChar_spec e he).2.2.2.2.1 hh

/-- complex means: the text of the real part, then the imaginary part with its sign, then `j`, both as accurate as above. -/
theorem C246_complex (a b s : ℝ) (w : Fl) (hs : 1 / 10 ^ 7 < s) :
    ∃ p q, (formatDecimal (.cplx (.fin a) (.fin b)) (.fin s) w).1 = p ++ q ++ ['j'] ∧ |readFixed p - a| ≤ s / 20 ∧ |readFixed q - b| ≤ s / 20
      ∧ (q.head? = some '+' ∨ q.head? = some '-') := by
  have h1 := (C246_error a s 0 hs).1
  have h2 := (C246_error b s 0 hs).1
  simp only [formatDecimal, if_pos hs, fmtNum, fmtFl] at h1 h2 ⊢
  have hp := fixed_head (decimals s + 1) b
  refine ⟨_, _, rfl, h1, ?_, ?_⟩
  · generalize fixed (decimals s + 1) b = t at *
    unfold withSign
    split
    · exact h2
    · rename_i hn
      have : readFixed ('+' :: t) = readFixed t := by
        unfold readFixed
        have e : splitSign ('+' :: t) = (1, t) := rfl
        rw [e]
        have e2 : splitSign t = (1, t) := by
          unfold splitSign
          split
          · exact absurd rfl (hn _)
          · exact absurd rfl (hp _)
          · rfl
        rw [e2]
      rw [this]
      exact h2
  · generalize fixed (decimals s + 1) b = t at *
    unfold withSign
    split
    · exact Or.inr rfl
    · exact Or.inl rfl

/-! ## Reading the whole text -/

/-- the parts of the text `mean ± error [σ²=variance, R̂=rhat]`. -/
def readRepr (t : List Char) : List Char × List Char × List Char × Option (List Char) :=
  let r1 := (t.dropWhile (· ≠ ' ')).drop 3
  let r2 := (r1.dropWhile (· ≠ ' ')).drop 5
  let r3 := r2.dropWhile fun c => c ≠ ',' ∧ c ≠ ']'
  (t.takeWhile (· ≠ ' '), r1.takeWhile (· ≠ ' '), r2.takeWhile (fun c => c ≠ ',' ∧ c ≠ ']'),
    if r3.head? = some ',' then some ((r3.drop 5).takeWhile (· ≠ ']')) else none)

theorem numChar_ne (c : Char) (h : NumChar c) : c ≠ ' ' ∧ c ≠ ',' ∧ c ≠ ']' := by
  unfold NumChar at h
  refine ⟨?_, ?_, ?_⟩ <;> (rintro rfl; revert h; decide)

theorem fixed_chars (d : Nat) (x : ℝ) : ∀ c ∈ fixed d x, NumChar c := by
  intro c hc
  unfold fixed at hc
  simp only [List.mem_append, List.mem_cons] at hc
  rcases hc with (hc | hc) | hc | hc
  · rw [sign_chars x c hc]; unfold NumChar; decide
  · obtain ⟨e, he, rfl⟩ := pad_chars _ _ c hc
    exact (digitChar_spec e he).2.2.2.2.2
  · rw [hc]; unfold NumChar; decide
  · obtain ⟨e, he, rfl⟩ := pad_chars _ _ c hc
    exact (digitChar_spec e he).2.2.2.2.2

theorem sci_chars (x : ℝ) : ∀ c ∈ sci x, NumChar c := by
  intro c hc
  have hpad : ∀ k n, ∀ c ∈ pad k n, NumChar c := by
    intro k n c hc
    obtain ⟨e, he, rfl⟩ := pad_chars _ _ c hc
    exact (digitChar_spec e he).2.2.2.2.2
  unfold sci at hc
  simp only [List.mem_append, List.mem_cons] at hc
  rcases hc with ((hc | hc) | hc) | hc
  · rw [sign_chars x c hc]; unfold NumChar; decide
  · exact hpad _ _ c hc
  · rcases hc with hc | hc
    · rw [hc]; unfold NumChar; decide
    · exact hpad _ _ c hc
  · unfold expText at hc
    simp only [List.mem_cons] at hc
    rcases hc with hc | hc | hc
    · rw [hc]; unfold NumChar; decide
    · rw [hc]; unfold NumChar; split <;> decide
    · split at hc
      · rcases List.mem_cons.1 hc with hc | hc
        · rw [hc]; unfold NumChar; decide
        · exact hpad _ _ c hc
      · exact hpad _ _ c hc

theorem fmtFl_chars (f : ℝ → List Char) (hf : ∀ x, ∀ c ∈ f x, NumChar c) (v : Fl) : ∀ c ∈ fmtFl f v, NumChar c := by
  cases v with
  | nan =>
    show ∀ c ∈ "nan".toList, NumChar c
    unfold NumChar; decide
  | inf b =>
    cases b
    · show ∀ c ∈ "inf".toList, NumChar c
      unfold NumChar; decide
    · show ∀ c ∈ "-inf".toList, NumChar c
      unfold NumChar; decide
  | fin x => exact hf x

theorem fmtNum_chars (f : ℝ → List Char) (hf : ∀ x, ∀ c ∈ f x, NumChar c) (v : Num) : ∀ c ∈ fmtNum f v, NumChar c := by
  cases v with
  | real v => exact fmtFl_chars f hf v
  | cplx a b =>
    intro c hc
    simp only [fmtNum, List.mem_append] at hc
    rcases hc with (hc | hc) | hc
    · exact fmtFl_chars f hf a c hc
    · have hb := fmtFl_chars f hf b
      generalize fmtFl f b = t at *
      unfold withSign at hc
      split at hc
      · exact hb c hc
      · rcases List.mem_cons.1 hc with rfl | hc
        · unfold NumChar; decide
        · exact hb c hc
    · simp at hc
      rw [hc]
      unfold NumChar; decide

theorem formatDecimal_chars (v : Num) (s w : Fl) : (∀ c ∈ (formatDecimal v s w).1, NumChar c) ∧ (∀ c ∈ (formatDecimal v s w).2.1, NumChar c)
    ∧ ∀ c ∈ (formatDecimal v s w).2.2, NumChar c := by
  cases s with
  | nan => exact ⟨fmtNum_chars _ sci_chars v, fmtFl_chars _ sci_chars .nan, fmtFl_chars _ sci_chars w⟩
  | inf b => exact ⟨fmtNum_chars _ sci_chars v, fmtFl_chars _ sci_chars (.inf b), fmtFl_chars _ sci_chars w⟩
  | fin x =>
    unfold formatDecimal
    dsimp only
    split
    · exact ⟨fmtNum_chars _ (fixed_chars _) v, fixed_chars _ x, fmtFl_chars _ (fixed_chars _) w⟩
    · exact ⟨fmtNum_chars _ sci_chars v, sci_chars x, fmtFl_chars _ sci_chars w⟩

theorem span_var (l r : List Char) (c : Char) (h : ∀ x ∈ l, NumChar x) (hc : c = ',' ∨ c = ']') :
    (l ++ c :: r).takeWhile (fun c => c ≠ ',' ∧ c ≠ ']') = l ∧ (l ++ c :: r).dropWhile (fun c => c ≠ ',' ∧ c ≠ ']') = c :: r := by
  induction l with
  | nil => rcases hc with rfl | rfl <;> simp
  | cons a l ih =>
    have ha := numChar_ne a (h a (by simp))
    have ih := ih fun x hx => h x (by simp [hx])
    constructor
    · rw [List.cons_append, List.takeWhile_cons_of_pos (by simpa using ha.2), ih.1]
    · rw [List.cons_append, List.dropWhile_cons_of_pos (by simpa using ha.2), ih.2]

/-- from the text the parts can be read: mean, error, variance, and R̂ with four decimals unless it is NaN. -/
theorem C246_repr (s : Stats) :
    ∃ r, readRepr (repr s) = ((formatDecimal s.mean s.err s.var).1, (formatDecimal s.mean s.err s.var).2.1, (formatDecimal s.mean s.err s.var).2.2, r)
      ∧ (s.rhat = .nan → r = none) ∧ (s.rhat ≠ .nan → r ≠ none)
      ∧ ∀ x, s.rhat = .fin x → ∃ t, r = some t ∧ fracDigits t = 4 ∧ |readFixed t - x| ≤ 1 / 20000 := by
  obtain ⟨h1, h2, h3⟩ := formatDecimal_chars s.mean s.err s.var
  have hext : ∃ c r', ext s.rhat ++ "]".toList = c :: r' ∧ (c = ',' ∨ c = ']') ∧ (c = ',' ↔ s.rhat ≠ .nan)
      ∧ (s.rhat ≠ .nan → (ext s.rhat ++ "]".toList).drop 5 = fmtFl (fixed 4) s.rhat ++ [']']) := by
    cases s.rhat with
    | nan => exact ⟨']', [], rfl, Or.inr rfl, by simp, fun h => absurd rfl h⟩
    | inf b => exact ⟨',', _, rfl, Or.inl rfl, by simp, fun _ => rfl⟩
    | fin x => exact ⟨',', _, rfl, Or.inl rfl, by simp, fun _ => rfl⟩
  obtain ⟨c, r', he, hc, hiff, hdrop⟩ := hext
  unfold repr
  generalize formatDecimal s.mean s.err s.var = t at *
  obtain ⟨m, e, v⟩ := t
  dsimp only at h1 h2 h3 ⊢
  have e0 : m ++ " ± ".toList ++ e ++ " [σ²=".toList ++ v ++ ext s.rhat ++ "]".toList
      = m ++ ' ' :: ('±' :: ' ' :: (e ++ ' ' :: ('[' :: 'σ' :: '²' :: '=' :: (v ++ c :: r')))) := by
    rw [List.append_assoc _ (ext s.rhat), he]
    simp only [List.append_assoc]
    rfl
  have w1 := takeWhile_dot m ('±' :: ' ' :: (e ++ ' ' :: ('[' :: 'σ' :: '²' :: '=' :: (v ++ c :: r')))) ' ' fun x hx => (numChar_ne x (h1 x hx)).1
  have w2 := takeWhile_dot e ('[' :: 'σ' :: '²' :: '=' :: (v ++ c :: r')) ' ' fun x hx => (numChar_ne x (h2 x hx)).1
  have w3 := span_var v r' c h3 hc
  refine ⟨if c = ',' then some (((c :: r').drop 5).takeWhile (· ≠ ']')) else none, ?_, ?_, ?_, ?_⟩
  · rw [e0]
    unfold readRepr
    dsimp only
    rw [w1.1, w1.2]
    simp only [List.drop_succ_cons, List.drop_zero]
    rw [w2.1, w2.2]
    simp only [List.drop_succ_cons, List.drop_zero]
    rw [w3.1, w3.2]
    simp
  · intro h
    rw [if_neg (fun hc => (hiff.1 hc) h)]
  · intro h
    rw [if_pos (hiff.2 h)]
    simp
  · intro x hx
    have hn : s.rhat ≠ .nan := by rw [hx]; simp
    have := hdrop hn
    rw [he] at this
    rw [if_pos (hiff.2 hn), this, hx]
    refine ⟨_, rfl, ?_⟩
    have hb : ∀ y ∈ fixed 4 x, y ≠ ']' := fun y hy => (numChar_ne y (fixed_chars 4 x y hy)).2.2
    rw [show fmtFl (fixed 4) (.fin x) = fixed 4 x from rfl, (takeWhile_dot _ [] _ hb).1]
    refine ⟨fracDigits_fixed 4 x, (fixed_near 4 x).trans ?_⟩
    norm_num

/-! ## Where the accuracy is lost -/

/-- the text shows the mean up to its error: not for errors of at most 10^-7, where only four digits are written. -/
theorem C247_mean_refuted : ¬ ∀ (v s : ℝ), 0 < s →
    s ≤ 1 / 10 ^ 7 → |readSci (formatDecimal (.real (.fin v)) (.fin s) (.fin 0)).1 - v| ≤ s := by
  intro h
  have hs : ¬ (1 / 10 ^ 8 : ℝ) > 1 / 10 ^ 7 := by norm_num
  have := h 10000.5 (1 / 10 ^ 8) (by norm_num) (by norm_num)
  simp only [formatDecimal, if_neg hs, fmtNum, fmtFl] at this
  have hlog : ⌊Real.logb 10 |(10000.5 : ℝ)|⌋ = 4 := by
    rw [Int.floor_eq_iff, abs_of_pos (by norm_num)]
    constructor
    · rw [Real.le_logb_iff_rpow_le (by norm_num) (by norm_num)]
      norm_num
    · rw [Real.logb_lt_iff_lt_rpow (by norm_num) (by norm_num)]
      norm_num
  have hr : rnd (|(10000.5 : ℝ)| * 10 ^ (3 - (4 : ℤ))) = 1000 := by
    have e : |(10000.5 : ℝ)| * 10 ^ (3 - (4 : ℤ)) = 1000.05 := by
      rw [abs_of_pos (by norm_num)]
      norm_num
    have hf : ⌊(1000.05 : ℝ)⌋₊ = 1000 := by
      rw [Nat.floor_eq_iff (by norm_num)]
      norm_num
    rw [e, rnd, hf, if_pos (by norm_num)]
  have hp : sciParts 10000.5 = (1000, 4) := by
    rw [sciParts, if_neg (by norm_num)]
    simp only [hlog, hr]
    norm_num
  have hx : ¬ (10000.5 : ℝ) < 0 := by norm_num
  rw [readSci_sci, hp, if_neg hx] at this
  norm_num at this

/-- what holds: up to a 2000th of its value. -/
theorem C247_mean_partial (v s w : ℝ) (hs : s ≤ 1 / 10 ^ 7) :
    |readSci (formatDecimal (.real (.fin v)) (.fin s) (.fin w)).1 - v| ≤ |v| / 2000 :=
  (C246_small (.fin v) (.fin w) (.fin s) (fun x h => by cases h; exact hs)).1 v rfl

/-! ## Examples -/

example := C246_error (-3.14159) 0.0123 0.5 (by norm_num)
example := C246_small (.fin 1) .nan (.fin 0) (by rintro x ⟨⟩; norm_num)
example := C246_complex 1 (-2) 0.1 .nan (by norm_num)
example := C247_mean_partial 10000.5 (1 / 10 ^ 8) 0 (by norm_num)

end Verif.StatsRepr

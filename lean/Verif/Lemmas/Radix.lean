import Mathlib.Data.List.Basic
import Mathlib.Tactic.Ring
import Mathlib.Order.Basic

/-! Helper library: mixed-radix positional numbers (first digit most significant).
Nothing here models netket code; it is used by the proofs about Hilbert indexing,
tensor products, lattices and multi-index arrays. -/

namespace Verif.Radix

/-- value of a digit list in the mixed radix `ds` (first digit most significant). -/
def enc : List Nat → List Nat → Nat
  | _ :: ds, x :: xs => x * ds.prod + enc ds xs
  | _, _ => 0

/-- digits of `n` in the mixed radix `ds`. -/
def dec : List Nat → Nat → List Nat
  | [], _ => []
  | _ :: ds, n => n / ds.prod :: dec ds (n % ds.prod)

/-- digit lists of the right length with every digit below its radix. -/
inductive Digits : List Nat → List Nat → Prop
  | nil : Digits [] []
  | cons {d ds x xs} : x < d → Digits ds xs → Digits (d :: ds) (x :: xs)

theorem Digits.length_eq {ds xs} (h : Digits ds xs) : xs.length = ds.length := by
  induction h with
  | nil => rfl
  | cons _ _ ih => simp [ih]

theorem enc_lt {ds xs} (h : Digits ds xs) : enc ds xs < ds.prod := by
  induction h with
  | nil => simp [enc]
  | @cons d ds x xs hx _ ih =>
    simp only [enc, List.prod_cons]
    calc x * ds.prod + enc ds xs < x * ds.prod + ds.prod := by omega
      _ = (x + 1) * ds.prod := by ring
      _ ≤ d * ds.prod := Nat.mul_le_mul_right _ hx

theorem dec_enc {ds xs} (h : Digits ds xs) : dec ds (enc ds xs) = xs := by
  induction h with
  | nil => simp [dec]
  | @cons d ds x xs hx hxs ih =>
    have hl := enc_lt hxs
    have hp : 0 < ds.prod := by omega
    simp only [enc, dec]
    rw [Nat.mul_comm x, Nat.mul_add_div hp, Nat.div_eq_of_lt hl, Nat.mul_add_mod,
      Nat.mod_eq_of_lt hl, ih]
    simp

theorem dec_digits {ds : List Nat} {n : Nat} (h : n < ds.prod) : Digits ds (dec ds n) := by
  induction ds generalizing n with
  | nil => exact .nil
  | cons d ds ih =>
    have hp : 0 < ds.prod := by
      rcases Nat.eq_zero_or_pos ds.prod with h0 | h0
      · simp [h0] at h
      · exact h0
    refine .cons ?_ (ih (Nat.mod_lt _ hp))
    rw [Nat.div_lt_iff_lt_mul hp]
    simpa using h

theorem enc_dec {ds : List Nat} {n : Nat} (h : n < ds.prod) : enc ds (dec ds n) = n := by
  induction ds generalizing n with
  | nil => simp [enc] at *; omega
  | cons d ds ih =>
    have hp : 0 < ds.prod := by
      rcases Nat.eq_zero_or_pos ds.prod with h0 | h0
      · simp [h0] at h
      · exact h0
    simp only [dec, enc]
    rw [ih (Nat.mod_lt _ hp), Nat.mul_comm]
    exact Nat.div_add_mod _ _

theorem enc_inj {ds xs ys} (hx : Digits ds xs) (hy : Digits ds ys)
    (h : enc ds xs = enc ds ys) : xs = ys := by
  rw [← dec_enc hx, ← dec_enc hy, h]

@[simp] theorem dec_length (ds : List Nat) (n : Nat) : (dec ds n).length = ds.length := by
  induction ds generalizing n with
  | nil => rfl
  | cons d ds ih => simp [dec, ih]

/-- peeling off the least significant digit. -/
theorem dec_snoc (ds : List Nat) (d n : Nat) (h : n < ds.prod * d) :
    dec (ds ++ [d]) n = dec ds (n / d) ++ [n % d] := by
  induction ds generalizing n with
  | nil =>
    have : n % d = n := Nat.mod_eq_of_lt (by simpa using h)
    simp [dec, this]
  | cons a ds ih =>
    simp only [List.cons_append, dec, List.prod_append, List.prod_cons, List.prod_nil, mul_one]
    have hp : 0 < ds.prod * d := by
      rcases Nat.eq_zero_or_pos (ds.prod * d) with h0 | h0
      · simp [List.prod_cons, Nat.mul_assoc, h0] at h
      · exact h0
    rw [ih _ (Nat.mod_lt _ hp)]
    have h1 : n % (ds.prod * d) / d = n / d % ds.prod := Nat.mod_mul_left_div_self n d ds.prod
    have h2 : n % (ds.prod * d) % d = n % d := Nat.mod_mul_left_mod n ds.prod d
    rw [h1, h2, Nat.mul_comm ds.prod d, Nat.div_div_eq_div_mul]

theorem enc_snoc {ds xs} (h : xs.length = ds.length) (d x : Nat) :
    enc (ds ++ [d]) (xs ++ [x]) = enc ds xs * d + x := by
  induction ds generalizing xs with
  | nil =>
    cases xs with
    | nil => simp [enc]
    | cons _ _ => simp at h
  | cons a ds ih =>
    cases xs with
    | nil => simp at h
    | cons y ys =>
      simp only [List.cons_append, enc, List.prod_append, List.prod_cons, List.prod_nil, mul_one]
      rw [ih (by simpa using h)]
      ring

/-- lexicographic order of digit lists is the numeric order. -/
theorem enc_lt_iff {ds xs ys} (hx : Digits ds xs) (hy : Digits ds ys) :
    enc ds xs < enc ds ys ↔ xs < ys := by
  induction hx generalizing ys with
  | nil =>
    cases hy
    simp [enc]
  | @cons d ds x xs hxd hxs ih =>
    cases hy with
    | @cons _ _ y ys hyd hys =>
      have h1 := enc_lt hxs
      have h2 := enc_lt hys
      simp only [enc, List.cons_lt_cons_iff]
      rcases Nat.lt_trichotomy x y with h | h | h
      · constructor
        · intro _; exact Or.inl h
        · intro _
          have : (x + 1) * ds.prod ≤ y * ds.prod := Nat.mul_le_mul_right _ h
          have e : (x + 1) * ds.prod = x * ds.prod + ds.prod := by ring
          omega
      · subst h
        rw [Nat.add_lt_add_iff_left, ih hys]
        simp
      · constructor
        · intro hh
          have : (y + 1) * ds.prod ≤ x * ds.prod := Nat.mul_le_mul_right _ h
          have e : (y + 1) * ds.prod = y * ds.prod + ds.prod := by ring
          omega
        · rintro (hh | ⟨hh, _⟩) <;> omega

end Verif.Radix

import Verif.Model.RandomBatch
import Mathlib.Data.Fintype.Pi
import Mathlib.Data.Fintype.BigOperators
import Mathlib.Algebra.Field.Rat
import Mathlib.Algebra.BigOperators.Fin

/-! The distribution of the result of a program that draws integers.  The `k`-th draw below `m` is `u_k mod m`, where the `u_k` are
independent and uniform on `0..M-1`; for `M` divisible by all the `m` that can occur this is what independent uniform draws mean. -/

namespace Verif.RandomBatch
open Verif.Hilbert (Err)

/-- the draws made from `u`. -/
def drawsOf {p M : Nat} (u : Fin p → Fin M) (k m : Nat) : Nat := if h : k < p then (u ⟨k, h⟩ : Nat) % m else 0

/-- the number of choices of `p` random numbers for which the program returns `x`. -/
def ways (p M : Nat) (f : (Nat → Nat → Nat) → Except Err (List Int)) (x : List Int) : Nat :=
  ∑ u : Fin p → Fin M, if f (drawsOf u) = .ok x then 1 else 0

/-- the probability that the program returns `x`. -/
def prob (p M : Nat) (f : (Nat → Nat → Nat) → Except Err (List Int)) (x : List Int) : ℚ := (ways p M f x : ℚ) / (M : ℚ) ^ p

/-- `M` is a multiple of all numbers up to `N`. -/
def Divisible (M N : Nat) : Prop := 0 < M ∧ ∀ m, 0 < m → m ≤ N → m ∣ M

end Verif.RandomBatch

import Mathlib.Data.Nat.Basic

/-! What a finite group of permutations is, for arrays of permutations: used to state C61 and C62 without reference to the model. -/

namespace Verif.Symm

/-- the `m` rows of `perms` are pairwise different permutations of `0, …, n-1`, and the composition of two rows is again a row. -/
structure IsPermGroup (n m : Nat) (perms : Nat → Nat → Nat) : Prop where
  lt : ∀ g < m, ∀ i < n, perms g i < n
  inj : ∀ g < m, ∀ i < n, ∀ j < n, perms g i = perms g j → i = j
  nodup : ∀ g < m, ∀ h < m, (∀ i < n, perms g i = perms h i) → g = h
  closed : ∀ g < m, ∀ h < m, ∃ k < m, ∀ i < n, perms k i = perms g (perms h i)

/-- `s` is a permutation of `0, …, m-1`. -/
def IsBij (m : Nat) (s : Nat → Nat) : Prop := (∀ k < m, s k < m) ∧ (∀ k < m, ∀ l < m, s k = s l → k = l) ∧ ∀ l < m, ∃ k < m, s k = l

/-- `s` is the effect of symmetry `h` on the labels of group elements: label `s k` is that of "`h`, then `k`". -/
def IsTranslate (n m : Nat) (perms : Nat → Nat → Nat) (h : Nat) (s : Nat → Nat) : Prop :=
  IsBij m s ∧ ∀ k < m, ∀ i < n, perms (s k) i = perms k (perms h i)

/-- `pt g k` is the label of "g⁻¹ k": composing it with `g` gives `k`. -/
def IsProductTable (n m : Nat) (perms pt : Nat → Nat → Nat) : Prop :=
  ∀ g < m, ∀ k < m, pt g k < m ∧ ∀ i < n, perms (pt g k) (perms g i) = perms k i

end Verif.Symm

import Verif.Lemmas.Estimate

/-! Independent draws: expected averages, their mean-square error and the expected variance. -/

namespace Verif.Markov

open Finset

variable {X : Type} [DecidableEq X] {S : Finset X} {p : X → ℝ}

/-- every draw has the same law. -/
theorem direct_stochastic (h0 : ∀ x ∈ S, 0 ≤ p x) (h1 : ∑ x ∈ S, p x = 1) :
    Stochastic S (fun _ y => p y) := ⟨fun _ _ y hy => h0 y hy, fun _ _ => h1⟩

theorem direct_path (h0 : ∀ x ∈ S, 0 ≤ p x) (h1 : ∑ x ∈ S, p x = 1) (f : X → ℝ) (n : Nat) :
    ∀ x ∈ S, (pathE S (fun _ y => p y) n x fun xs => (xs.map f).sum) = n * ∑ y ∈ S, p y * f y := by
  have hs := direct_stochastic h0 h1
  induction n with
  | zero => intro x _; simp [pathE]
  | succ n ih =>
    intro x hx
    simp only [pathE, List.map_cons, List.sum_cons]
    rw [Finset.sum_congr rfl fun y hy => by
      rw [pathE_add, pathE_const hs n (f y) y hy, ih y hy, mul_add]]
    rw [Finset.sum_add_distrib, ← Finset.sum_mul, h1]
    push_cast
    ring

theorem direct_path_sq (h0 : ∀ x ∈ S, 0 ≤ p x) (h1 : ∑ x ∈ S, p x = 1) (f : X → ℝ)
    (hf : ∑ y ∈ S, p y * f y = 0) (n : Nat) :
    ∀ x ∈ S, (pathE S (fun _ y => p y) n x fun xs => (xs.map f).sum ^ 2) = n * ∑ y ∈ S, p y * f y ^ 2 := by
  have hs := direct_stochastic h0 h1
  induction n with
  | zero => intro x _; simp [pathE]
  | succ n ih =>
    intro x hx
    simp only [pathE, List.map_cons, List.sum_cons]
    have e : ∀ y ∈ S, p y * (pathE S (fun _ y => p y) n y fun xs => (f y + (xs.map f).sum) ^ 2)
        = p y * f y ^ 2 + p y * (n * ∑ y ∈ S, p y * f y ^ 2) := by
      intro y hy
      have : (fun xs : List X => (f y + (xs.map f).sum) ^ 2)
          = fun xs => (f y ^ 2 + (2 * f y) * (xs.map f).sum) + (xs.map f).sum ^ 2 := by
        funext xs; ring
      rw [this, pathE_add, pathE_add, pathE_const hs n _ y hy, pathE_mul, ih y hy,
        direct_path h0 h1 f n y hy, hf]
      ring
    rw [Finset.sum_congr rfl e, Finset.sum_add_distrib, ← Finset.sum_mul, h1]
    push_cast
    ring

theorem direct_chains (h0 : ∀ x ∈ S, 0 ≤ p x) (h1 : ∑ x ∈ S, p x = 1) (f : X → ℝ) (n : Nat)
    (starts : List X) (hst : ∀ x ∈ starts, x ∈ S) :
    chainsE S (fun _ y => p y) n starts (total f) = starts.length * (n * ∑ y ∈ S, p y * f y) := by
  have hs := direct_stochastic h0 h1
  induction starts with
  | nil => simp [chainsE, total]
  | cons x xs ih =>
    have hxs : ∀ y ∈ xs, y ∈ S := fun y hy => hst y (by simp [hy])
    simp only [chainsE, total_cons]
    have : (fun tr : List X => chainsE S (fun _ y => p y) n xs fun trs => (tr.map f).sum + total f trs)
        = fun tr => (tr.map f).sum + chainsE S (fun _ y => p y) n xs (total f) := by
      funext tr
      rw [chainsE_add, chainsE_const hs n _ xs hxs]
    rw [this, pathE_add, pathE_const hs n _ x (hst x (by simp)), direct_path h0 h1 f n x (hst x (by simp)), ih hxs]
    simp only [List.length_cons]
    push_cast
    ring

theorem direct_chains_sq (h0 : ∀ x ∈ S, 0 ≤ p x) (h1 : ∑ x ∈ S, p x = 1) (f : X → ℝ)
    (hf : ∑ y ∈ S, p y * f y = 0) (n : Nat) (starts : List X) (hst : ∀ x ∈ starts, x ∈ S) :
    chainsE S (fun _ y => p y) n starts (fun t => total f t ^ 2)
      = starts.length * (n * ∑ y ∈ S, p y * f y ^ 2) := by
  have hs := direct_stochastic h0 h1
  induction starts with
  | nil => simp [chainsE, total]
  | cons x xs ih =>
    have hx := hst x (by simp)
    have hxs : ∀ y ∈ xs, y ∈ S := fun y hy => hst y (by simp [hy])
    simp only [chainsE, total_cons]
    have : (fun tr : List X => chainsE S (fun _ y => p y) n xs fun trs => ((tr.map f).sum + total f trs) ^ 2)
        = fun tr => (tr.map f).sum ^ 2 + chainsE S (fun _ y => p y) n xs (fun t => total f t ^ 2) := by
      funext tr
      have : (fun trs : List (List X) => ((tr.map f).sum + total f trs) ^ 2)
          = fun trs => ((tr.map f).sum ^ 2 + (2 * (tr.map f).sum) * total f trs) + total f trs ^ 2 := by
        funext trs; ring
      rw [this, chainsE_add, chainsE_add, chainsE_const hs n _ xs hxs, chainsE_mul,
        direct_chains h0 h1 f n xs hxs, hf]
      ring
    rw [this, pathE_add, pathE_const hs n _ x hx, direct_path_sq h0 h1 f hf n x hx, ih hxs]
    simp only [List.length_cons]
    push_cast
    ring

end Verif.Markov

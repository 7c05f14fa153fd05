import Verif.Model.Expect
import Verif.Props.Stats
import Mathlib.Analysis.SpecialFunctions.ExpDeriv
import Mathlib.Analysis.Calculus.Deriv.Add
import Mathlib.Analysis.Calculus.Deriv.Mul
import Mathlib.Analysis.Calculus.Deriv.Inv
import Mathlib.Algebra.BigOperators.Ring.Finset
import Mathlib.Algebra.BigOperators.Field

/-! C142, C143: `nk.jax.expect` and its gradient. -/

set_option linter.unusedSectionVars false

namespace Verif.Expect
open Verif.Stats Verif.Hilbert

/-! ### value -/

theorem pieces_flatten {A : Type} (l n : Nat) (xs : List A) (h : xs.length = n * l) :
    (pieces l n xs).flatten = xs := by
  induction n generalizing xs with
  | zero =>
    have : xs = [] := List.length_eq_zero_iff.1 (by simpa using h)
    subst this; rfl
  | succ n ih =>
    have hd : (xs.drop l).length = n * l := by rw [List.length_drop, h, Nat.succ_mul]; omega
    have := ih (xs.drop l) hd
    unfold pieces at this ⊢
    rw [List.range_succ_eq_map, List.map_cons, List.flatten_cons, List.map_map]
    have hm : (List.range n).map ((fun i => (xs.drop (i * l)).take l) ∘ Nat.succ)
        = (List.range n).map fun i => ((xs.drop l).drop (i * l)).take l := by
      apply List.map_congr_left
      intro i _
      simp only [Function.comp, List.drop_drop]
      congr 2
      rw [Nat.succ_mul, Nat.add_comm]
    rw [hm, this]
    simp

theorem reshapeRows_ok {R : Type} (n : Nat) (xs : List R) (h0 : n ≠ 0) (h : n ∣ xs.length) :
    ∃ r, reshapeRows n xs = .ok r ∧ r.flatten = xs ∧ r.length = n := by
  refine ⟨pieces (xs.length / n) n xs, ?_, pieces_flatten _ _ _ (Nat.mul_div_cancel' h).symm, by
    simp [pieces]⟩
  rw [reshapeRows, if_neg (by rintro (h' | h') <;> [exact h0 h'; exact h' h])]

theorem reshapeAll_ok {R : Type} (n L : Nat) (shards : List (List R)) (hE : Equal L shards) (h0 : n ≠ 0)
    (h : n ∣ L) : ∃ rows, reshapeAll n shards = .ok rows ∧ rows.map List.flatten = shards := by
  induction shards with
  | nil => exact ⟨[], rfl, rfl⟩
  | cons a rest ih =>
    obtain ⟨r, h1, h2, _⟩ := reshapeRows_ok n a h0 (by rw [hE a List.mem_cons_self]; exact h)
    obtain ⟨rs, h3, h4⟩ := ih fun b hb => hE b (List.mem_cons_of_mem _ hb)
    exact ⟨r :: rs, by simp only [reshapeAll, h1, h3], by rw [List.map_cons, h2, h4]⟩

/-- The value is the average of the function over the samples of all ranks, whatever the number of
    chains (which has to divide the number of samples of a rank). -/
theorem C142_value {R : Type} [Field R] (L : Nat) (shards : List (List R)) (hE : Equal L shards)
    (nChains : Option Nat) (hn : ∀ n ∈ nChains, n ≠ 0 ∧ n ∣ L) :
    expectValue nChains shards = .ok (shards.flatten.sum / (shards.flatten.length : R)) := by
  have hm := C54_mean L shards hE
  unfold avg at hm
  cases nChains with
  | none => rw [expectValue, hm]
  | some n =>
    obtain ⟨rows, h1, h2⟩ := reshapeAll_ok n L shards hE (hn n rfl).1 (hn n rfl).2
    simp only [expectValue, h1, h2, hm]

/-- A number of chains that does not divide the number of samples is rejected. -/
theorem C142_chains_rejected {R : Type} [Field R] (n : Nat) (a : List R) (rest : List (List R))
    (h : ¬ n ∣ a.length) : expectValue (some n) (a :: rest) = .error .typeError := by
  have : reshapeRows n a = .error .typeError := by rw [reshapeRows, if_pos (Or.inr h)]
  simp only [expectValue, reshapeAll, this]

example : ∃ shards : List (List ℚ), Equal 4 shards ∧ shards.length = 2 ∧
    expectValue (some 2) shards = .ok (9 / 2) :=
  ⟨[[1, 2, 3, 4], [5, 6, 7, 8]], by simp [Equal], rfl, by decide +kernel⟩

/-! ### gradient of the estimator -/

section
variable {P X : Type} [DecidableEq P]

/-- derivatives of `log_pdf` and of the function at the sample `x` with respect to parameter `k`. -/
structure Derivs (logp L : (P → ℝ) → X → ℝ) (θ : P → ℝ) (k : P) (g h : X → ℝ) (x : X) : Prop where
  logp : HasDerivAt (fun t => logp (Function.update θ k t) x) (g x) (θ k)
  fn : HasDerivAt (fun t => L (Function.update θ k t) x) (h x) (θ k)

theorem sum_hasDerivAt (l : List X) (F : ℝ → X → ℝ) (F' : X → ℝ) (t : ℝ)
    (hF : ∀ x ∈ l, HasDerivAt (fun s => F s x) (F' x) t) :
    HasDerivAt (fun s => (l.map (F s)).sum) (l.map F').sum t := by
  induction l with
  | nil => simpa using hasDerivAt_const t (0 : ℝ)
  | cons x l ih =>
    simp only [List.map_cons, List.sum_cons]
    exact (hF x List.mem_cons_self).add (ih fun y hy => hF y (List.mem_cons_of_mem _ hy))

theorem zip_delta (m : ℝ) (L0 : X → ℝ) (a : List X) (F : ℝ → X → ℝ) :
    List.zipWith F (deltaL m L0 a) a = a.map fun x => F (L0 x - m) x := by
  induction a with
  | nil => rfl
  | cons x a ih => simp only [deltaL, List.map_cons, List.zipWith_cons_cons] at ih ⊢; rw [ih]

theorem bwdRank_eq (nodes : Nat) (m : ℝ) (logp L : (P → ℝ) → X → ℝ) (a : List X) (θ : P → ℝ)
    (dout : ℝ) (k : P) (g h : X → ℝ) (hd : ∀ x ∈ a, Derivs logp L θ k g h x) :
    bwdRank nodes m logp L a θ dout k
      = dout * ((a.map fun x => (L θ x - m) * g x + h x).sum / a.length / nodes) := by
  have key : HasDerivAt (fun t => rankF nodes (deltaL m (L θ) a) logp L a (Function.update θ k t))
      ((a.map fun x => (L θ x - m) * g x + h x).sum / a.length / nodes) (θ k) := by
    have h1 : (fun t => rankF nodes (deltaL m (L θ) a) logp L a (Function.update θ k t))
        = fun t => (a.map fun x => (L θ x - m) * logp (Function.update θ k t) x
            + L (Function.update θ k t) x).sum / a.length / nodes := by
      funext t
      unfold rankF localMean
      rw [zip_delta m (L θ) a fun δ x => δ * logp (Function.update θ k t) x + L (Function.update θ k t) x,
        List.length_map]
    rw [h1]
    refine ((sum_hasDerivAt a (fun t x => (L θ x - m) * logp (Function.update θ k t) x
            + L (Function.update θ k t) x) _ _ fun x hx => ?_).div_const _).div_const _
    exact ((hd x hx).logp.const_mul _).add (hd x hx).fn
  rw [bwdRank, key.deriv]

/-- The gradients of the ranks add up to the average, over the samples of all ranks, of
    `(L - L̄) ∂ log p + ∂ L`, times the cotangent. -/
theorem C142_gradient (n : Nat) (shards : List (List X)) (hE : Equal n shards)
    (logp L : (P → ℝ) → X → ℝ) (θ : P → ℝ) (dout : ℝ) (k : P) (g h : X → ℝ)
    (hd : ∀ a ∈ shards, ∀ x ∈ a, Derivs logp L θ k g h x) :
    (expectGrads logp L shards θ dout k).sum
      = dout * avg (shards.flatten.map fun x =>
          (L θ x - avg (shards.flatten.map (L θ))) * g x + h x) := by
  have hE' : Equal n (shards.map fun a => a.map (L θ)) := by
    intro b hb
    obtain ⟨a, ha, rfl⟩ := List.mem_map.1 hb
    rw [List.length_map, hE a ha]
  have hmean : mean (shards.map fun a => a.map (L θ)) = avg (shards.flatten.map (L θ)) := by
    rw [C54_mean n _ hE', map_flatten']
  unfold expectGrads
  simp only [hmean]
  generalize avg (shards.flatten.map (L θ)) = m
  have h1 : (shards.map fun a => bwdRank shards.length m logp L a θ dout k)
      = shards.map fun a => dout * ((a.map fun x => (L θ x - m) * g x + h x).sum / n / shards.length) := by
    apply List.map_congr_left
    intro a ha
    rw [bwdRank_eq _ m logp L a θ dout k g h (hd a ha), hE a ha]
  rw [h1, List.sum_map_mul_left]
  congr 1
  unfold avg
  rw [List.length_map, flatten_length hE]
  have h2 : (shards.flatten.map fun x => (L θ x - m) * g x + h x).sum
      = (shards.map fun a => (a.map fun x => (L θ x - m) * g x + h x).sum).sum := by
    rw [← map_flatten', ← sum_flatten', List.map_map]; rfl
  rw [h2]
  have h3 : ∀ (c d : ℝ) (l : List (List X)), (l.map fun a =>
      ((a.map fun x => (L θ x - m) * g x + h x).sum) / c / d).sum
      = (l.map fun a => (a.map fun x => (L θ x - m) * g x + h x).sum).sum / (d * c) := by
    intro c d l
    induction l with
    | nil => simp
    | cons a l ih => rw [List.map_cons, List.sum_cons, ih, List.map_cons, List.sum_cons, add_div, div_div,
        mul_comm c d]
  rw [h3]
  push_cast
  rfl

end

/-! ### mean of the gradient over independent samples -/

section
variable {X : Type} [Fintype X] [DecidableEq X]

/-- expectation value over `x` with probabilities `p`. -/
noncomputable def E (p : X → ℝ) (f : X → ℝ) : ℝ := ∑ x, p x * f x

/-- expectation value over `n` independent samples. -/
noncomputable def EN (n : Nat) (p : X → ℝ) (F : (Fin n → X) → ℝ) : ℝ :=
  ∑ s : Fin n → X, (∏ i, p (s i)) * F s

theorem EN_two (n : Nat) (p : X → ℝ) (hp : ∑ x, p x = 1) (a b : X → ℝ) (i j : Fin n) :
    EN n p (fun s => a (s i) * b (s j)) = if i = j then E p (fun x => a x * b x) else E p a * E p b := by
  have hprod : ∀ s : Fin n → X, (∏ l, p (s l)) * (a (s i) * b (s j))
      = ∏ l, (p (s l) * ((if l = i then a (s l) else 1) * (if l = j then b (s l) else 1))) := by
    intro s
    rw [Finset.prod_mul_distrib, Finset.prod_mul_distrib, Finset.prod_ite_eq' Finset.univ i,
      Finset.prod_ite_eq' Finset.univ j]
    simp
  have hswap : EN n p (fun s => a (s i) * b (s j))
      = ∏ l : Fin n, ∑ x, p x * ((if l = i then a x else 1) * (if l = j then b x else 1)) := by
    unfold EN
    rw [Finset.prod_univ_sum, Fintype.piFinset_univ]
    exact Finset.sum_congr rfl fun s _ => hprod s
  rw [hswap]
  by_cases hij : i = j
  · subst hij
    rw [if_pos rfl, Finset.prod_eq_single i]
    · simp [E]
    · intro l _ hl; simp [hl, hp]
    · intro h; exact absurd (Finset.mem_univ _) h
  · rw [if_neg hij, ← Finset.mul_prod_erase Finset.univ _ (Finset.mem_univ i),
      ← Finset.mul_prod_erase (Finset.univ.erase i) _
        (Finset.mem_erase.2 ⟨fun h => hij h.symm, Finset.mem_univ j⟩)]
    rw [Finset.prod_eq_one]
    · simp only [if_true, if_neg hij, if_neg fun h => hij (Eq.symm h), mul_one, one_mul]
      rfl
    · intro l hl
      rw [Finset.mem_erase, Finset.mem_erase] at hl
      simp [hl.1, hl.2.1, hp]

theorem EN_add (n : Nat) (p : X → ℝ) (F G : (Fin n → X) → ℝ) :
    EN n p (fun s => F s + G s) = EN n p F + EN n p G := by
  simp [EN, mul_add, Finset.sum_add_distrib]

theorem EN_smul (n : Nat) (p : X → ℝ) (c : ℝ) (F : (Fin n → X) → ℝ) :
    EN n p (fun s => c * F s) = c * EN n p F := by
  simp only [EN, Finset.mul_sum]
  exact Finset.sum_congr rfl fun s _ => by ring

theorem EN_sum {ι : Type} (S : Finset ι) (n : Nat) (p : X → ℝ) (F : ι → (Fin n → X) → ℝ) :
    EN n p (fun s => ∑ i ∈ S, F i s) = ∑ i ∈ S, EN n p (F i) := by
  simp only [EN, Finset.mul_sum]
  rw [Finset.sum_comm]

theorem EN_one (n : Nat) (p : X → ℝ) (hp : ∑ x, p x = 1) (a : X → ℝ) (i : Fin n) :
    EN n p (fun s => a (s i)) = E p a := by
  have := EN_two n p hp a (fun _ => 1) i i
  simpa using this

theorem estimator_mean (n : Nat) (hn : n ≠ 0) (p : X → ℝ) (hp : ∑ x, p x = 1) (L g h : X → ℝ) :
    EN n p (fun s => avg ((List.ofFn s).map fun x =>
        (L x - avg ((List.ofFn s).map L)) * g x + h x))
      = (1 - 1 / n) * (E p (fun x => L x * g x) - E p L * E p g) + E p h := by
  have hn' : (n : ℝ) ≠ 0 := Nat.cast_ne_zero.2 hn
  have h1 : (fun s : Fin n → X => avg ((List.ofFn s).map fun x =>
        (L x - avg ((List.ofFn s).map L)) * g x + h x))
      = fun s => (1 / (n : ℝ)) * ((∑ i, L (s i) * g (s i))
          + ((-(1 / (n : ℝ))) * (∑ i, ∑ j, L (s j) * g (s i)) + ∑ i, h (s i))) := by
    funext s
    simp only [avg, List.map_ofFn, List.length_ofFn, List.sum_ofFn, Function.comp]
    rw [Finset.sum_add_distrib]
    have : ∑ i, (L (s i) - (∑ j, L (s j)) / n) * g (s i)
        = (∑ i, L (s i) * g (s i)) + (-(1 / (n : ℝ))) * ∑ i, ∑ j, L (s j) * g (s i) := by
      simp only [sub_mul, Finset.sum_sub_distrib, ← Finset.sum_mul, ← Finset.mul_sum]
      ring
    rw [this]
    ring
  rw [h1, EN_smul, EN_add, EN_add, EN_smul, EN_sum, EN_sum, EN_sum]
  have e1 : ∀ i : Fin n, EN n p (fun s => L (s i) * g (s i)) = E p fun x => L x * g x := fun i => by
    rw [EN_two n p hp, if_pos rfl]
  have e2 : ∀ i : Fin n, EN n p (fun s => ∑ j, L (s j) * g (s i))
      = E p (fun x => L x * g x) + (n - 1) * (E p L * E p g) := fun i => by
    rw [EN_sum]
    simp only [EN_two n p hp]
    rw [← Finset.add_sum_erase _ _ (Finset.mem_univ i), if_pos rfl]
    congr 1
    rw [Finset.sum_congr rfl fun j hj => if_neg (Finset.ne_of_mem_erase hj), Finset.sum_const,
      Finset.card_erase_of_mem (Finset.mem_univ i), Finset.card_univ, Fintype.card_fin, nsmul_eq_mul,
      Nat.cast_sub (Nat.one_le_iff_ne_zero.2 hn), Nat.cast_one]
  rw [Finset.sum_congr rfl fun i _ => e1 i, Finset.sum_congr rfl fun i _ => e2 i,
    Finset.sum_congr rfl fun i _ => EN_one n p hp h i]
  simp only [Finset.sum_const, Finset.card_univ, Fintype.card_fin, nsmul_eq_mul]
  field_simp
  ring

/-- the normalised density `exp(log_pdf) / Σ exp(log_pdf)`. -/
noncomputable def density (lp : X → ℝ) (x : X) : ℝ := Real.exp (lp x) / ∑ y, Real.exp (lp y)

theorem density_total [Nonempty X] (lp : X → ℝ) : ∑ x, density lp x = 1 := by
  have hpos : 0 < ∑ y, Real.exp (lp y) := Finset.sum_pos (fun y _ => Real.exp_pos _) Finset.univ_nonempty
  unfold density
  rw [← Finset.sum_div, div_self hpos.ne']

/-- derivative of the exact expectation value. -/
theorem exact_derivative [Nonempty X] (lp L : ℝ → X → ℝ) (g h : X → ℝ) (t : ℝ)
    (h1 : ∀ x, HasDerivAt (fun s => lp s x) (g x) t) (h2 : ∀ x, HasDerivAt (fun s => L s x) (h x) t) :
    HasDerivAt (fun s => E (density (lp s)) (L s))
      (E (density (lp t)) (fun x => L t x * g x) - E (density (lp t)) (L t) * E (density (lp t)) g
        + E (density (lp t)) h) t := by
  have hpos : ∀ s, 0 < ∑ y, Real.exp (lp s y) := fun s =>
    Finset.sum_pos (fun y _ => Real.exp_pos _) Finset.univ_nonempty
  have hZ : HasDerivAt (fun s => ∑ y, Real.exp (lp s y)) (∑ y, Real.exp (lp t y) * g y) t :=
    HasDerivAt.fun_sum fun y _ => (h1 y).exp
  have hN : HasDerivAt (fun s => ∑ x, Real.exp (lp s x) * L s x)
      (∑ x, (Real.exp (lp t x) * g x * L t x + Real.exp (lp t x) * h x)) t :=
    HasDerivAt.fun_sum fun x _ => (h1 x).exp.mul (h2 x)
  have hq := hN.div hZ (hpos t).ne'
  have hf : (fun s => E (density (lp s)) (L s))
      = fun s => (∑ x, Real.exp (lp s x) * L s x) / ∑ y, Real.exp (lp s y) := by
    funext s
    unfold E density
    rw [Finset.sum_div]
    exact Finset.sum_congr rfl fun x _ => by ring
  rw [hf]
  refine hq.congr_deriv ?_
  have hE : ∀ f : X → ℝ, E (density (lp t)) f = (∑ x, Real.exp (lp t x) * f x) / ∑ y, Real.exp (lp t y) := by
    intro f
    unfold E density
    rw [Finset.sum_div]
    exact Finset.sum_congr rfl fun x _ => by ring
  simp only [hE]
  rw [Finset.sum_add_distrib]
  have hZ0 := (hpos t).ne'
  have e : ∑ x, Real.exp (lp t x) * g x * L t x = ∑ x, Real.exp (lp t x) * (L t x * g x) :=
    Finset.sum_congr rfl fun x _ => by ring
  rw [e]
  field_simp
  ring

variable {P : Type} [DecidableEq P]

/-- **Mean of the gradient.** For `n` independent samples of the (normalised) density on one rank, the
    mean of the gradient is the derivative of the exact expectation value minus `1/n` times its score
    part (the covariance of the function with `∂ log p`); the error tends to zero and is absent when the
    density does not depend on the parameter. -/
theorem C142_mean_gradient [Nonempty X] (n : Nat) (hn : n ≠ 0) (logp L : (P → ℝ) → X → ℝ) (θ : P → ℝ)
    (k : P) (g h : X → ℝ) (hd : ∀ x, Derivs logp L θ k g h x) (dout : ℝ) :
    let p := density (logp θ)
    let score := E p (fun x => L θ x * g x) - E p (L θ) * E p g
    ∃ D, HasDerivAt (fun t => E (density (logp (Function.update θ k t))) (L (Function.update θ k t))) D (θ k)
      ∧ EN n p (fun s => (expectGrads logp L [List.ofFn s] θ dout k).sum) = dout * (D - score / n) := by
  intro p score
  have hup : Function.update θ k (θ k) = θ := Function.update_eq_self k θ
  have hD := exact_derivative (fun t => logp (Function.update θ k t)) (fun t => L (Function.update θ k t))
    g h (θ k) (fun x => (hd x).logp) (fun x => (hd x).fn)
  simp only [hup] at hD
  refine ⟨_, hD, ?_⟩
  have h1 : (fun s : Fin n → X => (expectGrads logp L [List.ofFn s] θ dout k).sum)
      = fun s => dout * avg ((List.ofFn s).map fun x =>
        (L θ x - avg ((List.ofFn s).map (L θ))) * g x + h x) := by
    funext s
    rw [C142_gradient n [List.ofFn s] (by simp [Equal]) logp L θ dout k g h fun a _ x _ => hd x]
    simp
  rw [h1, EN_smul, estimator_mean n hn p (density_total _) (L θ) g h]
  have hn' : (n : ℝ) ≠ 0 := Nat.cast_ne_zero.2 hn
  simp only [score]
  ring

/-- The gradient is exact on average when the density does not depend on the parameter. -/
theorem C142_pathwise [Nonempty X] (n : Nat) (hn : n ≠ 0) (logp L : (P → ℝ) → X → ℝ) (θ : P → ℝ)
    (k : P) (h : X → ℝ) (hconst : ∀ t x, logp (Function.update θ k t) x = logp θ x)
    (hd : ∀ x, HasDerivAt (fun t => L (Function.update θ k t) x) (h x) (θ k)) (dout : ℝ) :
    ∃ D, HasDerivAt (fun t => E (density (logp (Function.update θ k t))) (L (Function.update θ k t))) D (θ k)
      ∧ EN n (density (logp θ)) (fun s => (expectGrads logp L [List.ofFn s] θ dout k).sum) = dout * D := by
  obtain ⟨D, h1, h2⟩ := C142_mean_gradient n hn logp L θ k (fun _ => 0) h
    (fun x => ⟨by simp only [hconst]; exact hasDerivAt_const _ _, hd x⟩) dout
  refine ⟨D, h1, ?_⟩
  rw [h2]
  simp [E]

/-- The kernel for squared and non-Hermitian operators is refused precisely when the experimental flag is not set. -/
theorem C142_refused (logp L : (P → ℝ) → X → ℝ) (shards : List (List X)) (θ : P → ℝ) (k : P) :
    gradKernel false logp L shards θ k = .error .runtimeError ∧
    ∀ flag, (∃ g, gradKernel flag logp L shards θ k = .ok g) ↔ flag = true := by
  refine ⟨rfl, fun flag => ?_⟩
  cases flag
  · exact ⟨fun ⟨g, h⟩ => (by cases h), fun h => (by cases h)⟩
  · exact ⟨fun _ => rfl, fun _ => ⟨_, rfl⟩⟩

/-- On one rank the kernel returns the gradient of `expect`. -/
theorem C142_kernel_one_rank (logp L : (P → ℝ) → X → ℝ) (a : List X) (θ : P → ℝ) (k : P) (g h : X → ℝ)
    (hd : ∀ x ∈ a, Derivs logp L θ k g h x) :
    gradKernel true logp L [a] θ k
      = .ok (avg (a.map fun x => (L θ x - avg (a.map (L θ))) * g x + h x)) := by
  have h1 := C142_gradient a.length [a] (by simp [Equal]) logp L θ 1 k g h (by simpa using hd)
  have h2 : (expectGrads logp L [a] θ 1 k).length = 1 := by simp [expectGrads]
  rw [gradKernel, if_pos rfl, mpiMean, mpiSum, h1, h2]
  simp

/-! ### deviations -/

/-- log-density `θ` for `true` and `0` for `false`. -/
def exLogp (θ : Unit → ℝ) (x : Bool) : ℝ := if x then θ () else 0
/-- the indicator of `true`. -/
def exFun (_ : Unit → ℝ) (x : Bool) : ℝ := if x then 1 else 0

theorem exDerivs (x : Bool) : Derivs exLogp exFun (fun _ => 0) () (fun x => if x then 1 else 0)
    (fun _ => 0) x := by
  constructor
  · cases x
    · exact hasDerivAt_const _ _
    · simpa [exLogp] using hasDerivAt_id' (0 : ℝ)
  · exact hasDerivAt_const _ _

example : ∀ x, Derivs exLogp exFun (fun _ => 0) () (fun x => if x then 1 else 0) (fun _ => 0) x := exDerivs

/-- **The gradient is biased**: on average it is not the derivative of the expectation value. -/
theorem C143_unbiased_refuted : ¬ ∀ (X : Type) [Fintype X] [DecidableEq X] [Nonempty X] (n : Nat),
    n ≠ 0 → ∀ (logp L : (Unit → ℝ) → X → ℝ) (θ : Unit → ℝ) (g h : X → ℝ),
    (∀ x, Derivs logp L θ () g h x) → ∀ D,
    HasDerivAt (fun t => E (density (logp (Function.update θ () t))) (L (Function.update θ () t))) D (θ ()) →
    EN n (density (logp θ)) (fun s => (expectGrads logp L [List.ofFn s] θ 1 ()).sum) = D := by
  intro hall
  obtain ⟨D, h1, h2⟩ := C142_mean_gradient 1 one_ne_zero exLogp exFun (fun _ => 0) () _ _ exDerivs 1
  have h3 := hall Bool 1 one_ne_zero exLogp exFun (fun _ => 0) _ _ exDerivs D h1
  rw [h2] at h3
  have hden : ∀ x, density (exLogp fun _ => 0) x = 1 / 2 := by
    intro x
    cases x <;> simp [density, exLogp]
  simp only [E, hden, exFun, Fintype.sum_bool] at h3
  norm_num at h3

/-- What holds: with `n ≥ 2` samples the score part is `(n-1)/n` of the exact one, so multiplying the
    score part by `n/(n-1)` would remove the bias. -/
theorem C143_bias_partial [Nonempty X] (n : Nat) (hn : n ≠ 0) (logp L : (P → ℝ) → X → ℝ) (θ : P → ℝ)
    (k : P) (g h : X → ℝ) (hd : ∀ x, Derivs logp L θ k g h x) :
    ∃ score path : ℝ,
      HasDerivAt (fun t => E (density (logp (Function.update θ k t))) (L (Function.update θ k t)))
        (score + path) (θ k) ∧
      HasDerivAt (fun t => E (density (logp (Function.update θ k t))) (L θ)) score (θ k) ∧
      EN n (density (logp θ)) (fun s => (expectGrads logp L [List.ofFn s] θ 1 k).sum)
        = (n - 1) / n * score + path := by
  have hup : Function.update θ k (θ k) = θ := Function.update_eq_self k θ
  have hD := exact_derivative (fun t => logp (Function.update θ k t)) (fun t => L (Function.update θ k t))
    g h (θ k) (fun x => (hd x).logp) (fun x => (hd x).fn)
  have hS := exact_derivative (fun t => logp (Function.update θ k t)) (fun _ => L θ)
    g (fun _ => 0) (θ k) (fun x => (hd x).logp) (fun x => hasDerivAt_const _ _)
  simp only [hup] at hD hS
  refine ⟨_, _, hD, hS.congr_deriv (by simp [E]), ?_⟩
  obtain ⟨D, h1, h2⟩ := C142_mean_gradient n hn logp L θ k g h hd 1
  have hn' : (n : ℝ) ≠ 0 := Nat.cast_ne_zero.2 hn
  rw [h2, h1.unique hD]
  field_simp
  ring

/-- **The kernel depends on the number of ranks**: it is not the gradient of `expect` for all samples. -/
theorem C143_ranks_refuted : ¬ ∀ (X : Type) (n : Nat) (shards : List (List X)), Equal n shards →
    ∀ (logp L : (Unit → ℝ) → X → ℝ) (θ : Unit → ℝ) (g h : X → ℝ),
    (∀ x, Derivs logp L θ () g h x) →
    gradKernel true logp L shards θ ()
      = .ok (avg (shards.flatten.map fun x =>
          (L θ x - avg (shards.flatten.map (L θ))) * g x + h x)) := by
  intro hall
  have hE : Equal 1 [[true], [false]] := by simp [Equal]
  have h1 := hall Bool 1 [[true], [false]] hE exLogp exFun (fun _ => 0) _ _ exDerivs
  have h2 := C142_gradient 1 [[true], [false]] hE exLogp exFun (fun _ => 0) 1 () _ _
    fun _ _ x _ => exDerivs x
  have h3 : (expectGrads exLogp exFun [[true], [false]] (fun _ => 0) 1 ()).length = 2 := by
    simp [expectGrads]
  rw [gradKernel, if_pos rfl, mpiMean, mpiSum, h2, h3] at h1
  have h4 := Except.ok.inj h1
  simp [avg, exFun] at h4
  norm_num at h4

/-- What holds: it is that gradient divided by the number of ranks. -/
theorem C143_ranks_partial (n : Nat) (shards : List (List X)) (hE : Equal n shards)
    (logp L : (P → ℝ) → X → ℝ) (θ : P → ℝ) (k : P) (g h : X → ℝ)
    (hd : ∀ a ∈ shards, ∀ x ∈ a, Derivs logp L θ k g h x) :
    gradKernel true logp L shards θ k
      = .ok (avg (shards.flatten.map fun x =>
          (L θ x - avg (shards.flatten.map (L θ))) * g x + h x) / shards.length) := by
  have h3 : (expectGrads logp L shards θ 1 k).length = shards.length := by simp [expectGrads]
  rw [gradKernel, if_pos rfl, mpiMean, mpiSum, C142_gradient n shards hE logp L θ 1 k g h hd, h3, one_mul]

example := C142_value (R := ℚ) 4 [[1, 2, 3, 4], [5, 6, 7, 8]] (by simp [Equal]) (some 2) (by simp)

example := C142_chains_rejected (R := ℚ) 3 [1, 2, 3, 4] [[5, 6, 7, 8]] (by decide)

example := C142_gradient 2 [[true, false], [false, false]] (by simp [Equal]) exLogp exFun (fun _ => 0) 3 () _ _ (fun _ _ x _ => exDerivs x)

example := C142_kernel_one_rank exLogp exFun [true, false] (fun _ => 0) () _ _ (fun x _ => exDerivs x)

example := C143_bias_partial 3 (by decide) exLogp exFun (fun _ => 0) () _ _ exDerivs

example := C143_ranks_partial 2 [[true, false], [false, false]] (by simp [Equal]) exLogp exFun (fun _ => 0) () _ _ (fun _ _ x _ => exDerivs x)

end

end Verif.Expect

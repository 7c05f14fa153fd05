import Verif.Model.Machines
import Mathlib.Algebra.Star.BigOperators
import Mathlib.Algebra.BigOperators.Ring.Finset
import Mathlib.Algebra.BigOperators.Field
import Mathlib.Algebra.Order.BigOperators.Ring.Finset
import Mathlib.Tactic.LinearCombination
import Mathlib.Tactic.Ring
import Mathlib.Tactic.FieldSimp
import Mathlib.Tactic.Linarith

/-! C63: neural density matrices are hermitian and positive semidefinite; C87: values of the dense ansätze. -/

set_option linter.unusedSectionVars false
set_option linter.unusedVariables false

namespace Verif.Machines
open Verif.Hilbert (Err)
open Finset

/-- the amplitude of a logarithm: zero for minus infinity. -/
noncomputable def expo : WithBot ℂ → ℂ
  | ⊥ => 0
  | (y : ℂ) => Complex.exp y

theorem expo_coe (y : ℂ) : expo (y : WithBot ℂ) = Complex.exp y := rfl
theorem expo_bot : expo ⊥ = 0 := rfl

theorem expo_add (a b : WithBot ℂ) : expo (a + b) = expo a * expo b := by
  induction a with
  | bot => rw [WithBot.bot_add, expo_bot, zero_mul]
  | coe a =>
    induction b with
    | bot => rw [WithBot.add_bot, expo_bot, mul_zero]
    | coe b => rw [← WithBot.coe_add, expo_coe, expo_coe, expo_coe, Complex.exp_add]

theorem expo_sum (F : Nat) (f : Nat → WithBot ℂ) : expo (∑ j ∈ range F, f j) = ∏ j ∈ range F, expo (f j) := by
  induction F with
  | zero =>
    have : expo ((0 : ℂ) : WithBot ℂ) = 1 := by rw [expo_coe, Complex.exp_zero]
    simpa using this
  | succ F ih => rw [sum_range_succ, prod_range_succ, expo_add, ih]

/-- C87: the amplitude of `log_cosh` is `cosh`, also where `cosh` vanishes. -/
theorem C87_log_cosh (x : ℂ) : expo (logCosh x) = Complex.cosh x := by
  have key : ∀ y : ℂ, expo (((y : ℂ) : WithBot ℂ) + clog (1 + Complex.exp (-2 * y)) + ((-(Real.log 2 : ℂ) : ℂ) : WithBot ℂ))
      = Complex.cosh y := by
    intro y
    have hc : expo (clog (1 + Complex.exp (-2 * y))) = 1 + Complex.exp (-2 * y) := by
      unfold clog
      split
      · rename_i h; rw [expo_bot, h]
      · rename_i h; rw [expo_coe, Complex.exp_log h]
    have h2 : Complex.exp (-(Real.log 2 : ℂ)) = 1 / 2 := by
      rw [Complex.exp_neg, ← Complex.ofReal_exp, Real.exp_log (by norm_num)]
      norm_num
    rw [expo_add, expo_add, hc, expo_coe, expo_coe, h2, Complex.cosh, mul_add, mul_one, ← Complex.exp_add]
    rw [show y + -2 * y = -y by ring]
    ring
  unfold logCosh
  by_cases h : x.re < 0
  · simp only [h, if_true]
    rw [key (-x), Complex.cosh_neg]
  · simp only [h, if_false]
    exact key x

/-- on the reals `log_cosh` is a real number. -/
theorem logCosh_real (x : ℝ) : ∃ y : ℝ, logCosh (x : ℂ) = (((y : ℂ)) : WithBot ℂ) := by
  have key : ∀ z : ℝ, ∃ y : ℝ, (((z : ℂ)) : WithBot ℂ) + clog (1 + Complex.exp (-2 * (z : ℂ))) + ((-(Real.log 2 : ℂ) : ℂ) : WithBot ℂ)
      = (((y : ℂ)) : WithBot ℂ) := by
    intro z
    have e : (1 : ℂ) + Complex.exp (-2 * (z : ℂ)) = ((1 + Real.exp (-2 * z) : ℝ) : ℂ) := by push_cast; rfl
    have hp : 0 < 1 + Real.exp (-2 * z) := by have := Real.exp_pos (-2 * z); linarith
    refine ⟨z + Real.log (1 + Real.exp (-2 * z)) - Real.log 2, ?_⟩
    rw [e, clog, if_neg (by exact_mod_cast hp.ne'), ← Complex.ofReal_log hp.le, ← WithBot.coe_add, ← WithBot.coe_add]
    congr 1
    push_cast
    ring
  unfold logCosh
  by_cases h : (x : ℂ).re < 0
  · simp only [h, if_true]
    have := key (-x)
    rw [Complex.ofReal_neg] at this
    exact this
  · simp only [h, if_false]
    exact key x

/-! ## C87: values -/

/-- C87: the amplitude of an RBM is exp(a·x) ∏ cosh(W x + b). -/
theorem C87_rbm (n F : Nat) (W : Nat → Nat → ℂ) (b a : Nat → ℂ) (x : Nat → ℂ) :
    expo (rbm logCosh n F W (some b) (some a) x)
      = Complex.exp (∑ i ∈ range n, a i * x i) * ∏ j ∈ range F, Complex.cosh (∑ i ∈ range n, W i j * x i + b j) := by
  unfold rbm hiddenSum
  rw [expo_add, expo_sum, expo_coe, mul_comm]
  congr 1
  · simp only [mul_comm]
  · refine prod_congr rfl fun j _ => ?_
    rw [C87_log_cosh]
    simp only [dense, mul_comm]

/-- C87: without biases. -/
theorem C87_rbm_no_bias (n F : Nat) (W : Nat → Nat → ℂ) (x : Nat → ℂ) :
    expo (rbm logCosh n F W none none x) = ∏ j ∈ range F, Complex.cosh (∑ i ∈ range n, W i j * x i) := by
  unfold rbm hiddenSum
  rw [expo_sum]
  refine prod_congr rfl fun j _ => ?_
  rw [C87_log_cosh]
  simp only [dense, mul_comm]

theorem dense_real (n : Nat) (W : Nat → Nat → ℝ) (b : Option (Nat → ℝ)) (x : Nat → ℝ) (j : Nat) :
    ∃ y : ℝ, dense n (fun i j => (W i j : ℂ)) (b.map fun b i => (b i : ℂ)) (fun i => (x i : ℂ)) j = (y : ℂ) := by
  cases b with
  | none => exact ⟨∑ i ∈ range n, x i * W i j, by simp [dense]⟩
  | some b => exact ⟨∑ i ∈ range n, x i * W i j + b j, by simp [dense]⟩

theorem hiddenSum_real (n F : Nat) (W : Nat → Nat → ℝ) (b : Option (Nat → ℝ)) (x : Nat → ℝ) :
    ∃ y : ℝ, hiddenSum logCosh n F (fun i j => (W i j : ℂ)) (b.map fun b i => (b i : ℂ)) (fun i => (x i : ℂ)) = (((y : ℂ)) : WithBot ℂ) := by
  unfold hiddenSum
  induction F with
  | zero => exact ⟨0, by simp⟩
  | succ F ih =>
    obtain ⟨y, hy⟩ := ih
    obtain ⟨z, hz⟩ := dense_real n W b x F
    obtain ⟨w, hw⟩ := logCosh_real z
    refine ⟨y + w, ?_⟩
    rw [sum_range_succ, hy, hz, hw, ← WithBot.coe_add]
    push_cast
    rfl

/-- C87: an RBMModPhase with real parameters has modulus ∏ cosh(Wr x + br) and phase the logarithm of ∏ cosh(Wi x + bi). -/
theorem C87_mod_phase (n F : Nat) (Wr Wi : Nat → Nat → ℝ) (br bi : Option (Nat → ℝ)) (x : Nat → ℝ) :
    ∃ m φ : ℝ, expo (rbmModPhase logCosh n F (fun i j => (Wr i j : ℂ)) (br.map fun b i => (b i : ℂ)) (fun i j => (Wi i j : ℂ))
        (bi.map fun b i => (b i : ℂ)) (fun i => (x i : ℂ))) = m * Complex.exp (Complex.I * φ)
      ∧ (m : ℂ) = ∏ j ∈ range F, Complex.cosh (dense n (fun i j => (Wr i j : ℂ)) (br.map fun b i => (b i : ℂ)) (fun i => (x i : ℂ)) j)
      ∧ Complex.exp φ = ∏ j ∈ range F, Complex.cosh (dense n (fun i j => (Wi i j : ℂ)) (bi.map fun b i => (b i : ℂ)) (fun i => (x i : ℂ)) j) := by
  obtain ⟨y, hy⟩ := hiddenSum_real n F Wr br x
  obtain ⟨z, hz⟩ := hiddenSum_real n F Wi bi x
  refine ⟨Real.exp y, z, ?_, ?_, ?_⟩
  · rw [rbmModPhase, hy, hz, expo_add, expo_coe]
    simp only [scale, WithBot.map_coe, expo_coe]
    push_cast
    rfl
  · have := congrArg expo hy
    rw [expo_coe, hiddenSum, expo_sum] at this
    simp only [C87_log_cosh] at this
    rw [this]
    push_cast
    rfl
  · have := congrArg expo hz
    rw [expo_coe, hiddenSum, expo_sum] at this
    simp only [C87_log_cosh] at this
    exact this.symm

/-- C87: Jastrow is the quadratic form of `w + wᵀ`; it does not distinguish `w` from its transpose. -/
theorem C87_jastrow (n : Nat) (w : Nat → Nat → ℂ) (x : Nat → ℂ) :
    jastrow n w x = 2 * ∑ i ∈ range n, ∑ j ∈ range n, x i * w i j * x j ∧ jastrow n (fun i j => w j i) x = jastrow n w x := by
  constructor
  · unfold jastrow
    simp only [mul_add, add_mul, sum_add_distrib]
    rw [two_mul]
    congr 1
    rw [sum_comm]
    refine sum_congr rfl fun i _ => sum_congr rfl fun j _ => by ring
  · unfold jastrow
    refine sum_congr rfl fun i _ => sum_congr rfl fun j _ => by rw [add_comm]

/-- C122: on quantum numbers 0, …, n_classes - 1 the encoding of RBMMultiVal determines the configuration. -/
theorem C122_one_hot_partial (k n : Nat) (hk : 0 < k) (x y : Nat → ℂ) (hx : ∀ i < n, ∃ q < k, x i = ((q : Nat) : ℂ))
    (h : ∀ p < k * n, oneHotFlat k x p = oneHotFlat k y p) : ∀ i < n, x i = y i := by
  intro i hi
  obtain ⟨q, hq, e⟩ := hx i hi
  have hp : i * k + q < k * n := by
    have h1 : (i + 1) * k ≤ n * k := Nat.mul_le_mul_right k (by omega)
    rw [Nat.succ_mul] at h1
    rw [Nat.mul_comm k n]
    omega
  have h1 := h (i * k + q) hp
  unfold oneHotFlat at h1
  have d1 : (i * k + q) / k = i := by rw [Nat.mul_comm, Nat.mul_add_div hk, Nat.div_eq_of_lt hq, Nat.add_zero]
  have d2 : (i * k + q) % k = q := by rw [Nat.mul_comm, Nat.mul_add_mod, Nat.mod_eq_of_lt hq]
  rw [d1, d2, if_pos e] at h1
  by_cases hy : y i = ((q : Nat) : ℂ)
  · rw [e, hy]
  · rw [if_neg hy] at h1
    exact absurd h1 one_ne_zero

/-- C122: but with the local states of the library's spins it does not: for Spin(3/2) with n_classes = 4 the two negative states give the
    same amplitude, whatever the parameters. -/
theorem C122_multi_val_refuted :
    ¬ ∀ (x y : Nat → ℂ), (∀ i < 1, x i ∈ [(-3 : ℂ), -1, 1, 3]) → (∀ i < 1, y i ∈ [(-3 : ℂ), -1, 1, 3])
      → (∀ (F : Nat) (W : Nat → Nat → ℂ) (hb vb : Option (Nat → ℂ)), rbmMultiVal logCosh 4 1 F W hb vb x = rbmMultiVal logCosh 4 1 F W hb vb y)
      → ∀ i < 1, x i = y i := by
  intro h
  have h0 := h (fun _ => -3) (fun _ => -1) (by simp) (by simp) (by
    intro F W hb vb
    have e : oneHotFlat 4 (fun _ => -3) = oneHotFlat 4 (fun _ => -1) := by
      funext p
      unfold oneHotFlat
      have a : ¬ ((-3 : ℂ) = ((p % 4 : Nat) : ℂ)) := by
        intro hh
        have := congrArg Complex.re hh
        simp only [Complex.neg_re, Complex.natCast_re, Complex.re_ofNat] at this
        have := Nat.cast_nonneg (α := ℝ) (p % 4)
        linarith
      have b : ¬ ((-1 : ℂ) = ((p % 4 : Nat) : ℂ)) := by
        intro hh
        have := congrArg Complex.re hh
        simp only [Complex.neg_re, Complex.natCast_re, Complex.one_re] at this
        have := Nat.cast_nonneg (α := ℝ) (p % 4)
        linarith
      rw [if_neg a, if_neg b]
    unfold rbmMultiVal
    rw [e]) 0 (by norm_num)
  norm_num at h0

/-! ## C63: neural density matrices -/

/-- a kernel that is a finite sum of products f(r) conj f(c). -/
def IsGram {α : Type} (K : α → α → ℂ) : Prop :=
  ∃ (m : Nat) (f : Nat → α → ℂ), ∀ r c, K r c = ∑ k ∈ range m, f k r * star (f k c)

theorem IsGram.rank_one {α : Type} (f : α → ℂ) : IsGram fun r c => f r * star (f c) :=
  ⟨1, fun _ => f, fun r c => by simp⟩

theorem IsGram.add {α : Type} {K L : α → α → ℂ} (hK : IsGram K) (hL : IsGram L) : IsGram fun r c => K r c + L r c := by
  obtain ⟨m, f, hf⟩ := hK
  obtain ⟨l, g, hg⟩ := hL
  refine ⟨m + l, fun k => if k < m then f k else g (k - m), fun r c => ?_⟩
  beta_reduce
  rw [hf, hg, sum_range_add]
  congr 1
  · refine sum_congr rfl fun k hk => ?_
    rw [if_pos (mem_range.1 hk)]
  · refine sum_congr rfl fun k hk => ?_
    rw [if_neg (by omega), Nat.add_sub_cancel_left]

theorem IsGram.sum {α : Type} {K : Nat → α → α → ℂ} (n : Nat) (h : ∀ k < n, IsGram (K k)) : IsGram fun r c => ∑ k ∈ range n, K k r c := by
  induction n with
  | zero => exact ⟨0, fun _ _ => 0, fun r c => by simp⟩
  | succ n ih =>
    have h1 := IsGram.add (ih fun k hk => h k (by omega)) (h n (by omega))
    obtain ⟨m, f, hf⟩ := h1
    exact ⟨m, f, fun r c => by beta_reduce; rw [sum_range_succ]; exact hf r c⟩

theorem IsGram.mul {α : Type} {K L : α → α → ℂ} (hK : IsGram K) (hL : IsGram L) : IsGram fun r c => K r c * L r c := by
  obtain ⟨m, f, hf⟩ := hK
  obtain ⟨l, g, hg⟩ := hL
  have h1 : IsGram fun r c => ∑ i ∈ range m, ∑ j ∈ range l, (f i r * g j r) * star (f i c * g j c) :=
    IsGram.sum m fun i _ => IsGram.sum l fun j _ => IsGram.rank_one fun r => f i r * g j r
  obtain ⟨p, e, he⟩ := h1
  refine ⟨p, e, fun r c => ?_⟩
  rw [← he]
  beta_reduce
  rw [hf, hg, sum_mul_sum]
  refine sum_congr rfl fun i _ => sum_congr rfl fun j _ => ?_
  rw [star_mul']
  ring

theorem IsGram.prod {α : Type} {K : Nat → α → α → ℂ} (n : Nat) (h : ∀ k < n, IsGram (K k)) : IsGram fun r c => ∏ k ∈ range n, K k r c := by
  induction n with
  | zero => exact ⟨1, fun _ _ => 1, fun r c => by simp⟩
  | succ n ih =>
    obtain ⟨m, f, hf⟩ := IsGram.mul (ih fun k hk => h k (by omega)) (h n (by omega))
    exact ⟨m, f, fun r c => by beta_reduce; rw [prod_range_succ]; exact hf r c⟩

theorem IsGram.hermitian {α : Type} {K : α → α → ℂ} (h : IsGram K) (r c : α) : K r c = star (K c r) := by
  obtain ⟨m, f, hf⟩ := h
  rw [hf, hf, star_sum]
  refine sum_congr rfl fun k _ => ?_
  rw [star_mul', star_star, mul_comm]

theorem IsGram.positive {α : Type} {K : α → α → ℂ} (h : IsGram K) (n : Nat) (x : Nat → α) (w : Nat → ℂ) :
    ∃ q : ℝ, 0 ≤ q ∧ ∑ a ∈ range n, ∑ b ∈ range n, star (w a) * K (x a) (x b) * w b = (q : ℂ) := by
  obtain ⟨m, f, hf⟩ := h
  refine ⟨∑ k ∈ range m, Complex.normSq (∑ a ∈ range n, star (w a) * f k (x a)), sum_nonneg fun k _ => Complex.normSq_nonneg _, ?_⟩
  push_cast
  simp only [← Complex.mul_conj]
  calc ∑ a ∈ range n, ∑ b ∈ range n, star (w a) * K (x a) (x b) * w b
      = ∑ a ∈ range n, ∑ b ∈ range n, ∑ k ∈ range m, star (w a) * f k (x a) * (star (f k (x b)) * w b) := by
        refine sum_congr rfl fun a _ => sum_congr rfl fun b _ => ?_
        rw [hf, mul_sum, sum_mul]
        refine sum_congr rfl fun k _ => by ring
    _ = ∑ k ∈ range m, ∑ a ∈ range n, ∑ b ∈ range n, star (w a) * f k (x a) * (star (f k (x b)) * w b) := by
        rw [sum_comm' (s := range n) (t := fun _ => range n) (t' := range n) (s' := fun _ => range n) (by simp)]
        rw [sum_comm]
        simp only [sum_comm (s := range n) (t := range m)]
    _ = _ := by
        refine sum_congr rfl fun k _ => ?_
        rw [map_sum, sum_mul_sum]
        refine sum_congr rfl fun a _ => sum_congr rfl fun b _ => ?_
        rw [map_mul]
        simp [mul_comm]

/-- real parameters. -/
structure RealParams where
  WS : Nat → Nat → ℝ
  hS : Option (Nat → ℝ)
  vS : Option (Nat → ℝ)
  WA : Nat → Nat → ℝ
  hA : Option (Nat → ℝ)
  vA : Option (Nat → ℝ)
  US : Nat → Nat → ℝ
  UA : Nat → Nat → ℝ
  b : Option (Nat → ℝ)

/-- their arrays. -/
def RealParams.arrays (P : RealParams) : NDMParams where
  WS := fun i j => P.WS i j
  hS := P.hS.map fun b i => (b i : ℂ)
  vS := P.vS.map fun b i => (b i : ℂ)
  WA := fun i j => P.WA i j
  hA := P.hA.map fun b i => (b i : ℂ)
  vA := P.vA.map fun b i => (b i : ℂ)
  US := fun i j => P.US i j
  UA := fun i j => P.UA i j
  b := P.b.map fun b i => (b i : ℂ)

/-- the input of the machine for the entry (r, c) of the density matrix: the row configuration followed by the column one. -/
def joined (n : Nat) (r c : Nat → ℝ) (i : Nat) : ℂ := if i < n then (r i : ℂ) else (c (i - n) : ℂ)

theorem scale_add (a : ℂ) (x y : WithBot ℂ) : scale a (x + y) = scale a x + scale a y := by
  induction x with
  | bot => simp [scale]
  | coe x =>
    induction y with
    | bot => simp [scale]
    | coe y => simp only [scale, WithBot.map_coe, ← WithBot.coe_add, mul_add]

/-- value of the symmetric pure part on real arguments. -/
theorem pure_symm (n F : Nat) (W : Nat → Nat → ℝ) (hb vb : Option (Nat → ℝ)) :
    ∃ g : (Nat → ℝ) → ℝ, ∀ r c : Nat → ℝ,
      pureRBM logCosh n F (fun i j => (W i j : ℂ)) (hb.map fun b i => (b i : ℂ)) (vb.map fun b i => (b i : ℂ)) true
        (fun i => (r i : ℂ)) (fun i => (c i : ℂ)) = (((g r + g c : ℝ) : ℂ) : WithBot ℂ) := by
  choose f hf using hiddenSum_real n F W hb
  cases vb with
  | none =>
    refine ⟨fun r => 1 / 2 * f r, fun r c => ?_⟩
    simp only [pureRBM, hf, Option.map_none, if_true, ← WithBot.coe_add, scale, WithBot.map_coe]
    congr 1
    push_cast
    ring
  | some a =>
    refine ⟨fun r => 1 / 2 * (f r + ∑ i ∈ range n, r i * a i), fun r c => ?_⟩
    simp only [pureRBM, hf, Option.map_some, if_true, ← WithBot.coe_add, scale, WithBot.map_coe, add_mul, sum_add_distrib]
    congr 1
    push_cast
    ring

/-- value of the antisymmetric pure part on real arguments. -/
theorem pure_asymm (n F : Nat) (W : Nat → Nat → ℝ) (hb vb : Option (Nat → ℝ)) :
    ∃ g : (Nat → ℝ) → ℝ, ∀ r c : Nat → ℝ,
      pureRBM logCosh n F (fun i j => (W i j : ℂ)) (hb.map fun b i => (b i : ℂ)) (vb.map fun b i => (b i : ℂ)) false
        (fun i => (r i : ℂ)) (fun i => (c i : ℂ)) = (((g r - g c : ℝ) : ℂ) : WithBot ℂ) := by
  choose f hf using hiddenSum_real n F W hb
  cases vb with
  | none =>
    refine ⟨fun r => 1 / 2 * f r, fun r c => ?_⟩
    simp only [pureRBM, hf, Option.map_none, if_false, Bool.false_eq_true, ← WithBot.coe_add, scale, WithBot.map_coe]
    congr 1
    push_cast
    ring
  | some a =>
    refine ⟨fun r => 1 / 2 * (f r + ∑ i ∈ range n, r i * a i), fun r c => ?_⟩
    simp only [pureRBM, hf, Option.map_some, if_false, Bool.false_eq_true, ← WithBot.coe_add, scale, WithBot.map_coe, sub_mul,
      sum_sub_distrib]
    congr 1
    push_cast
    ring

/-- the amplitude of the mixed part is a product of kernels cosh(p(r) + conj p(c)). -/
theorem mixed_kernel (n F : Nat) (US UA : Nat → Nat → ℝ) (b : Option (Nat → ℝ)) :
    ∃ p : Nat → (Nat → ℝ) → ℂ, ∀ r c : Nat → ℝ,
      expo (mixedRBM logCosh n F (fun i j => (US i j : ℂ)) (fun i j => (UA i j : ℂ)) (b.map fun b i => (b i : ℂ))
        (fun i => (r i : ℂ)) (fun i => (c i : ℂ))) = ∏ j ∈ range F, Complex.cosh (p j r + star (p j c)) := by
  refine ⟨fun j r => ((1 / 2 * ((∑ i ∈ range n, r i * US i j) + (match b with | none => 0 | some b => b j)) : ℝ) : ℂ)
      + Complex.I * ((1 / 2 * ∑ i ∈ range n, r i * UA i j : ℝ) : ℂ), fun r c => ?_⟩
  unfold mixedRBM
  rw [expo_sum]
  refine prod_congr rfl fun j _ => ?_
  rw [C87_log_cosh]
  congr 1
  have e1 : dense n (fun i j => (US i j : ℂ)) none (fun i => 1 / 2 * ((r i : ℂ) + (c i : ℂ))) j
      = 1 / 2 * ∑ i ∈ range n, (r i : ℂ) * US i j + 1 / 2 * ∑ i ∈ range n, (c i : ℂ) * US i j := by
    simp only [dense, mul_sum, ← sum_add_distrib]
    refine sum_congr rfl fun i _ => by ring
  have e2 : dense n (fun i j => (UA i j : ℂ)) none (fun i => 1 / 2 * ((r i : ℂ) - (c i : ℂ))) j
      = 1 / 2 * ∑ i ∈ range n, (r i : ℂ) * UA i j - 1 / 2 * ∑ i ∈ range n, (c i : ℂ) * UA i j := by
    simp only [dense, mul_sum, ← sum_sub_distrib]
    refine sum_congr rfl fun i _ => by ring
  have hs : ∀ x : ℝ, star (x : ℂ) = (x : ℂ) := fun x => Complex.conj_ofReal x
  have hI : star Complex.I = -Complex.I := Complex.conj_I
  cases b with
  | none =>
    simp only [Option.map_none, e1, e2, star_add, star_mul', hs, hI]
    push_cast
    ring
  | some b =>
    simp only [Option.map_some, e1, e2, star_add, star_mul', hs, hI]
    push_cast
    ring

theorem IsGram.half {α : Type} {K : α → α → ℂ} (h : IsGram K) : IsGram fun r c => K r c / 2 := by
  obtain ⟨m, f, hf⟩ := h
  have e2 : ((Real.sqrt (1 / 2) : ℝ) : ℂ) * ((Real.sqrt (1 / 2) : ℝ) : ℂ) = 1 / 2 := by
    rw [← Complex.ofReal_mul, Real.mul_self_sqrt (by norm_num)]
    norm_num
  have hs : star ((Real.sqrt (1 / 2) : ℝ) : ℂ) = ((Real.sqrt (1 / 2) : ℝ) : ℂ) := Complex.conj_ofReal _
  refine ⟨m, fun k r => ((Real.sqrt (1 / 2) : ℝ) : ℂ) * f k r, fun r c => ?_⟩
  beta_reduce
  rw [hf, sum_div]
  refine sum_congr rfl fun k _ => ?_
  rw [star_mul', hs]
  linear_combination (-(f k r * star (f k c))) * e2

theorem cosh_gram {α : Type} (p : α → ℂ) : IsGram fun r c => Complex.cosh (p r + star (p c)) := by
  obtain ⟨m, f, hf⟩ := IsGram.half (IsGram.add (IsGram.rank_one fun r => Complex.exp (p r)) (IsGram.rank_one fun r => Complex.exp (-p r)))
  have hst : ∀ z : ℂ, star (Complex.exp z) = Complex.exp (star z) := fun z => (Complex.exp_conj z).symm
  refine ⟨m, f, fun r c => ?_⟩
  rw [← hf]
  beta_reduce
  rw [Complex.cosh, hst, hst, star_neg, ← Complex.exp_add, ← Complex.exp_add, neg_add]

theorem gram_of (n Fp Fm : Nat) (P : RealParams) : IsGram fun r c : Nat → ℝ =>
    expo (pureRBM logCosh n Fp P.arrays.WS P.arrays.hS P.arrays.vS true (fun i => (r i : ℂ)) (fun i => (c i : ℂ))
      + scale Complex.I (pureRBM logCosh n Fp P.arrays.WA P.arrays.hA P.arrays.vA false (fun i => (r i : ℂ)) (fun i => (c i : ℂ)))
      + mixedRBM logCosh n Fm P.arrays.US P.arrays.UA P.arrays.b (fun i => (r i : ℂ)) (fun i => (c i : ℂ))) := by
  obtain ⟨g, hg⟩ := pure_symm n Fp P.WS P.hS P.vS
  obtain ⟨h, hh⟩ := pure_asymm n Fp P.WA P.hA P.vA
  obtain ⟨p, hp⟩ := mixed_kernel n Fm P.US P.UA P.b
  have k1 : IsGram fun r c : Nat → ℝ => Complex.exp (g r + Complex.I * h r) * star (Complex.exp (g c + Complex.I * h c)) := IsGram.rank_one _
  have k2 : IsGram fun r c : Nat → ℝ => ∏ j ∈ range Fm, Complex.cosh (p j r + star (p j c)) := IsGram.prod Fm fun j _ => cosh_gram (p j)
  obtain ⟨m, f, hf⟩ := IsGram.mul k1 k2
  refine ⟨m, f, fun r c => ?_⟩
  rw [← hf]
  beta_reduce
  have hst : ∀ z : ℂ, star (Complex.exp z) = Complex.exp (star z) := fun z => (Complex.exp_conj z).symm
  have hs : ∀ x : ℝ, star (x : ℂ) = (x : ℂ) := fun x => Complex.conj_ofReal x
  have hI : star Complex.I = -Complex.I := Complex.conj_I
  simp only [RealParams.arrays]
  rw [expo_add, hp, hg, hh, scale, WithBot.map_coe, ← WithBot.coe_add, expo_coe, hst, ← Complex.exp_add]
  simp only [star_add, star_mul', hs, hI]
  congr 2
  push_cast
  ring

/-- the entry (r, c) of the density matrix encoded by an NDM. -/
def IsDensity (n Fp Fm : Nat) (P : RealParams) (ρ : (Nat → ℝ) → (Nat → ℝ) → ℂ) : Prop :=
  ∀ r c, ∃ l, ndm logCosh (2 * n) Fp Fm P.arrays (joined n r c) = .ok l ∧ ρ r c = expo l

theorem density_gram (n Fp Fm : Nat) (P : RealParams) (ρ : (Nat → ℝ) → (Nat → ℝ) → ℂ) (h : IsDensity n Fp Fm P ρ) : IsGram ρ := by
  obtain ⟨m, f, hf⟩ := gram_of n Fp Fm P
  refine ⟨m, fun k r => f k (fun i => if i < n then r i else 0), fun r c => ?_⟩
  rw [← hf]
  obtain ⟨l, hl, e⟩ := h r c
  have hn : 2 * n / 2 = n := Nat.mul_div_cancel_left n (by norm_num)
  have er : (fun i => if i < n then joined n r c i else 0) = fun i => (((if i < n then r i else 0 : ℝ)) : ℂ) := by
    funext i
    by_cases hi : i < n <;> simp [joined, hi]
  have ec : (fun i => if i < n then joined n r c (n + i) else 0) = fun i => (((if i < n then c i else 0 : ℝ)) : ℂ) := by
    funext i
    by_cases hi : i < n <;> simp [joined, hi]
  simp only [ndm, Nat.mul_mod_right, if_true, hn, Except.ok.injEq] at hl
  rw [er, ec] at hl
  rw [e, ← hl]

/-- every NDM encodes a density matrix in this sense: the machine never fails on row and column configurations of equal size. -/
theorem C63_total (n Fp Fm : Nat) (P : RealParams) : ∃ ρ, IsDensity n Fp Fm P ρ := by
  have h : ∀ r c, ∃ l, ndm logCosh (2 * n) Fp Fm P.arrays (joined n r c) = .ok l := fun r c => by
    simp only [ndm, Nat.mul_mod_right, if_true]
    exact ⟨_, rfl⟩
  choose l hl using h
  exact ⟨fun r c => expo (l r c), fun r c => ⟨l r c, hl r c, rfl⟩⟩

/-- C63: hermitian, for real parameters, with and without each of the biases. -/
theorem C63_hermitian (n Fp Fm : Nat) (P : RealParams) (ρ : (Nat → ℝ) → (Nat → ℝ) → ℂ) (h : IsDensity n Fp Fm P ρ) (r c : Nat → ℝ) :
    ρ r c = star (ρ c r) :=
  IsGram.hermitian (density_gram n Fp Fm P ρ h) r c

/-- C63: positive semidefinite on every finite family of configurations: quadratic forms are real and non-negative. -/
theorem C63_positive (n Fp Fm : Nat) (P : RealParams) (ρ : (Nat → ℝ) → (Nat → ℝ) → ℂ) (h : IsDensity n Fp Fm P ρ) (m : Nat)
    (x : Nat → Nat → ℝ) (w : Nat → ℂ) :
    ∃ q : ℝ, 0 ≤ q ∧ ∑ a ∈ range m, ∑ b ∈ range m, star (w a) * ρ (x a) (x b) * w b = (q : ℂ) :=
  IsGram.positive (density_gram n Fp Fm P ρ h) m x w

/-- C63: diagonal entries are strictly positive, so that the state can be normalised. -/
theorem C63_diagonal (n Fp Fm : Nat) (P : RealParams) (ρ : (Nat → ℝ) → (Nat → ℝ) → ℂ) (h : IsDensity n Fp Fm P ρ) (r : Nat → ℝ) :
    ∃ q : ℝ, 0 < q ∧ ρ r r = (q : ℂ) := by
  obtain ⟨g, hg⟩ := pure_symm n Fp P.WS P.hS P.vS
  obtain ⟨k, hk⟩ := pure_asymm n Fp P.WA P.hA P.vA
  obtain ⟨p, hp⟩ := mixed_kernel n Fm P.US P.UA P.b
  obtain ⟨l, hl, e⟩ := h r r
  have hn : 2 * n / 2 = n := Nat.mul_div_cancel_left n (by norm_num)
  have er : (fun i => if i < n then joined n r r i else 0) = fun i => (((if i < n then r i else 0 : ℝ)) : ℂ) := by
    funext i
    by_cases hi : i < n <;> simp [joined, hi]
  have ec : (fun i => if i < n then joined n r r (n + i) else 0) = fun i => (((if i < n then r i else 0 : ℝ)) : ℂ) := by
    funext i
    by_cases hi : i < n <;> simp [joined, hi]
  simp only [ndm, Nat.mul_mod_right, if_true, hn, Except.ok.injEq] at hl
  rw [er, ec] at hl
  simp only [RealParams.arrays] at hl
  rw [hg, hk] at hl
  set r' : Nat → ℝ := fun i => if i < n then r i else 0 with hr'
  have hl' := congrArg expo hl
  rw [expo_add, hp, sub_self, Complex.ofReal_zero, scale, WithBot.map_coe, mul_zero, ← WithBot.coe_add, add_zero, expo_coe] at hl'
  have hc : ∀ z : ℂ, z + star z = ((2 * z.re : ℝ) : ℂ) := fun z => Complex.add_conj z
  refine ⟨Real.exp (g r' + g r') * ∏ j ∈ range Fm, Real.cosh (2 * (p j r').re),
    mul_pos (Real.exp_pos _) (prod_pos fun j _ => Real.cosh_pos _), ?_⟩
  rw [e, ← hl']
  simp only [hc]
  push_cast
  rfl

/-- C63: an odd number of sites is refused. -/
theorem C63_odd (N Fp Fm : Nat) (P : NDMParams) (σ : Nat → ℂ) (h : N % 2 = 1) : ndm logCosh N Fp Fm P σ = .error .valueError := by
  unfold ndm
  rw [if_neg (by omega)]

example := C63_odd 3 1 1 ⟨fun _ _ => 0, none, none, fun _ _ => 0, none, none, fun _ _ => 0, fun _ _ => 1, none⟩ (fun _ => 1) rfl

/-- the density matrix is not forced to be pure, real or diagonal: with one site and the antisymmetric weights one, an off-diagonal entry is
    cos(1). -/
example : ∃ (P : RealParams) (ρ : (Nat → ℝ) → (Nat → ℝ) → ℂ), IsDensity 1 0 1 P ρ ∧ ρ (fun _ => 1) (fun _ => -1) = Complex.cos 1 := by
  let P : RealParams := ⟨fun _ _ => 0, none, none, fun _ _ => 0, none, none, fun _ _ => 0, fun _ _ => 1, none⟩
  obtain ⟨ρ, h⟩ := C63_total 1 0 1 P
  refine ⟨P, ρ, h, ?_⟩
  obtain ⟨l, hl, e⟩ := h (fun _ => 1) (fun _ => -1)
  rw [e]
  have hl' : ndm logCosh (2 * 1) 0 1 P.arrays (joined 1 (fun _ => 1) fun _ => -1)
      = .ok (0 + 0 + logCosh (0 + Complex.I * 1)) := by
    simp [ndm, pureRBM, hiddenSum, mixedRBM, dense, scale, joined, RealParams.arrays, P]
    norm_num
  rw [hl'] at hl
  obtain rfl := Except.ok.inj hl
  rw [expo_add, C87_log_cosh, zero_add, ← Complex.cosh_mul_I]
  have : expo ((0 : ℂ) : WithBot ℂ) = 1 := by rw [expo_coe, Complex.exp_zero]
  simp only [add_zero] at *
  rw [show ((0 : WithBot ℂ)) = ((0 : ℂ) : WithBot ℂ) from rfl, this, one_mul, mul_comm, zero_add]

end Verif.Machines

import Verif.Model.LegacyTorch
import Mathlib.Analysis.SpecialFunctions.Trigonometric.Deriv
import Mathlib.Analysis.SpecialFunctions.ExpDeriv
import Mathlib.Analysis.SpecialFunctions.Exp
import Mathlib.Analysis.Complex.RealDeriv
import Mathlib.Tactic.Linarith
import Mathlib.Tactic.Positivity
import Mathlib.Tactic.Ring
import Mathlib.Tactic.NormNum

/-! C210, C211: the legacy machine around a torch module. -/

namespace Verif.LegacyTorch
open Verif.Hilbert (Err)

/-! ### parameters -/

theorem parameters_length (m : List Tensor) : (parameters m).length = nPar m := by
  simp [parameters, nPar, List.length_flatMap]

theorem copyLoop_spec (p : List ℝ) (m : List Tensor) (h : p.length = nPar m) :
    ((differentiable (copyLoop p m)).flatMap fun t => t.data) = p ∧
    (copyLoop p m).map (fun t => (t.grad, t.data.length)) = m.map (fun t => (t.grad, t.data.length)) ∧
    (copyLoop p m).filter (fun t => !t.grad) = m.filter fun t => !t.grad := by
  induction m generalizing p with
  | nil =>
    have : p = [] := List.length_eq_zero_iff.1 (by simpa [nPar, differentiable] using h)
    subst this
    simp [copyLoop, differentiable]
  | cons t ts ih =>
    by_cases hg : t.grad = true
    · have hn : nPar (t :: ts) = t.data.length + nPar ts := by simp [nPar, differentiable, hg]
      obtain ⟨a, b, c⟩ := ih (p.drop t.data.length) (by rw [List.length_drop]; omega)
      rw [copyLoop, if_pos hg]
      refine ⟨?_, ?_, ?_⟩
      · simp only [differentiable, List.filter_cons, hg, if_true, List.flatMap_cons] at a ⊢
        rw [a, List.take_append_drop]
      · simp only [List.map_cons, b, List.length_take, hg]
        congr 2
        omega
      · simp [List.filter_cons, hg, c]
    · have hn : nPar (t :: ts) = nPar ts := by simp [nPar, differentiable, hg]
      obtain ⟨a, b, c⟩ := ih p (by omega)
      rw [copyLoop, if_neg hg]
      refine ⟨?_, ?_, ?_⟩
      · simp only [differentiable, List.filter_cons, hg] at a ⊢
        exact a
      · simp only [List.map_cons, b]
      · simp [List.filter_cons, hg, c]

/-- C210: assigning `n_par` numbers to `parameters`: they are read back with the imaginary parts removed (a warning tells if there were any), and
    neither the sizes of the tensors nor the contents of the frozen ones change. -/
theorem C210_set (m : List Tensor) (p : List ℂ) (h : p.length = nPar m) :
    ∃ m' w, setParameters m p = (m', w, none) ∧ parameters m' = p.map (fun z => (z.re : ℂ)) ∧ nPar m' = nPar m ∧
      (w = true ↔ ∃ z ∈ p, z.im ≠ 0) ∧
      m'.map (fun t => (t.grad, t.data.length)) = m.map (fun t => (t.grad, t.data.length)) ∧
      m'.filter (fun t => !t.grad) = m.filter fun t => !t.grad := by
  have hl : (p.map Complex.re).length = nPar m := by simpa using h
  obtain ⟨a, b, c⟩ := copyLoop_spec (p.map Complex.re) m hl
  refine ⟨copyLoop (p.map Complex.re) m, _, by simp only [setParameters, h, ne_eq, not_true, if_false]; rfl, ?_, ?_, ?_, b, c⟩
  · rw [parameters, a, List.map_map]; rfl
  · rw [← parameters_length, parameters, a, List.length_map, hl]
  · simp

/-- C210: any other number of values raises ValueError and changes nothing. -/
theorem C210_set_wrong (m : List Tensor) (p : List ℂ) (h : p.length ≠ nPar m) :
    (setParameters m p).1 = m ∧ (setParameters m p).2.2 = some .valueError := by
  simp [setParameters, h]

/-- C210: the number of parameters, and they are real; assigning them to the machine itself changes nothing. -/
theorem C210_parameters (m : List Tensor) :
    (parameters m).length = nPar m ∧ (∀ z ∈ parameters m, z.im = 0) ∧ parameters (setParameters m (parameters m)).1 = parameters m := by
  refine ⟨parameters_length m, ?_, ?_⟩
  · intro z hz
    obtain ⟨r, _, rfl⟩ := List.mem_map.1 hz
    exact Complex.ofReal_im r
  · obtain ⟨m', w, h1, h2, _⟩ := C210_set m (parameters m) (parameters_length m)
    rw [h1, h2]
    rw [parameters, List.map_map]
    exact List.map_congr_left fun r _ => rfl

/-! ### derivatives -/

section network
variable {X : Type} {P : Nat}

/-- Specification: the partial derivative of the complex function `f` of real parameters. -/
def IsPartial (f : (Fin P → ℝ) → ℂ) (θ : Fin P → ℝ) (k : Fin P) (d : ℂ) : Prop :=
  HasDerivAt (fun t : ℝ => f (Function.update θ k t)) d (θ k)

/-- Specification: the module is differentiable at `θ` in every parameter, for the configurations of `xs`. -/
def Smooth (net : (Fin P → ℝ) → X → ℝ × ℝ) (θ : Fin P → ℝ) (xs : List X) : Prop :=
  ∀ x ∈ xs, ∀ k, DifferentiableAt ℝ (fun t => (net (Function.update θ k t) x).1) (θ k) ∧
    DifferentiableAt ℝ (fun t => (net (Function.update θ k t) x).2) (θ k)

theorem derLogOf_eq (b : Bool) (net : (Fin P → ℝ) → X → ℝ × ℝ) (θ : Fin P → ℝ) (xs : List X) : derLogOf b net θ xs = derLog net θ xs := by
  cases b with
  | false => rfl
  | true =>
    simp only [derLogOf, if_true, derLogBackpack, batchGrad, derLog]
    induction xs with
    | nil => rfl
    | cons x xs ih => simp only [List.map_cons, List.zipWith_cons_cons, ih]

theorem partial_of (net : (Fin P → ℝ) → X → ℝ × ℝ) (θ : Fin P → ℝ) (x : X) (k : Fin P)
    (h : DifferentiableAt ℝ (fun t => (net (Function.update θ k t) x).1) (θ k) ∧
      DifferentiableAt ℝ (fun t => (net (Function.update θ k t) x).2) (θ k)) :
    IsPartial (fun q => value net q x) θ k
      ⟨autograd (fun q => (net q x).1) θ k, autograd (fun q => (net q x).2) θ k⟩ := by
  have h1 := h.1.hasDerivAt.ofReal_comp
  have h2 := h.2.hasDerivAt.ofReal_comp
  have h3 := h1.add (h2.mul_const Complex.I)
  refine (h3.congr_deriv ?_).congr_of_eventuallyEq ?_
  · exact Complex.mk_eq_add_mul_I _ _ ▸ rfl
  · filter_upwards with t
    exact Complex.mk_eq_add_mul_I _ _

/-- C210: `der_log`, with or without BackPACK, returns for every configuration the derivatives of `log_val` with respect to the parameters. -/
theorem C210_der_log (b : Bool) (net : (Fin P → ℝ) → X → ℝ × ℝ) (θ : Fin P → ℝ) (xs : List X) (h : Smooth net θ xs) :
    List.Forall₂ (fun x (row : Fin P → ℂ) => ∀ k, IsPartial (fun q => value net q x) θ k (row k)) xs (derLogOf b net θ xs) := by
  rw [derLogOf_eq]
  induction xs with
  | nil => exact List.Forall₂.nil
  | cons x xs ih =>
    refine List.Forall₂.cons (fun k => partial_of net θ x k (h x List.mem_cons_self k)) ?_
    exact ih fun y hy => h y (List.mem_cons_of_mem _ hy)

theorem vjp_plain (net : (Fin P → ℝ) → X → ℝ × ℝ) (θ : Fin P → ℝ) (xs : List X) (vec : List ℂ) (k : Fin P) :
    (⟨backward net θ xs (vec.map fun v => (v.re, v.im)) (fun _ => 0) k,
      backward net θ xs (vec.map fun v => (v.im, -v.re)) (fun _ => 0) k⟩ : ℂ)
      = (List.zipWith (fun v (j : Fin P → ℂ) => v * star (j k)) vec (derLog net θ xs)).sum := by
  simp only [backward, derLog, zero_add]
  induction xs generalizing vec with
  | nil => simp; rfl
  | cons x xs ih =>
    cases vec with
    | nil => simp; rfl
    | cons v vec =>
      simp only [List.map_cons, List.zipWith_cons_cons, List.sum_cons]
      rw [← ih vec]
      apply Complex.ext
      · simp [Complex.mul_re]
      · simp [Complex.mul_im]; ring

theorem backward_neg (net : (Fin P → ℝ) → X → ℝ × ℝ) (θ : Fin P → ℝ) (xs : List X) (vecj : List (ℝ × ℝ)) (k : Fin P) :
    backward net θ xs (vecj.map fun v => (v.1 * -1, v.2 * -1)) (fun _ => 0) k = - backward net θ xs vecj (fun _ => 0) k := by
  simp only [backward, zero_add]
  induction xs generalizing vecj with
  | nil => simp
  | cons x xs ih =>
    cases vecj with
    | nil => simp
    | cons v vecj =>
      simp only [List.map_cons, List.zipWith_cons_cons, List.sum_cons]
      rw [ih vecj]
      ring

/-- C210: `vector_jacobian_prod` returns `Σ_n vec_n conj(∂_k log psi(x_n))`, or its conjugate without `conjugate`; the result does not depend on
    whether the Jacobian is asked for, nor on gradients left in the module, and none are left. `D x k` is the derivative of `log_val`. -/
theorem C210_vjp (b : Bool) (net : (Fin P → ℝ) → X → ℝ × ℝ) (θ : Fin P → ℝ) (xs : List X) (vec : List ℂ) (h : Smooth net θ xs)
    (D : X → Fin P → ℂ) (hD : ∀ x ∈ xs, ∀ k, IsPartial (fun q => value net q x) θ k (D x k)) (conjugate returnJac : Bool) (g : Fin P → ℝ) :
    let r := vjp b net θ xs vec conjugate returnJac g
    (∀ k, r.1 k = if conjugate then (List.zipWith (fun v x => v * star (D x k)) vec xs).sum
      else star (List.zipWith (fun v x => v * star (D x k)) vec xs).sum) ∧
    r.2.1 = (if returnJac then some (xs.map D) else none) ∧ r.2.2 = fun _ => 0 := by
  have hd : derLog net θ xs = xs.map D := by
    unfold derLog
    refine List.map_congr_left fun x hx => ?_
    funext k
    exact (partial_of net θ x k (h x hx k)).unique (hD x hx k)
  have hz : ∀ k, (List.zipWith (fun v (j : Fin P → ℂ) => v * star (j k)) vec (derLog net θ xs)).sum
      = (List.zipWith (fun v x => v * star (D x k)) vec xs).sum := by
    intro k
    rw [hd, List.zipWith_map_right]
  cases returnJac with
  | true =>
    simp only [vjp, if_true, derLogOf_eq]
    refine ⟨fun k => ?_, by rw [hd], trivial⟩
    cases conjugate
    · simp only [Bool.false_eq_true, if_false, hz]
    · simp only [if_true, hz]
  | false =>
    simp only [vjp, Bool.false_eq_true, if_false]
    refine ⟨fun k => ?_, trivial, trivial⟩
    cases conjugate
    · simp only [Bool.false_eq_true, if_false]
      rw [backward_neg, ← hz, ← vjp_plain]
      rfl
    · simp only [if_true]
      rw [← hz, ← vjp_plain]

/-- C210: `log_val` of a batch has one entry for every configuration, computed from it alone. -/
theorem C210_log_val (net : (Fin P → ℝ) → X → ℝ × ℝ) (θ : Fin P → ℝ) (xs : List X) :
    ∃ zs, logVal net θ (.batch xs) = .array zs ∧
      List.Forall₂ (fun x (z : ℂ) => z.re = (net θ x).1 ∧ z.im = (net θ x).2) xs zs := by
  refine ⟨_, rfl, ?_⟩
  induction xs with
  | nil => exact List.Forall₂.nil
  | cons x xs ih => exact List.Forall₂.cons ⟨rfl, rfl⟩ ih

/-- C211: "a complex number when `x` is a vector" (abstract_machine.py:27-29): `log_val` never returns a number. -/
theorem C211_vector_refuted (net : (Fin P → ℝ) → X → ℝ × ℝ) (θ : Fin P → ℝ) (x : X) :
    logVal net θ (.vector x) = .array [value net θ x] ∧ ∀ z, logVal net θ (.vector x) ≠ .number z :=
  ⟨rfl, fun z h => by cases h⟩

end network

/-! ### TorchLogCosh -/

theorem softplus_exp (x : ℝ) : Real.log (1 + Real.exp (2 * x)) = x + Real.log 2 + Real.log (Real.cosh x) := by
  have h : 1 + Real.exp (2 * x) = Real.exp x * (2 * Real.cosh x) := by
    rw [Real.cosh_eq, two_mul x, Real.exp_add, Real.exp_neg]
    have := (Real.exp_pos x).ne'
    field_simp
    ring
  have hc := Real.cosh_pos x
  rw [h, Real.log_mul (Real.exp_pos x).ne' (by positivity), Real.log_exp, Real.log_mul (by norm_num) hc.ne']
  ring

/-- C211: what `TorchLogCosh` computes: `log cosh x + log 2` up to `x = 10` and `x` above; it never is `log cosh x`. -/
theorem C211_log_cosh_refuted (x : ℝ) :
    (x ≤ 10 → torchLogCosh x = Real.log (Real.cosh x) + Real.log 2) ∧ (10 < x → torchLogCosh x = x) ∧
    torchLogCosh x ≠ Real.log (Real.cosh x) := by
  have h1 : x ≤ 10 → torchLogCosh x = Real.log (Real.cosh x) + Real.log 2 := by
    intro h
    rw [torchLogCosh, softplus, if_neg (by linarith), softplus_exp]
    ring
  have h2 : 10 < x → torchLogCosh x = x := by
    intro h
    rw [torchLogCosh, softplus, if_pos (by linarith)]
    ring
  refine ⟨h1, h2, ?_⟩
  rcases le_or_gt x 10 with h | h
  · rw [h1 h]
    have := Real.log_pos (show (1 : ℝ) < 2 by norm_num)
    linarith
  · rw [h2 h]
    intro he
    have hc : Real.exp x = Real.cosh x := by rw [← Real.exp_log (Real.cosh_pos x), ← he]
    rw [Real.cosh_eq] at hc
    have h3 : Real.exp (-x) < Real.exp x := Real.exp_lt_exp.2 (by linarith)
    linarith

/-- C211: what holds: the function differs from `log cosh` by `log 2`, up to `exp (-20)`; so wave functions built with it are proportional to the
    intended ones, up to that error. Missing from the claim: the values themselves. -/
theorem C211_log_cosh_partial (x : ℝ) : |torchLogCosh x - (Real.log (Real.cosh x) + Real.log 2)| ≤ Real.exp (-20) := by
  rcases le_or_gt x 10 with h | h
  · rw [(C211_log_cosh_refuted x).1 h, sub_self, abs_zero]
    exact (Real.exp_pos _).le
  · rw [(C211_log_cosh_refuted x).2.1 h]
    have e : Real.log (Real.cosh x) + Real.log 2 = x + Real.log (1 + Real.exp (-(2 * x))) := by
      have := softplus_exp (-x)
      rw [Real.cosh_neg, mul_neg] at this
      linarith
    have hp := Real.exp_pos (-(2 * x))
    have h0 : 0 ≤ Real.log (1 + Real.exp (-(2 * x))) := Real.log_nonneg (by linarith)
    have h1 : Real.log (1 + Real.exp (-(2 * x))) ≤ Real.exp (-(2 * x)) := by
      have := Real.log_le_sub_one_of_pos (show 0 < 1 + Real.exp (-(2 * x)) by linarith)
      linarith
    have h2 : Real.exp (-(2 * x)) ≤ Real.exp (-20) := Real.exp_le_exp.2 (by linarith)
    rw [e, abs_le]
    constructor <;> linarith

/-! ### concrete cases -/

/-- two trainable numbers and a frozen one. -/
def exModule : List Tensor := [⟨true, [1]⟩, ⟨false, [5]⟩, ⟨true, [2]⟩]

example : parameters (setParameters exModule [3 + Complex.I, 4]).1 = [3, 4] := by
  obtain ⟨m', w, h1, h2, _⟩ := C210_set exModule [3 + Complex.I, 4] (by simp [nPar, differentiable, exModule])
  rw [h1, h2]
  simp

example : (setParameters exModule [1]).2.2 = some .valueError :=
  (C210_set_wrong exModule [1] (by simp [nPar, differentiable, exModule])).2

/-- a module with one parameter: `log psi(x) = θ x + i θ²`. -/
def exNet : (Fin 1 → ℝ) → ℝ → ℝ × ℝ := fun θ x => (θ 0 * x, θ 0 ^ 2)

theorem exSmooth (θ : Fin 1 → ℝ) (xs : List ℝ) : Smooth exNet θ xs := by
  intro x _ k
  have hk : k = 0 := Subsingleton.elim _ _
  subst hk
  simp only [exNet, Function.update_self]
  exact ⟨by fun_prop, by fun_prop⟩

example (θ : Fin 1 → ℝ) (x : ℝ) : IsPartial (fun q => value exNet q x) θ 0 ⟨x, 2 * θ 0⟩ := by
  have h := partial_of exNet θ x 0 (exSmooth θ [x] x (by simp) 0)
  have e1 : autograd (fun q => (exNet q x).1) θ 0 = x := by
    simp [autograd, exNet]
  have e2 : autograd (fun q => (exNet q x).2) θ 0 = 2 * θ 0 := by
    simp [autograd, exNet]
  rw [e1, e2] at h
  exact h

end Verif.LegacyTorch

import Verif.Model.LegacySR
import Verif.Spec.Covariance
import Mathlib.Data.Complex.BigOperators
import Mathlib.Algebra.BigOperators.Field
import Mathlib.LinearAlgebra.FiniteDimensional.Lemmas
import Mathlib.LinearAlgebra.Matrix.ToLin
import Mathlib.Tactic.Linarith
import Mathlib.Tactic.Positivity
import Mathlib.Tactic.FieldSimp
import Mathlib.Tactic.LinearCombination

/-! C179, C180: `netket.legacy.optimizer.SR` with numpy. -/

set_option linter.unusedVariables false

namespace Verif.LegacySR
open Verif.Hilbert (Err)
open Verif.Spec (average covariance)
open Finset

/-! ## Choice of the solver -/

/-- C179: what the constructor makes of its arguments, for all of them: the iterative names switch to the iterative solver of that name, the dense
    names to the dense one, whatever `use_iterative` says; without a name, `minres` is the iterative solver for real and `gmres` that for
    complex parameters; unknown names are a `RuntimeError`. -/
theorem C179_construct (machine : Option Bool) (lsq : Option Lsq) (it : Bool) (s : St) (h : construct machine lsq it false = .ok s) :
    lsq ≠ some .other ∧ s.lsq = lsq ∧ s.complex = machine ∧ s.scaleInv = false ∧
      (s.iterative = true ↔ lsq = some .gmres ∨ lsq = some .cg ∨ lsq = some .minres ∨ (lsq = none ∧ it = true)) ∧
      (s.iterative = true → s.sparse = some (if lsq = some .cg then .cg else if lsq = some .gmres ∨ machine = some true then .gmres else .minres)) ∧
      (s.iterative = false → s.driver = some (if lsq = some .svd ∨ lsq = some .cholesky then .dflt else .gelsy)) := by
  rcases machine with _ | _ | _ <;> rcases lsq with _ | _ | _ | _ | _ | _ | _ | _ | _ <;> cases it <;>
    simp only [construct, initSolver, iterativeOf, sparseOf, driverOf, Option.getD] at h <;>
    first
    | (injection h with h; subst h; decide)
    | (exfalso; exact absurd h (by simp))

example := C179_construct (some true) none true _ rfl

/-- C179: and it fails exactly for unknown names, for `minres` with complex parameters (`RuntimeError`) and for a threshold with an iterative
    solver (`ValueError`). -/
theorem C179_construct_errors (machine : Option Bool) (lsq : Option Lsq) (it thr : Bool) :
    (construct machine lsq it thr = .error .runtimeError ↔ lsq = some .other ∨ (lsq = some .minres ∧ machine = some true ∧ thr = false)) ∧
    (construct machine lsq it thr = .error .valueError ↔
      thr = true ∧ (lsq = some .gmres ∨ lsq = some .cg ∨ lsq = some .minres ∨ (lsq = none ∧ it = true))) ∧
    (∀ e, construct machine lsq it thr = .error e → e = .runtimeError ∨ e = .valueError) := by
  refine ⟨?_, ?_, ?_⟩ <;> rcases machine with _ | _ | _ <;> rcases lsq with _ | _ | _ | _ | _ | _ | _ | _ | _ <;> cases it <;> cases thr <;>
    simp [construct, initSolver, iterativeOf, sparseOf, driverOf]

/-- C179: the scale-invariant regularization is accepted for dense solvers only; anything but a boolean is an `AssertionError`. -/
theorem C179_scale_setter (s : St) (b : Option Bool) :
    setScale s b = (match b with
      | none => .error .assertionError
      | some false => .ok { s with scaleInv := false }
      | some true => if s.iterative = true then .error .notImplemented else .ok { s with scaleInv := true }) := by
  rcases b with _ | _ | _ <;> simp [setScale]

example : ∃ s, construct (some true) none true false = .ok s ∧ s.sparse = some .gmres := ⟨_, rfl, rfl⟩
example : ∃ s, construct (some false) none true false = .ok s ∧ s.sparse = some .minres := ⟨_, rfl, rfl⟩
example : ∃ s, construct none (some .svd) true true = .ok s ∧ s.iterative = false := ⟨_, rfl, rfl⟩

/-! ## The covariance -/

/-- all samples of all processes. -/
def pool (rs : List Rank) : List (Nat → ℂ) := rs.flatMap fun r => (List.range r.n).map r.o

theorem list_sum_range (n : Nat) (g : Nat → ℂ) : ((List.range n).map g).sum = ∑ s ∈ range n, g s := by
  induction n with
  | zero => simp
  | succ n ih => rw [List.range_succ, List.map_append, List.sum_append, ih, sum_range_succ]; simp

theorem pool_sum (rs : List Rank) (g : (Nat → ℂ) → ℂ) : ((pool rs).map g).sum = (rs.map fun r => ∑ s ∈ range r.n, g (r.o s)).sum := by
  induction rs with
  | nil => rfl
  | cons r rs ih =>
    rw [pool, List.flatMap_cons, List.map_append, List.sum_append, List.map_map, list_sum_range, List.map_cons, List.sum_cons, ← ih]
    rfl

theorem pool_length (rs : List Rank) : (pool rs).length = nSamp rs := by
  induction rs with
  | nil => rfl
  | cons r rs ih => rw [pool, List.flatMap_cons, List.length_append, nSamp, List.map_cons, List.sum_cons]; simp only [List.length_map, List.length_range]; rw [← nSamp, ← ih]; rfl

theorem nSamp_same (rs : List Rank) (n : Nat) (h : ∀ r ∈ rs, r.n = n) : nSamp rs = rs.length * n := by
  induction rs with
  | nil => simp [nSamp]
  | cons r rs ih =>
    have := ih (fun r hr => h r (List.mem_cons_of_mem _ hr))
    rw [nSamp, List.map_cons, List.sum_cons, h r List.mem_cons_self, ← nSamp, this, List.length_cons]
    ring

theorem list_sum_div (rs : List Rank) (g : Rank → ℂ) (c : ℂ) : (rs.map fun r => g r / c).sum = (rs.map g).sum / c := by
  induction rs with
  | nil => simp
  | cons r rs ih => simp only [List.map_cons, List.sum_cons]; rw [ih]; ring

theorem mean_average (rs : List Rank) (n : Nat) (h : ∀ r ∈ rs, r.n = n) (k : Nat) : meanOks rs k = average ((pool rs).map fun o => o k) := by
  have e : (rs.map fun r => (∑ s ∈ range r.n, r.o s k) / (r.n : ℂ)) = rs.map fun r => (∑ s ∈ range r.n, r.o s k) / (n : ℂ) :=
    List.map_congr_left fun r hr => by simp only [h r hr]
  unfold meanOks average
  rw [e, list_sum_div, pool_sum rs (fun o => o k), List.length_map, pool_length, nSamp_same rs n h, div_div]
  push_cast
  ring

theorem nSamp_centre (rs : List Rank) : nSamp (centre rs) = nSamp rs := by
  unfold nSamp centre
  rw [List.map_map]
  rfl

/-- C179: with the same number of samples on every process, the matrix for complex parameters is the covariance of all samples. -/
theorem C179_covariance (rs : List Rank) (n : Nat) (h : ∀ r ∈ rs, r.n = n) (i j : Nat) : covC (centre rs) i j = covariance (pool rs) i j := by
  unfold covariance
  rw [← mean_average rs n h i, ← mean_average rs n h j]
  unfold average
  rw [pool_sum rs (fun o => star (o i - meanOks rs i) * (o j - meanOks rs j)), List.length_map, pool_length]
  unfold covC
  rw [nSamp_centre]
  unfold centre gram
  rw [List.map_map]
  rfl

example := C179_covariance [⟨2, fun s k => (s : ℂ) + k⟩, ⟨2, fun s k => (s : ℂ) * k⟩] 2 (by simp) 0 1

/-- a product of a covariance with a vector is a sum over the processes. -/
theorem matvec_cov (P : Nat) (shift : ℝ) (rs : List Rank) (v : Nat → ℂ) (i : Nat) :
    matvecC P shift rs v i = (∑ j ∈ range P, covC rs i j * v j) + (shift : ℂ) * v i := by
  unfold matvecC covC
  congr 1
  generalize (nSamp rs : ℂ) = N
  induction rs with
  | nil => simp
  | cons r rs ih =>
    simp only [List.map_cons, List.sum_cons]
    rw [ih]
    have e : ∀ j, (gram r i j + (rs.map fun r => gram r i j).sum) / N * v j = gram r i j / N * v j + (rs.map fun r => gram r i j).sum / N * v j := by
      intro j; ring
    simp only [e]
    rw [sum_add_distrib]
    congr 1
    unfold gram
    simp only [sum_div, sum_mul]
    rw [sum_comm]
    refine sum_congr rfl fun k _ => sum_congr rfl fun s _ => ?_
    ring

/-- C179: the operator of the iterative solvers is the covariance of all samples plus the shift. -/
theorem C179_operator (P : Nat) (shift : ℝ) (rs : List Rank) (n : Nat) (h : ∀ r ∈ rs, r.n = n) (v : Nat → ℂ) (i : Nat) :
    matvecC P shift (centre rs) v i = (∑ j ∈ range P, covariance (pool rs) i j * v j) + (shift : ℂ) * v i := by
  rw [matvec_cov]
  simp only [C179_covariance rs n h]

example := C179_operator 2 (1 / 100) [⟨2, fun s k => (s : ℂ) + k⟩, ⟨2, fun s k => (s : ℂ) * k⟩] 2 (by simp) (fun k => k) 1

/-! ## Positive definiteness -/

/-- `v^† S v` is the average of `|Σ_j (O_j - ⟨O_j⟩) v_j|²`. -/
theorem cov_form (os : List (Nat → ℂ)) (P : Nat) (v : Nat → ℂ) :
    0 ≤ (∑ i ∈ range P, star (v i) * ∑ j ∈ range P, covariance os i j * v j).re := by
  have e : (∑ i ∈ range P, star (v i) * ∑ j ∈ range P, covariance os i j * v j)
      = (((os.map fun o => Complex.normSq (∑ j ∈ range P, (o j - average (os.map fun o => o j)) * v j)).sum / (os.length : ℝ) : ℝ) : ℂ) := by
    obtain ⟨m, hm⟩ : ∃ m : Nat → ℂ, ∀ j, average (os.map fun o => o j) = m j := ⟨_, fun j => rfl⟩
    have hc : ∀ i j, covariance os i j = (os.map fun o => star (o i - m i) * (o j - m j)).sum / (os.length : ℂ) := by
      intro i j
      unfold covariance
      rw [hm, hm, average, List.length_map]
    have key : ∀ l : List (Nat → ℂ), ∀ N : ℂ, (∑ i ∈ range P, star (v i) * ∑ j ∈ range P, (l.map fun o => star (o i - m i) * (o j - m j)).sum / N * v j)
        = (l.map fun o => ((Complex.normSq (∑ j ∈ range P, (o j - m j) * v j) : ℝ) : ℂ)).sum / N := by
      intro l N
      induction l with
      | nil => simp
      | cons o l ih =>
        simp only [List.map_cons, List.sum_cons]
        have e2 : ∀ i j, (star (o i - m i) * (o j - m j) + (l.map fun o => star (o i - m i) * (o j - m j)).sum) / N * v j
            = star (o i - m i) * (o j - m j) / N * v j + (l.map fun o => star (o i - m i) * (o j - m j)).sum / N * v j := by
          intro i j; ring
        simp only [e2]
        simp only [sum_add_distrib, mul_add]
        rw [ih, add_div]
        congr 1
        rw [Complex.normSq_eq_conj_mul_self, map_sum, sum_mul_sum, sum_div]
        refine sum_congr rfl fun i _ => ?_
        rw [mul_sum, sum_div]
        refine sum_congr rfl fun j _ => ?_
        rw [map_mul]
        change star (v i) * (star (o i - m i) * (o j - m j) / N * v j) = star (o i - m i) * star (v i) * ((o j - m j) * v j) / N
        ring
    simp only [hc, hm]
    rw [key os os.length]
    push_cast
    congr 1
    clear hc hm key
    induction os with
    | nil => rfl
    | cons o os ih => simp only [List.map_cons, List.sum_cons]; rw [ih]; push_cast; rfl
  rw [e, Complex.ofReal_re]
  refine div_nonneg (List.sum_nonneg ?_) (Nat.cast_nonneg _)
  intro x hx
  obtain ⟨o, _, rfl⟩ := List.mem_map.1 hx
  exact Complex.normSq_nonneg _

/-! ## The update -/

/-- solvers which solve every system that has a solution, of size `P`. -/
structure Good (P : Nat) (sv : Solvers) : Prop where
  iterC : ∀ A f x0, (∃ x, ∀ i < P, A x i = f i) → 0 ≤ (sv.iterC A f x0).2 ∧ ∀ i < P, A (sv.iterC A f x0).1 i = f i
  iterR : ∀ A f x0, (∃ x, ∀ i < P, A x i = f i) → 0 ≤ (sv.iterR A f x0).2 ∧ ∀ i < P, A (sv.iterR A f x0).1 i = f i
  chol : ∀ A f, (∃ x : Nat → ℂ, ∀ i < P, ∑ j ∈ range P, A i j * x j = f i) → ∀ i < P, ∑ j ∈ range P, A i j * sv.chol A f j = f i
  lstsqC : ∀ A f, (∃ x : Nat → ℂ, ∀ i < P, ∑ j ∈ range P, A i j * x j = f i) → ∀ i < P, ∑ j ∈ range P, A i j * sv.lstsqC A f j = f i
  lstsqR : ∀ A f, (∃ x : Nat → ℝ, ∀ i < P, ∑ j ∈ range P, A i j * x j = f i) → ∀ i < P, ∑ j ∈ range P, A i j * sv.lstsqR A f j = f i

open Classical in
/-- such solvers exist. -/
theorem good_exists (P : Nat) : ∃ sv, Good P sv := by
  refine ⟨⟨fun A f _ => (if h : ∃ x, ∀ i < P, A x i = f i then h.choose else f, 0),
           fun A f _ => (if h : ∃ x, ∀ i < P, A x i = f i then h.choose else f, 0),
           fun A f => if h : ∃ x : Nat → ℂ, ∀ i < P, ∑ j ∈ range P, A i j * x j = f i then h.choose else f,
           fun A f => if h : ∃ x : Nat → ℂ, ∀ i < P, ∑ j ∈ range P, A i j * x j = f i then h.choose else f,
           fun A f => if h : ∃ x : Nat → ℝ, ∀ i < P, ∑ j ∈ range P, A i j * x j = f i then h.choose else f⟩, ?_, ?_, ?_, ?_, ?_⟩
  · intro A f x0 h
    simp only [dif_pos h]
    exact ⟨le_refl _, h.choose_spec⟩
  · intro A f x0 h
    simp only [dif_pos h]
    exact ⟨le_refl _, h.choose_spec⟩
  · intro A f h
    simp only [dif_pos h]
    exact h.choose_spec
  · intro A f h
    simp only [dif_pos h]
    exact h.choose_spec
  · intro A f h
    simp only [dif_pos h]
    exact h.choose_spec

theorem shifted {K : Type} [Field K] (P : Nat) (A : Nat → Nat → K) (c : K) (x : Nat → K) (i : Nat) (hi : i < P) :
    (∑ j ∈ range P, (A i j + if i = j then c else 0) * x j) = (∑ j ∈ range P, A i j * x j) + c * x i := by
  simp only [add_mul, sum_add_distrib]
  congr 1
  simp [hi]

/-- a square system without kernel has a solution. -/
theorem solvable {K : Type} [Field K] (P : Nat) (M : Nat → Nat → K) (h : ∀ v : Nat → K, (∀ i < P, ∑ j ∈ range P, M i j * v j = 0) → ∀ i < P, v i = 0)
    (f : Nat → K) : ∃ x : Nat → K, ∀ i < P, ∑ j ∈ range P, M i j * x j = f i := by
  let T : (Fin P → K) →ₗ[K] (Fin P → K) := Matrix.mulVecLin (Matrix.of fun i j : Fin P => M i j)
  let ext : (Fin P → K) → Nat → K := fun y i => if hi : i < P then y ⟨i, hi⟩ else 0
  have hT : ∀ y i (hi : i < P), T y ⟨i, hi⟩ = ∑ j ∈ range P, M i j * ext y j := by
    intro y i hi
    rw [sum_range]
    simp only [T, Matrix.mulVecLin_apply, Matrix.mulVec, dotProduct, Matrix.of_apply, ext]
    exact sum_congr rfl fun j _ => by rw [dif_pos j.2]
  have inj : Function.Injective T := by
    rw [← LinearMap.ker_eq_bot, LinearMap.ker_eq_bot']
    intro y hy
    have := h (ext y) (fun i hi => by rw [← hT y i hi, hy]; rfl)
    funext i
    have hi := this i.1 i.2
    simp only [ext, dif_pos i.2] at hi
    exact hi
  obtain ⟨y, hy⟩ := (LinearMap.injective_iff_surjective.1 inj) fun i => f i
  exact ⟨ext y, fun i hi => by rw [← hT y i hi, hy]⟩

/-- a non-negative form plus a positive shift has no kernel. -/
theorem definiteC (P : Nat) (A : Nat → Nat → ℂ) (shift : ℝ) (hs : 0 < shift)
    (hA : ∀ v : Nat → ℂ, 0 ≤ (∑ i ∈ range P, star (v i) * ∑ j ∈ range P, A i j * v j).re)
    (v : Nat → ℂ) (hv : ∀ i < P, (∑ j ∈ range P, A i j * v j) + (shift : ℂ) * v i = 0) : ∀ i < P, v i = 0 := by
  have e : (∑ i ∈ range P, star (v i) * ∑ j ∈ range P, A i j * v j) = -(((shift * ∑ i ∈ range P, Complex.normSq (v i) : ℝ)) : ℂ) := by
    push_cast
    rw [mul_sum, ← sum_neg_distrib]
    refine sum_congr rfl fun i hi => ?_
    rw [eq_neg_of_add_eq_zero_left (hv i (mem_range.1 hi)), Complex.normSq_eq_conj_mul_self]
    change star (v i) * -((shift : ℂ) * v i) = -((shift : ℂ) * (star (v i) * v i))
    ring
  have h0 := hA v
  rw [e, Complex.neg_re, Complex.ofReal_re] at h0
  have h1 : ∑ i ∈ range P, Complex.normSq (v i) ≤ 0 := by
    by_contra h
    push Not at h
    have := mul_pos hs h
    linarith
  have h2 := (sum_eq_zero_iff_of_nonneg (fun i _ => Complex.normSq_nonneg (v i))).1 (le_antisymm h1 (sum_nonneg fun i _ => Complex.normSq_nonneg _))
  intro i hi
  exact Complex.normSq_eq_zero.1 (h2 i (mem_range.2 hi))

theorem solvableC (os : List (Nat → ℂ)) (P : Nat) (shift : ℝ) (hs : 0 < shift) (f : Nat → ℂ) :
    ∃ x : Nat → ℂ, ∀ i < P, (∑ j ∈ range P, covariance os i j * x j) + (shift : ℂ) * x i = f i := by
  obtain ⟨x, hx⟩ := solvable P (fun i j => covariance os i j + if i = j then (shift : ℂ) else 0) (fun v hv =>
    definiteC P (covariance os) shift hs (cov_form os P) v fun i hi => by rw [← shifted P _ _ v i hi]; exact hv i hi) f
  exact ⟨x, fun i hi => by rw [← shifted P _ _ x i hi]; exact hx i hi⟩

/-- C179: the equation of stochastic reconfiguration has one solution only, for a positive shift. -/
theorem C179_unique (os : List (Nat → ℂ)) (P : Nat) (shift : ℝ) (hs : 0 < shift) (f x y : Nat → ℂ)
    (hx : ∀ i < P, (∑ j ∈ range P, covariance os i j * x j) + (shift : ℂ) * x i = f i)
    (hy : ∀ i < P, (∑ j ∈ range P, covariance os i j * y j) + (shift : ℂ) * y i = f i) : ∀ i < P, x i = y i := by
  have := definiteC P (covariance os) shift hs (cov_form os P) (fun i => x i - y i) (fun i hi => by
    have e : (∑ j ∈ range P, covariance os i j * (x j - y j)) = (∑ j ∈ range P, covariance os i j * x j) - ∑ j ∈ range P, covariance os i j * y j := by
      rw [← sum_sub_distrib]
      exact sum_congr rfl fun j _ => by ring
    rw [e]
    linear_combination hx i hi - hy i hi)
  intro i hi
  exact sub_eq_zero.1 (this i hi)

/-- the same for the real part of the covariance. -/
theorem solvableR (os : List (Nat → ℂ)) (P : Nat) (shift : ℝ) (hs : 0 < shift) (f : Nat → ℝ) :
    ∃ x : Nat → ℝ, ∀ i < P, (∑ j ∈ range P, (covariance os i j).re * x j) + shift * x i = f i := by
  obtain ⟨x, hx⟩ := solvable P (fun i j => (covariance os i j).re + if i = j then shift else 0) (fun v hv => by
    have := definiteC P (fun i j => ((covariance os i j).re : ℂ)) shift hs (fun w => ?_) (fun i => (v i : ℂ)) (fun i hi => by
      have h := hv i hi
      rw [shifted P (fun i j => (covariance os i j).re) shift v i hi] at h
      exact_mod_cast h)
    · intro i hi
      exact_mod_cast this i hi
    · -- the real and the imaginary part of `w` separately
      have h1 := cov_form os P fun i => ((w i).re : ℂ)
      have h2 := cov_form os P fun i => ((w i).im : ℂ)
      have e : (∑ i ∈ range P, star (w i) * ∑ j ∈ range P, ((covariance os i j).re : ℂ) * w j).re
          = (∑ i ∈ range P, star ((w i).re : ℂ) * ∑ j ∈ range P, covariance os i j * ((w j).re : ℂ)).re
            + (∑ i ∈ range P, star ((w i).im : ℂ) * ∑ j ∈ range P, covariance os i j * ((w j).im : ℂ)).re := by
        rw [Complex.re_sum, Complex.re_sum, Complex.re_sum, ← sum_add_distrib]
        refine sum_congr rfl fun i _ => ?_
        simp only [mul_sum]
        rw [Complex.re_sum, Complex.re_sum, Complex.re_sum, ← sum_add_distrib]
        refine sum_congr rfl fun j _ => ?_
        simp [Complex.mul_re, Complex.mul_im]
      rw [e]
      exact add_nonneg h1 h2) f
  exact ⟨x, fun i hi => by rw [← shifted P (fun i j => (covariance os i j).re) shift x i hi]; exact hx i hi⟩

/-- C179: for complex parameters, on every process, the update solves the equation of stochastic reconfiguration `(S + shift) x = f` with the
    covariance `S` of the samples of all processes, with an iterative or a dense solver; the forces of the caller are as before. -/
theorem C179_complex (P : Nat) (sv : Solvers) (G : Good P sv) (s : St) (hc : s.complex = some true) (hp : s.scaleInv = false) (shift : ℝ) (hs : 0 < shift)
    (rs : List Rank) (n : Nat) (h : ∀ r ∈ rs, r.n = n) (me : Nat) (x0 f : Nat → ℂ) :
    ∃ o, (computeUpdate s sv P shift rs me x0 f).2 = .ok o ∧ o.grad = f ∧
      ∀ i < P, (∑ j ∈ range P, covariance (pool rs) i j * o.x j) + (shift : ℂ) * o.x i = f i := by
  obtain ⟨x, hx⟩ := solvableC (pool rs) P shift hs f
  simp only [computeUpdate, hc, updateC]
  by_cases hi : s.iterative = true
  · obtain ⟨a, b⟩ := G.iterC (matvecC P shift (centre rs)) f x0 ⟨x, fun i hi => by rw [C179_operator P shift rs n h]; exact hx i hi⟩
    rw [if_pos hi, if_neg (not_lt.2 a)]
    refine ⟨_, rfl, rfl, fun i hi => ?_⟩
    rw [← C179_operator P shift rs n h]
    exact b i hi
  · rw [if_neg hi]
    have e : preS P false shift (covC (centre rs)) = fun i j => covariance (pool rs) i j + if i = j then (shift : ℂ) else 0 := by
      funext i j
      rw [preS, if_neg Bool.false_ne_true, C179_covariance rs n h]
    have ef : preF false (covC (centre rs)) f = f := by funext i; rw [preF, if_neg Bool.false_ne_true]
    have er : ∀ y, revert false (covC (centre rs)) y = y := fun y => by funext i; rw [revert, if_neg Bool.false_ne_true]
    have sol : ∃ x : Nat → ℂ, ∀ i < P, ∑ j ∈ range P, (covariance (pool rs) i j + if i = j then (shift : ℂ) else 0) * x j = f i :=
      ⟨x, fun i hi => by rw [shifted P _ _ x i hi]; exact hx i hi⟩
    simp only [hp, e, ef, er]
    refine ⟨_, rfl, rfl, fun i hi => ?_⟩
    dsimp only
    by_cases hl : s.lsq = some .cholesky
    · rw [if_pos hl, ← shifted P _ _ _ i hi]
      exact G.chol _ f sol i hi
    · rw [if_neg hl, ← shifted P _ _ _ i hi]
      exact G.lstsqC _ f sol i hi

/-- C179: for real parameters, with an iterative solver on every process, or with a dense solver other than Cholesky in a run of one process, the
    update is real and solves the real part of the equation. -/
theorem C179_real (P : Nat) (sv : Solvers) (G : Good P sv) (s : St) (hc : s.complex = some false) (hp : s.scaleInv = false) (shift : ℝ) (hs : 0 < shift)
    (rs : List Rank) (n : Nat) (h : ∀ r ∈ rs, r.n = n) (me : Nat) (x0 f : Nat → ℂ)
    (hk : s.iterative = true ∨ (s.lsq ≠ some .cholesky ∧ rs.length = 1 ∧ me = 0)) :
    ∃ o, (computeUpdate s sv P shift rs me x0 f).2 = .ok o ∧ o.grad = f ∧ (∀ i, (o.x i).im = 0) ∧
      ∀ i < P, (∑ j ∈ range P, (covariance (pool rs) i j).re * (o.x j).re) + shift * (o.x i).re = (f i).re := by
  obtain ⟨x, hx⟩ := solvableR (pool rs) P shift hs fun i => (f i).re
  simp only [computeUpdate, hc, updateR]
  by_cases hi : s.iterative = true
  · have e : ∀ (v : Nat → ℝ) i, matvecR P shift (centre rs) v i = (∑ j ∈ range P, (covariance (pool rs) i j).re * v j) + shift * v i := by
      intro v i
      rw [matvecR, C179_operator P shift rs n h, Complex.add_re, Complex.re_sum]
      simp [Complex.mul_re]
    obtain ⟨a, b⟩ := G.iterR (matvecR P shift (centre rs)) (fun i => (f i).re) (fun i => (x0 i).re) ⟨x, fun i hi => by rw [e]; exact hx i hi⟩
    rw [if_pos hi, if_neg (not_lt.2 a)]
    refine ⟨_, rfl, rfl, fun i => Complex.ofReal_im _, fun i hi => ?_⟩
    simp only [Complex.ofReal_re]
    rw [← e]
    exact b i hi
  · obtain ⟨hl, h1, h2⟩ := hk.resolve_left hi
    obtain ⟨r, rfl⟩ := List.length_eq_one_iff.1 h1
    subst h2
    have hcov : covR (centre [r]) ((centre [r]).getD 0 ⟨0, fun _ _ => 0⟩) = covariance (pool [r]) := by
      funext i j
      rw [← C179_covariance [r] n h]
      simp [covR, covC, centre]
    rw [if_neg hi, if_neg hl]
    have e : preS P false shift (covariance (pool [r])) = fun i j => covariance (pool [r]) i j + if i = j then (shift : ℂ) else 0 := by
      funext i j
      rw [preS, if_neg Bool.false_ne_true]
    have ef : preF false (covariance (pool [r])) f = f := by funext i; rw [preF, if_neg Bool.false_ne_true]
    have er : ∀ y, revert false (covariance (pool [r])) y = y := fun y => by funext i; rw [revert, if_neg Bool.false_ne_true]
    have ere : (fun i j => (covariance (pool [r]) i j + if i = j then (shift : ℂ) else 0).re)
        = fun i j => (covariance (pool [r]) i j).re + if i = j then shift else 0 := by
      funext i j
      by_cases hij : i = j
      · simp [hij]
      · simp [hij]
    simp only [hcov, hp, e, ef, er, ere]
    refine ⟨_, rfl, rfl, fun i => Complex.ofReal_im _, fun i hi => ?_⟩
    simp only [Complex.ofReal_re]
    rw [← shifted P (fun i j => (covariance (pool [r]) i j).re) shift _ i hi]
    exact G.lstsqR _ (fun i => (f i).re) ⟨x, fun i hi => by rw [shifted P (fun i j => (covariance (pool [r]) i j).re) shift x i hi]; exact hx i hi⟩ i hi

/-- C179: a negative `info` of the iterative solver is a `RuntimeError`. -/
theorem C179_info (P : Nat) (sv : Solvers) (s : St) (shift : ℝ) (rs : List Rank) (me : Nat) (x0 f : Nat → ℂ) (hi : s.iterative = true) :
    (s.complex = some true → (sv.iterC (matvecC P shift (centre rs)) f x0).2 < 0 →
      (computeUpdate s sv P shift rs me x0 f).2 = .error .runtimeError) ∧
    (s.complex = some false → (sv.iterR (matvecR P shift (centre rs)) (fun i => (f i).re) (fun i => (x0 i).re)).2 < 0 →
      (computeUpdate s sv P shift rs me x0 f).2 = .error .runtimeError) := by
  constructor <;> intro hc hn
  · simp only [computeUpdate, hc, updateC]
    rw [if_pos hi, if_pos hn]
  · simp only [computeUpdate, hc, updateR]
    rw [if_pos hi, if_pos hn]

/-- C179: the first guess of the next call is the last solution, with an iterative solver. -/
theorem C179_warm_start (P : Nat) (sv : Solvers) (s : St) (shift : ℝ) (rs : List Rank) (me : Nat) (x0 f : Nat → ℂ) (hi : s.iterative = true) (o : Out)
    (h : (computeUpdate s sv P shift rs me x0 f).2 = .ok o) : o.x0 = o.x := by
  rcases hc : s.complex with _ | _ | _
  · simp only [computeUpdate, hc] at h
    exact absurd h (by simp)
  · simp only [computeUpdate, hc, updateR, hi, if_true] at h
    split at h
    · exact absurd h (by simp)
    · injection h with h
      subst h
      rfl
  · simp only [computeUpdate, hc, updateC, hi, if_true] at h
    split at h
    · exact absurd h (by simp)
    · injection h with h
      subst h
      rfl

/-- two processes with two samples and two parameters, a complex iterative solver, meet the hypotheses. -/
example : ∃ (sv : Solvers) (s : St) (rs : List Rank), Good 2 sv ∧ s.complex = some true ∧ s.scaleInv = false ∧ rs.length = 2 ∧ ∀ r ∈ rs, r.n = 2 := by
  obtain ⟨sv, G⟩ := good_exists 2
  exact ⟨sv, ⟨none, true, some true, false, some .gmres, none, false⟩, [⟨2, fun s k => (s : ℂ) + k⟩, ⟨2, fun s k => (s : ℂ) * k⟩], G, rfl, rfl, rfl, by simp⟩

/-! ## Deviations -/

/-- the system of one parameter. -/
theorem one (sv : Solvers) (G : Good 1 sv) (chol : Bool) (a f : ℂ) (A : Nat → Nat → ℂ) (g : Nat → ℂ) (hA : A 0 0 = a) (hg : g 0 = f) (ha : a ≠ 0) :
    (if chol then sv.chol A g 0 else sv.lstsqC A g 0) = f / a := by
  have sol : ∃ x : Nat → ℂ, ∀ i < 1, ∑ j ∈ range 1, A i j * x j = g i := by
    refine ⟨fun _ => f / a, fun i hi => ?_⟩
    obtain rfl : i = 0 := by omega
    rw [sum_range_one, hA, hg, mul_div_cancel₀ _ ha]
  cases chol
  · have := G.lstsqC A g sol 0 (by omega)
    rw [sum_range_one, hA, hg] at this
    rw [if_neg Bool.false_ne_true, eq_div_iff ha, mul_comm]
    exact this
  · have := G.chol A g sol 0 (by omega)
    rw [sum_range_one, hA, hg] at this
    rw [if_pos rfl, eq_div_iff ha, mul_comm]
    exact this

/-- a state with a dense solver. -/
def dense (chol complex scale : Bool) : St := ⟨if chol then some .cholesky else none, false, some complex, false, none, some .gelsy, scale⟩

/-- C180: with the scale-invariant regularization and one parameter of variance `v`, the code returns `f / (1 + shift·v)`; the regularization of
    Becca and Sorella, `S_ij / √(S_ii S_jj) + shift`, would be `f / (v (1 + shift))`.  The two agree only for `v = 1`, for every force, shift
    and solver. -/
theorem C180_scale_invariant_refuted (sv : Solvers) (G : Good 1 sv) (chol : Bool) (shift : ℝ) (hs : 0 < shift) (rs : List Rank) (n : Nat)
    (h : ∀ r ∈ rs, r.n = n) (me : Nat) (x0 f : Nat → ℂ) (hf : f 0 ≠ 0) (v : ℝ) (hv : covariance (pool rs) 0 0 = (v : ℂ)) (hv0 : 1 / 10 ^ 10 < Real.sqrt v) :
    ∃ o, (computeUpdate (dense chol true true) sv 1 shift rs me x0 f).2 = .ok o ∧ o.x 0 = f 0 / (1 + shift * v) ∧
      (o.x 0 = f 0 / (v * (1 + shift)) ↔ v = 1) := by
  have hpos : (0 : ℝ) < v := by
    rw [← Real.sqrt_pos]
    exact lt_trans (by positivity) hv0
  have hd : diagS (covC (centre rs)) 0 = Real.sqrt v := by
    unfold diagS
    dsimp only
    rw [C179_covariance rs n h, hv, Complex.ofReal_re, if_neg (not_le.2 hv0)]
  have hsq : ((Real.sqrt v : ℝ) : ℂ) * ((Real.sqrt v : ℝ) : ℂ) = (v : ℂ) := by
    rw [← Complex.ofReal_mul, Real.mul_self_sqrt hpos.le]
  have hsv : ((Real.sqrt v : ℝ) : ℂ) ≠ 0 := Complex.ofReal_ne_zero.2 (ne_of_gt (Real.sqrt_pos.2 hpos))
  have hvne : (v : ℂ) ≠ 0 := Complex.ofReal_ne_zero.2 (ne_of_gt hpos)
  have hsh : (1 : ℂ) + shift ≠ 0 := by
    have : (1 : ℝ) + shift ≠ 0 := by linarith
    exact_mod_cast this
  have hden : (1 : ℂ) + shift * v ≠ 0 := by
    have : (1 : ℝ) + shift * v ≠ 0 := by nlinarith [mul_pos hs hpos]
    exact_mod_cast this
  have hA : preS 1 true shift (covC (centre rs)) 0 0 = 1 / (v : ℂ) + shift := by
    unfold preS
    rw [if_pos rfl, if_pos rfl, if_pos rfl, sum_range_one, hd]
    push_cast
    rw [hsq]
  have hg : preF true (covC (centre rs)) f 0 = f 0 / ((Real.sqrt v : ℝ) : ℂ) := by
    unfold preF
    rw [if_pos rfl, hd]
  have hane : 1 / (v : ℂ) + shift ≠ 0 := by
    have : 1 / (v : ℂ) + shift = (1 + shift * v) / v := by field_simp
    rw [this]
    exact div_ne_zero hden hvne
  have key := one sv G chol _ _ _ _ hA hg hane
  have val : (f 0 / ((Real.sqrt v : ℝ) : ℂ)) / (1 / (v : ℂ) + shift) / ((Real.sqrt v : ℝ) : ℂ) = f 0 / (1 + shift * v) := by
    rw [div_div, div_div]
    congr 1
    have : ((Real.sqrt v : ℝ) : ℂ) * (1 / (v : ℂ) + shift) * ((Real.sqrt v : ℝ) : ℂ) = (((Real.sqrt v : ℝ) : ℂ) * ((Real.sqrt v : ℝ) : ℂ)) * (1 / (v : ℂ) + shift) := by ring
    rw [mul_assoc] at this
    rw [this, hsq]
    field_simp
  have hx : ∃ o, (computeUpdate (dense chol true true) sv 1 shift rs me x0 f).2 = .ok o ∧ o.x 0 = f 0 / (1 + shift * v) := by
    cases chol
    · refine ⟨_, rfl, ?_⟩
      rw [if_neg Bool.false_ne_true] at key
      change revert true (covC (centre rs)) _ 0 = _
      unfold revert
      rw [if_pos rfl, hd, ← val, ← key]
      rfl
    · refine ⟨_, rfl, ?_⟩
      rw [if_pos rfl] at key
      change revert true (covC (centre rs)) _ 0 = _
      unfold revert
      rw [if_pos rfl, hd, ← val, ← key]
      rfl
  obtain ⟨o, ho, hx⟩ := hx
  refine ⟨o, ho, hx, ?_⟩
  rw [hx, div_eq_div_iff hden (mul_ne_zero hvne hsh)]
  constructor
  · intro e
    have := mul_left_cancel₀ hf e
    have e2 : ((v * (1 + shift) : ℝ) : ℂ) = ((1 + shift * v : ℝ) : ℂ) := by push_cast; exact this
    have e3 := Complex.ofReal_injective e2
    linarith
  · rintro rfl
    push_cast
    ring

/-- C180: the forces of the caller are changed by that regularization. -/
theorem C180_forces_changed_refuted (sv : Solvers) (P : Nat) (chol complex : Bool) (shift : ℝ) (rs : List Rank) (me : Nat) (x0 f : Nat → ℂ) :
    ∃ o, (computeUpdate (dense chol complex true) sv P shift rs me x0 f).2 = .ok o ∧
      ∀ i, o.grad i = f i / (diagS (if complex then covC (centre rs) else covR (centre rs) ((centre rs).getD me ⟨0, fun _ _ => 0⟩)) i : ℂ) := by
  cases complex
  · refine ⟨_, rfl, fun i => ?_⟩
    change preF true _ f i = _
    rw [preF, if_pos rfl, if_neg Bool.false_ne_true]
  · refine ⟨_, rfl, fun i => ?_⟩
    change preF true _ f i = _
    rw [preF, if_pos rfl, if_pos rfl]

/-- two processes with two samples of one parameter: `1, -1` on the first and `0, 0` on the second. -/
def two : List Rank := [⟨2, fun s _ => if s = 0 then 1 else -1⟩, ⟨2, fun _ _ => 0⟩]

theorem two_mean (k : Nat) : meanOks two k = 0 := by
  simp [two, meanOks, sum_range_succ]

/-- C180: for real parameters and a dense solver, the matrix is not summed over the processes and the result of the broadcast is dropped: with these
    samples the two processes go on with the different updates `2/3` and `1`, where the equation has the solution `2/3`, for every solver. -/
theorem C180_processes_differ_refuted (sv : Solvers) (G : Good 1 sv) (x0 : Nat → ℂ) :
    ∃ a b, (computeUpdate (dense false false false) sv 1 1 two 0 x0 fun _ => 1).2 = .ok a ∧
      (computeUpdate (dense false false false) sv 1 1 two 1 x0 fun _ => 1).2 = .ok b ∧ a.x 0 = 2 / 3 ∧ b.x 0 = 1 ∧ covariance (pool two) 0 0 = 1 / 2 := by
  have m : ∀ k, meanOks two k = 0 := two_mean
  have key : ∀ (A : Nat → Nat → ℝ) (g : Nat → ℝ), A 0 0 ≠ 0 → sv.lstsqR A g 0 = g 0 / A 0 0 := by
    intro A g hA
    have := G.lstsqR A g ⟨fun _ => g 0 / A 0 0, fun i hi => by
      obtain rfl : i = 0 := by omega
      rw [sum_range_one, mul_div_cancel₀ _ hA]⟩ 0 (by omega)
    rw [sum_range_one] at this
    rw [eq_div_iff hA, mul_comm]
    exact this
  refine ⟨_, _, rfl, rfl, ?_, ?_, ?_⟩
  · change revert false (covR (centre two) ((centre two).getD 0 ⟨0, fun _ _ => 0⟩)) _ 0 = _
    rw [revert, if_neg Bool.false_ne_true]
    have hA : (preS 1 false 1 (covR (centre two) ((centre two).getD 0 ⟨0, fun _ _ => 0⟩)) 0 0).re = 3 / 2 := by
      simp [preS, covR, gram, centre, m, nSamp]
      simp [two, sum_range_succ]
      norm_num
    have hg : (preF false (covR (centre two) ((centre two).getD 0 ⟨0, fun _ _ => 0⟩)) (fun _ => 1) 0).re = 1 := by simp [preF]
    have e := key (fun i j => (preS 1 false 1 (covR (centre two) ((centre two).getD 0 ⟨0, fun _ _ => 0⟩)) i j).re)
      (fun i => (preF false (covR (centre two) ((centre two).getD 0 ⟨0, fun _ _ => 0⟩)) (fun _ => 1) i).re) (by rw [hA]; norm_num)
    rw [hA, hg] at e
    refine (congrArg (fun t : ℝ => (t : ℂ)) e).trans ?_
    norm_num
  · change revert false (covR (centre two) ((centre two).getD 1 ⟨0, fun _ _ => 0⟩)) _ 0 = _
    rw [revert, if_neg Bool.false_ne_true]
    have hA : (preS 1 false 1 (covR (centre two) ((centre two).getD 1 ⟨0, fun _ _ => 0⟩)) 0 0).re = 1 := by
      simp [preS, covR, gram, centre, m, nSamp]
      simp [two]
    have hg : (preF false (covR (centre two) ((centre two).getD 1 ⟨0, fun _ _ => 0⟩)) (fun _ => 1) 0).re = 1 := by simp [preF]
    have e := key (fun i j => (preS 1 false 1 (covR (centre two) ((centre two).getD 1 ⟨0, fun _ _ => 0⟩)) i j).re)
      (fun i => (preF false (covR (centre two) ((centre two).getD 1 ⟨0, fun _ _ => 0⟩)) (fun _ => 1) i).re) (by rw [hA]; norm_num)
    rw [hA, hg] at e
    refine (congrArg (fun t : ℝ => (t : ℂ)) e).trans ?_
    norm_num
  · rw [← C179_covariance two 2 (by simp [two])]
    simp [covC, gram, centre, m, nSamp]
    simp [two, sum_range_succ]
    norm_num

/-- two samples of two parameters, `(1, i)` and `(-1, -i)`. -/
def twisted : List Rank := [⟨2, fun s k => (if s = 0 then 1 else -1) * (if k = 0 then 1 else Complex.I)⟩]

/-- C180: for real parameters and the Cholesky solver, the complex system is solved and the imaginary part of its solution is dropped: here the first
    component is `2/3`, where the real part of the equation asks for `1/2`. -/
theorem C180_cholesky_real_refuted (sv : Solvers) (G : Good 2 sv) (x0 : Nat → ℂ) :
    ∃ o, (computeUpdate (dense true false false) sv 2 1 twisted 0 x0 fun i => if i = 0 then 1 else 0).2 = .ok o ∧ o.x 0 = 2 / 3 ∧
      ¬ ∀ i < 2, (∑ j ∈ range 2, (covariance (pool twisted) i j).re * (o.x j).re) + 1 * (o.x i).re = (if i = 0 then 1 else 0) := by
  have m : ∀ k, meanOks twisted k = 0 := by
    intro k
    simp [twisted, meanOks, sum_range_succ]
  have hcov : ∀ i j, covR (centre twisted) ((centre twisted).getD 0 ⟨0, fun _ _ => 0⟩) i j
      = star (if i = 0 then 1 else Complex.I) * (if j = 0 then 1 else Complex.I) := by
    intro i j
    simp [covR, gram, centre, m, nSamp]
    by_cases hi : i = 0 <;> by_cases hj : j = 0 <;> simp [twisted, sum_range_succ, hi, hj] <;> ring_nf <;> simp [Complex.I_sq]
  have hcov' : ∀ i j, covariance (pool twisted) i j = star (if i = 0 then 1 else Complex.I) * (if j = 0 then 1 else Complex.I) := by
    intro i j
    rw [← C179_covariance twisted 2 (by simp [twisted]), ← hcov]
    simp [covR, covC, centre, twisted]
  let A := preS 2 false 1 (covR (centre twisted) ((centre twisted).getD 0 ⟨0, fun _ _ => 0⟩))
  let g := preF false (covR (centre twisted) ((centre twisted).getD 0 ⟨0, fun _ _ => 0⟩)) (fun i => if i = 0 then 1 else 0)
  have hA : A 0 0 = 2 ∧ A 0 1 = Complex.I ∧ A 1 0 = -Complex.I ∧ A 1 1 = 2 := by
    refine ⟨?_, ?_, ?_, ?_⟩ <;> simp only [A, preS, hcov] <;> simp <;> norm_num
  have hg : g 0 = 1 ∧ g 1 = 0 := by
    constructor <;> simp [g, preF]
  have sol : ∃ x : Nat → ℂ, ∀ i < 2, ∑ j ∈ range 2, A i j * x j = g i := by
    refine ⟨fun i => if i = 0 then 2 / 3 else Complex.I / 3, fun i hi => ?_⟩
    obtain rfl | rfl : i = 0 ∨ i = 1 := by omega
    · rw [sum_range_succ, sum_range_one, hA.1, hA.2.1, hg.1]
      simp only [if_true, one_ne_zero, if_false]
      linear_combination (1 / 3 : ℂ) * Complex.I_mul_I
    · rw [sum_range_succ, sum_range_one, hA.2.2.1, hA.2.2.2, hg.2]
      simp only [if_true, one_ne_zero, if_false]
      ring
  have e0 := G.chol A g sol 0 (by omega)
  have e1 := G.chol A g sol 1 (by omega)
  rw [sum_range_succ, sum_range_one, hA.1, hA.2.1, hg.1] at e0
  rw [sum_range_succ, sum_range_one, hA.2.2.1, hA.2.2.2, hg.2] at e1
  have hy : sv.chol A g 0 = 2 / 3 := by
    linear_combination (2 / 3 : ℂ) * e0 - (Complex.I / 3) * e1 - (1 / 3 : ℂ) * sv.chol A g 0 * Complex.I_mul_I
  have hx0 : ∃ o, (computeUpdate (dense true false false) sv 2 1 twisted 0 x0 fun i => if i = 0 then 1 else 0).2 = .ok o ∧
      ∀ i, o.x i = ((sv.chol A g i).re : ℂ) := by
    refine ⟨_, rfl, fun i => ?_⟩
    change revert false (covR (centre twisted) ((centre twisted).getD 0 ⟨0, fun _ _ => 0⟩)) _ i = _
    rw [revert, if_neg Bool.false_ne_true]
    rfl
  obtain ⟨o, ho, hx⟩ := hx0
  have h0 : o.x 0 = 2 / 3 := by
    rw [hx, hy]
    norm_num
  refine ⟨o, ho, h0, fun hall => ?_⟩
  have := hall 0 (by omega)
  rw [sum_range_succ, sum_range_one, h0] at this
  simp only [hcov'] at this
  norm_num at this

/-- one sample `0` on the first process, two samples `1, 1` on the second. -/
def unequal : List Rank := [⟨1, fun _ _ => 0⟩, ⟨2, fun _ _ => 1⟩]

/-- C180: if the processes have different numbers of samples, the mean of the means is not the mean: here the matrix is `1/4` and the covariance is
    `2/9`. -/
theorem C180_unequal_samples_refuted : covC (centre unequal) 0 0 = 1 / 4 ∧ covariance (pool unequal) 0 0 = 2 / 9 := by
  constructor
  · have m : meanOks unequal 0 = 1 / 2 := by
      simp [unequal, meanOks]
    simp only [covC, nSamp_centre]
    simp only [centre, List.map_map, gram, Function.comp_def, m]
    simp [unequal, nSamp]
    norm_num
  · have a : average ((pool unequal).map fun o => o 0) = 2 / 3 := by
      simp [pool, unequal, average, List.range_succ]
      norm_num
    unfold covariance
    rw [a]
    simp [pool, unequal, average, List.range_succ]
    norm_num

/-- C180: without a machine the update is a `ValueError`, but the log-derivatives of the caller have been centred. -/
theorem C180_uninitialised_refuted (s : St) (hc : s.complex = none) (sv : Solvers) (P : Nat) (shift : ℝ) (rs : List Rank) (me : Nat) (x0 f : Nat → ℂ) :
    (computeUpdate s sv P shift rs me x0 f).2 = .error .valueError ∧ (computeUpdate s sv P shift rs me x0 f).1 = centre rs ∧
      (∃ rs : List Rank, ∃ r ∈ rs, ∃ r' ∈ centre rs, r.n = r'.n ∧ r.o 0 0 ≠ r'.o 0 0) := by
  refine ⟨by simp only [computeUpdate, hc], rfl, [⟨1, fun _ _ => 1⟩], _, List.mem_singleton.2 rfl, ?_⟩
  refine ⟨⟨1, fun s k => (1 : ℂ) - meanOks [⟨1, fun _ _ => 1⟩] k⟩, List.mem_map.2 ⟨_, List.mem_singleton.2 rfl, rfl⟩, rfl, ?_⟩
  simp [meanOks]

/-- C180: `repr` of a dense `SR` with default solver or with a threshold is a `TypeError`, and that of an iterative one says `CG` whatever the solver is. -/
theorem C180_repr_refuted (s : St) :
    (s.iterative = false → s.lsq = none → reprText s = .error .typeError) ∧
    (s.iterative = false → s.threshold = true → reprText s = .error .typeError) ∧
    (s.iterative = true → reprText s = .ok none) := by
  refine ⟨fun h1 h2 => ?_, fun h1 h2 => ?_, fun h1 => ?_⟩
  · simp [reprText, h1, h2]
  · unfold reprText
    rw [if_neg (by rw [h1]; exact Bool.false_ne_true)]
    cases s.lsq <;> simp [h2]
  · simp [reprText, h1]

/-- C180 (partial): without that regularization the forces are as before; missing: they are changed with it. -/
theorem C180_forces_partial (sv : Solvers) (P : Nat) (s : St) (hp : s.scaleInv = false) (shift : ℝ) (rs : List Rank) (me : Nat) (x0 f : Nat → ℂ) (o : Out)
    (h : (computeUpdate s sv P shift rs me x0 f).2 = .ok o) : o.grad = f := by
  rcases hc : s.complex with _ | _ | _
  · simp only [computeUpdate, hc] at h
    exact absurd h (by simp)
  · simp only [computeUpdate, hc, updateR, hp] at h
    split at h
    · split at h
      · exact absurd h (by simp)
      · injection h with h
        subst h
        rfl
    · injection h with h
      subst h
      funext i
      simp [preF]
  · simp only [computeUpdate, hc, updateC, hp] at h
    split at h
    · split at h
      · exact absurd h (by simp)
      · injection h with h
        subst h
        rfl
    · injection h with h
      subst h
      funext i
      simp [preF]

/-- the two samples `2, -2` have variance `4`, so the regularization is not that of Becca and Sorella. -/
example : covariance (pool [⟨2, fun s _ => if s = 0 then 2 else -2⟩]) 0 0 = ((4 : ℝ) : ℂ) ∧ 1 / 10 ^ 10 < Real.sqrt 4 := by
  constructor
  · simp [covariance, average, pool, List.range_succ]
    rw [show (2 : ℂ) = ((2 : ℝ) : ℂ) by norm_num, Complex.conj_ofReal]
    norm_num
  · rw [show (4 : ℝ) = 2 ^ 2 by norm_num, Real.sqrt_sq (by norm_num)]
    norm_num

/-! cases for the remaining theorems -/

/-- solvers which solve their equations. -/
noncomputable def exSv (P : Nat) : Solvers := (good_exists P).choose

theorem exSv_good (P : Nat) : Good P (exSv P) := (good_exists P).choose_spec

/-- two processes with two samples each. -/
noncomputable def exRanks : List Rank := [⟨2, fun s k => (s : ℂ) + k⟩, ⟨2, fun s k => (s : ℂ) * k⟩]

example := C179_complex 2 (exSv 2) (exSv_good 2) ⟨none, true, some true, false, some .gmres, none, false⟩ rfl rfl (1 / 100) (by norm_num) exRanks 2
  (by simp [exRanks]) 0 (fun _ => 0) (fun k => k)

example := C179_real 2 (exSv 2) (exSv_good 2) ⟨none, true, some false, false, some .minres, none, false⟩ rfl rfl (1 / 100) (by norm_num) exRanks 2
  (by simp [exRanks]) 0 (fun _ => 0) (fun k => k) (Or.inl rfl)

example := C179_info 2 (exSv 2) ⟨none, true, some false, false, some .minres, none, false⟩ (1 / 100) exRanks 0 (fun _ => 0) (fun k => k) rfl

example := C180_processes_differ_refuted (exSv 1) (exSv_good 1) (fun _ => 0)

example := C180_cholesky_real_refuted (exSv 2) (exSv_good 2) (fun _ => 0)

example := C180_uninitialised_refuted ⟨none, true, none, false, none, none, false⟩ rfl (exSv 2) 2 (1 / 100) exRanks 0 (fun _ => 0) (fun k => k)

example := C180_scale_invariant_refuted (exSv 1) (exSv_good 1) true (1 / 100) (by norm_num) [⟨2, fun s _ => if s = 0 then 2 else -2⟩] 2 (by simp) 0 (fun _ => 0)
  (fun _ => 1) one_ne_zero 4 (by
    simp [covariance, average, pool, List.range_succ]
    rw [show (2 : ℂ) = ((2 : ℝ) : ℂ) by norm_num, Complex.conj_ofReal]
    norm_num) (by
    rw [show (4 : ℝ) = 2 ^ 2 by norm_num, Real.sqrt_sq (by norm_num)]
    norm_num)

end Verif.LegacySR

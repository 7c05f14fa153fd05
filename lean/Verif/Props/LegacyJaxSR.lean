import Verif.Props.QGT
import Verif.Model.LegacyJax
import Verif.Spec.LegacyJax
import Mathlib.Tactic.NormNum
import Mathlib.Tactic.FieldSimp

/-! C206, C207: derivatives, parameters and stochastic reconfiguration of the jax machines of `netket.legacy`. -/

namespace Verif.LegacyJax
open Verif.Hilbert (Err)
open Verif.LegacyJaxSpec
open Finset

/-! ## Vector-Jacobian products -/

theorem split_re_im (z : ℂ) : z = (z.re : ℂ) + Complex.I * (z.im : ℂ) := by
  conv_lhs => rw [← Complex.re_add_im z]
  ring

theorem star_split (z : ℂ) : star z = (z.re : ℂ) - Complex.I * (z.im : ℂ) := by
  apply Complex.ext <;> simp

/-- C206: `vector_jacobian_prod` for complex parameters: `∑ v^* J`, and its complex conjugate with `conjugate=True`. -/
theorem C206_vjp_complex (ns : Nat) (J : Nat → Nat → ℂ) (vec : Nat → ℂ) (k : Nat) :
    vjpCC ns J vec true k = ∑ s ∈ range ns, star (J s k) * vec s
    ∧ vjpCC ns J vec false k = ∑ s ∈ range ns, J s k * star (vec s) := by
  unfold vjpCC
  constructor
  · simp only [if_true, star_sum, star_mul', star_star]
    exact sum_congr rfl fun s _ => mul_comm _ _
  · simp only [Bool.false_eq_true, if_false]
    exact sum_congr rfl fun s _ => mul_comm _ _

/-- C206: the same for real parameters and a complex function, whose Jacobian is `Jr + i Ji`. -/
theorem C206_vjp_real_complex (ns : Nat) (Jr Ji : Nat → Nat → ℝ) (vec : Nat → ℂ) (k : Nat) :
    vjpRC ns Jr Ji vec true k = ∑ s ∈ range ns, star (gradRC Jr Ji s k) * vec s
    ∧ vjpRC ns Jr Ji vec false k = ∑ s ∈ range ns, gradRC Jr Ji s k * star (vec s) := by
  have e : vjpRC ns Jr Ji vec false k = ∑ s ∈ range ns, gradRC Jr Ji s k * star (vec s) := by
    unfold vjpRC gradRC
    simp only [Bool.false_eq_true, if_false]
    push_cast
    simp only [mul_sum, ← sum_sub_distrib, ← sum_add_distrib]
    refine sum_congr rfl fun s _ => ?_
    rw [star_split (vec s)]
    ring
  refine ⟨?_, e⟩
  have h : vjpRC ns Jr Ji vec true k = star (vjpRC ns Jr Ji vec false k) := by
    unfold vjpRC; simp
  rw [h, e, star_sum]
  exact sum_congr rfl fun s _ => by rw [star_mul', star_star]

/-- C206: the same for real parameters and a real function. -/
theorem C206_vjp_real (ns : Nat) (J : Nat → Nat → ℝ) (vec : Nat → ℂ) (k : Nat) :
    vjpRR ns J vec true k = ∑ s ∈ range ns, (J s k : ℂ) * vec s
    ∧ vjpRR ns J vec false k = ∑ s ∈ range ns, (J s k : ℂ) * star (vec s) := by
  unfold vjpRR
  simp only [if_true, Bool.false_eq_true, if_false]
  push_cast
  constructor
  · rw [mul_sum, ← sum_sub_distrib]
    refine sum_congr rfl fun s _ => ?_
    rw [split_re_im (vec s)]; simp; ring
  · rw [mul_sum, ← sum_add_distrib]
    refine sum_congr rfl fun s _ => ?_
    rw [star_split (vec s)]; ring

/-- C206: with `return_jacobian=True` the product is the same, for complex parameters and both values of `conjugate`, and for real parameters with
    `conjugate=False`. -/
theorem C206_vjp_jacobian (ns : Nat) (J : Nat → Nat → ℂ) (Jr Ji : Nat → Nat → ℝ) (vec : Nat → ℂ) (conj : Bool) (k : Nat) :
    vjpWithJacobian true ns J vec conj k = vjpCC ns J vec conj k
    ∧ vjpWithJacobian false ns (gradRC Jr Ji) vec false k = vjpRC ns Jr Ji vec false k := by
  constructor
  · unfold vjpWithJacobian
    cases conj
    · rw [(C206_vjp_complex ns J vec k).2]
      simp only [Bool.false_eq_true, false_and, if_false]
      exact sum_congr rfl fun s _ => mul_comm _ _
    · rw [(C206_vjp_complex ns J vec k).1]
      simp only [and_self, if_true]
      exact sum_congr rfl fun s _ => mul_comm _ _
  · rw [(C206_vjp_real_complex ns Jr Ji vec k).2]
    unfold vjpWithJacobian
    simp only [Bool.false_eq_true, false_and, if_false]
    exact sum_congr rfl fun s _ => mul_comm _ _

/-- C207: for real parameters, `conjugate=True` and `return_jacobian=True` the product is the complex conjugate of the one returned without the
    Jacobian. They differ unless it is real. -/
theorem C207_vjp_jacobian_refuted (ns : Nat) (Jr Ji : Nat → Nat → ℝ) (vec : Nat → ℂ) (k : Nat) :
    vjpWithJacobian false ns (gradRC Jr Ji) vec true k = star (vjpRC ns Jr Ji vec true k)
    ∧ (vjpWithJacobian false ns (gradRC Jr Ji) vec true k = vjpRC ns Jr Ji vec true k ↔ (vjpRC ns Jr Ji vec true k).im = 0) := by
  have e : vjpWithJacobian false ns (gradRC Jr Ji) vec true k = star (vjpRC ns Jr Ji vec true k) := by
    rw [(C206_vjp_real_complex ns Jr Ji vec k).1, star_sum]
    unfold vjpWithJacobian
    simp only [Bool.false_eq_true, and_false, if_false]
    exact sum_congr rfl fun s _ => by rw [star_mul', star_star, mul_comm]
  refine ⟨e, ?_⟩
  rw [e]
  exact Complex.conj_eq_iff_im

/-- one sample, one parameter, derivative 1, vector `i`: the two calls return `-i` and `i`. -/
example : vjpWithJacobian false 1 (gradRC (fun _ _ => 1) fun _ _ => 0) (fun _ => Complex.I) true 0 = -Complex.I
    ∧ vjpRC 1 (fun _ _ => 1) (fun _ _ => 0) (fun _ => Complex.I) true 0 = Complex.I := by
  constructor
  · simp [vjpWithJacobian, gradRC]
  · rw [(C206_vjp_real_complex 1 _ _ _ 0).1]; simp [gradRC]

/-- C206: which derivative is taken; complex parameters with a real function are refused. -/
theorem C206_kind : kindOf true true = .ok .cc ∧ kindOf false true = .ok .rc ∧ kindOf false false = .ok .rr
    ∧ kindOf true false = .error .runtimeError
    ∧ ∀ p o, (∃ e, kindOf p o = .error e) ↔ p = true ∧ o = false := by
  refine ⟨rfl, rfl, rfl, rfl, fun p o => ?_⟩
  cases p <;> cases o <;> simp [kindOf]

/-! ## Parameters -/

theorem flatten_length {α : Type} (t : List (Leaf α)) (h : ∀ l ∈ t, l.Valid) : (numpyFlatten t).length = treeSize t := by
  induction t with
  | nil => rfl
  | cons a r ih =>
    unfold numpyFlatten treeSize at *
    rw [List.flatMap_cons, List.length_append, ih fun l hl => h l (by simp [hl]), List.map_cons, List.sum_cons]
    rw [h a (by simp)]

/-- what `numpy_unflatten` returns for the flattened leaves followed by anything. -/
theorem unflatten_flatten {α : Type} (t : List (Leaf α)) (h : ∀ l ∈ t, l.Valid) (rest : List α) :
    numpyUnflatten (numpyFlatten t ++ rest) t = .ok t := by
  induction t with
  | nil => rfl
  | cons a r ih =>
    have ha := h a (by simp)
    unfold Leaf.Valid at ha
    have e : numpyFlatten (a :: r) ++ rest = a.data ++ (numpyFlatten r ++ rest) := by
      unfold numpyFlatten; rw [List.flatMap_cons, List.append_assoc]
    have ih' := ih fun l hl => h l (by simp [hl])
    unfold numpyUnflatten
    rw [e, ← ha, List.take_left, List.drop_left, if_pos rfl, ih']
    simp only [Except.map]

/-- C206: `numpy_unflatten` inverts `numpy_flatten`, for all pytrees of arrays. -/
theorem C206_flatten {α : Type} (t : List (Leaf α)) (h : ∀ l ∈ t, l.Valid) :
    (numpyFlatten t).length = treeSize t ∧ numpyUnflatten (numpyFlatten t) t = .ok t := by
  refine ⟨flatten_length t h, ?_⟩
  have := unflatten_flatten t h []
  rwa [List.append_nil] at this

theorem unflatten_ok {α : Type} (data : List α) (t : List (Leaf α)) (h : treeSize t = data.length) :
    ∃ u, numpyUnflatten data t = .ok u ∧ numpyFlatten u = data ∧ (∀ l ∈ u, l.Valid) ∧ u.map (fun l => l.shape) = t.map fun l => l.shape := by
  induction t generalizing data with
  | nil =>
    refine ⟨[], rfl, ?_, by simp, rfl⟩
    unfold treeSize at h
    simp at h
    unfold numpyFlatten
    rw [List.eq_nil_of_length_eq_zero h.symm]; rfl
  | cons a r ih =>
    unfold treeSize at h
    rw [List.map_cons, List.sum_cons] at h
    have hl : (data.take a.shape.prod).length = a.shape.prod := by rw [List.length_take]; omega
    obtain ⟨u, hu, h1, h2, h3⟩ := ih (data.drop a.shape.prod) (by unfold treeSize; rw [List.length_drop]; omega)
    refine ⟨⟨a.shape, data.take a.shape.prod⟩ :: u, ?_, ?_, ?_, ?_⟩
    · unfold numpyUnflatten; rw [if_pos hl, hu]; rfl
    · have : numpyFlatten (⟨a.shape, data.take a.shape.prod⟩ :: u) = data.take a.shape.prod ++ numpyFlatten u := by
        unfold numpyFlatten; rw [List.flatMap_cons]
      rw [this, h1, List.take_append_drop]
    · intro l hm
      rcases List.mem_cons.1 hm with rfl | hm
      · exact hl
      · exact h2 l hm
    · rw [List.map_cons, List.map_cons, h3]

/-- C206: every vector of the right length is a vector of parameters: it is accepted and read back unchanged. -/
theorem C206_unflatten {α : Type} (data : List α) (old : List (Leaf α)) (h : treeSize old = data.length) :
    ∃ u, numpyUnflatten data old = .ok u ∧ numpyFlatten u = data ∧ u.map (fun l => l.shape) = old.map (fun l => l.shape)
      ∧ setParams (treeSize old) old u = (u, none) := by
  obtain ⟨u, h1, h2, _, h4⟩ := unflatten_ok data old h
  refine ⟨u, h1, h2, h4, ?_⟩
  have : treeSize u = treeSize old := by
    unfold treeSize
    have e : ∀ t : List (Leaf α), t.map (fun l => l.shape.prod) = (t.map fun l => l.shape).map List.prod := fun t => by rw [List.map_map]; rfl
    rw [e, e, h4]
  unfold setParams
  rw [if_pos this]

/-- weights and bias of one hidden unit with two inputs. -/
example : ∃ old : List (Leaf Nat), (∀ l ∈ old, l.Valid) ∧ treeSize old = [7, 8, 9].length := by
  refine ⟨[⟨[2, 1], [1, 2]⟩, ⟨[1], [3]⟩], ?_, rfl⟩
  intro l hl
  rcases List.mem_cons.1 hl with rfl | hl
  · rfl
  · rcases List.mem_cons.1 hl with rfl | hl
    · rfl
    · simp at hl

/-- C206: parameters of another total size are refused, and the old ones stay. -/
theorem C206_set_refused {α : Type} (n : Nat) (old p : List (Leaf α)) (h : treeSize p ≠ n) : setParams n old p = (old, some .assertionError) := by
  unfold setParams; rw [if_neg h]

/-- C207: a vector that is too long is not refused: what remains is ignored. -/
theorem C207_unflatten_refuted {α : Type} (t : List (Leaf α)) (h : ∀ l ∈ t, l.Valid) (rest : List α) :
    numpyUnflatten (numpyFlatten t ++ rest) t = .ok t := unflatten_flatten t h rest

/-- C207, the part that holds: a vector that is too short is refused. -/
theorem C207_unflatten_partial {α : Type} (t : List (Leaf α)) (data : List α) (h : data.length < treeSize t) :
    numpyUnflatten data t = .error .typeError := by
  induction t generalizing data with
  | nil => unfold treeSize at h; simp at h
  | cons a r ih =>
    unfold treeSize at h
    rw [List.map_cons, List.sum_cons] at h
    unfold numpyUnflatten
    split_ifs with hl
    · rw [ih]
      · rfl
      · unfold treeSize; rw [List.length_drop]; rw [List.length_take] at hl; omega
    · rfl

/-- C206: networks with one output are accepted, others refused with ValueError. -/
theorem C206_output (shape : List Int) : checkOutput shape = if shape = [-1, 1] ∨ shape = [-1] then .ok () else .error .valueError := by
  unfold checkOutput
  by_cases h1 : shape = [-1, 1] <;> by_cases h2 : shape = [-1] <;> simp [h1, h2]

/-- C206: modules of a registered package are wrapped by the first wrapper whose condition they meet; others are used as they are. -/
theorem C206_wrap {M : Type} (pre post : List ((M → Bool) × (M → M))) (c : M → Bool) (w : M → M) (m : M) (h : ∀ q ∈ pre, q.1 m = false) :
    maybeWrap pre m = m ∧ (c m = true → maybeWrap (pre ++ (c, w) :: post) m = w m) := by
  induction pre with
  | nil => exact ⟨rfl, fun hc => by simp [maybeWrap, hc]⟩
  | cons q r ih =>
    obtain ⟨h1, h2⟩ := ih fun q' hq => h q' (by simp [hq])
    have hq := h q (by simp)
    refine ⟨?_, fun hc => ?_⟩
    · unfold maybeWrap; simp [hq, h1]
    · rw [List.cons_append]; unfold maybeWrap; simp [hq, h2 hc]

/-! ## Stochastic reconfiguration -/

theorem mean_def (R ns : Nat) (f : Nat → Nat → ℂ) : mean R ns f = (∑ r ∈ range R, ∑ s ∈ range ns, f r s) * (1 / ((ns : ℂ) * (R : ℂ))) := by
  unfold mean; rw [mul_comm (R : ℂ)]; ring

theorem mean_sum (R ns np : Nat) (f : Nat → Nat → Nat → ℂ) (v : Nat → ℂ) :
    mean R ns (fun r s => ∑ l ∈ range np, f l r s * v l) = ∑ l ∈ range np, mean R ns (f l) * v l := by
  simp only [mean_def]
  have : ∑ r ∈ range R, ∑ s ∈ range ns, ∑ l ∈ range np, f l r s * v l = ∑ l ∈ range np, (∑ r ∈ range R, ∑ s ∈ range ns, f l r s) * v l := by
    rw [sum_congr rfl fun r _ => sum_comm, sum_comm]
    refine sum_congr rfl fun l _ => ?_
    rw [sum_mul]
    exact sum_congr rfl fun r _ => by rw [sum_mul]
  rw [this, sum_mul]
  exact sum_congr rfl fun l _ => by ring

theorem mean_add (R ns : Nat) (f g : Nat → Nat → ℂ) : mean R ns (fun r s => f r s + g r s) = mean R ns f + mean R ns g := by
  unfold mean
  rw [← add_div, ← sum_add_distrib]
  congr 1
  exact sum_congr rfl fun r _ => sum_add_distrib

theorem mean_mul_const (R ns : Nat) (f : Nat → Nat → ℂ) (c : ℂ) : mean R ns (fun r s => f r s * c) = mean R ns f * c := by
  unfold mean
  have : ∑ r ∈ range R, ∑ s ∈ range ns, f r s * c = (∑ r ∈ range R, ∑ s ∈ range ns, f r s) * c := by
    rw [sum_mul]; exact sum_congr rfl fun r _ => by rw [sum_mul]
  rw [this]; ring

theorem mean_star (R ns : Nat) (f : Nat → Nat → ℂ) : mean R ns (fun r s => star (f r s)) = star (mean R ns f) := by
  unfold mean
  rw [star_div₀, star_mul', star_sum, star_natCast, star_natCast]
  congr 1
  exact sum_congr rfl fun r _ => by rw [star_sum]

/-- the product of the adjoint with vectors from which a number is subtracted. -/
theorem adjoint_core (R ns np : Nat) (O : Nat → Nat → Nat → ℂ) (v : Nat → ℂ) (m : ℂ) (k : Nat) :
    mean R ns (fun r s => star (O r s k) * (∑ l ∈ range np, O r s l * v l - m))
      = ∑ l ∈ range np, covariance R ns O k l * v l
        + star (mean R ns fun r s => O r s k) * (∑ l ∈ range np, (mean R ns fun r s => O r s l) * v l - m) := by
  have e : mean R ns (fun r s => star (O r s k) * (∑ l ∈ range np, O r s l * v l - m))
      = mean R ns (fun r s => ∑ l ∈ range np, (star (O r s k) * O r s l) * v l) + mean R ns (fun r s => star (O r s k) * -m) := by
    rw [← mean_add]
    congr 1
    funext r s
    rw [mul_sub, mul_sum, sub_eq_add_neg, mul_neg]
    congr 1
    exact sum_congr rfl fun l _ => by ring
  rw [e, mean_sum R ns np (fun l r s => star (O r s k) * O r s l) v, mean_mul_const, mean_star]
  unfold covariance
  simp only [sub_mul, sum_sub_distrib, mul_sub, mul_sum]
  have : ∑ l ∈ range np, star (mean R ns fun r s => O r s k) * (mean R ns fun r s => O r s l) * v l
      = ∑ l ∈ range np, star (mean R ns fun r s => O r s k) * ((mean R ns fun r s => O r s l) * v l) := sum_congr rfl fun l _ => by ring
  rw [this]
  ring

theorem sum_mean (R ns : Nat) (f g : Nat → Nat → ℂ) :
    ∑ r ∈ range R, ∑ s ∈ range ns, f r s * (g r s * (1 / ((ns : ℂ) * (R : ℂ)))) = mean R ns fun r s => f r s * g r s := by
  rw [mean_def, sum_mul]
  refine sum_congr rfl fun r _ => ?_
  rw [sum_mul]
  exact sum_congr rfl fun s _ => by ring

theorem vjp_holo (ns : Nat) (J : QGT.Jac) (hJ : QGT.IsHolo J) (w : Nat → ℂ) (k : Nat) : QGT.vjp ns J w k = ∑ s ∈ range ns, w s * J.re s k := by
  unfold QGT.vjp
  have : ∑ s ∈ range ns, w s * J.im s k = Complex.I * ∑ s ∈ range ns, w s * J.re s k := by
    rw [mul_sum]; exact sum_congr rfl fun s _ => by rw [hJ s k]; ring
  rw [this]
  generalize ∑ s ∈ range ns, w s * J.re s k = z
  apply Complex.ext <;> simp

/-- C206: on-the-fly product with the S matrix for machines that are holomorphic in their complex parameters: the covariance matrix of the
    derivatives over the samples of all processes, plus the shift. -/
theorem C206_sr_holomorphic (R ns np : Nat) (J : Ranks) (hJ : ∀ r, QGT.IsHolo (J r)) (shift : ℝ) (v : Nat → ℂ) (k : Nat) :
    matVec R ns np J (fun _ => false) shift v k
      = shift * v k + ∑ l ∈ range np, covariance R ns (fun r s l => (J r).re s l) k l * v l := by
  have hm : oMeanV R ns np J v = ∑ l ∈ range np, (mean R ns fun r s => (J r).re s l) * v l := by
    unfold oMeanV oMean
    rw [← mean_sum R ns np (fun l r s => (J r).re s l) v]
    have h1 : ∀ r, ∑ k ∈ range np, QGT.vjp ns (J r) (fun _ => 1 / ((ns : ℂ) * (R : ℂ))) k * v k
        = ∑ s ∈ range ns, ∑ l ∈ range np, (J r).re s l * v l * (1 / ((ns : ℂ) * (R : ℂ))) := by
      intro r
      rw [sum_comm]
      refine sum_congr rfl fun l _ => ?_
      rw [vjp_holo ns (J r) (hJ r), sum_mul]
      exact sum_congr rfl fun s _ => by ring
    rw [sum_congr rfl fun r _ => h1 r, mean_def, sum_mul]
    refine sum_congr rfl fun r _ => ?_
    rw [sum_mul]
    exact sum_congr rfl fun s _ => by rw [sum_mul]
  unfold matVec ohw
  simp only [Bool.false_eq_true, if_false]
  congr 1
  have h2 : star (∑ r ∈ range R, QGT.vjp ns (J r) (fun s => star (vTilde R ns np J v r s)) k)
      = ∑ r ∈ range R, ∑ s ∈ range ns, star ((J r).re s k) * ((QGT.jvp np (J r) v s - oMeanV R ns np J v) * (1 / ((ns : ℂ) * (R : ℂ)))) := by
    rw [star_sum]
    refine sum_congr rfl fun r _ => ?_
    rw [vjp_holo ns (J r) (hJ r), star_sum]
    refine sum_congr rfl fun s _ => ?_
    rw [star_mul', star_star, mul_comm]
    rfl
  rw [h2, sum_mean R ns (fun r s => star ((J r).re s k)) fun r s => QGT.jvp np (J r) v s - oMeanV R ns np J v]
  have h3 : (fun r s => star ((J r).re s k) * (QGT.jvp np (J r) v s - oMeanV R ns np J v))
      = fun r s => star ((J r).re s k) * (∑ l ∈ range np, (J r).re s l * v l - oMeanV R ns np J v) := by
    funext r s; rw [QGT.jvp_holo np (J r) (hJ r)]
  rw [h3, adjoint_core R ns np (fun r s l => (J r).re s l) v _ k, hm, sub_self, mul_zero, add_zero]

/-- two processes with two samples each, one complex parameter: a holomorphic function whose S matrix is not zero. -/
example : ∃ J : Ranks, (∀ r, QGT.IsHolo (J r)) ∧ covariance 2 2 (fun r s l => (J r).re s l) 0 0 = 1 := by
  refine ⟨fun r => ⟨fun _ _ => if r = 0 then 1 else -1, fun _ _ => Complex.I * if r = 0 then 1 else -1⟩, fun r s k => rfl, ?_⟩
  simp [covariance, mean, sum_range_succ]
  norm_num

theorem vjp_realParam (ns : Nat) (J : QGT.Jac) (hJ : ∀ s k, J.im s k = 0) (w : Nat → ℂ) (k : Nat) :
    QGT.vjp ns J w k = (((∑ s ∈ range ns, w s * J.re s k).re : ℝ) : ℂ) := by
  unfold QGT.vjp
  simp [hJ]

/-- the on-the-fly product for real parameters, whatever the output is. -/
theorem matVec_real (R ns np : Nat) (J : Ranks) (hJ : ∀ r s k, (J r).im s k = 0) (shift : ℝ) (v : Nat → ℝ) (k : Nat) :
    matVec R ns np J (fun _ => true) shift (fun l => (v l : ℂ)) k
      = ((shift * v k + ∑ l ∈ range np, (covariance R ns (fun r s l => (J r).re s l) k l).re * v l
          + (mean R ns fun r s => (J r).re s k).im * ∑ l ∈ range np, (mean R ns fun r s => (J r).re s l).im * v l : ℝ) : ℂ) := by
  have hm : oMeanV R ns np J (fun l => (v l : ℂ)) = ((∑ l ∈ range np, (mean R ns fun r s => (J r).re s l).re * v l : ℝ) : ℂ) := by
    unfold oMeanV oMean
    rw [sum_comm]
    push_cast
    refine sum_congr rfl fun l _ => ?_
    rw [← sum_mul]
    congr 1
    rw [sum_congr rfl fun r _ => vjp_realParam ns (J r) (hJ r) _ l, ← Complex.ofReal_sum, ← Complex.re_sum, mean_def, sum_mul]
    congr 2
    refine sum_congr rfl fun r _ => ?_
    rw [sum_mul]
    exact sum_congr rfl fun s _ => mul_comm _ _
  have hj : ∀ r s, QGT.jvp np (J r) (fun l => (v l : ℂ)) s = ∑ l ∈ range np, (J r).re s l * (v l : ℂ) := by
    intro r s
    unfold QGT.jvp
    exact sum_congr rfl fun l _ => by rw [hJ]; simp
  unfold matVec ohw
  simp only [if_true]
  have h2 : ∑ r ∈ range R, QGT.vjp ns (J r) (fun s => star (vTilde R ns np J (fun l => (v l : ℂ)) r s)) k
      = (((mean R ns fun r s => star ((J r).re s k) * (∑ l ∈ range np, (J r).re s l * (v l : ℂ) - oMeanV R ns np J fun l => (v l : ℂ))).re : ℝ) : ℂ) := by
    rw [sum_congr rfl fun r _ => vjp_realParam ns (J r) (hJ r) _ k, ← Complex.ofReal_sum, ← Complex.re_sum]
    congr 1
    rw [← Complex.conj_re]
    congr 1
    show star _ = _
    rw [star_sum, ← sum_mean R ns (fun r s => star ((J r).re s k)) fun r s => ∑ l ∈ range np, (J r).re s l * (v l : ℂ) - oMeanV R ns np J fun l => (v l : ℂ)]
    refine sum_congr rfl fun r _ => ?_
    rw [star_sum]
    refine sum_congr rfl fun s _ => ?_
    rw [star_mul', star_star, mul_comm]
    unfold vTilde
    rw [hj]
  rw [h2, adjoint_core R ns np (fun r s l => (J r).re s l) (fun l => (v l : ℂ)) _ k, hm]
  set M := fun l => mean R ns fun r s => (J r).re s l with hM
  have h3 : ∑ l ∈ range np, M l * (v l : ℂ) - ((∑ l ∈ range np, (M l).re * v l : ℝ) : ℂ)
      = Complex.I * ((∑ l ∈ range np, (M l).im * v l : ℝ) : ℂ) := by
    push_cast
    rw [mul_sum, ← sum_sub_distrib]
    refine sum_congr rfl fun l _ => ?_
    conv_lhs => rw [split_re_im (M l)]
    simp
    ring
  have h3' : ∑ l ∈ range np, (mean R ns fun r s => (J r).re s l) * (v l : ℂ) - ((∑ l ∈ range np, (mean R ns fun r s => (J r).re s l).re * v l : ℝ) : ℂ)
      = Complex.I * ((∑ l ∈ range np, (mean R ns fun r s => (J r).re s l).im * v l : ℝ) : ℂ) := h3
  rw [h3']
  have h4 : (∑ l ∈ range np, covariance R ns (fun r s l => (J r).re s l) k l * (v l : ℂ)).re
      = ∑ l ∈ range np, (covariance R ns (fun r s l => (J r).re s l) k l).re * v l := by
    rw [Complex.re_sum]
    exact sum_congr rfl fun l _ => by simp
  have h5 : ∀ (z : ℂ) (t : ℝ), (star z * (Complex.I * (t : ℂ))).re = z.im * t := by
    intro z t; simp
  rw [Complex.add_re, h4, h5]
  apply Complex.ext
  · simp; ring
  · simp

/-- C206: the same for machines with real parameters and real output. -/
theorem C206_sr_real (R ns np : Nat) (J : Ranks) (hJ : ∀ r s k, (J r).im s k = 0) (hr : ∀ r s k, ((J r).re s k).im = 0) (shift : ℝ) (v : Nat → ℝ)
    (k : Nat) :
    matVec R ns np J (fun _ => true) shift (fun l => (v l : ℂ)) k
      = ((shift * v k + ∑ l ∈ range np, (covariance R ns (fun r s l => (J r).re s l) k l).re * v l : ℝ) : ℂ) := by
  rw [matVec_real R ns np J hJ shift v k]
  have h0 : (mean R ns fun r s => (J r).re s k).im = 0 := by
    unfold mean
    have : ∑ r ∈ range R, ∑ s ∈ range ns, (J r).re s k = ((∑ r ∈ range R, ∑ s ∈ range ns, ((J r).re s k).re : ℝ) : ℂ) := by
      push_cast
      exact sum_congr rfl fun r _ => sum_congr rfl fun s _ => Complex.ext (by simp) (by simp [hr])
    rw [this]
    have e : (((∑ r ∈ range R, ∑ s ∈ range ns, ((J r).re s k).re : ℝ) : ℂ) / ((R : ℂ) * (ns : ℂ)))
        = (((∑ r ∈ range R, ∑ s ∈ range ns, ((J r).re s k).re) / ((R : ℝ) * (ns : ℝ)) : ℝ) : ℂ) := by push_cast; rfl
    rw [e, Complex.ofReal_im]
  rw [h0, zero_mul, add_zero]

/-- two samples on one process, one real parameter with derivatives 1 and -1. -/
example : let J : Ranks := fun _ => ⟨fun s _ => if s = 0 then 1 else -1, fun _ _ => 0⟩
    (∀ r s k, (J r).im s k = 0) ∧ ∀ r s k, ((J r).re s k).im = 0 := by
  refine ⟨fun _ _ _ => rfl, fun r s k => ?_⟩
  dsimp only
  split_ifs <;> simp

/-- C207: for real parameters and complex output, `mat_vec` is not the product with the real part of the covariance matrix: it contains the
    additional rank-one term `Im⟨O_k⟩ ∑ Im⟨O_l⟩ v_l`, for all samples and vectors. -/
theorem C207_sr_onthefly_refuted (R ns np : Nat) (J : Ranks) (hJ : ∀ r s k, (J r).im s k = 0) (shift : ℝ) (v : Nat → ℝ) (k : Nat) :
    matVec R ns np J (fun _ => true) shift (fun l => (v l : ℂ)) k
      = ((shift * v k + ∑ l ∈ range np, (covariance R ns (fun r s l => (J r).re s l) k l).re * v l : ℝ) : ℂ)
        + (((mean R ns fun r s => (J r).re s k).im * ∑ l ∈ range np, (mean R ns fun r s => (J r).re s l).im * v l : ℝ) : ℂ) := by
  rw [matVec_real R ns np J hJ shift v k]
  push_cast
  ring

/-- one sample, one parameter, derivative `i`: the covariance vanishes, the product does not. -/
example : let J : Ranks := fun _ => ⟨fun _ _ => Complex.I, fun _ _ => 0⟩
    covariance 1 1 (fun r s l => (J r).re s l) 0 0 = 0 ∧ matVec 1 1 1 J (fun _ => true) 0 (fun _ => 1) 0 = 1 := by
  constructor
  · simp [covariance, mean]
  · have := C207_sr_onthefly_refuted 1 1 1 (fun _ => ⟨fun _ _ => Complex.I, fun _ _ => 0⟩) (fun _ _ _ => rfl) 0 (fun _ => 1) 0
    simp only [Complex.ofReal_one] at this
    rw [this]
    simp [covariance, mean]

theorem centred_eq (R ns : Nat) (O : Nat → Nat → Nat → ℂ) (r s k : Nat) : centred R ns O r s k = O r s k - mean R ns fun r s => O r s k := by
  unfold centred
  rw [mean_def, sum_mul]
  congr 1
  exact sum_congr rfl fun r _ => by ring

/-- C206: the product with the S matrix made from stored derivatives: the covariance matrix plus the shift, its real part for real
    parameters; real or complex output. -/
theorem C206_sr_jacobian (R ns np : Nat) (h : 0 < R ∧ 0 < ns) (O : Nat → Nat → Nat → ℂ) (shift : ℝ) (v : Nat → ℂ) (w : Nat → ℝ) (k : Nat) :
    matVecOks false R ns np (centred R ns O) shift v k = shift * v k + ∑ l ∈ range np, covariance R ns O k l * v l
    ∧ matVecOks true R ns np (centred R ns O) shift (fun l => (w l : ℂ)) k
        = ((shift * w k + ∑ l ∈ range np, (covariance R ns O k l).re * w l : ℝ) : ℂ) := by
  have hN : (R : ℂ) * (ns : ℂ) ≠ 0 := mul_ne_zero (Nat.cast_ne_zero.2 (by omega)) (Nat.cast_ne_zero.2 (by omega))
  have hmean0 : ∀ l, (mean R ns fun r s => centred R ns O r s l) = 0 := by
    intro l
    have e : (fun r s => centred R ns O r s l) = fun r s => O r s l + (fun _ _ => (1 : ℂ)) r s * -(mean R ns fun r s => O r s l) := by
      funext r s; rw [centred_eq]; ring
    rw [e, mean_add, mean_mul_const]
    have h1 : mean R ns (fun _ _ => (1 : ℂ)) = 1 := by
      unfold mean; simp only [sum_const, card_range, nsmul_eq_mul, mul_one]; exact div_self hN
    rw [h1]; ring
  have hcov : ∀ l, covariance R ns (centred R ns O) k l = covariance R ns O k l := by
    intro l
    have e1 : covariance R ns (centred R ns O) k l = mean R ns fun r s => star (centred R ns O r s k) * centred R ns O r s l := by
      unfold covariance; rw [hmean0 l, mul_zero, sub_zero]
    have e2 : (fun r s => star (centred R ns O r s k) * centred R ns O r s l)
        = fun r s => star (O r s k) * centred R ns O r s l + centred R ns O r s l * -star (mean R ns fun r s => O r s k) := by
      funext r s; rw [centred_eq R ns O r s k, star_sub]; ring
    have e3 : (fun r s => star (O r s k) * centred R ns O r s l)
        = fun r s => star (O r s k) * O r s l + star (O r s k) * -(mean R ns fun r s => O r s l) := by
      funext r s; rw [centred_eq]; ring
    rw [e1, e2, mean_add, mean_mul_const, hmean0 l, zero_mul, add_zero, e3, mean_add, mean_mul_const, mean_star]
    unfold covariance; ring
  have hy : ∀ u : Nat → ℂ, ∑ r ∈ range R, ∑ s ∈ range ns, star (centred R ns O r s k) * ((∑ l ∈ range np, centred R ns O r s l * u l) / ((ns : ℂ) * (R : ℂ)))
      = ∑ l ∈ range np, covariance R ns O k l * u l := by
    intro u
    have := adjoint_core R ns np (centred R ns O) u 0 k
    simp only [sub_zero, hmean0] at this
    simp only [star_zero, zero_mul, add_zero, hcov] at this
    rw [← this, ← sum_mean R ns (fun r s => star (centred R ns O r s k)) fun r s => ∑ l ∈ range np, centred R ns O r s l * u l]
    exact sum_congr rfl fun r _ => sum_congr rfl fun s _ => by ring
  constructor
  · unfold matVecOks
    simp only [Bool.false_eq_true, if_false]
    rw [hy, mul_comm]
  · unfold matVecOks
    simp only [if_true]
    rw [hy, Complex.add_re, Complex.re_sum]
    congr 2
    · simp [mul_comm]
    · exact sum_congr rfl fun l _ => by simp

example : (0 < 2) ∧ 0 < 3 := by decide

/-- C207: so for real parameters and complex output the two variants of SR, `onthefly=True` and `onthefly=False`, solve different equations; they
    agree on a vector exactly if `Im⟨O_k⟩ ∑ Im⟨O_l⟩ v_l` vanishes for every `k`. -/
theorem C207_sr_variants_refuted (R ns np : Nat) (h : 0 < R ∧ 0 < ns) (J : Ranks) (hJ : ∀ r s k, (J r).im s k = 0) (shift : ℝ) (v : Nat → ℝ) (k : Nat) :
    matVec R ns np J (fun _ => true) shift (fun l => (v l : ℂ)) k
        = matVecOks true R ns np (centred R ns fun r s l => (J r).re s l) shift (fun l => (v l : ℂ)) k
      ↔ (mean R ns fun r s => (J r).re s k).im * ∑ l ∈ range np, (mean R ns fun r s => (J r).re s l).im * v l = 0 := by
  rw [C207_sr_onthefly_refuted R ns np J hJ shift v k, (C206_sr_jacobian R ns np h (fun r s l => (J r).re s l) shift (fun l => (v l : ℂ)) v k).2]
  rw [add_eq_left, Complex.ofReal_eq_zero]

/-- C206: an SR object exists exactly with one process (or with mpi4jax) and the solver conjugate gradient, given by name or, for
    iterative solvers, by default; dense solvers, and only they, are reported as not implemented; several processes without mpi4jax and
    unknown names are RuntimeErrors. -/
theorem C206_sr_solver (mpi it : Bool) (s : Option Solver) :
    (srInit mpi s it = .cg ↔ mpi = false ∧ (s = some .cg ∨ s = none ∧ it = true))
    ∧ (srInit mpi s it = .error .notImplemented ↔
        mpi = false ∧ (s = some .dense ∨ (s = none ∨ s = some .other) ∧ it = false))
    ∧ (srInit mpi s it = .error .runtimeError ↔ mpi = true ∨ s = some .jaxcg ∨ s = some .other ∧ it = true) := by
  rcases mpi <;> rcases it <;> rcases s with _ | s <;> try rcases s
  all_goals decide

/-- C207: the names "gmres" and "minres", announced to fall back to conjugate gradient with a warning, raise an exception; "jaxcg", listed as
    iterative solver, is refused as unknown. -/
theorem C207_sr_solver_refuted (it : Bool) :
    srInit false (some .gmres) it = .warning ∧ srInit false (some .minres) it = .warning ∧ srInit false (some .jaxcg) it = .error .runtimeError :=
  ⟨rfl, rfl, rfl⟩

end Verif.LegacyJax

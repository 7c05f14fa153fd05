import Verif.Model.VMC
import Verif.Props.Gradient
import Verif.Props.QGT

/-! C144, C145: the drivers `VMC` and `SteadyState`. -/

namespace Verif.VMC

open Verif.Hilbert (Err)
open Verif.VState

/-! ### construction -/

/-- the preconditioner that was passed, under either name. -/
def Args.given (a : Args) : Option Ref := a.preconditioner <|> a.sr

theorem mkCommon_ok (h : Heap) (a : Args) :
    (∀ q, (mkCommon h a).2 = .ok q ↔
      ¬ (a.preconditioner.isSome ∧ a.sr.isSome) ∧ (a.srRestart.isSome → a.given.isSome) ∧ q = a.given) ∧
    (∀ e, (mkCommon h a).2 = .error e → e = .valueError) := by
  obtain ⟨p, s, r⟩ := a
  rcases p with _ | p <;> rcases s with _ | s <;> rcases r with _ | r <;>
    simp [mkCommon, resolve, restartArg, Args.given, eq_comm]

theorem mkCommon_heap (h : Heap) (a : Args) (q : Ref) :
    (mkCommon h a).1 q =
      if ¬ (a.preconditioner.isSome ∧ a.sr.isSome) ∧ a.given = some q then a.srRestart.getD (h q) else h q := by
  obtain ⟨p, s, r⟩ := a
  rcases p with _ | p <;> rcases s with _ | s <;> rcases r with _ | r <;>
    simp [mkCommon, resolve, restartArg, Args.given, Heap.set, eq_comm]

/-- `VMC(...)`: TypeError precisely for different spaces, ValueError precisely if both `sr` and
    `preconditioner` are given or `sr_restart` without any of them; otherwise the driver uses the given
    preconditioner, the identity if there is none. -/
theorem C144_vmc {Hs : Type} [DecidableEq Hs] (s o : Hs) (h : Heap) (a : Args) :
    (s ≠ o → (mkVMC s o h a).2 = .error .typeError) ∧
    (s = o → (a.preconditioner.isSome ∧ a.sr.isSome ∨ a.srRestart.isSome ∧ a.given = none) →
      (mkVMC s o h a).2 = .error .valueError) ∧
    (s = o → ¬ (a.preconditioner.isSome ∧ a.sr.isSome ∨ a.srRestart.isSome ∧ a.given = none) →
      (mkVMC s o h a).2 = .ok a.given) := by
  refine ⟨fun hne => by rw [mkVMC, if_pos hne], fun heq hbad => ?_, fun heq hgood => ?_⟩
  · rw [mkVMC, if_neg (not_not.2 heq)]
    cases hr : (mkCommon h a).2 with
    | error e => rw [(mkCommon_ok h a).2 e hr]
    | ok q =>
      obtain ⟨h1, h2, h3⟩ := ((mkCommon_ok h a).1 q).1 hr
      rcases hbad with hb | ⟨hb, hb'⟩
      · exact absurd hb h1
      · have := h2 hb; rw [hb'] at this; cases this
  · rw [mkVMC, if_neg (not_not.2 heq)]
    refine ((mkCommon_ok h a).1 a.given).2 ⟨fun hb => hgood (Or.inl hb), fun hr => ?_, rfl⟩
    by_contra hn
    exact hgood (Or.inr ⟨hr, by simpa using hn⟩)

/-- `SteadyState(...)`: the same with "not a super-operator" in place of different spaces. -/
theorem C144_steady {Hs : Type} (sup : Bool) (s o : Hs) (h : Heap) (a : Args) :
    (sup = false → (mkSteady sup s o h a).2 = .error .typeError) ∧
    (sup = true → (a.preconditioner.isSome ∧ a.sr.isSome ∨ a.srRestart.isSome ∧ a.given = none) →
      (mkSteady sup s o h a).2 = .error .valueError) ∧
    (sup = true → ¬ (a.preconditioner.isSome ∧ a.sr.isSome ∨ a.srRestart.isSome ∧ a.given = none) →
      (mkSteady sup s o h a).2 = .ok a.given) := by
  refine ⟨fun hf => by rw [mkSteady, if_pos hf], fun ht hbad => ?_, fun ht hgood => ?_⟩
  · have := (C144_vmc () () h a).2.1 rfl hbad
    rw [mkVMC, if_neg (not_not.2 rfl)] at this
    rw [mkSteady, if_neg (by simp [ht])]
    exact this
  · have := (C144_vmc () () h a).2.2 rfl hgood
    rw [mkVMC, if_neg (not_not.2 rfl)] at this
    rw [mkSteady, if_neg (by simp [ht])]
    exact this

/-- Construction changes no preconditioner unless `sr_restart` is given, then only the one passed, whose
    `solver_restart` becomes that value. -/
theorem C144_restart {Hs : Type} [DecidableEq Hs] (s o : Hs) (h : Heap) (a : Args) (q : Ref) :
    (a.srRestart = none → (mkVMC s o h a).1 q = h q) ∧
    (a.given ≠ some q → (mkVMC s o h a).1 q = h q) ∧
    (∀ b, a.srRestart = some b → (mkVMC s o h a).2 = .ok (some q) → (mkVMC s o h a).1 q = b) := by
  by_cases hs : s = o
  · simp only [mkVMC, if_neg (not_not.2 hs), mkCommon_heap]
    refine ⟨fun hr => by simp [hr], fun hg => by simp [hg], fun b hb hok => ?_⟩
    obtain ⟨h1, _, h3⟩ := ((mkCommon_ok h a).1 _).1 hok
    rw [if_pos ⟨h1, h3.symm⟩, hb]
    rfl
  · simp only [mkVMC, if_pos hs]
    exact ⟨fun _ => trivial, fun _ => trivial, fun b _ hok => by cases hok⟩

example : (mkVMC (0 : Nat) 0 (fun _ => false) ⟨none, some 3, some true⟩).2 = .ok (some 3) ∧
    (mkVMC (0 : Nat) 0 (fun _ => false) ⟨none, some 3, some true⟩).1 3 = true := ⟨rfl, rfl⟩

/-! ### one step -/

section
variable {P M Sd S X St G O Os Hs : Type} [DecidableEq Hs]

/-- specification: the samples drawn for the present parameters, and the new state of the sampler. -/
def drawn (v : MC P M Sd S X) : X × S :=
  let st := v.sampler.reset v.vars v.samplerState
  let st := if 0 < v.nDiscard then (v.sampler.chain v.vars st v.nDiscard).2 else st
  v.sampler.chain v.vars st v.chainLength

/-- specification: the update computed from samples `x`. -/
def direction (p : Parts P M X St G O Os) (vars : P × M) (x : X) (c : Verif.Driver.Precond G) : G :=
  let g := (p.expectGrad vars x).2.1
  match p.solve with
  | none => g
  | some solve => solve vars x g (if c.solverRestart then c.x0 else none)

/-- specification: the last solution after the step. -/
def lastSolution (p : Parts P M X St G O Os) (vars : P × M) (x : X) (c : Verif.Driver.Precond G) :
    Verif.Driver.Precond G :=
  match p.solve with
  | none => c
  | some _ => { c with x0 := some (direction p vars x c) }

theorem getSamples_reset (n : Nat) (v : MC P M Sd S X) :
    v.reset.getSamples n = ({ v with samplerState := (drawn v).2, samples := some (drawn v).1 },
      .ok (drawn v).1) := by
  rfl

/-- **Forward and backward pass**, model without mutable state: samples are drawn once, with the present
    parameters; energy, gradient and tensor are evaluated on them; they stay available for observables. -/
theorem C144_forward (n : Nat) (p : Parts P M X St G O Os) (s : Hs) (w : World P M Sd S X St G Os) :
    let x := (drawn w.v).1
    forwardBackward n p false s s w
      = ({ v := { w.v with samplerState := (drawn w.v).2, samples := some x }
           prec := lastSolution p w.v.vars x w.prec
           opt := w.opt
           loss := some (p.expectGrad w.v.vars x).1
           lossGrad := some (p.expectGrad w.v.vars x).2.1 },
         .ok (p.realPart w.v.params (direction p w.v.vars x w.prec))) := by
  intro x
  unfold forwardBackward
  simp only [ne_eq, not_true, if_false]
  have h1 : expectAndGrad n p false w.v.reset
      = ({ w.v with samplerState := (drawn w.v).2, samples := some x },
        .ok ((p.expectGrad w.v.vars x).1, (p.expectGrad w.v.vars x).2.1)) := by
    rw [expectAndGrad, getSamples_reset]
    rfl
  rw [h1]
  cases hs : p.solve with
  | none => simp only [precondition, hs, lastSolution, direction]
  | some solve =>
    simp only [precondition, hs, lastSolution, direction, MC.getSamples, Verif.Driver.Precond.call]
    rfl

/-- Observables estimated after the pass use the same samples and draw nothing. -/
theorem C144_observables (n : Nat) (p : Parts P M X St G O Os) (s : Hs) (w : World P M Sd S X St G Os) (o : O) :
    expectObs n p (forwardBackward n p false s s w).1.v o
      = ((forwardBackward n p false s s w).1.v, .ok (p.expect w.v.vars (drawn w.v).1 o)) := by
  rw [C144_forward]
  rfl

/-- **Step**: afterwards the parameters are those of the optimiser for the direction computed at the old
    parameters, the recorded loss belongs to the old parameters, and no samples are cached. -/
theorem C144_step (n : Nat) (p : Parts P M X St G O Os) (s : Hs) (w : World P M Sd S X St G Os) :
    ∃ w', step n p false s s w = .ok w' ∧
      w'.v.params = (p.optimise w.opt (p.realPart w.v.params
        (direction p w.v.vars (drawn w.v).1 w.prec)) w.v.params).2 ∧
      w'.opt = (p.optimise w.opt (p.realPart w.v.params
        (direction p w.v.vars (drawn w.v).1 w.prec)) w.v.params).1 ∧
      w'.v.mstate = w.v.mstate ∧ w'.v.samples = none ∧ w'.v.samplerState = (drawn w.v).2 ∧
      w'.loss = some (p.expectGrad w.v.vars (drawn w.v).1).1 ∧
      w'.prec = lastSolution p w.v.vars (drawn w.v).1 w.prec := by
  refine ⟨_, by rw [step, C144_forward], ?_⟩
  exact ⟨rfl, rfl, rfl, rfl, rfl, rfl, rfl⟩

/-- **advance** performs its steps one after the other and never fails. -/
theorem C144_advance (n : Nat) (p : Parts P M X St G O Os) (s : Hs) (a b : Nat) (w : World P M Sd S X St G Os) :
    ∃ w1 w2, steps n p false s s a w = .ok w1 ∧ steps n p false s s b w1 = .ok w2 ∧
      steps n p false s s (a + b) w = .ok w2 := by
  have ex : ∀ (k : Nat) (w : World P M Sd S X St G Os), ∃ w', steps n p false s s k w = .ok w' := by
    intro k
    induction k with
    | zero => exact fun w => ⟨w, rfl⟩
    | succ k ih =>
      intro w
      obtain ⟨w1, h1, _⟩ := C144_step n p s w
      obtain ⟨w2, h2⟩ := ih w1
      exact ⟨w2, by simp only [steps, h1, h2]⟩
  induction a generalizing w with
  | zero =>
    obtain ⟨w2, h2⟩ := ex b w
    exact ⟨w, w2, rfl, h2, by rw [Nat.zero_add]; exact h2⟩
  | succ a ih =>
    obtain ⟨w1, h1, _⟩ := C144_step n p s w
    obtain ⟨w2, w3, h2, h3, h4⟩ := ih w1
    refine ⟨w2, w3, by simp only [steps, h1, h2], h3, ?_⟩
    rw [Nat.succ_add]
    simp only [steps, h1, h4]

end

/-- leaves with real parameters receive the real part, the others everything; nothing changes if the
    components of real leaves are real. -/
theorem C144_real {K R : Type} [Zero R] (cplx : K → Bool) (dp : K → R × R) (k : K) :
    (takeReal cplx dp k).1 = (dp k).1 ∧ (cplx k = false → (takeReal cplx dp k).2 = 0) ∧
      ((cplx k = false → (dp k).2 = 0) → takeReal cplx dp k = dp k) := by
  cases h : cplx k
  · refine ⟨by simp [takeReal, h], fun _ => by simp [takeReal, h], fun h0 => ?_⟩
    simp only [takeReal, h, Bool.false_eq_true, if_false]
    exact Prod.ext rfl (h0 rfl).symm
  · simp [takeReal, h]

/-! ### descent -/

section
open Verif.Vjp Verif.QGT
variable {S : Type} [Fintype S]

/-- the derivatives at the samples. -/
def jacAt (Dre Dim : S → Nat → ℂ) (d : S) (xs : List S) : Jac := ⟨fun i k => Dre (xs.getD i d) k, fun i k => Dim (xs.getD i d) k⟩

/-- What is known about the state at the parameters `θ`: `Dre`, `Dim` are the derivatives of the
    log-amplitudes in the real and the imaginary directions, the ansatz is holomorphic in the complex
    parameters, the samples represent `|ψ|²` exactly. -/
structure At (l : (Nat → ℂ) → S → ℂ) (np : Nat) (cplx : Nat → Bool) (θ : Nat → ℂ) (Dre Dim : S → Nat → ℂ)
    (xs : List S) : Prop where
  deriv : ∀ (v : Nat → ℂ), (∀ k, cplx k = false → (v k).im = 0) → ∀ s,
    HasDerivAt (fun t : ℝ => l (fun k => θ k - t * v k) s)
      (-∑ k ∈ Finset.range np, (Dre s k * ((v k).re : ℂ) + Dim s k * ((v k).im : ℂ))) 0
  holo : ∀ s k, cplx k = true → Dim s k = Complex.I * Dre s k
  samples : xs ≠ []
  represents : Represents (l θ) xs

/-- the gradient computed by `expect_and_grad` for the parameters of leaf type `cplx`. -/
noncomputable def gradient (H : S → S → ℂ) (l : S → ℂ) (cplx : Nat → Bool) (Dre : S → Nat → ℂ) (xs : List S)
    (k : Nat) : ℂ :=
  gradHermitian (cplx k) [dataOf H l Dre xs] k

theorem slope [Nonempty S] (H : S → S → ℂ) (hH : ∀ s t, H t s = (starRingEnd ℂ) (H s t))
    {l : (Nat → ℂ) → S → ℂ} {np : Nat} {cplx : Nat → Bool} {θ : Nat → ℂ} {Dre Dim : S → Nat → ℂ} {xs : List S}
    (h : At l np cplx θ Dre Dim xs) (v : Nat → ℂ) (hv : ∀ k, cplx k = false → (v k).im = 0) :
    HasDerivAt (fun t : ℝ => energy H (l fun k => θ k - t * v k))
      (-(2 * rdot np v (gradient H (l θ) cplx Dre xs))) 0 := by
  have hmain := hasDerivAt_energy H hH (fun t : ℝ => l fun k => θ k - t * v k) _ 0 (h.deriv v hv)
  have h0 : (fun k => θ k - ((0 : ℝ) : ℂ) * v k) = θ := by funext k; simp
  simp only [h0] at hmain
  refine hmain.congr_deriv ?_
  have hcov : ∀ k, gradient H (l θ) cplx Dre xs k
      = if cplx k then ∑ s, (prob (l θ) s : ℂ) * ((starRingEnd ℂ) (Dre s k) * (eLoc H (l θ) s - (energy H (l θ) : ℂ)))
        else (((∑ s, (prob (l θ) s : ℂ) * ((starRingEnd ℂ) (Dre s k) * (eLoc H (l θ) s - (energy H (l θ) : ℂ)))).re : ℝ) : ℂ) := by
    intro k
    rw [gradient, C59_covariance (cplx k) xs.length _ (by simp [Verif.Stats.Equal, dataOf])]
    simp only [List.flatten_cons, List.flatten_nil, List.append_nil]
    rw [cov_represents H hH _ Dre xs h.samples h.represents]
  have hterm : ∀ k, (star (v k) * gradient H (l θ) cplx Dre xs k).re
      = (∑ s, (prob (l θ) s : ℂ) * ((starRingEnd ℂ) (Dre s k * ((v k).re : ℂ) + Dim s k * ((v k).im : ℂ))
          * (eLoc H (l θ) s - (energy H (l θ) : ℂ)))).re := by
    intro k
    rw [hcov]
    cases hc : cplx k with
    | true =>
      rw [if_pos rfl, Finset.mul_sum]
      congr 1
      refine Finset.sum_congr rfl fun s _ => ?_
      rw [h.holo s k hc]
      have : (starRingEnd ℂ) (Dre s k * ((v k).re : ℂ) + Complex.I * Dre s k * ((v k).im : ℂ))
          = star (v k) * (starRingEnd ℂ) (Dre s k) := by
        have hvk : v k = ((v k).re : ℂ) + ((v k).im : ℂ) * Complex.I := (Complex.re_add_im (v k)).symm
        have : Dre s k * ((v k).re : ℂ) + Complex.I * Dre s k * ((v k).im : ℂ) = v k * Dre s k := by
          conv_rhs => rw [hvk]
          ring
        rw [this, map_mul]
        rfl
      rw [this]
      ring
    | false =>
      have him := hv k hc
      simp only [Bool.false_eq_true, if_false]
      have hs : ∀ s, (prob (l θ) s : ℂ) * ((starRingEnd ℂ) (Dre s k * ((v k).re : ℂ) + Dim s k * ((v k).im : ℂ))
            * (eLoc H (l θ) s - (energy H (l θ) : ℂ)))
          = ((v k).re : ℂ) * ((prob (l θ) s : ℂ) * ((starRingEnd ℂ) (Dre s k)
            * (eLoc H (l θ) s - (energy H (l θ) : ℂ)))) := by
        intro s
        rw [him, Complex.ofReal_zero, mul_zero, add_zero, map_mul, Complex.conj_ofReal]
        ring
      simp only [hs]
      rw [← Finset.mul_sum, Complex.re_ofReal_mul]
      have hstar : star (v k) = ((v k).re : ℂ) := by
        apply Complex.ext <;> simp [him]
      rw [hstar, Complex.re_ofReal_mul, Complex.ofReal_re]
  unfold rdot
  simp only [hterm]
  rw [← Complex.re_sum, Finset.sum_comm, ← mul_neg, ← Complex.neg_re, ← Finset.sum_neg_distrib]
  congr 2
  refine Finset.sum_congr rfl fun s _ => ?_
  rw [map_neg, map_sum, ← Finset.mul_sum, ← Finset.sum_mul]
  ring

/-- **Descent without preconditioner**: along the update the energy decreases at the rate of twice the
    squared norm of the gradient. -/
theorem C144_descent_bare [Nonempty S] (H : S → S → ℂ) (hH : ∀ s t, H t s = (starRingEnd ℂ) (H s t))
    {l : (Nat → ℂ) → S → ℂ} {np : Nat} {cplx : Nat → Bool} {θ : Nat → ℂ} {Dre Dim : S → Nat → ℂ} {xs : List S}
    (h : At l np cplx θ Dre Dim xs) :
    HasDerivAt (fun t : ℝ => energy H (l fun k => θ k - t * gradient H (l θ) cplx Dre xs k))
      (-(2 * ∑ k ∈ Finset.range np, Complex.normSq (gradient H (l θ) cplx Dre xs k))) 0 := by
  have hreal : ∀ k, cplx k = false → (gradient H (l θ) cplx Dre xs k).im = 0 := by
    intro k hk
    rw [gradient, C59_covariance (cplx k) xs.length _ (by simp [Verif.Stats.Equal, dataOf]), hk]
    simp
  refine (slope H hH h _ hreal).congr_deriv ?_
  unfold rdot
  congr 2
  refine Finset.sum_congr rfl fun k _ => ?_
  simp [Complex.mul_re, Complex.normSq_apply]

/-- **Descent with stochastic reconfiguration**: if the update solves the linear system of the tensor
    with diagonal shift `δ`, the energy decreases along it at a rate of at least `2 δ` times its squared
    norm; strictly, if `δ > 0` and the update is not zero. -/
theorem C144_descent_sr [Nonempty S] (H : S → S → ℂ) (hH : ∀ s t, H t s = (starRingEnd ℂ) (H s t))
    {l : (Nat → ℂ) → S → ℂ} {np : Nat} {cplx : Nat → Bool} {θ : Nat → ℂ} {Dre Dim : S → Nat → ℂ} {xs : List S}
    (h : At l np cplx θ Dre Dim xs) (d : S) (shift : ℝ) (dp : Nat → ℂ)
    (hreal : ∀ k, cplx k = false → (dp k).im = 0)
    (hsolve : ∀ k < np, matVec xs.length np (jacAt Dre Dim d xs) shift dp k = gradient H (l θ) cplx Dre xs k) :
    ∃ rate, HasDerivAt (fun t : ℝ => energy H (l fun k => θ k - t * dp k)) rate 0 ∧
      rate ≤ -(2 * (shift * ∑ k ∈ Finset.range np, Complex.normSq (dp k))) ∧
      (0 < shift → (∃ k < np, dp k ≠ 0) → rate < 0) := by
  have hlen : 0 < xs.length := List.length_pos_of_ne_nil h.samples
  have hpos := (C65_positive xs.length np hlen (jacAt Dre Dim d xs) shift dp).2
  have hr : rdot np dp (gradient H (l θ) cplx Dre xs)
      = rdot np dp (matVec xs.length np (jacAt Dre Dim d xs) shift dp) := by
    unfold rdot
    exact Finset.sum_congr rfl fun k hk => by rw [hsolve k (Finset.mem_range.1 hk)]
  refine ⟨_, slope H hH h dp hreal, ?_, ?_⟩
  · rw [hr]; linarith
  · rintro hs ⟨k, hk, hne⟩
    have : 0 < ∑ k ∈ Finset.range np, Complex.normSq (dp k) :=
      Finset.sum_pos' (fun _ _ => Complex.normSq_nonneg _) ⟨k, Finset.mem_range.2 hk, Complex.normSq_pos.2 hne⟩
    have := mul_pos hs this
    rw [hr]; linarith

/-- a one-parameter state on two configurations for which the hypotheses hold. -/
theorem exAt : At (fun (θ : Nat → ℂ) (s : Fin 2) => if s = 0 then 0 else θ 0) 1 (fun _ => true) (fun _ => 0)
    (fun s _ => if s = 0 then 0 else 1) (fun s _ => if s = 0 then 0 else Complex.I) [0, 1] := by
  refine ⟨fun v _ s => ?_, fun s k _ => by by_cases hs : s = 0 <;> simp [hs], by simp, ?_⟩
  · by_cases hs : s = 0
    · simp only [hs, if_true]
      simpa using hasDerivAt_const (0 : ℝ) (0 : ℂ)
    · simp only [hs, if_false, Finset.range_one, Finset.sum_singleton]
      have h1 : HasDerivAt (fun t : ℝ => (0 : ℂ) - (t : ℂ) * v 0) (-(1 * v 0)) 0 := by
        simpa using ((Complex.ofRealCLM.hasDerivAt (x := (0 : ℝ))).mul_const (v 0)).const_sub 0
      refine h1.congr_deriv ?_
      conv_lhs => rw [← Complex.re_add_im (v 0)]
      ring
  · have := lw_represents
    rw [lw_zero] at this
    convert this using 1
    funext s
    simp

/-- and, for a Hamiltonian with energies 0 and 1 and the shift 1, an update that solves the system. -/
example : ∃ dp : Nat → ℂ, dp 0 ≠ 0 ∧ ∀ k < 1,
    matVec [(0 : Fin 2), 1].length 1 (jacAt (fun (s : Fin 2) (_ : Nat) => if s = 0 then 0 else 1)
      (fun s _ => if s = 0 then 0 else Complex.I) 0 [0, 1]) 1 dp k
      = gradient Hw (fun _ => 0) (fun _ => true) (fun s _ => if s = 0 then 0 else 1) [0, 1] k := by
  refine ⟨fun _ => 1 / 5, by norm_num, fun k hk => ?_⟩
  obtain rfl : k = 0 := by omega
  rw [gradient, C59_covariance true 2 _ (by simp [Verif.Stats.Equal, dataOf]), if_pos rfl, matVec_eq]
  simp [cov, dataOf, Verif.Stats.avg, eLoc, Hw, center, jvp, jacAt, Finset.sum_range_succ]
  have : (Finset.univ.filter fun x : Fin 2 => x = 1).card = 1 := by decide
  rw [this]
  norm_num

end

/-! ### deviations -/

/-- Constructing a driver with `sr_restart` changes the preconditioner of another driver. -/
theorem C145_shared_refuted : ¬ ∀ (h : Heap) (a b : Args) (r : Ref),
    (mkVMC () () h a).2 = .ok (some r) → (mkVMC () () (mkVMC () () h a).1 b).1 r = (mkVMC () () h a).1 r := by
  intro hall
  have := hall (fun _ => false) ⟨some 0, none, none⟩ ⟨some 0, none, some true⟩ 0 rfl
  cases this

/-- What holds: a driver with another preconditioner, or without `sr_restart`, leaves it alone. -/
theorem C145_shared_partial {Hs : Type} [DecidableEq Hs] (s o : Hs) (h : Heap) (b : Args) (r : Ref)
    (hb : b.srRestart = none ∨ b.given ≠ some r) : (mkVMC s o h b).1 r = h r :=
  hb.elim (C144_restart s o h b r).1 (C144_restart s o h b r).2.1

/-- `SteadyState` accepts a Lindbladian on another space. -/
theorem C145_space_refuted : ¬ ∀ (s o : Nat) (h : Heap) (a : Args) (q : Option Ref),
    (mkSteady true s o h a).2 = .ok q → s = o := by
  intro hall
  have := hall 0 1 (fun _ => false) ⟨none, none, none⟩ none rfl
  cases this

/-- The error comes with the first step (a TypeError of unpacking `NotImplemented`), without change of
    the parameters. -/
theorem C145_space_partial {P M Sd S X St G O Os Hs : Type} [DecidableEq Hs] (n : Nat)
    (p : Parts P M X St G O Os) (m : Bool) (s o : Hs) (hne : s ≠ o) (w : World P M Sd S X St G Os) (k : Nat) :
    steps n p m s o (k + 1) w = .error .typeError ∧
      (forwardBackward n p m s o w).1.v.params = w.v.params := by
  have h1 : forwardBackward n p m s o w = ({ w with v := w.v.reset }, .error .typeError) := by
    unfold forwardBackward
    simp only [if_pos hne]
  exact ⟨by simp only [steps, step, h1], by rw [h1]; rfl⟩

/-- `info()` of both drivers fails. -/
theorem C145_info_refuted : ¬ ∃ l, infoVMC = .ok l ∨ infoSteady = .ok l := by
  rintro ⟨l, h | h⟩ <;> cases h

/-- What holds: the only missing attribute is `sr`; reading `preconditioner` in its place works. -/
theorem C145_info_partial : infoVMC = .error .attributeError ∧ infoSteady = .error .attributeError ∧
    readAll attrsVMC [.ham, .optimizer, .preconditioner, .state] = .ok [.ham, .optimizer, .preconditioner, .state] ∧
    readAll attrsSteady [.lind, .optimizer, .preconditioner] = .ok [.lind, .optimizer, .preconditioner] :=
  ⟨rfl, rfl, rfl, rfl⟩

section
variable {P M Sd S X St G O Os Hs : Type} [DecidableEq Hs]

/-- a sampler whose samples are numbered. -/
def counting : Sampler (Unit × Unit) Unit Nat Nat := ⟨1, true, 2, fun _ _ => 0, fun _ s => s, fun _ s _ => (s, s + 1)⟩

/-- parts that report the samples of gradient and tensor. -/
def reporting : Parts Unit Unit Nat Nat (Nat × Nat) Unit Unit :=
  ⟨fun _ x => (x, (x, 0), ()), fun _ x _ => x, some fun _ x g _ => (g.1, x), fun o _ _ => (o, ()), fun _ g => g⟩

/-- With a mutable model state the tensor is computed from other samples than the gradient. -/
theorem C145_mutable_refuted : ¬ ∀ (w : World Unit Unit Unit Nat Nat Nat (Nat × Nat) Unit) (g x : Nat),
    w.v.sampler = counting →
    (forwardBackward 1 reporting true () () w).2 = .ok (g, x) → g = x := by
  intro hall
  have := hall ⟨⟨(), (), counting, (), 0, 1, 1, 1, 0, none⟩, Verif.Driver.mkPrecond false, (), none, none⟩ 0 1 rfl rfl
  cases this

/-- What happens: assigning the new model state discards the samples; a preconditioner draws once more,
    with the new model state. Without preconditioner the step is the same as before. -/
theorem C145_mutable_partial (n : Nat) (p : Parts P M X St G O Os) (s : Hs) (w : World P M Sd S X St G Os) :
    let x := (drawn w.v).1
    let v1 := ({ w.v with samplerState := (drawn w.v).2 } : MC P M Sd S X).setMState (p.expectGrad w.v.vars x).2.2
    (forwardBackward n p true s s w).2 = .ok (p.realPart w.v.params
      (match p.solve with
       | none => (p.expectGrad w.v.vars x).2.1
       | some solve => solve v1.vars (drawn v1).1 (p.expectGrad w.v.vars x).2.1
          (if w.prec.solverRestart then w.prec.x0 else none))) := by
  intro x v1
  unfold forwardBackward
  simp only [ne_eq, not_true, if_false]
  have h1 : expectAndGrad n p true w.v.reset
      = (v1, .ok ((p.expectGrad w.v.vars x).1, (p.expectGrad w.v.vars x).2.1)) := by
    rw [expectAndGrad, getSamples_reset]
    rfl
  rw [h1]
  cases hs : p.solve with
  | none => simp only [precondition, hs]; rfl
  | some solve =>
    have h2 : v1.getSamples n = ({ v1 with samplerState := (drawn v1).2, samples := some (drawn v1).1 },
      .ok (drawn v1).1) := rfl
    simp only [precondition, hs, h2, Verif.Driver.Precond.call]
    rfl

end

end Verif.VMC

import Verif.Props.SamplerLoop
import Verif.Props.Metropolis
import Verif.Props.Gradient
import Mathlib.Analysis.Calculus.FDeriv.Pi
import Mathlib.Analysis.Calculus.FDeriv.Mul
import Mathlib.Analysis.Calculus.FDeriv.Comp
import Mathlib.Analysis.Calculus.Deriv.Comp

/-! C46 (which moves are counted), C68 (vector-Jacobian products are derivatives). -/

namespace Verif.Metro

variable {X R K S : Type} [Field R] [LinearOrder R]

theorem count_true (l : List Bool) : l.count true = (List.range l.length).countP fun i => decide (l[i]? = some true) := by
  induction l with
  | nil => simp
  | cons a t ih =>
    rw [List.length_cons, List.range_succ_eq_map, List.countP_cons, List.countP_map, List.count_cons, ih]
    cases a <;> simp [Function.comp_def]

/-- the move of chain `i` passes the test: the random number is below the ratio of `|psi|^pow` at the proposed and at the present configuration, times
    the exponential of the correction of the rule. -/
def Passes (s : Sampler X R K S) (σ prop : List X) (corr : Option (List R)) (us : List R) (i : Nat) : Prop :=
  ∃ x y u, σ[i]? = some x ∧ prop[i]? = some y ∧ us[i]? = some u ∧
    u < s.exp (s.pow * s.logPsi y - s.pow * s.logPsi x + ((corr.bind fun c => c[i]?).getD 0))

/-- one pass counts the chains whose move passes the test, and these are exactly the chains that get the proposed configuration. -/
theorem C46_accepted_moves (s : Sampler X R K S) (rs : S) (c : Scope X R K) (prop : List X) (corr : Option (List R)) (n : Nat)
    (hcache : c.logProb = c.σ.map fun z => s.pow * s.logPsi z) (hσ : c.σ.length = n)
    (ht : s.rule.transition rs (s.rng.split3 c.key).2.1 c.σ = (prop, corr)) (hp : prop.length = n) (hc : ∀ l, corr = some l → l.length = n)
    (hu : (s.rng.uniform (s.rng.split3 c.key).2.2 s.nChainsPerRank).length = n) :
    (by
      classical exact (sweep s rs c).accepted = c.accepted
        + (List.range n).countP (fun i => decide (Passes s c.σ prop corr (s.rng.uniform (s.rng.split3 c.key).2.2 s.nChainsPerRank) i)))
    ∧ ∀ i < n, (Passes s c.σ prop corr (s.rng.uniform (s.rng.split3 c.key).2.2 s.nChainsPerRank) i → (sweep s rs c).σ[i]? = prop[i]?)
      ∧ (¬ Passes s c.σ prop corr (s.rng.uniform (s.rng.split3 c.key).2.2 s.nChainsPerRank) i → (sweep s rs c).σ[i]? = c.σ[i]?) := by
  classical
  have hlp : (fun z => s.pow * s.logPsi z) = logProb s := rfl
  generalize hus : s.rng.uniform (s.rng.split3 c.key).2.2 s.nChainsPerRank = us at *
  have key : ∀ i < n, ∃ x y, c.σ[i]? = some x ∧ prop[i]? = some y ∧
      (doAccept s.exp us (prop.map (logProb s)) c.logProb corr)[i]? = some (decide (Passes s c.σ prop corr us i)) := by
    intro i hi
    have h1 : c.σ[i]? = some (c.σ[i]'(by omega)) := List.getElem?_eq_getElem _
    have h2 : prop[i]? = some (prop[i]'(by omega)) := List.getElem?_eq_getElem _
    have h3 : us[i]? = some (us[i]'(by omega)) := List.getElem?_eq_getElem _
    generalize c.σ[i]'(by omega) = x at h1
    generalize prop[i]'(by omega) = y at h2
    generalize us[i]'(by omega) = u at h3
    refine ⟨x, y, h1, h2, ?_⟩
    have hold : c.logProb[i]? = some (logProb s x) := by rw [hcache, hlp, List.getElem?_map, h1]; rfl
    have hnew : (prop.map (logProb s))[i]? = some (logProb s y) := by rw [List.getElem?_map, h2]; rfl
    have hiff : Passes s c.σ prop corr us i ↔ u < s.exp (logProb s y - logProb s x + ((corr.bind fun c => c[i]?).getD 0)) := by
      constructor
      · rintro ⟨x', y', u', e1, e2, e3, h⟩
        rw [h1, Option.some.injEq] at e1
        rw [h2, Option.some.injEq] at e2
        rw [h3, Option.some.injEq] at e3
        subst e1 e2 e3
        exact h
      · intro h
        exact ⟨x, y, u, h1, h2, h3, h⟩
    cases corr with
    | none =>
      rw [doAccept_get s.exp us _ c.logProb none i u _ _ none h3 hnew hold rfl, Option.some.injEq, Bool.eq_iff_iff, decide_eq_true_iff, hiff]
      simp [acceptOne]
    | some l =>
      have h4 : l[i]? = some (l[i]'(by rw [hc l rfl]; exact hi)) := List.getElem?_eq_getElem _
      generalize l[i]'(by rw [hc l rfl]; exact hi) = k at h4
      rw [doAccept_get s.exp us _ c.logProb (some l) i u _ _ (some k) h3 hnew hold (by simp [corrAt, h4]), Option.some.injEq,
        Bool.eq_iff_iff, decide_eq_true_iff, hiff]
      simp [acceptOne, h4]
  have hlen : (doAccept s.exp us (prop.map (logProb s)) c.logProb corr).length = n := by
    cases corr with
    | none => simp [doAccept, hcache, hσ, hp, hu]
    | some l => simp [doAccept, hcache, hσ, hp, hu, hc l rfl]
  refine ⟨?_, ?_⟩
  · simp only [sweep, ht, hus, count_true, hlen]
    congr 1
    refine List.countP_congr ?_
    intro i hi
    obtain ⟨x, y, _, _, h⟩ := key i (List.mem_range.1 hi)
    rw [h]
    simp
  · intro i hi
    obtain ⟨x, y, h1, h2, h⟩ := key i hi
    have hw := whereRows_get (doAccept s.exp us (prop.map (logProb s)) c.logProb corr) prop c.σ i _ y x h h2 h1
    refine ⟨fun hP => ?_, fun hP => ?_⟩
    · simp only [sweep, ht, hus, hw, h2, hP]
      simp
    · simp only [sweep, ht, hus, hw, h1, hP]
      simp

end Verif.Metro

namespace Verif.Vjp

open Complex (I)

variable {N P : Type} [Fintype N] [Fintype P] [DecidableEq P]

/-- holomorphic functions: the product with the cotangent `y` is the gradient of `∑ y_n F_n`, so that its pairing with any direction `t` is the derivative
    along `t`. -/
theorem C68_cc_derivative (F : N → (P → ℂ) → ℂ) (θ : P → ℂ) (L : N → (P → ℂ) →L[ℂ] ℂ) (hF : ∀ n, HasFDerivAt (F n) (L n) θ) (y : N → ℂ) (t : P → ℂ) :
    HasDerivAt (fun s : ℂ => ∑ n, y n * F n (θ + s • t))
      (∑ k, vjpCC (fun n k => L n (Pi.single k 1)) false y k * t k) 0 ∧
    ∀ k, vjpCC (fun n k => L n (Pi.single k 1)) true y k = (starRingEnd ℂ) (vjpCC (fun n k => L n (Pi.single k 1)) false y k) := by
  refine ⟨?_, fun k => by simp [vjpCC]⟩
  have hline : HasDerivAt (fun s : ℂ => θ + s • t) t 0 := by
    simpa using ((hasDerivAt_id (0 : ℂ)).smul_const t).const_add θ
  have h1 : ∀ n, HasDerivAt (fun s : ℂ => F n (θ + s • t)) (L n t) 0 := by
    intro n
    have hn : HasFDerivAt (F n) (L n) (θ + (0 : ℂ) • t) := by simpa using hF n
    exact hn.comp_hasDerivAt (0 : ℂ) hline
  have hLt : ∀ n, L n t = ∑ k, t k * L n (Pi.single k 1) := by
    intro n
    conv_lhs => rw [pi_eq_sum_univ' t]
    simp [map_sum]
  have : ∑ k, vjpCC (fun n k => L n (Pi.single k 1)) false y k * t k = ∑ n, y n * L n t := by
    simp only [vjpCC, vjpHol, Bool.false_eq_true, if_false, hLt, Finset.mul_sum, Finset.sum_mul]
    rw [Finset.sum_comm]
    exact Finset.sum_congr rfl fun n _ => Finset.sum_congr rfl fun k _ => by ring
  rw [this]
  exact HasDerivAt.fun_sum fun n _ => (h1 n).const_mul (y n)

/-- real parameters and complex output: likewise, with the derivative along real directions. -/
theorem C68_rc_derivative (F : N → (P → ℝ) → ℂ) (θ : P → ℝ) (L : N → (P → ℝ) →L[ℝ] ℂ) (hF : ∀ n, HasFDerivAt (F n) (L n) θ) (y : N → ℂ) (t : P → ℝ) :
    HasDerivAt (fun s : ℝ => ∑ n, y n * F n (θ + s • t))
      (∑ k, vjpRC (fun n k => (L n (Pi.single k 1)).re) (fun n k => (L n (Pi.single k 1)).im) false y k * t k) 0 := by
  have hline : HasDerivAt (fun s : ℝ => θ + s • t) t 0 := by
    simpa using ((hasDerivAt_id (0 : ℝ)).smul_const t).const_add θ
  have h1 : ∀ n, HasDerivAt (fun s : ℝ => F n (θ + s • t)) (L n t) 0 := by
    intro n
    have hn : HasFDerivAt (F n) (L n) (θ + (0 : ℝ) • t) := by simpa using hF n
    exact hn.comp_hasDerivAt (0 : ℝ) hline
  have hLt : ∀ n, L n t = ∑ k, (t k : ℂ) * L n (Pi.single k 1) := by
    intro n
    conv_lhs => rw [pi_eq_sum_univ' t]
    simp [map_sum]
  have hre : ∀ z : ℂ, (z.re : ℂ) + I * (z.im : ℂ) = z := fun z => by rw [mul_comm]; exact Complex.re_add_im z
  have : ∑ k, vjpRC (fun n k => (L n (Pi.single k 1)).re) (fun n k => (L n (Pi.single k 1)).im) false y k * t k = ∑ n, y n * L n t := by
    simp only [C68_rc, Bool.false_eq_true, if_false, hLt, Finset.mul_sum, Finset.sum_mul, hre]
    rw [Finset.sum_comm]
    exact Finset.sum_congr rfl fun n _ => Finset.sum_congr rfl fun k _ => by ring
  rw [this]
  exact HasDerivAt.fun_sum fun n _ => (h1 n).const_mul (y n)

/-- real parameters and real output with a complex cotangent. -/
theorem C68_rr_derivative (F : N → (P → ℝ) → ℝ) (θ : P → ℝ) (L : N → (P → ℝ) →L[ℝ] ℝ) (hF : ∀ n, HasFDerivAt (F n) (L n) θ) (y : N → ℂ) (t : P → ℝ) :
    HasDerivAt (fun s : ℝ => ∑ n, y n * (F n (θ + s • t) : ℂ)) (∑ k, vjpRR (fun n k => L n (Pi.single k 1)) false y k * t k) 0 := by
  have hline : HasDerivAt (fun s : ℝ => θ + s • t) t 0 := by
    simpa using ((hasDerivAt_id (0 : ℝ)).smul_const t).const_add θ
  have h1 : ∀ n, HasDerivAt (fun s : ℝ => (F n (θ + s • t) : ℂ)) (L n t : ℂ) 0 := by
    intro n
    have hn : HasFDerivAt (F n) (L n) (θ + (0 : ℝ) • t) := by simpa using hF n
    exact (hn.comp_hasDerivAt (0 : ℝ) hline).ofReal_comp
  have hLt : ∀ n, L n t = ∑ k, t k * L n (Pi.single k 1) := by
    intro n
    conv_lhs => rw [pi_eq_sum_univ' t]
    simp [map_sum]
  have : ∑ k, vjpRR (fun n k => L n (Pi.single k 1)) false y k * t k = ∑ n, y n * (L n t : ℂ) := by
    simp only [C68_rr, Bool.false_eq_true, if_false, hLt, Finset.mul_sum, Finset.sum_mul, Complex.ofReal_sum, Complex.ofReal_mul]
    rw [Finset.sum_comm]
    exact Finset.sum_congr rfl fun n _ => Finset.sum_congr rfl fun k _ => by ring
  rw [this]
  exact HasDerivAt.fun_sum fun n _ => (h1 n).const_mul (y n)

/-- the function `θ ↦ θ₀ θ₁` of two complex parameters. -/
example (y : Fin 1 → ℂ) (t : Fin 2 → ℂ) : ∃ L : Fin 1 → (Fin 2 → ℂ) →L[ℂ] ℂ,
    HasDerivAt (fun s : ℂ => ∑ n, y n * (fun (_ : Fin 1) (θ : Fin 2 → ℂ) => θ 0 * θ 1) n (![2, 3] + s • t))
      (∑ k, vjpCC (fun n k => L n (Pi.single k 1)) false y k * t k) 0 := by
  have h : DifferentiableAt ℂ (fun θ : Fin 2 → ℂ => θ 0 * θ 1) ![2, 3] := by fun_prop
  exact ⟨fun _ => fderiv ℂ (fun θ : Fin 2 → ℂ => θ 0 * θ 1) ![2, 3],
    (C68_cc_derivative (fun _ θ => θ 0 * θ 1) ![2, 3] _ (fun _ => h.hasFDerivAt) y t).1⟩

/-- `θ ↦ θ₀ + i θ₁ θ₁` of two real parameters, and its real part. -/
example : DifferentiableAt ℝ (fun θ : Fin 2 → ℝ => (θ 0 : ℂ) + I * ((θ 1 : ℂ) * (θ 1 : ℂ))) ![2, 3] ∧
    DifferentiableAt ℝ (fun θ : Fin 2 → ℝ => θ 0) ![2, 3] := by
  have h : ∀ i : Fin 2, Differentiable ℝ (fun θ : Fin 2 → ℝ => ((θ i : ℝ) : ℂ)) := fun i =>
    Complex.ofRealCLM.differentiable.comp (differentiable_apply i)
  have h0 := (h 0) ![2, 3]
  have h1 := (h 1) ![2, 3]
  exact ⟨h0.add ((h1.mul h1).const_mul I), by fun_prop⟩

end Verif.Vjp

namespace Verif.Metro

/-- two chains of spins at 1 and -1 which are flipped: one move is counted. -/
example : (sweep flipMetro () ⟨0, [1, -1], [2, -2], 5⟩).accepted = 6 := by decide +kernel

example := C46_accepted_moves flipMetro () ⟨0, [1, -1], [2, -2], 5⟩ [-1, 1] none 2 (by decide +kernel) rfl (by decide +kernel) rfl (by simp) rfl

end Verif.Metro

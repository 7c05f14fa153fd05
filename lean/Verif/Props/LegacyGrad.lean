import Verif.Model.LegacyDriver
import Verif.Props.Gradient
import Verif.Props.LegacySR
import Mathlib.Analysis.SpecialFunctions.Log.Deriv

/-! C181: the gradients of the legacy drivers. -/

set_option linter.unusedVariables false

namespace Verif.LegacyDriver
open Verif.Hilbert (Err)
open Verif.Stats (avg Equal map_flatten')
open Verif.Vjp (cov gradHermitian energy eLoc prob Represents dataOf avg_represents C59_covariance C59_gradient_complex Z_pos Shard)

variable {P : Type}

/-! ## Averages -/

theorem mean_avg (L : Nat) (xs : List (List ℂ)) (h : Equal L xs) : mean xs = avg xs.flatten := by
  rw [← Verif.Stats.C54_mean L xs h]
  unfold mean Verif.Stats.mean Verif.Stats.mpiMean Verif.Stats.mpiSum
  rw [List.length_map]
  rfl

theorem mean_map {A : Type} (L : Nat) (rs : List (List A)) (h : Equal L rs) (f : A → ℂ) : mean (rs.map fun r => r.map f) = avg (rs.flatten.map f) := by
  rw [mean_avg L, map_flatten']
  intro a ha
  rcases List.mem_map.1 ha with ⟨b, hb, rfl⟩
  rw [List.length_map, h b hb]

theorem sum_flatten' : ∀ rs : List (List ℂ), rs.flatten.sum = (rs.map List.sum).sum
  | [] => rfl
  | r :: rs => by rw [List.flatten_cons, List.sum_append, sum_flatten' rs, List.map_cons, List.sum_cons]

/-! ## Vmc -/

/-- C181: the gradient of `Vmc` is the covariance of the local energies with the conjugated log-derivatives over the samples of all processes, if
    `n_samples` is their number; for real parameters its real part. -/
theorem C181_vmc_covariance (L : Nat) (rs : List (Shard P)) (h : Equal L rs) (complexPars : Bool) (k : P) :
    vmcDp complexPars (rs.length * L) rs k = if complexPars then cov rs.flatten k else ((cov rs.flatten k).re : ℂ) := by
  have e : vmcGrads (rs.length * L) rs k = cov rs.flatten k := by
    unfold vmcGrads cov avg
    dsimp only
    rw [mean_map L rs h (fun x => x.1), List.length_map, Verif.Stats.flatten_length h]
    have e1 : ∀ m N : ℂ, (rs.map fun r => (r.map fun x => star (x.2 k) * ((x.1 - m) / N)).sum).sum
        = (rs.flatten.map fun x => star (x.2 k) * (x.1 - m)).sum / N := by
      intro m N
      rw [← map_flatten', sum_flatten', List.map_map]
      induction rs with
      | nil => simp
      | cons r rs ih =>
        have hr : Equal L rs := fun a ha => h a (List.mem_cons_of_mem _ ha)
        simp only [List.map_cons, List.sum_cons, Function.comp_apply]
        rw [ih hr, add_div]
        congr 1
        clear ih h hr
        induction r with
        | nil => simp
        | cons x r ih =>
          simp only [List.map_cons, List.sum_cons]
          rw [ih]
          ring
    rw [e1, List.length_map, Verif.Stats.flatten_length h]
    unfold avg
    rw [List.length_map, Verif.Stats.flatten_length h]
    rfl
  unfold vmcDp
  rw [e]

/-- C181: on samples which represent `|ψ|²` exactly, for a Hermitian operator and a log-amplitude holomorphic in parameter `k`, the derivative of the
    energy in any complex direction `v` is `2 Re(conj(v) F_k)` with the gradient `F` of `Vmc`. -/
theorem C181_vmc_gradient {S : Type} [Fintype S] [Nonempty S] (H : S → S → ℂ) (hH : ∀ s t, H t s = (starRingEnd ℂ) (H s t))
    (l : ℂ → S → ℂ) (D : S → P → ℂ) (w : ℂ) (k : P) (hD : ∀ s, HasDerivAt (fun x => l x s) (D s k) w)
    (L : Nat) (shards : List (List S)) (hL : Equal L shards) (hne : shards.flatten ≠ [])
    (hr : Represents (l w) shards.flatten) (v : ℂ) :
    HasDerivAt (fun t : ℝ => energy H (l (w + t * v)))
      (2 * ((starRingEnd ℂ) v * vmcDp true (shards.length * L) (shards.map (dataOf H (l w) D)) k).re) 0 := by
  have hL' : Equal L (shards.map (dataOf H (l w) D)) := by
    intro a ha
    rcases List.mem_map.1 ha with ⟨b, hb, rfl⟩
    rw [dataOf, List.length_map, hL b hb]
  have e := C181_vmc_covariance L (shards.map (dataOf H (l w) D)) hL' true k
  rw [List.length_map, if_pos rfl] at e
  rw [e]
  have h := C59_gradient_complex H hH l D w k hD L shards hL hne hr v
  rw [C59_covariance true L _ hL', if_pos rfl] at h
  exact h

/-- the log-derivatives of a process as an array. -/
def asRank (r : Shard Nat) : Verif.LegacySR.Rank := ⟨r.length, fun s k => (r.getD s (0, fun _ => 0)).2 k⟩

/-- the samples of these arrays are those of the lists. -/
theorem pool_asRank (rs : List (Shard Nat)) : Verif.LegacySR.pool (rs.map asRank) = rs.flatten.map Prod.snd := by
  induction rs with
  | nil => rfl
  | cons r rs ih =>
    rw [List.map_cons, Verif.LegacySR.pool, List.flatMap_cons, List.flatten_cons, List.map_append, ← ih]
    congr 1
    refine List.ext_getElem (by simp [asRank]) fun i h1 h2 => ?_
    simp only [List.length_map] at h2
    simp [asRank, List.getD_eq_getElem?_getD, h2]

/-- C181: with SR, the update of `Vmc` solves `(S + shift) x = F` with the covariance `S` of the log-derivatives and the covariance `F` of local
    energies and log-derivatives, of the samples of all processes. -/
theorem C181_vmc_sr (n : Nat) (sv : Verif.LegacySR.Solvers) (G : Verif.LegacySR.Good n sv) (s : Verif.LegacySR.St) (hc : s.complex = some true)
    (hp : s.scaleInv = false) (shift : ℝ) (hs : 0 < shift) (L : Nat) (rs : List (Shard Nat)) (h : Equal L rs) (me : Nat) (x0 : Nat → ℂ) :
    ∃ o, (Verif.LegacySR.computeUpdate s sv n shift (rs.map asRank) me x0 (vmcGrads (rs.length * L) rs)).2 = .ok o ∧
      ∀ i < n, (∑ j ∈ Finset.range n, Verif.Spec.covariance (rs.flatten.map Prod.snd) i j * o.x j) + (shift : ℂ) * o.x i = cov rs.flatten i := by
  obtain ⟨o, h1, _, h3⟩ := Verif.LegacySR.C179_complex n sv G s hc hp shift hs (rs.map asRank) L
    (by intro r hr; obtain ⟨a, ha, rfl⟩ := List.mem_map.1 hr; exact h a ha) me x0 (vmcGrads (rs.length * L) rs)
  refine ⟨o, h1, fun i hi => ?_⟩
  have e := C181_vmc_covariance L rs h true i
  rw [if_pos rfl, vmcDp, if_pos rfl] at e
  rw [← e, ← pool_asRank]
  exact h3 i hi

/-! ## SteadyState -/

theorem normSq_deriv (F : ℝ → ℂ) (F' : ℂ) (w : ℝ) (h : HasDerivAt F F' w) :
    HasDerivAt (fun t => Complex.normSq (F t)) (2 * ((starRingEnd ℂ) F' * F w).re) w := by
  have h1 := h.star.mul h
  have h2 := Complex.reCLM.hasFDerivAt.comp_hasDerivAt w h1
  have e : (Complex.reCLM ∘ ((fun t => star (F t)) * F)) = fun t => Complex.normSq (F t) := by
    funext t
    simp only [Function.comp, Pi.mul_apply, Complex.reCLM_apply]
    change ((starRingEnd ℂ) (F t) * F t).re = _
    rw [← Complex.normSq_eq_conj_mul_self, Complex.ofReal_re]
  rw [← e]
  refine HasDerivAt.congr_deriv h2 ?_
  simp only [Complex.reCLM_apply]
  change ((starRingEnd ℂ) F' * F w + (starRingEnd ℂ) (F w) * F').re = _
  simp [Complex.mul_re]
  ring

section exact
variable {S : Type} [Fintype S]

/-- `‖Lρ‖²/‖ρ‖²` of the amplitudes `exp(l s)`. -/
noncomputable def ratio (M : S → S → ℂ) (l : S → ℂ) : ℝ :=
  (∑ s, Complex.normSq (∑ t, M s t * Complex.exp (l t))) / ∑ s, Complex.normSq (Complex.exp (l s))

/-- the derivative of the local value: `Σ_t M(s,t) ρ(t)/ρ(s) O(t)`. -/
noncomputable def derLoc (M : S → S → ℂ) (l D : S → ℂ) (s : S) : ℂ := ∑ t, M s t * Complex.exp (l t - l s) * D t

theorem norm_deriv [Nonempty S] (l : ℝ → S → ℂ) (D : S → ℂ) (w : ℝ) (hD : ∀ s, HasDerivAt (fun x => l x s) (D s) w) :
    HasDerivAt (fun x => ∑ s, Complex.normSq (Complex.exp (l x s))) (2 * ∑ s, Complex.normSq (Complex.exp (l w s)) * (D s).re) w := by
  have h := HasDerivAt.fun_sum (u := Finset.univ) fun s _ => normSq_deriv (fun x => Complex.exp (l x s)) _ w (hD s).cexp
  refine HasDerivAt.congr_deriv h ?_
  rw [Finset.mul_sum]
  refine Finset.sum_congr rfl fun s _ => ?_
  have : (starRingEnd ℂ) (Complex.exp (l w s) * D s) * Complex.exp (l w s)
      = (Complex.normSq (Complex.exp (l w s)) : ℂ) * (starRingEnd ℂ) (D s) := by
    rw [map_mul, Complex.normSq_eq_conj_mul_self]
    ring
  rw [this, Complex.re_ofReal_mul, Complex.conj_re]

/-- the derivative of the ratio. -/
theorem ratio_deriv [Nonempty S] (M : S → S → ℂ) (l : ℝ → S → ℂ) (D : S → ℂ) (w : ℝ) (hD : ∀ s, HasDerivAt (fun x => l x s) (D s) w) :
    HasDerivAt (fun x => ratio M (l x))
      (2 * ((∑ s, (prob (l w) s : ℂ) * ((starRingEnd ℂ) (derLoc M (l w) D s) * eLoc M (l w) s))
        - (starRingEnd ℂ) (∑ s, (prob (l w) s : ℂ) * D s) * ∑ s, (prob (l w) s : ℂ) * ((Complex.normSq (eLoc M (l w) s) : ℝ) : ℂ)).re) w := by
  have hZ := Z_pos (l w)
  have hN := HasDerivAt.fun_sum (u := Finset.univ) fun s _ => normSq_deriv (fun x => ∑ t, M s t * Complex.exp (l x t)) _ w
    (HasDerivAt.fun_sum (u := Finset.univ) fun t _ => ((hD t).cexp.const_mul (M s t)))
  have hB := norm_deriv l D w hD
  have hq := hN.div hB hZ.ne'
  refine HasDerivAt.congr_deriv (f := fun x => ratio M (l x)) hq ?_
  have f1 : ∀ s, (∑ t, M s t * Complex.exp (l w t)) = Complex.exp (l w s) * eLoc M (l w) s := by
    intro s
    rw [eLoc, Finset.mul_sum]
    refine Finset.sum_congr rfl fun t _ => ?_
    rw [Complex.exp_sub]
    field_simp [Complex.exp_ne_zero]
  have f2 : ∀ s, (∑ t, M s t * (Complex.exp (l w t) * D t)) = Complex.exp (l w s) * derLoc M (l w) D s := by
    intro s
    rw [derLoc, Finset.mul_sum]
    refine Finset.sum_congr rfl fun t _ => ?_
    rw [Complex.exp_sub]
    field_simp [Complex.exp_ne_zero]
  simp only [f1, f2, map_mul, Complex.normSq_mul]
  obtain ⟨Z, hZd⟩ : ∃ Z, Z = ∑ s, Complex.normSq (Complex.exp (l w s)) := ⟨_, rfl⟩
  have g1 : ∀ s, ((starRingEnd ℂ) (Complex.exp (l w s)) * (starRingEnd ℂ) (derLoc M (l w) D s) * (Complex.exp (l w s) * eLoc M (l w) s)).re
      = Complex.normSq (Complex.exp (l w s)) * ((starRingEnd ℂ) (derLoc M (l w) D s) * eLoc M (l w) s).re := by
    intro s
    rw [← Complex.re_ofReal_mul, Complex.normSq_eq_conj_mul_self]
    congr 1
    ring
  simp only [g1]
  have p1 : ∀ f : S → ℂ, (∑ s, (prob (l w) s : ℂ) * f s) = (∑ s, (Complex.normSq (Complex.exp (l w s)) : ℂ) * f s) / (Z : ℂ) := by
    intro f
    rw [Finset.sum_div]
    refine Finset.sum_congr rfl fun s _ => ?_
    rw [prob, ← hZd]
    push_cast
    ring
  rw [p1, p1, p1, ← hZd]
  rw [← hZd] at hZ
  have q1 : (∑ s, (Complex.normSq (Complex.exp (l w s)) : ℂ) * ((starRingEnd ℂ) (derLoc M (l w) D s) * eLoc M (l w) s)).re
      = ∑ s, Complex.normSq (Complex.exp (l w s)) * ((starRingEnd ℂ) (derLoc M (l w) D s) * eLoc M (l w) s).re := by
    rw [Complex.re_sum]
    exact Finset.sum_congr rfl fun s _ => Complex.re_ofReal_mul _ _
  have q2 : (∑ s, (Complex.normSq (Complex.exp (l w s)) : ℂ) * D s).re = ∑ s, Complex.normSq (Complex.exp (l w s)) * (D s).re := by
    rw [Complex.re_sum]
    exact Finset.sum_congr rfl fun s _ => Complex.re_ofReal_mul _ _
  have q3 : (∑ s, (Complex.normSq (Complex.exp (l w s)) : ℂ) * ((Complex.normSq (eLoc M (l w) s) : ℝ) : ℂ))
      = ((∑ s, Complex.normSq (Complex.exp (l w s)) * Complex.normSq (eLoc M (l w) s) : ℝ) : ℂ) := by
    push_cast
    rfl
  rw [q3, ← Complex.ofReal_div, Complex.sub_re, Complex.re_mul_ofReal, Complex.conj_re, Complex.div_ofReal_re, Complex.div_ofReal_re, q1, q2]
  rw [← Finset.mul_sum]
  field_simp

/-- C181: on samples which represent `|ρ|²` exactly, twice the real part of the gradient of `SteadyState` is the derivative of `‖Lρ‖²/‖ρ‖²` along a
    real parameter. -/
theorem C181_steady_gradient [Nonempty S] (M : S → S → ℂ) (l : ℝ → S → ℂ) (D : S → P → ℂ) (w : ℝ) (k : P) (hD : ∀ s, HasDerivAt (fun x => l x s) (D s k) w)
    (L : Nat) (shards : List (List S)) (hL : Equal L shards) (hne : shards.flatten ≠ []) (hr : Represents (l w) shards.flatten) :
    HasDerivAt (fun x => ratio M (l x))
      (2 * (steadyGrads (shards.map fun r => r.map fun s => (⟨eLoc M (l w) s, fun k => derLoc M (l w) (fun t => D t k) s, D s⟩ : Sample P)) k).re) w := by
  have h := ratio_deriv M l (fun s => D s k) w hD
  have e : ∀ f : Sample P → ℂ, mean ((shards.map fun r => r.map fun s =>
      (⟨eLoc M (l w) s, fun k => derLoc M (l w) (fun t => D t k) s, D s⟩ : Sample P)).map fun r => r.map f)
      = ∑ s, (prob (l w) s : ℂ) * f ⟨eLoc M (l w) s, fun k => derLoc M (l w) (fun t => D t k) s, D s⟩ := by
    intro f
    rw [← avg_represents (l w) shards.flatten hne hr (fun s => f ⟨eLoc M (l w) s, fun k => derLoc M (l w) (fun t => D t k) s, D s⟩), ← mean_map L shards hL]
    rw [List.map_map]
    congr 1
    refine List.map_congr_left fun r _ => ?_
    simp only [Function.comp_apply, List.map_map]
    rfl
  unfold steadyGrads steadyLoss
  rw [e, e, e]
  refine HasDerivAt.congr_deriv h ?_
  congr 4
  refine Finset.sum_congr rfl fun s _ => ?_
  rw [Complex.normSq_eq_norm_sq]

/-! ## Qsr -/

/-- the amplitude in the rotated basis, `Σ mel·exp(lv)`. -/
noncomputable def amp (cs : List (Conn P)) : ℂ := (cs.map fun c => c.mel * Complex.exp c.lv).sum

/-- its derivative along parameter `k`. -/
noncomputable def ampDer (cs : List (Conn P)) (k : P) : ℂ := (cs.map fun c => c.mel * Complex.exp c.lv * c.o k).sum

theorem shift_sum (cs : List (Conn P)) (m : ℝ) (g : Conn P → ℂ) :
    (cs.map fun c => c.mel * Complex.exp (c.lv - (m : ℂ)) * g c).sum = Complex.exp (-(m : ℂ)) * (cs.map fun c => c.mel * Complex.exp c.lv * g c).sum := by
  induction cs with
  | nil => simp
  | cons c cs ih =>
    simp only [List.map_cons, List.sum_cons]
    rw [ih, sub_eq_add_neg, Complex.exp_add]
    ring

theorem star_sum (cs : List (Conn P)) (g : Conn P → ℂ) : (cs.map fun c => star (g c)).sum = star (cs.map g).sum := by
  induction cs with
  | nil => simp
  | cons c cs ih => simp only [List.map_cons, List.sum_cons]; rw [ih, star_add]

/-- C181: the positive phase of one datum is the conjugated logarithmic derivative of its amplitude in the rotated basis, whatever the shift of the
    exponents is. -/
theorem C181_qsr_rotated (cs : List (Conn P)) (k : P) : rotatedGrad cs k = star (ampDer cs k / amp cs) := by
  unfold rotatedGrad
  dsimp only
  generalize maxLog cs = m
  have e1 : (cs.map fun c => star (c.mel * Complex.exp (c.lv - (m : ℂ)))).sum = star (Complex.exp (-(m : ℂ)) * amp cs) := by
    rw [star_sum cs fun c => c.mel * Complex.exp (c.lv - (m : ℂ))]
    have := shift_sum cs m fun _ => 1
    simp only [mul_one] at this
    rw [this]
    rfl
  rw [e1]
  generalize star (Complex.exp (-(m : ℂ)) * amp cs) = T at *
  have e2 : ∀ T : ℂ, (cs.map fun c => star (c.o k) * (star (c.mel * Complex.exp (c.lv - (m : ℂ))) / T)).sum
      = star (Complex.exp (-(m : ℂ)) * ampDer cs k) / T := by
    intro T
    have := star_sum cs fun c => c.mel * Complex.exp (c.lv - (m : ℂ)) * c.o k
    rw [shift_sum cs m fun c => c.o k] at this
    rw [ampDer, ← this]
    clear this e1
    induction cs with
    | nil => simp
    | cons c cs ih =>
      simp only [List.map_cons, List.sum_cons]
      rw [ih, star_mul' (c.mel * Complex.exp (c.lv - (m : ℂ))) (c.o k), add_div]
      congr 1
      ring
  rw [e2]
  have hne : Complex.exp (-(m : ℂ)) ≠ 0 := Complex.exp_ne_zero _
  rw [← e1, star_sum cs fun c => c.mel * Complex.exp (c.lv - (m : ℂ))]
  have := shift_sum cs m fun _ => 1
  simp only [mul_one] at this
  rw [this, ← star_div₀]
  congr 1
  change Complex.exp (-(m : ℂ)) * ampDer cs k / (Complex.exp (-(m : ℂ)) * amp cs) = _
  rw [mul_div_mul_left _ _ hne]

/-- C181: the shift is the largest real part of the logarithms, so that no exponential of the sums overflows and one of them has modulus one. -/
theorem C181_qsr_shift (cs : List (Conn P)) (hne : cs ≠ []) :
    (∀ c ∈ cs, ‖Complex.exp (c.lv - (maxLog cs : ℂ))‖ ≤ 1) ∧ ∃ c ∈ cs, ‖Complex.exp (c.lv - (maxLog cs : ℂ))‖ = 1 := by
  have key : ∀ (l : List (Conn P)) (m : ℝ), (∀ c ∈ l, c.lv.re ≤ l.foldl (fun m c => max m c.lv.re) m) ∧ m ≤ l.foldl (fun m c => max m c.lv.re) m ∧
      (l.foldl (fun m c => max m c.lv.re) m = m ∨ ∃ c ∈ l, l.foldl (fun m c => max m c.lv.re) m = c.lv.re) := by
    intro l
    induction l with
    | nil => intro m; exact ⟨by simp, le_refl _, Or.inl rfl⟩
    | cons c l ih =>
      intro m
      obtain ⟨h1, h2, h3⟩ := ih (max m c.lv.re)
      simp only [List.foldl_cons, List.mem_cons, forall_eq_or_imp]
      refine ⟨⟨(le_max_right _ _).trans h2, h1⟩, (le_max_left _ _).trans h2, ?_⟩
      rcases h3 with h3 | ⟨d, hd, h3⟩
      · rw [h3]
        rcases max_choice m c.lv.re with h | h
        · exact Or.inl h
        · exact Or.inr ⟨c, Or.inl rfl, h⟩
      · exact Or.inr ⟨d, Or.inr hd, h3⟩
  have en : ∀ c : Conn P, ‖Complex.exp (c.lv - (maxLog cs : ℂ))‖ = Real.exp (c.lv.re - maxLog cs) := by
    intro c
    rw [Complex.norm_exp]
    simp
  simp only [en]
  match cs, hne with
  | c :: l, _ =>
    obtain ⟨h1, h2, h3⟩ := key l c.lv.re
    refine ⟨fun d hd => Real.exp_le_one_iff.2 (sub_nonpos.2 ?_), ?_⟩
    · rcases List.mem_cons.1 hd with rfl | hd
      · exact h2
      · exact h1 d hd
    · rcases h3 with h3 | ⟨d, hd, h3⟩
      · exact ⟨c, by simp, by rw [Real.exp_eq_one_iff, sub_eq_zero]; exact h3.symm⟩
      · exact ⟨d, by simp [hd], by rw [Real.exp_eq_one_iff, sub_eq_zero]; exact h3.symm⟩

/-- C181: `nll` is minus the average of `log|Ψ_b(x)|²` plus the given norm. -/
theorem C181_qsr_nll (data : List (List (Conn P))) (h : ∀ cs ∈ data, amp cs ≠ 0) (logNorm : ℝ) :
    nll data logNorm = -((data.map fun cs => Real.log (Complex.normSq (amp cs))).sum / data.length) + logNorm := by
  have e : ∀ cs ∈ data, nllTerm cs = Real.log (Complex.normSq (amp cs)) := by
    intro cs hcs
    unfold nllTerm
    dsimp only
    generalize maxLog cs = m
    have := shift_sum cs m fun _ => 1
    simp only [mul_one] at this
    rw [this, norm_mul, mul_pow]
    change Real.log (‖Complex.exp (-(m : ℂ))‖ ^ 2 * ‖amp cs‖ ^ 2) + 2 * m = _
    have hn : ‖amp cs‖ ^ 2 ≠ 0 := pow_ne_zero _ (norm_ne_zero_iff.2 (h cs hcs))
    rw [Complex.norm_exp, Real.log_mul (pow_ne_zero _ (Real.exp_ne_zero _)) hn, Real.log_pow, Real.log_exp, ← Complex.normSq_eq_norm_sq]
    simp
  unfold nll
  congr 1
  rw [List.map_congr_left fun cs hcs => by rw [e cs hcs], ← neg_div]
  congr 1
  clear e h
  induction data with
  | nil => simp
  | cons a t ih => simp only [List.map_cons, List.sum_cons]; rw [ih]; ring

/-- the average of the rows of equal length is the average. -/
theorem negPhase_avg (B : Nat) (hB : 0 < B) (L : Nat) (rs : List (List (List (P → ℂ)))) (hL : Equal L rs) (hR : ∀ rows ∈ rs, Equal B rows) (k : P) :
    negPhase B rs k = avg (rs.flatten.flatten.map fun o => star (o k)) := by
  unfold negPhase
  rw [mean_map L rs hL]
  have hf : Equal B rs.flatten := by
    intro row hrow
    obtain ⟨rows, h1, h2⟩ := List.mem_flatten.1 hrow
    exact hR rows h1 row h2
  unfold avg
  rw [List.length_map, List.length_map, Verif.Stats.flatten_length hf, ← map_flatten' (fun o : P → ℂ => star (o k)), sum_flatten', List.map_map]
  have hB' : (B : ℂ) ≠ 0 := by exact_mod_cast hB.ne'
  have e : ∀ rows : List (List (P → ℂ)), (rows.map fun row => (row.map fun o => star (o k) * (1 / (B : ℂ))).sum).sum
      = (rows.map (List.sum ∘ fun row => row.map fun o => star (o k))).sum / B := by
    intro rows
    induction rows with
    | nil => simp
    | cons row rows ih =>
      simp only [List.map_cons, List.sum_cons]
      rw [ih, add_div]
      congr 1
      simp only [Function.comp_apply]
      clear ih
      induction row with
      | nil => simp
      | cons o row ih => simp only [List.map_cons, List.sum_cons]; rw [ih]; ring
  rw [e, div_div]
  push_cast
  rw [mul_comm]

/-- the same with SR. -/
theorem negPhaseSR_avg (B L : Nat) (rs : List (List (List (P → ℂ)))) (hL : Equal L rs) (hR : ∀ rows ∈ rs, Equal B rows) (k : P) :
    negPhaseSR rs k = avg (rs.flatten.flatten.map fun o => star (o k)) := by
  unfold negPhaseSR
  have h1 : (rs.map fun rows => rows.flatten.map fun o => o k) = (rs.map List.flatten).map fun r => r.map fun o => o k := by
    rw [List.map_map]
    rfl
  have hE : Equal (L * B) (rs.map List.flatten) := by
    intro a ha
    obtain ⟨rows, h, rfl⟩ := List.mem_map.1 ha
    rw [Verif.Stats.flatten_length (hR rows h), hL rows h]
  have h2 : (rs.map List.flatten).flatten = rs.flatten.flatten := by
    rw [List.flatten_flatten]
  rw [h1, mean_map (L * B) _ hE, h2]
  unfold avg
  rw [List.length_map, List.length_map, star_div₀]
  congr 1
  · generalize rs.flatten.flatten = l
    induction l with
    | nil => simp
    | cons o l ih => simp only [List.map_cons, List.sum_cons]; rw [star_add, ih]
  · exact Complex.conj_natCast _

/-- C181: the gradient of `Qsr` is twice the difference of the model average of the conjugated log-derivatives and the data average of the positive
    phases, over all processes, with and without SR. -/
theorem C181_qsr_gradient (sr : Bool) (B : Nat) (hB : 0 < B) (L L' : Nat) (rs : List (List (List (P → ℂ)))) (hL : Equal L rs)
    (hR : ∀ rows ∈ rs, Equal B rows) (data : List (List (List (Conn P)))) (hd : Equal L' data) (k : P) :
    qsrGrads sr B rs data k = 2 * (avg (rs.flatten.flatten.map fun o => star (o k)) - avg (data.flatten.map fun cs => star (ampDer cs k / amp cs))) := by
  unfold qsrGrads
  rw [negPhase_avg B hB L rs hL hR, negPhaseSR_avg B L rs hL hR, ite_self, mean_map L' data hd]
  simp only [C181_qsr_rotated]

theorem avg_re_deriv {X : Type} (xs : List X) (F : X → ℝ → ℝ) (F' : X → ℝ) (w : ℝ) (h : ∀ x ∈ xs, HasDerivAt (F x) (F' x) w) :
    HasDerivAt (fun t => (xs.map fun x => F x t).sum / (xs.length : ℝ)) ((xs.map F').sum / (xs.length : ℝ)) w := by
  refine HasDerivAt.div_const ?_ _
  induction xs with
  | nil => simpa using hasDerivAt_const w (0 : ℝ)
  | cons x xs ih =>
    simp only [List.map_cons, List.sum_cons]
    exact (h x List.mem_cons_self).add (ih fun y hy => h y (List.mem_cons_of_mem _ hy))

/-- C181: on samples which represent `|ψ|²` exactly, the real part of the gradient of `Qsr` is the derivative, along a real parameter, of the negative
    log-likelihood of the data of this step, with the exact norm, as computed by `nll`. -/
theorem C181_qsr_derivative [Nonempty S] (l : ℝ → S → ℂ) (D : S → P → ℂ) (w : ℝ) (k : P) (hD : ∀ s, HasDerivAt (fun x => l x s) (D s k) w)
    (sr : Bool) (B : Nat) (hB : 0 < B) (L L' : Nat) (rs : List (List (List S))) (hL : Equal L rs) (hR : ∀ rows ∈ rs, Equal B rows)
    (hne : rs.flatten.flatten ≠ []) (hr : Represents (l w) rs.flatten.flatten)
    (data : List (List (List (S × ℂ)))) (hd : Equal L' data)
    (hamp : ∀ x ∈ data.flatten, ∀ t, amp (x.map fun p => (⟨p.2, l t p.1, D p.1⟩ : Conn P)) ≠ 0) :
    HasDerivAt (fun t => nll (data.flatten.map fun x => x.map fun p => (⟨p.2, l t p.1, D p.1⟩ : Conn P))
        (Real.log (∑ s, Complex.normSq (Complex.exp (l t s)))))
      (qsrGrads sr B (rs.map fun rows => rows.map fun row => row.map D)
        (data.map fun r => r.map fun x => x.map fun p => (⟨p.2, l w p.1, D p.1⟩ : Conn P)) k).re w := by
  have hZ := Z_pos (l w)
  -- the norm
  have h1 := (norm_deriv l (fun s => D s k) w hD).log hZ.ne'
  -- the data
  let A : List (S × ℂ) → ℝ → ℂ := fun x t => amp (x.map fun p => (⟨p.2, l t p.1, D p.1⟩ : Conn P))
  have hA : ∀ x, HasDerivAt (A x) (ampDer (x.map fun p => (⟨p.2, l w p.1, D p.1⟩ : Conn P)) k) w := by
    intro x
    simp only [A, amp, ampDer, List.map_map]
    induction x with
    | nil => simpa using hasDerivAt_const w (0 : ℂ)
    | cons p x ih =>
      simp only [List.map_cons, List.sum_cons, Function.comp_apply]
      refine HasDerivAt.add ?_ ih
      have := ((hD p.1).cexp).const_mul p.2
      refine HasDerivAt.congr_deriv this ?_
      ring
  have h2 : ∀ x ∈ data.flatten, HasDerivAt (fun t => Real.log (Complex.normSq (A x t)))
      (2 * (star (ampDer (x.map fun p => (⟨p.2, l w p.1, D p.1⟩ : Conn P)) k / A x w)).re) w := by
    intro x hx
    have hne := Complex.normSq_pos.2 (hamp x hx w)
    have := (normSq_deriv (A x) _ w (hA x)).log hne.ne'
    refine HasDerivAt.congr_deriv this ?_
    have e : star (ampDer (x.map fun p => (⟨p.2, l w p.1, D p.1⟩ : Conn P)) k / A x w)
        = ((starRingEnd ℂ) (ampDer (x.map fun p => (⟨p.2, l w p.1, D p.1⟩ : Conn P)) k) * A x w) / (Complex.normSq (A x w) : ℂ) := by
      rw [star_div₀, Complex.normSq_eq_conj_mul_self]
      have hz : A x w ≠ 0 := hamp x hx w
      have hz' : (starRingEnd ℂ) (A x w) ≠ 0 := (map_ne_zero _).2 hz
      change (starRingEnd ℂ) _ / (starRingEnd ℂ) _ = _
      field_simp
    rw [e, Complex.div_ofReal_re]
    ring
  have h3 := avg_re_deriv data.flatten (fun x t => Real.log (Complex.normSq (A x t))) _ w h2
  have h4 := h3.neg.add h1
  have hf : (fun t => nll (data.flatten.map fun x => x.map fun p => (⟨p.2, l t p.1, D p.1⟩ : Conn P))
        (Real.log (∑ s, Complex.normSq (Complex.exp (l t s)))))
      = fun t => -((data.flatten.map fun x => Real.log (Complex.normSq (A x t))).sum / (data.flatten.length : ℝ))
        + Real.log (∑ s, Complex.normSq (Complex.exp (l t s))) := by
    funext t
    rw [C181_qsr_nll, List.length_map, List.map_map]
    · rfl
    · intro cs hcs
      obtain ⟨x, hx, rfl⟩ := List.mem_map.1 hcs
      exact hamp x hx t
  rw [hf]
  refine HasDerivAt.congr_deriv h4 ?_
  -- the gradient of the code
  have hL2 : Equal L (rs.map fun rows => rows.map fun row => row.map D) := by
    intro a ha
    obtain ⟨b, hb, rfl⟩ := List.mem_map.1 ha
    rw [List.length_map, hL b hb]
  have hR2 : ∀ rows ∈ (rs.map fun rows => rows.map fun row => row.map D), Equal B rows := by
    intro a ha row hrow
    obtain ⟨b, hb, rfl⟩ := List.mem_map.1 ha
    obtain ⟨c, hc, rfl⟩ := List.mem_map.1 hrow
    rw [List.length_map, hR b hb c hc]
  have hd2 : Equal L' (data.map fun r => r.map fun x => x.map fun p => (⟨p.2, l w p.1, D p.1⟩ : Conn P)) := by
    intro a ha
    obtain ⟨b, hb, rfl⟩ := List.mem_map.1 ha
    rw [List.length_map, hd b hb]
  rw [C181_qsr_gradient sr B hB L L' _ hL2 hR2 _ hd2]
  have g1 : (rs.map fun rows => rows.map fun row => row.map D).flatten.flatten = rs.flatten.flatten.map D := by
    rw [map_flatten' (fun row : List S => row.map D), map_flatten' D]
  rw [g1, List.map_map, map_flatten' (fun x : List (S × ℂ) => x.map fun p => (⟨p.2, l w p.1, D p.1⟩ : Conn P)), List.map_map]
  have g2 := avg_represents (l w) rs.flatten.flatten hne hr fun s => star (D s k)
  have g3 : ((fun o : P → ℂ => star (o k)) ∘ D) = fun s => star (D s k) := rfl
  rw [g3, g2]
  unfold avg
  rw [List.length_map]
  have r1 : (∑ s, (prob (l w) s : ℂ) * star (D s k)).re = (∑ s, Complex.normSq (Complex.exp (l w s)) * (D s k).re) / ∑ s, Complex.normSq (Complex.exp (l w s)) := by
    rw [Complex.re_sum, Finset.sum_div]
    refine Finset.sum_congr rfl fun s _ => ?_
    rw [Complex.re_ofReal_mul, prob]
    change _ * ((starRingEnd ℂ) (D s k)).re = _
    rw [Complex.conj_re]
    ring
  have r2 : ∀ xs : List (List (S × ℂ)), (xs.map ((fun cs => star (ampDer cs k / amp cs)) ∘ fun x : List (S × ℂ) => x.map fun p => (⟨p.2, l w p.1, D p.1⟩ : Conn P))).sum.re
      = (xs.map fun x => (star (ampDer (x.map fun p => (⟨p.2, l w p.1, D p.1⟩ : Conn P)) k / A x w)).re).sum := by
    intro xs
    induction xs with
    | nil => simp
    | cons x xs ih => simp only [List.map_cons, List.sum_cons, Complex.add_re]; rw [ih]; rfl
  have r3 : ∀ xs : List (List (S × ℂ)), (xs.map fun x => 2 * (star (ampDer (x.map fun p => (⟨p.2, l w p.1, D p.1⟩ : Conn P)) k / A x w)).re).sum
      = 2 * (xs.map fun x => (star (ampDer (x.map fun p => (⟨p.2, l w p.1, D p.1⟩ : Conn P)) k / A x w)).re).sum := by
    intro xs
    induction xs with
    | nil => simp
    | cons x xs ih => simp only [List.map_cons, List.sum_cons]; rw [ih]; ring
  have r4 : ∀ z : ℂ, ∀ n : ℕ, (z / (n : ℂ)).re = z.re / n := by
    intro z n
    have := Complex.div_ofReal_re z n
    simpa using this
  rw [r3, show (2 : ℂ) = ((2 : ℝ) : ℂ) by norm_num, Complex.re_ofReal_mul, Complex.sub_re, r1, r4, r2]
  ring

end exact

/-- two processes with two samples each meet the hypotheses. -/
example : Equal 2 [[((1 : ℂ), fun _ : Fin 1 => (2 : ℂ)), (3, fun _ => 4)], [(5, fun _ => 6), (7, fun _ => 8)]] := by
  intro a ha
  fin_cases ha <;> rfl

/-- a datum measured in a rotated basis with two connected configurations has an amplitude different from zero. -/
example : amp [(⟨1, 0, fun _ => 0⟩ : Conn (Fin 1)), ⟨1, 0, fun _ => 1⟩] ≠ 0 := by
  simp [amp]

end Verif.LegacyDriver

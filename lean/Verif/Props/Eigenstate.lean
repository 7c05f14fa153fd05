import Verif.Props.Estimate
import Verif.Props.ExpectStats
import Verif.Props.VMC
import Mathlib.Analysis.Matrix.Order
import Mathlib.Analysis.Matrix.PosDef

/-! C220: states that are eigenvectors of the operator, and the variational principle. -/

namespace Verif.Eigen
open Verif.LocalOp Verif.LocalValues Verif.Hilbert
open Verif.Stats (Equal)

variable {α : Type} [LinearOrder α] [Inhabited α] {N : Nat} {cut : Cutoff ℂ} {hi : Fin N → List α}

/-- specification: `ψ = exp logVal` is an eigenvector of the matrix `O` on the space `hi` with eigenvalue `E`. -/
def Eigenvector (hi : Fin N → List α) (O : (Fin N → α) → (Fin N → α) → ℂ) (logVal : (Fin N → α) → ℂ) (E : ℂ) : Prop :=
  ∀ x ∈ basisStates hi, ∑ x' ∈ basisStates hi, O x x' * Complex.exp (logVal x') = E * Complex.exp (logVal x)

/-- C220: on every batch of configurations all local values of an eigenvector are the eigenvalue; conversely a state whose local values are the same number `E` on all
    configurations is an eigenvector with eigenvalue `E`. -/
theorem C220_local_values (hid : Ideal cut) (hs : SortedSpace hi) (op : LOp ℂ α N) (h : Built cut hi op) (gm : Nat → ℂ) (gx : Nat → Fin N → α)
    (logVal : (Fin N → α) → ℂ) (E : ℂ) :
    Eigenvector hi (matrixOf hi op) logVal E
      ↔ ∀ v : List (Fin N → α), (∀ x ∈ v, Valid hi x) → localValues hi op gm gx logVal 2 N v none = .ok (List.replicate v.length E) := by
  constructor
  · intro he v hv
    rw [C93_local_values hid hs op h gm gx logVal v hv, ← List.map_const']
    congr 1
    apply List.map_congr_left
    intro x hx
    rw [he x ((Verif.LocalOp.mem_basis x).2 (hv x hx)), mul_div_cancel_right₀ _ (Complex.exp_ne_zero _)]
  · intro hl x hx
    have h1 := hl [x] (by intro y hy; rw [List.mem_singleton] at hy; subst hy; exact (Verif.LocalOp.mem_basis y).1 hx)
    rw [C93_local_values hid hs op h gm gx logVal [x] (by intro y hy; rw [List.mem_singleton] at hy; subst hy; exact (Verif.LocalOp.mem_basis y).1 hx)] at h1
    simp only [List.map_cons, List.map_nil, List.length_singleton, List.replicate_one, Except.ok.injEq, List.cons.injEq, and_true] at h1
    rw [← h1, div_mul_cancel₀ _ (Complex.exp_ne_zero _)]

/-! ## statistics and gradient -/

theorem avg_const (l : List ℂ) (hne : l ≠ []) (E : ℂ) (h : ∀ x ∈ l, x = E) : Verif.Stats.avg l = E := by
  have : l = List.replicate l.length E := List.eq_replicate_iff.2 ⟨rfl, h⟩
  rw [this, Verif.Stats.avg, List.sum_replicate, List.length_replicate, nsmul_eq_mul, mul_div_cancel_left₀]
  have := List.length_pos_of_ne_nil hne
  exact_mod_cast this.ne'

theorem stats_const (L m : Nat) (shards : List (List (List ℂ))) (hm : Equal m shards) (hL : ∀ rows ∈ shards, Equal L rows) (hne : shards.flatten.flatten ≠ []) (E : ℂ)
    (h : ∀ x ∈ shards.flatten.flatten, x = E) (r : Nat) :
    (Verif.ExpectStats.stats shards L r).mean = E ∧ (Verif.ExpectStats.stats shards L r).variance = 0
      ∧ (Verif.ExpectStats.stats shards L r).error = none ∧ (Verif.ExpectStats.stats shards L r).rHat = none := by
  have e1 : Equal (m * L) (shards.map List.flatten) := by
    refine Verif.Stats.equal_map _ ?_ hm
    intro a ha hs
    rw [Verif.Stats.flatten_length (hL a hs), ha]
  have hfl : (shards.map List.flatten).flatten = shards.flatten.flatten := (List.flatten_flatten).symm
  have hmean : Verif.Stats.mean (shards.map List.flatten) = E := by
    rw [Verif.Stats.C54_mean (m * L) _ e1, hfl]
    exact avg_const _ hne E h
  have hvar : Verif.Stats.var (fun z => Complex.normSq z) (shards.map List.flatten) r = 0 := by
    have hz : (((shards.map List.flatten).map fun a => a.map fun x => Complex.normSq (x - E)).map List.sum).sum = 0 := by
      apply List.sum_eq_zero
      intro y hy
      obtain ⟨b, hb, rfl⟩ := List.mem_map.1 hy
      obtain ⟨a, ha, rfl⟩ := List.mem_map.1 hb
      apply List.sum_eq_zero
      intro z hz
      obtain ⟨x, hx, rfl⟩ := List.mem_map.1 hz
      have : x = E := h x (by rw [← hfl]; exact List.mem_flatten.2 ⟨a, ha, hx⟩)
      simp [this]
    unfold Verif.Stats.var Verif.Stats.sum Verif.Stats.mpiSum
    rw [hmean, hz, zero_div]
  unfold Verif.ExpectStats.stats Verif.Stats.statistics
  simp [hmean, hvar, Verif.Stats.tauOf, Verif.Stats.fdiv, Verif.Stats.ltF]

/-- C220: for an eigenvector the statistics returned by `expect` and `expect_and_grad` are, for all samples, numbers of chains and ranks: mean the eigenvalue, variance zero; the
    error and `R_hat` are NaN. -/
theorem C220_statistics {Hs : Type} [DecidableEq Hs] (op : LOp ℂ α N) (logVal : (Fin N → α) → ℂ) (E : ℂ) (he : Eigenvector hi (matrixOf hi op) logVal E)
    (o : Verif.ExpectStats.Op (Fin N → α) Hs) (hsq : o.squared = false) (hh : o.hermitian = true)
    (ho : ∀ x, Valid hi x → o.loc x = (∑ x' ∈ basisStates hi, matrixOf hi op x x' * Complex.exp (logVal x')) / Complex.exp (logVal x))
    (T C : Nat) (hT : 0 < T) (hC : 0 < C) (shards : List (Nat → Nat → Fin N → α)) (hv : ∀ s ∈ shards, ∀ t c, Valid hi (s t c)) (r : Nat) (hr : r < shards.length)
    (experimental : Bool) :
    ∃ a, Verif.ExpectStats.expect o.space T C shards r o = .ok (.stats a) ∧ Verif.ExpectStats.expectAndGrad experimental o.space T C shards r o none = .ok (.stats a)
      ∧ a.mean = E ∧ a.variance = 0 ∧ a.error = none ∧ a.rHat = none := by
  have h1 := (Verif.ExpectStats.C218_expect o.space T C hT shards r hr o).1 rfl hsq
  have h2 := (Verif.ExpectStats.C218_grad experimental o.space T C hT shards r hr o).1 hsq hh
  obtain ⟨e1, e2⟩ := Verif.ExpectStats.chains_equal T C o.loc shards
  refine ⟨_, h1, h2.trans h1, stats_const T C _ e1 e2 ?_ E ?_ r⟩
  · have hs : shards[r] ∈ shards := List.getElem_mem hr
    intro hnil
    have : o.loc (shards[r] 0 0) ∈ ([] : List ℂ) := by
      rw [← hnil]
      refine List.mem_flatten.2 ⟨(List.range T).map fun t => o.loc (shards[r] t 0), List.mem_flatten.2 ⟨_, List.mem_map.2 ⟨_, hs, rfl⟩, ?_⟩, ?_⟩
      · exact List.mem_map.2 ⟨0, List.mem_range.2 hC, rfl⟩
      · exact List.mem_map.2 ⟨0, List.mem_range.2 hT, rfl⟩
    simp at this
  · intro x hx
    obtain ⟨a, ha, hx⟩ := List.mem_flatten.1 hx
    obtain ⟨rows, hrows, ha⟩ := List.mem_flatten.1 ha
    obtain ⟨s, hs, rfl⟩ := List.mem_map.1 hrows
    obtain ⟨c, _, rfl⟩ := List.mem_map.1 ha
    obtain ⟨t, _, rfl⟩ := List.mem_map.1 hx
    have hval := hv s hs t c
    rw [ho _ hval, he _ ((Verif.LocalOp.mem_basis _).2 hval), mul_div_cancel_right₀ _ (Complex.exp_ne_zero _)]

/-- C220: for squares the mean is the absolute value of the eigenvalue squared, with zero variance; in particular everything is zero for a stationary state of a Lindbladian. -/
theorem C220_squared {Hs : Type} [DecidableEq Hs] (O : (Fin N → α) → (Fin N → α) → ℂ) (logVal : (Fin N → α) → ℂ) (E : ℂ) (he : Eigenvector hi O logVal E)
    (o : Verif.ExpectStats.Op (Fin N → α) Hs) (hsq : o.squared = true)
    (ho : ∀ x, Valid hi x → o.loc x = (∑ x' ∈ basisStates hi, O x x' * Complex.exp (logVal x')) / Complex.exp (logVal x))
    (T C : Nat) (hT : 0 < T) (hC : 0 < C) (shards : List (Nat → Nat → Fin N → α)) (hv : ∀ s ∈ shards, ∀ t c, Valid hi (s t c)) (r : Nat) (hr : r < shards.length) :
    ∃ a, Verif.ExpectStats.expect o.space T C shards r o = .ok (.stats a) ∧ a.mean = Complex.normSq E ∧ a.variance = 0 := by
  have h1 := (Verif.ExpectStats.C218_expect o.space T C hT shards r hr o).2.1 rfl hsq
  obtain ⟨e1, e2⟩ := Verif.ExpectStats.chains_equal T C (fun x => ((Complex.normSq (o.loc x) : ℝ) : ℂ)) shards
  have hc := stats_const T C _ e1 e2 ?_ (Complex.normSq E) ?_ r
  · exact ⟨_, h1, hc.1, hc.2.1⟩
  · have hs : shards[r] ∈ shards := List.getElem_mem hr
    intro hnil
    have : ((Complex.normSq (o.loc (shards[r] 0 0)) : ℝ) : ℂ) ∈ ([] : List ℂ) := by
      rw [← hnil]
      refine List.mem_flatten.2 ⟨(List.range T).map fun t => ((Complex.normSq (o.loc (shards[r] t 0)) : ℝ) : ℂ), List.mem_flatten.2 ⟨_, List.mem_map.2 ⟨_, hs, rfl⟩, ?_⟩, ?_⟩
      · exact List.mem_map.2 ⟨0, List.mem_range.2 hC, rfl⟩
      · exact List.mem_map.2 ⟨0, List.mem_range.2 hT, rfl⟩
    simp at this
  · intro x hx
    obtain ⟨a, ha, hx⟩ := List.mem_flatten.1 hx
    obtain ⟨rows, hrows, ha⟩ := List.mem_flatten.1 ha
    obtain ⟨s, hs, rfl⟩ := List.mem_map.1 hrows
    obtain ⟨c, _, rfl⟩ := List.mem_map.1 ha
    obtain ⟨t, _, rfl⟩ := List.mem_map.1 hx
    have hval := hv s hs t c
    dsimp only
    rw [ho _ hval, he _ ((Verif.LocalOp.mem_basis _).2 hval), mul_div_cancel_right₀ _ (Complex.exp_ne_zero _)]

/-- C220: the gradient computed from any samples of an eigenvector, distributed over any ranks, is zero. -/
theorem C220_gradient {P : Type} (complexPars : Bool) (L : Nat) (shards : List (Verif.Vjp.Shard P)) (h : Equal L shards) (E : ℂ)
    (he : ∀ a ∈ shards, ∀ x ∈ a, x.1 = E) (k : P) : Verif.Vjp.gradHermitian complexPars shards k = 0 := by
  rw [Verif.Vjp.C59_covariance complexPars L shards h]
  have hc : Verif.Vjp.cov shards.flatten k = 0 := by
    by_cases hne : shards.flatten = []
    · rw [hne]; simp [Verif.Vjp.cov, Verif.Stats.avg]
    unfold Verif.Vjp.cov
    rw [avg_const (shards.flatten.map Prod.fst) (by simpa using hne) E]
    · apply avg_const _ (by simpa using hne)
      intro y hy
      obtain ⟨x, hx, rfl⟩ := List.mem_map.1 hy
      obtain ⟨a, ha, hx⟩ := List.mem_flatten.1 hx
      rw [he a ha x hx, sub_self, mul_zero]
    · intro y hy
      obtain ⟨x, hx, rfl⟩ := List.mem_map.1 hy
      obtain ⟨a, ha, hx⟩ := List.mem_flatten.1 hx
      exact he a ha x hx
  rw [hc]
  cases complexPars <;> simp

/-- C220: eigenvectors are fixed points of the optimisation: without preconditioner the update is zero, and with stochastic reconfiguration every solution of the linear system
    with a positive diagonal shift is zero, for all samples. -/
theorem C220_fixed {S : Type} [Fintype S] (H : S → S → ℂ) (l : S → ℂ) (E : ℂ) (he : ∀ s, ∑ t, H s t * Complex.exp (l t) = E * Complex.exp (l s))
    (cplx : Nat → Bool) (Dre : S → Nat → ℂ) (xs : List S) :
    (∀ k, Verif.VMC.gradient H l cplx Dre xs k = 0)
    ∧ ∀ (J : Verif.QGT.Jac) (ns np : Nat) (shift : ℝ) (dp : Nat → ℂ), 0 < ns → 0 < shift →
      (∀ k < np, Verif.QGT.matVec ns np J shift dp k = Verif.VMC.gradient H l cplx Dre xs k) → ∀ k < np, dp k = 0 := by
  have hg : ∀ k, Verif.VMC.gradient H l cplx Dre xs k = 0 := by
    intro k
    unfold Verif.VMC.gradient
    refine C220_gradient (cplx k) xs.length _ ?_ E ?_ k
    · intro a ha
      rw [List.mem_singleton.1 ha, Verif.Vjp.dataOf, List.length_map]
    · intro a ha x hx
      rw [List.mem_singleton.1 ha] at hx
      obtain ⟨s, _, rfl⟩ := List.mem_map.1 hx
      show Verif.Vjp.eLoc H l s = E
      unfold Verif.Vjp.eLoc
      simp only [Complex.exp_sub, ← mul_div_assoc]
      rw [← Finset.sum_div, he, mul_div_cancel_right₀ _ (Complex.exp_ne_zero _)]
  refine ⟨hg, fun J ns np shift dp hns hs hsolve k hk => ?_⟩
  have h2 := (Verif.QGT.C65_positive ns np hns J shift dp).2
  have h0 : Verif.QGT.rdot np dp (Verif.QGT.matVec ns np J shift dp) = 0 := by
    unfold Verif.QGT.rdot
    apply Finset.sum_eq_zero
    intro j hj
    rw [hsolve j (Finset.mem_range.1 hj), hg]
    simp
  rw [h0] at h2
  have hsum : ∑ k ∈ Finset.range np, Complex.normSq (dp k) = 0 := by
    apply le_antisymm
    · by_contra hlt
      push Not at hlt
      have := mul_pos hs hlt
      linarith
    · exact Finset.sum_nonneg fun _ _ => Complex.normSq_nonneg _
  have := (Finset.sum_eq_zero_iff_of_nonneg fun _ _ => Complex.normSq_nonneg _).1 hsum k (Finset.mem_range.2 hk)
  exact Complex.normSq_eq_zero.1 this

/-! ## the variational principle -/

open scoped ComplexOrder

section
variable (hi) (O : (Fin N → α) → (Fin N → α) → ℂ) (E0 : ℝ)

/-- `O - E0` as a matrix over the basis. -/
noncomputable def shifted : Matrix {x // x ∈ basisStates hi} {x // x ∈ basisStates hi} ℂ := Matrix.of fun a b => O a b - if a = b then (E0 : ℂ) else 0

variable {hi O E0}

theorem shifted_mulVec (φ : {x // x ∈ basisStates hi} → ℂ) (a : {x // x ∈ basisStates hi}) :
    (shifted hi O E0).mulVec φ a = (∑ b : {x // x ∈ basisStates hi}, O a b * φ b) - E0 * φ a := by
  unfold shifted Matrix.mulVec dotProduct
  simp only [Matrix.of_apply, sub_mul, Finset.sum_sub_distrib, ite_mul, zero_mul, Finset.sum_ite_eq, Finset.mem_univ, if_true]

theorem shifted_psd (hO : ∀ x ∈ basisStates hi, ∀ x' ∈ basisStates hi, O x' x = star (O x x'))
    (hE : ∀ (e : ℝ) (φ : (Fin N → α) → ℂ), (∃ x ∈ basisStates hi, φ x ≠ 0) → (∀ x ∈ basisStates hi, ∑ x' ∈ basisStates hi, O x x' * φ x' = e * φ x) → E0 ≤ e) :
    (shifted hi O E0).PosSemidef := by
  have hH : (shifted hi O E0).IsHermitian := by
    ext a b
    simp only [Matrix.conjTranspose_apply, shifted, Matrix.of_apply, star_sub]
    rw [← hO b b.2 a a.2]
    by_cases h : a = b
    · subst h; simp
    · rw [if_neg h, if_neg (fun e => h e.symm)]; simp
  rw [hH.posSemidef_iff_eigenvalues_nonneg]
  intro i
  have hv := hH.mulVec_eigenvectorBasis i
  have hne : (⇑(hH.eigenvectorBasis i) : {x // x ∈ basisStates hi} → ℂ) ≠ 0 := by
    intro h0
    have := hH.eigenvectorBasis.orthonormal.ne_zero i
    exact this (by ext j; exact congrFun h0 j)
  obtain ⟨a, ha⟩ := Function.ne_iff.1 hne
  have := hE (hH.eigenvalues i + E0) (fun x => if h : x ∈ basisStates hi then hH.eigenvectorBasis i ⟨x, h⟩ else 0)
    ⟨a, a.2, by simpa using ha⟩ (by
      intro x hx
      have h1 := congrFun hv ⟨x, hx⟩
      rw [shifted_mulVec] at h1
      rw [← Finset.sum_coe_sort (basisStates hi)]
      simp only [Finset.coe_mem, dif_pos, hx, Subtype.coe_eta]
      simp only [Pi.smul_apply, Complex.real_smul] at h1
      push_cast
      rw [add_mul, ← h1]
      ring)
  show (0 : ℝ) ≤ hH.eigenvalues i
  linarith

/-- C220, the variational principle: for a Hermitian matrix the expectation value of every state is real and not below the lowest eigenvalue; it equals the lowest eigenvalue precisely
    for its eigenvectors. -/
theorem C220_bound (hO : ∀ x ∈ basisStates hi, ∀ x' ∈ basisStates hi, O x' x = star (O x x'))
    (hE : ∀ (e : ℝ) (φ : (Fin N → α) → ℂ), (∃ x ∈ basisStates hi, φ x ≠ 0) → (∀ x ∈ basisStates hi, ∑ x' ∈ basisStates hi, O x x' * φ x' = e * φ x) → E0 ≤ e)
    (hne : (basisStates hi).Nonempty) (logVal : (Fin N → α) → ℂ) :
    (Verif.Metro.expectation hi O logVal).im = 0 ∧ E0 ≤ (Verif.Metro.expectation hi O logVal).re
      ∧ ((Verif.Metro.expectation hi O logVal).re = E0 ↔ Eigenvector hi O logVal E0) := by
  have hpsd := shifted_psd hO hE
  set ψ : {x // x ∈ basisStates hi} → ℂ := fun x => Complex.exp (logVal x) with hψ
  set D : ℝ := ∑ x ∈ basisStates hi, Complex.normSq (Complex.exp (logVal x)) with hD
  have hDpos : 0 < D := Finset.sum_pos (fun x _ => Complex.normSq_pos.2 (Complex.exp_ne_zero _)) hne
  have hQ : star ψ ⬝ᵥ (shifted hi O E0).mulVec ψ
      = (∑ x ∈ basisStates hi, ∑ x' ∈ basisStates hi, star (Complex.exp (logVal x)) * O x x' * Complex.exp (logVal x')) - E0 * D := by
    unfold dotProduct
    simp only [shifted_mulVec, Pi.star_apply, mul_sub, Finset.sum_sub_distrib, Finset.mul_sum]
    congr 1
    · rw [← Finset.sum_coe_sort (basisStates hi)]
      refine Finset.sum_congr rfl fun x _ => ?_
      rw [← Finset.sum_coe_sort (basisStates hi)]
      refine Finset.sum_congr rfl fun x' _ => ?_
      rw [mul_assoc]
    · rw [hD, Complex.ofReal_sum, Finset.mul_sum, ← Finset.sum_coe_sort (basisStates hi)]
      refine Finset.sum_congr rfl fun x _ => ?_
      rw [Complex.normSq_eq_conj_mul_self]
      show star (Complex.exp (logVal x)) * (E0 * Complex.exp (logVal x)) = E0 * (star (Complex.exp (logVal x)) * Complex.exp (logVal x))
      ring
  have hnn := hpsd.dotProduct_mulVec_nonneg ψ
  have hexp : Verif.Metro.expectation hi O logVal = (star ψ ⬝ᵥ (shifted hi O E0).mulVec ψ) / (D : ℂ) + E0 := by
    unfold Verif.Metro.expectation
    rw [hQ, ← hD, sub_div, mul_div_cancel_right₀ _ (by exact_mod_cast hDpos.ne')]
    ring
  obtain ⟨hre, him⟩ := Complex.nonneg_iff.1 hnn
  rw [hexp]
  refine ⟨?_, ?_, ?_⟩
  · simp [Complex.div_ofReal_im, ← him]
  · simp only [Complex.add_re, Complex.div_ofReal_re, Complex.ofReal_re]
    have := div_nonneg hre hDpos.le
    linarith
  · have h1 : ((star ψ ⬝ᵥ (shifted hi O E0).mulVec ψ) / (D : ℂ) + E0).re = E0 ↔ star ψ ⬝ᵥ (shifted hi O E0).mulVec ψ = 0 := by
      simp only [Complex.add_re, Complex.div_ofReal_re, Complex.ofReal_re]
      constructor
      · intro h
        have h' : (star ψ ⬝ᵥ (shifted hi O E0).mulVec ψ).re / D = 0 := by linarith
        apply Complex.ext
        · rcases div_eq_zero_iff.1 h' with h | h
          · exact h
          · exact absurd h hDpos.ne'
        · exact him.symm
      · intro h; rw [h]; simp
    rw [h1, hpsd.dotProduct_mulVec_zero_iff]
    constructor
    · intro h x hx
      have := congrFun h ⟨x, hx⟩
      rw [shifted_mulVec, Pi.zero_apply, sub_eq_zero] at this
      rw [← Finset.sum_coe_sort (basisStates hi)]
      exact this
    · intro h
      funext a
      have := h a a.2
      rw [← Finset.sum_coe_sort (basisStates hi)] at this
      rw [shifted_mulVec, Pi.zero_apply, sub_eq_zero]
      exact this

end

/-! ## the hypotheses are satisfiable -/

/-- one spin in a transverse field: `O = -σx`. -/
def field1 (x x' : Fin 1 → ℤ) : ℂ := if x = x' then 0 else -1

theorem basis1 : basisStates (fun _ : Fin 1 => ([-1, 1] : List ℤ)) = {fun _ => -1, fun _ => 1} := by
  decide +kernel

theorem field1_eigenvector : Eigenvector (fun _ : Fin 1 => ([-1, 1] : List ℤ)) field1 (fun _ => 0) (-1) := by
  intro x hx
  rw [basis1] at hx ⊢
  have hne : (fun _ : Fin 1 => (-1 : ℤ)) ≠ fun _ => 1 := by decide
  rw [Finset.sum_pair hne]
  rcases Finset.mem_insert.1 hx with rfl | hx
  · simp [field1, hne]
  · rw [Finset.mem_singleton] at hx
    subst hx
    simp [field1, hne.symm]

theorem field1_lowest (e : ℝ) (φ : (Fin 1 → ℤ) → ℂ) (hφ : ∃ x ∈ basisStates (fun _ : Fin 1 => ([-1, 1] : List ℤ)), φ x ≠ 0)
    (h : ∀ x ∈ basisStates (fun _ : Fin 1 => ([-1, 1] : List ℤ)), ∑ x' ∈ basisStates (fun _ : Fin 1 => ([-1, 1] : List ℤ)), field1 x x' * φ x' = e * φ x) : -1 ≤ e := by
  have hne : (fun _ : Fin 1 => (-1 : ℤ)) ≠ fun _ => 1 := by decide
  rw [basis1] at h hφ
  have h1 := h (fun _ => -1) (by simp)
  have h2 := h (fun _ => 1) (by simp)
  rw [Finset.sum_pair hne] at h1 h2
  simp only [field1, if_true, hne, hne.symm, if_false, zero_mul, zero_add, add_zero] at h1 h2
  obtain ⟨x, hx, hx0⟩ := hφ
  have hsq : ((e : ℂ) ^ 2 - 1) * φ x = 0 := by
    rcases Finset.mem_insert.1 hx with rfl | hx
    · linear_combination h2 - (e : ℂ) * h1
    · rw [Finset.mem_singleton] at hx
      subst hx
      linear_combination h1 - (e : ℂ) * h2
  have h3 : e ^ 2 - 1 = 0 := by
    have := (mul_eq_zero.1 hsq).resolve_right hx0
    exact_mod_cast this
  nlinarith

theorem field1_hermitian : ∀ x ∈ basisStates (fun _ : Fin 1 => ([-1, 1] : List ℤ)), ∀ x' ∈ basisStates (fun _ : Fin 1 => ([-1, 1] : List ℤ)), field1 x' x = star (field1 x x') := by
  intro x _ x' _
  unfold field1
  by_cases h : x = x'
  · simp [h]
  · rw [if_neg h, if_neg (fun e => h e.symm)]; simp

/-- the uniform state has the lowest energy, `-1`. -/
example : (Verif.Metro.expectation (fun _ : Fin 1 => ([-1, 1] : List ℤ)) field1 fun _ => 0).re = -1 :=
  (C220_bound (E0 := -1) field1_hermitian field1_lowest (by rw [basis1]; simp) fun _ => 0).2.2.2 (by simpa using field1_eigenvector)

/-- a `LocalOperator` with this matrix, and its local values. -/
example : ∃ (cut : Cutoff ℂ) (op : LOp ℂ ℤ 1), Ideal cut ∧ Built cut (fun _ : Fin 1 => [-1, 1]) op
    ∧ Eigenvector (fun _ : Fin 1 => ([-1, 1] : List ℤ)) (matrixOf (fun _ : Fin 1 => [-1, 1]) op) (fun _ => 0) (-1)
    ∧ ∀ gm gx, localValues (fun _ : Fin 1 => ([-1, 1] : List ℤ)) op gm gx (fun _ => 0) 2 1 [fun _ => 1, fun _ => -1, fun _ => 1] none = .ok [-1, -1, -1] := by
  classical
  let cut : Cutoff ℂ := ⟨fun z => decide (z ≠ 0), fun z => decide (z ≠ 0)⟩
  have hid : Ideal cut := by constructor <;> simp [cut]
  have hs : SortedSpace (fun _ : Fin 1 => ([-1, 1] : List ℤ)) := fun _ => by simp
  have ha : ArgsOK (fun _ : Fin 1 => ([-1, 1] : List ℤ)) [((⟨2, fun i j => if i = j then 0 else -1⟩ : Mat ℂ), [0])] := by
    intro p hp
    rw [List.mem_singleton] at hp
    subst hp
    exact ⟨by simp, by simp, by simp [dims], Or.inl (by simp)⟩
  obtain ⟨op, h1, _, _, hm⟩ := mk_ok hid hs (0 : ℂ) _ ha
  have hb : Built cut (fun _ : Fin 1 => ([-1, 1] : List ℤ)) op := .mk ha h1
  have he : Eigenvector (fun _ : Fin 1 => ([-1, 1] : List ℤ)) (matrixOf (fun _ : Fin 1 => [-1, 1]) op) (fun _ => 0) (-1) := by
    intro x hx
    rw [← field1_eigenvector x hx]
    refine Finset.sum_congr rfl fun x' hx' => ?_
    rw [hm x x' ((Verif.LocalOp.mem_basis x).1 hx) ((Verif.LocalOp.mem_basis x').1 hx')]
    congr 1
    rw [basis1] at hx hx'
    simp only [Finset.mem_insert, Finset.mem_singleton] at hx hx'
    have hne : (fun _ : Fin 1 => (-1 : ℤ)) ≠ fun _ => 1 := by decide
    rcases hx with rfl | rfl <;> rcases hx' with rfl | rfl <;> simp [matrixOfList, embed, lexIdx, Verif.Radix.enc, field1, hne, hne.symm]
  refine ⟨cut, op, hid, hb, he, fun gm gx => ?_⟩
  exact (C220_local_values hid hs op hb gm gx (fun _ => 0) (-1)).1 he [fun _ => 1, fun _ => -1, fun _ => 1] (by
    intro x hx
    simp only [List.mem_cons, List.not_mem_nil, or_false] at hx
    rcases hx with rfl | rfl | rfl <;> intro s <;> simp)

/-- samples of an eigenvector on two ranks: local values `-1`, and arbitrary log-derivatives. -/
example : Verif.Vjp.gradHermitian true [[((-1 : ℂ), fun _ : Nat => (2 : ℂ)), (-1, fun _ => 3)], [(-1, fun _ => 5), (-1, fun _ => 7)]] 0 = 0 :=
  C220_gradient true 2 _ (by intro a ha; fin_cases ha <;> rfl) (-1) (by
    intro a ha x hx
    fin_cases ha <;> (simp only [List.mem_cons, List.not_mem_nil, or_false] at hx; rcases hx with rfl | rfl <;> rfl)) 0

/-- the hypothesis of `C220_fixed`: the state `(1, 1)` and the matrix `-σx`. -/
example : ∀ s : Fin 2, ∑ t, (if s = t then (0 : ℂ) else -1) * Complex.exp ((fun _ : Fin 2 => (0 : ℂ)) t) = -1 * Complex.exp ((fun _ : Fin 2 => (0 : ℂ)) s) := by
  intro s
  fin_cases s <;> simp [Fin.sum_univ_two]

/-- statistics of the uniform state: two ranks, three steps of two chains. -/
example : ∃ a, Verif.ExpectStats.expect () 3 2 [fun t c _ => if t = c then 1 else -1, fun _ _ _ => -1] 1
      { space := (), squared := true, parentSuper := false, hermitian := true,
        loc := fun x => (∑ x' ∈ basisStates (fun _ : Fin 1 => ([-1, 1] : List ℤ)), field1 x x' * Complex.exp ((fun _ => 0) x')) / Complex.exp ((fun _ : Fin 1 → ℤ => 0) x) } = .ok (.stats a)
    ∧ a.mean = Complex.normSq (-1) ∧ a.variance = 0 :=
  C220_squared (hi := fun _ : Fin 1 => ([-1, 1] : List ℤ)) field1 (fun _ => 0) (-1) field1_eigenvector _ rfl (fun _ _ => rfl) 3 2 (by norm_num) (by norm_num)
    [fun t c _ => if t = c then 1 else -1, fun _ _ _ => -1] (by
      intro s hs t c i
      simp only [List.mem_cons, List.not_mem_nil, or_false] at hs
      rcases hs with rfl | rfl
      · by_cases h : t = c <;> simp [h]
      · simp) 1 (by simp)

end Verif.Eigen

import Verif.Props.SRStep

/-! C255: without diagonal shift the change of the state by an update of SR does not depend on the parametrisation. -/

set_option linter.unusedVariables false

namespace Verif.SRStep
open Verif.Vjp Verif.QGT Finset

/-- An ansatz at `ns` samples with the local energies `e`: number and kind of its parameters, its log-derivatives along real and
    imaginary parts (complex parameters enter holomorphically), and the distribution of the samples over ranks. -/
structure Ansatz (ns : Nat) (e : Nat → ℂ) where
  np : Nat
  cplx : Nat → Bool
  J : Jac
  L : Nat
  shards : List (Shard Nat)
  equal : Verif.Stats.Equal L shards
  data : shards.flatten = dataAt ns J e
  holo : ∀ s k, cplx k = true → J.im s k = Complex.I * J.re s k

namespace Ansatz
variable {ns : Nat} {e : Nat → ℂ} (A : Ansatz ns e)

/-- changes which keep real parameters real -/
def Admissible (v : Nat → ℂ) : Prop := ∀ k, A.cplx k = false → (v k).im = 0

/-- specification: the change of the logarithm of the amplitude at sample `s` to first order, up to a constant (norm and phase) -/
noncomputable def change (v : Nat → ℂ) (s : Nat) : ℂ :=
  (∑ k ∈ range A.np, (A.J.re s k * ((v k).re : ℂ) + A.J.im s k * ((v k).im : ℂ)))
    - (∑ t ∈ range ns, ∑ k ∈ range A.np, (A.J.re t k * ((v k).re : ℂ) + A.J.im t k * ((v k).im : ℂ))) / ns

/-- `dp` is a solution of the linear system of SR without diagonal shift -/
def Solves (dp : Nat → ℂ) : Prop :=
  A.Admissible dp ∧ ∀ k < A.np, matVec ns A.np A.J 0 dp k = gradHermitian (A.cplx k) A.shards k

end Ansatz

theorem change_eq {ns : Nat} {e : Nat → ℂ} (A : Ansatz ns e) (v : Nat → ℂ) (s : Nat) :
    A.change v s = center ns (jvp A.np A.J v) s := by
  unfold Ansatz.change center
  simp only [jvp_eq]

/-- the change by a solution is the orthogonal projection of the local energies on the changes an ansatz can make -/
theorem C255_projection {ns : Nat} {e : Nat → ℂ} (h : 0 < ns) (A : Ansatz ns e) (dp : Nat → ℂ) (hdp : A.Solves dp)
    (u : Nat → ℂ) (hu : A.Admissible u) :
    (∑ s ∈ range ns, star (A.change u s) * ((e s - (∑ t ∈ range ns, e t) / ns) - A.change dp s)).re = 0 := by
  have h1 := rdot_gradient ns A.np h A.cplx A.J e A.L A.shards A.equal A.data A.holo u hu
  have h2 := rdot_matVec ns A.np h A.J 0 u dp
  have h3 : rdot A.np u (matVec ns A.np A.J 0 dp) = rdot A.np u (fun k => gradHermitian (A.cplx k) A.shards k) := by
    unfold rdot
    exact sum_congr rfl fun k hk => by rw [hdp.2 k (mem_range.1 hk)]
  rw [h3, h1, zero_mul, zero_add] at h2
  have hns : (ns : ℝ) ≠ 0 := Nat.cast_ne_zero.2 h.ne'
  have h4 := (div_left_inj' hns).1 h2
  simp only [change_eq, mul_sub, sum_sub_distrib, Complex.sub_re]
  have h5 : (∑ s ∈ range ns, (star (center ns (jvp A.np A.J u) s) * e s - star (center ns (jvp A.np A.J u) s) * ((∑ t ∈ range ns, e t) / ns))).re
      = (∑ s ∈ range ns, star (center ns (jvp A.np A.J u) s) * center ns e s).re := by
    congr 1
    refine sum_congr rfl fun s _ => ?_
    unfold center
    ring
  rw [sum_sub_distrib, Complex.sub_re] at h5
  linarith

/-- **C255**: two ansatzes which can make the same changes of the state at the samples, whatever the number and kind of their
    parameters, are changed in the same way by SR without shift, whichever solutions of the linear systems are taken. -/
theorem C255_reparametrisation {ns : Nat} {e : Nat → ℂ} (h : 0 < ns) (A B : Ansatz ns e)
    (hBA : ∀ v, B.Admissible v → ∃ u, A.Admissible u ∧ ∀ s < ns, A.change u s = B.change v s)
    (hAB : ∀ u, A.Admissible u → ∃ v, B.Admissible v ∧ ∀ s < ns, B.change v s = A.change u s)
    (dp dq : Nat → ℂ) (hp : A.Solves dp) (hq : B.Solves dq) : ∀ s < ns, A.change dp s = B.change dq s := by
  obtain ⟨u, hu, hue⟩ := hBA dq hq.1
  -- the difference of the changes is a change of `A`
  have hd : A.Admissible (fun k => dp k - u k) := fun k hk => by rw [Complex.sub_im, hp.1 k hk, hu k hk, sub_zero]
  have hdc : ∀ s < ns, A.change (fun k => dp k - u k) s = A.change dp s - B.change dq s := by
    intro s hs
    rw [change_eq, center_sub, ← change_eq, ← change_eq, hue s hs]
  obtain ⟨w, hw, hwe⟩ := hAB _ hd
  have h1 := C255_projection h A dp hp _ hd
  have h2 := C255_projection h B dq hq w hw
  have h3 : (∑ s ∈ range ns, star (A.change dp s - B.change dq s) * (A.change dp s - B.change dq s)).re = 0 := by
    have e1 : ∑ s ∈ range ns, star (A.change dp s - B.change dq s) * (A.change dp s - B.change dq s)
        = (∑ s ∈ range ns, star (B.change w s) * ((e s - (∑ t ∈ range ns, e t) / ns) - B.change dq s))
          - ∑ s ∈ range ns, star (A.change (fun k => dp k - u k) s) * ((e s - (∑ t ∈ range ns, e t) / ns) - A.change dp s) := by
      rw [← sum_sub_distrib]
      refine sum_congr rfl fun s hs => ?_
      rw [hwe s (mem_range.1 hs), hdc s (mem_range.1 hs)]
      ring
    rw [e1, Complex.sub_re, h1, h2, sub_zero]
  rw [Complex.re_sum] at h3
  have h4 : ∀ z : ℂ, (star z * z).re = Complex.normSq z := by
    intro z
    simp [Complex.mul_re, Complex.normSq_apply]
  simp only [h4] at h3
  intro s hs
  exact sub_eq_zero.1 (Complex.normSq_eq_zero.1
    ((sum_eq_zero_iff_of_nonneg fun _ _ => Complex.normSq_nonneg _).1 h3 s (mem_range.2 hs)))

/-- **C255**: if the tensor is singular, all solutions of the linear system change the state in the same way. -/
theorem C255_solutions {ns : Nat} {e : Nat → ℂ} (h : 0 < ns) (A : Ansatz ns e) (dp dq : Nat → ℂ) (hp : A.Solves dp) (hq : A.Solves dq) :
    ∀ s < ns, A.change dp s = A.change dq s :=
  C255_reparametrisation h A A (fun v hv => ⟨v, hv, fun _ _ => rfl⟩) (fun v hv => ⟨v, hv, fun _ _ => rfl⟩) dp dq hp hq

/-- **C255**: rescaled parameters `θ_k = c_k η_k` -/
theorem C255_rescaled {ns : Nat} {e : Nat → ℂ} (h : 0 < ns) (A B : Ansatz ns e) (hn : B.np = A.np) (hc : B.cplx = A.cplx) (c : Nat → ℝ)
    (hc0 : ∀ k, c k ≠ 0) (hre : ∀ s k, B.J.re s k = c k * A.J.re s k) (him : ∀ s k, B.J.im s k = c k * A.J.im s k)
    (dp dq : Nat → ℂ) (hp : A.Solves dp) (hq : B.Solves dq) : ∀ s < ns, A.change dp s = B.change dq s := by
  have key : ∀ v s, B.change v s = A.change (fun k => c k * v k) s := by
    intro v s
    have hk : ∀ t, ∑ k ∈ range B.np, (B.J.re t k * ((v k).re : ℂ) + B.J.im t k * ((v k).im : ℂ))
        = ∑ k ∈ range A.np, (A.J.re t k * (((c k : ℂ) * v k).re : ℂ) + A.J.im t k * (((c k : ℂ) * v k).im : ℂ)) := by
      intro t
      rw [hn]
      refine sum_congr rfl fun k _ => ?_
      rw [hre, him, Complex.re_ofReal_mul, Complex.im_ofReal_mul]
      push_cast
      ring
    unfold Ansatz.change
    simp only [hk]
  refine C255_reparametrisation h A B (fun v hv => ⟨fun k => c k * v k, fun k hk => ?_, fun s _ => (key v s).symm⟩)
    (fun u hu => ⟨fun k => (c k : ℂ)⁻¹ * u k, fun k hk => ?_, fun s _ => ?_⟩) dp dq hp hq
  · rw [Complex.im_ofReal_mul, hv k (hc ▸ hk), mul_zero]
  · dsimp only
    rw [← Complex.ofReal_inv, Complex.im_ofReal_mul, hu k (hc ▸ hk), mul_zero]
  · rw [key]
    congr 1
    funext k
    rw [← mul_assoc, mul_inv_cancel₀ (Complex.ofReal_ne_zero.2 (hc0 k)), one_mul]

/-! ### Examples: one complex parameter, with derivatives `c` times those of `exJ`, and two redundant ones -/

/-- `np` parameters with the same derivatives `c` times 0 and 1 at two samples -/
noncomputable def exC (np : Nat) (c : ℝ) : Ansatz 2 (fun s => if s = 0 then 0 else 1) where
  np := np
  cplx := fun _ => true
  J := ⟨fun s _ => c * if s = 0 then 0 else 1, fun s _ => Complex.I * (c * if s = 0 then 0 else 1)⟩
  L := 2
  shards := [dataAt 2 ⟨fun s _ => c * if s = 0 then 0 else 1, fun s _ => Complex.I * (c * if s = 0 then 0 else 1)⟩ fun s => if s = 0 then 0 else 1]
  equal := by simp [Verif.Stats.Equal, dataAt]
  data := by simp
  holo := fun _ _ _ => rfl

/-- all changes which sum to `1/c` are solutions -/
theorem exC_solves (np : Nat) (c : ℝ) (hc : c ≠ 0) (dp : Nat → ℂ) (hdp : ∑ k ∈ range np, dp k = 1 / c) : (exC np c).Solves dp := by
  refine ⟨fun k (h : true = false) => (by cases h), fun k hk => ?_⟩
  have hg : gradHermitian ((exC np c).cplx k) (exC np c).shards k = c / 4 := by
    rw [C59_covariance _ 2 _ (exC np c).equal, (exC np c).data, cov_at]
    simp [exC, center, sum_range_succ]
    ring
  rw [hg, C65_holomorphic 2 _ (by norm_num) _ (fun _ _ => rfl)]
  have hS : ∀ l, (∑ s ∈ range 2, star (center 2 (fun t => (exC np c).J.re t k) s) * center 2 (fun t => (exC np c).J.re t l) s) / (2 : ℕ) = (c : ℂ) ^ 2 / 4 := by
    intro l
    simp [exC, center, sum_range_succ]
    ring
  simp only [hS]
  have hn : (exC np c).np = np := rfl
  rw [← mul_sum, hn, hdp]
  have : (c : ℂ) ≠ 0 := Complex.ofReal_ne_zero.2 hc
  field_simp
  simp

example := C255_solutions (by norm_num) (exC 2 1) (fun _ => 1 / 2) (fun k => if k = 0 then 1 else 0)
  (exC_solves 2 1 one_ne_zero _ (by simp)) (exC_solves 2 1 one_ne_zero _ (by simp))

example := C255_rescaled (by norm_num) (exC 1 1) (exC 1 2) rfl rfl (fun _ => 2) (by norm_num) (fun s k => by simp [exC])
  (fun s k => by simp [exC, mul_comm]) (fun _ => 1) (fun _ => 1 / 2) (exC_solves 1 1 one_ne_zero _ (by simp)) (exC_solves 1 2 two_ne_zero _ (by simp))

/-- with a shift it is not so: the shift measures the changes of the parameters, not of the state. -/
theorem C255_shift (dp dq : Nat → ℂ) (hp : matVec 2 1 (exC 1 1).J 1 dp 0 = gradHermitian true (exC 1 1).shards 0)
    (hq : matVec 2 1 (exC 1 2).J 1 dq 0 = gradHermitian true (exC 1 2).shards 0) : (exC 1 1).change dp 1 ≠ (exC 1 2).change dq 1 := by
  have hS : ∀ c : ℝ, (∑ s ∈ range 2, star (center 2 (fun t => (exC 1 c).J.re t 0) s) * center 2 (fun t => (exC 1 c).J.re t 0) s) / (2 : ℕ) = (c : ℂ) ^ 2 / 4 := by
    intro c
    simp [exC, center, sum_range_succ]
    ring
  have hg : ∀ c : ℝ, gradHermitian true (exC 1 c).shards 0 = c / 4 := by
    intro c
    rw [C59_covariance _ 2 _ (exC 1 c).equal, (exC 1 c).data, cov_at]
    simp [exC, center, sum_range_succ]
    ring
  have hch : ∀ (c : ℝ) (v : Nat → ℂ), (exC 1 c).change v 1 = c / 2 * v 0 := by
    intro c v
    have : (v 0).re + (v 0).im * Complex.I = v 0 := Complex.re_add_im _
    simp [Ansatz.change, exC, sum_range_succ]
    linear_combination (c / 2 : ℂ) * this
  rw [C65_holomorphic 2 1 (by norm_num) _ (fun _ _ => rfl), sum_range_one, hS, hg] at hp hq
  rw [hch, hch]
  push_cast at hp hq ⊢
  have h1 : dp 0 = 1 / 5 := by linear_combination (4 / 5) * hp
  have h2 : dq 0 = 1 / 4 := by linear_combination (1 / 2) * hq
  rw [h1, h2]
  norm_num

end Verif.SRStep

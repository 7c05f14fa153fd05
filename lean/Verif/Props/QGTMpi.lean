import Verif.Model.QGTMpi
import Verif.Props.QGT
import Verif.Props.LegacySR

/-! C183: the quantum geometric tensor with several processes is that of all samples; dense solvers; trees with scale. -/

set_option linter.unusedSectionVars false
set_option linter.unusedVariables false

namespace Verif.QGT
open Verif.Hilbert (Err)
open Verif.Symm (divmod flat_lt sum_range_flat sum_range_divmod)
open Finset

/-- all samples in one process. -/
def pool (ns : Nat) (J : Nat → Jac) : Jac := ⟨fun s k => (J (s / ns)).re (s % ns) k, fun s k => (J (s / ns)).im (s % ns) k⟩

theorem center_pool (R ns : Nat) (w : Nat → Nat → ℂ) (q s : Nat) (hs : s < ns) :
    centerMpi R ns w q s = center (R * ns) (fun t => w (t / ns) (t % ns)) (q * ns + s) := by
  unfold centerMpi center
  obtain ⟨h1, h2⟩ := divmod ns q s hs
  rw [sum_range_divmod]
  dsimp only
  rw [h1, h2, ← sum_div, div_div]
  push_cast
  rw [mul_comm (R : ℂ)]

/-! ## On the fly -/

theorem vjp_pool (R ns : Nat) (J : Nat → Jac) (w : Nat → ℂ) (k : Nat) :
    vjp (R * ns) (pool ns J) w k = vjpMpi R ns J (fun q s => w (q * ns + s)) k := by
  have h : ∀ f : Jac → Nat → Nat → ℂ, (∀ t, f (pool ns J) t k = f (J (t / ns)) (t % ns) k) →
      ∑ t ∈ range (R * ns), w t * f (pool ns J) t k = ∑ q ∈ range R, ∑ s ∈ range ns, w (q * ns + s) * f (J q) s k := by
    intro f hf
    rw [sum_range_flat]
    refine sum_congr rfl fun q _ => sum_congr rfl fun s hs => ?_
    obtain ⟨h1, h2⟩ := divmod ns q s (mem_range.1 hs)
    rw [hf, h1, h2]
  unfold vjpMpi vjp
  rw [h (fun J s k => J.re s k) fun t => rfl, h (fun J s k => J.im s k) fun t => rfl, Complex.re_sum, Complex.re_sum, sum_sub_distrib, ← mul_sum]
  push_cast
  rfl

/-- C183: `QGTOnTheFly` on `R` processes with `ns` samples each is the one of all samples on one process. -/
theorem C183_onthefly (R ns np : Nat) (J : Nat → Jac) (shift : ℝ) (v : Nat → ℂ) (k : Nat) :
    matVecMpi R ns np J shift v k = matVec (R * ns) np (pool ns J) shift v k := by
  unfold matVecMpi matVec odaggerDeltaO ohwMpi ohw
  rw [vjp_pool]
  congr 2
  unfold vjpMpi
  refine sum_congr rfl fun q _ => ?_
  have : ∀ w w' : Nat → ℂ, (∀ s < ns, w s = w' s) → vjp ns (J q) w k = vjp ns (J q) w' k := by
    intro w w' h
    unfold vjp
    have e : ∀ f : Nat → ℂ, ∑ s ∈ range ns, w s * f s = ∑ s ∈ range ns, w' s * f s := fun f =>
      sum_congr rfl fun s hs => by rw [h s (mem_range.1 hs)]
    rw [e, e]
  refine this _ _ fun s hs => ?_
  dsimp only
  rw [center_pool R ns _ q s hs, mul_comm ns R]
  rfl

/-- C183: a vector of another number of entries or axes is a `ValueError`. -/
theorem C183_onthefly_errors (np ndim size : Nat) :
    (checkVec np ndim size = .ok () ↔ ndim = 1 ∧ size = np) ∧ (checkVec np ndim size ≠ .ok () → checkVec np ndim size = .error .valueError) := by
  unfold checkVec
  split_ifs with h1 h2
  · simp [h1]
  · simp; omega
  · simp; omega

/-! ## Precomputed Jacobian -/

/-- rows of all processes below each other. -/
def stackRows (rows : Nat) (O : Nat → Nat → Nat → ℂ) (r k : Nat) : ℂ := O (r / rows) (r % rows) k

theorem centered_pool (R ns : Nat) (A : Nat → Nat → Nat → ℂ) (q s k : Nat) (hs : s < ns) :
    centeredMpi R ns A q s k = centered (R * ns) (fun t k => A (t / ns) (t % ns) k) (q * ns + s) k := by
  unfold centeredMpi centered
  rw [center_pool R ns _ q s hs, mul_comm ns R]

theorem rows_pool (mode : Mode) (ns R : Nat) : nRows mode (R * ns) = R * nRows mode ns := by
  cases mode <;> simp [nRows, Nat.mul_assoc]

theorem half_row (ns q r : Nat) (hr : r < ns * 2) : (q * (ns * 2) + r) / 2 = q * ns + r / 2 ∧ (q * (ns * 2) + r) % 2 = r % 2 := by
  have : q * (ns * 2) = (q * ns) * 2 := by rw [Nat.mul_assoc]
  constructor <;> omega

/-- C183: the stored gradients of process `q` are its rows of the gradients of all samples. -/
theorem C183_gradients (mode : Mode) (R ns np : Nat) (J : Nat → Jac) (q r k : Nat) (hr : r < nRows mode ns) :
    oksMpi mode R ns np J q r k = oks mode (R * ns) np (pool ns J) (q * nRows mode ns + r) k := by
  cases mode with
  | real => exact centered_pool R ns (fun q s k => (((splitJac np (J q) s k).re : ℝ) : ℂ)) q r k hr
  | holomorphic => exact centered_pool R ns (fun q s k => (((J q).re s k).re : ℂ) - Complex.I * (((J q).im s k).re : ℂ)) q r k hr
  | complex =>
    have hr' : r < ns * 2 := hr
    obtain ⟨h1, h2⟩ := half_row ns q r hr'
    change oksComplexMpi R ns np J q r k = oksComplex (R * ns) np (pool ns J) (q * (ns * 2) + r) k
    unfold oksComplexMpi oksComplex
    rw [h1, h2, centered_pool R ns _ q (r / 2) k (by omega)]
    rfl

theorem stack_oks (mode : Mode) (R ns np : Nat) (J : Nat → Jac) (r k : Nat) (hr : r < R * nRows mode ns) :
    stackRows (nRows mode ns) (oksMpi mode R ns np J) r k = oks mode (R * ns) np (pool ns J) r k := by
  have hpos : 0 < nRows mode ns := by
    rcases Nat.eq_zero_or_pos (nRows mode ns) with h | h
    · rw [h] at hr; omega
    · exact h
  unfold stackRows
  rw [C183_gradients mode R ns np J _ _ k (Nat.mod_lt _ hpos)]
  congr 1
  rw [mul_comm]
  exact Nat.div_add_mod r _

/-- C183: product, matrix and scale of gradients spread over the processes are those of the rows of all processes. -/
theorem C183_rows (R rows K : Nat) (O : Nat → Nat → Nat → ℂ) (scale : Option (Nat → ℝ)) (shift : ℝ) (v : Nat → ℂ) (k l : Nat) :
    scaledCoreMpi R rows K O scale shift v k = scaledCore (R * rows) K (stackRows rows O) scale shift v k
    ∧ toDenseMpi R rows O scale shift k l = toDense (R * rows) (stackRows rows O) scale shift k l
    ∧ scaleMpi R rows O k = scaleOf (R * rows) (stackRows rows O) k := by
  have hc : ∀ v : Nat → ℂ, coreMpi R rows K O shift v k = core (R * rows) K (stackRows rows O) shift v k := by
    intro v
    unfold coreMpi core stackRows
    rw [sum_range_divmod R rows fun a b => star (∑ l ∈ range K, O a b l * v l) * O a b k]
    rw [star_sum]
  refine ⟨?_, ?_, ?_⟩
  · cases scale with
    | none => exact hc v
    | some c => simp only [scaledCoreMpi, scaledCore, hc]
  · cases scale with
    | none =>
      simp only [toDenseMpi, toDense, stackRows]
      rw [sum_range_divmod R rows fun a b => star (O a b k) * O a b l]
    | some c =>
      simp only [toDenseMpi, toDense, stackRows]
      rw [sum_range_divmod R rows fun a b => star (O a b k * c k) * (O a b l * c l)]
  · unfold scaleMpi scaleOf stackRows
    rw [sum_range_divmod R rows fun a b => (O a b k * star (O a b k)).re]

theorem scaledCore_congr (rows K : Nat) (O O' : Nat → Nat → ℂ) (h : ∀ r < rows, ∀ k, O r k = O' r k) (scale : Option (Nat → ℝ)) (shift : ℝ) (v : Nat → ℂ) (k : Nat) :
    scaledCore rows K O scale shift v k = scaledCore rows K O' scale shift v k := by
  have hc : ∀ v : Nat → ℂ, core rows K O shift v k = core rows K O' shift v k := by
    intro v
    unfold core
    congr 2
    refine sum_congr rfl fun r hr => ?_
    simp only [h r (mem_range.1 hr)]
  cases scale with
  | none => exact hc v
  | some c => simp only [scaledCore, hc]

/-- C183: the product of `QGTJacobianDense` on `R` processes is that of all samples, in every mode, with every scale. -/
theorem C183_matmul (mode : Mode) (cplx : Bool) (R ns np : Nat) (J : Nat → Jac) (scale : Option (Nat → ℝ)) (shift : ℝ) (v : Nat → ℂ) :
    matmulMpi mode cplx R ns np scale (oksMpi mode R ns np J) shift v
      = matmul mode cplx (R * ns) np (pool ns J) scale (oks mode (R * ns) np (pool ns J)) shift v := by
  have h : ∀ (K : Nat) (u : Nat → ℂ), scaledCoreMpi R (nRows mode ns) K (oksMpi mode R ns np J) scale shift u
      = scaledCore (nRows mode (R * ns)) K (oks mode (R * ns) np (pool ns J)) scale shift u := by
    intro K u
    funext k
    rw [(C183_rows R (nRows mode ns) K _ scale shift u k 0).1, rows_pool]
    exact scaledCore_congr _ K _ _ (fun r hr k => stack_oks mode R ns np J r k hr) scale shift u k
  unfold matmulMpi matmul
  rw [h, h]

/-- C183: the norms of the columns, and with them the rescaled gradients, are those of all samples. -/
theorem C183_rescale (mode : Mode) (R ns np : Nat) (J : Nat → Jac) (q r k : Nat) (hr : r < nRows mode ns) :
    scaleMpi R (nRows mode ns) (oksMpi mode R ns np J) k = scaleOf (nRows mode (R * ns)) (oks mode (R * ns) np (pool ns J)) k
    ∧ rescaledMpi R (nRows mode ns) (oksMpi mode R ns np J) q r k
      = rescaled (nRows mode (R * ns)) (oks mode (R * ns) np (pool ns J)) (q * nRows mode ns + r) k := by
  have h : scaleMpi R (nRows mode ns) (oksMpi mode R ns np J) k = scaleOf (nRows mode (R * ns)) (oks mode (R * ns) np (pool ns J)) k := by
    rw [(C183_rows R (nRows mode ns) 0 _ none 0 (fun _ => 0) k 0).2.2, rows_pool]
    unfold scaleOf
    congr 1
    exact sum_congr rfl fun r hr => by rw [stack_oks mode R ns np J r k (mem_range.1 hr)]
  refine ⟨h, ?_⟩
  unfold rescaledMpi rescaled
  rw [h, C183_gradients mode R ns np J q r k hr]

/-- C183: in mode "complex" with complex parameters, and in mode "holomorphic" for holomorphic functions, the product of `QGTJacobianDense` is that of `QGTOnTheFly`, on any
    number of processes. -/
theorem C183_equal (R ns np : Nat) (h : 0 < R * ns) (J : Nat → Jac) (shift : ℝ) (v : Nat → ℂ) (k : Nat) (hk : k < np) :
    matmulMpi .complex true R ns np none (oksMpi .complex R ns np J) shift v k = matVecMpi R ns np J shift v k
    ∧ ((∀ q, IsHolo (J q)) → ∀ cplx, matmulMpi .holomorphic cplx R ns np none (oksMpi .holomorphic R ns np J) shift v k = matVecMpi R ns np J shift v k) := by
  refine ⟨?_, fun hJ cplx => ?_⟩
  · rw [C183_matmul, C183_onthefly]
    exact C65_complex_mode (R * ns) np h (pool ns J) shift v k hk
  · rw [C183_matmul, C183_onthefly]
    exact C65_holomorphic_mode (R * ns) np h (pool ns J) (fun s k => hJ _ _ _) cplx shift v k

/-- C183: for real parameters, and in mode "real" for real functions, likewise. -/
theorem C183_equal_real (R ns np : Nat) (h : 0 < R * ns) (J : Nat → Jac) (shift : ℝ) (k : Nat) (hk : k < np) :
    ((∀ q s k, (J q).im s k = 0) → ∀ v : Nat → ℝ,
      matmulMpi .complex false R ns np none (oksMpi .complex R ns np J) shift (fun l => (v l : ℂ)) k = matVecMpi R ns np J shift (fun l => (v l : ℂ)) k)
    ∧ ((∀ q s k, ((J q).re s k).im = 0) → (∀ q s k, ((J q).im s k).im = 0) → ∀ v : Nat → ℂ,
      matmulMpi .real true R ns np none (oksMpi .real R ns np J) shift v k = matVecMpi R ns np J shift v k) := by
  refine ⟨fun hJ v => ?_, fun hr hi v => ?_⟩
  · rw [C183_matmul, C183_onthefly]
    exact C65_complex_mode_real (R * ns) np h (pool ns J) (fun s k => hJ _ _ _) shift v k hk
  · rw [C183_matmul, C183_onthefly]
    exact C65_real_mode (R * ns) np h (pool ns J) (fun s k => hr _ _ _) (fun s k => hi _ _ _) shift v k hk

/-! ## Dense solvers -/

/-- a solver for dense systems: it solves every regular system of size `K`, and real ones by real numbers. -/
structure DenseGood (K : Nat) (lin : (Nat → Nat → ℂ) → (Nat → ℂ) → Nat → ℂ) : Prop where
  solves : ∀ A y, (∀ v : Nat → ℂ, (∀ i < K, ∑ j ∈ range K, A i j * v j = 0) → ∀ i < K, v i = 0) → ∀ i < K, ∑ j ∈ range K, A i j * lin A y j = y i
  real : ∀ A y, (∀ i j, (A i j).im = 0) → (∀ i, (y i).im = 0) → ∀ i, (lin A y i).im = 0

open Classical in
/-- such solvers exist. -/
theorem dense_exists (K : Nat) : ∃ lin, DenseGood K lin := by
  let sol : (Nat → Nat → ℂ) → (Nat → ℂ) → Nat → ℂ := fun A y =>
    if h : ∃ x : Nat → ℂ, ∀ i < K, ∑ j ∈ range K, A i j * x j = y i then h.choose else fun _ => 0
  refine ⟨fun A y => if (∀ i j, (A i j).im = 0) ∧ ∀ i, (y i).im = 0 then fun i => ((sol A y i).re : ℂ) else sol A y, ?_, ?_⟩
  · intro A y hA
    have hs : ∀ i < K, ∑ j ∈ range K, A i j * sol A y j = y i := by
      have h := Verif.LegacySR.solvable K A hA y
      simp only [sol, dif_pos h]
      exact h.choose_spec
    by_cases hr : (∀ i j, (A i j).im = 0) ∧ ∀ i, (y i).im = 0
    · rw [if_pos hr]
      intro i hi
      have h1 := congrArg Complex.re (hs i hi)
      rw [Complex.re_sum] at h1
      have h2 : y i = ((y i).re : ℂ) := Complex.ext (by simp) (by simp [hr.2 i])
      rw [h2, ← h1]
      push_cast
      refine sum_congr rfl fun j _ => ?_
      apply Complex.ext <;> simp [hr.1 i j]
    · rw [if_neg hr]
      exact hs
  · intro A y hA hy i
    rw [if_pos ⟨hA, hy⟩]
    simp

/-- a Gram matrix plus a positive shift is regular. -/
theorem gram_regular (rows K : Nat) (O : Nat → Nat → ℂ) (shift : ℝ) (hs : 0 < shift) (v : Nat → ℂ)
    (hv : ∀ i < K, ∑ j ∈ range K, toDense rows O none shift i j * v j = 0) : ∀ i < K, v i = 0 := by
  refine Verif.LegacySR.definiteC K (fun i j => ∑ r ∈ range rows, star (O r i) * O r j) shift hs (fun u => ?_) v fun i hi => ?_
  · have e : (∑ i ∈ range K, star (u i) * ∑ j ∈ range K, (∑ r ∈ range rows, star (O r i) * O r j) * u j)
        = ((∑ r ∈ range rows, Complex.normSq (∑ j ∈ range K, O r j * u j) : ℝ) : ℂ) := by
      push_cast
      have e1 : ∀ r, ((Complex.normSq (∑ j ∈ range K, O r j * u j) : ℝ) : ℂ)
          = ∑ i ∈ range K, star (u i) * ∑ j ∈ range K, star (O r i) * O r j * u j := by
        intro r
        rw [Complex.normSq_eq_conj_mul_self]
        change star (∑ j ∈ range K, O r j * u j) * _ = _
        rw [star_sum, sum_mul]
        refine sum_congr rfl fun i _ => ?_
        rw [star_mul', mul_sum, mul_sum]
        exact sum_congr rfl fun j _ => by ring
      simp only [e1]
      rw [sum_comm]
      refine sum_congr rfl fun i _ => ?_
      rw [← mul_sum]
      congr 1
      rw [sum_comm]
      exact sum_congr rfl fun j _ => by rw [sum_mul]
    rw [e, Complex.ofReal_re]
    exact sum_nonneg fun r _ => Complex.normSq_nonneg _
  · have := hv i hi
    simp only [toDense] at this
    rw [← this]
    have hd : ∑ l ∈ range K, (if i = l then (shift : ℂ) * v l else 0) = (shift : ℂ) * v i := by
      rw [sum_ite_eq (range K) i fun l => (shift : ℂ) * v l, if_pos (mem_range.2 hi)]
    rw [← hd, ← sum_add_distrib]
    refine sum_congr rfl fun j _ => ?_
    split_ifs <;> ring

theorem toDense_congr_none (R rows : Nat) (O : Nat → Nat → Nat → ℂ) (shift : ℝ) :
    toDenseMpi R rows O none shift = toDense (R * rows) (stackRows rows O) none shift := by
  funext k l
  exact (C183_rows R rows 0 O none shift (fun _ => 0) k l).2.1

/-- the solution of the operator without scale for the right-hand side divided by the scale, divided by the scale. -/
noncomputable def scaledSol (scale : Option (Nat → ℝ)) (S : (Nat → ℂ) → Nat → ℂ) (y : Nat → ℂ) : Nat → ℂ :=
  match scale with
  | none => S y
  | some c => fun k => S (fun k => y k / c k) k / c k

/-- C183: with a dense solver (`svd`, `cholesky`, `LU`, `solve`) and a positive shift, `solve` of `QGTJacobianDense` gives the solution of the system, in
    every mode, with and without rescaling, on any number of processes. -/
theorem C183_dense_solvers (mode : Mode) (cplx : Bool) (R ns np : Nat) (O : Nat → Nat → Nat → ℂ)
    (hO : mode ≠ .holomorphic ∧ cplx = true → ∀ q r k, (O q r k).im = 0) (scale : Option (Nat → ℝ)) (hc : ∀ c, scale = some c → ∀ k, c k ≠ 0)
    (shift : ℝ) (hs : 0 < shift) (lin : (Nat → Nat → ℂ) → (Nat → ℂ) → Nat → ℂ)
    (hl : DenseGood (if mode ≠ .holomorphic ∧ cplx then np + np else np) lin) (y : Nat → ℂ) (k : Nat) (hk : k < np) :
    matmulMpi mode cplx R ns np scale O shift (solveDenseMpi mode cplx R ns np scale O shift lin y) k = y k := by
  -- on split vectors
  have main : ∀ (K : Nat) (hl : DenseGood K lin) (y' x2 : Nat → ℂ), x2 = scaledSol scale (denseSolve lin (toDenseMpi R (nRows mode ns) O none shift)) y' →
      ∀ k < K, scaledCoreMpi R (nRows mode ns) K O scale shift x2 k = y' k := by
    intro K hl y' x2 hx k hk
    have h1 : ∀ z : Nat → ℂ, coreMpi R (nRows mode ns) K O shift (denseSolve lin (toDenseMpi R (nRows mode ns) O none shift) z) k = z k := by
      intro z
      have e := (C183_rows R (nRows mode ns) K O none shift (denseSolve lin (toDenseMpi R (nRows mode ns) O none shift) z) k 0).1
      simp only [scaledCoreMpi] at e
      rw [e, ← C65_to_dense _ K _ none shift _ k hk, toDense_congr_none]
      exact hl.solves _ z (gram_regular _ K _ shift hs) k hk
    cases scale with
    | none =>
      simp only [scaledSol] at hx
      rw [hx]
      exact h1 y'
    | some c =>
      simp only [scaledSol] at hx
      have hc' : ∀ l, ((c l : ℝ) : ℂ) ≠ 0 := fun l => by exact_mod_cast hc c rfl l
      simp only [scaledCoreMpi]
      have e : (fun l => x2 l * (c l : ℂ)) = denseSolve lin (toDenseMpi R (nRows mode ns) O none shift) (fun k => y' k / c k) := by
        funext l
        rw [hx]
        exact div_mul_cancel₀ _ (hc' l)
      rw [e, h1]
      exact div_mul_cancel₀ _ (hc' k)
  unfold matmulMpi solveDenseMpi
  by_cases hm : mode ≠ .holomorphic ∧ cplx = true
  · simp only [if_pos hm] at hl ⊢
    obtain ⟨x2, hx2⟩ : ∃ x2 : Nat → ℂ, x2 = scaledSol scale (denseSolve lin (toDenseMpi R (nRows mode ns) O none shift)) (vecToReal np y) := ⟨_, rfl⟩
    have hreal : ∀ k, (x2 k).im = 0 := by
      have hA : ∀ i j, (toDenseMpi R (nRows mode ns) O none shift i j).im = 0 := by
        intro i j
        simp only [toDenseMpi]
        rw [Complex.add_im, Complex.im_sum]
        have : ∀ q ∈ range R, (∑ r ∈ range (nRows mode ns), star (O q r i) * O q r j).im = 0 := by
          intro q _
          rw [Complex.im_sum]
          refine sum_eq_zero fun r _ => ?_
          have e1 := hO hm q r i
          have e2 := hO hm q r j
          change ((starRingEnd ℂ) (O q r i) * O q r j).im = 0
          simp [Complex.mul_im, e1, e2]
        rw [sum_eq_zero this]
        split_ifs <;> simp
      have hy : ∀ k, (vecToReal np y k).im = 0 := fun k => by simp [vecToReal]
      intro k
      rw [hx2]
      cases scale with
      | none => exact hl.real _ _ hA hy k
      | some c =>
        simp only [scaledSol]
        have := hl.real _ (fun k => vecToReal np y k / (c k : ℂ)) hA (fun k => by rw [Complex.div_ofReal_im, hy k, zero_div]) k
        simp only [denseSolve]
        rw [Complex.div_ofReal_im, this, zero_div]
    have hb : ∀ l, l < np + np → vecToReal np (reassemble np x2) l = x2 l := by
      intro l hl
      unfold vecToReal reassemble
      split_ifs with h
      · apply Complex.ext <;> simp [hreal]
      · have h2 : np + (l - np) = l := by omega
        apply Complex.ext <;> simp [hreal, h2]
    have hcong : ∀ (k : Nat), scaledCoreMpi R (nRows mode ns) (np + np) O scale shift (vecToReal np (reassemble np x2)) k
        = scaledCoreMpi R (nRows mode ns) (np + np) O scale shift x2 k ∨ ¬ k < np + np := by
      intro k
      by_cases hk : k < np + np
      · left
        have hcore : ∀ u w : Nat → ℂ, (∀ l < np + np, u l = w l) → coreMpi R (nRows mode ns) (np + np) O shift u k = coreMpi R (nRows mode ns) (np + np) O shift w k := by
          intro u w huw
          unfold coreMpi
          rw [huw k hk]
          congr 1
          refine sum_congr rfl fun q _ => ?_
          congr 1
          refine sum_congr rfl fun r _ => ?_
          congr 2
          exact sum_congr rfl fun l hl => by rw [huw l (mem_range.1 hl)]
        cases scale with
        | none => exact hcore _ _ hb
        | some c =>
          simp only [scaledCoreMpi]
          rw [hcore (fun l => vecToReal np (reassemble np x2) l * c l) (fun l => x2 l * c l) fun l hl => by rw [hb l hl]]
      · right; exact hk
    have hfin : ∀ k, k < np + np → scaledCoreMpi R (nRows mode ns) (np + np) O scale shift (vecToReal np (reassemble np x2)) k = vecToReal np y k := by
      intro k hk
      rcases hcong k with h | h
      · rw [h]
        exact main (np + np) hl (vecToReal np y) x2 hx2 k hk
      · exact absurd hk h
    have hgoal : reassemble np (scaledCoreMpi R (nRows mode ns) (np + np) O scale shift (vecToReal np (reassemble np x2))) k = y k := by
      unfold reassemble at hfin ⊢
      rw [hfin k (by omega), hfin (np + k) (by omega)]
      unfold vecToReal
      rw [if_pos hk, if_neg (by omega), Nat.add_sub_cancel_left]
      apply Complex.ext <;> simp
    convert hgoal using 6
    rw [hx2]
    cases scale <;> rfl
  · simp only [if_neg hm] at hl ⊢
    refine main np hl y _ ?_ k hk
    cases scale <;> rfl

/-- Two processes with one sample each and a holomorphic function of one parameter: the hypotheses of `C183_equal` hold and the product is not that of one
    process alone, which would be zero. -/
example : ∃ J : Nat → Jac, (∀ q, IsHolo (J q)) ∧ 0 < 2 * 1 ∧ matVecMpi 2 1 1 J 0 (fun _ => Complex.I) 0 = Complex.I
    ∧ matVec 1 1 (J 0) 0 (fun _ => Complex.I) 0 = 0 := by
  refine ⟨fun q => ⟨fun _ _ => if q = 0 then 1 else -1, fun _ _ => Complex.I * if q = 0 then 1 else -1⟩, fun q s k => rfl, by norm_num, ?_, ?_⟩
  · rw [C183_onthefly, C65_holomorphic _ _ (by norm_num) _ (fun s k => rfl)]
    simp [pool, center, sum_range_succ]
  · rw [C65_holomorphic _ _ (by norm_num) _ (fun s k => rfl)]
    simp [center, sum_range_succ]

/-- Functions with real parameters and real values: the hypotheses of `C183_equal_real`. -/
example : ∃ J : Nat → Jac, (∀ q s k, (J q).im s k = 0) ∧ (∀ q s k, ((J q).re s k).im = 0) ∧ (J 0).re 0 0 ≠ (J 1).re 0 0 :=
  ⟨fun q => ⟨fun s _ => ((q + 2 * s : Nat) : ℂ), fun _ _ => 0⟩, fun _ _ _ => rfl, fun q s k => by simp, by simp⟩

/-- C183: the gradients of the split modes are real. -/
theorem C183_real_gradients (mode : Mode) (hm : mode ≠ .holomorphic) (R ns np : Nat) (J : Nat → Jac) (q r k : Nat) :
    (oksMpi mode R ns np J q r k).im = 0 := by
  have hc : ∀ f : Nat → Nat → ℝ, ∀ q s, (centerMpi R ns (fun p t => ((f p t : ℝ) : ℂ)) q s).im = 0 := by
    intro f q s
    have : centerMpi R ns (fun p t => ((f p t : ℝ) : ℂ)) q s = ((f q s - (∑ p ∈ range R, (∑ t ∈ range ns, f p t) / ns) / R : ℝ) : ℂ) := by
      unfold centerMpi
      push_cast
      rfl
    rw [this, Complex.ofReal_im]
  cases mode with
  | real =>
    change (centeredMpi R ns _ q r k).im = 0
    unfold centeredMpi
    rw [Complex.div_ofReal_im, hc fun q s => (splitJac np (J q) s k).re, zero_div]
  | complex =>
    change (centeredMpi R ns _ q (r / 2) k).im = 0
    unfold centeredMpi
    rw [Complex.div_ofReal_im, hc fun q s => if r % 2 = 0 then (splitJac np (J q) s k).re else (-Complex.I * splitJac np (J q) s k).re, zero_div]
  | holomorphic => exact absurd rfl hm

end Verif.QGT

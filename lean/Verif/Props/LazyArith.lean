import Verif.Model.LazyArith
import Verif.Props.Lazy

/-! C256: sums, differences and products with lazy wrappers. -/

set_option linter.unusedSectionVars false

namespace Verif.LocalOp
open Verif.Hilbert Lazy

section
variable {K : Type} [CommRing K] [DecidableEq K] [StarRing K] {α : Type} [LinearOrder α] [Inhabited α]
  {N : Nat} {hi : Fin N → List α} {cut : Cutoff K}

theorem collected_ok (hid : Ideal cut) (hs : SortedSpace hi) (hu : Uniform hi) (e : Lazy K α N)
    (h : Honest cut hi e) (hS : Simple e) :
    ∃ r, collected cut hi e = .ok r ∧ Built cut hi r ∧ SameOn hi (matrixOf hi r) (den hi e) := by
  obtain ⟨r, h1, h2, h3⟩ := C16_collect hid hs hu e h hS
  exact ⟨r, by simp [collected, h1], h2, h3⟩

theorem baseAdd_ok (hid : Ideal cut) (hs : SortedSpace hi) (hu : Uniform hi) (a : LOp K α N) (ha : Built cut hi a)
    (q : Lazy K α N) (hq : Honest cut hi q) (hS : Simple q) :
    ∃ r, baseAdd cut hi a q = .ok (.base r) ∧ Built cut hi r
      ∧ SameOn hi (matrixOf hi r) fun x x' => matrixOf hi a x x' + den hi q x x' := by
  obtain ⟨b, c1, c2, c3⟩ := collected_ok hid hs hu q hq hS
  obtain ⟨r, h1, h2⟩ := C12_add hid hs a b ha c2
  refine ⟨r, ?_, Built.add ha c2 h1, fun x x' hx hx' => by rw [h2 x x' hx hx', c3 x x' hx hx']⟩
  cases q with
  | base b' =>
    simp only [collected, collect, Except.ok.injEq] at c1
    subst c1
    simp [baseAdd, h1, wrapBase]
  | transpose p => simp [baseAdd, c1, h1, wrapBase]
  | adjoint p => simp [baseAdd, c1, h1, wrapBase]
  | squared p => simp [baseAdd, c1, h1, wrapBase]

/-- C256: `p + q` for concrete operators and wrappers around them is a concrete operator with the sum of the two matrices. -/
theorem C256_add (hid : Ideal cut) (hs : SortedSpace hi) (hu : Uniform hi) (p q : Lazy K α N)
    (hp : Honest cut hi p) (hq : Honest cut hi q) (hSp : Simple p) (hSq : Simple q) :
    ∃ r, addM cut hi p q = .ok (.base r) ∧ Built cut hi r
      ∧ SameOn hi (matrixOf hi r) fun x x' => den hi p x x' + den hi q x x' := by
  obtain ⟨a, c1, c2, c3⟩ := collected_ok hid hs hu p hp hSp
  obtain ⟨r, h1, h2, h3⟩ := baseAdd_ok hid hs hu a c2 q hq hSq
  refine ⟨r, ?_, h2, fun x x' hx hx' => by rw [h3 x x' hx hx']; dsimp only; rw [c3 x x' hx hx']⟩
  cases p with
  | base a' =>
    simp only [collected, collect, Except.ok.injEq] at c1
    subst c1
    exact h1
  | transpose p => simp [addM, c1, h1]
  | adjoint p => simp [addM, c1, h1]
  | squared p => simp [addM, c1, h1]

/-- C256 (only for a concrete operator on the right): `p - q` is the difference. The full statement lets `q` be a wrapper; it
    is refuted by `C256_sub_refuted`. -/
theorem C256_sub_partial (hid : Ideal cut) (hs : SortedSpace hi) (hu : Uniform hi) (p : Lazy K α N) (b : LOp K α N)
    (hp : Honest cut hi p) (hSp : Simple p) (hb : Built cut hi b) :
    ∃ r, subM cut hi p (.base b) = .ok (.base r) ∧ Built cut hi r
      ∧ SameOn hi (matrixOf hi r) fun x x' => den hi p x x' - matrixOf hi b x x' := by
  obtain ⟨a, c1, c2, c3⟩ := collected_ok hid hs hu p hp hSp
  obtain ⟨m, m1, m2⟩ := C12_scalar_mul hid hs b (-1) hb
  have bm := Built.mulScalar hb m1
  obtain ⟨r, h1, h2⟩ := C12_add hid hs a m c2 bm
  have h3 : baseSub cut hi a (.base b) = .ok (.base r) := by
    simp [baseSub, negM, m1, wrapBase, baseAdd, h1]
  refine ⟨r, ?_, Built.add c2 bm h1, fun x x' hx hx' => ?_⟩
  · cases p with
    | base a' =>
      simp only [collected, collect, Except.ok.injEq] at c1
      subst c1
      exact h3
    | transpose p => simp [subM, c1, h3]
    | adjoint p => simp [subM, c1, h3]
    | squared p => simp [subM, c1, h3]
  · rw [h2 x x' hx hx', m2 x x' hx hx', c3 x x' hx hx']; ring

/-- C256: with a wrapper on the right the difference never exists, whatever is on the left, although the same matrix is
    obtained as `p + (-1) * q`. -/
theorem C256_sub_wrapper_partial (hid : Ideal cut) (hs : SortedSpace hi) (hu : Uniform hi) (p q : Lazy K α N)
    (hp : Honest cut hi p) (hq : Honest cut hi q) (hSp : Simple p) (hSq : Simple q) (hw : ∀ o, q ≠ .base o) :
    subM cut hi p q = .error .typeError
      ∧ ∃ m r, mulNum cut hi q (-1) = .ok (.base m) ∧ addM cut hi p (.base m) = .ok (.base r)
        ∧ SameOn hi (matrixOf hi r) fun x x' => den hi p x x' - den hi q x x' := by
  obtain ⟨a, c1, c2, c3⟩ := collected_ok hid hs hu p hp hSp
  obtain ⟨b, d1, d2, d3⟩ := collected_ok hid hs hu q hq hSq
  have hn : negM cut hi q = .error .typeError := by
    cases q with
    | base o => exact absurd rfl (hw o)
    | transpose p => rfl
    | adjoint p => rfl
    | squared p => rfl
  have hb : baseSub cut hi a q = .error .typeError := by simp [baseSub, hn]
  refine ⟨?_, ?_⟩
  · cases p with
    | base a' =>
      simp only [collected, collect, Except.ok.injEq] at c1
      subst c1
      exact hb
    | transpose p => simp [subM, c1, hb]
    | adjoint p => simp [subM, c1, hb]
    | squared p => simp [subM, c1, hb]
  · obtain ⟨m, m1, m2⟩ := C12_scalar_mul hid hs b (-1) d2
    obtain ⟨r, h1, h2⟩ := C12_add hid hs a m c2 (Built.mulScalar d2 m1)
    refine ⟨m, r, by simp [mulNum, d1, m1, wrapBase], ?_, fun x x' hx hx' => ?_⟩
    · have h3 : baseAdd cut hi a (.base m) = .ok (.base r) := by simp [baseAdd, h1, wrapBase]
      cases p with
      | base a' =>
        simp only [collected, collect, Except.ok.injEq] at c1
        subst c1
        exact h3
      | transpose p => simp [addM, c1, h3]
      | adjoint p => simp [addM, c1, h3]
      | squared p => simp [addM, c1, h3]
    · rw [h2 x x' hx hx', m2 x x' hx hx', c3 x x' hx hx', d3 x x' hx hx']; ring

/-- the matrix of `A A†` out of that of the collected adjoint. -/
theorem den_squared_adjoint {a d : LOp K α N}
    (h : SameOn hi (matrixOf hi d) fun x x' => star (matrixOf hi a x' x)) :
    SameOn hi (den hi (.squared (.base d)))
      (matProd hi (matrixOf hi a) fun x x' => star (matrixOf hi a x' x)) := by
  intro x x' hx hx'
  simp only [den, matProd]
  apply Finset.sum_congr rfl
  intro y hy
  have hy' := (mem_basis y).1 hy
  rw [h y x hy' hx, h y x' hy' hx', star_star]

theorem baseMul_ok (hid : Ideal cut) (hs : SortedSpace hi) (hu : Uniform hi)
    (eq : Lazy K α N → Lazy K α N → Bool) (heq : ∀ a b, eq a b = true → a = b)
    (a : LOp K α N) (ha : Built cut hi a) (q : Lazy K α N) (hq : Honest cut hi q) (hS : Simple q) :
    ∃ r, baseMul cut hi eq a q = .ok r
      ∧ SameOn hi (den hi r) (matProd hi (matrixOf hi a) (den hi q)) := by
  obtain ⟨b, c1, c2, c3⟩ := collected_ok hid hs hu q hq hS
  obtain ⟨r, h1, h2⟩ := C13_product hid hs hu a b ha c2
  have hr : SameOn hi (den hi (.base r)) (matProd hi (matrixOf hi a) (den hi q)) :=
    SameOn.trans h2 (matProd_sameOn (fun _ _ _ _ => rfl) c3)
  cases q with
  | base b' =>
    simp only [collected, collect, Except.ok.injEq] at c1
    subst c1
    exact ⟨_, by simp [baseMul, h1, wrapBase], hr⟩
  | transpose p => exact ⟨_, by simp [baseMul, c1, h1, wrapBase], hr⟩
  | squared p => exact ⟨_, by simp [baseMul, c1, h1, wrapBase], hr⟩
  | adjoint p =>
    by_cases he : eq p (.base a) = true
    · have e := heq _ _ he
      subst e
      by_cases hf : a.isHerm = true
      · refine ⟨.squared (.base a), by simp [baseMul, he, hM, hf, collect], ?_⟩
        exact den_squared_adjoint (hq.2 hf)
      · obtain ⟨t, t1, t2⟩ := C12_transpose hid hs a ha
        have bt := Built.transpose ha t1
        obtain ⟨d, d1, d2⟩ := C12_conjugate hid hs t bt
        refine ⟨.squared (.base d), ?_, ?_⟩
        · simp [baseMul, he, hM, hf, collect, transposeM, t1, Lazy.conj, conjugateM, d1]
        · exact den_squared_adjoint fun x x' hx hx' => by rw [d2 x x' hx hx', t2 x x' hx hx']
    · exact ⟨_, by simp [baseMul, he, c1, h1, wrapBase], hr⟩

/-- C256: `p * q` for concrete operators and wrappers around them denotes the matrix product, including `A.H * A` and
    `A * A.H`, which are kept lazily. -/
theorem C256_mul (hid : Ideal cut) (hs : SortedSpace hi) (hu : Uniform hi)
    (eq : Lazy K α N → Lazy K α N → Bool) (heq : ∀ a b, eq a b = true → a = b)
    (p q : Lazy K α N) (hp : Honest cut hi p) (hq : Honest cut hi q) (hSp : Simple p) (hSq : Simple q) :
    ∃ r, mulM cut hi eq p q = .ok r ∧ SameOn hi (den hi r) (matProd hi (den hi p) (den hi q)) := by
  obtain ⟨a, c1, c2, c3⟩ := collected_ok hid hs hu p hp hSp
  obtain ⟨r, h1, h2⟩ := baseMul_ok hid hs hu eq heq a c2 q hq hSq
  have hr := h2.trans (matProd_sameOn c3 fun _ _ _ _ => rfl)
  cases p with
  | base a' =>
    simp only [collected, collect, Except.ok.injEq] at c1
    subst c1
    exact ⟨r, h1, hr⟩
  | transpose p => exact ⟨r, by simp [mulM, c1, h1], hr⟩
  | squared p => exact ⟨r, by simp [mulM, c1, h1], hr⟩
  | adjoint p =>
    by_cases he : eq p q = true
    · have e := heq _ _ he
      subst e
      exact ⟨.squared p, by simp [mulM, he], fun _ _ _ _ => rfl⟩
    · exact ⟨r, by simp [mulM, he, c1, h1], hr⟩

/-- C256: numbers. `p + c`, `c + p`, `p - c`, `c - p`, `p * c` and `c * p` are concrete operators with the matrices `P + c`,
    `P - c`, `c - P` and `c P`, for concrete operators and wrappers alike. -/
theorem C256_numbers (hid : Ideal cut) (hs : SortedSpace hi) (hu : Uniform hi) (p : Lazy K α N) (c : K)
    (hp : Honest cut hi p) (hSp : Simple p) :
    (∃ r, addNum cut hi p c = .ok (.base r)
      ∧ SameOn hi (matrixOf hi r) fun x x' => den hi p x x' + if x = x' then c else 0)
    ∧ (∃ r, subNum cut hi p c = .ok (.base r)
      ∧ SameOn hi (matrixOf hi r) fun x x' => den hi p x x' - if x = x' then c else 0)
    ∧ (∃ r, numSub cut hi c p = .ok (.base r)
      ∧ SameOn hi (matrixOf hi r) fun x x' => (if x = x' then c else 0) - den hi p x x')
    ∧ (∃ r, mulNum cut hi p c = .ok (.base r)
      ∧ SameOn hi (matrixOf hi r) fun x x' => c * den hi p x x') := by
  obtain ⟨a, c1, c2, c3⟩ := collected_ok hid hs hu p hp hSp
  refine ⟨?_, ?_, ?_, ?_⟩
  · obtain ⟨r, h1, h2⟩ := C12_add_scalar hid hs a c c2
    exact ⟨r, by simp [addNum, c1, h1, wrapBase], fun x x' hx hx' => by rw [h2 x x' hx hx', c3 x x' hx hx']⟩
  · obtain ⟨r, h1, h2⟩ := C12_add_scalar hid hs a (-c) c2
    refine ⟨r, by simp [subNum, c1, h1, wrapBase], fun x x' hx hx' => ?_⟩
    rw [h2 x x' hx hx', c3 x x' hx hx']
    dsimp only
    split_ifs <;> ring
  · obtain ⟨m, m1, m2⟩ := C12_scalar_mul hid hs a (-1) c2
    obtain ⟨r, h1, h2⟩ := C12_add_scalar hid hs m c (Built.mulScalar c2 m1)
    refine ⟨r, by simp [numSub, c1, m1, h1, wrapBase], fun x x' hx hx' => ?_⟩
    rw [h2 x x' hx hx', m2 x x' hx hx', c3 x x' hx hx']
    ring
  · obtain ⟨r, h1, h2⟩ := C12_scalar_mul hid hs a c c2
    exact ⟨r, by simp [mulNum, c1, h1, wrapBase], fun x x' hx hx' => by rw [h2 x x' hx hx', c3 x x' hx hx']⟩

/-- C256 (only for concrete operators): `-A` and `A / c` are `-A` and `A` times the inverse; division by zero is a
    `ValueError`. The full statement has every operator; it is refuted by `C256_neg_div_refuted`. -/
theorem C256_neg_div_partial (hid : Ideal cut) (hs : SortedSpace hi) (a : LOp K α N) (ha : Built cut hi a)
    (inv : K → K) (c : K) :
    (∃ r, negM cut hi (.base a) = .ok (.base r) ∧ SameOn hi (matrixOf hi r) fun x x' => - matrixOf hi a x x')
    ∧ (c * inv c = 1 → c ≠ 0 → ∃ r, divNum cut hi inv (.base a) c = .ok (.base r)
      ∧ SameOn hi (fun x x' => c * matrixOf hi r x x') (matrixOf hi a))
    ∧ divNum cut hi inv (.base a) 0 = .error .valueError := by
  refine ⟨?_, fun hi' hc => ?_, by simp [divNum]⟩
  · obtain ⟨m, m1, m2⟩ := C12_scalar_mul hid hs a (-1) ha
    exact ⟨m, by simp [negM, m1, wrapBase], fun x x' hx hx' => by rw [m2 x x' hx hx']; ring⟩
  · obtain ⟨m, m1, m2⟩ := C12_scalar_mul hid hs a (inv c) ha
    refine ⟨m, by simp [divNum, hc, m1, wrapBase], fun x x' hx hx' => ?_⟩
    dsimp only
    rw [m2 x x' hx hx', ← mul_assoc, hi', one_mul]

end

/-- C256 is false for differences: there is an operator `A` with `A.H - A` but without `A - A.H`. -/
theorem C256_sub_refuted :
    ∃ A : LOp ℤ ℤ 2, HonestOp intCut spins A ∧ ∃ h r, hM intCut spins (.base A) = .ok h
      ∧ subM intCut spins h (.base A) = .ok (.base r) ∧ (∃ x x', matrixOf spins r x x' ≠ 0)
      ∧ subM intCut spins (.base A) h = .error .typeError := by
  obtain ⟨op, hm, ho, hf, e1, e2, _⟩ := upper_honest
  have hv : Valid spins (![-1, 1] : Fin 2 → ℤ) := by unfold Valid; decide
  have hv' : Valid spins (![1, 1] : Fin 2 → ℤ) := by unfold Valid; decide
  obtain ⟨r, h1, _, h3⟩ := C256_sub_partial intCut_ideal spins_sorted spins_uniform (.adjoint (.base op)) op ho trivial ho.1
  refine ⟨op, ho, .adjoint (.base op), r, by simp [hM, hf], h1, ⟨![-1, 1], ![1, 1], ?_⟩, by simp [subM, baseSub, negM]⟩
  rw [h3 _ _ hv hv']
  simp [den, e1, e2]

/-- C256 is false for the negative and the quotient: `-A.H` and `A.H / c` raise for every number `c`, although `(-1) * A.H`
    exists. -/
theorem C256_neg_div_refuted :
    ∃ A : LOp ℤ ℤ 2, HonestOp intCut spins A ∧ ∃ h r, hM intCut spins (.base A) = .ok h
      ∧ mulNum intCut spins h (-1) = .ok (.base r) ∧ negM intCut spins h = .error .typeError
      ∧ ∀ inv c, divNum intCut spins inv h c = .error .typeError := by
  obtain ⟨op, hm, ho, hf, e1, e2, _⟩ := upper_honest
  obtain ⟨_, _, _, r, h1, _⟩ := C256_numbers intCut_ideal spins_sorted spins_uniform (.adjoint (.base op)) (-1) ho trivial
  exact ⟨op, ho, .adjoint (.base op), r, by simp [hM, hf], h1, rfl, fun _ _ => rfl⟩

/-- `A + A.H` of a non-hermitian `A`: the hypotheses of `C256_add` hold and the sum is a symmetric matrix different from
    both. -/
example : ∃ A r : LOp ℤ ℤ 2, Honest intCut spins (.base A) ∧ Honest intCut spins (.adjoint (.base A))
    ∧ addM intCut spins (.base A) (.adjoint (.base A)) = .ok (.base r)
    ∧ matrixOf spins r ![-1, 1] ![1, 1] = 1 ∧ matrixOf spins r ![1, 1] ![-1, 1] = 1
    ∧ matrixOf spins A ![1, 1] ![-1, 1] = 0 := by
  obtain ⟨op, hm, ho, hf, e1, e2, _⟩ := upper_honest
  have hv : Valid spins (![-1, 1] : Fin 2 → ℤ) := by unfold Valid; decide
  have hv' : Valid spins (![1, 1] : Fin 2 → ℤ) := by unfold Valid; decide
  obtain ⟨r, h1, _, h3⟩ := C256_add intCut_ideal spins_sorted spins_uniform (.base op) (.adjoint (.base op)) ho ho trivial trivial
  refine ⟨op, r, ho, ho, h1, ?_, ?_, e2⟩
  · rw [h3 _ _ hv hv']; simp [den, e1, e2]
  · rw [h3 _ _ hv' hv]; simp [den, e1, e2]

open Classical in
/-- `A * A.H` of the same operator object is kept as the square of the collected adjoint (hypotheses of `C256_mul`). -/
example : ∃ A d : LOp ℤ ℤ 2, ∃ eq : Lazy ℤ ℤ 2 → Lazy ℤ ℤ 2 → Bool, (∀ a b, eq a b = true → a = b)
    ∧ Honest intCut spins (.adjoint (.base A)) ∧ A.isHerm = false
    ∧ mulM intCut spins eq (.base A) (.adjoint (.base A)) = .ok (.squared (.base d)) := by
  obtain ⟨op, hm, ho, hf, e1, e2, _⟩ := upper_honest
  obtain ⟨t, t1, t2⟩ := C12_transpose intCut_ideal spins_sorted op ho.1
  obtain ⟨d, d1, d2⟩ := C12_conjugate intCut_ideal spins_sorted t (Built.transpose ho.1 t1)
  refine ⟨op, d, fun a b => decide (a = b), fun a b h => by simpa using h, ho, hf, ?_⟩
  simp [mulM, baseMul, hM, hf, collect, transposeM, t1, Lazy.conj, conjugateM, d1]

end Verif.LocalOp

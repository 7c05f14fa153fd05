import Verif.Model.Lazy
import Verif.Props.LocalOperator

/-! C16: lazy wrappers. -/

set_option linter.unusedSectionVars false

namespace Verif.LocalOp
open Verif.Hilbert Lazy

section
variable {K : Type} [CommRing K] [DecidableEq K] [StarRing K] {α : Type} [LinearOrder α] [Inhabited α]
  {N : Nat} {hi : Fin N → List α} {cut : Cutoff K}

/-! ### specification -/

/-- the matrix an operator expression stands for. -/
def den (hi : Fin N → List α) : Lazy K α N → (Fin N → α) → (Fin N → α) → K
  | .base op => matrixOf hi op
  | .transpose p => fun x x' => den hi p x' x
  | .adjoint p => fun x x' => star (den hi p x' x)
  | .squared p => matProd hi (fun x y => star (den hi p y x)) (den hi p)

/-- equality of matrices on the basis of the space. -/
def SameOn (hi : Fin N → List α) (a b : (Fin N → α) → (Fin N → α) → K) : Prop :=
  ∀ x x', Valid hi x → Valid hi x' → a x x' = b x x'

/-- a concrete operator whose `is_hermitian` flag does not lie (C15). -/
def HonestOp (cut : Cutoff K) (hi : Fin N → List α) (op : LOp K α N) : Prop :=
  Built cut hi op ∧ (op.isHerm = true → SameOn hi (matrixOf hi op) fun x x' => star (matrixOf hi op x' x))

/-- expressions over honest operators. -/
def Honest (cut : Cutoff K) (hi : Fin N → List α) : Lazy K α N → Prop
  | .base op => HonestOp cut hi op
  | .transpose p => Honest cut hi p
  | .adjoint p => Honest cut hi p
  | .squared p => Honest cut hi p

/-- concrete operators only have to be built by the API. -/
def BuiltE (cut : Cutoff K) (hi : Fin N → List α) : Lazy K α N → Prop
  | .base op => Built cut hi op
  | .transpose p => BuiltE cut hi p
  | .adjoint p => BuiltE cut hi p
  | .squared p => BuiltE cut hi p

theorem Honest.built {e : Lazy K α N} (h : Honest cut hi e) : BuiltE cut hi e := by
  induction e with
  | base op => exact h.1
  | transpose p ih => exact ih h
  | adjoint p ih => exact ih h
  | squared p ih => exact ih h

/-! ### lemmas -/

theorem den_herm {e : Lazy K α N} (h : Honest cut hi e) (hf : isHerm e = true) :
    SameOn hi (den hi e) fun x x' => star (den hi e x' x) := by
  cases e with
  | base op => exact h.2 hf
  | transpose p => simp [isHerm] at hf
  | adjoint p => simp [isHerm] at hf
  | squared p =>
    intro x x' _ _
    simp only [den, matProd, star_sum, star_mul, star_star]

/-- `to_sparse` gives the matrix of the expression. -/
theorem C16_to_sparse (hid : Ideal cut) (hs : SortedSpace hi) (e : Lazy K α N) (h : BuiltE cut hi e)
    (gm : Nat → K) (gx : Nat → Fin N → α) : SameOn hi (toSparse hi gm gx e) (den hi e) := by
  induction e with
  | base op => exact fun x x' hx hx' => C10_get_conn_reachable hid hs op h gm gx x x' hx hx'
  | transpose p ih => exact fun x x' hx hx' => ih h x' x hx' hx
  | adjoint p ih => exact fun x x' hx hx' => congrArg star (ih h x' x hx' hx)
  | squared p ih =>
    intro x x' hx hx'
    simp only [toSparse, den, matProd]
    apply Finset.sum_congr rfl
    intro y hy
    have hy' : Valid hi y := (mem_basis y).1 hy
    rw [ih h y x hy' hx, ih h y x' hy' hx']

/-- both non-concrete methods at once. -/
theorem lazy_methods (hid : Ideal cut) (hs : SortedSpace hi) (e : Lazy K α N) (h : Honest cut hi e) :
    (∀ r, transposeM cut hi e false = .ok r →
      BuiltE cut hi r ∧ SameOn hi (den hi r) fun x x' => den hi e x' x)
    ∧ (∀ r, conjugateM cut hi e false = .ok r →
      BuiltE cut hi r ∧ SameOn hi (den hi r) fun x x' => star (den hi e x x')) := by
  induction e with
  | base op =>
    refine ⟨?_, ?_⟩
    · intro r hr
      simp only [transposeM, Except.ok.injEq] at hr
      subst hr
      exact ⟨h.1, fun x x' _ _ => rfl⟩
    · intro r hr
      obtain ⟨r', h1, h3⟩ := C12_conjugate hid hs op h.1
      simp only [conjugateM, h1, Except.ok.injEq] at hr
      subst hr
      exact ⟨Built.conj h.1 h1, h3⟩
  | transpose p ih =>
    refine ⟨?_, ?_⟩
    · intro r hr
      simp only [transposeM, Except.ok.injEq] at hr
      subst hr
      exact ⟨Honest.built (e := p) h, fun x x' _ _ => rfl⟩
    · intro r hr
      rw [conjugateM] at hr
      by_cases hf : isHerm p = true
      · rw [if_pos hf] at hr
        simp only [Except.ok.injEq] at hr
        subst hr
        exact ⟨Honest.built (e := p) h, den_herm h hf⟩
      · rw [if_neg hf, if_neg (by simp)] at hr
        simp only [Except.ok.injEq] at hr
        subst hr
        exact ⟨Honest.built (e := p) h, fun x x' _ _ => rfl⟩
  | adjoint p ih =>
    obtain ⟨i1, i2⟩ := ih h
    refine ⟨?_, ?_⟩
    · intro r hr
      rw [transposeM] at hr
      exact i2 r hr
    · intro r hr
      rw [conjugateM] at hr
      refine ⟨(i1 r hr).1, fun x x' hx hx' => ?_⟩
      rw [(i1 r hr).2 x x' hx hx']
      simp [den]
  | squared p ih =>
    refine ⟨?_, ?_⟩
    · intro r hr
      simp only [transposeM, Except.ok.injEq] at hr
      subst hr
      exact ⟨Honest.built (e := p) h, fun x x' _ _ => rfl⟩
    · intro r hr
      simp [conjugateM] at hr

/-! ### C16 -/

/-- C16: `op.transpose()` of any expression denotes the transposed matrix. -/
theorem C16_transpose (hid : Ideal cut) (hs : SortedSpace hi) (e r : Lazy K α N)
    (h : Honest cut hi e) (hr : transposeM cut hi e false = .ok r) :
    SameOn hi (den hi r) fun x x' => den hi e x' x := ((lazy_methods hid hs e h).1 r hr).2

/-- C16: `op.T`, whenever it does not raise (it does for `Squared`, see `C106_squared_methods_refuted`). -/
theorem C16_T (hid : Ideal cut) (hs : SortedSpace hi) (e r : Lazy K α N)
    (h : Honest cut hi e) (hr : tM cut hi e = .ok r) :
    SameOn hi (den hi r) fun x x' => den hi e x' x := by
  cases e with
  | squared p => simp [tM] at hr
  | base op => exact C16_transpose hid hs _ r h hr
  | transpose p => exact C16_transpose hid hs _ r h hr
  | adjoint p => exact C16_transpose hid hs _ r h hr

/-- C16: `op.conj()` (with any argument) and `op.conjugate(concrete=False)`. -/
theorem C16_conj (hid : Ideal cut) (hs : SortedSpace hi) (e r : Lazy K α N) (c : Bool)
    (h : Honest cut hi e) (hr : conj cut hi e c = .ok r) :
    SameOn hi (den hi r) fun x x' => star (den hi e x x') := ((lazy_methods hid hs e h).2 r hr).2

/-- C16: `op.H` is the adjoint of every expression except the transpose of a square. -/
theorem C16_H (hid : Ideal cut) (hs : SortedSpace hi) (e r : Lazy K α N)
    (h : Honest cut hi e) (hne : ∀ p, e ≠ .transpose (.squared p)) (hr : hM cut hi e = .ok r) :
    SameOn hi (den hi r) fun x x' => star (den hi e x' x) := by
  cases e with
  | base op =>
    rw [hM] at hr
    by_cases hf : op.isHerm = true
    · rw [if_pos hf] at hr
      simp only [Except.ok.injEq] at hr; subst hr
      exact h.2 hf
    · rw [if_neg hf] at hr
      simp only [Except.ok.injEq] at hr; subst hr
      exact fun x x' _ _ => rfl
  | adjoint p =>
    rw [hM] at hr
    simp only [Except.ok.injEq] at hr; subst hr
    intro x x' _ _
    simp [den]
  | squared p =>
    rw [hM] at hr
    simp only [Except.ok.injEq] at hr; subst hr
    exact den_herm (e := .squared p) h rfl
  | transpose p =>
    rw [hM] at hr
    have hp : conjugateM cut hi p false = .ok r := by
      cases p with
      | squared q => exact absurd rfl (hne q)
      | base op => exact hr
      | transpose q => exact hr
      | adjoint q => exact hr
    exact ((lazy_methods hid hs p h).2 r hp).2

/-- a wrapper directly around a concrete operator, or a concrete operator: what `H`, `T`, `conj` and `@`
    of the API produce out of concrete operators (without nesting squares). -/
def Simple : Lazy K α N → Prop
  | .base _ => True
  | .transpose (.base _) => True
  | .adjoint (.base _) => True
  | .squared (.base _) => True
  | _ => False

/-- C16: `op.collect()` of a wrapper around a concrete operator succeeds, is concrete and
    represents the same matrix. -/
theorem C16_collect (hid : Ideal cut) (hs : SortedSpace hi) (hu : Uniform hi) (e : Lazy K α N)
    (h : Honest cut hi e) (hS : Simple e) :
    ∃ r, collect cut hi e = .ok (.base r) ∧ Built cut hi r ∧ SameOn hi (matrixOf hi r) (den hi e) := by
  cases e with
  | base op => exact ⟨op, rfl, h.1, fun _ _ _ _ => rfl⟩
  | transpose p =>
    cases p with
    | base op =>
      obtain ⟨r, h1, h2⟩ := C12_transpose hid hs op h.1
      refine ⟨r, ?_, Built.transpose h.1 h1, h2⟩
      simp [collect, transposeM, h1]
    | _ => simp [Simple] at hS
  | adjoint p =>
    cases p with
    | base op =>
      obtain ⟨t, h1, h2⟩ := C12_transpose hid hs op h.1
      have bt := Built.transpose h.1 h1
      obtain ⟨d, h3, h4⟩ := C12_conjugate hid hs t bt
      refine ⟨d, ?_, Built.conj bt h3, fun x x' hx hx' => ?_⟩
      · simp [collect, transposeM, h1, Lazy.conj, conjugateM, h3]
      · rw [h4 x x' hx hx', h2 x x' hx hx']; rfl
    | _ => simp [Simple] at hS
  | squared p =>
    cases p with
    | base op =>
      by_cases hf : op.isHerm = true
      · obtain ⟨r, h1, h2⟩ := C13_product hid hs hu op op h.1 h.1
        refine ⟨r, by simp [collect, hf, h1], Built.matmul hu h.1 h.1 h1, fun x x' hx hx' => ?_⟩
        rw [h2 x x' hx hx']
        simp only [den, matProd]
        apply Finset.sum_congr rfl
        intro y hy
        rw [h.2 hf x y hx ((mem_basis y).1 hy)]
      · obtain ⟨t, h1, h2⟩ := C12_transpose hid hs op h.1
        have bt := Built.transpose h.1 h1
        obtain ⟨d, h3, h4⟩ := C12_conjugate hid hs t bt
        have bd := Built.conj bt h3
        obtain ⟨r, h5, h6⟩ := C13_product hid hs hu d op bd h.1
        refine ⟨r, by simp [collect, hf, h1, h3, h5], Built.matmul hu bd h.1 h5, fun x x' hx hx' => ?_⟩
        rw [h6 x x' hx hx']
        simp only [den, matProd]
        apply Finset.sum_congr rfl
        intro y hy
        have hy' := (mem_basis y).1 hy
        rw [h4 x y hx hy', h2 x y hx hy']
    | _ => simp [Simple] at hS

theorem matProd_sameOn {a a' b b' : (Fin N → α) → (Fin N → α) → K} (h : SameOn hi a a')
    (h' : SameOn hi b b') : SameOn hi (matProd hi a b) (matProd hi a' b') := by
  intro x x' hx hx'
  unfold matProd
  apply Finset.sum_congr rfl
  intro y hy
  rw [h x y hx ((mem_basis y).1 hy), h' y x' ((mem_basis y).1 hy) hx']

theorem SameOn.trans {a b c : (Fin N → α) → (Fin N → α) → K} (h : SameOn hi a b) (h' : SameOn hi b c) :
    SameOn hi a c := fun x x' hx hx' => (h x x' hx hx').trans (h' x x' hx hx')

theorem SameOn.symm {a b : (Fin N → α) → (Fin N → α) → K} (h : SameOn hi a b) : SameOn hi b a :=
  fun x x' hx hx' => (h x x' hx hx').symm

/-- the square of a hermitian expression. -/
theorem den_squared_herm {e : Lazy K α N} (h : Honest cut hi e) (hf : isHerm e = true) :
    SameOn hi (den hi (.squared e)) (matProd hi (den hi e) (den hi e)) :=
  matProd_sameOn (den_herm h hf).symm fun _ _ _ _ => rfl

theorem baseMatmul_ok (hid : Ideal cut) (hs : SortedSpace hi) (hu : Uniform hi)
    (eq : Lazy K α N → Lazy K α N → Bool) (heq : ∀ a b, eq a b = true → a = b)
    (a : LOp K α N) (ha : Built cut hi a) (q : Lazy K α N) (hq : Honest cut hi q) (hS : Simple q)
    (hal : a.isHerm = true → HonestOp cut hi a ∨ ∀ b, eq (.base a) (.base b) = true → HonestOp cut hi b) :
    ∃ r, baseMatmul cut hi eq a q = .ok r
      ∧ SameOn hi (den hi r) (matProd hi (matrixOf hi a) (den hi q)) := by
  have key : ∀ b, Built cut hi b → SameOn hi (matrixOf hi b) (den hi q) →
      ∃ r, (if eq (.base a) (.base b) && a.isHerm then (.ok (.squared (.base a)) : Except Err (Lazy K α N))
        else match opMatmul cut hi a b with
          | .ok r => .ok (.base r)
          | .error e => .error e) = .ok r
        ∧ SameOn hi (den hi r) (matProd hi (matrixOf hi a) (den hi q)) := by
    intro b hb hbq
    by_cases hc : (eq (.base a) (.base b) && a.isHerm) = true
    · rw [if_pos hc]
      rw [Bool.and_eq_true] at hc
      have e := heq _ _ hc.1
      simp only [Lazy.base.injEq] at e
      subst e
      have hho : HonestOp cut hi a := (hal hc.2).elim id fun h => h a hc.1
      refine ⟨_, rfl, ?_⟩
      exact (den_squared_herm (e := .base a) hho hc.2).trans
        (matProd_sameOn (fun _ _ _ _ => rfl) hbq)
    · rw [if_neg hc]
      obtain ⟨r, h1, h2⟩ := C13_product hid hs hu a b ha hb
      refine ⟨.base r, by rw [h1], ?_⟩
      exact SameOn.trans h2 (matProd_sameOn (fun _ _ _ _ => rfl) hbq)
  obtain ⟨b, c1, c2, c3⟩ := C16_collect hid hs hu q hq hS
  obtain ⟨r, k1, k2⟩ := key b c2 c3
  refine ⟨r, ?_, k2⟩
  cases q with
  | base b' =>
    simp only [collect, Except.ok.injEq, Lazy.base.injEq] at c1
    subst c1
    exact k1
  | transpose p => rw [baseMatmul, c1]; · exact k1
                   · simp
  | adjoint p => rw [baseMatmul, c1]; · exact k1
                 · simp
  | squared p => rw [baseMatmul, c1]; · exact k1
                 · simp

/-- C16: `p @ q` for concrete operators and wrappers directly around them denotes the matrix
    product, including the lazily kept `A.H @ A` and `A @ A`. `eq` is object identity: equal objects
    have equal content, and objects created inside the call are different from `p` and `q`. -/
theorem C16_matmul (hid : Ideal cut) (hs : SortedSpace hi) (hu : Uniform hi)
    (eq : Lazy K α N → Lazy K α N → Bool) (heq : ∀ a b, eq a b = true → a = b)
    (p q : Lazy K α N) (hp : Honest cut hi p) (hq : Honest cut hi q) (hSp : Simple p) (hSq : Simple q)
    (hfresh : ∀ c, collect cut hi p = .ok c → (∀ o, p ≠ .base o) → ∀ b, eq c b = false) :
    ∃ r, matmulM cut hi eq p q = .ok r ∧ SameOn hi (den hi r) (matProd hi (den hi p) (den hi q)) := by
  have key : (∀ o, p ≠ .base o) → ∃ r, collectMatmul cut hi eq p q = .ok r
      ∧ SameOn hi (den hi r) (matProd hi (den hi p) (den hi q)) := by
    intro hb
    obtain ⟨a, c1, c2, c3⟩ := C16_collect hid hs hu p hp hSp
    obtain ⟨r, k1, k2⟩ := baseMatmul_ok hid hs hu eq heq a c2 q hq hSq (fun _ => Or.inr fun b hh => by
      rw [hfresh _ c1 hb] at hh; exact absurd hh Bool.false_ne_true)
    refine ⟨r, by rw [collectMatmul, c1]; exact k1, k2.trans (matProd_sameOn c3 fun _ _ _ _ => rfl)⟩
  cases p with
  | base a => exact baseMatmul_ok hid hs hu eq heq a hp.1 q hq hSq fun _ => Or.inl hp
  | transpose p => exact key (by simp)
  | adjoint p =>
    rw [matmulM]
    by_cases h : eq p q = true
    · rw [if_pos h]
      have e := heq _ _ h
      subst e
      exact ⟨_, rfl, fun _ _ _ _ => rfl⟩
    · rw [if_neg h]; exact key (by simp)
  | squared p =>
    rw [matmulM]
    by_cases h : eq (.squared p) q = true
    · rw [if_pos h]
      have e := heq _ _ h
      subst e
      exact ⟨_, rfl, den_squared_herm (e := .squared p) hp rfl⟩
    · rw [if_neg h]; exact key (by simp)

end

/-! ### refutations with witnesses -/

/-- a non-symmetric real matrix on one spin. -/
def upper : Mat ℤ := ⟨2, fun i j => if i = 0 ∧ j = 1 then 1 else 0⟩

theorem upper_args : ArgsOK spins [(upper, [0])] := by
  intro p hp
  rw [List.mem_singleton] at hp; subst hp
  exact ⟨List.nodup_singleton _, List.cons_ne_nil _ _, by decide, spins_uniform.reorderable _⟩

theorem upper_honest : ∃ op, mk intCut spins 0 [(upper, [0])] = .ok op ∧ HonestOp intCut spins op
    ∧ op.isHerm = false ∧ matrixOf spins op ![-1, 1] ![1, 1] = 1 ∧ matrixOf spins op ![1, 1] ![-1, 1] = 0
    ∧ conjOp intCut spins op ≠ .error .valueError := by
  have hw : (match mk intCut spins 0 [(upper, [0])] with
      | .ok op => !op.isHerm && decide (matrixOf spins op ![-1, 1] ![1, 1] = 1)
          && decide (matrixOf spins op ![1, 1] ![-1, 1] = 0)
      | .error _ => false) = true := by decide +kernel
  rcases hm : mk intCut spins 0 [(upper, [0])] with e | op
  · rw [hm] at hw; exact absurd hw Bool.false_ne_true
  rw [hm] at hw
  simp only [Bool.and_eq_true, decide_eq_true_eq, Bool.not_eq_true'] at hw
  have hb : Built intCut spins op := .mk upper_args hm
  obtain ⟨r, h1, _⟩ := C12_conjugate intCut_ideal spins_sorted op hb
  exact ⟨op, rfl, ⟨hb, fun h => by rw [hw.1.1] at h; exact absurd h Bool.false_ne_true⟩, hw.1.1, hw.1.2, hw.2,
    by rw [h1]; simp⟩

/-- C106 is false for `Squared`: there is an operator `A` for which `A.H @ A` can be formed, but its `.T`
    and `.conj()` and the `.collect()` of its transpose raise. -/
theorem C106_squared_methods_refuted :
    ∃ A : LOp ℤ ℤ 2, HonestOp intCut spins A ∧ ∀ eq : Lazy ℤ ℤ 2 → Lazy ℤ ℤ 2 → Bool,
      eq (.base A) (.base A) = true → ∃ h s t, hM intCut spins (.base A) = .ok h
      ∧ matmulM intCut spins eq h (.base A) = .ok s ∧ transposeM intCut spins s false = .ok t
      ∧ (∀ r, tM intCut spins s ≠ .ok r) ∧ (∀ c r, conj intCut spins s c ≠ .ok r)
      ∧ (∀ r, collect intCut spins t ≠ .ok r) := by
  obtain ⟨op, hm, ho, hf, e1, e2, _⟩ := upper_honest
  refine ⟨op, ho, fun eq he => ⟨.adjoint (.base op), .squared (.base op), .transpose (.squared (.base op)),
    by simp [hM, hf], by simp [matmulM, he], by simp [transposeM], ?_, ?_, ?_⟩⟩
  · intro r h; simp [tM] at h
  · intro c r h; simp [conj, conjugateM] at h
  · intro r h; simp [collect, transposeM] at h

/-- C106 is false for `A.T.conjugate(concrete=True)`: it returns the conjugate instead of the adjoint. -/
theorem C106_transpose_conjugate_concrete_refuted :
    ¬ ∀ (e r : Lazy ℤ ℤ 2), Honest intCut spins e → conjugateM intCut spins e true = .ok r →
      SameOn spins (den spins r) fun x x' => star (den spins e x x') := by
  intro h
  obtain ⟨op, hm, ho, hf, e1, e2, _⟩ := upper_honest
  obtain ⟨r, h1, h2⟩ := C12_conjugate intCut_ideal spins_sorted op ho.1
  have hv : Valid spins (![-1, 1] : Fin 2 → ℤ) := by unfold Valid; decide
  have hv' : Valid spins (![1, 1] : Fin 2 → ℤ) := by unfold Valid; decide
  have := h (.transpose (.base op)) (.base r) ho (by simp [conjugateM, isHerm, hf, h1]) _ _ hv hv'
  simp only [den] at this
  rw [h2 _ _ hv hv', e1, e2] at this
  simp at this

/-- C106 is false for `(A.H @ A).conjugate()`: it returns `A.T`. -/
theorem C106_squared_conjugate_refuted :
    ¬ ∀ (e r : Lazy ℤ ℤ 2), Honest intCut spins e → conjugate0 intCut spins e = .ok r →
      SameOn spins (den spins r) fun x x' => star (den spins e x x') := by
  intro h
  obtain ⟨op, hm, ho, hf, e1, e2, _⟩ := upper_honest
  have hv : Valid spins (![-1, 1] : Fin 2 → ℤ) := by unfold Valid; decide
  have hv' : Valid spins (![1, 1] : Fin 2 → ℤ) := by unfold Valid; decide
  have hherm := den_herm (e := .squared (.base op)) ho rfl
  have h1 := h (.squared (.base op)) (.transpose (.base op)) ho rfl _ _ hv hv'
  have h2 := h (.squared (.base op)) (.transpose (.base op)) ho rfl _ _ hv' hv
  have h3 := hherm _ _ hv hv'
  simp only [star_trivial] at h1 h2 h3
  simp only [den] at h1 h2 h3
  rw [e2] at h1
  rw [e1] at h2
  rw [← h1, ← h2] at h3
  exact absurd h3 (by decide)

/-- C106 is false for the adjoint of the transposed square, `(A.H @ A).transpose().H`. -/
theorem C106_H_transposed_square_refuted :
    ¬ ∀ (e r : Lazy ℤ ℤ 2), Honest intCut spins e → hM intCut spins e = .ok r →
      SameOn spins (den spins r) fun x x' => star (den spins e x' x) := by
  intro h
  obtain ⟨op, hm, ho, hf, e1, e2, _⟩ := upper_honest
  have hv : Valid spins (![-1, 1] : Fin 2 → ℤ) := by unfold Valid; decide
  have hv' : Valid spins (![1, 1] : Fin 2 → ℤ) := by unfold Valid; decide
  have hherm := den_herm (e := .squared (.base op)) ho rfl
  have h1 := h (.transpose (.squared (.base op))) (.transpose (.base op)) ho rfl _ _ hv hv'
  have h2 := h (.transpose (.squared (.base op))) (.transpose (.base op)) ho rfl _ _ hv' hv
  have h3 := hherm _ _ hv hv'
  simp only [star_trivial] at h1 h2 h3
  simp only [den] at h1 h2 h3
  rw [e2] at h1
  rw [e1] at h2
  rw [← h1, ← h2] at h3
  exact absurd h3 (by decide)

/-- With the lying flag of `A = 1j * sigmax` (C15), `A @ A` is kept as `A†A`: the result is `+1` instead
    of `-1`. -/
theorem C105_square_of_lying_flag_refuted :
    ∃ A : LOp GI ℤ 2, Built giCut spins A ∧ ∀ eq : Lazy GI ℤ 2 → Lazy GI ℤ 2 → Bool,
      eq (.base A) (.base A) = true →
      matmulM giCut spins eq (.base A) (.base A) = .ok (.squared (.base A))
      ∧ den spins (.squared (.base A)) ![1, 1] ![1, 1] = 1
      ∧ matProd spins (matrixOf spins A) (matrixOf spins A) ![1, 1] ![1, 1] = -1 := by
  have hw : (match mk giCut spins 0 [(giSx, [0])] with
      | .ok a => (match mulScalar giCut spins a iUnit with
        | .ok r => r.isHerm && decide (den spins (.squared (.base r)) ![1, 1] ![1, 1] = 1)
            && decide (matProd spins (matrixOf spins r) (matrixOf spins r) ![1, 1] ![1, 1] = -1)
        | .error _ => false)
      | .error _ => false) = true := by decide +kernel
  rcases hm : mk giCut spins 0 [(giSx, [0])] with e | a
  · rw [hm] at hw; exact absurd hw Bool.false_ne_true
  rw [hm] at hw; simp only at hw
  rcases hr : mulScalar giCut spins a iUnit with e | r
  · rw [hr] at hw; exact absurd hw Bool.false_ne_true
  rw [hr] at hw
  simp only [Bool.and_eq_true, decide_eq_true_eq] at hw
  refine ⟨r, .mulScalar (.mk (gi_args _ rfl) hm) hr, fun eq he => ⟨?_, hw.1.2, hw.2⟩⟩
  simp [matmulM, baseMatmul, he, hw.1.1]

/-- hypotheses of the positive theorems: a non-hermitian operator, its adjoint and the product
    `A.H @ A`, with identity given by the parent itself. -/
example : ∃ op : LOp ℤ ℤ 2, Honest intCut spins (.adjoint (.base op)) ∧ Simple (.adjoint (.base op))
    ∧ hM intCut spins (.base op) = .ok (.adjoint (.base op)) ∧ ∃ x x', Valid spins x ∧ Valid spins x'
      ∧ den spins (.adjoint (.base op)) x x' ≠ den spins (.base op) x x' := by
  obtain ⟨op, hm, ho, hf, e1, e2, _⟩ := upper_honest
  refine ⟨op, ho, trivial, by simp [hM, hf], ![-1, 1], ![1, 1], by unfold Valid; decide,
    by unfold Valid; decide, ?_⟩
  simp [den, e1, e2]

open Classical in
/-- hypotheses of `C16_matmul` for `A.H @ A`: identity of `A` with itself only. -/
example : ∃ op : LOp ℤ ℤ 2, ∃ eq : Lazy ℤ ℤ 2 → Lazy ℤ ℤ 2 → Bool, (∀ a b, eq a b = true → a = b)
    ∧ eq (.base op) (.base op) = true ∧ Honest intCut spins (.base op)
    ∧ Honest intCut spins (.adjoint (.base op))
    ∧ ∀ c, collect intCut spins (.adjoint (.base op)) = .ok c → ∀ b, eq c b = false := by
  obtain ⟨op, hm, ho, hf, e1, e2, _⟩ := upper_honest
  refine ⟨op, fun a b => decide (a = .base op ∧ b = .base op), ?_, by simp, ho, ho, ?_⟩
  · intro a b h
    simp only [decide_eq_true_eq] at h
    rw [h.1, h.2]
  · intro c hc b
    simp only [decide_eq_false_iff_not]
    rintro ⟨rfl, -⟩
    obtain ⟨c', k1, -, k3⟩ := C16_collect intCut_ideal spins_sorted spins_uniform
      (.adjoint (.base op)) ho trivial
    rw [hc] at k1
    have k : op = c' := by simpa using k1
    subst k
    have := k3 ![-1, 1] ![1, 1] (by unfold Valid; decide) (by unfold Valid; decide)
    simp [den, e1, e2] at this

end Verif.LocalOp

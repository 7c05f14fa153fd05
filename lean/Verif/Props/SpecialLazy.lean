import Verif.Model.SpecialLazy
import Verif.Props.Ising
import Verif.Props.PauliStrings

/-! C257: adjoints, transposes, conjugates and squares of `Ising`, `PauliStrings` and `LocalLiouvillian`. -/

set_option linter.unusedSectionVars false

namespace Verif.SpecialLazy
open Verif.Hilbert (Err)

section
variable {K X : Type} [CommRing K] [StarRing K] [DecidableEq X]

/-! ### specification -/

/-- the matrix element read off the connected elements. -/
def elem (o : Obj K X) (x x' : X) : K := ((o.row x).map fun p => if p.1 = x' then p.2 else 0).sum

/-- equality of matrices on the basis. -/
def Same (B : Finset X) (a b : X → X → K) : Prop := ∀ x ∈ B, ∀ x' ∈ B, a x x' = b x x'

/-- `is_hermitian` of the object is right. -/
def Honest (B : Finset X) (o : Obj K X) : Prop := o.herm = true → Same B (elem o) fun x x' => star (elem o x' x)

/-! ### what holds -/

/-- C257: `o.H` exists and its sparse matrix is the conjugate transpose, if `is_hermitian` is right. -/
theorem C257_adjoint (B : Finset X) (o : Obj K X) (ho : Honest B o) :
    ∃ h, (Expr.leaf o).hM = .ok h ∧ Same B (h.toSparse B) fun x x' => star (elem o x' x) := by
  by_cases hf : o.herm = true
  · exact ⟨.leaf o, by simp [Expr.hM, hf], fun x hx x' hx' => ho hf x hx x' hx'⟩
  · exact ⟨.adjoint (.leaf o), by simp [Expr.hM, hf], fun _ _ _ _ => rfl⟩

/-- C257: `o.T` exists, its sparse matrix is the transpose, and `o.T.T` is `o`. -/
theorem C257_transpose (B : Finset X) (o : Obj K X) :
    ∃ t, (Expr.leaf o).transposeM false = .ok t ∧ (Same B (t.toSparse B) fun x x' => elem o x' x)
      ∧ t.transposeM false = .ok (.leaf o) :=
  ⟨.transpose (.leaf o), by simp [Expr.transposeM], fun _ _ _ _ => rfl, by simp [Expr.transposeM]⟩

/-- C257: `o.H @ o` exists and its sparse matrix is that of `O†O`, right flag or not. -/
theorem C257_gram (B : Finset X) (o : Obj K X) :
    ∃ s, gram o = .ok s ∧ s.isHerm = true
      ∧ Same B (s.toSparse B) fun x x' => ∑ y ∈ B, star (elem o y x) * elem o y x' := by
  refine ⟨.squared (.leaf o), ?_, rfl, fun _ _ _ _ => rfl⟩
  by_cases hf : o.herm = true <;> simp [gram, Expr.hM, hf, square]

/-- C257 (only for objects that say they are hermitian, and are): `o @ o` is the matrix product. The full statement has every object
    and no hypothesis on the flag; it is refuted by `C257_ising_complex_refuted` and `C257_pauli_square_refuted`. -/
theorem C257_square_partial (B : Finset X) (o : Obj K X) (ho : Honest B o) (hf : o.herm = true) :
    ∃ s, square o = .ok s ∧ Same B (s.toSparse B) fun x x' => ∑ y ∈ B, elem o x y * elem o y x' := by
  refine ⟨.squared (.leaf o), by simp [square, hf], fun x hx x' hx' => Finset.sum_congr rfl fun y hy => ?_⟩
  rw [ho hf x hx y hy]
  rfl

/-- C257: the transposes and adjoints of transposes, whenever they exist. With a real matrix behind Python floats, `o.conjugate()` and
    `o.T.H` exist and are the conjugate; for hermitian objects `o.T.conjugate()` is `o`, otherwise the lazy adjoint. -/
theorem C257_conjugate_partial (B : Finset X) (o : Obj K X) (ho : Honest B o) :
    (∃ r, (Expr.transpose (.leaf o)).conjugateM false = .ok r ∧ Same B (r.toSparse B) fun x x' => star (elem o x' x))
    ∧ (o.cls = .ising true → (∀ x ∈ B, ∀ x' ∈ B, star (elem o x x') = elem o x x') →
      ∃ r, (Expr.leaf o).conjugateM false = .ok r ∧ (Expr.transpose (.leaf o)).hM = .ok r
        ∧ Same B (r.toSparse B) fun x x' => star (elem o x x')) := by
  constructor
  · by_cases hf : o.herm = true
    · exact ⟨.leaf o, by simp [Expr.conjugateM, Expr.isHerm, hf], fun x hx x' hx' => ho hf x hx x' hx'⟩
    · exact ⟨.adjoint (.leaf o), by simp [Expr.conjugateM, Expr.isHerm, hf], fun _ _ _ _ => rfl⟩
  · intro hc hr
    exact ⟨.leaf o, by simp [Expr.conjugateM, hc], by simp [Expr.hM, Expr.conjugateM, hc],
      fun x hx x' hx' => (hr x hx x' hx').symm⟩

/-- C257: the square `o.H @ o` is its own adjoint, and its sparse matrix is hermitian. -/
theorem C257_gram_adjoint (B : Finset X) (o : Obj K X) (s : Expr K X) (hs : gram o = .ok s) :
    s.hM = .ok s ∧ Same B (s.toSparse B) fun x x' => star (s.toSparse B x' x) := by
  have : s = .squared (.leaf o) := by
    by_cases hf : o.herm = true <;> simp [gram, Expr.hM, hf, square] at hs <;> exact hs.symm
  subst this
  refine ⟨rfl, fun x _ x' _ => ?_⟩
  simp only [Expr.toSparse, star_sum, star_mul', star_star]
  exact Finset.sum_congr rfl fun y _ => mul_comm _ _

/-- C257: for an object that is not hermitian, `o.H.H` is `o` and `o.H.conjugate()` exists and is the transpose. -/
theorem C257_adjoint_twice (B : Finset X) (o : Obj K X) (hf : o.herm = false) :
    ∃ h, (Expr.leaf o).hM = .ok h ∧ h.isHerm = false ∧ h.hM = .ok (.leaf o)
      ∧ ∃ t, h.conjugateM false = .ok t ∧ Same B (t.toSparse B) fun x x' => elem o x' x :=
  ⟨.adjoint (.leaf o), by simp [Expr.hM, hf], rfl, rfl, .transpose (.leaf o), by simp [Expr.conjugateM, Expr.transposeM],
    fun _ _ _ _ => rfl⟩

/-- C257: `is_hermitian` of a `LocalLiouvillian` is never wrongly `True`, so `L.H` is the conjugate transpose and `L.H.H` is `L`. -/
theorem C257_liouvillian (B : Finset X) (row : X → List (X × K)) :
    Honest B (ofLiouvillian row) ∧ ∃ h, (Expr.leaf (ofLiouvillian row)).hM = .ok h
      ∧ (Same B (h.toSparse B) fun x x' => star (elem (ofLiouvillian row) x' x)) ∧ h.hM = .ok (.leaf (ofLiouvillian row)) := by
  have ho : Honest B (ofLiouvillian row) := fun h => by simp [ofLiouvillian] at h
  refine ⟨ho, ?_⟩
  obtain ⟨h, e1, e2⟩ := C257_adjoint B _ ho
  obtain ⟨h', e1', -, e3, -⟩ := C257_adjoint_twice B (ofLiouvillian row) rfl
  rw [e1] at e1'
  cases e1'
  exact ⟨h, e1, e2, e3⟩

/-- C257: nothing else has a conjugate, explicitly built `Adjoint(Transpose(o))` included, and no other transpose or adjoint can be
    collected. -/
theorem C257_missing_partial (o : Obj K X) :
    ((∃ r, (Expr.leaf o).conjugateM false = .ok r) ↔ o.cls = .ising true)
    ∧ ((∃ r, (Expr.transpose (.leaf o)).hM = .ok r) ↔ o.cls = .ising true)
    ∧ ((∃ r, collectA (.transpose (.leaf o)) = .ok r) ↔ o.cls = .ising true)
    ∧ collectT (.leaf o) = .error .notImplemented ∧ collectA (.leaf o) = .error .notImplemented
    ∧ collectT (.squared (.leaf o)) = .error .notImplemented ∧ collectA (.squared (.leaf o)) = .error .notImplemented := by
  refine ⟨?_, ?_, ?_, by simp [collectT, Expr.transposeM], by simp [collectA, Expr.transposeM],
    by simp [collectT, Expr.transposeM], by simp [collectA, Expr.transposeM]⟩
  · by_cases h : o.cls = .ising true <;> simp [Expr.conjugateM, h]
  · by_cases h : o.cls = .ising true <;> simp [Expr.hM, Expr.conjugateM, h]
  · by_cases h : o.cls = .ising true <;> simp [collectA, Expr.transposeM, Expr.conjugateM, h]

end

section
variable {K : Type} [CommRing K] [StarRing K]

theorem isingMatrix_star {N : Nat} (h J : K) (hh : star h = h) (hJ : star J = J) (edges : List (Fin N × Fin N)) (x x' : Fin N → ℤ) :
    star (Ham.isingMatrix h J edges x x') = Ham.isingMatrix h J edges x x' := by
  have e1 : ∀ i, star (Ham.pauliX i x x' : K) = Ham.pauliX i x x' := by
    intro i; unfold Ham.pauliX; split <;> simp
  have e2 : ∀ l : List (Fin N × Fin N), star ((l.map fun e => (Ham.pauliZZ e.1 e.2 x x' : K)).sum)
      = (l.map fun e => Ham.pauliZZ e.1 e.2 x x').sum := by
    intro l
    induction l with
    | nil => simp
    | cons e l ih =>
      rw [List.map_cons, List.sum_cons, star_add, ih]
      congr 1
      unfold Ham.pauliZZ; split <;> simp
  unfold Ham.isingMatrix
  rw [star_add, star_mul', star_mul', star_neg, hh, hJ, star_sum, e2]
  simp only [e1]

theorem isingMatrix_symm {N : Nat} (h J : K) (edges : List (Fin N × Fin N)) (x x' : Fin N → ℤ) :
    Ham.isingMatrix h J edges x x' = Ham.isingMatrix h J edges x' x := by
  unfold Ham.isingMatrix
  congr 1
  · congr 1
    apply Finset.sum_congr rfl
    intro i _
    unfold Ham.pauliX
    have : (x' i = -x i ∧ ∀ s, s ≠ i → x' s = x s) ↔ (x i = -x' i ∧ ∀ s, s ≠ i → x s = x' s) :=
      ⟨fun h => ⟨by rw [h.1, neg_neg], fun s hs => (h.2 s hs).symm⟩, fun h => ⟨by rw [h.1, neg_neg], fun s hs => (h.2 s hs).symm⟩⟩
    simp only [this]
  · congr 2
    apply List.map_congr_left
    intro e _
    unfold Ham.pauliZZ
    by_cases hx : x = x'
    · subst hx; rfl
    · rw [if_neg hx, if_neg (Ne.symm hx)]

/-- C257 (only for real `h` and `J`): `is_hermitian` of `Ising` is right and its matrix is real, on every set of configurations. The full
    statement has parameters of any type the argument `dtype` accepts; it is refuted by `C257_ising_complex_refuted`. -/
theorem C257_ising_partial {N : Nat} (op : Ham.Ising K N) (pyFloat : Bool) (hh : star op.h = op.h) (hJ : star op.J = op.J)
    (B : Finset (Fin N → ℤ)) :
    Honest B (ofIsing op pyFloat)
      ∧ ∀ x ∈ B, ∀ x' ∈ B, star (elem (ofIsing op pyFloat) x x') = elem (ofIsing op pyFloat) x x' := by
  have e : ∀ x x', elem (ofIsing op pyFloat) x x' = Ham.isingMatrix op.h op.J op.edges x x' := fun x x' => Ham.C21_get_conn op x x'
  refine ⟨fun _ x _ x' _ => ?_, fun x _ x' _ => ?_⟩
  · dsimp only
    rw [e, e, isingMatrix_star _ _ hh hJ, isingMatrix_symm]
  · rw [e, isingMatrix_star _ _ hh hJ]

/-- C257: `is_hermitian` of `PauliStrings` is right on configurations of qubits. -/
theorem C257_pauli (sc : Pauli.Scalars K) (he : Pauli.Exact sc) (him : star sc.im = -sc.im)
    (hre : ∀ z, sc.realish z = true → star z = z) (ops : List (List Char)) (ws : List K) (op : Pauli.PauliOp K)
    (h : Pauli.mk sc ops ws = .ok op) (B : Finset (Fin op.n → ℤ)) (hB : ∀ x ∈ B, Pauli.Qubits x) :
    Honest B (ofPauli sc op) := by
  intro hf x hx x' hx'
  have e : ∀ y ∈ B, ∀ y' ∈ B, elem (ofPauli sc op) y y' = Pauli.sumElement sc.im op.n ops ws y y' :=
    fun y hy y' hy' => Pauli.C20_pauli_strings sc he ops ws op h y y' (hB y hy) (hB y' hy')
  dsimp only
  rw [e x hx x' hx', e x' hx' x hx]
  exact Pauli.C15_pauli_hermitian sc him hre ops ws op h hf x x' (hB x hx) (hB x' hx')

end

/-! ### refutations -/

open Verif.LocalOp (GI iUnit)

/-- the configurations of one spin. -/
def oneSpin : Finset (Fin 1 → ℤ) := {![-1], ![1]}

/-- C257 is false for `Ising(hilbert, graph, h=1j, dtype=complex)` on one site: `is_hermitian` is `True`, the matrix is not hermitian,
    `o.H` is `o`, and `o @ o` has the sparse matrix `1` instead of `-1`. -/
theorem C257_ising_complex_refuted :
    ∃ op : Ham.Ising GI 1, ¬ Honest oneSpin (ofIsing op false) ∧ (ofIsing op false).herm = true
      ∧ (Expr.leaf (ofIsing op false)).hM = .ok (.leaf (ofIsing op false))
      ∧ ∃ s, square (ofIsing op false) = .ok s ∧ s.toSparse oneSpin ![1] ![1] = 1
        ∧ ∑ y ∈ oneSpin, elem (ofIsing op false) ![1] y * elem (ofIsing op false) y ![1] = -1 := by
  refine ⟨⟨iUnit, 0, []⟩, ?_, rfl, rfl, _, rfl, by decide +kernel, by decide +kernel⟩
  intro h
  exact absurd (h rfl ![-1] (by decide) ![1] (by decide)) (by decide +kernel)

/-- C257 is false for `P @ P` with Pauli strings that are not hermitian (weight `1j`): TypeError, though `P.H @ P` exists. -/
theorem C257_pauli_square_refuted :
    ∃ op : Pauli.PauliOp GI, Pauli.mk Pauli.giScalars [['X']] [iUnit] = .ok op
      ∧ square (ofPauli Pauli.giScalars op) = .error .typeError
      ∧ ∃ s, gram (ofPauli Pauli.giScalars op) = .ok s :=
  ⟨_, rfl, rfl, _, rfl⟩

/-- C257 is false for conjugates: a real `Ising` with `dtype=np.float32` and the Pauli string `Z` have real matrices, but `conjugate()`
    and `T.H` raise NotImplementedError; `T.collect()` does so even with Python floats. -/
theorem C257_conjugate_refuted :
    (∃ op : Ham.Ising ℤ 1, (∃ x x', elem (ofIsing op false) x x' ≠ 0)
      ∧ (Expr.leaf (ofIsing op false)).conjugateM false = .error .notImplemented
      ∧ (Expr.transpose (.leaf (ofIsing op false))).hM = .error .notImplemented
      ∧ collectT (.leaf (ofIsing op true)) = .error .notImplemented)
    ∧ ∃ op : Pauli.PauliOp GI, Pauli.mk Pauli.giScalars [['Z']] [1] = .ok op
      ∧ (∀ x ∈ ({![0], ![1]} : Finset (Fin 1 → ℤ)), ∀ x' ∈ ({![0], ![1]} : Finset (Fin 1 → ℤ)),
          star (Pauli.sumElement iUnit 1 [['Z']] [1] x x') = Pauli.sumElement iUnit 1 [['Z']] [1] x x')
      ∧ (Expr.leaf (ofPauli Pauli.giScalars op)).conjugateM false = .error .notImplemented
      ∧ (Expr.transpose (.leaf (ofPauli Pauli.giScalars op))).hM = .error .notImplemented := by
  refine ⟨⟨⟨1, 0, []⟩, ⟨![-1], ![1], by decide +kernel⟩, ?_, ?_, ?_⟩, ⟨_, rfl, by decide +kernel, ?_, ?_⟩⟩
  · simp [Expr.conjugateM, ofIsing]
  · simp [Expr.hM, Expr.conjugateM, ofIsing]
  · simp [collectT, Expr.transposeM]
  · simp [Expr.conjugateM, ofPauli]
  · simp [Expr.hM, Expr.conjugateM, ofPauli]

/-- C257 is false for conjugates of squares: `(o.H @ o).transpose().H` is `o.T`, for `Ising(h=3)` on one site with the entry `0` instead
    of `9`. -/
theorem C257_square_conj_refuted :
    ∃ (op : Ham.Ising ℤ 1) (s t r : Expr ℤ (Fin 1 → ℤ)), gram (ofIsing op true) = .ok s ∧ s.transposeM false = .ok t ∧ t.hM = .ok r
      ∧ star (s.toSparse oneSpin ![1] ![1]) = 9 ∧ r.toSparse oneSpin ![1] ![1] = 0 :=
  ⟨⟨3, 1, []⟩, _, _, _, rfl, rfl, rfl, by decide +kernel, by decide +kernel⟩

/-! ### hypotheses -/

/-- a Liouvillian whose matrix is not hermitian, so that the flag matters. -/
example : ∃ row : Bool → List (Bool × ℤ), (ofLiouvillian row).herm = false
    ∧ ¬ Same Finset.univ (elem (ofLiouvillian row)) fun x x' => star (elem (ofLiouvillian row) x' x) := by
  refine ⟨fun x => [(false, if x then 1 else 0)], rfl, fun h => ?_⟩
  exact absurd (h true (by decide) false (by decide)) (by decide +kernel)

/-- an `Ising` with real parameters on one site is honest and its square on the two configurations is `h²`. -/
example : ∃ op : Ham.Ising GI 1, Honest oneSpin (ofIsing op true) ∧ ∃ s, square (ofIsing op true) = .ok s
    ∧ s.toSparse oneSpin ![1] ![1] = 9 :=
  ⟨⟨3, 1, []⟩, (C257_ising_partial _ _ (by decide +kernel) (by decide +kernel) _).1, _, rfl, by decide +kernel⟩

/-- the hypotheses of `C257_pauli` hold for `2 Y` on one qubit, whose matrix is not real. -/
example : ∃ op : Pauli.PauliOp GI, Pauli.mk Pauli.giScalars [['Y']] [2] = .ok op ∧ op.isHerm = true
    ∧ Pauli.Exact Pauli.giScalars ∧ star Pauli.giScalars.im = -Pauli.giScalars.im
    ∧ (∀ z, Pauli.giScalars.realish z = true → star z = z)
    ∧ star (Pauli.sumElement iUnit 1 [['Y']] [2] ![0] ![1]) ≠ Pauli.sumElement iUnit 1 [['Y']] [2] ![0] ![1] :=
  ⟨_, rfl, by decide +kernel, Pauli.giScalars_exact, by decide +kernel, fun z h => by simpa [Pauli.giScalars] using h,
    by decide +kernel⟩

end Verif.SpecialLazy

import Mathlib.Analysis.Matrix.Spectrum
import Mathlib.Data.Multiset.Sort
import Verif.Model.ExactDiag
import Verif.Props.Eigenstate
import Verif.Props.Liouvillian

/-! C229 (exact diagonalisation and the variational bound), C230 (iterative solution for the steady state). -/

set_option linter.unusedSectionVars false

namespace Verif.ExactDiag
open Verif.Hilbert Verif.LocalOp Verif.Liou Verif.Lindblad Verif.Sparse

/-! ### specification -/

section
variable {S : Type} [Fintype S] [DecidableEq S]

/-- all eigenvalues of a Hermitian matrix, with multiplicities, in increasing order. -/
noncomputable def levels (A : Matrix S S ℂ) (hA : A.IsHermitian) : List ℝ :=
  (Finset.univ.val.map hA.eigenvalues).sort (· ≤ ·)

/-- `v` is an orthonormal list of eigenvectors for the eigenvalues `w`. -/
def EigenPairs (A : Matrix S S ℂ) (w : List ℝ) (v : List (S → ℂ)) : Prop :=
  v.length = w.length ∧ (∀ (i : Nat) (e : ℝ) (u : S → ℂ), w[i]? = some e → v[i]? = some u → A.mulVec u = (e : ℂ) • u)
    ∧ ∀ (i j : Nat) (a b : S → ℂ), v[i]? = some a → v[j]? = some b →
      ∑ s, star (a s) * b s = if i = j then 1 else 0

/-- scipy's documentation of `eigsh` for `which="SA"` and fewer eigenvalues than rows: the smallest eigenvalues in
    increasing order with their eigenvectors, and the order reversed if no eigenvectors are wanted. -/
structure Scipy (eigsh : Matrix S S ℂ → Dict → Except Err (Result (S → ℂ))) : Prop where
  vectors : ∀ (A : Matrix S S ℂ) (hA : A.IsHermitian) (d : Dict) (k : Nat), d .which = some .sa → d .k = some (.int k) →
    d .returnEigenvectors = some (.bool true) → 0 < k → k < Fintype.card S →
    ∃ v, eigsh A d = .ok (.pair ((levels A hA).take k) v) ∧ EigenPairs A ((levels A hA).take k) v
  values : ∀ (A : Matrix S S ℂ) (hA : A.IsHermitian) (d : Dict) (k : Nat), d .which = some .sa → d .k = some (.int k) →
    d .returnEigenvectors = some (.bool false) → 0 < k → k < Fintype.card S →
    eigsh A d = .ok (.values ((levels A hA).take k).reverse)

/-- numpy's documentation of `eigh` and `eigvalsh`: all eigenvalues in increasing order. -/
structure Numpy (eigh : Matrix S S ℂ → Except Err (List ℝ × List (S → ℂ))) (eigvalsh : Matrix S S ℂ → Except Err (List ℝ)) :
    Prop where
  vectors : ∀ (A : Matrix S S ℂ) (hA : A.IsHermitian), ∃ v, eigh A = .ok (levels A hA, v) ∧ EigenPairs A (levels A hA) v
  values : ∀ (A : Matrix S S ℂ) (hA : A.IsHermitian), eigvalsh A = .ok (levels A hA)

/-! ### lemmas -/

theorem levels_length (A : Matrix S S ℂ) (hA : A.IsHermitian) : (levels A hA).length = Fintype.card S := by
  simp [levels]

theorem levels_sorted (A : Matrix S S ℂ) (hA : A.IsHermitian) : (levels A hA).Pairwise (· ≤ ·) :=
  Multiset.pairwise_sort _ _

theorem mem_levels (A : Matrix S S ℂ) (hA : A.IsHermitian) (e : ℝ) :
    e ∈ levels A hA ↔ ∃ u : S → ℂ, u ≠ 0 ∧ A.mulVec u = (e : ℂ) • u := by
  have h1 : e ∈ levels A hA ↔ e ∈ spectrum ℝ A := by
    rw [hA.spectrum_real_eq_range_eigenvalues]
    simp [levels]
  rw [h1]
  constructor
  · rw [hA.spectrum_real_eq_range_eigenvalues]
    rintro ⟨i, rfl⟩
    refine ⟨_, ?_, hA.mulVec_eigenvectorBasis i⟩
    intro h0
    have := hA.eigenvectorBasis.orthonormal.ne_zero i
    apply this
    ext s
    exact congrFun h0 s
  · rintro ⟨u, hu, h⟩
    rw [spectrum.mem_iff]
    intro hunit
    obtain ⟨B, hB⟩ := hunit.exists_left_inv
    apply hu
    have h2 : (algebraMap ℝ (Matrix S S ℂ) e - A).mulVec u = 0 := by
      rw [Matrix.sub_mulVec, h, Algebra.algebraMap_eq_smul_one, Matrix.smul_mulVec, Matrix.one_mulVec]
      ext s
      simp
    have h3 := congrArg (B.mulVec) h2
    rwa [Matrix.mulVec_mulVec, hB, Matrix.one_mulVec, Matrix.mulVec_zero] at h3

/-! ### C229 -/

/-- C229: for a Hermitian operator on a finite space, with and without eigenvectors, with and without `matrix_free` and for all
    `scipy_args`, `lanczos_ed` returns the `k` lowest eigenvalues, with multiplicities, in increasing order; these are the
    first of those returned by `full_ed`. -/
theorem C229_lanczos (eigsh : Matrix S S ℂ → Dict → Except Err (Result (S → ℂ))) (hs : Scipy eigsh)
    (eigh : Matrix S S ℂ → Except Err (List ℝ × List (S → ℂ))) (eigvalsh : Matrix S S ℂ → Except Err (List ℝ))
    (hn : Numpy eigh eigvalsh) (A : Matrix S S ℂ) (hA : A.IsHermitian) (k : Nat) (hk : 0 < k) (hk' : k < Fintype.card S)
    (free : Bool) (user : Option Dict) :
    ∃ w full v vf, lanczosEd eigsh (fun _ => .ok A) k false free user = .ok (.values w)
      ∧ lanczosEd eigsh (fun _ => .ok A) k true free user = .ok (.pair w v) ∧ EigenPairs A w v
      ∧ fullEd eigh eigvalsh (fun _ => .ok A) false = .ok (.values full)
      ∧ fullEd eigh eigvalsh (fun _ => .ok A) true = .ok (.pair full vf) ∧ EigenPairs A full vf
      ∧ full.length = Fintype.card S ∧ full.Pairwise (· ≤ ·)
      ∧ (∀ e, e ∈ full ↔ ∃ u : S → ℂ, u ≠ 0 ∧ A.mulVec u = (e : ℂ) • u)
      ∧ w = full.take k ∧ w.length = k := by
  have hw : ∀ b, lanczosArgs user k b .which = some .sa := by intro b; rfl
  have hkk : ∀ b, lanczosArgs user k b .k = some (.int k) := by intro b; rfl
  have hr : ∀ b, lanczosArgs user k b .returnEigenvectors = some (.bool b) := by intro b; rfl
  obtain ⟨v, h1, h2⟩ := hs.vectors A hA _ k (hw true) (hkk true) (hr true) hk hk'
  have h3 := hs.values A hA _ k (hw false) (hkk false) (hr false) hk hk'
  obtain ⟨vf, h4, h5⟩ := hn.vectors A hA
  have h6 := hn.values A hA
  refine ⟨(levels A hA).take k, levels A hA, v, vf, ?_, ?_, h2, ?_, ?_, h5, levels_length A hA, levels_sorted A hA,
    mem_levels A hA, rfl, ?_⟩
  · cases free <;> simp [lanczosEd, toLinearOperator, h3]
  · cases free <;> simp [lanczosEd, toLinearOperator, h1]
  · simp [fullEd, h6]
  · simp [fullEd, h4]
  · rw [List.length_take, levels_length]; omega

/-- C229: `scipy_args` cannot change what is computed, and all other keywords are passed on. -/
theorem C229_scipy_args (user : Option Dict) (k : Int) (b : Bool) :
    lanczosArgs user k b .which = some .sa ∧ lanczosArgs user k b .k = some (.int k)
    ∧ lanczosArgs user k b .returnEigenvectors = some (.bool b)
    ∧ ∀ n, lanczosArgs user k b (.other n) = user.bind fun u => u (.other n) := by
  refine ⟨rfl, rfl, rfl, fun n => ?_⟩
  cases user <;> rfl

/-- C229: errors of `to_sparse`, `to_dense` and of the libraries are passed on. -/
theorem C229_errors {A V : Type} (eigsh : A → Dict → Except Err (Result V)) (eigh : A → Except Err (List ℝ × List V))
    (eigvalsh : A → Except Err (List ℝ)) (e : Err) (a : A) (k : Int) (b free : Bool) (user : Option Dict) :
    lanczosEd eigsh (fun _ => .error e) k b free user = .error e
    ∧ fullEd eigh eigvalsh (fun _ => .error e) b = .error e
    ∧ (eigsh a (lanczosArgs user k b) = .error e → lanczosEd eigsh (fun _ => .ok a) k b free user = .error e) := by
  refine ⟨by cases free <;> rfl, rfl, fun h => ?_⟩
  cases free <;> simp [lanczosEd, toLinearOperator, h]

end

section
variable {α : Type} [LinearOrder α] [Inhabited α] {N : Nat} {hi : Fin N → List α}

/-- C229: the first eigenvalue returned by `lanczos_ed` and by `full_ed` is a lower bound of the energy of every state of the
    space, reached precisely by its eigenvectors. -/
theorem C229_bound (eigsh : Matrix (basisStates hi) (basisStates hi) ℂ → Dict → Except Err (Result (basisStates hi → ℂ)))
    (hs : Scipy eigsh) (op : LOp ℂ α N) (hA : (mat hi op).IsHermitian) (k : Nat) (hk : 0 < k) (hk' : k < (basisStates hi).card)
    (free : Bool) (user : Option Dict) (logVal : (Fin N → α) → ℂ) :
    ∃ E0 w, lanczosEd eigsh (fun _ => .ok (mat hi op)) k false free user = .ok (.values (E0 :: w))
      ∧ E0 ≤ (Verif.Metro.expectation hi (matrixOf hi op) logVal).re
      ∧ ((Verif.Metro.expectation hi (matrixOf hi op) logVal).re = E0
        ↔ Verif.Eigen.Eigenvector hi (matrixOf hi op) logVal E0) := by
  have hcard : Fintype.card (basisStates hi) = (basisStates hi).card := Fintype.card_coe _
  have hval := hs.values (mat hi op) hA (lanczosArgs user k false) k rfl rfl rfl hk (by rw [hcard]; exact hk')
  have hlen : (levels (mat hi op) hA).length = (basisStates hi).card := by rw [levels_length, hcard]
  cases hl : levels (mat hi op) hA with
  | nil => rw [hl] at hlen; simp at hlen; omega
  | cons E0 w =>
    obtain ⟨k', rfl⟩ : ∃ k', k = k' + 1 := ⟨k - 1, by omega⟩
    have hsorted := levels_sorted (mat hi op) hA
    rw [hl, List.pairwise_cons] at hsorted
    refine ⟨E0, w.take k', ?_, ?_⟩
    · rw [hl, List.take_succ_cons] at hval
      cases free <;> (unfold lanczosEd toLinearOperator; simp only [Bool.false_eq_true, if_false, if_true]; rw [hval]; simp only [List.reverse_reverse])
    · have hb := Verif.Eigen.C220_bound (hi := hi) (O := matrixOf hi op) (E0 := E0) ?_ ?_ ?_ logVal
      · exact ⟨hb.2.1, hb.2.2⟩
      · intro x hx x' hx'
        have := congrFun (congrFun hA ⟨x', hx'⟩) ⟨x, hx⟩
        rw [Matrix.conjTranspose_apply] at this
        exact this.symm
      · intro e φ ⟨x, hx, hφ⟩ hE
        have hmem : e ∈ levels (mat hi op) hA := by
          rw [mem_levels]
          refine ⟨fun s => φ s, fun h0 => hφ (congrFun h0 ⟨x, hx⟩), ?_⟩
          funext s
          have := hE s s.2
          rw [← Finset.sum_coe_sort] at this
          exact this
        rw [hl] at hmem
        rcases List.mem_cons.1 hmem with rfl | h
        · exact le_refl _
        · exact hsorted.1 e h
      · rw [← Finset.card_pos]; omega

end

/-! ### C230 -/

section
variable {K : Type} [CommRing K] [DecidableEq K] [StarRing K] {α : Type} [LinearOrder α] [Inhabited α] {N : Nat}
  {hi : Fin N → List α} {cut : Cutoff K}

/-- the array with entries `out`, row by row, as a function of two configurations numbered by `d` (specification). -/
def rhoOf (d : Disc α) (out : List K) (x y : Fin N → α) : K :=
  match d.statesToNumbers (List.ofFn x), d.statesToNumbers (List.ofFn y) with
  | .ok i, .ok j => out.getD (i * d.nStates + j) 0
  | _, _ => 0

/-- a linear operator of scipy with the product `matvec` of `to_linear_operator(append_trace=True)`, on lists. -/
def linearOp [Star K] (M : Nat) (iH : Nat → Nat → K) (js : List ((Nat → Nat → K) × (Nat → Nat → K))) (v : List K) : List K :=
  matvecTrace M iH js fun n => v.getD n 0

theorem target_entry (M k : Nat) (h : k < M ^ 2) : (target M : List K)[k]? = some 0 := by
  unfold target
  rw [List.getElem?_set_ne (by omega), List.getElem?_replicate]
  simp; omega

theorem target_last (M : Nat) : (target M : List K)[M ^ 2]? = some 1 := by
  unfold target
  rw [List.getElem?_set_self (by simp)]

/-- C230: if the iterative solver returns a solution of the equations it is given, `steady_state(method="iterative")` returns a
    density matrix of trace one on which the Lindblad generator vanishes, whatever the starting point and the number
    `info`; and if there is only one stationary matrix of trace one, the result is that matrix. -/
theorem C230_iterative (hid : Ideal cut) (hs : SortedSpace hi) (hu : Uniform hi) (I half : K)
    (hI : star I = -I) (hII : I * I = -1) (hh : star half = half) (h : LOp K α N) (hb : Built cut hi h)
    (ls : List (LOp K α N)) (hl : ∀ l ∈ ls, Built cut hi l) (d : Disc α) (hidx : Indexes d (ValidConf hi))
    (gm : LOp K α N → Nat → K) (gx : LOp K α N → Nat → Fin N → α) :
    ∃ op iH js, mkLiou cut hi (half * I) h ls = .ok op
      ∧ linearParts cut hi I (denseOf d hi gm gx) op = .ok (iH, js) ∧
      ∀ (bicgstab : (List K → List K) → List K → List K → Except Err (List K × Int)) (ed : Except Err (List K))
        (rho0 : Option (List (List K))) (x0 res : List K) (info : Int), startVec d.nStates rho0 = .ok x0 →
        bicgstab (linearOp d.nStates iH js) (target d.nStates) x0 = .ok (res, info) →
        res.length = d.nStates ^ 2 + 1 → linearOp d.nStates iH js res = target d.nStates →
        ∃ out, steadyState d.nStates (.ok (linearOp d.nStates iH js)) bicgstab ed .iterative rho0 = .ok out
          ∧ out.length = d.nStates ^ 2
          ∧ generator I half (mat hi h) (ls.map (mat hi)) (dens hi (rhoOf d out)) = 0
          ∧ (dens hi (rhoOf d out)).trace = 1
          ∧ ((∀ ρ ρ' : Matrix (basisStates hi) (basisStates hi) K,
                generator I half (mat hi h) (ls.map (mat hi)) ρ = 0 → ρ.trace = 1 →
                generator I half (mat hi h) (ls.map (mat hi)) ρ' = 0 → ρ'.trace = 1 → ρ = ρ') →
              ∀ ρ, generator I half (mat hi h) (ls.map (mat hi)) ρ = 0 → ρ.trace = 1 → dens hi (rhoOf d out) = ρ) := by
  obtain ⟨op, iH, js, h1, h2, h3⟩ := C79_to_linear_operator hid hs hu I half hI hII hh h hb ls hl d hidx gm gx
  refine ⟨op, iH, js, h1, h2, ?_⟩
  intro bicgstab ed rho0 x0 res info hx0 hbi hlen hsol
  refine ⟨res.dropLast, ?_, by simp [hlen], ?_⟩
  · unfold steadyState
    simp only [hx0, hbi]
  have hout : ∀ k, k < d.nStates ^ 2 → res.dropLast.getD k 0 = res.getD k 0 := by
    intro k hk
    rw [List.getD_eq_getElem?_getD, List.getD_eq_getElem?_getD, List.getElem?_dropLast]
    rw [if_pos (by omega)]
  have hbound : ∀ i j, i < d.nStates → j < d.nStates → i * d.nStates + j < d.nStates ^ 2 := by
    intro i j h1 h2
    have : (i + 1) * d.nStates ≤ d.nStates * d.nStates := Nat.mul_le_mul_right _ h1
    rw [Nat.succ_mul] at this
    rw [pow_two]; omega
  have hnum : ∀ x : Fin N → α, LocalOp.Valid hi x → ∃ i, i < d.nStates ∧ d.statesToNumbers (List.ofFn x) = .ok i := by
    intro x hx
    obtain ⟨i, hi1, hi2, _⟩ := hidx.toNum (List.ofFn x) ⟨x, hx, rfl⟩
    exact ⟨i, hi1, hi2⟩
  have hvec : Vectorised d hi (rhoOf d res.dropLast) (fun n => res.getD n 0) := by
    intro x y i j hx hy hi' hj'
    obtain ⟨i', hi1, hi2⟩ := hnum x hx
    obtain ⟨j', hj1, hj2⟩ := hnum y hy
    have ei : i = i' := by rw [hi'] at hi2; exact Except.ok.inj hi2
    have ej : j = j' := by rw [hj'] at hj2; exact Except.ok.inj hj2
    subst ei ej
    simp only [rhoOf, hi', hj']
    rw [hout _ (hbound _ _ hi1 hj1)]
  obtain ⟨k1, -, k3⟩ := h3 _ _ hvec
  have hmt : matvecTrace d.nStates iH js (fun n => res.getD n 0) = target d.nStates := hsol
  have hgen : generator I half (mat hi h) (ls.map (mat hi)) (dens hi (rhoOf d res.dropLast)) = 0 := by
    ext x y
    obtain ⟨i, hi1, hi2⟩ := hnum x.1 ((Verif.LocalOp.mem_basis _).1 x.2)
    obtain ⟨j, hj1, hj2⟩ := hnum y.1 ((Verif.LocalOp.mem_basis _).1 y.2)
    have := (k1 x y i j hi2 hj2).2
    rw [hmt, target_entry _ _ (hbound _ _ hi1 hj1)] at this
    exact (Option.some.inj this).symm
  have htr : (dens hi (rhoOf d res.dropLast)).trace = 1 := by
    rw [hmt, ← pow_two, target_last] at k3
    exact (Option.some.inj k3).symm
  exact ⟨hgen, htr, fun huniq ρ hρ hρt => huniq _ _ hgen htr hρ hρt⟩

/-- C230: the starting point is the given matrix with its trace, or the projector on the first state with trace one; a
    `rho0` with another number of entries is a ValueError, and so is an unknown method. -/
theorem C230_start (M : Nat) (r : List (List K)) (hr : r.length = M) (hrow : ∀ q ∈ r, q.length = M) :
    (∃ s, startVec M (some r) = .ok s ∧ s.length = M ^ 2 + 1
      ∧ (∀ i j, i < M → j < M → s[i * M + j]? = (r[i]?).bind fun q => q[j]?)
      ∧ s[M ^ 2]? = some ((List.range M).map fun i => (r.getD i []).getD i 0).sum)
    ∧ (0 < M → ∃ s, startVec (K := K) M none = .ok s ∧ s.length = M ^ 2 + 1 ∧ s[M ^ 2]? = some 1
      ∧ ∀ i j, i < M → j < M → s[i * M + j]? = some (if i = 0 ∧ j = 0 then 1 else 0))
    ∧ (∀ r' : List (List K), r'.flatten.length ≠ M ^ 2 → startVec M (some r') = .error .valueError)
    ∧ ∀ (A : Type) (linear : Except Err A) (b : A → List K → List K → Except Err (List K × Int)) (ed : Except Err (List K))
        (rho0 : Option (List (List K))), steadyState M linear b ed .other rho0 = .error .valueError := by
  have hbound : ∀ i j, i < M → j < M → i * M + j < M ^ 2 := by
    intro i j h1 h2
    have : (i + 1) * M ≤ M * M := Nat.mul_le_mul_right _ h1
    rw [Nat.succ_mul] at this
    rw [pow_two]; omega
  have hflat : ∀ (l : List (List K)), (∀ q ∈ l, q.length = M) → l.flatten.length = l.length * M
      ∧ ∀ i j, i < l.length → j < M → l.flatten[i * M + j]? = (l[i]?).bind fun q => q[j]? := by
    intro l
    induction l with
    | nil => intro _; simp
    | cons a l ih =>
      intro hl
      obtain ⟨i1, i2⟩ := ih fun q hq => hl q (by simp [hq])
      have ha : a.length = M := hl a (by simp)
      constructor
      · simp [List.flatten_cons, i1, ha]; ring
      · intro i j hi hj
        rw [List.flatten_cons]
        cases i with
        | zero => rw [List.getElem?_append_left (by omega)]; simp
        | succ i =>
          rw [List.getElem?_append_right (by rw [ha, Nat.succ_mul]; omega)]
          have : (i + 1) * M + j - a.length = i * M + j := by rw [ha, Nat.succ_mul]; omega
          rw [this, i2 i j (by simpa using hi) hj]
          simp
  obtain ⟨f1, f2⟩ := hflat r hrow
  have f1' : r.flatten.length = M ^ 2 := by rw [f1, hr, pow_two]
  refine ⟨⟨_, by unfold startVec; simp only; rw [if_pos f1'], by simp [f1'], ?_, ?_⟩, ?_, ?_, ?_⟩
  · intro i j hi hj
    rw [List.getElem?_append_left (by rw [f1']; exact hbound i j hi hj), f2 i j (by omega) hj]
  · rw [List.getElem?_append_right (by omega), f1']; simp
  · intro hM
    refine ⟨_, rfl, by simp, by rw [List.getElem?_set_self (by simp)], ?_⟩
    intro i j hi hj
    have hb := hbound i j hi hj
    rw [List.getElem?_set_ne (by omega)]
    by_cases h0 : i = 0 ∧ j = 0
    · obtain ⟨rfl, rfl⟩ := h0
      simp
    · rw [if_neg h0, List.getElem?_set_ne, List.getElem?_replicate, if_pos (by omega)]
      intro hz
      apply h0
      have hj0 : j = 0 := by omega
      have him : i * M = 0 := by omega
      rcases Nat.mul_eq_zero.1 him with h | h
      · exact ⟨h, hj0⟩
      · omega
  · intro r' hr'
    unfold startVec
    simp only
    rw [if_neg hr']
  · intro A linear b ed rho0; rfl

end

/-! ### witnesses -/

section
variable {S : Type} [Fintype S] [DecidableEq S]

/-- there are eigenvectors for all levels. -/
theorem exists_pairs (A : Matrix S S ℂ) (hA : A.IsHermitian) : ∃ v, EigenPairs A (levels A hA) v := by
  classical
  let idx : List S := Finset.univ.toList.mergeSort fun a b => decide (hA.eigenvalues a ≤ hA.eigenvalues b)
  have hperm : idx.Perm Finset.univ.toList := List.mergeSort_perm _ _
  have hnd : idx.Nodup := hperm.nodup_iff.2 (Finset.nodup_toList _)
  have hsort : (idx.map hA.eigenvalues).Pairwise (· ≤ ·) := by
    rw [List.pairwise_map]
    have := List.pairwise_mergeSort (le := fun a b : S => decide (hA.eigenvalues a ≤ hA.eigenvalues b))
      (by intro a b c h1 h2; simp only [decide_eq_true_eq] at *; exact h1.trans h2)
      (by intro a b; simp only [Bool.or_eq_true, decide_eq_true_eq]; exact le_total _ _) Finset.univ.toList
    exact this.imp (by intro a b h; simpa using h)
  have hlev : levels A hA = idx.map hA.eigenvalues := by
    apply List.Perm.eq_of_pairwise (le := (· ≤ ·)) (fun a b _ _ h1 h2 => le_antisymm h1 h2) (levels_sorted A hA) hsort
    rw [← Multiset.coe_eq_coe]
    unfold levels
    rw [Multiset.sort_eq, ← Multiset.map_coe, Multiset.coe_eq_coe.2 hperm, Finset.coe_toList]
  refine ⟨idx.map fun i => (hA.eigenvectorBasis i).ofLp, by rw [hlev]; simp, ?_, ?_⟩
  · intro i e u hw hv
    rw [hlev, List.getElem?_map] at hw
    rw [List.getElem?_map] at hv
    cases hs : idx[i]? with
    | none => rw [hs] at hw; simp at hw
    | some s =>
      rw [hs] at hw hv
      simp only [Option.map_some, Option.some.injEq] at hw hv
      rw [← hw, ← hv]
      exact hA.mulVec_eigenvectorBasis s
  · intro i j a b ha hb
    rw [List.getElem?_map] at ha hb
    cases hs : idx[i]? with
    | none => rw [hs] at ha; simp at ha
    | some s =>
      cases ht : idx[j]? with
      | none => rw [ht] at hb; simp at hb
      | some t =>
        rw [hs] at ha
        rw [ht] at hb
        simp only [Option.map_some, Option.some.injEq] at ha hb
        rw [← ha, ← hb]
        have ho := (orthonormal_iff_ite.1 hA.eigenvectorBasis.orthonormal) s t
        rw [EuclideanSpace.inner_eq_star_dotProduct] at ho
        have hij : i = j ↔ s = t := by
          constructor
          · rintro rfl; rw [hs] at ht; exact Option.some.inj ht
          · rintro rfl
            have hlt : i < idx.length := by
              by_contra hh
              rw [List.getElem?_eq_none (by omega)] at hs
              simp at hs
            exact (List.getElem?_inj hlt hnd).1 (hs.trans ht.symm)
        simp only [hij]
        rw [← ho]
        unfold dotProduct
        apply Finset.sum_congr rfl
        intro k _
        simp [mul_comm]

theorem pairs_take (A : Matrix S S ℂ) (w : List ℝ) (v : List (S → ℂ)) (h : EigenPairs A w v) (k : Nat) :
    EigenPairs A (w.take k) (v.take k) := by
  obtain ⟨h1, h2, h3⟩ := h
  have ht : ∀ {β : Type} (l : List β) (i : Nat) (a : β), (l.take k)[i]? = some a → l[i]? = some a := by
    intro β l i a ha
    rw [List.getElem?_take] at ha
    split_ifs at ha
    exact ha
  refine ⟨by simp [h1], fun i e u hw hv => h2 i e u (ht _ _ _ hw) (ht _ _ _ hv),
    fun i j a b ha hb => h3 i j a b (ht _ _ _ ha) (ht _ _ _ hb)⟩

/-- the hypotheses on scipy and numpy can be met, on every space. -/
theorem scipy_exists : ∃ eigsh : Matrix S S ℂ → Dict → Except Err (Result (S → ℂ)), Scipy eigsh := by
  classical
  refine ⟨fun A d => if hA : A.IsHermitian then
      match d .k, d .returnEigenvectors with
      | some (.int k), some (.bool true) =>
        .ok (.pair ((levels A hA).take k.toNat) ((exists_pairs A hA).choose.take k.toNat))
      | some (.int k), _ => .ok (.values ((levels A hA).take k.toNat).reverse)
      | _, _ => .error .valueError
    else .error .valueError, ?_, ?_⟩
  · intro A hA d k _ h2 h3 _ _
    refine ⟨(exists_pairs A hA).choose.take k, ?_, pairs_take _ _ _ (exists_pairs A hA).choose_spec k⟩
    simp only [dif_pos hA, h2, h3, Int.toNat_natCast]
  · intro A hA d k _ h2 h3 _ _
    simp only [dif_pos hA, h2, h3, Int.toNat_natCast]

theorem numpy_exists : ∃ (eigh : Matrix S S ℂ → Except Err (List ℝ × List (S → ℂ)))
    (eigvalsh : Matrix S S ℂ → Except Err (List ℝ)), Numpy eigh eigvalsh := by
  classical
  refine ⟨fun A => if hA : A.IsHermitian then .ok (levels A hA, (exists_pairs A hA).choose) else .error .valueError,
    fun A => if hA : A.IsHermitian then .ok (levels A hA) else .error .valueError, ?_, ?_⟩
  · intro A hA
    exact ⟨_, by rw [dif_pos hA], (exists_pairs A hA).choose_spec⟩
  · intro A hA
    rw [dif_pos hA]

end

/-- hypotheses of `C229_lanczos`: `sigma^x` on one spin, one eigenvalue, with keywords of the user. -/
example := C229_lanczos _ (scipy_exists (S := Fin 2)).choose_spec _ _ numpy_exists.choose_spec.choose_spec
  (Matrix.of ![![0, 1], ![1, 0]]) (by ext i j; fin_cases i <;> fin_cases j <;> simp) 1 (by decide) (by decide) true
  (some fun k => if k = .which then some (.other 0) else none)

/-- hypotheses of `C229_bound`: `sigma^x` on the first of two spins. -/
example : ∃ (cut : Cutoff ℂ) (op : LOp ℂ ℤ 2), Ideal cut ∧ Built cut (fun _ : Fin 2 => ([-1, 1] : List ℤ)) op
    ∧ (mat (fun _ : Fin 2 => ([-1, 1] : List ℤ)) op).IsHermitian
    ∧ 1 < (basisStates (fun _ : Fin 2 => ([-1, 1] : List ℤ))).card := by
  classical
  let cut : Cutoff ℂ := ⟨fun z => decide (z ≠ 0), fun z => decide (z ≠ 0)⟩
  have hid : Ideal cut := by constructor <;> simp [cut]
  have hs : SortedSpace (fun _ : Fin 2 => ([-1, 1] : List ℤ)) := fun _ => by simp
  have ha : ArgsOK (fun _ : Fin 2 => ([-1, 1] : List ℤ)) [((⟨2, fun i j => if i = j then 0 else 1⟩ : Mat ℂ), [0])] := by
    intro p hp
    rw [List.mem_singleton] at hp
    subst hp
    exact ⟨by simp, by simp, by simp [dims], Or.inl (by simp)⟩
  obtain ⟨op, h1, h2, h3, h4⟩ := mk_ok hid hs (0 : ℂ) _ ha
  refine ⟨cut, op, hid, .mk ha h1, ?_, by decide +kernel⟩
  · ext x y
    rw [Matrix.conjTranspose_apply]
    unfold mat
    rw [h4 _ _ ((Verif.LocalOp.mem_basis _).1 y.2) ((Verif.LocalOp.mem_basis _).1 x.2),
      h4 _ _ ((Verif.LocalOp.mem_basis _).1 x.2) ((Verif.LocalOp.mem_basis _).1 y.2)]
    have hc : (∀ s, s ∉ [(0 : Fin 2)] → y.1 s = x.1 s) ↔ ∀ s, s ∉ [(0 : Fin 2)] → x.1 s = y.1 s :=
      ⟨fun h s hs => (h s hs).symm, fun h s hs => (h s hs).symm⟩
    unfold matrixOfList
    simp only [embed, hc, List.map_cons, List.map_nil, List.sum_cons, List.sum_nil, add_zero, ite_self, zero_add]
    by_cases h : ∀ s, s ∉ [(0 : Fin 2)] → x.1 s = y.1 s
    · rw [if_pos h, if_pos h]
      simp only [eq_comm (a := lexIdx _ [0] y.1)]
      split_ifs <;> simp
    · rw [if_neg h, if_neg h]; simp

/-- hypotheses of `C230_iterative`: a decaying two-level system with Hamiltonian zero and jump operator `|0><1|`; the ground
    state solves the equations, whatever the last component. -/
example (t : ℚ) : linearOp 2 (fun i j => if i = 1 ∧ j = 1 then -1 / 2 else 0)
    [((fun i j => if i = 0 ∧ j = 1 then 1 else 0), fun i j => if i = 1 ∧ j = 0 then 1 else 0)] [1, 0, 0, 0, t]
      = target 2 := by
  simp [linearOp, matvecTrace, matvec, mmul, target, List.range_succ]

/-- hypotheses of `C230_start`: a matrix with two rows. -/
example := C230_start 2 ([[1, 2], [3, 4]] : List (List ℚ)) rfl (by decide)

end Verif.ExactDiag

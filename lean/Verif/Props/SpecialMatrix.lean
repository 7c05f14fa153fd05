import Verif.Props.Constrained
import Verif.Props.Bose

/-! C239: the matrices of `Ising` and `BoseHubbard`, also on `Fock` spaces with a fixed number of particles. -/

set_option linter.unusedSectionVars false

namespace Verif.Ham
open Verif.Hilbert Verif.Sparse Verif.LocalOp

variable {K : Type} [CommRing K] {α : Type} [LinearOrder α] [Inhabited α] {N : Nat} {hi : Fin N → List α}

/-- the kernel of an operator (`get_conn_flattened`) on rows given as lists. -/
def flatOf (flat : List (Fin N → α) → List ((Fin N → α) × K) × List Nat) (L : List (List α)) : List (List α × K) × List Nat :=
  ((flat (L.map (asConf N))).1.map fun p => (List.ofFn p.1, p.2), (flat (L.map (asConf N))).2)

theorem flatOf_rowWise (P : (Fin N → α) → Prop) (flat : List (Fin N → α) → List ((Fin N → α) × K) × List Nat)
    (conn : (Fin N → α) → List ((Fin N → α) × K)) (h1 : ∀ xs, (flat xs).1 = xs.flatMap conn)
    (h2 : ∀ xs, splitSections (flat xs).1 0 (flat xs).2 = xs.map conn)
    (h3 : ∀ x, Valid hi x → P x → ∀ p ∈ conn x, Valid hi p.1 ∧ P p.1) :
    RowWise (ValidWith hi P) (flatOf flat) (fun σ => (conn (asConf N σ)).map fun p => (List.ofFn p.1, p.2)) := by
  refine ⟨fun L _ => ?_, fun L _ => ?_, ?_⟩
  · unfold flatOf
    dsimp only
    rw [h1, List.flatMap_map, List.map_flatMap]
  · unfold flatOf
    dsimp only
    rw [split_map, h2, List.map_map, List.map_map]
    rfl
  · rintro σ ⟨x, hx, hP, rfl⟩ p hp
    rw [asConf_ofFn] at hp
    obtain ⟨q, hq, rfl⟩ := List.mem_map.1 hp
    obtain ⟨q1, q2⟩ := h3 x hx hP q hq
    exact ⟨q.1, q1, q2, rfl⟩

/-- the matrix of an operator with a row-wise kernel. -/
theorem flatOf_matrix (P : (Fin N → α) → Prop) (flat : List (Fin N → α) → List ((Fin N → α) × K) × List Nat)
    (conn : (Fin N → α) → List ((Fin N → α) × K)) (h1 : ∀ xs, (flat xs).1 = xs.flatMap conn)
    (h2 : ∀ xs, splitSections (flat xs).1 0 (flat xs).2 = xs.map conn)
    (h3 : ∀ x, Valid hi x → P x → ∀ p ∈ conn x, Valid hi p.1 ∧ P p.1) (h : Disc α) (hidx : Indexes h (ValidWith hi P)) :
    ∃ m, toSparse h (flatOf flat) = .ok m
      ∧ (∀ x x' i j, Valid hi x → P x → Valid hi x' → P x' →
          h.statesToNumbers (List.ofFn x) = .ok i → h.statesToNumbers (List.ofFn x') = .ok j →
          m.dense i j = melAt (conn x) x')
      ∧ ∀ v i, i < h.nStates → m.dot v i = ∑ j ∈ Finset.range h.nStates, m.dense i j * v j := by
  have hf := flatOf_rowWise P flat conn h1 h2 h3
  obtain ⟨m, m1, m2⟩ := C19_to_dense h _ hidx _ _ hf
  obtain ⟨m', m1', m3⟩ := C19_apply h _ hidx _ _ hf
  rw [m1, Except.ok.injEq] at m1'
  subst m1'
  refine ⟨m, m1, fun x x' i j hx hPx hx' hPx' hi' hj => ?_, m3⟩
  rw [m2 _ _ i j ⟨x, hx, hPx, rfl⟩ ⟨x', hx', hPx', rfl⟩ hi' hj, asConf_ofFn]
  unfold elementSum melAt
  rw [List.map_map]
  congr 1
  apply List.map_congr_left
  intro p _
  simp only [Function.comp]
  by_cases he : p.1 = x'
  · rw [if_pos he, if_pos (by rw [he])]
  · rw [if_neg he, if_neg fun hc => he (List.ofFn_injective hc)]

theorem validWith_true : ValidWith hi (fun _ => True) = ValidConf hi := by
  funext σ
  apply propext
  constructor
  · rintro ⟨x, h1, _, h2⟩; exact ⟨x, h1, h2⟩
  · rintro ⟨x, h1, h2⟩; exact ⟨x, h1, trivial, h2⟩

/-- **C239**: `to_sparse` of `Ising` on `Spin(s=1/2, N)` succeeds; its entries are those of the documented Hamiltonian; products
    with vectors are products with this matrix. -/
theorem C239_ising (op : Ising K N) :
    ∃ m, toSparse (homog [-1, 1] N) (flatOf op.flattened) = .ok m
      ∧ (∀ x x' i j, IsSpins x → IsSpins x' → (homog [-1, 1] N).statesToNumbers (List.ofFn x) = .ok i →
          (homog [-1, 1] N).statesToNumbers (List.ofFn x') = .ok j →
          m.dense i j = isingMatrix op.h op.J op.edges x x' ∧ m.dense i j = m.dense j i)
      ∧ ∀ v i, i < (homog [-1, (1 : ℤ)] N).nStates →
          m.dot v i = ∑ j ∈ Finset.range (homog [-1, (1 : ℤ)] N).nStates, m.dense i j * v j := by
  have hidx : Indexes (homog [-1, (1 : ℤ)] N) (ValidWith (halfSpins N) fun _ => True) := by
    rw [validWith_true]; exact indexes_homog [-1, (1 : ℤ)] (by decide) (by decide)
  obtain ⟨m, m1, m2, m3⟩ := flatOf_matrix (hi := halfSpins N) (fun _ => True) op.flattened op.row
    (fun xs => by rw [op.flattened_eq]) (C18_ising_batches op)
    (fun x hx _ p hp => ⟨(valid_halfSpins _).2 ((C21_n_conn op x ((valid_halfSpins x).1 hx)).2.2.2 p hp), trivial⟩) _ hidx
  have key : ∀ x x' i j, IsSpins x → IsSpins x' → (homog [-1, 1] N).statesToNumbers (List.ofFn x) = .ok i →
      (homog [-1, 1] N).statesToNumbers (List.ofFn x') = .ok j → m.dense i j = isingMatrix op.h op.J op.edges x x' := by
    intro x x' i j hx hx' hi' hj
    rw [m2 x x' i j ((valid_halfSpins x).2 hx) trivial ((valid_halfSpins x').2 hx') trivial hi' hj, C21_get_conn]
  have sym : ∀ x x' : Fin N → ℤ, isingMatrix op.h op.J op.edges x x' = isingMatrix op.h op.J op.edges x' x := by
    intro x x'
    unfold isingMatrix
    congr 1
    · congr 1
      apply Finset.sum_congr rfl
      intro i _
      unfold pauliX
      have : (x' i = -x i ∧ ∀ s, s ≠ i → x' s = x s) ↔ (x i = -x' i ∧ ∀ s, s ≠ i → x s = x' s) :=
        ⟨fun h => ⟨by rw [h.1, neg_neg], fun s hs => (h.2 s hs).symm⟩, fun h => ⟨by rw [h.1, neg_neg], fun s hs => (h.2 s hs).symm⟩⟩
      simp only [this]
    · congr 2
      apply List.map_congr_left
      intro e _
      unfold pauliZZ
      by_cases h : x = x'
      · subst h; rfl
      · rw [if_neg h, if_neg (Ne.symm h)]
  exact ⟨m, m1, fun x x' i j hx hx' hi' hj => ⟨key x x' i j hx hx' hi' hj,
    by rw [key x x' i j hx hx' hi' hj, key x' x j i hx' hx hj hi', sym]⟩, m3⟩

theorem Bose.flattened_fst (R : Roots K) (op : Bose K N) (xs : List (Fin N → ℕ)) :
    (op.flattened R xs).1 = xs.flatMap (op.getConn R) := by
  have h := foldl_rows (op.row R) xs [] []
  simp only [List.nil_append, List.length_nil] at h
  have e : op.flattened R xs
      = (xs.flatMap (op.row R), runningTotals 0 (xs.map fun x => (op.row R x).length)) := h
  rw [e]
  dsimp only
  apply List.flatMap_congr
  intro x _
  rw [C22_get_conn_is_kernel]

theorem bose_any (R : Roots K) (op : Bose K N) (hne : ∀ e ∈ op.edges, e.1 ≠ e.2) (P : (Fin N → ℕ) → Prop)
    (hP : ∀ x x' : Fin N → ℕ, ∑ s, x' s = ∑ s, x s → P x → P x') (h : Disc ℕ)
    (hidx : Indexes h (ValidWith (fock N op.nMax) P)) :
    ∃ m, toSparse h (flatOf (op.flattened R)) = .ok m
      ∧ (∀ x x' i j, InFock op.nMax x → P x → InFock op.nMax x' → P x' →
          h.statesToNumbers (List.ofFn x) = .ok i → h.statesToNumbers (List.ofFn x') = .ok j →
          m.dense i j = boseMatrix R.sq (R.half * op.U) op.V op.J op.mu op.edges x x' ∧ m.dense i j = m.dense j i)
      ∧ ∀ v i, i < h.nStates → m.dot v i = ∑ j ∈ Finset.range h.nStates, m.dense i j * v j := by
  obtain ⟨m, m1, m2, m3⟩ := flatOf_matrix (hi := fock N op.nMax) P (op.flattened R) (op.getConn R)
    (op.flattened_fst R) (C18_bose_batches R op)
    (fun x hx hPx p hp => by
      obtain ⟨c1, c2⟩ := C22_conserves R op x ((valid_fock _ x).1 hx) p hp
      exact ⟨(valid_fock _ _).2 c2, hP x p.1 c1 hPx⟩) h hidx
  refine ⟨m, m1, fun x x' i j hx hPx hx' hPx' hi' hj => ?_, m3⟩
  have e1 := m2 x x' i j ((valid_fock _ x).2 hx) hPx ((valid_fock _ x').2 hx') hPx' hi' hj
  have e2 := m2 x' x j i ((valid_fock _ x').2 hx') hPx' ((valid_fock _ x).2 hx) hPx hj hi'
  refine ⟨?_, ?_⟩
  · rw [e1, C22_get_conn_is_kernel, C22_get_conn R op hne x x' hx']
  · rw [e1, e2]
    exact C22_symmetric R op hne x x' hx hx'

/-- **C239**: `to_sparse` of `BoseHubbard` on `Fock(n_max, N)` succeeds; its entries are those of the documented Hamiltonian. -/
theorem C239_bose (R : Roots K) (op : Bose K N) (hne : ∀ e ∈ op.edges, e.1 ≠ e.2) :
    ∃ m, toSparse (homog (List.range (op.nMax + 1)) N) (flatOf (op.flattened R)) = .ok m
      ∧ (∀ x x' i j, InFock op.nMax x → InFock op.nMax x' →
          (homog (List.range (op.nMax + 1)) N).statesToNumbers (List.ofFn x) = .ok i →
          (homog (List.range (op.nMax + 1)) N).statesToNumbers (List.ofFn x') = .ok j →
          m.dense i j = boseMatrix R.sq (R.half * op.U) op.V op.J op.mu op.edges x x' ∧ m.dense i j = m.dense j i)
      ∧ ∀ v i, i < (homog (List.range (op.nMax + 1)) N).nStates →
          m.dot v i = ∑ j ∈ Finset.range (homog (List.range (op.nMax + 1)) N).nStates, m.dense i j * v j := by
  have hidx : Indexes (homog (List.range (op.nMax + 1)) N) (ValidWith (fock N op.nMax) fun _ => True) := by
    rw [validWith_true]
    exact indexes_homog _ List.nodup_range (by simp)
  obtain ⟨m, m1, m2, m3⟩ := bose_any R op hne (fun _ => True) (fun _ _ _ _ => trivial) _ hidx
  exact ⟨m, m1, fun x x' i j hx hx' hi' hj => m2 x x' i j hx trivial hx' trivial hi' hj, m3⟩

/-- **C239**: on `Fock(n_max, N, n_particles)` the matrix of `BoseHubbard` is the block of the documented Hamiltonian with this
    number of particles, and between configurations of different numbers the Hamiltonian has no elements: nothing is lost. -/
theorem C239_bose_particles (R : Roots K) (op : Bose K N) (hne : ∀ e ∈ op.edges, e.1 ≠ e.2) (n : ℕ) :
    (∃ m, toSparse (homogConstrained (List.range (op.nMax + 1)) N fun σ => σ.sum == n) (flatOf (op.flattened R)) = .ok m
      ∧ (∀ x x' i j, InFock op.nMax x → ∑ s, x s = n → InFock op.nMax x' → ∑ s, x' s = n →
          (homogConstrained (List.range (op.nMax + 1)) N fun σ => σ.sum == n).statesToNumbers (List.ofFn x) = .ok i →
          (homogConstrained (List.range (op.nMax + 1)) N fun σ => σ.sum == n).statesToNumbers (List.ofFn x') = .ok j →
          m.dense i j = boseMatrix R.sq (R.half * op.U) op.V op.J op.mu op.edges x x' ∧ m.dense i j = m.dense j i)
      ∧ ∀ v i, i < (homogConstrained (List.range (op.nMax + 1)) N fun σ => σ.sum == n).nStates →
          m.dot v i = ∑ j ∈ Finset.range (homogConstrained (List.range (op.nMax + 1)) N fun σ => σ.sum == n).nStates,
            m.dense i j * v j) ∧
    ∀ x x' : Fin N → ℕ, InFock op.nMax x → InFock op.nMax x' → ∑ s, x s ≠ ∑ s, x' s →
      boseMatrix R.sq (R.half * op.U) op.V op.J op.mu op.edges x x' = 0 := by
  have hidx : Indexes (homogConstrained (List.range (op.nMax + 1)) N fun σ => σ.sum == n)
      (ValidWith (fock N op.nMax) fun x => ∑ s, x s = n) := by
    have := indexes_constrained (N := N) (List.range (op.nMax + 1)) List.nodup_range (by simp) fun σ => σ.sum == n
    simp only [List.sum_ofFn, beq_iff_eq] at this
    exact this
  refine ⟨bose_any R op hne (fun x => ∑ s, x s = n) (fun x x' h1 h2 => h1.trans h2) _ hidx, fun x x' hx hx' hne' => ?_⟩
  rw [← C22_get_conn R op hne x x' hx', ← C22_get_conn_is_kernel]
  unfold melAt
  apply List.sum_eq_zero
  intro v hv
  obtain ⟨p, hp, rfl⟩ := List.mem_map.1 hv
  have hc := (C22_conserves R op x hx p hp).1
  rw [if_neg]
  intro h
  rw [h] at hc
  exact hne' hc.symm

/-- a chain of three sites with up to two particles each: the hypotheses hold. -/
def exBose : Bose ℚ 3 := ⟨4, 1, 1, 2, 2, [(0, 1), (1, 2)]⟩

example : ∀ e ∈ exBose.edges, e.1 ≠ e.2 := by decide

example : ∃ m, toSparse (homogConstrained (List.range 3) 3 fun σ => σ.sum == 2) (flatOf (exBose.flattened ratRoots)) = .ok m := by
  obtain ⟨⟨m, h, _⟩, _⟩ := C239_bose_particles ratRoots exBose (by decide) 2
  exact ⟨m, h⟩

example : InFock 2 ![2, 0, (0 : ℕ)] ∧ ∑ s, ![2, 0, (0 : ℕ)] s = 2 ∧
    (homogConstrained (List.range 3) 3 fun σ => σ.sum == 2).statesToNumbers (List.ofFn ![2, 0, (0 : ℕ)]) = .ok 5 := by
  refine ⟨by unfold InFock; decide, by decide, by rfl⟩

end Verif.Ham

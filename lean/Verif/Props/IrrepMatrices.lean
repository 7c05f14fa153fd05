import Verif.Model.IrrepMatrices
import Verif.Lemmas.EigSpaces
import Verif.Props.CharTable

/-! C152: matrices of irreducible representations. -/

namespace Verif.CharTab
open Verif.Grp Verif.Irrep Finset
open Verif.Hilbert (Err)

variable {G : Type} [Group G] [Fintype G] {elems : List G} {T : List (List Nat)} {inv : List Nat}

/-- `inv` lists the positions of the inverse elements. -/
def IsInv (elems : List G) (inv : List Nat) : Prop :=
  ∀ (i : Nat) g, elems[i]? = some g → ∃ j, inv[i]? = some j ∧ elems[j]? = some g⁻¹

/-- contract of `np.linalg.eigh` for an `n × n` matrix: eigenvalues in increasing order, orthonormal eigenvectors. -/
structure IsEigh (n : Nat) (M : Nat → Nat → ℂ) (ev : Nat → ℝ) (v : Nat → Nat → ℂ) : Prop where
  mono : ∀ i j, i ≤ j → j < n → ev i ≤ ev j
  eig : ∀ j < n, ∀ g < n, ∑ k ∈ range n, M g k * v k j = ev j * v g j
  orth : ∀ i < n, ∀ j < n, ∑ g ∈ range n, (starRingEnd ℂ) (v g i) * v g j = if i = j then 1 else 0

/-- the matrices `D.mat p`, `p` a position in `elems`, are a unitary representation. -/
structure IsUnitaryRep (elems : List G) (D : Irrep) : Prop where
  one : ∀ p, elems[p]? = some 1 → ∀ i < D.dim, ∀ j < D.dim, D.mat p i j = if i = j then 1 else 0
  mul : ∀ (p q r : Nat) (g h : G), elems[p]? = some g → elems[q]? = some h → elems[r]? = some (g * h) →
    ∀ i < D.dim, ∀ k < D.dim, ∑ j ∈ range D.dim, D.mat p i j * D.mat q j k = D.mat r i k
  unitary : ∀ (p : Nat) (g : G), elems[p]? = some g → ∀ i < D.dim, ∀ j < D.dim,
    ∑ k ∈ range D.dim, (starRingEnd ℂ) (D.mat p k i) * D.mat p k j = if i = j then 1 else 0

/-! ### slices of the eigenvectors -/

theorem startingIdx_sorted (n : Nat) (ev : Nat → ℝ) (hmono : ∀ i j, i ≤ j → j < n → ev i ≤ ev j) :
    (startingIdx n ev).Pairwise (· < ·) := by
  unfold startingIdx uniqueIndex
  set keys := (List.range n).map fun i : Nat => [Lat.comparable (ev i)] with hkeys
  rw [List.pairwise_map]
  have h1 : (uniqueRows keys).Pairwise fun a b => lexLe a b = true := sortBy_pairwise lexLe_trans lexLe_total _
  have h2 := uniqueRows_nodup keys
  refine List.Pairwise.imp_of_mem ?_ (h1.and h2)
  rintro a b ha hb ⟨hle, hne⟩
  rw [mem_uniqueRows] at ha hb
  by_contra hlt
  have hia : keys.idxOf a < keys.length := List.idxOf_lt_length_iff.2 ha
  have ha' := List.getElem?_idxOf ha
  have hb' := List.getElem?_idxOf hb
  rw [hkeys, List.getElem?_map] at ha' hb'
  rw [hkeys, List.length_map, List.length_range] at hia
  rw [← hkeys] at *
  have hib : keys.idxOf b < n := by omega
  rw [List.getElem?_range hia] at ha'
  rw [List.getElem?_range hib] at hb'
  simp only [Option.map_some, Option.some.injEq] at ha' hb'
  have h3 : Lat.comparable (ev (keys.idxOf b)) ≤ Lat.comparable (ev (keys.idxOf a)) :=
    comparable_mono (hmono _ _ (by omega) hia)
  rw [← ha', ← hb'] at hle
  have h4 := lexLe_head _ _ _ _ hle
  apply hne
  rw [← ha', ← hb', le_antisymm h4 h3]

theorem startingIdx_first (n : Nat) (ev : Nat → ℝ) (i : Nat) (hi : i ∈ startingIdx n ev) :
    i < n ∧ ∀ j < i, Lat.comparable (ev j) ≠ Lat.comparable (ev i) := by
  unfold startingIdx at hi
  rw [mem_uniqueIndex] at hi
  obtain ⟨h1, h2⟩ := hi
  rw [List.length_map, List.length_range] at h1
  refine ⟨h1, fun j hj heq => h2 j hj ?_⟩
  rw [List.getElem?_map, List.getElem?_map, List.getElem?_range h1, List.getElem?_range (by omega)]
  simp [heq]

theorem zip_spec (n lo hi : Nat) (L : List Nat) (hs : L.Pairwise (· < ·)) (hf : ∀ i ∈ L, i < n)
    (h : (lo, hi) ∈ L.zip (L.tail ++ [n])) : lo ∈ L ∧ lo < hi ∧ (hi ∈ L ∨ hi = n) := by
  induction L with
  | nil => simp at h
  | cons a l ih =>
    cases l with
    | nil =>
      simp only [List.tail_cons, List.nil_append, List.zip_cons_cons, List.zip_nil_left, List.mem_singleton,
        Prod.mk.injEq] at h
      obtain ⟨rfl, rfl⟩ := h
      exact ⟨by simp, hf lo (by simp), Or.inr rfl⟩
    | cons b l =>
      simp only [List.tail_cons, List.cons_append, List.zip_cons_cons, List.mem_cons, Prod.mk.injEq] at h
      rcases h with ⟨rfl, rfl⟩ | h
      · refine ⟨by simp, ?_, Or.inl (by simp)⟩
        exact (List.pairwise_cons.1 hs).1 hi (by simp)
      · have := ih (List.pairwise_cons.1 hs).2 (fun i hi => hf i (List.mem_cons_of_mem _ hi)) (by simpa using h)
        exact ⟨List.mem_cons_of_mem _ this.1, this.2.1, this.2.2.imp (List.mem_cons_of_mem _) id⟩

/-- a slice contains every eigenvector of each of its eigenvalues. -/
theorem limits_spec (n : Nat) (ev : Nat → ℝ) (hmono : ∀ i j, i ≤ j → j < n → ev i ≤ ev j) (lo hi : Nat)
    (h : (lo, hi) ∈ limits n ev) : lo < hi ∧ hi ≤ n ∧ ∀ j k, j < n → lo ≤ k → k < hi → ev j = ev k → lo ≤ j ∧ j < hi := by
  have hs := startingIdx_sorted n ev hmono
  have hf := startingIdx_first n ev
  have h0 := zip_spec n lo hi _ hs (fun i hi => (hf i hi).1) h
  obtain ⟨h1, h2, h3⟩ := h0
  have hn : hi ≤ n := by
    rcases h3 with h3 | h3
    · exact (hf hi h3).1.le
    · exact h3.le
  refine ⟨h2, hn, ?_⟩
  intro j k hj hk1 hk2 heq
  constructor
  · by_contra hlt
    have ha := comparable_mono (hmono j lo (by omega) (by omega))
    have hb := comparable_mono (hmono lo k hk1 (by omega))
    rw [← heq] at hb
    exact (hf lo h1).2 j (by omega) (le_antisymm ha hb)
  · by_contra hge
    rcases h3 with h3 | h3
    · have ha := comparable_mono (hmono k hi (by omega) (by omega))
      have hb := comparable_mono (hmono hi j (by omega) hj)
      rw [heq] at hb
      exact (hf hi h3).2 k hk2 (le_antisymm ha hb)
    · omega

/-! ### the eigenvectors as functions on the group -/

section
variable [DecidableEq G]

theorem true_eq (hT : IsTable elems T) (hall : ∀ g, g ∈ elems) (hinv : IsInv elems inv) (g h : G) :
    trueTable T inv (elems.idxOf g) (elems.idxOf h) = elems.idxOf (g * h) := by
  obtain ⟨j, h1, h2⟩ := hinv _ g (List.getElem?_idxOf (hall g))
  unfold trueTable
  rw [List.getD_eq_getElem?_getD, h1, Option.getD_some]
  have h3 := entry_spec hT h2 (List.getElem?_idxOf (hall h))
  rw [inv_inv] at h3
  have h4 := List.getElem?_idxOf (hall (g * h))
  exact (List.getElem?_inj (List.getElem?_eq_some_iff.1 h3).1 hT.nodup).1 (h3.trans h4.symm)

theorem inverted_eq (hT : IsTable elems T) (hall : ∀ g, g ∈ elems) (hinv : IsInv elems inv) (g h : G) :
    invertedTable T inv (elems.idxOf g) (elems.idxOf h) = elems.idxOf (g * h⁻¹) := by
  obtain ⟨j, h1, h2⟩ := hinv _ h (List.getElem?_idxOf (hall h))
  unfold invertedTable
  rw [List.getD_eq_getElem?_getD, h1, Option.getD_some]
  have h4 := List.getElem?_idxOf (hall h⁻¹)
  rw [(List.getElem?_inj (List.getElem?_eq_some_iff.1 h2).1 hT.nodup).1 (h2.trans h4.symm)]
  exact true_eq hT hall hinv g h⁻¹

theorem sum_idx (hT : IsTable elems T) (hall : ∀ g, g ∈ elems) (f : Nat → ℂ) :
    ∑ i ∈ range T.length, f i = ∑ g, f (elems.idxOf g) := by
  rw [← sum_index hT.nodup hall fun g => f (elems.idxOf g), hT.length]
  refine sum_congr rfl fun i hi => ?_
  rw [mem_range] at hi
  rw [List.getD_eq_getElem?_getD, List.getElem?_eq_getElem hi, Option.getD_some, hT.nodup.idxOf_getElem]

omit [Fintype G] in
theorem idx_lt (hT : IsTable elems T) (hall : ∀ g, g ∈ elems) (g : G) : elems.idxOf g < T.length := by
  rw [hT.length]
  exact List.idxOf_lt_length_iff.2 (hall g)

/-- the eigenvectors. -/
def vecs (elems : List G) (n : Nat) (v : Nat → Nat → ℂ) (j : Fin n) (g : G) : ℂ := v (elems.idxOf g) j

theorem eigBasis (hT : IsTable elems T) (hall : ∀ g, g ∈ elems) (hinv : IsInv elems inv) (e : Nat → ℂ) (E : Eigen)
    (hE : IsEigh T.length (invariantMatrix T inv e) E.ev E.v) :
    EigBasis (fun g h => invariantMatrix T inv e (elems.idxOf g) (elems.idxOf h)) (fun j : Fin T.length => E.ev j)
      (vecs elems T.length E.v) := by
  have horth : ∀ i j : Fin T.length, ∑ g, (starRingEnd ℂ) (vecs elems T.length E.v i g) * vecs elems T.length E.v j g =
      if i = j then 1 else 0 := by
    intro i j
    have := hE.orth i i.2 j j.2
    rw [sum_idx hT hall] at this
    simp only [Fin.ext_iff]
    exact this
  refine ⟨?_, ?_, ?_, horth, ?_⟩
  · intro g h
    unfold invariantMatrix
    rw [map_add, Complex.conj_conj, add_comm]
  · intro g h k
    unfold invariantMatrix
    rw [inverted_eq hT hall hinv, inverted_eq hT hall hinv, inverted_eq hT hall hinv, inverted_eq hT hall hinv]
    congr 3 <;> group
  · intro j g
    have := hE.eig j j.2 _ (idx_lt hT hall g)
    rw [sum_idx hT hall] at this
    exact this
  · -- a square matrix with orthonormal columns has orthonormal rows
    have hcard : Fintype.card (Fin T.length) = Fintype.card G := by
      rw [Fintype.card_fin, hT.length]
      exact (Fintype.card_congr (List.Nodup.getEquivOfForallMemList elems hT.nodup hall)).symm ▸ (Fintype.card_fin _).symm
    let A : Matrix (Fin T.length) G ℂ := Matrix.of fun i g => (starRingEnd ℂ) (vecs elems T.length E.v i g)
    let C : Matrix G (Fin T.length) ℂ := Matrix.of fun g j => vecs elems T.length E.v j g
    have hAC : A * C = 1 := by
      ext i j
      rw [Matrix.mul_apply, Matrix.one_apply]
      exact horth i j
    have hCA : C * A = 1 := (Matrix.mul_eq_one_comm_of_card_eq (n := Fin T.length) (m := G) (R := ℂ) hcard.symm).2 hAC
    intro g h
    have := congrFun (congrFun hCA g) h
    rw [Matrix.mul_apply, Matrix.one_apply] at this
    exact this

/-- the slice as a map of indices. -/
def slice (n lo hi : Nat) (hle : hi ≤ n) (i : Fin (hi - lo)) : Fin n := ⟨lo + i, by omega⟩

theorem slice_closed (n : Nat) (ev : Nat → ℝ) (hmono : ∀ i j, i ≤ j → j < n → ev i ≤ ev j) (lo hi : Nat)
    (h : (lo, hi) ∈ limits n ev) (hle : hi ≤ n) : Closed (fun j : Fin n => ev j) (slice n lo hi hle) := by
  obtain ⟨h1, -, h3⟩ := limits_spec n ev hmono lo hi h
  refine ⟨?_, ?_⟩
  · intro a b hab
    have := congrArg Fin.val hab
    simp only [slice] at this
    exact Fin.ext (by omega)
  · intro j k hj heq
    obtain ⟨ha, hb⟩ := h3 j (lo + k) j.2 (by omega) (by omega) heq
    refine hj ⟨j - lo, by omega⟩ (Fin.ext ?_)
    simp only [slice]
    omega

/-- entries of the matrices. -/
theorem irrepEntry_eq (hT : IsTable elems T) (hall : ∀ g, g ∈ elems) (hinv : IsInv elems inv) (v : Nat → Nat → ℂ) (lo hi : Nat)
    (hle : hi ≤ T.length) (p : Nat) (g : G) (hp : elems[p]? = some g) (i j : Fin (hi - lo)) :
    irrepEntry T inv v lo p i j = elem (vecs elems T.length v) g (slice _ lo hi hle i) (slice _ lo hi hle j) := by
  have hpi : p = elems.idxOf g :=
    (List.getElem?_inj (List.getElem?_eq_some_iff.1 hp).1 hT.nodup).1 (hp.trans (List.getElem?_idxOf (hall g)).symm)
  unfold irrepEntry elem
  rw [sum_idx hT hall]
  refine sum_congr rfl fun k _ => ?_
  rw [hpi, true_eq hT hall hinv]
  rfl

theorem proj_eq (hT : IsTable elems T) (hall : ∀ g, g ∈ elems) (hinv : IsInv elems inv) (s : Nat → ℝ) (χ : G → ℂ) (x : Nat → ℂ) :
    projOf T inv s (elems.map χ) x =
      ∑ m : G, (s (elems.idxOf m) : ℂ) * ∑ g, (starRingEnd ℂ) (χ g) * x (elems.idxOf (m⁻¹ * g)) := by
  unfold projOf
  rw [sum_idx hT hall]
  have h1 : ∀ g, (elems.map χ).getD (elems.idxOf g) 0 = χ g := by
    intro g
    rw [List.getD_eq_getElem?_getD, List.getElem?_map, List.getElem?_idxOf (hall g)]
    rfl
  have h2 : ∀ k, ∑ g ∈ range T.length, (starRingEnd ℂ) ((elems.map χ).getD g 0) * (s (invertedTable T inv g (elems.idxOf k)) : ℂ) =
      ∑ g, (starRingEnd ℂ) (χ g) * (s (elems.idxOf (g * k⁻¹)) : ℂ) := by
    intro k
    rw [sum_idx hT hall]
    refine sum_congr rfl fun g _ => ?_
    rw [h1, inverted_eq hT hall hinv]
  simp only [h2, sum_mul, mul_sum]
  rw [sum_comm, sum_comm (γ := G) (s := univ) (t := univ) (f := fun m g => (s (elems.idxOf m) : ℂ) * _)]
  refine sum_congr rfl fun g _ => ?_
  refine Fintype.sum_equiv ((Equiv.inv G).trans (Equiv.mulLeft g)) _ _ fun k => ?_
  simp only [Equiv.trans_apply, Equiv.inv_apply, Equiv.coe_mulLeft]
  have : (g * k⁻¹)⁻¹ * g = k := by group
  rw [this]
  ring

end

/-! ### results -/

theorem irrepOf_spec (real cplx : Eigen) (chi : List ℂ) (D : Irrep) (h : irrepOf T inv real cplx chi = .ok D) :
    ∃ E lo hi, (E = real ∨ E = cplx) ∧ (frobenius T inv chi = 1 → E = real) ∧ (lo, hi) ∈ limits T.length E.ev ∧
      D = ⟨hi - lo, irrepEntry T inv E.v lo⟩ ∧ projOf T inv E.s chi (fun g => E.v g lo) ≠ 0 := by
  classical
  unfold irrepOf at h
  simp only at h
  refine ⟨if frobenius T inv chi = 1 then real else cplx, ?_⟩
  generalize hE : (if frobenius T inv chi = 1 then real else cplx) = E at h ⊢
  split at h
  · exact absurd h (by simp)
  · rename_i lo hi hfs
    refine ⟨lo, hi, ?_, ?_, ?_⟩
    · rw [← hE]
      split
      · exact Or.inl rfl
      · exact Or.inr rfl
    · intro hf
      rw [← hE, if_pos hf]
    · unfold firstSpace at hfs
      split at hfs
      · exact absurd hfs (by simp)
      · rename_i b l hb
        have hbe := Except.ok.inj hfs
        have hm : b ∈ (limits T.length E.ev).filter fun b => decide (¬‖projOf T inv E.s chi fun g => E.v g b.1‖ ≤ 1 / 10 ^ 8) := by
          rw [hb]; exact List.mem_cons_self
        rw [List.mem_filter, decide_eq_true_eq] at hm
        rw [hbe] at hm
        refine ⟨hm.1, (Except.ok.inj h).symm, fun h0 => hm.2 ?_⟩
        simp only
        rw [h0, norm_zero]
        positivity

theorem irrepMatrices_spec (real cplx : Eigen) (CT : List (List ℂ)) (Ds : List Irrep) (h : irrepMatrices T inv real cplx CT = .ok Ds) :
    Ds.length = CT.length ∧ ∀ (k : Nat) chi, CT[k]? = some chi → ∃ D, Ds[k]? = some D ∧ irrepOf T inv real cplx chi = .ok D := by
  induction CT generalizing Ds with
  | nil =>
    unfold irrepMatrices at h
    cases h
    exact ⟨rfl, fun k chi hk => by simp at hk⟩
  | cons c CT ih =>
    unfold irrepMatrices at h
    split at h
    · exact absurd h (by simp)
    · rename_i D hD
      split at h
      · exact absurd h (by simp)
      · rename_i Ds' hDs
        cases h
        obtain ⟨h1, h2⟩ := ih Ds' hDs
        refine ⟨by simp [h1], fun k chi hk => ?_⟩
        cases k with
        | zero =>
          simp only [List.getElem?_cons_zero, Option.some.injEq] at hk
          exact ⟨D, rfl, hk ▸ hD⟩
        | succ k => exact h2 k chi (by simpa using hk)

/-- the matrices computed are those of a representation on a slice. -/
theorem irrep_rep [DecidableEq G] (hT : IsTable elems T) (hall : ∀ g, g ∈ elems) (hinv : IsInv elems inv) (E : Eigen) (e : Nat → ℂ)
    (hE : IsEigh T.length (invariantMatrix T inv e) E.ev E.v) (lo hi : Nat) (hl : (lo, hi) ∈ limits T.length E.ev) :
    0 < hi - lo ∧ IsUnitaryRep elems ⟨hi - lo, irrepEntry T inv E.v lo⟩ := by
  obtain ⟨h1, hle, -⟩ := limits_spec _ _ hE.mono lo hi hl
  have hB := eigBasis hT hall hinv e E hE
  have hS := slice_closed _ _ hE.mono lo hi hl hle
  have hent := fun p g hp i j => irrepEntry_eq hT hall hinv E.v lo hi hle p g hp i j
  refine ⟨by omega, ?_, ?_, ?_⟩
  · intro p hp i hi' j hj
    have := hent p 1 hp ⟨i, hi'⟩ ⟨j, hj⟩
    simp only at this ⊢
    rw [this, hB.elem_one]
    simp only [hS.1.eq_iff, Fin.mk.injEq]
  · intro p q r g h hp hq hr i hi' k hk
    have := hB.sub_mul _ hS g h ⟨i, hi'⟩ ⟨k, hk⟩
    simp only at hi' hk ⊢
    rw [hent r _ hr ⟨i, hi'⟩ ⟨k, hk⟩, ← this, Finset.sum_range]
    refine sum_congr rfl fun j _ => ?_
    rw [← hent p g hp, ← hent q h hq]
  · intro p g hp i hi' j hj
    have := hB.sub_mul _ hS g⁻¹ g ⟨i, hi'⟩ ⟨j, hj⟩
    rw [inv_mul_cancel, hB.elem_one] at this
    simp only [hS.1.eq_iff, Fin.mk.injEq] at this
    simp only at hi' hj ⊢
    rw [← this, Finset.sum_range]
    refine sum_congr rfl fun k _ => ?_
    rw [elem_inv, ← hent p g hp, ← hent p g hp]

/-- **C152.** Every list of matrices returned is a unitary representation: the identity is mapped to the identity matrix, products to
    products. -/
theorem C152_unitary (hT : IsTable elems T) (hall : ∀ g, g ∈ elems) (hinv : IsInv elems inv) (real cplx : Eigen) (e e' : Nat → ℂ)
    (hr : IsEigh T.length (invariantMatrix T inv e) real.ev real.v) (hc : IsEigh T.length (invariantMatrix T inv e') cplx.ev cplx.v)
    (CT : List (List ℂ)) (Ds : List Irrep) (h : irrepMatrices T inv real cplx CT = .ok Ds) :
    Ds.length = CT.length ∧ ∀ D ∈ Ds, 0 < D.dim ∧ IsUnitaryRep elems D := by
  classical
  obtain ⟨h1, h2⟩ := irrepMatrices_spec real cplx CT Ds h
  refine ⟨h1, fun D hD => ?_⟩
  obtain ⟨k, hk⟩ := List.getElem?_of_mem hD
  have hk' : k < CT.length := by rw [← h1]; exact (List.getElem?_eq_some_iff.1 hk).1
  obtain ⟨D', hD', ho⟩ := h2 k _ (List.getElem?_eq_getElem hk')
  rw [hk] at hD'
  cases hD'
  obtain ⟨E, lo, hi, hE, -, hl, rfl, -⟩ := irrepOf_spec real cplx _ D ho
  rcases hE with rfl | rfl
  · exact irrep_rep hT hall hinv _ e hr lo hi hl
  · exact irrep_rep hT hall hinv _ e' hc lo hi hl

theorem irrep_projector [DecidableEq G] (hT : IsTable elems T) (hall : ∀ g, g ∈ elems) (hinv : IsInv elems inv) (E : Eigen) (e : Nat → ℂ)
    (hE : IsEigh T.length (invariantMatrix T inv e) E.ev E.v) (lo hi : Nat) (hl : (lo, hi) ∈ limits T.length E.ev) (χ : G → ℂ)
    (hp : projOf T inv E.s (elems.map χ) (fun g => E.v g lo) ≠ 0) :
    ∃ ρ : Representation ℂ G (Fin (hi - lo) → ℂ), projector ρ χ ≠ 0 ∧
      (∀ (p : Nat) g, elems[p]? = some g → ∀ i j : Fin (hi - lo), LinearMap.toMatrix' (ρ g) i j = irrepEntry T inv E.v lo p i j) := by
  obtain ⟨h1, hle, -⟩ := limits_spec _ _ hE.mono lo hi hl
  have hB := eigBasis hT hall hinv e E hE
  have hS := slice_closed _ _ hE.mono lo hi hl hle
  refine ⟨hB.rep _ hS, ?_, ?_⟩
  · rw [proj_eq hT hall hinv] at hp
    obtain ⟨m, -, hm⟩ := Finset.exists_ne_zero_of_sum_ne_zero hp
    refine hB.projector_ne _ hS χ ⟨0, by omega⟩ m⁻¹ fun h0 => hm ?_
    have : ∑ g, (starRingEnd ℂ) (χ g) * E.v (elems.idxOf (m⁻¹ * g)) lo = 0 := h0
    simp only [this, mul_zero]
  · intro p g hp i j
    rw [irrepEntry_eq hT hall hinv E.v lo hi hle p g hp i j]
    change LinearMap.toMatrix' (Matrix.toLin' _) i j = _
    rw [LinearMap.toMatrix'_toLin']
    rfl

theorem trace_toMatrix {n : Nat} (f : (Fin n → ℂ) →ₗ[ℂ] (Fin n → ℂ)) : LinearMap.trace ℂ _ f = ∑ i : Fin n, LinearMap.toMatrix' f i i := by
  have : f = Matrix.toLin' (LinearMap.toMatrix' f) := (Matrix.toLin'_toMatrix' f).symm
  conv_lhs => rw [this]
  rw [Matrix.trace_toLin'_eq]
  rfl

/-- **C152.** The matrices of row `χ` have the character `χ`, provided that the eigenspace chosen has the dimension of `χ`. -/
theorem C152_characters (hT : IsTable elems T) (hall : ∀ g, g ∈ elems) (hinv : IsInv elems inv) (real cplx : Eigen) (e e' : Nat → ℂ)
    (hr : IsEigh T.length (invariantMatrix T inv e) real.ev real.v) (hc : IsEigh T.length (invariantMatrix T inv e') cplx.ev cplx.v)
    (chars : List (G → ℂ)) (hchars : ∀ χ ∈ chars, IsIrrChar χ) (Ds : List Irrep)
    (h : irrepMatrices T inv real cplx (chars.map fun χ => elems.map χ) = .ok Ds) (k : Nat) (χ : G → ℂ) (hk : chars[k]? = some χ)
    (D : Irrep) (hD : Ds[k]? = some D) (hdim : (D.dim : ℂ) = χ 1) :
    ∀ (p : Nat) g, elems[p]? = some g → ∑ i ∈ range D.dim, D.mat p i i = χ g := by
  classical
  obtain ⟨h1, h2⟩ := irrepMatrices_spec real cplx _ Ds h
  obtain ⟨D', hD', ho⟩ := h2 k (elems.map χ) (by rw [List.getElem?_map, hk]; rfl)
  rw [hD] at hD'
  cases hD'
  obtain ⟨E, lo, hi, hE, -, hl, rfl, hp⟩ := irrepOf_spec real cplx _ D ho
  obtain ⟨ρ, hρ, hm⟩ : ∃ ρ : Representation ℂ G (Fin (hi - lo) → ℂ), projector ρ χ ≠ 0 ∧
      (∀ (p : Nat) g, elems[p]? = some g → ∀ i j : Fin (hi - lo), LinearMap.toMatrix' (ρ g) i j = irrepEntry T inv E.v lo p i j) := by
    rcases hE with rfl | rfl
    · exact irrep_projector hT hall hinv _ e hr lo hi hl χ hp
    · exact irrep_projector hT hall hinv _ e' hc lo hi hl χ hp
  intro p g hpg
  have := char_of_projector ρ (hchars χ (List.mem_of_getElem? hk)) (by rw [← hdim]; simp) hρ g
  rw [← this, trace_toMatrix, Finset.sum_range]
  exact sum_congr rfl fun i _ => (hm p g hpg i i).symm

/-- **C152.** … or provided that it is irreducible (there is no accidental degeneracy). -/
theorem C152_irreducible (hT : IsTable elems T) (hall : ∀ g, g ∈ elems) (hinv : IsInv elems inv) (real cplx : Eigen) (e e' : Nat → ℂ)
    (hr : IsEigh T.length (invariantMatrix T inv e) real.ev real.v) (hc : IsEigh T.length (invariantMatrix T inv e') cplx.ev cplx.v)
    (chars : List (G → ℂ)) (hchars : ∀ χ ∈ chars, IsIrrChar χ) (Ds : List Irrep)
    (h : irrepMatrices T inv real cplx (chars.map fun χ => elems.map χ) = .ok Ds) (k : Nat) (χ : G → ℂ) (hk : chars[k]? = some χ)
    (D : Irrep) (hD : Ds[k]? = some D) :
    ∃ ρ : Representation ℂ G (Fin D.dim → ℂ),
      (∀ (p : Nat) g, elems[p]? = some g → ∀ i j : Fin D.dim, LinearMap.toMatrix' (ρ g) i j = D.mat p i j) ∧
      (ρ.IsIrreducible → ∀ g, LinearMap.trace ℂ _ (ρ g) = χ g) := by
  classical
  obtain ⟨h1, h2⟩ := irrepMatrices_spec real cplx _ Ds h
  obtain ⟨D', hD', ho⟩ := h2 k (elems.map χ) (by rw [List.getElem?_map, hk]; rfl)
  rw [hD] at hD'
  cases hD'
  obtain ⟨E, lo, hi, hE, -, hl, rfl, hp⟩ := irrepOf_spec real cplx _ D ho
  obtain ⟨ρ, hρ, hm⟩ : ∃ ρ : Representation ℂ G (Fin (hi - lo) → ℂ), projector ρ χ ≠ 0 ∧
      (∀ (p : Nat) g, elems[p]? = some g → ∀ i j : Fin (hi - lo), LinearMap.toMatrix' (ρ g) i j = irrepEntry T inv E.v lo p i j) := by
    rcases hE with rfl | rfl
    · exact irrep_projector hT hall hinv _ e hr lo hi hl χ hp
    · exact irrep_projector hT hall hinv _ e' hc lo hi hl χ hp
  refine ⟨ρ, hm, fun hirr => projector_other ρ hirr (hchars χ (List.mem_of_getElem? hk)) hρ⟩

theorem frobenius_eq (hT : IsTable elems T) (hall : ∀ g, g ∈ elems) (hinv : IsInv elems inv) (χ : G → ℂ) (r : Int)
    (hr : ∑ g, χ (g * g) = r * (Fintype.card G : ℂ)) : frobenius T inv (elems.map χ) = r := by
  classical
  unfold frobenius
  rw [sum_idx hT hall]
  have h1 : ∀ g, (elems.map χ).getD (trueTable T inv (elems.idxOf g) (elems.idxOf g)) 0 = χ (g * g) := by
    intro g
    rw [true_eq hT hall hinv, List.getD_eq_getElem?_getD, List.getElem?_map, List.getElem?_idxOf (hall _)]
    rfl
  simp only [h1]
  have hcard : (T.length : ℝ) = (Fintype.card G : ℝ) := by
    rw [hT.length]
    congr 1
    rw [← Fintype.card_fin elems.length]
    exact Fintype.card_congr (List.Nodup.getEquivOfForallMemList elems hT.nodup hall)
  have hne : (Fintype.card G : ℝ) ≠ 0 := Nat.cast_ne_zero.2 Fintype.card_ne_zero
  rw [hr, hcard]
  have h2 : ((r : ℂ) * (Fintype.card G : ℂ)).re = (r : ℝ) * (Fintype.card G : ℝ) := by
    rw [← Complex.ofReal_intCast, ← Complex.ofReal_natCast, ← Complex.ofReal_mul, Complex.ofReal_re]
  rw [h2, mul_div_assoc, div_self hne, mul_one]
  simp [Lat.rint]

/-- **C152.** A character of real type (`∑ χ(g²) = |G|`) gets real matrices if the eigenvectors of the real matrix are real. -/
theorem C152_real (hT : IsTable elems T) (hall : ∀ g, g ∈ elems) (hinv : IsInv elems inv) (real cplx : Eigen)
    (hreal : ∀ g j, (real.v g j).im = 0) (chars : List (G → ℂ)) (Ds : List Irrep)
    (h : irrepMatrices T inv real cplx (chars.map fun χ => elems.map χ) = .ok Ds) (k : Nat) (χ : G → ℂ) (hk : chars[k]? = some χ)
    (hf : ∑ g, χ (g * g) = (Fintype.card G : ℂ)) (D : Irrep) (hD : Ds[k]? = some D) : ∀ p i j, (D.mat p i j).im = 0 := by
  obtain ⟨-, h2⟩ := irrepMatrices_spec real cplx _ Ds h
  obtain ⟨D', hD', ho⟩ := h2 k (elems.map χ) (by rw [List.getElem?_map, hk]; rfl)
  rw [hD] at hD'
  cases hD'
  obtain ⟨E, lo, hi, -, hE, -, rfl, -⟩ := irrepOf_spec real cplx _ D ho
  rw [hE (frobenius_eq hT hall hinv χ 1 (by rw [hf]; simp))]
  intro p i j
  unfold irrepEntry
  rw [Complex.im_sum]
  refine sum_eq_zero fun g _ => ?_
  rw [Complex.mul_im, hreal, Complex.conj_im, hreal]
  simp

/-- **C152.** Other characters (`∑ χ(g²) = 0` or `−|G|`, complex or quaternionic) never get matrices from the real eigenvectors. -/
theorem C152_complex (hT : IsTable elems T) (hall : ∀ g, g ∈ elems) (hinv : IsInv elems inv) (real real' cplx : Eigen) (χ : G → ℂ)
    (hf : ∑ g, χ (g * g) = 0 ∨ ∑ g, χ (g * g) = -(Fintype.card G : ℂ)) :
    irrepMatrices T inv real cplx [elems.map χ] = irrepMatrices T inv real' cplx [elems.map χ] := by
  have hne : frobenius T inv (elems.map χ) ≠ 1 := by
    rcases hf with hf | hf
    · rw [frobenius_eq hT hall hinv χ 0 (by rw [hf]; simp)]; decide
    · rw [frobenius_eq hT hall hinv χ (-1) (by rw [hf]; simp)]; decide
  have : irrepOf T inv real cplx (elems.map χ) = irrepOf T inv real' cplx (elems.map χ) := by
    unfold irrepOf
    simp only [if_neg hne]
  unfold irrepMatrices
  rw [this]
  rfl

/-! ### the group with two elements -/

/-- `1/√2`. -/
noncomputable def z2r : ℝ := Real.sqrt 2 / 2

theorem z2r_pos : 0 < z2r := by unfold z2r; positivity

theorem z2r_sq : z2r * z2r = 1 / 2 := by
  have := Real.mul_self_sqrt (show (0 : ℝ) ≤ 2 by norm_num)
  unfold z2r
  linarith

/-- eigenvectors for the group with two elements. -/
noncomputable def z2eig : Eigen where
  ev i := if i = 0 then 4 else 8
  v g j := if g = 1 ∧ j = 0 then -(z2r : ℂ) else (z2r : ℂ)
  s g := if g = 0 then 1 else 0

theorem z2_eigh : IsEigh 2 (invariantMatrix [[0, 1], [1, 0]] [0, 1] fun i => if i = 0 then 3 else 1) z2eig.ev z2eig.v := by
  have hs : (z2r : ℂ) * (z2r : ℂ) = 1 / 2 := by
    rw [← Complex.ofReal_mul, z2r_sq]
    norm_num
  have hM : ∀ g < 2, ∀ h < 2, invariantMatrix [[0, 1], [1, 0]] [0, 1] (fun i => if i = 0 then 3 else 1) g h =
      if g = h then 6 else 2 := by
    intro g hg h hh
    interval_cases g <;> interval_cases h <;>
      simp [invariantMatrix, invertedTable, trueTable, entry, map_ofNat] <;> norm_num
  refine ⟨?_, ?_, ?_⟩
  · intro i j hij hj
    simp only [z2eig]
    interval_cases j <;> interval_cases i <;> norm_num
  · intro j hj g hg
    rw [sum_range_succ, sum_range_one, hM g hg 0 (by omega), hM g hg 1 (by omega)]
    simp only [z2eig]
    interval_cases j <;> interval_cases g <;> norm_num <;> ring
  · intro i hi j hj
    rw [sum_range_succ, sum_range_one]
    simp only [z2eig]
    interval_cases i <;> interval_cases j <;> simp [Complex.conj_ofReal] <;> linear_combination 2 * hs

theorem z2_limits : limits 2 z2eig.ev = [(0, 1), (1, 2)] := by
  have hs := startingIdx_sorted 2 z2eig.ev z2_eigh.mono
  have hm : ∀ i, i ∈ startingIdx 2 z2eig.ev ↔ i ∈ [0, 1] := by
    intro i
    constructor
    · intro h
      have := (startingIdx_first 2 _ i h).1
      have : i = 0 ∨ i = 1 := by omega
      simpa using this
    · intro h
      have hi : i = 0 ∨ i = 1 := by simpa using h
      unfold startingIdx
      rw [mem_uniqueIndex]
      refine ⟨by simp; omega, fun j hj heq => ?_⟩
      have hi1 : i = 1 := by omega
      have hj0 : j = 0 := by omega
      subst hi1 hj0
      have h1 : Lat.comparable (z2eig.ev 0) = Lat.comparable (z2eig.ev 1) := by simpa using heq
      have h2 := comparable_eq _ _ h1
      simp only [z2eig] at h2
      norm_num at h2
  have : startingIdx 2 z2eig.ev = [0, 1] :=
    List.Perm.eq_of_pairwise (le := (· < ·)) (fun a b _ _ h1 h2 => absurd h1 (by omega)) hs (by decide)
      ((List.perm_ext_iff_of_nodup (hs.imp fun h => by omega) (by decide)).2 hm)
  unfold limits
  rw [this]
  rfl

theorem z2_proj (c : ℂ) (j : Nat) : projOf [[0, 1], [1, 0]] [0, 1] z2eig.s [1, c] (fun g => z2eig.v g j) =
    z2eig.v 0 j + (starRingEnd ℂ) c * z2eig.v 1 j := by
  unfold projOf
  simp [sum_range_succ, invertedTable, trueTable, entry, z2eig]

/-- both lists of matrices of the group with two elements are found, and are of size one. -/
theorem z2_matrices : ∃ D D', irrepMatrices [[0, 1], [1, 0]] [0, 1] z2eig z2eig [[1, 1], [1, -1]] = .ok [D, D'] ∧
    D.dim = 1 ∧ D'.dim = 1 := by
  have hr := z2r_pos
  have hn : ‖(z2r : ℂ) + z2r‖ = 2 * z2r := by
    rw [← Complex.ofReal_add, Complex.norm_real, Real.norm_eq_abs, abs_of_pos (by linarith)]
    ring
  have hbig : (1 : ℝ) / 10 ^ 8 < 2 * z2r := by nlinarith [z2r_sq]
  have h1 : firstSpace [[0, 1], [1, 0]] [0, 1] z2eig [1, 1] = .ok (1, 2) := by
    unfold firstSpace
    have hT : ([[0, 1], [1, 0]] : List (List Nat)).length = 2 := rfl
    rw [hT, z2_limits]
    have ha : ¬¬‖projOf [[0, 1], [1, 0]] [0, 1] z2eig.s [1, 1] fun g => z2eig.v g 0‖ ≤ 1 / 10 ^ 8 := by
      rw [z2_proj]
      simp [z2eig]
    have hb : ¬‖projOf [[0, 1], [1, 0]] [0, 1] z2eig.s [1, 1] fun g => z2eig.v g 1‖ ≤ 1 / 10 ^ 8 := by
      rw [z2_proj]
      simp only [z2eig, map_one, one_mul]
      norm_num
      rw [hn]
      linarith
    rw [List.filter_cons_of_neg (by simpa using ha), List.filter_cons_of_pos (by simpa using hb)]
  have h2 : firstSpace [[0, 1], [1, 0]] [0, 1] z2eig [1, -1] = .ok (0, 1) := by
    unfold firstSpace
    have hT : ([[0, 1], [1, 0]] : List (List Nat)).length = 2 := rfl
    rw [hT, z2_limits]
    have hb : ¬‖projOf [[0, 1], [1, 0]] [0, 1] z2eig.s [1, -1] fun g => z2eig.v g 0‖ ≤ 1 / 10 ^ 8 := by
      rw [z2_proj]
      simp only [z2eig, map_neg, map_one, neg_mul, one_mul]
      norm_num
      rw [hn]
      linarith
    rw [List.filter_cons_of_pos (by simpa using hb)]
  have h3 : ∀ chi b, firstSpace [[0, 1], [1, 0]] [0, 1] z2eig chi = .ok b →
      irrepOf [[0, 1], [1, 0]] [0, 1] z2eig z2eig chi = .ok ⟨b.2 - b.1, irrepEntry [[0, 1], [1, 0]] [0, 1] z2eig.v b.1⟩ := by
    intro chi b hb
    unfold irrepOf
    simp only [ite_self, hb]
  refine ⟨⟨2 - 1, irrepEntry [[0, 1], [1, 0]] [0, 1] z2eig.v 1⟩, ⟨1 - 0, irrepEntry [[0, 1], [1, 0]] [0, 1] z2eig.v 0⟩, ?_, rfl, rfl⟩
  unfold irrepMatrices
  rw [h3 _ _ h1]
  unfold irrepMatrices
  rw [h3 _ _ h2]
  unfold irrepMatrices
  rfl

/-- one-dimensional characters are irreducible. -/
theorem irr_hom (φ : G → ℂ) (h1 : φ 1 = 1) (hm : ∀ g h, φ (g * h) = φ g * φ h) (hn : ∀ g, ‖φ g‖ = 1) : IsIrrChar φ := by
  have hs : Spherical φ := ⟨h1, fun r g => by
    have : ∀ h, φ (r * (h * g * h⁻¹)) = φ r * φ g := by
      intro h
      have h2 : φ h * φ h⁻¹ = 1 := by rw [← hm, mul_inv_cancel, h1]
      rw [hm, hm, hm]
      linear_combination φ r * φ g * h2
    simp only [this, sum_const, card_univ, nsmul_eq_mul]⟩
  obtain ⟨d, χ, hd, hχ, hdχ⟩ := hs.irrChar
  obtain ⟨e, he, he1, hnn, -⟩ := hχ.facts
  have : χ = φ := by
    have h0 : ∀ g, χ g * (starRingEnd ℂ) (χ g) = (d : ℂ) * d := by
      intro g
      have h2 : φ g * (starRingEnd ℂ) (φ g) = 1 := by rw [Complex.mul_conj, Complex.normSq_eq_norm_sq, hn]; simp
      rw [hdχ, map_mul, map_natCast]
      linear_combination (d : ℂ) * d * h2
    simp only [h0, sum_const, card_univ, nsmul_eq_mul] at hnn
    have h1 : (Fintype.card G : ℂ) * ((d : ℂ) * d) = Fintype.card G * 1 := by rw [hnn, mul_one]
    have h2 := mul_left_cancel₀ card_ne h1
    have h3 : d * d = 1 := by exact_mod_cast h2
    have h4 : d = 1 := Nat.eq_one_of_mul_eq_one_left h3
    funext g
    rw [hdχ, h4]
    simp
  rw [← this]
  exact hχ

/-- The hypotheses of C152 hold for the group with two elements. -/
example : ∃ (elems : List (Multiplicative (ZMod 2))) (T : List (List Nat)) (inv : List Nat) (E : Eigen) (e : Nat → ℂ)
    (chars : List (Multiplicative (ZMod 2) → ℂ)) (Ds : List Irrep), IsTable elems T ∧ (∀ g, g ∈ elems) ∧ IsInv elems inv ∧
    IsEigh T.length (invariantMatrix T inv e) E.ev E.v ∧ (∀ g j, (E.v g j).im = 0) ∧ (∀ χ ∈ chars, IsIrrChar χ) ∧ chars.length = 2 ∧
    irrepMatrices T inv E E (chars.map fun χ => elems.map χ) = .ok Ds ∧ (∀ D ∈ Ds, D.dim = 1) ∧ ∀ χ ∈ chars, χ 1 = 1 := by
  obtain ⟨D, D', h, h1, h2⟩ := z2_matrices
  refine ⟨[1, Multiplicative.ofAdd 1], [[0, 1], [1, 0]], [0, 1], z2eig, _, [fun _ => 1, fun g => if g = 1 then 1 else -1], [D, D'],
    ?_, by decide, ?_, z2_eigh, ?_, ?_, rfl, ?_, ?_, ?_⟩
  · refine ⟨by decide, rfl, ?_⟩
    intro i j g k hi hj
    have hi' : i = 0 ∨ i = 1 := by have := (List.getElem?_eq_some_iff.1 hi).1; simp at this; omega
    have hj' : j = 0 ∨ j = 1 := by have := (List.getElem?_eq_some_iff.1 hj).1; simp at this; omega
    rcases hi' with rfl | rfl <;> rcases hj' with rfl | rfl <;> simp at hi hj <;> subst hi hj
    · exact ⟨_, _, rfl, rfl, rfl⟩
    · exact ⟨_, _, rfl, rfl, rfl⟩
    · exact ⟨_, _, rfl, rfl, rfl⟩
    · exact ⟨_, _, rfl, rfl, rfl⟩
  · intro i g hi
    have hi' : i = 0 ∨ i = 1 := by have := (List.getElem?_eq_some_iff.1 hi).1; simp at this; omega
    rcases hi' with rfl | rfl <;> simp at hi <;> subst hi
    · exact ⟨0, rfl, rfl⟩
    · exact ⟨1, rfl, rfl⟩
  · intro g j
    simp only [z2eig]
    split <;> simp
  · intro χ hχ
    simp only [List.mem_cons, List.not_mem_nil, or_false] at hχ
    rcases hχ with rfl | rfl
    · exact irr_one
    · have hd : ∀ g h : Multiplicative (ZMod 2), (g * h = 1) ↔ ((g = 1) ↔ (h = 1)) := by decide
      refine irr_hom _ (by simp) ?_ ?_
      · intro g h
        simp only [hd]
        by_cases hg : g = 1 <;> by_cases hh : h = 1 <;> simp [hg, hh]
      · intro g
        split <;> simp
  · simpa using h
  · intro D₀ hD₀
    simp only [List.mem_cons, List.not_mem_nil, or_false] at hD₀
    rcases hD₀ with rfl | rfl
    · exact h1
    · exact h2
  · intro χ hχ
    simp only [List.mem_cons, List.not_mem_nil, or_false] at hχ
    rcases hχ with rfl | rfl <;> simp

end Verif.CharTab

import Verif.Model.Padded
import Verif.Props.LocalValues
import Verif.Props.Bose
import Verif.Props.Ising
import Verif.Props.PauliStrings
import Verif.Props.Gradient

/-! C187, C188: padded connected elements, numbers of connected elements, derivatives of local values for jax machines, sums of `BoseHubbard` operators. -/

set_option linter.unusedSectionVars false
set_option linter.unusedVariables false

namespace Verif.Padded
open Verif.Hilbert (Err)
open Verif.LocalOp Verif.Ham

/-! ## Padding -/

/-- what `get_conn_padded` is documented to return for the batch `xs`: a row for every configuration, all rows of the same length, each the connected elements of its
    configuration followed by matrix elements zero. -/
def PadsTo {A X K : Type} [Zero K] (conn : A → List (X × K)) (xs : List A) (rows : List (List (X × K))) : Prop :=
  ∃ M, List.Forall₂ (fun x r => r.length = M ∧ ∃ pad, r = conn x ++ pad ∧ ∀ p ∈ pad, p.2 = 0) xs rows

theorem pieces_eq {β : Type} (n k : Nat) : ∀ l : List β, Stats.pieces n k l = LocalOp.pieces l n k := by
  induction k with
  | zero => intro l; rfl
  | succ k ih =>
    intro l
    unfold Stats.pieces at ih ⊢
    rw [List.range_succ_eq_map, List.map_cons, LocalOp.pieces, ← ih (l.drop n), List.map_map]
    congr 1
    · simp
    · refine List.map_congr_left fun i _ => ?_
      simp only [Function.comp, Nat.succ_eq_add_one]
      rw [List.drop_drop]
      congr 2
      ring

theorem flatMap_len {A β : Type} (row : A → List β) (M : Nat) (xs : List A) (h : ∀ x ∈ xs, (row x).length = M) : (xs.flatMap row).length = xs.length * M := by
  induction xs with
  | nil => simp
  | cons x xs ih =>
    rw [List.flatMap_cons, List.length_append, h x (by simp), ih fun y hy => h y (by simp [hy]), List.length_cons]
    ring

theorem padded_rows {A X K : Type} (nv M : Nat) (hM : M * nv ≠ 0) (row : A → List (X × K)) (xs : List A) (hne : xs ≠ []) (h : ∀ x ∈ xs, (row x).length = M) :
    connPadded nv (xs.flatMap row) ((List.range xs.length).map fun b => (b + 1) * M) = .ok (xs.map row) := by
  have hl := flatMap_len row M xs h
  have hM0 : 0 < M := Nat.pos_of_ne_zero fun h => hM (by simp [h])
  cases xs with
  | nil => exact absurd rfl hne
  | cons x t =>
    have : (List.range (x :: t).length).map (fun b => (b + 1) * M) = M :: (List.range t.length).map fun b => (b + 2) * M := by
      rw [List.length_cons, List.range_succ_eq_map, List.map_cons, List.map_map]
      simp [Function.comp_def]
    rw [this]
    unfold connPadded
    dsimp only
    rw [if_neg hM, hl, if_neg (by simp), Nat.mul_div_cancel _ hM0, pieces_eq, LocalOp.pieces_flatMap _ _ _ h]

theorem totals_const {A : Type} (M : Nat) : ∀ (l : List A) (low : Nat), runningTotals low (l.map fun _ => M) = (List.range l.length).map fun b => low + (b + 1) * M
  | [], low => rfl
  | x :: l, low => by
    rw [List.map_cons, runningTotals, totals_const M l, List.length_cons, List.range_succ_eq_map, List.map_cons, List.map_map]
    congr 1
    · ring
    · refine List.map_congr_left fun b _ => ?_
      simp only [Function.comp, Nat.succ_eq_add_one]
      ring

/-- C187: `n_conn` of operators without their own: the lengths of the rows. -/
theorem C187_n_conn {A K : Type} (row : A → List (A × K)) (xs : List A) : nConn (runningTotals 0 (xs.map fun x => (row x).length)) = xs.map fun x => (row x).length := by
  have : ∀ (l : List Nat) (low : Nat), nConnLoop low (runningTotals low l) = l := by
    intro l
    induction l with
    | nil => intro low; rfl
    | cons n l ih => intro low; simp only [runningTotals, nConnLoop, ih]; simp
  exact this _ 0

theorem padsTo_map {A X K : Type} [Zero K] (conn row : A → List (X × K)) (M : Nat) (xs : List A) (h : ∀ x ∈ xs, (row x).length = M)
    (hp : ∀ x ∈ xs, ∃ pad, row x = conn x ++ pad ∧ ∀ p ∈ pad, p.2 = 0) : PadsTo conn xs (xs.map row) := by
  refine ⟨M, ?_⟩
  rw [List.forall₂_map_right_iff, List.forall₂_same]
  exact fun x hx => ⟨h x hx, hp x hx⟩

section
variable {N : Nat} {α : Type} [LinearOrder α] [Inhabited α] {K : Type} [CommRing K] [DecidableEq K] {hi : Fin N → List α} {cut : Cutoff K}

theorem local_rows [Star K] (hid : Ideal cut) (hs : SortedSpace hi) (op : LOp K α N) (h : Built cut hi op) (gm gm' : Nat → K) (gx gx' : Nat → Fin N → α)
    (xs : List (Fin N → α)) (hx : ∀ x ∈ xs, Valid hi x) :
    ∃ M, (connFlattenedPad hi op gm gx xs).2 = (List.range xs.length).map (fun b => (b + 1) * M)
      ∧ (∀ x ∈ xs, (getConn hi op gm' gx' x).length ≤ M) ∧ (M ≠ 0 → ∃ x ∈ xs, getConn hi op gm' gx' x ≠ [])
      ∧ (connFlattenedPad hi op gm gx xs).1.xp.zip (connFlattenedPad hi op gm gx xs).1.mels
        = xs.flatMap fun x => getConn hi op gm' gx' x ++ List.replicate (M - (getConn hi op gm' gx' x).length) (x, 0) := by
  have hg := h.good hid hs
  have hlen : ∀ x ∈ xs, (getConn hi op gm' gx' x).length = connCount hi op x := by
    intro x hxx
    rw [getConn_eq hs op hg.ok gm' gx' x (hx x hxx)]
    simp [toPairs, length_rowEntries]
  have key : ∀ (l : List Nat) (b a : Nat), (a ∈ l ∨ a ≤ b) → a ≤ l.foldl max b := by
    intro l
    induction l with
    | nil => intro b a h; rcases h with h | h; · simp at h
             · exact h
    | cons n l ih =>
      intro b a h
      apply ih
      rcases h with h | h
      · rcases List.mem_cons.1 h with rfl | h
        · exact Or.inr (le_max_right _ _)
        · exact Or.inl h
      · exact Or.inr (le_trans h (le_max_left _ _))
  have key2 : ∀ (l : List Nat) (b : Nat), l.foldl max b ≠ 0 → b ≠ 0 ∨ ∃ a ∈ l, a ≠ 0 := by
    intro l
    induction l with
    | nil => intro b h; exact Or.inl h
    | cons n l ih =>
      intro b h
      rcases ih _ h with h | ⟨a, ha, h⟩
      · by_cases hb : b = 0
        · right
          refine ⟨n, by simp, ?_⟩
          subst hb
          simpa using h
        · exact Or.inl hb
      · exact Or.inr ⟨a, by simp [ha], h⟩
  have hM : ∀ x ∈ xs, connCount hi op x ≤ (xs.map (connCount hi op)).foldl max 0 :=
    fun x hxx => key _ 0 _ (Or.inl (List.mem_map.2 ⟨x, hxx, rfl⟩))
  have he := connFlattenedPad_eq (hi := hi) op gm gx xs (fun x hxx => hg.ok.diagOK hs x (hx x hxx)) _ rfl hM
  refine ⟨(xs.map (connCount hi op)).foldl max 0, rfl, fun x hxx => by rw [hlen x hxx]; exact hM x hxx, ?_, ?_⟩
  · intro h0
    rcases key2 _ _ h0 with h | ⟨a, ha, h⟩
    · exact absurd rfl h
    · obtain ⟨x, hxx, rfl⟩ := List.mem_map.1 ha
      refine ⟨x, hxx, fun h2 => h ?_⟩
      rw [← hlen x hxx, h2]
      rfl
  · rw [he.1, he.2, toPairs_zip]
    have e1 : toPairs (xs.flatMap fun x => rowEntries hi op x ++ List.replicate ((xs.map (connCount hi op)).foldl max 0 - connCount hi op x) (0, x))
        = xs.flatMap fun x => toPairs (rowEntries hi op x ++ List.replicate ((xs.map (connCount hi op)).foldl max 0 - connCount hi op x) (0, x)) := by
      simp [toPairs, List.map_flatMap]
    rw [e1]
    generalize (xs.map (connCount hi op)).foldl max 0 = M at *
    rw [List.flatMap, List.flatMap]
    congr 1
    refine List.map_congr_left fun x hxx => ?_
    rw [hlen x hxx, getConn_eq hs op hg.ok gm' gx' x (hx x hxx)]
    simp [toPairs]

/-- C187: `LocalOperator.get_conn_padded`, for a batch in which some configuration has a connected element. -/
theorem C187_local_operator [Star K] (hN : N ≠ 0) (hid : Ideal cut) (hs : SortedSpace hi) (op : LOp K α N) (h : Built cut hi op) (gm gm' : Nat → K)
    (gx gx' : Nat → Fin N → α) (xs : List (Fin N → α)) (hx : ∀ x ∈ xs, Valid hi x) (hc : ∃ x ∈ xs, getConn hi op gm' gx' x ≠ []) :
    ∃ rows, localPadded hi op gm gx xs = .ok rows ∧ PadsTo (getConn hi op gm' gx') xs rows := by
  obtain ⟨M, h1, h2, -, h4⟩ := local_rows hid hs op h gm gm' gx gx' xs hx
  have hlen : ∀ x ∈ xs, (getConn hi op gm' gx' x ++ List.replicate (M - (getConn hi op gm' gx' x).length) (x, (0 : K))).length = M := by
    intro x hxx
    have := h2 x hxx
    rw [List.length_append, List.length_replicate]
    omega
  obtain ⟨x, hxx, hx0⟩ := hc
  have hM : M ≠ 0 := by
    have := h2 x hxx
    have := List.length_pos_iff.2 hx0
    omega
  have hne : xs ≠ [] := by
    rintro rfl
    simp at hxx
  refine ⟨_, ?_, padsTo_map (getConn hi op gm' gx') _ M xs hlen fun x _ => ⟨_, rfl, fun p hp => by rw [List.eq_of_mem_replicate hp]⟩⟩
  unfold localPadded
  dsimp only
  rw [h4, h1]
  exact padded_rows N M (Nat.mul_ne_zero hM hN) _ xs hne hlen

/-- C188: no connected elements at all, as for the zero operator: a ValueError instead of rows of length zero. An empty batch is an IndexError. -/
theorem C188_zero_operator_refuted [Star K] (hid : Ideal cut) (hs : SortedSpace hi) (op : LOp K α N) (h : Built cut hi op) (gm gm' : Nat → K)
    (gx gx' : Nat → Fin N → α) (xs : List (Fin N → α)) (hx : ∀ x ∈ xs, Valid hi x) :
    (xs ≠ [] → (∀ x ∈ xs, getConn hi op gm' gx' x = []) → localPadded hi op gm gx xs = .error .valueError)
    ∧ (xs = [] → localPadded hi op gm gx xs = .error .indexError) := by
  obtain ⟨M, h1, -, h3, h4⟩ := local_rows hid hs op h gm gm' gx gx' xs hx
  refine ⟨fun hne h0 => ?_, fun h0 => ?_⟩
  · have hM : M = 0 := by
      by_contra hM
      obtain ⟨x, hxx, hh⟩ := h3 hM
      exact hh (h0 x hxx)
    unfold localPadded
    dsimp only
    rw [h1, hM]
    cases xs with
    | nil => exact absurd rfl hne
    | cons x t =>
      simp [connPadded, List.range_succ_eq_map]
  · subst h0
    unfold localPadded
    dsimp only
    rw [h1]
    rfl

/-- C187: `Ising.get_conn_padded`: nothing is added. -/
theorem C187_ising (hN : N ≠ 0) (op : Ising K N) (xs : List (Fin N → ℤ)) (hne : xs ≠ []) : isingPadded op xs = .ok (xs.map op.row) := by
  unfold isingPadded
  have e := op.flattened_eq xs
  have hl : ∀ x ∈ xs, (op.row x).length = N + 1 := fun x _ => by simp [Ising.row]
  rw [e]
  dsimp only
  have e3 : (xs.map fun x => (op.row x).length) = xs.map fun _ => N + 1 := List.map_congr_left hl
  rw [e3, totals_const]
  simp only [Nat.zero_add]
  exact padded_rows N (N + 1) (Nat.mul_ne_zero (by omega) hN) _ xs hne hl

/-- C187: `BoseHubbard.get_conn_padded`. -/
theorem C187_bose (hN : N ≠ 0) (R : Roots K) (op : Bose K N) (xs : List (Fin N → ℕ)) (hne : xs ≠ []) :
    ∃ rows, bosePadded R op xs = .ok rows ∧ PadsTo (op.getConn R) xs rows := by
  obtain ⟨h1, rows, h2, h3, h4, h5⟩ := C17_bose_padding R op xs
  have hM : op.maxConn ≠ 0 := by unfold Bose.maxConn; omega
  refine ⟨rows, ?_, op.maxConn, ?_⟩
  · unfold bosePadded
    rw [h1, h2, ← h3]
    have := padded_rows N op.maxConn (Nat.mul_ne_zero hM hN) (fun r => r) rows (by rintro rfl; exact hne (List.length_eq_zero_iff.1 h3.symm)) h4
    rw [List.flatMap_id', List.map_id'] at this
    exact this
  · rw [List.forall₂_iff_get]
    refine ⟨h3.symm, fun i hi1 hi2 => ?_⟩
    refine ⟨h4 _ (List.get_mem _ _), ?_⟩
    exact h5 i _ _ (by simp [List.getElem?_eq_getElem hi2]) (by simp [List.getElem?_eq_getElem hi1])

/-- C187: `n_conn` of `BoseHubbard`. -/
theorem C187_bose_n_conn (R : Roots K) (op : Bose K N) (xs : List (Fin N → ℕ)) : nConn (op.flattened R xs).2 = xs.map fun x => (op.getConn R x).length := by
  have h := foldl_rows (op.row R) xs [] []
  simp only [List.nil_append, List.length_nil] at h
  have e : op.flattened R xs = (xs.flatMap (op.row R), runningTotals 0 (xs.map fun x => (op.row R x).length)) := h
  rw [e]
  dsimp only
  rw [C187_n_conn]
  exact List.map_congr_left fun x _ => by rw [C22_get_conn_is_kernel]

/-- C187: `n_conn` of a `LocalOperator`. -/
theorem C187_local_n_conn [Star K] (hid : Ideal cut) (hs : SortedSpace hi) (op : LOp K α N) (h : Built cut hi op) (gm gm' : Nat → K)
    (gx gx' : Nat → Fin N → α) (xs : List (Fin N → α)) (hx : ∀ x ∈ xs, Valid hi x) :
    nConn (connFlattened hi op gm gx xs).2 = xs.map fun x => (getConn hi op gm' gx' x).length := by
  rw [← C18_n_conn hid hs op h gm gm' gx gx' xs hx]
  unfold nConn
  generalize (connFlattened hi op gm gx xs).2 = l
  generalize 0 = low
  induction l generalizing low with
  | nil => rfl
  | cons s l ih => simp only [nConnLoop, nConnFromSections, ih]

/-- C187: sums and differences of two `BoseHubbard` operators on the same graph and space. -/
theorem C187_bose_sum (R : Roots K) (a b : Bose K N) (he : a.edges = b.edges) (hm : a.nMax = b.nMax) (hn : nodesOfEdges a.edges = N)
    (hne : ∀ e ∈ a.edges, e.1 ≠ e.2) :
    (∃ r, boseAdd a b = .ok r ∧ ∀ x x', InFock a.nMax x' → melAt (r.row R x) x' = melAt (a.row R x) x' + melAt (b.row R x) x')
    ∧ ∃ r, boseSub a b = .ok r ∧ ∀ x x', InFock a.nMax x' → melAt (r.row R x) x' = melAt (a.row R x) x' - melAt (b.row R x) x' := by
  have hc : boseCopy a = .ok a := by unfold boseCopy; rw [if_pos hn]
  have hb : ∀ e ∈ b.edges, e.1 ≠ e.2 := by rw [← he]; exact hne
  have mulsum : ∀ (W W' : K) (s : Fin N → K) (t : Fin N → K) (m m' : K), ∑ i, ((W + W') * s i - (m + m') * t i) = ∑ i, (W * s i - m * t i) + ∑ i, (W' * s i - m' * t i) := by
    intro W W' s t m m'
    rw [← Finset.sum_add_distrib]
    exact Finset.sum_congr rfl fun i _ => by ring
  have subsum : ∀ (W W' : K) (s : Fin N → K) (t : Fin N → K) (m m' : K), ∑ i, ((W - W') * s i - (m - m') * t i) = ∑ i, (W * s i - m * t i) - ∑ i, (W' * s i - m' * t i) := by
    intro W W' s t m m'
    rw [← Finset.sum_sub_distrib]
    exact Finset.sum_congr rfl fun i _ => by ring
  refine ⟨⟨boseIadd a b, by simp [boseAdd, hc], fun x x' hx' => ?_⟩, ⟨boseIsub a b, by simp [boseSub, hc], fun x x' hx' => ?_⟩⟩
  · rw [C22_get_conn R a hne x x' hx', C22_get_conn R b hb x x' (hm ▸ hx'), C22_get_conn R (boseIadd a b) hne x x' hx']
    unfold boseMatrix boseIadd
    dsimp only
    rw [← he, mul_add, mulsum]
    split_ifs <;> ring
  · rw [C22_get_conn R a hne x x' hx', C22_get_conn R b hb x x' (hm ▸ hx'), C22_get_conn R (boseIsub a b) hne x x' hx']
    unfold boseMatrix boseIsub
    dsimp only
    rw [← he, mul_sub, subsum]
    split_ifs <;> ring

end

/-- C187: `PauliStrings.get_conn_padded` and `n_conn`. -/
theorem C187_pauli {K : Type} [CommRing K] (sc : Pauli.Scalars K) (op : Pauli.PauliOp K) (hn : op.n ≠ 0) (hg : op.groups ≠ []) (xs : List (Fin op.n → ℤ)) (hne : xs ≠ []) :
    (∃ rows, pauliPadded sc op xs = .ok rows ∧ PadsTo (Pauli.rowConn sc op.groups) xs rows)
    ∧ nConn (Pauli.flattened sc op xs).2 = xs.map fun x => (Pauli.rowConn sc op.groups x).length := by
  constructor
  · let prow := fun x => Pauli.rowConn sc op.groups x ++ List.replicate (Pauli.maxConn op - (Pauli.rowConn sc op.groups x).length) ((fun _ => 0 : Fin op.n → ℤ), (0 : K))
    have hlen : ∀ x, (prow x).length = Pauli.maxConn op := by
      intro x
      have : (Pauli.rowConn sc op.groups x).length ≤ Pauli.maxConn op := List.length_filterMap_le _ _
      simp only [prow, List.length_append, List.length_replicate]
      omega
    have h := foldl_rows prow xs [] []
    simp only [List.nil_append, List.length_nil] at h
    have e : Pauli.flattenedPad sc op xs = (xs.flatMap prow, runningTotals 0 (xs.map fun x => (prow x).length)) := by
      rw [← h]
      unfold Pauli.flattenedPad
      congr 1
      funext out x
      simp [prow, List.append_assoc]
    have e3 : (xs.map fun x => (prow x).length) = xs.map fun _ => Pauli.maxConn op := List.map_congr_left fun x _ => hlen x
    have hM : Pauli.maxConn op ≠ 0 := by
      have := List.length_pos_iff.2 hg
      unfold Pauli.maxConn
      omega
    refine ⟨xs.map prow, ?_, padsTo_map _ prow (Pauli.maxConn op) xs (fun x _ => hlen x) fun x _ => ⟨_, rfl, fun p hp => by rw [List.eq_of_mem_replicate hp]⟩⟩
    unfold pauliPadded
    rw [e]
    dsimp only
    rw [e3, totals_const]
    simp only [Nat.zero_add]
    exact padded_rows op.n (Pauli.maxConn op) (Nat.mul_ne_zero hM hn) prow xs hne fun x _ => hlen x
  · rw [Pauli.flattened_eq]
    dsimp only
    rw [List.map_map]
    exact C187_n_conn (Pauli.rowConn sc op.groups) xs

/-! ## Local values and their derivatives -/

theorem rowCost_eq {X : Type} (logpsi : X → ℂ) (row : List (X × ℂ)) (v : X) :
    rowCost logpsi row v = (row.map fun p => p.2 * Complex.exp (logpsi p.1 - logpsi v)).sum := by
  unfold rowCost LocalValues.localValueCost
  congr 1
  apply List.ext_getElem <;> simp

theorem opOp_eq {X : Type} (logrho : X → X → ℂ) (row : List (X × ℂ)) (v : X) :
    opOpCost logrho row v = (row.map fun p => p.2 * Complex.exp (logrho p.1 v - logrho v v)).sum := by
  unfold opOpCost
  congr 1
  apply List.ext_getElem <;> simp

theorem sum_pad {X : Type} (conn pad : List (X × ℂ)) (F : X → ℂ) (h : ∀ p ∈ pad, p.2 = 0) :
    ((conn ++ pad).map fun p => p.2 * F p.1).sum = (conn.map fun p => p.2 * F p.1).sum := by
  rw [List.map_append, List.sum_append]
  have : (pad.map fun p => p.2 * F p.1).sum = 0 := by
    apply List.sum_eq_zero
    intro z hz
    obtain ⟨p, hp, rfl⟩ := List.mem_map.1 hz
    rw [h p hp, zero_mul]
  rw [this, add_zero]

section
variable {N : Nat} {α : Type} [LinearOrder α] [Inhabited α] {hi : Fin N → List α} {cut : Cutoff ℂ}

theorem conn_sum (hid : Ideal cut) (hs : SortedSpace hi) (op : LOp ℂ α N) (h : Built cut hi op) (gm : Nat → ℂ) (gx : Nat → Fin N → α) (x : Fin N → α) (hx : Valid hi x)
    (F : (Fin N → α) → ℂ) : ((getConn hi op gm gx x).map fun p => p.2 * F p.1).sum = ∑ x' ∈ basisStates hi, matrixOf hi op x x' * F x' := by
  rw [LocalValues.sum_melAt _ (C10_connected_valid hid hs op h gm gx x hx) F]
  refine Finset.sum_congr rfl fun x' hx' => ?_
  rw [C10_get_conn_reachable hid hs op h gm gx x x' hx ((LocalValues.mem_basis _).1 hx')]

/-- C187: the local values computed from padded rows are ⟨x|O|ψ⟩/⟨x|ψ⟩, and for density matrices ⟨x|Oρ|x⟩/⟨x|ρ|x⟩. -/
theorem C187_padded_values (hid : Ideal cut) (hs : SortedSpace hi) (op : LOp ℂ α N) (h : Built cut hi op) (gm : Nat → ℂ) (gx : Nat → Fin N → α)
    (logpsi : (Fin N → α) → ℂ) (logrho : (Fin N → α) → (Fin N → α) → ℂ) (x : Fin N → α) (hx : Valid hi x) (pad : List ((Fin N → α) × ℂ)) (hp : ∀ p ∈ pad, p.2 = 0) :
    rowCost logpsi (getConn hi op gm gx x ++ pad) x = (∑ x' ∈ basisStates hi, matrixOf hi op x x' * Complex.exp (logpsi x')) / Complex.exp (logpsi x)
    ∧ opOpCost logrho (getConn hi op gm gx x ++ pad) x
      = (∑ x' ∈ basisStates hi, matrixOf hi op x x' * Complex.exp (logrho x' x)) / Complex.exp (logrho x x) := by
  constructor
  · rw [rowCost_eq, sum_pad _ _ (fun y => Complex.exp (logpsi y - logpsi x)) hp, conn_sum hid hs op h gm gx x hx fun y => Complex.exp (logpsi y - logpsi x), Finset.sum_div]
    refine Finset.sum_congr rfl fun x' _ => ?_
    rw [Complex.exp_sub, mul_div_assoc]
  · rw [opOp_eq, sum_pad _ _ (fun y => Complex.exp (logrho y x - logrho x x)) hp, conn_sum hid hs op h gm gx x hx fun y => Complex.exp (logrho y x - logrho x x), Finset.sum_div]
    refine Finset.sum_congr rfl fun x' _ => ?_
    rw [Complex.exp_sub, mul_div_assoc]

end

/-- the derivative of a local value, in terms of the derivatives of the log-amplitude. -/
noncomputable def rowDer {X : Type} (logval der : X → ℂ) (row : List (X × ℂ)) (v : X) : ℂ :=
  (row.map fun p => p.2 * (Complex.exp (logval p.1 - logval v) * (der p.1 - der v))).sum

theorem hasDerivAt_row {𝕜 X : Type} [NontriviallyNormedField 𝕜] [NormedAlgebra 𝕜 ℂ] (logpsi : 𝕜 → X → ℂ) (w : 𝕜) (der : X → ℂ)
    (hd : ∀ x, HasDerivAt (fun t => logpsi t x) (der x) w) (v : X) : ∀ row : List (X × ℂ),
    HasDerivAt (fun t => rowCost (logpsi t) row v) (rowDer (logpsi w) der row v) w
  | [] => by
    simp only [rowCost_eq, rowDer, List.map_nil, List.sum_nil]
    exact hasDerivAt_const _ _
  | p :: row => by
    have ih := hasDerivAt_row logpsi w der hd v row
    simp only [rowCost_eq, rowDer, List.map_cons, List.sum_cons] at ih ⊢
    exact ((((hd p.1).sub (hd v)).cexp).const_mul _).add ih

theorem collect_ok {A B : Type} (f : A → B) : ∀ l : List A, collect (l.map fun a => (.ok (f a) : Except Err B)) = .ok (l.map f)
  | [] => rfl
  | a :: l => by simp [collect, collect_ok f l]

/-- C187: automatic differentiation of the local value for a holomorphic machine. -/
theorem rowGrad_complex {X : Type} (ty : Types) (hp : ty.pars = true) (hc : (ty.out || ty.mel) = true) (logpsi : ℂ → X → ℂ) (w : ℂ) (der : X → ℂ)
    (hd : ∀ x, HasDerivAt (fun z => logpsi z x) (der x) w) (row : List (X × ℂ)) (v : X) :
    ((rowGrad ty logpsi w row v).map fun (g : ℂ × (Unit → ℂ)) => g.2 ()) = .ok (rowDer (logpsi w) der row v) := by
  unfold rowGrad Vjp.valueAndGrad
  rw [hp, hc]
  simp only [if_true, Except.map]
  rw [(hasDerivAt_row logpsi w der hd v row).deriv]

theorem deriv_re_im (f : ℝ → ℂ) (d : ℂ) (t : ℝ) (h : HasDerivAt f d t) : deriv (fun s => (f s).re) t = d.re ∧ deriv (fun s => (f s).im) t = d.im := by
  constructor
  · exact (Complex.reCLM.hasFDerivAt.comp_hasDerivAt t h).deriv
  · exact (Complex.imCLM.hasFDerivAt.comp_hasDerivAt t h).deriv

/-- C187: automatic differentiation of the local value for real parameters; if neither the log-amplitude nor the matrix elements are complex, all of them are real. -/
theorem rowGrad_real {X : Type} (ty : Types) (hp : ty.pars = false) (logpsi : ℂ → X → ℂ) (w : ℝ) (der : X → ℂ)
    (hd : ∀ x, HasDerivAt (fun t : ℝ => logpsi t x) (der x) w) (row : List (X × ℂ)) (v : X)
    (hreal : (ty.out || ty.mel) = false → (∀ (t : ℝ) (x : X), (logpsi t x).im = 0) ∧ ∀ p ∈ row, p.2.im = 0) :
    ((rowGrad ty logpsi w row v).map fun (g : ℂ × (Unit → ℂ)) => g.2 ()) = .ok (rowDer (logpsi w) der row v) := by
  have h := hasDerivAt_row (fun t : ℝ => logpsi t) w der hd v row
  obtain ⟨h1, h2⟩ := deriv_re_im _ _ _ h
  unfold rowGrad Vjp.valueAndGrad
  rw [hp]
  simp only [Bool.false_eq_true, if_false, Complex.ofReal_re, h1, h2]
  cases hc : (ty.out || ty.mel) with
  | true =>
    simp only [if_true, Except.map]
    congr 1
    rw [mul_comm Complex.I]
    exact Complex.re_add_im _
  | false =>
    obtain ⟨r1, r2⟩ := hreal hc
    simp only [Bool.false_eq_true, if_false, Except.map]
    have h0 : (fun s : ℝ => (rowCost (logpsi s) row v).im) = fun _ => 0 := by
      funext s
      rw [rowCost_eq]
      have : ∀ l : List (X × ℂ), (∀ p ∈ l, p.2.im = 0) → ((l.map fun p => p.2 * Complex.exp (logpsi s p.1 - logpsi s v)).sum).im = 0 := by
        intro l
        induction l with
        | nil => intro _; simp
        | cons p l ih =>
          intro hl
          rw [List.map_cons, List.sum_cons, Complex.add_im, ih fun q hq => hl q (by simp [hq]), Complex.mul_im, hl p (by simp), Complex.exp_im, Complex.sub_im, r1 s, r1 s]
          simp
      exact this row r2
    have : (rowDer (logpsi w) der row v).im = 0 := by
      rw [← h2, h0]
      simp
    congr 1
    refine Complex.ext ?_ ?_
    · simp
    · simp only [Complex.ofReal_im]; exact this.symm

theorem sum_fin {X : Type} (row : List (X × ℂ)) (F : X × ℂ → ℂ) : ∑ i : Fin row.length, F (row.get i) = (row.map F).sum := by
  rw [← List.sum_ofFn]
  congr 1
  apply List.ext_getElem <;> simp

/-- C187: the derivative that is not centered, for complex log-amplitudes. -/
theorem rowNC_complex {X : Type} (ty : Types) (ho : ty.out = true) (logval der : X → ℂ) (row : List (X × ℂ)) (v : X) :
    rowNC ty logval der row v = (row.map fun p => p.2 * (Complex.exp (logval p.1 - logval v) * der p.1)).sum := by
  have hcot : ∀ p, cotangent ty logval v p = p.2 * Complex.exp (logval p.1 - logval v) := by
    intro p
    unfold cotangent
    simp only [ho, if_true, Complex.conj_conj]
  unfold rowNC
  simp only [ho, if_true, hcot]
  have e := sum_fin row fun p => p.2 * (Complex.exp (logval p.1 - logval v) * der p.1)
  rw [← e]
  cases ty.pars with
  | true =>
    simp only [if_true, Vjp.vjpCC, Vjp.vjpHol, Bool.false_eq_true, if_false, mul_assoc]
  | false =>
    simp only [Bool.false_eq_true, if_false, Vjp.vjpRC, Vjp.vjpReal]
    push_cast
    rw [Finset.mul_sum, Finset.mul_sum, ← Finset.sum_add_distrib, ← Finset.sum_add_distrib, Finset.mul_sum, ← Finset.sum_add_distrib]
    refine Finset.sum_congr rfl fun i _ => ?_
    generalize der (row.get i).1 = d
    have ha : (row.get i).2 * (Complex.exp (logval (row.get i).1 - logval v) * d) = ((row.get i).2 * Complex.exp (logval (row.get i).1 - logval v)) * d := by ring
    rw [ha]
    generalize (row.get i).2 * Complex.exp (logval (row.get i).1 - logval v) = y
    conv_rhs => rw [← Complex.re_add_im y, ← Complex.re_add_im d]
    ring

/-- C187: real log-amplitudes with weights that are real. -/
theorem rowNC_real {X : Type} (ty : Types) (ho : ty.out = false) (hp : ty.pars = false) (logval der : X → ℂ) (row : List (X × ℂ)) (v : X) :
    rowNC ty logval der row v = (row.map fun p => (((p.2 * Complex.exp (logval p.1 - logval v)).re * (der p.1).re : ℝ) : ℂ)).sum := by
  unfold rowNC
  rw [ho, hp]
  simp only [Bool.false_eq_true, if_false, Vjp.vjpReal]
  have e := sum_fin row fun p => (((p.2 * Complex.exp (logval p.1 - logval v)).re * (der p.1).re : ℝ) : ℂ)
  rw [← e]
  push_cast
  refine Finset.sum_congr rfl fun i _ => ?_
  congr 1
  unfold cotangent
  simp [ho]

section
variable {N : Nat} {α : Type} [LinearOrder α] [Inhabited α] {hi : Fin N → List α} {cut : Cutoff ℂ}

theorem zip_forall {A B : Type} (P : A → B → Prop) : ∀ (xs : List A) (rows : List B), List.Forall₂ P xs rows → ∀ (F : B × A → ℂ) (G : A → ℂ),
    (∀ x r, x ∈ xs → P x r → F (r, x) = G x) → (rows.zip xs).map F = xs.map G
  | _, _, .nil, F, G, h => rfl
  | x :: xs, r :: rows, .cons hp ht, F, G, h => by
    rw [List.zip_cons_cons, List.map_cons, List.map_cons, h x r (by simp) hp, zip_forall P xs rows ht F G fun y s hy => h y s (by simp [hy])]

/-- C187: `der_local_values_jax` returns what the version for other machines (C94) returns, the derivatives of the local values, in these cases: complex parameters
    with a complex log-amplitude or complex matrix elements and a holomorphic machine; real parameters. Without centering the log-amplitude has to be complex.
    `der` is the derivative of the log-amplitude with respect to the parameter. -/
theorem C187_jax_derivatives (hN : N ≠ 0) (hid : Ideal cut) (hs : SortedSpace hi) (op : LOp ℂ α N) (h : Built cut hi op) (gm gm' : Nat → ℂ)
    (gx gx' : Nat → Fin N → α) (garbage : Nat → ℂ) (ty : Types) (logpsi : ℂ → (Fin N → α) → ℂ) (w : ℂ) (der : (Fin N → α) → ℂ)
    (hd : if ty.pars then (ty.out || ty.mel) = true ∧ ∀ x, HasDerivAt (fun z => logpsi z x) (der x) w
      else w.im = 0 ∧ (∀ x, HasDerivAt (fun t : ℝ => logpsi t x) (der x) w.re) ∧ ((ty.out || ty.mel) = false → (∀ (t : ℝ) x, (logpsi t x).im = 0)
        ∧ ∀ x, ∀ p ∈ getConn hi op gm' gx' x, p.2.im = 0))
    (v : List (Fin N → α)) (hv : ∀ x ∈ v, Valid hi x) (hc : ∃ x ∈ v, getConn hi op gm' gx' x ≠ []) (batch : ℤ) (hb : 0 < batch) :
    derLocalValuesJax ty N 2 N (localPadded hi op gm gx v) logpsi w der v true = LocalValues.derLocalValues hi op gm gx garbage (logpsi w) der 2 N v true batch
    ∧ (ty.out = true →
      derLocalValuesJax ty N 2 N (localPadded hi op gm gx v) logpsi w der v false = LocalValues.derLocalValues hi op gm gx garbage (logpsi w) der 2 N v false batch) := by
  obtain ⟨rows, h1, M, h2⟩ := C187_local_operator hN hid hs op h gm gm' gx gx' v hv hc
  obtain ⟨f1, f2⟩ := LocalValues.C94_formula hid hs op h gm gx garbage (logpsi w) der v hv batch hb
  rw [f1, f2, h1]
  constructor
  · unfold derLocalValuesJax
    rw [if_neg (by simp), if_neg (by simp)]
    simp only [if_true]
    unfold centered
    have hg : ∀ p ∈ rows.zip v, ((rowGrad ty logpsi w p.1 p.2).map fun (g : ℂ × (Unit → ℂ)) => g.2 ()) = .ok (rowDer (logpsi w) der p.1 p.2) := by
      intro p hp
      cases hty : ty.pars with
      | true =>
        rw [hty] at hd
        simp only [if_true] at hd
        exact rowGrad_complex ty hty hd.1 logpsi w der hd.2 p.1 p.2
      | false =>
        rw [hty] at hd
        simp only [Bool.false_eq_true, if_false] at hd
        obtain ⟨d1, d2, d3⟩ := hd
        have hw : w = (w.re : ℂ) := Complex.ext rfl (by simp [d1])
        rw [hw]
        refine rowGrad_real ty hty logpsi w.re der d2 p.1 p.2 fun hc => ⟨(d3 hc).1, ?_⟩
        obtain ⟨i, hi1, rfl⟩ := List.mem_iff_get.1 hp
        have hi2 : i.1 < v.length := by
          have h3 := i.2
          have h4 := List.length_zip (l₁ := rows) (l₂ := v)
          omega
        have hi3 : i.1 < rows.length := by
          have h3 := i.2
          have h4 := List.length_zip (l₁ := rows) (l₂ := v)
          omega
        obtain ⟨_, pad, he, hpad⟩ := (List.forall₂_iff_get.1 h2).2 i.1 hi2 hi3
        intro q hq
        simp only [List.get_eq_getElem, List.getElem_zip] at hq he
        rw [he] at hq
        rcases List.mem_append.1 hq with hq | hq
        · exact (d3 hc).2 _ q hq
        · rw [hpad q hq]
          rfl
    rw [List.map_congr_left hg, collect_ok (fun p : List ((Fin N → α) × ℂ) × (Fin N → α) => rowDer (logpsi w) der p.1 p.2)]
    congr 1
    refine zip_forall _ v rows h2 (fun p => rowDer (logpsi w) der p.1 p.2) _ ?_
    rintro x r hx ⟨_, pad, rfl, hp⟩
    unfold rowDer
    dsimp only
    rw [sum_pad _ _ (fun y => Complex.exp (logpsi w y - logpsi w x) * (der y - der x)) hp]
    exact conn_sum hid hs op h gm' gx' x (hv x hx) fun y => Complex.exp (logpsi w y - logpsi w x) * (der y - der x)
  · intro ho
    unfold derLocalValuesJax
    rw [if_neg (by simp), if_neg (by simp)]
    simp only [Bool.false_eq_true, if_false]
    unfold notCentered
    congr 1
    refine zip_forall _ v rows h2 (fun p => rowNC ty (logpsi w) der p.1 p.2) _ ?_
    rintro x r hx ⟨_, pad, rfl, hp⟩
    dsimp only
    rw [rowNC_complex ty ho, sum_pad _ _ (fun y => Complex.exp (logpsi w y - logpsi w x) * der y) hp]
    exact conn_sum hid hs op h gm' gx' x (hv x hx) fun y => Complex.exp (logpsi w y - logpsi w x) * der y

/-- C187: arrays that are not two-dimensional and rows of the wrong width. -/
theorem C187_jax_errors {X : Type} (ty : Types) (size ndim width : Nat) (padded : Except Err (List (List (X × ℂ)))) (logpsi : ℂ → X → ℂ) (w : ℂ) (der : X → ℂ) (v : List X)
    (center : Bool) :
    (ndim ≠ 2 → derLocalValuesJax ty size ndim width padded logpsi w der v center = .error .runtimeError)
    ∧ (ndim = 2 → width ≠ size → derLocalValuesJax ty size ndim width padded logpsi w der v center = .error .assertionError) := by
  unfold derLocalValuesJax
  exact ⟨fun h => if_pos h, fun h h' => by rw [if_neg (by simp [h]), if_pos h']⟩

end

/-! ## Deviations -/

/-- C188: without centering a real log-amplitude loses the imaginary part of the weights: the operator may have complex matrix elements. -/
theorem C188_not_centered_refuted : ¬ ∀ (ty : Types) (logval der : Unit → ℂ) (row : List (Unit × ℂ)), ty.pars = false → ty.out = false → (∀ x, (logval x).im = 0) →
    (∀ x, (der x).im = 0) → rowNC ty logval der row () = (row.map fun p => p.2 * (Complex.exp (logval p.1 - logval ()) * der p.1)).sum := by
  intro h
  have := h ⟨false, false, true⟩ (fun _ => 0) (fun _ => 1) [((), Complex.I)] rfl rfl (by simp) (by simp)
  rw [rowNC_real _ rfl rfl] at this
  simp at this
  exact Complex.I_ne_zero this.symm

/-- C188, the part that holds: real weights. -/
theorem C188_not_centered_partial {X : Type} (ty : Types) (hp : ty.pars = false) (ho : ty.out = false) (logval der : X → ℂ) (row : List (X × ℂ)) (v : X)
    (hl : ∀ x, (logval x).im = 0) (hd : ∀ x, (der x).im = 0) (hm : ∀ p ∈ row, p.2.im = 0) :
    rowNC ty logval der row v = (row.map fun p => p.2 * (Complex.exp (logval p.1 - logval v) * der p.1)).sum := by
  rw [rowNC_real ty ho hp]
  congr 1
  refine List.map_congr_left fun p hpr => ?_
  have real : ∀ z : ℂ, z.im = 0 → ((z.re : ℝ) : ℂ) = z := fun z hz => Complex.ext rfl (by simp [hz])
  have h1 : (p.2 * Complex.exp (logval p.1 - logval v)).im = 0 := by
    rw [Complex.mul_im, hm p hpr, Complex.exp_im, Complex.sub_im, hl, hl]
    simp
  push_cast
  rw [real _ h1, real _ (hd p.1)]
  ring

/-- C188: complex parameters with real log-amplitudes and real matrix elements: a RuntimeError for every batch that is not empty. -/
theorem C188_complex_to_real_refuted {X : Type} (logpsi : ℂ → X → ℂ) (w : ℂ) (row : List (X × ℂ)) (rows : List (List (X × ℂ))) (x : X) (v : List X) :
    centered ⟨true, false, false⟩ logpsi w (row :: rows) (x :: v) = .error .runtimeError := by
  simp [centered, rowGrad, Vjp.valueAndGrad, collect, Except.map]

/-- C188: lazy wrappers: `get_conn` returns the class `NotImplementedError`, `get_conn_padded` is a TypeError and `n_conn` returns the differences of
    uninitialised memory. -/
theorem C188_lazy_refuted {X K : Type} : (lazyGetConn : Except Err (Ret X K)) = .ok .notImplementedClass
    ∧ (lazyPadded : Except Err (List (List (X × K)))) = .error .typeError ∧ ¬ ∃ r, ∀ g : List Nat, g.length = 1 → lazyNConn g = .ok r := by
  refine ⟨rfl, rfl, ?_⟩
  rintro ⟨r, h⟩
  have h0 := h [0] rfl
  have h1 := h [1] rfl
  simp only [lazyNConn, lazyFlattened, nConn, nConnLoop, Bool.false_eq_true, if_false, Except.ok.injEq] at h0 h1
  rw [← h0] at h1
  simp at h1

/-- C188: sums of `BoseHubbard` operators: the edges of the second one are ignored; a graph whose last node is isolated fails an assertion. -/
theorem C188_bose_sum_refuted :
    (¬ ∀ (R : Roots ℤ) (a b r : Bose ℤ 3), a.nMax = b.nMax → boseAdd a b = .ok r → ∀ x x', InFock a.nMax x' → melAt (r.row R x) x' = melAt (a.row R x) x' + melAt (b.row R x) x')
    ∧ ∀ (K : Type) [CommRing K] (b : Bose K 3) (U V J mu : K), boseAdd ⟨U, V, J, mu, 2, [(0, 1)]⟩ b = .error .assertionError := by
  refine ⟨fun h => ?_, fun K _ b U V J mu => by simp [boseAdd, boseCopy, nodesOfEdges]⟩
  have := h ⟨fun _ => 1, 0⟩ ⟨0, 1, 0, 0, 2, [(1, 2)]⟩ ⟨0, 1, 0, 0, 2, [(0, 2)]⟩ ⟨0, 2, 0, 0, 2, [(1, 2)]⟩ rfl rfl ![0, 1, 1] ![0, 1, 1] (by unfold InFock; decide)
  revert this
  decide +kernel

/-- C188: the padding of `BoseHubbard` is the empty configuration, whatever the number of particles of the space. -/
theorem C188_bose_padding_refuted : ¬ ∀ (R : Roots ℤ) (op : Bose ℤ 2) (x : Fin 2 → ℕ), ∀ rows, bosePadded R op [x] = .ok rows →
    ∀ r ∈ rows, ∀ p ∈ r, ∑ i, p.1 i = ∑ i, x i := by
  intro h
  have e : (match bosePadded ⟨fun _ => 1, 0⟩ (⟨0, 0, 1, 0, 2, [(0, 1)]⟩ : Bose ℤ 2) [![1, 0]] with
      | .ok rows => rows.map fun r => r.map fun p => p.1 0 + p.1 1
      | .error _ => []) = [[1, 1, 0]] := by decide +kernel
  cases hb : bosePadded ⟨fun _ => 1, 0⟩ (⟨0, 0, 1, 0, 2, [(0, 1)]⟩ : Bose ℤ 2) [![1, 0]] with
  | error m =>
    rw [hb] at e
    simp at e
  | ok rows =>
    rw [hb] at e
    simp only at e
    have h0 := h _ _ _ rows hb
    have : (0 : ℕ) ∈ ((rows.map fun r => r.map fun p => p.1 0 + p.1 1).flatten) := by
      rw [e]
      simp
    rw [List.mem_flatten] at this
    obtain ⟨l, hl, hz⟩ := this
    obtain ⟨r, hr, rfl⟩ := List.mem_map.1 hl
    obtain ⟨p, hp, hp0⟩ := List.mem_map.1 hz
    have := h0 r hr p hp
    rw [Fin.sum_univ_two, Fin.sum_univ_two, hp0] at this
    simp at this

/-! ## Examples -/

/-- the hypotheses of the theorems on `BoseHubbard`. -/
example : nodesOfEdges [((0 : Fin 2), (1 : Fin 2))] = 2 ∧ ∀ e ∈ [((0 : Fin 2), (1 : Fin 2))], e.1 ≠ e.2 := by
  decide

/-- real parameters: a machine that is linear in its parameter. -/
example (x : Fin 2 → ℤ) (w : ℝ) : HasDerivAt (fun t : ℝ => (t : ℂ) * ((x 0 : ℤ) : ℂ)) ((x 0 : ℤ) : ℂ) w := by
  simpa using (Complex.ofRealCLM.hasDerivAt (x := w)).mul_const ((x 0 : ℤ) : ℂ)

/-- the zero operator has no connected elements and a batch of two configurations is refused. -/
example : connPadded (X := Fin 2 → ℤ) (K := ℤ) 2 [] [0, 0] = .error .valueError ∧ connPadded (X := Nat) (K := ℤ) 2 [(5, 1), (6, 2), (7, 3), (8, 0)] [2, 4]
    = .ok [[(5, 1), (6, 2)], [(7, 3), (8, 0)]] := by
  constructor <;> rfl

end Verif.Padded

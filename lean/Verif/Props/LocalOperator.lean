import Verif.Lemmas.LocalOpBuilt
import Mathlib.NumberTheory.Zsqrtd.Basic

/-! C10 (connected elements = matrix), C11 (order of `acting_on`), C12 (linear combinations),
C13 (products), C15 (`is_hermitian`). -/

namespace Verif.LocalOp
open Verif.Hilbert

section statements
variable {K : Type} [CommRing K] [DecidableEq K] {α : Type} [LinearOrder α] [Inhabited α]
  {N : Nat} {hi : Fin N → List α} {cut : Cutoff K}

/-! ## C10 -/

/-- C10, any cutoff: an operator returned by the constructor, whose matrix elements are zero or above
    the cutoff, yields connected elements that add up to the matrix of its terms. The contents of the
    uninitialised output buffers (`gm`, `gx`) do not matter. -/
theorem C10_get_conn_constructed [Star K] (hs : SortedSpace hi) (c : K)
    (ops : List (Mat K × List (Fin N))) (op : LOp K α N) (h : mk cut hi c ops = .ok op)
    (hr : Resolved cut op) (gm : Nat → K) (gx : Nat → Fin N → α) (x x' : Fin N → α)
    (hx : Valid hi x) (hx' : Valid hi x') :
    melAt (getConn hi op gm gx x) x' = matrixOf hi op x x' := by
  obtain ⟨h1, h2⟩ := mk_fresh c ops op h
  exact getConn_sum hs op (OpOK_of_fresh op h1 h2 hr) gm gx x x' hx hx'

/-- C10 in terms of what the user passed to the constructor. -/
theorem C10_get_conn_user_terms [Star K] (hid : Ideal cut) (hs : SortedSpace hi) (c : K)
    (ops : List (Mat K × List (Fin N))) (ha : ArgsOK hi ops) :
    ∃ op, mk cut hi c ops = .ok op ∧ ∀ (gm : Nat → K) (gx : Nat → Fin N → α) (x x' : Fin N → α),
      Valid hi x → Valid hi x' →
      melAt (getConn hi op gm gx x) x' = matrixOfList hi c ops x x' := by
  obtain ⟨op, h1, h2, h3, h4⟩ := mk_ok hid hs c ops ha
  refine ⟨op, h1, fun gm gx x x' hx hx' => ?_⟩
  rw [getConn_sum hs op h2.ok gm gx x x' hx hx', h4 x x' hx hx']

/-- C10 for every operator obtained by arithmetic. -/
theorem C10_get_conn_reachable [Star K] (hid : Ideal cut) (hs : SortedSpace hi) (op : LOp K α N)
    (h : Built cut hi op) (gm : Nat → K) (gx : Nat → Fin N → α) (x x' : Fin N → α)
    (hx : Valid hi x) (hx' : Valid hi x') :
    melAt (getConn hi op gm gx x) x' = matrixOf hi op x x' :=
  getConn_sum hs op (h.good hid hs).ok gm gx x x' hx hx'

/-- every connected configuration returned is a configuration of the space. -/
theorem C10_connected_valid [Star K] (hid : Ideal cut) (hs : SortedSpace hi) (op : LOp K α N)
    (h : Built cut hi op) (gm : Nat → K) (gx : Nat → Fin N → α) (x : Fin N → α)
    (hx : Valid hi x) : ∀ p ∈ getConn hi op gm gx x, Valid hi p.1 := by
  have hg := h.good hid hs
  rw [getConn_eq hs op hg.ok gm gx x hx]
  intro p hp
  simp only [toPairs, List.mem_map] at hp
  obtain ⟨q, hq, rfl⟩ := hp
  unfold rowEntries at hq
  rcases List.mem_append.1 hq with hq | hq
  · split at hq
    · rw [List.mem_singleton] at hq; subst hq; exact hx
    · simp at hq
  · rw [List.mem_flatMap] at hq
    obtain ⟨t, ht, hq⟩ := hq
    have hf := hg.ok.terms t ht
    unfold termConns at hq
    rw [Verif.LocalOp.xsN_eq hs x hx] at hq
    obtain ⟨js, _, j2, _, j4⟩ := hf.conn (lexIdx hi t.acting x)
      (by rw [hf.dim]; exact lexIdx_lt x hx _)
    rw [j4, List.map_map, List.mem_map] at hq
    obtain ⟨j, hj, rfl⟩ := hq
    exact conn_valid x hx t.acting j (by rw [← hf.dim]; exact (j2 j hj).1)

/-! ## C11 -/

/-- C11 (provided all listed sites have the same local dimension, or the list is sorted): listing the
    sites in another order together with the correspondingly permuted matrix gives the same operator.
    False without:  `C103_acting_on_order_refuted`. -/
theorem C11_acting_on_order [Star K] (hid : Ideal cut) (hs : SortedSpace hi) (c : K)
    (m m' : Mat K) (act act' : List (Fin N)) (hn : act.Nodup) (hne : act ≠ [])
    (hp : act.Perm act') (hm : m.n = (dims hi act).prod) (hm' : m'.n = (dims hi act').prod)
    (hr : Reorderable hi act) (hr' : Reorderable hi act')
    (hsame : ∀ x x', Valid hi x → Valid hi x' →
      m'.f (lexIdx hi act' x) (lexIdx hi act' x') = m.f (lexIdx hi act x) (lexIdx hi act x')) :
    ∃ a b, mk cut hi c [(m, act)] = .ok a ∧ mk cut hi c [(m', act')] = .ok b
      ∧ (∀ t ∈ a.terms ++ b.terms, t.acting.Pairwise (· < ·))
      ∧ ∀ x x', Valid hi x → Valid hi x' →
        matrixOf hi a x x' = matrixOf hi b x x'
        ∧ matrixOf hi a x x' = (if x = x' then c else 0) + embed hi m.f act x x' := by
  obtain ⟨a, a1, a2, _, a4⟩ := mk_ok hid hs c [(m, act)] (by
    intro p hp'; rw [List.mem_singleton] at hp'; subst hp'; exact ⟨hn, hne, hm, hr⟩)
  have hne' : act' ≠ [] := by rintro rfl; exact hne hp.eq_nil
  obtain ⟨b, b1, b2, _, b4⟩ := mk_ok hid hs c [(m', act')] (by
    intro p hp'; rw [List.mem_singleton] at hp'; subst hp'
    exact ⟨hp.nodup_iff.1 hn, hne', hm', hr'⟩)
  refine ⟨a, b, a1, b1, ?_, fun x x' hx hx' => ?_⟩
  · intro t ht
    rcases List.mem_append.1 ht with ht | ht
    · exact a2.shape.sorted t ht
    · exact b2.shape.sorted t ht
  · rw [a4 x x' hx hx', b4 x x' hx hx']
    simp only [matrixOfList, List.map_cons, List.map_nil, List.sum_cons, List.sum_nil, add_zero]
    refine ⟨?_, trivial⟩
    congr 1
    unfold embed
    rw [hsame x x' hx hx']
    by_cases h : ∀ s, s ∉ act → x s = x' s
    · rw [if_pos h, if_pos fun s hs => h s fun h' => hs (hp.mem_iff.1 h')]
    · rw [if_neg h, if_neg fun h' => h fun s hs => h' s fun h'' => hs (hp.mem_iff.2 h'')]

/-! ## C12 -/

/-- C12: `A + B`. -/
theorem C12_add [Star K] (hid : Ideal cut) (hs : SortedSpace hi) (a b : LOp K α N)
    (ha : Built cut hi a) (hb : Built cut hi b) :
    ∃ r, add cut hi a b = .ok r ∧ ∀ x x', Valid hi x → Valid hi x' →
      matrixOf hi r x x' = matrixOf hi a x x' + matrixOf hi b x x' := by
  obtain ⟨r, h1, _, h3⟩ := add_ok hid hs a b (ha.good hid hs) (hb.good hid hs)
  exact ⟨r, h1, h3⟩

/-- C12: `A += B`. -/
theorem C12_iadd [Star K] (hid : Ideal cut) (hs : SortedSpace hi) (a b : LOp K α N)
    (ha : Built cut hi a) (hb : Built cut hi b) :
    ∃ r, iadd cut hi a b = .ok r ∧ ∀ x x', Valid hi x → Valid hi x' →
      matrixOf hi r x x' = matrixOf hi a x x' + matrixOf hi b x x' := by
  obtain ⟨r, h1, _, _, h3⟩ := iadd_ok hid a b (ha.good hid hs) (hb.good hid hs)
  exact ⟨r, h1, h3⟩

/-- C12: `A - B`. -/
theorem C12_sub [Star K] (hid : Ideal cut) (hs : SortedSpace hi) (a b : LOp K α N)
    (ha : Built cut hi a) (hb : Built cut hi b) :
    ∃ r, sub cut hi a b = .ok r ∧ ∀ x x', Valid hi x → Valid hi x' →
      matrixOf hi r x x' = matrixOf hi a x x' - matrixOf hi b x x' := by
  obtain ⟨r, h1, _, h3⟩ := sub_ok hid hs a b (ha.good hid hs) (hb.good hid hs)
  exact ⟨r, h1, h3⟩

/-- C12: `A + c`. -/
theorem C12_add_scalar [Star K] (hid : Ideal cut) (hs : SortedSpace hi) (a : LOp K α N) (c : K)
    (ha : Built cut hi a) :
    ∃ r, addScalar cut hi a c = .ok r ∧ ∀ x x', Valid hi x → Valid hi x' →
      matrixOf hi r x x' = matrixOf hi a x x' + if x = x' then c else 0 := by
  obtain ⟨r, h1, _, h3⟩ := addScalar_ok hid hs a (ha.good hid hs) c
  exact ⟨r, h1, h3⟩

/-- C12: `z * A`. -/
theorem C12_scalar_mul [Star K] (hid : Ideal cut) (hs : SortedSpace hi) (a : LOp K α N) (z : K)
    (ha : Built cut hi a) :
    ∃ r, mulScalar cut hi a z = .ok r ∧ ∀ x x', Valid hi x → Valid hi x' →
      matrixOf hi r x x' = z * matrixOf hi a x x' := by
  obtain ⟨r, h1, _, _, h3⟩ := mulScalar_ok hid hs a (ha.good hid hs) z
  exact ⟨r, h1, h3⟩

/-- C12 through the observable API: the connected elements of `A + B` add up like those of `A` and `B`. -/
theorem C12_add_connected [Star K] (hid : Ideal cut) (hs : SortedSpace hi) (a b : LOp K α N)
    (ha : Built cut hi a) (hb : Built cut hi b) :
    ∃ r, add cut hi a b = .ok r ∧ ∀ (gm : Nat → K) (gx : Nat → Fin N → α) x x',
      Valid hi x → Valid hi x' →
      melAt (getConn hi r gm gx x) x'
        = melAt (getConn hi a gm gx x) x' + melAt (getConn hi b gm gx x) x' := by
  obtain ⟨r, h1, h2, h3⟩ := add_ok hid hs a b (ha.good hid hs) (hb.good hid hs)
  refine ⟨r, h1, fun gm gx x x' hx hx' => ?_⟩
  rw [getConn_sum hs r h2.ok gm gx x x' hx hx', h3 x x' hx hx',
    getConn_sum hs a (ha.good hid hs).ok gm gx x x' hx hx',
    getConn_sum hs b (hb.good hid hs).ok gm gx x x' hx hx']

/-- transposing and conjugating concretely. -/
theorem C12_transpose [Star K] (hid : Ideal cut) (hs : SortedSpace hi) (a : LOp K α N)
    (ha : Built cut hi a) :
    ∃ r, transposeOp cut hi a = .ok r ∧ ∀ x x', Valid hi x → Valid hi x' →
      matrixOf hi r x x' = matrixOf hi a x' x := by
  obtain ⟨r, h1, _, h3⟩ := transposeOp_ok hid hs a (ha.good hid hs)
  exact ⟨r, h1, h3⟩

theorem C12_conjugate [StarRing K] (hid : Ideal cut) (hs : SortedSpace hi) (a : LOp K α N)
    (ha : Built cut hi a) :
    ∃ r, conjOp cut hi a = .ok r ∧ ∀ x x', Valid hi x → Valid hi x' →
      matrixOf hi r x x' = star (matrixOf hi a x x') := by
  obtain ⟨r, h1, _, h3⟩ := conjOp_ok hid hs a (ha.good hid hs)
  exact ⟨r, h1, h3⟩

/-! ## C13 -/

/-- C13 (for equal local dimensions): `A @ B` succeeds and is the matrix product. The full
    property has no hypothesis on the dimensions; see `C103_product_refuted`. -/
theorem C13_product [Star K] (hid : Ideal cut) (hs : SortedSpace hi) (hu : Uniform hi)
    (a b : LOp K α N) (ha : Built cut hi a) (hb : Built cut hi b) :
    ∃ r, opMatmul cut hi a b = .ok r ∧ ∀ x x', Valid hi x → Valid hi x' →
      matrixOf hi r x x' = matProd hi (matrixOf hi a) (matrixOf hi b) x x' := by
  obtain ⟨r, h1, _, h3⟩ := opMatmul_ok hid hs hu a b (ha.good hid hs) (hb.good hid hs)
  exact ⟨r, h1, h3⟩

/-- in-place product of two different operator objects. -/
theorem C13_inplace_product [Star K] (hid : Ideal cut) (hs : SortedSpace hi) (hu : Uniform hi)
    (a b : LOp K α N) (ha : Built cut hi a) (hb : Built cut hi b) :
    ∃ r, imatmul cut hi a b = .ok r ∧ ∀ x x', Valid hi x → Valid hi x' →
      matrixOf hi r x x' = matProd hi (matrixOf hi a) (matrixOf hi b) x x' := by
  obtain ⟨r, h1, _, h3⟩ := imatmul_ok hid hs hu a b (ha.good hid hs) (hb.good hid hs)
  exact ⟨r, h1, h3⟩

/-! ## C15 -/

/-- histories in which every scalar used for scaling is self-adjoint and products only involve a right
    factor with self-adjoint constant. -/
inductive BuiltSelfAdjoint [StarRing K] (cut : Cutoff K) (hi : Fin N → List α) : LOp K α N → Prop
  | mk {c ops op} : mk cut hi c ops = .ok op → BuiltSelfAdjoint cut hi op
  | copy {a r} : copy cut hi a = .ok r → BuiltSelfAdjoint cut hi r
  | add {a b r} : add cut hi a b = .ok r → BuiltSelfAdjoint cut hi r
  | iadd {a b r} : BuiltSelfAdjoint cut hi a → iadd cut hi a b = .ok r → BuiltSelfAdjoint cut hi r
  | addConst {a c} : BuiltSelfAdjoint cut hi a → BuiltSelfAdjoint cut hi (addConst cut a c)
  | imulScalar {a z} : star z = z → BuiltSelfAdjoint cut hi a →
      BuiltSelfAdjoint cut hi (imulScalar cut a z)
  | mulScalar {a z r} : star z = z → mulScalar cut hi a z = .ok r → BuiltSelfAdjoint cut hi r
  | matmul {a b r} : star b.constant = b.constant → opMatmul cut hi a b = .ok r →
      BuiltSelfAdjoint cut hi r

theorem BuiltSelfAdjoint.hermOK [StarRing K] {op : LOp K α N} (h : BuiltSelfAdjoint cut hi op) :
    HermOK op := by
  induction h with
  | mk h => exact mk_herm _ _ _ h
  | copy h => exact mk_herm _ _ _ h
  | add h => exact add_herm _ _ _ h
  | iadd _ h ih => exact iadd_herm _ _ _ h ih
  | addConst _ ih => exact fun hh t ht => ih hh t ht
  | imulScalar hz _ ih => exact imulScalar_herm _ _ hz ih
  | @mulScalar a z r hz h =>
    unfold LocalOp.mulScalar at h
    rcases hc : LocalOp.copy cut hi a with e | o
    · rw [hc] at h; cases h
    · rw [hc] at h
      cases h
      exact imulScalar_herm o z hz (mk_herm _ _ _ hc)
  | matmul hb h => exact opMatmul_herm _ _ _ h hb

/-- C15 (for scalings by self-adjoint scalars, self-adjoint constant): `is_hermitian` implies that
    the matrix equals its conjugate transpose. The full property is false: `C105_is_hermitian_refuted`. -/
theorem C15_is_hermitian [StarRing K] (hid : Ideal cut) (hs : SortedSpace hi)
    (op : LOp K α N) (hb : Built cut hi op) (h : BuiltSelfAdjoint cut hi op)
    (hc : star op.constant = op.constant) (hf : op.isHerm = true)
    (x x' : Fin N → α) (hx : Valid hi x) (hx' : Valid hi x') :
    matrixOf hi op x x' = star (matrixOf hi op x' x) :=
  herm_matrix op (hb.good hid hs).shape (h.hermOK hf) hc x x' hx hx'

end statements

/-! ## Concrete instances: hypotheses are satisfiable, and refutations -/

/-- cutoff on exact integers: `|z| > 1e-6` iff `z ≠ 0`. -/
def intCut : Cutoff ℤ := ⟨fun z => decide (z ≠ 0), fun z => decide (z ≠ 0)⟩

theorem intCut_ideal : Ideal intCut := by
  constructor <;> intro z h <;> simpa [intCut] using h

/-- two spins 1/2. -/
def spins : Fin 2 → List ℤ := fun _ => [-1, 1]

theorem spins_sorted : SortedSpace spins := by intro s; fin_cases s <;> decide

def sx : Mat ℤ := ⟨2, fun i j => if i = j then 0 else 1⟩
def sz : Mat ℤ := ⟨2, fun i j => if i = j then (if i = 0 then 1 else -1) else 0⟩
/-- a matrix with no symmetry at all, acting on two sites. -/
def m44 : Mat ℤ := ⟨4, fun i j => 10 * i + j⟩

theorem spins_uniform : Uniform spins := ⟨2, by intro s; fin_cases s <;> rfl⟩

theorem args_example : ArgsOK spins [(sx, [0]), (m44, [1, 0]), (sz, [0])] := by
  intro p hp
  simp only [List.mem_cons, List.not_mem_nil, or_false] at hp
  rcases hp with rfl | rfl | rfl <;>
    exact ⟨by decide, by decide, by decide, spins_uniform.reorderable _⟩

/-- hypotheses of C10 on an operator with three terms, two of them on the same site, one listed in
    reverse order; its connected elements are computed. -/
example : ∃ op, mk intCut spins 5 [(sx, [0]), (m44, [1, 0]), (sz, [0])] = .ok op
    ∧ Built intCut spins op :=
  (mk_ok intCut_ideal spins_sorted 5 _ args_example).elim fun op h =>
    ⟨op, h.1, .mk args_example h.1⟩

/-- the same operator: number of connected elements and an off-diagonal one. -/
example : (match mk intCut spins 5 [(sx, [0]), (m44, [1, 0]), (sz, [0])] with
    | .ok op => (getConn spins op (fun _ => 77) (fun _ _ => 9) (fun _ => -1)).map
        fun p => (p.1 0, p.1 1, p.2)
    | .error _ => []) = [(-1, -1, 6), (1, -1, 1), (-1, 1, 2), (1, -1, 1), (1, 1, 3)] := by
  decide +kernel

example : ∃ a b, Built intCut spins a ∧ Built intCut spins b
    ∧ ∃ r, opMatmul intCut spins a b = .ok r ∧ Built intCut spins r := by
  have ha : ArgsOK spins [(sx, [0]), (m44, [1, 0])] := by
    intro p hp
    simp only [List.mem_cons, List.not_mem_nil, or_false] at hp
    rcases hp with rfl | rfl <;>
      exact ⟨by decide, by decide, by decide, spins_uniform.reorderable _⟩
  have hb : ArgsOK spins [(sz, [1])] := by
    intro p hp
    simp only [List.mem_cons, List.not_mem_nil, or_false] at hp
    subst hp
    exact ⟨by decide, by decide, by decide, spins_uniform.reorderable _⟩
  obtain ⟨a, a1, a2, _⟩ := mk_ok intCut_ideal spins_sorted 3 _ ha
  obtain ⟨b, b1, b2, _⟩ := mk_ok intCut_ideal spins_sorted (-2) _ hb
  obtain ⟨r, r1, _⟩ := opMatmul_ok intCut_ideal spins_sorted spins_uniform a b a2 b2
  exact ⟨a, b, .mk ha a1, .mk hb b1, r, r1, .matmul spins_uniform (.mk ha a1) (.mk hb b1) r1⟩

/-- C11 instance: `[0, 1]` against `[1, 0]` with the swapped matrix. -/
example : ∀ x x' : Fin 2 → ℤ, Valid spins x → Valid spins x' →
    (⟨4, fun i j => m44.f (2 * (i % 2) + i / 2) (2 * (j % 2) + j / 2)⟩ : Mat ℤ).f
        (lexIdx spins [1, 0] x) (lexIdx spins [1, 0] x')
      = m44.f (lexIdx spins [0, 1] x) (lexIdx spins [0, 1] x') := by
  intro x x' hx hx'
  have key : ∀ y : Fin 2 → ℤ, Valid spins y →
      2 * (lexIdx spins [1, 0] y % 2) + lexIdx spins [1, 0] y / 2 = lexIdx spins [0, 1] y := by
    intro y hy
    have h0 : (spins 0).idxOf (y 0) < 2 := List.idxOf_lt_length_iff.2 (hy 0)
    have h1 : (spins 1).idxOf (y 1) < 2 := List.idxOf_lt_length_iff.2 (hy 1)
    simp only [lexIdx, Verif.Radix.enc, List.map_cons, List.map_nil, List.prod_cons, List.prod_nil]
    have e0 : (spins 0).length = 2 := rfl
    have e1 : (spins 1).length = 2 := rfl
    rw [e0, e1]
    omega
  simp only [key x hx, key x' hx']

/-- a qubit and a qutrit. -/
def mixed : Fin 2 → List ℤ := fun s => if s = 0 then [0, 1] else [0, 1, 2]

theorem mixed_sorted : SortedSpace mixed := by intro s; fin_cases s <;> decide

/-- projector on (site 1 in state 2, site 0 in state 0), in the order `acting_on = [1, 0]`. -/
def proj20 : Mat ℤ := ⟨6, fun i j => if i = 4 ∧ j = 4 then 1 else 0⟩

/-- C103 is false in general: on a space with local dimensions 2 and 3, the operator given with
    `acting_on = [1, 0]` is silently replaced by another one. -/
theorem C103_acting_on_order_refuted :
    ¬ ∀ (m : Mat ℤ) (act : List (Fin 2)), act.Nodup → m.n = (dims mixed act).prod →
      ∀ op, mk intCut mixed 0 [(m, act)] = .ok op → ∀ x x', Valid mixed x → Valid mixed x' →
        matrixOf mixed op x x' = embed mixed m.f act x x' := by
  intro h
  have hw : (match mk intCut mixed 0 [(proj20, [1, 0])] with
      | .ok op => decide (matrixOf mixed op ![0, 2] ![0, 2] ≠ embed mixed proj20.f [1, 0] ![0, 2] ![0, 2])
      | .error _ => false) = true := by decide +kernel
  rcases hm : mk intCut mixed 0 [(proj20, [1, 0])] with e | op
  · rw [hm] at hw; exact absurd hw Bool.false_ne_true
  · rw [hm] at hw
    have hv : Valid mixed ![0, 2] := by intro s; fin_cases s <;> decide
    exact (of_decide_eq_true hw) (h proj20 [1, 0] (by decide) (by decide) op hm _ _ hv hv)

def projA : Mat ℤ := ⟨3, fun i j => if i = 2 ∧ j = 2 then 1 else 0⟩
def projB : Mat ℤ := ⟨2, fun i j => if i = 0 ∧ j = 0 then 1 else 0⟩

/-- C103 is false in general: the product of an operator on site 1 with one on site 0 of the same space. -/
theorem C103_product_refuted :
    ¬ ∀ a b, Built intCut mixed a → Built intCut mixed b → ∀ r, opMatmul intCut mixed a b = .ok r →
      ∀ x x', Valid mixed x → Valid mixed x' →
        matrixOf mixed r x x' = matProd mixed (matrixOf mixed a) (matrixOf mixed b) x x' := by
  intro h
  have ha : ArgsOK mixed [(projA, [1])] := by
    intro p hp
    rw [List.mem_singleton] at hp; subst hp
    exact ⟨by decide, by decide, by decide, Or.inl (by decide)⟩
  have hb : ArgsOK mixed [(projB, [0])] := by
    intro p hp
    rw [List.mem_singleton] at hp; subst hp
    exact ⟨by decide, by decide, by decide, Or.inl (by decide)⟩
  have hw : (match mk intCut mixed 0 [(projA, [1])], mk intCut mixed 0 [(projB, [0])] with
      | .ok a, .ok b => (match opMatmul intCut mixed a b with
        | .ok r => decide (matrixOf mixed r ![0, 2] ![0, 2]
            ≠ matProd mixed (matrixOf mixed a) (matrixOf mixed b) ![0, 2] ![0, 2])
        | .error _ => false)
      | _, _ => false) = true := by decide +kernel
  rcases hma : mk intCut mixed 0 [(projA, [1])] with e | a
  · rw [hma] at hw; exact absurd hw Bool.false_ne_true
  rcases hmb : mk intCut mixed 0 [(projB, [0])] with e | b
  · rw [hma, hmb] at hw; exact absurd hw Bool.false_ne_true
  rw [hma, hmb] at hw
  simp only at hw
  rcases hr : opMatmul intCut mixed a b with e | r
  · rw [hr] at hw; exact absurd hw Bool.false_ne_true
  rw [hr] at hw
  have hv : Valid mixed ![0, 2] := by intro s; fin_cases s <;> decide
  exact (of_decide_eq_true hw) (h a b (.mk ha hma) (.mk hb hmb) r hr _ _ hv hv)

/-! Gaussian integers for `is_hermitian`. -/

abbrev GI := ℤ√(-1)
def giCut : Cutoff GI := ⟨fun z => decide (z ≠ 0), fun z => decide (z ≠ 0)⟩
theorem giCut_ideal : Ideal giCut := by
  constructor <;> intro z h <;> simpa [giCut] using h
def giSx : Mat GI := ⟨2, fun i j => if i = j then 0 else 1⟩
def giSy : Mat GI := ⟨2, fun i j => if i = j then 0 else if i < j then ⟨0, -1⟩ else ⟨0, 1⟩⟩
def iUnit : GI := ⟨0, 1⟩

theorem gi_args (m : Mat GI) (h : m.n = 2) : ArgsOK spins [(m, [0])] := by
  intro p hp
  rw [List.mem_singleton] at hp; subst hp
  exact ⟨List.nodup_singleton _, List.cons_ne_nil _ _, h, spins_uniform.reorderable _⟩

/-- C105 is false in general: `1j * sigmax` keeps `is_hermitian = True`. -/
theorem C105_is_hermitian_refuted :
    ¬ ∀ op, Built giCut spins op → op.isHerm = true → ∀ x x', Valid spins x → Valid spins x' →
        matrixOf spins op x x' = star (matrixOf spins op x' x) := by
  intro h
  have hw : (match mk giCut spins 0 [(giSx, [0])] with
      | .ok a => (match mulScalar giCut spins a iUnit with
        | .ok r => r.isHerm && decide (matrixOf spins r ![-1, 1] ![1, 1]
            ≠ star (matrixOf spins r ![1, 1] ![-1, 1]))
        | .error _ => false)
      | .error _ => false) = true := by decide +kernel
  rcases hma : mk giCut spins 0 [(giSx, [0])] with e | a
  · rw [hma] at hw; exact absurd hw Bool.false_ne_true
  rw [hma] at hw
  simp only at hw
  rcases hr : mulScalar giCut spins a iUnit with e | r
  · rw [hr] at hw; exact absurd hw Bool.false_ne_true
  rw [hr] at hw
  rw [Bool.and_eq_true] at hw
  have hv : Valid spins ![-1, 1] := by intro s; fin_cases s <;> decide
  have hv' : Valid spins ![1, 1] := by intro s; fin_cases s <;> decide
  exact (of_decide_eq_true hw.2)
    (h r (.mulScalar (.mk (gi_args giSx rfl) hma) hr) hw.1 _ _ hv hv')

/-- C105 fails already for an operator that is only an imaginary constant. -/
theorem C105_constant_refuted :
    ∃ op, mk giCut spins iUnit [] = .ok op ∧ op.isHerm = true
      ∧ matrixOf spins op ![1, 1] ![1, 1] ≠ star (matrixOf spins op ![1, 1] ![1, 1]) :=
  ⟨zeroOp giCut iUnit, rfl, rfl, by decide +kernel⟩

/-- the partial C15 applies to `3 * sigmay` (and its flag is `True`). -/
example : ∃ op, Built giCut spins op ∧ BuiltSelfAdjoint giCut spins op
    ∧ star op.constant = op.constant ∧ op.isHerm = true
    ∧ matrixOf spins op ![-1, 1] ![1, 1] = ⟨0, -3⟩ := by
  have hw : (match mk giCut spins 0 [(giSy, [0])] with
      | .ok a => (match mulScalar giCut spins a 3 with
        | .ok r => r.isHerm && decide (star r.constant = r.constant)
            && decide (matrixOf spins r ![-1, 1] ![1, 1] = ⟨0, -3⟩)
        | .error _ => false)
      | .error _ => false) = true := by decide +kernel
  rcases hma : mk giCut spins 0 [(giSy, [0])] with e | a
  · rw [hma] at hw; exact absurd hw Bool.false_ne_true
  rw [hma] at hw
  simp only at hw
  rcases hr : mulScalar giCut spins a 3 with e | r
  · rw [hr] at hw; exact absurd hw Bool.false_ne_true
  rw [hr] at hw
  simp only [Bool.and_eq_true, decide_eq_true_eq] at hw
  exact ⟨r, .mulScalar (.mk (gi_args giSy rfl) hma) hr, .mulScalar (by decide) hr,
    hw.1.2, hw.1.1, hw.2⟩

/-! cases for the theorems above -/

/-- the operator of the first example. -/
noncomputable def exOp : LOp ℤ ℤ 2 := (mk_ok intCut_ideal spins_sorted 5 _ args_example).choose

theorem exOp_mk : mk intCut spins 5 [(sx, [0]), (m44, [1, 0]), (sz, [0])] = .ok exOp :=
  (mk_ok intCut_ideal spins_sorted 5 _ args_example).choose_spec.1

theorem exOp_built : Built intCut spins exOp := .mk args_example exOp_mk

theorem exConf_valid : Valid spins ![-1, 1] := by unfold Valid; decide

example := C10_get_conn_user_terms intCut_ideal spins_sorted 5 _ args_example

example := C10_get_conn_reachable intCut_ideal spins_sorted exOp exOp_built (fun _ => 77) (fun _ _ => 9) ![-1, 1] ![-1, 1] exConf_valid exConf_valid

example := C10_connected_valid intCut_ideal spins_sorted exOp exOp_built (fun _ => 77) (fun _ _ => 9) ![-1, 1] exConf_valid

example := C12_add intCut_ideal spins_sorted exOp exOp exOp_built exOp_built

example := C12_iadd intCut_ideal spins_sorted exOp exOp exOp_built exOp_built

example := C12_sub intCut_ideal spins_sorted exOp exOp exOp_built exOp_built

example := C12_add_scalar intCut_ideal spins_sorted exOp 3 exOp_built

example := C12_scalar_mul intCut_ideal spins_sorted exOp 3 exOp_built

example := C12_add_connected intCut_ideal spins_sorted exOp exOp exOp_built exOp_built

example := C12_transpose intCut_ideal spins_sorted exOp exOp_built

example := C12_conjugate intCut_ideal spins_sorted exOp exOp_built

example := C13_product intCut_ideal spins_sorted spins_uniform exOp exOp exOp_built exOp_built

example := C13_inplace_product intCut_ideal spins_sorted spins_uniform exOp exOp exOp_built exOp_built

end Verif.LocalOp

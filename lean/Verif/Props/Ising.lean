import Mathlib.Algebra.BigOperators.Fin
import Verif.Lemmas.Ham
import Verif.Props.LocalOpConn

/-! C21 (Ising), C24 (order of products with special Hamiltonians), C76 (sums of special Hamiltonians). -/

set_option linter.unusedSectionVars false

namespace Verif.Ham
open Verif.Hilbert Verif.LocalOp

/-! ### specification -/

section
variable {K : Type} [CommRing K] {N : Nat}

/-- matrix element of `sigma^x` on site `i` in the basis of spin configurations. -/
def pauliX (i : Fin N) (x x' : Fin N → ℤ) : K :=
  if x' i = -x i ∧ ∀ s, s ≠ i → x' s = x s then 1 else 0

/-- matrix element of `sigma^z_i sigma^z_j`. -/
def pauliZZ (i j : Fin N) (x x' : Fin N → ℤ) : K := if x = x' then ((x i * x j : ℤ) : K) else 0

/-- `-h sum_i sigma^x_i + J sum_(i,j) sigma^z_i sigma^z_j`, the documented Hamiltonian. -/
def isingMatrix (h J : K) (edges : List (Fin N × Fin N)) (x x' : Fin N → ℤ) : K :=
  -h * (∑ i, pauliX i x x') + J * (edges.map fun e => pauliZZ e.1 e.2 x x').sum

/-- configurations of spins 1/2. -/
def IsSpins (x : Fin N → ℤ) : Prop := ∀ s, x s = -1 ∨ x s = 1

end

section
variable {K : Type} [CommRing K] {N : Nat}

theorem valid_halfSpins (x : Fin N → ℤ) : Valid (halfSpins N) x ↔ IsSpins x := by
  simp [Valid, halfSpins, IsSpins]

theorem halfSpins_sorted : SortedSpace (halfSpins N) := by
  intro s; simp [halfSpins]

theorem halfSpins_uniform : Uniform (halfSpins N) := ⟨2, fun _ => rfl⟩

theorem Ising.diag_eq (op : Ising K N) (x : Fin N → ℤ) :
    op.diag x = op.J * (op.edges.map fun e => ((x e.1 * x e.2 : ℤ) : K)).sum := by
  unfold Ising.diag
  rw [foldl_add_sum, zero_add, ← List.sum_map_mul_left]
  congr 1
  apply List.map_congr_left
  intro e _
  push_cast
  ring

theorem flip_iff (x x' : Fin N → ℤ) (i : Fin N) :
    Function.update x i (x i * -1) = x' ↔ (x' i = -x i ∧ ∀ s, s ≠ i → x' s = x s) := by
  constructor
  · rintro rfl
    refine ⟨by simp, fun s hs => Function.update_of_ne hs _ _⟩
  · rintro ⟨h1, h2⟩
    funext s
    by_cases hs : s = i
    · subst hs; rw [Function.update_self, h1]; ring
    · rw [Function.update_of_ne hs, h2 s hs]

/-! ### C21 -/

/-- C21: the connected elements of a configuration add up to the documented matrix. -/
theorem C21_get_conn (op : Ising K N) (x x' : Fin N → ℤ) :
    melAt (op.row x) x' = isingMatrix op.h op.J op.edges x x' := by
  unfold melAt Ising.row isingMatrix
  rw [List.map_cons, List.sum_cons, List.map_map, op.diag_eq, add_comm]
  congr 1
  · rw [Finset.mul_sum, Fin.sum_univ_def]
    congr 1
    apply List.map_congr_left
    intro i _
    simp only [Function.comp, flip_iff, pauliX]
    split_ifs <;> simp
  · by_cases h : x = x'
    · simp [h, pauliZZ]
    · simp [h, pauliZZ]

/-- C21: `n_conn` and `max_conn_size` are the number of returned elements, `N + 1`, and every returned
    configuration is a spin configuration. -/
theorem C21_n_conn (op : Ising K N) (x : Fin N → ℤ) (hx : IsSpins x) :
    (op.row x).length = op.maxConn ∧ op.nConn [x] = [(op.row x).length] ∧ op.maxConn = N + 1
      ∧ ∀ p ∈ op.row x, IsSpins p.1 := by
  have hl : (op.row x).length = N + 1 := by simp [Ising.row]
  refine ⟨hl, by simp [Ising.nConn, hl], rfl, ?_⟩
  intro p hp
  simp only [Ising.row, List.mem_cons, List.mem_map] at hp
  rcases hp with rfl | ⟨j, -, rfl⟩
  · exact hx
  · intro s
    by_cases hs : s = j
    · subst hs
      rcases hx s with h | h <;> simp [h]
    · simp only [Function.update_of_ne hs]; exact hx s

theorem Ising.flattened_eq (op : Ising K N) (xs : List (Fin N → ℤ)) :
    op.flattened xs = (xs.flatMap op.row, runningTotals 0 (xs.map fun x => (op.row x).length)) := by
  have h := foldl_rows op.row xs [] []
  simp only [List.nil_append, List.length_nil] at h
  rw [← h]
  unfold Ising.flattened
  congr 1
  funext out x
  simp [Ising.row]

/-- C18 for Ising: splitting the batched result at `sections` gives the rows. -/
theorem C18_ising_batches (op : Ising K N) (xs : List (Fin N → ℤ)) :
    splitSections (op.flattened xs).1 0 (op.flattened xs).2 = xs.map op.row := by
  rw [op.flattened_eq]
  simp only
  rw [show xs.flatMap op.row = (xs.map op.row).flatten from by rw [List.flatMap]]
  have := split_runningTotals [] (xs.map op.row) 0 rfl
    ((xs.map op.row).flatten) (by simp)
  rw [List.map_map] at this
  exact this

variable [DecidableEq K] [Star K] {cut : Cutoff K}

theorem embed_sigmaX (i : Fin N) (x x' : Fin N → ℤ) (hx : IsSpins x) (hx' : IsSpins x') :
    embed (halfSpins N) (sigmaX (K := K)).f [i] x x' = pauliX i x x' := by
  rw [embed_site]
  unfold pauliX
  by_cases h : ∀ s, s ≠ i → x s = x' s
  · rw [if_pos h]
    have h2 : (x' i = -x i ∧ ∀ s, s ≠ i → x' s = x s) ↔ x' i = -x i :=
      ⟨fun hc => hc.1, fun hc => ⟨hc, fun s hs => (h s hs).symm⟩⟩
    simp only [h2]
    rcases hx i with e | e <;> rcases hx' i with e' | e' <;> rw [e, e'] <;>
      simp [halfSpins, sigmaX]
  · rw [if_neg h, if_neg]
    exact fun hc => h fun s hs => (hc.2 s hs).symm

theorem embed_sigmaZ (i : Fin N) (x x' : Fin N → ℤ) (hx : IsSpins x) (hx' : IsSpins x') :
    embed (halfSpins N) (sigmaZ (K := K)).f [i] x x' = if x = x' then ((-x i : ℤ) : K) else 0 := by
  rw [embed_site]
  by_cases h : ∀ s, s ≠ i → x s = x' s
  · rw [if_pos h]
    have hiff : x = x' ↔ x i = x' i := by
      refine ⟨fun e => by rw [e], fun e => ?_⟩
      funext s
      by_cases hs : s = i
      · rw [hs, e]
      · exact h s hs
    simp only [hiff]
    rcases hx i with e | e <;> rcases hx' i with e' | e' <;> rw [e, e'] <;>
      simp [halfSpins, sigmaZ]
  · rw [if_neg h, if_neg]
    rintro rfl
    exact h fun _ _ => rfl

theorem ising_toLocal_rep (hid : Ideal cut) (op : Ising K N) :
    RepE (halfSpins N) (op.toLocal cut) (isingMatrix op.h op.J op.edges) := by
  have hs := halfSpins_sorted (N := N)
  have hu := halfSpins_uniform (N := N)
  have site : ∀ (m : Mat K) (i : Fin N), m.n = 2 →
      RepE (halfSpins N) (LocalOp.mk cut (halfSpins N) 0 [(m, [i])]) (embed (halfSpins N) m.f [i]) :=
    fun m i hm => repE_site hid hs m i (by rw [hm]; rfl)
  obtain ⟨z, z1, z2⟩ := repE_zero (cut := cut) (hi := halfSpins N) hid hs
  unfold Ising.toLocal
  simp only
  rw [z1]
  simp only
  -- the field
  have hA : RepE (halfSpins N) (if op.h ≠ 0 then
        subTerms cut (halfSpins N) z ((List.finRange N).map fun i =>
          scaled cut (halfSpins N) op.h (LocalOp.mk cut (halfSpins N) 0 [(sigmaX, [i])]))
      else .ok z) fun x x' => -op.h * (∑ i, pauliX i x x') := by
    by_cases h0 : op.h = 0
    · rw [if_neg (by simpa using h0)]
      exact ⟨z, rfl, z2.1, fun x x' hx hx' => by rw [z2.2 x x' hx hx', h0]; simp⟩
    · rw [if_pos h0]
      have := repE_subTerms hid hs (List.finRange N)
        (fun i => scaled cut (halfSpins N) op.h (LocalOp.mk cut (halfSpins N) 0 [(sigmaX, [i])]))
        _ (fun i _ => repE_scaled hid hs op.h (site sigmaX i rfl)) z _ z2
      refine this.congr fun x x' hx hx' => ?_
      rw [valid_halfSpins] at hx hx'
      rw [zero_sub, neg_mul, Finset.mul_sum, Fin.sum_univ_def]
      congr 2
      apply List.map_congr_left
      intro i _
      rw [embed_sigmaX i x x' hx hx']
  obtain ⟨a, a1, a2⟩ := hA
  rw [a1]
  simp only
  by_cases h0 : op.J = 0
  · rw [if_neg (by simpa using h0)]
    exact ⟨a, rfl, a2.1, fun x x' hx hx' => by rw [a2.2 x x' hx hx']; simp [isingMatrix, h0]⟩
  · rw [if_pos h0]
    have := repE_addTerms hid op.edges
      (fun e => scaled cut (halfSpins N) op.J (times cut (halfSpins N)
        (LocalOp.mk cut (halfSpins N) 0 [(sigmaZ, [e.1])]) (LocalOp.mk cut (halfSpins N) 0 [(sigmaZ, [e.2])])))
      _ (fun e _ => repE_scaled hid hs op.J
        (repE_times hid hs hu (site sigmaZ e.1 rfl) (site sigmaZ e.2 rfl))) a _ a2
    refine this.congr fun x x' hx hx' => ?_
    unfold isingMatrix
    rw [← List.sum_map_mul_left]
    congr 2
    apply List.map_congr_left
    intro e _
    congr 1
    rw [matProd_congr (a' := fun x y => if x = y then ((-x e.1 : ℤ) : K) else 0)
      (b' := fun x y => if x = y then ((-x e.2 : ℤ) : K) else 0)
      (fun x y hx hy => embed_sigmaZ e.1 x y ((valid_halfSpins x).1 hx) ((valid_halfSpins y).1 hy))
      (fun x y hx hy => embed_sigmaZ e.2 x y ((valid_halfSpins x).1 hx) ((valid_halfSpins y).1 hy))
      x x' hx hx', matProd_diag _ _ x x' hx]
    unfold pauliZZ
    split_ifs
    · push_cast; ring
    · rfl

/-- C21: `to_local_operator()` succeeds and has the connected elements of the specialised kernel. -/
theorem C21_to_local_operator (hid : Ideal cut) (op : Ising K N) :
    ∃ l, op.toLocal cut = .ok l ∧ ∀ (gm : Nat → K) (gx : Nat → Fin N → ℤ) x x', IsSpins x → IsSpins x' →
      melAt (getConn (halfSpins N) l gm gx x) x' = melAt (op.row x) x' := by
  obtain ⟨l, h1, h2, h3⟩ := ising_toLocal_rep hid op
  refine ⟨l, h1, fun gm gx x x' hx hx' => ?_⟩
  rw [← valid_halfSpins] at hx hx'
  rw [getConn_sum halfSpins_sorted l h2.ok gm gx x x' hx hx', h3 x x' hx hx', C21_get_conn]

/-! ### C24 -/

/-- the matrix of an operand. -/
def Operand.matrix (o : Operand K N) (x x' : Fin N → ℤ) : K :=
  match o with
  | .loc op => matrixOf (halfSpins N) op x x'
  | .ham h => isingMatrix h.h h.J h.edges x x'

/-- local operators made by the API, and Ising objects. -/
def Operand.WF (cut : Cutoff K) : Operand K N → Prop
  | .loc op => Built cut (halfSpins N) op
  | .ham _ => True

/-- C24 (partial: the Hamiltonian stands on the left, or both are local operators). -/
theorem C24_matmul_order_partial (hid : Ideal cut) (a : Operand K N) (b : LOp K ℤ N) (ha : a.WF cut)
    (hb : Built cut (halfSpins N) b) :
    ∃ r, Operand.matmul cut a (.loc b) = .ok r ∧ ∀ x x', IsSpins x → IsSpins x' →
      matrixOf (halfSpins N) r x x'
        = matProd (halfSpins N) a.matrix (matrixOf (halfSpins N) b) x x' := by
  have hs := halfSpins_sorted (N := N)
  have hu := halfSpins_uniform (N := N)
  cases a with
  | loc a =>
    obtain ⟨r, r1, _, r3⟩ := opMatmul_ok hid hs hu a b (Built.good hid hs ha) (hb.good hid hs)
    refine ⟨r, r1, fun x x' hx hx' => ?_⟩
    rw [← valid_halfSpins] at hx hx'
    exact r3 x x' hx hx'
  | ham h =>
    obtain ⟨l, h1, h2, h3⟩ := ising_toLocal_rep hid h
    obtain ⟨r, r1, _, r3⟩ := opMatmul_ok hid hs hu l b h2 (hb.good hid hs)
    refine ⟨r, by simp only [Operand.matmul, h1]; exact r1, fun x x' hx hx' => ?_⟩
    rw [← valid_halfSpins] at hx hx'
    rw [r3 x x' hx hx']
    exact matProd_congr h3 (fun _ _ _ _ => rfl) x x' hx hx'

/-- what `B @ H` really is: the product in the opposite order. -/
theorem C24_reflected_is_swapped (hid : Ideal cut) (h : Ising K N) (b : LOp K ℤ N)
    (hb : Built cut (halfSpins N) b) :
    ∃ r, Operand.matmul cut (.loc b) (.ham h) = .ok r ∧ ∀ x x', IsSpins x → IsSpins x' →
      matrixOf (halfSpins N) r x x'
        = matProd (halfSpins N) (isingMatrix h.h h.J h.edges) (matrixOf (halfSpins N) b) x x' :=
  C24_matmul_order_partial hid (.ham h) b trivial hb

/-! ### C76 -/

/-- C76 (partial): the sum (difference) of two Ising Hamiltonians on the same edges, every node being
    covered by the numbering of the edges, denotes the sum (difference). -/
theorem C76_same_graph_partial (a b : Ising K N) (he : a.edges = b.edges)
    (hn : nodesOfEdges a.edges = N) :
    (∃ r, a.add b = .ok r ∧ ∀ x x', melAt (r.row x) x' = melAt (a.row x) x' + melAt (b.row x) x')
    ∧ ∃ r, a.sub b = .ok r ∧ ∀ x x', melAt (r.row x) x' = melAt (a.row x) x' - melAt (b.row x) x' := by
  have hc : a.copy = .ok a := by
    unfold Ising.copy Ising.mk?
    rw [if_pos hn]
  refine ⟨⟨a.iadd b, by simp [Ising.add, hc], fun x x' => ?_⟩,
    ⟨a.isub b, by simp [Ising.sub, hc], fun x x' => ?_⟩⟩
  · simp only [C21_get_conn, Ising.iadd, isingMatrix, he]; ring
  · simp only [C21_get_conn, Ising.isub, isingMatrix, he]; ring

/-- C76 (partial): sums with a local operator, in both orders. -/
theorem C76_local_sum_partial (hid : Ideal cut) (h : Ising K N) (b : LOp K ℤ N)
    (hb : Built cut (halfSpins N) b) (o : Operand K N)
    (ho : Operand.add cut (.ham h) (.loc b) = .ok o ∨ Operand.add cut (.loc b) (.ham h) = .ok o)
    (x x' : Fin N → ℤ) (hx : IsSpins x) (hx' : IsSpins x') :
    o.matrix x x' = isingMatrix h.h h.J h.edges x x' + matrixOf (halfSpins N) b x x' := by
  have hs := halfSpins_sorted (N := N)
  obtain ⟨l, h1, h2, h3⟩ := ising_toLocal_rep hid h
  obtain ⟨r, r1, _, r3⟩ := add_ok hid hs l b h2 (hb.good hid hs)
  rw [← valid_halfSpins] at hx hx'
  have : o = .loc r := by
    rcases ho with ho | ho <;> simp only [Operand.add, h1, r1, Except.ok.injEq] at ho <;> exact ho.symm
  subst this
  simp only [Operand.matrix]
  rw [r3 x x' hx hx', h3 x x' hx hx']

/-- C76 (partial): these sums and `H - B` always return. -/
theorem C76_local_returns_partial (hid : Ideal cut) (h : Ising K N) (b : LOp K ℤ N)
    (hb : Built cut (halfSpins N) b) :
    (∃ o, Operand.add cut (.ham h) (.loc b) = .ok o) ∧ (∃ o, Operand.add cut (.loc b) (.ham h) = .ok o)
    ∧ ∃ o, Operand.sub cut (.ham h) (.loc b) = .ok o ∧ ∀ x x', IsSpins x → IsSpins x' →
      o.matrix x x' = isingMatrix h.h h.J h.edges x x' - matrixOf (halfSpins N) b x x' := by
  have hs := halfSpins_sorted (N := N)
  obtain ⟨l, h1, h2, h3⟩ := ising_toLocal_rep hid h
  obtain ⟨r, r1, _, r3⟩ := add_ok hid hs l b h2 (hb.good hid hs)
  obtain ⟨q, q1, _, q3⟩ := sub_ok hid hs l b h2 (hb.good hid hs)
  refine ⟨⟨.loc r, by simp [Operand.add, h1, r1]⟩, ⟨.loc r, by simp [Operand.add, h1, r1]⟩,
    ⟨.loc q, by simp [Operand.sub, h1, q1], fun x x' hx hx' => ?_⟩⟩
  rw [← valid_halfSpins] at hx hx'
  simp only [Operand.matrix]
  rw [q3 x x' hx hx', h3 x x' hx hx']

end

/-! ### witnesses -/

/-- the two-site chain with one edge. -/
def chain2 : Ising ℤ 2 := ⟨1, 3, [(0, 1)]⟩

theorem sz_args2 : ArgsOK (halfSpins 2) [(sigmaZ (K := ℤ), [0])] := by
  intro p hp
  rw [List.mem_singleton] at hp; subst hp
  exact ⟨List.nodup_singleton _, List.cons_ne_nil _ _, by decide, halfSpins_uniform.reorderable _⟩

/-- C24 is false: `sigma^z @ H` is computed as `H @ sigma^z`. -/
theorem C24_matmul_order_refuted :
    ¬ ∀ (a b : Operand ℤ 2) (r : LOp ℤ ℤ 2), a.WF intCut → b.WF intCut →
      Operand.matmul intCut a b = .ok r → ∀ x x', IsSpins x → IsSpins x' →
      matrixOf (halfSpins 2) r x x' = matProd (halfSpins 2) a.matrix b.matrix x x' := by
  intro h
  have hw : (match LocalOp.mk intCut (halfSpins 2) 0 [(sigmaZ, [0])] with
      | .ok b => (match Operand.matmul intCut (.loc b) (.ham chain2) with
        | .ok r => decide (matrixOf (halfSpins 2) r ![1, 1] ![-1, 1]
            ≠ matProd (halfSpins 2) (matrixOf (halfSpins 2) b)
                (isingMatrix chain2.h chain2.J chain2.edges) ![1, 1] ![-1, 1])
        | .error _ => false)
      | .error _ => false) = true := by decide +kernel
  rcases hb : LocalOp.mk intCut (halfSpins 2) 0 [(sigmaZ (K := ℤ), [0])] with e | b
  · rw [hb] at hw; exact absurd hw Bool.false_ne_true
  rw [hb] at hw; simp only at hw
  rcases hr : Operand.matmul intCut (.loc b) (.ham chain2) with e | r
  · rw [hr] at hw; exact absurd hw Bool.false_ne_true
  rw [hr] at hw
  exact of_decide_eq_true hw (h (.loc b) (.ham chain2) r (.mk sz_args2 hb) trivial hr _ _
    (by unfold IsSpins; decide) (by unfold IsSpins; decide))

/-- C24 is false also in that the product of two different Ising objects raises. -/
theorem C24_product_of_hamiltonians_refuted :
    ¬ ∀ a b : Operand ℤ 2, a.WF intCut → b.WF intCut → ∃ r, Operand.matmul intCut a b = .ok r := by
  intro h
  obtain ⟨r, hr⟩ := h (.ham chain2) (.ham ⟨2, 1, [(0, 1)]⟩) trivial trivial
  simp [Operand.matmul] at hr

/-- C76 is false for different graphs: the edges of the second operand are ignored. -/
theorem C76_different_graphs_refuted :
    ¬ ∀ (a b r : Ising ℤ 3), a.add b = .ok r → ∀ x x', IsSpins x → IsSpins x' →
      melAt (r.row x) x' = melAt (a.row x) x' + melAt (b.row x) x' := by
  intro h
  have := h ⟨0, 1, [(1, 2)]⟩ ⟨0, 1, [(0, 2)]⟩ ⟨0, 2, [(1, 2)]⟩ (by rfl) ![1, -1, 1] ![1, -1, 1]
    (by unfold IsSpins; decide) (by unfold IsSpins; decide)
  revert this
  decide +kernel

/-- C76 is false for a graph whose last node is isolated: `H + H'` (and `copy()`) fail an assertion. -/
theorem C76_isolated_node_refuted :
    ¬ ∀ (a b : Ising ℤ 3), (∃ n, Ising.mk? n a.edges a.h a.J = .ok a) → ∃ r, a.add b = .ok r := by
  intro h
  obtain ⟨r, hr⟩ := h ⟨1, 1, [(0, 1)]⟩ ⟨1, 1, [(0, 1)]⟩ ⟨3, rfl⟩
  revert hr
  simp [Ising.add, Ising.copy, Ising.mk?, nodesOfEdges]

/-- C76 is false for `B - H` with a local operator `B`: it raises. -/
theorem C76_local_minus_hamiltonian_refuted :
    ¬ ∀ (b : LOp ℤ ℤ 2) (h : Ising ℤ 2), Built intCut (halfSpins 2) b →
      ∃ r, Operand.sub intCut (.loc b) (.ham h) = .ok r := by
  intro h
  obtain ⟨b, hb, -⟩ := mk_ok intCut_ideal halfSpins_sorted 0 _ sz_args2
  obtain ⟨r, hr⟩ := h b chain2 (.mk sz_args2 hb)
  simp [Operand.sub] at hr

/-- C21 instances: a triangle with one doubled edge. -/
example : (Ising.row (⟨2, 3, [(0, 1), (1, 2), (0, 2), (0, 1)]⟩ : Ising ℤ 3) ![1, -1, 1]).map Prod.snd
    = [-6, -2, -2, -2] := by decide +kernel
example : IsSpins (![1, -1, 1] : Fin 3 → ℤ) := by unfold IsSpins; decide
/-- C24, C76 instances: a Hamiltonian, a local operator that does not commute with it. -/
example : ∃ b : LOp ℤ ℤ 2, Built intCut (halfSpins 2) b ∧ Operand.WF intCut (.ham chain2) ∧ Ideal intCut
    ∧ nodesOfEdges chain2.edges = 2 := by
  obtain ⟨b, hb, -⟩ := mk_ok intCut_ideal halfSpins_sorted 0 _ sz_args2
  exact ⟨b, .mk sz_args2 hb, trivial, intCut_ideal, by decide⟩

end Verif.Ham

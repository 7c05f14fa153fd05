import Mathlib.Data.Sym.Sym2
import Mathlib.GroupTheory.Perm.Basic
import Mathlib.Algebra.Order.BigOperators.Group.List
import Mathlib.Tactic.Ring
import Mathlib.Tactic.LinearCombination
import Mathlib.Tactic.Linarith
import Verif.Props.Bose
import Verif.Props.GraphOperator
import Verif.Props.GraphAlgo
import Verif.Props.LocalValues

/-! C227 (Hamiltonians on a graph inherit the symmetries of the graph), C228 (the sign rule of `Heisenberg`). -/

set_option linter.unusedSectionVars false

namespace Verif.Ham
open Verif.Hilbert Verif.LocalOp Verif.LocalValues

/-! ### specification -/

/-- the permutation `p` of the nodes maps the list of undirected edges onto itself. -/
def EdgeSym {N : Nat} (edges : List (Fin N × Fin N)) (p : Equiv.Perm (Fin N)) : Prop :=
  (edges.map fun e => s(p e.1, p e.2)).Perm (edges.map fun e => s(e.1, e.2))

/-- the same, colour by colour. -/
def ColourSym {N : Nat} (edges : List ((Fin N × Fin N) × ℤ)) (p : Equiv.Perm (Fin N)) : Prop :=
  (edges.map fun e => (s(p e.1.1, p e.1.2), e.2)).Perm (edges.map fun e => (s(e.1.1, e.1.2), e.2))

/-- a two-site matrix on equal local spaces of `d` states that does not distinguish its sites. -/
def SwapSym {K : Type} (d : Nat) (m : Nat → Nat → K) : Prop :=
  ∀ a b a' b', a < d → b < d → a' < d → b' < d → m (a * d + b) (a' * d + b') = m (b * d + a) (b' * d + a')

/-- the sign of a spin configuration under a rotation by pi around z of the sites of one sublattice. -/
def subSign {N : Nat} (col : Fin N → Bool) (x : Fin N → ℤ) : ℤ := ∏ i, if col i then x i else 1

/-- the same operator with spins of one sublattice flipped: `sz -> -sz` there. -/
def flipSub {N : Nat} (col : Fin N → Bool) (x : Fin N → ℤ) : Fin N → ℤ := fun i => if col i then -x i else x i

/-- the operator applying the same 2x2 matrix `U` to every spin. -/
def globalRot {K : Type} [CommRing K] {N : Nat} (U : ℤ → ℤ → K) (x x' : Fin N → ℤ) : K := ∏ i, U (x i) (x' i)

/-! ### lemmas -/

section
variable {K : Type} [CommRing K] {N : Nat}

theorem edgeSym_sum {edges : List (Fin N × Fin N)} {p : Equiv.Perm (Fin N)} (h : EdgeSym edges p)
    (F : Fin N → Fin N → K) (hF : ∀ i j, F i j = F j i) :
    (edges.map fun e => F (p e.1) (p e.2)).sum = (edges.map fun e => F e.1 e.2).sum := by
  have := (h.map (Sym2.lift ⟨F, hF⟩)).sum_eq
  simpa [List.map_map, Function.comp_def] using this

theorem colourSym_sum {edges : List ((Fin N × Fin N) × ℤ)} {p : Equiv.Perm (Fin N)} (h : ColourSym edges p)
    (F : ℤ → Fin N → Fin N → K) (hF : ∀ c i j, F c i j = F c j i) :
    (edges.map fun e => F e.2 (p e.1.1) (p e.1.2)).sum = (edges.map fun e => F e.2 e.1.1 e.1.2).sum := by
  have := (h.map (fun q : Sym2 (Fin N) × ℤ => Sym2.lift ⟨F q.2, hF q.2⟩ q.1)).sum_eq
  simpa [List.map_map, Function.comp_def] using this

theorem sum_list_swap {β γ : Type} (s : Finset β) (l : List γ) (f : γ → β → K) :
    ∑ y ∈ s, (l.map fun e => f e y).sum = (l.map fun e => ∑ y ∈ s, f e y).sum := by
  induction l with
  | nil => simp
  | cons a l ih => simp [Finset.sum_add_distrib, ih]

theorem comp_perm_eq {α : Type} (p : Equiv.Perm (Fin N)) (x y : Fin N → α) :
    (fun i => x (p i)) = (fun i => y (p i)) ↔ x = y := by
  constructor
  · intro h
    funext i
    simpa using congrFun h (p.symm i)
  · rintro rfl; rfl

theorem forall_perm (p : Equiv.Perm (Fin N)) (P : Fin N → Prop) : (∀ i, P (p i)) ↔ ∀ i, P i :=
  ⟨fun h i => by simpa using h (p.symm i), fun h i => h _⟩

theorem pauliX_perm (p : Equiv.Perm (Fin N)) (i : Fin N) (x x' : Fin N → ℤ) :
    (pauliX i (fun s => x (p s)) (fun s => x' (p s)) : K) = pauliX (p i) x x' := by
  unfold pauliX
  congr 1
  rw [← forall_perm p (fun s => s ≠ p i → x' s = x s)]
  simp

theorem hop_perm (sq : Nat → K) (p : Equiv.Perm (Fin N)) (i j : Fin N) (x x' : Fin N → ℕ) :
    hop sq i j (fun s => x (p s)) (fun s => x' (p s)) = hop sq (p i) (p j) x x' := by
  unfold hop
  congr 1
  rw [← forall_perm p (fun s => s ≠ p i → s ≠ p j → x s = x' s)]
  simp

end

/-! ### C227 -/

section
variable {K : Type} [CommRing K] {N : Nat}

/-- C227 for `Ising`: relabelling the sites by a symmetry of the graph, and flipping all spins, leave the
    matrix elements of `get_conn` unchanged. -/
theorem C227_ising (op : Ising K N) (p : Equiv.Perm (Fin N)) (hp : EdgeSym op.edges p) (x x' : Fin N → ℤ) :
    melAt (op.row fun s => x (p s)) (fun s => x' (p s)) = melAt (op.row x) x'
    ∧ melAt (op.row fun s => -x s) (fun s => -x' s) = melAt (op.row x) x' := by
  constructor
  · rw [C21_get_conn, C21_get_conn]
    unfold isingMatrix
    congr 2
    · simp_rw [pauliX_perm]
      exact Equiv.sum_comp p fun i => (pauliX i x x' : K)
    · rw [← edgeSym_sum hp (fun i j => (pauliZZ i j x x' : K)) (by intro i j; simp [pauliZZ, mul_comm])]
      apply congrArg List.sum
      apply List.map_congr_left
      intro e _
      simp only [pauliZZ, comp_perm_eq]
  · rw [C21_get_conn, C21_get_conn]
    unfold isingMatrix
    congr 2
    · apply Finset.sum_congr rfl
      intro i _
      simp only [pauliX, neg_inj]
    · apply congrArg List.sum
      apply List.map_congr_left
      intro e _
      have h : ((fun s => -x s) = fun s => -x' s) ↔ x = x' :=
        ⟨fun h => funext fun s => neg_inj.1 (congrFun h s), by rintro rfl; rfl⟩
      simp only [pauliZZ, h, neg_mul_neg]

/-- C227 for `BoseHubbard`. -/
theorem C227_bose (R : Roots K) (op : Bose K N) (hne : ∀ e ∈ op.edges, e.1 ≠ e.2) (p : Equiv.Perm (Fin N))
    (hp : EdgeSym op.edges p) (x x' : Fin N → ℕ) (hx' : InFock op.nMax x') :
    melAt (op.getConn R fun s => x (p s)) (fun s => x' (p s)) = melAt (op.getConn R x) x' := by
  rw [C22_get_conn_is_kernel, C22_get_conn_is_kernel, C22_get_conn R op hne _ _ (fun s => hx' (p s)),
    C22_get_conn R op hne _ _ hx']
  unfold boseMatrix
  congr 1
  · simp only [comp_perm_eq]
    congr 2
    · exact Equiv.sum_comp p fun i => (R.half * op.U * ((x i : K) * ((x i : K) - 1)) - op.mu * (x i : K))
    · rw [← edgeSym_sum hp (fun i j => (x i : K) * (x j : K)) (fun i j => mul_comm _ _)]
  · congr 1
    rw [← edgeSym_sum hp (fun i j => hop R.sq i j x x' + hop R.sq j i x x') (fun i j => add_comm _ _)]
    simp only [hop_perm]

end

section
variable {K : Type} [CommRing K] [DecidableEq K] [Star K] {α : Type} [LinearOrder α] [Inhabited α] {N : Nat}
  {hi : Fin N → List α} {cut : Cutoff K}

theorem lexIdx_perm (p : Equiv.Perm (Fin N)) (hhi : ∀ i, hi (p i) = hi i) (l : List (Fin N)) (x : Fin N → α) :
    lexIdx hi l (fun s => x (p s)) = lexIdx hi (l.map p) x := by
  unfold lexIdx
  simp only [List.map_map, Function.comp_def, hhi]

theorem embed_perm (p : Equiv.Perm (Fin N)) (hhi : ∀ i, hi (p i) = hi i) (m : Nat → Nat → K) (l : List (Fin N))
    (x x' : Fin N → α) :
    embed hi m l (fun s => x (p s)) (fun s => x' (p s)) = embed hi m (l.map p) x x' := by
  unfold embed
  rw [lexIdx_perm p hhi, lexIdx_perm p hhi]
  congr 1
  rw [← forall_perm p (fun s => s ∉ l.map p → x s = x' s)]
  simp

theorem embed_swap {d : Nat} {m : Nat → Nat → K} (hm : SwapSym d m) (i j : Fin N)
    (hd : ∀ i, (hi i).length = d) (x x' : Fin N → α) (hx : Valid hi x) (hx' : Valid hi x') :
    embed hi m [i, j] x x' = embed hi m [j, i] x x' := by
  have hlt : ∀ y : Fin N → α, Valid hi y → ∀ k, (hi k).idxOf (y k) < d := by
    intro y hy k
    rw [← hd k]
    exact List.idxOf_lt_length_of_mem (hy k)
  unfold embed
  have h1 : (∀ s, s ∉ [i, j] → x s = x' s) ↔ (∀ s, s ∉ [j, i] → x s = x' s) := by
    simp only [List.mem_cons, List.not_mem_nil, or_false, not_or]
    exact ⟨fun h s hs => h s hs.symm, fun h s hs => h s hs.symm⟩
  simp only [h1]
  congr 1
  simpa [lexIdx, Verif.Radix.enc, hd] using
    hm _ _ _ _ (hlt x hx i) (hlt x hx j) (hlt x' hx' i) (hlt x' hx' j)

/-- C227 for `GraphOperator`: on equal local spaces, if the bond operators do not distinguish their sites, relabelling
    the sites by a symmetry of the coloured graph leaves the matrix unchanged. -/
theorem C227_graph_operator (hid : Ideal cut) (hs : SortedSpace hi) (L : List α) (hL : ∀ i, hi i = L)
    (edges : List ((Fin N × Fin N) × ℤ)) (siteOps bondOps : List (Mat K)) (colors : List ℤ)
    (h : GraphArgs hi edges siteOps bondOps)
    (hc : (colors ≠ [] ∧ bondOps.length = colors.length) ∨ (colors = [] ∧ bondOps.length = 1))
    (hb : ∀ m ∈ bondOps, SwapSym L.length m.f) (p : Equiv.Perm (Fin N)) (hp : ColourSym edges p) :
    ∃ op, graphOperator cut hi N edges siteOps bondOps colors = .ok op
      ∧ ∀ x x', Valid hi x → Valid hi x' →
        matrixOf hi op (fun s => x (p s)) (fun s => x' (p s)) = matrixOf hi op x x' := by
  obtain ⟨op, h1, h2⟩ := C25_graph_operator hid hs edges siteOps bondOps colors h hc
  refine ⟨op, h1, fun x x' hx hx' => ?_⟩
  have hv : ∀ y : Fin N → α, Valid hi y → Valid hi (fun s => y (p s)) := by
    intro y hy s
    have := hy (p s)
    rwa [hL] at this ⊢
  rw [(h2 (fun _ => 0) (fun _ => x) _ _ (hv x hx) (hv x' hx')).1, (h2 (fun _ => 0) (fun _ => x) _ _ hx hx').1]
  have hhi : ∀ i, hi (p i) = hi i := fun i => by rw [hL, hL]
  unfold graphMatrix
  congr 1
  · simp only [embed_perm p hhi, List.map_cons, List.map_nil]
    exact Equiv.sum_comp p fun i => (siteOps.map fun m => embed hi m.f [i] x x').sum
  · simp only [embed_perm p hhi, List.map_cons, List.map_nil]
    refine colourSym_sum hp (fun c i j => ∑ k : Fin bondOps.length,
        if byColour colors k c then embed hi (bondOps[k]).f [i, j] x x' else 0) ?_
    intro c i j
    apply Finset.sum_congr rfl
    intro k _
    rw [embed_swap (m := (bondOps[k]).f) (hb _ (List.getElem_mem _)) i j (fun i => by rw [hL]) x x' hx hx']

end

/-! ### Heisenberg -/

section
variable {K : Type} [CommRing K] {N : Nat}

/-- exchange of the spins of two sites. -/
def exch (i j : Fin N) (x : Fin N → ℤ) : Fin N → ℤ := fun t => x (Equiv.swap i j t)

theorem exch_eq (i j : Fin N) (x : Fin N → ℤ) :
    (fun t => if t = i then x j else if t = j then x i else x t) = exch i j x := by
  funext t
  unfold exch
  rw [Equiv.swap_apply_def]
  split_ifs <;> rfl

theorem heis_bond (i j : Fin N) (x x' : Fin N → ℤ) (hx : IsSpins x) (s : K) :
    ((if x = x' then ((x i * x j : ℤ) : K) else 0)
      + s * (if x i ≠ x j ∧ x' = exch i j x then 2 else 0))
    = (if x = x' then ((x i * x j : ℤ) : K) - (if x i = x j then 2 * s else 0) else 0)
      + s * (if x' = exch i j x then 2 else 0) := by
  by_cases h : x i = x j
  · have he : exch i j x = x := by
      funext t
      unfold exch
      rw [Equiv.swap_apply_def]
      split_ifs with h1 h2
      · rw [h1, h]
      · rw [h2, h]
      · rfl
    rw [he]
    by_cases hxx : x = x'
    · subst hxx; simp [h]; ring
    · simp [hxx, h, Ne.symm hxx, eq_comm]
  · simp [h]

theorem heisMatrix_exch (J s : K) (edges : List ((Fin N × Fin N) × ℤ)) (x x' : Fin N → ℤ) :
    heisMatrix J s edges x x' = J * (edges.map fun e =>
      (if x = x' then ((x e.1.1 * x e.1.2 : ℤ) : K) else 0)
      + s * (if x e.1.1 ≠ x e.1.2 ∧ x' = exch e.1.1 e.1.2 x then 2 else 0)).sum := by
  unfold heisMatrix
  simp only [exch_eq]

theorem exch_comm (i j : Fin N) (x : Fin N → ℤ) : exch i j x = exch j i x := by
  unfold exch; rw [Equiv.swap_comm]

theorem exch_perm (p : Equiv.Perm (Fin N)) (i j : Fin N) (x : Fin N → ℤ) :
    exch i j (fun s => x (p s)) = fun s => exch (p i) (p j) x (p s) := by
  funext t
  unfold exch
  congr 1
  rw [Equiv.swap_apply_def, Equiv.swap_apply_def]
  simp only [p.injective.eq_iff]
  split_ifs <;> rfl

theorem sum_exch (i j : Fin N) (x : Fin N → ℤ) : ∑ s, exch i j x s = ∑ s, x s :=
  Equiv.sum_comp (Equiv.swap i j) x

theorem isSpins_exch {i j : Fin N} {x : Fin N → ℤ} (h : IsSpins x) : IsSpins (exch i j x) := fun s => h _

theorem isSpins_iff_mem (x : Fin N → ℤ) : x ∈ basisStates (halfSpins N) ↔ IsSpins x := by
  rw [Verif.LocalOp.mem_basis]; exact valid_halfSpins x

end

section
variable {K : Type} [CommRing K] [DecidableEq K] [Star K] {N : Nat} {cut : Cutoff K}

/-- C227 for `Heisenberg`, with and without the sign rule: the matrix is unchanged by a relabelling of the sites by a
    symmetry of the graph and by a flip of all spins, and it joins only configurations of the same magnetisation. -/
theorem C227_heisenberg (hid : Ideal cut) (edges : List ((Fin N × Fin N) × ℤ)) (bip : Bool) (J : K)
    (rule : Option Bool) (he : ∀ e ∈ edges, e.1.1 ≠ e.1.2) (hr : rule = some true → bip = true)
    (p : Equiv.Perm (Fin N)) (hp : EdgeSym (edges.map Prod.fst) p) :
    ∃ op, heisenberg cut N edges bip J rule = .ok op ∧ ∀ x x', IsSpins x → IsSpins x' →
      matrixOf (halfSpins N) op (fun s => x (p s)) (fun s => x' (p s)) = matrixOf (halfSpins N) op x x'
      ∧ matrixOf (halfSpins N) op (fun s => -x s) (fun s => -x' s) = matrixOf (halfSpins N) op x x'
      ∧ (matrixOf (halfSpins N) op x x' ≠ 0 → ∑ s, x s = ∑ s, x' s) := by
  obtain ⟨op, h1, h2⟩ := C25_heisenberg hid edges bip J rule he hr
  refine ⟨op, h1, fun x x' hx hx' => ?_⟩
  have hneg : ∀ y : Fin N → ℤ, IsSpins y → IsSpins (fun s => -y s) := by
    intro y hy s
    rcases hy s with h | h <;> simp [h]
  rw [h2 _ _ (fun s => hx (p s)) (fun s => hx' (p s)), h2 _ _ (hneg x hx) (hneg x' hx'), h2 _ _ hx hx']
  simp only [heisMatrix_exch]
  generalize (if rule.getD bip then (-1 : K) else 1) = sg
  refine ⟨?_, ?_, ?_⟩
  · congr 1
    have := edgeSym_sum hp (fun i j => ((if x = x' then ((x i * x j : ℤ) : K) else 0)
      + sg * (if x i ≠ x j ∧ x' = exch i j x then 2 else 0)))
      (by intro i j; rw [mul_comm (x i), exch_comm i j]; simp only [ne_comm (a := x i)])
    simp only [List.map_map, Function.comp_def] at this
    rw [← this]
    apply congrArg List.sum
    apply List.map_congr_left
    intro e _
    rw [exch_perm]
    simp only [comp_perm_eq]
  · congr 2
    apply List.map_congr_left
    intro e _
    have h : ∀ y z : Fin N → ℤ, ((fun s => -y s) = fun s => -z s) ↔ y = z := fun y z =>
      ⟨fun h => funext fun s => neg_inj.1 (congrFun h s), by rintro rfl; rfl⟩
    have hn : exch e.1.1 e.1.2 (fun s => -x s) = fun s => -exch e.1.1 e.1.2 x s := rfl
    rw [hn]
    simp only [h, neg_mul_neg, ne_eq, neg_inj]
  · intro hne
    by_contra hsum
    apply hne
    have hz : ∀ e ∈ edges, ((if x = x' then ((x e.1.1 * x e.1.2 : ℤ) : K) else 0)
      + sg * (if x e.1.1 ≠ x e.1.2 ∧ x' = exch e.1.1 e.1.2 x then 2 else 0)) = 0 := by
      intro e _
      rw [if_neg (fun h => hsum (by rw [h])), if_neg (fun h => hsum (by rw [h.2, sum_exch]))]
      simp
    rw [List.map_congr_left hz]
    simp

/-! ### C228 -/

/-- C228, the sign rule: on a graph with the two sublattices `col`, the operator with the sign rule is the operator
    without it in the basis where every configuration is multiplied by `subSign`, a rotation of one
    sublattice by pi around z. -/
theorem C228_sign_rule (hid : Ideal cut) (edges : List ((Fin N × Fin N) × ℤ)) (J : K)
    (he : ∀ e ∈ edges, e.1.1 ≠ e.1.2) (col : Fin N → Bool) (hcol : ∀ e ∈ edges, col e.1.1 ≠ col e.1.2)
    (rule : Option Bool) (hr : rule ≠ some false) :
    ∃ op op', heisenberg cut N edges true J rule = .ok op ∧ heisenberg cut N edges true J (some false) = .ok op'
      ∧ ∀ x x', IsSpins x → IsSpins x' →
        subSign col x * subSign col x = 1
        ∧ matrixOf (halfSpins N) op x x'
          = (subSign col x : K) * matrixOf (halfSpins N) op' x x' * (subSign col x' : K) := by
  obtain ⟨op, h1, h2⟩ := C25_heisenberg hid edges true J rule he (fun _ => rfl)
  obtain ⟨op', h1', h2'⟩ := C25_heisenberg hid edges true J (some false) he (by simp)
  refine ⟨op, op', h1, h1', fun x x' hx hx' => ?_⟩
  have hsq : ∀ y : Fin N → ℤ, IsSpins y → subSign col y * subSign col y = 1 := by
    intro y hy
    unfold subSign
    rw [← Finset.prod_mul_distrib]
    apply Finset.prod_eq_one
    intro i _
    rcases hy i with h | h <;> cases hc : col i <;> simp [h]
  have hg : rule.getD true = true := by
    cases rule with
    | none => rfl
    | some b => cases b <;> simp_all
  refine ⟨hsq x hx, ?_⟩
  rw [h2 _ _ hx hx', h2' _ _ hx hx', heisMatrix_exch, heisMatrix_exch, hg]
  simp only [if_true, Option.getD_some, Bool.false_eq_true, if_false]
  rw [show ∀ a b c : K, a * (J * b) * c = J * (b * (a * c)) from fun a b c => by ring]
  congr 1
  rw [← List.sum_map_mul_right]
  apply congrArg List.sum
  apply List.map_congr_left
  intro e hmem
  have hsg : x e.1.1 ≠ x e.1.2 → subSign col (exch e.1.1 e.1.2 x) = - subSign col x := by
    intro hne
    have hij := he e hmem
    have hc := hcol e hmem
    have hsum : ∀ y : Fin N → ℤ, subSign col y
        = (if col e.1.1 then y e.1.1 else 1) * ((if col e.1.2 then y e.1.2 else 1)
          * ∏ i ∈ (Finset.univ.erase e.1.1).erase e.1.2, if col i then y i else 1) := by
      intro y
      unfold subSign
      rw [← Finset.mul_prod_erase Finset.univ _ (Finset.mem_univ e.1.1),
        ← Finset.mul_prod_erase _ _ (Finset.mem_erase.2 ⟨hij.symm, Finset.mem_univ e.1.2⟩)]
    rw [hsum, hsum]
    have h3 : (∏ i ∈ (Finset.univ.erase e.1.1).erase e.1.2, if col i then exch e.1.1 e.1.2 x i else 1)
        = ∏ i ∈ (Finset.univ.erase e.1.1).erase e.1.2, if col i then x i else 1 := by
      apply Finset.prod_congr rfl
      intro i hi
      rw [Finset.mem_erase, Finset.mem_erase] at hi
      unfold exch
      rw [Equiv.swap_apply_of_ne_of_ne hi.2.1 hi.1]
    rw [h3]
    have e1 : exch e.1.1 e.1.2 x e.1.1 = x e.1.2 := by simp [exch]
    have e2 : exch e.1.1 e.1.2 x e.1.2 = x e.1.1 := by simp [exch]
    rw [e1, e2]
    have hopp : x e.1.2 = - x e.1.1 := by
      rcases hx e.1.1 with h | h <;> rcases hx e.1.2 with h' | h' <;> simp_all
    rw [hopp]
    cases h1 : col e.1.1 <;> cases h2 : col e.1.2 <;> simp_all
  have hK : ∀ y : Fin N → ℤ, IsSpins y → ((subSign col y : ℤ) : K) * (subSign col y : K) = 1 := by
    intro y hy
    rw [← Int.cast_mul, hsq y hy, Int.cast_one]
  by_cases hxx : x = x'
  · subst hxx
    have hns : ¬ (x e.1.1 ≠ x e.1.2 ∧ x = exch e.1.1 e.1.2 x) := by
      rintro ⟨ha, hb⟩
      apply ha
      have := congrFun hb e.1.1
      simpa [exch] using this
    rw [if_neg hns, hK x hx]
    simp
  · rw [if_neg hxx]
    by_cases hb : x e.1.1 ≠ x e.1.2 ∧ x' = exch e.1.1 e.1.2 x
    · rw [if_pos hb, hb.2, hsg hb.1]
      push_cast
      linear_combination (2 : K) * hK x hx
    · rw [if_neg hb]; simp

/-- C228: without the sign rule the operator commutes with every operator that applies the same matrix to all spins
    (in particular with all global rotations). -/
theorem C228_rotations (hid : Ideal cut) (edges : List ((Fin N × Fin N) × ℤ)) (bip : Bool) (J : K)
    (he : ∀ e ∈ edges, e.1.1 ≠ e.1.2) (U : ℤ → ℤ → K) :
    ∃ op, heisenberg cut N edges bip J (some false) = .ok op ∧ ∀ x x', IsSpins x → IsSpins x' →
      matProd (halfSpins N) (matrixOf (halfSpins N) op) (globalRot U) x x'
        = matProd (halfSpins N) (globalRot U) (matrixOf (halfSpins N) op) x x' := by
  obtain ⟨op, h1, h2⟩ := C25_heisenberg hid edges bip J (some false) he (by simp)
  refine ⟨op, h1, fun x x' hx hx' => ?_⟩
  have hm : ∀ y z : Fin N → ℤ, IsSpins y → IsSpins z → matrixOf (halfSpins N) op y z
      = J * (edges.map fun e => 2 * (if z = exch e.1.1 e.1.2 y then (1 : K) else 0) - (if y = z then 1 else 0)).sum := by
    intro y z hy hz
    rw [h2 y z hy hz, heisMatrix_exch]
    congr 2
    apply List.map_congr_left
    intro e _
    simp only [Option.getD_some, Bool.false_eq_true, if_false]
    rw [heis_bond _ _ _ _ hy]
    have hd : ((y e.1.1 * y e.1.2 : ℤ) : K) - (if y e.1.1 = y e.1.2 then 2 * 1 else 0) = -1 := by
      rcases hy e.1.1 with h | h <;> rcases hy e.1.2 with h' | h' <;> rw [h, h'] <;> norm_num
    rw [hd]
    split_ifs <;> ring
  unfold matProd
  have hl : ∀ y ∈ basisStates (halfSpins N), matrixOf (halfSpins N) op x y * globalRot U y x'
      = J * (edges.map fun e => 2 * (if y = exch e.1.1 e.1.2 x then globalRot U y x' else 0)
        - (if x = y then globalRot U y x' else 0)).sum := by
    intro y hy
    rw [hm x y hx ((isSpins_iff_mem y).1 hy), mul_assoc, ← List.sum_map_mul_right]
    congr 2
    apply List.map_congr_left
    intro e _
    split_ifs <;> ring
  have hrr : ∀ y ∈ basisStates (halfSpins N), globalRot U x y * matrixOf (halfSpins N) op y x'
      = J * (edges.map fun e => 2 * (if y = exch e.1.1 e.1.2 x' then globalRot U x y else 0)
        - (if y = x' then globalRot U x y else 0)).sum := by
    intro y hy
    rw [hm y x' ((isSpins_iff_mem y).1 hy) hx', mul_left_comm, ← List.sum_map_mul_left]
    congr 2
    apply List.map_congr_left
    intro e _
    have : (x' = exch e.1.1 e.1.2 y) ↔ (y = exch e.1.1 e.1.2 x') := by
      constructor <;> (rintro rfl; funext t; simp [exch])
    simp only [this]
    split_ifs <;> ring
  rw [Finset.sum_congr rfl hl, Finset.sum_congr rfl hrr, ← Finset.mul_sum, ← Finset.mul_sum]
  congr 1
  rw [sum_list_swap, sum_list_swap]
  apply congrArg List.sum
  apply List.map_congr_left
  intro e _
  rw [Finset.sum_sub_distrib, Finset.sum_sub_distrib, ← Finset.mul_sum, ← Finset.mul_sum, Finset.sum_ite_eq',
    Finset.sum_ite_eq', Finset.sum_ite_eq, Finset.sum_ite_eq', if_pos ((isSpins_iff_mem _).2 (isSpins_exch hx)),
    if_pos ((isSpins_iff_mem _).2 (isSpins_exch hx')), if_pos ((isSpins_iff_mem _).2 hx), if_pos ((isSpins_iff_mem _).2 hx')]
  congr 2
  unfold globalRot exch
  rw [← Equiv.prod_comp (Equiv.swap e.1.1 e.1.2)]
  simp

end

/-! ### order of the matrix elements -/

/-- C228, the purpose of the rule: with `J ≥ 0` on a bipartite graph all matrix elements off the diagonal are at most
    zero. -/
theorem C228_stoquastic {K : Type} [CommRing K] [LinearOrder K] [IsStrictOrderedRing K] [Star K] {N : Nat} {cut : Cutoff K}
    (hid : Ideal cut) (edges : List ((Fin N × Fin N) × ℤ)) (J : K) (hJ : 0 ≤ J)
    (he : ∀ e ∈ edges, e.1.1 ≠ e.1.2) (rule : Option Bool) (hr : rule ≠ some false) :
    ∃ op, heisenberg cut N edges true J rule = .ok op ∧ ∀ x x', IsSpins x → IsSpins x' → x ≠ x' →
      matrixOf (halfSpins N) op x x' ≤ 0
      ∧ (0 < J → (matrixOf (halfSpins N) op x x' < 0 ↔ ∃ e ∈ edges, x e.1.1 ≠ x e.1.2 ∧ x' = exch e.1.1 e.1.2 x)) := by
  obtain ⟨op, h1, h2⟩ := C25_heisenberg hid edges true J rule he (fun _ => rfl)
  refine ⟨op, h1, fun x x' hx hx' hne => ?_⟩
  have hg : rule.getD true = true := by
    cases rule with
    | none => rfl
    | some b => cases b <;> simp_all
  rw [h2 _ _ hx hx', heisMatrix_exch, hg]
  simp only [if_neg hne, if_true, zero_add]
  have hterm : ∀ e ∈ edges, (0 : K) ≤ (if x e.1.1 ≠ x e.1.2 ∧ x' = exch e.1.1 e.1.2 x then 2 else 0) := by
    intro e _
    split_ifs
    · exact zero_le_two
    · exact le_refl 0
  have hsum : J * (edges.map fun e => -1 * (if x e.1.1 ≠ x e.1.2 ∧ x' = exch e.1.1 e.1.2 x then (2 : K) else 0)).sum
      = - (J * (edges.map fun e => if x e.1.1 ≠ x e.1.2 ∧ x' = exch e.1.1 e.1.2 x then (2 : K) else 0).sum) := by
    rw [List.sum_map_mul_left]; ring
  rw [hsum]
  have hpos : (0 : K) ≤ (edges.map fun e => if x e.1.1 ≠ x e.1.2 ∧ x' = exch e.1.1 e.1.2 x then (2 : K) else 0).sum := by
    apply List.sum_nonneg
    intro a ha
    obtain ⟨e, he', rfl⟩ := List.mem_map.1 ha
    exact hterm e he'
  refine ⟨neg_nonpos.2 (mul_nonneg hJ hpos), fun hJ' => ?_⟩
  rw [neg_lt_zero]
  constructor
  · intro h
    by_contra hno
    push Not at hno
    have hz : ∀ e ∈ edges, (if x e.1.1 ≠ x e.1.2 ∧ x' = exch e.1.1 e.1.2 x then (2 : K) else 0) = 0 := by
      intro e he'
      rw [if_neg (fun hh => hno e he' hh.1 hh.2)]
    rw [List.map_congr_left hz] at h
    simp at h
  · rintro ⟨e, he', h3⟩
    apply mul_pos hJ'
    obtain ⟨l, l', rfl⟩ := List.append_of_mem he'
    rw [List.map_append, List.sum_append, List.map_cons, List.sum_cons, if_pos h3]
    have ha : (0 : K) ≤ (l.map fun e => if x e.1.1 ≠ x e.1.2 ∧ x' = exch e.1.1 e.1.2 x then (2 : K) else 0).sum := by
      apply List.sum_nonneg
      intro a ha
      obtain ⟨e, he', rfl⟩ := List.mem_map.1 ha
      exact hterm e (by simp [he'])
    have hb : (0 : K) ≤ (l'.map fun e => if x e.1.1 ≠ x e.1.2 ∧ x' = exch e.1.1 e.1.2 x then (2 : K) else 0).sum := by
      apply List.sum_nonneg
      intro a ha
      obtain ⟨e, he', rfl⟩ := List.mem_map.1 ha
      exact hterm e (by simp [he'])
    have h2 : (0 : K) < 2 := zero_lt_two
    linarith

/-- C228 is false as documented ("a basis change flipping the Sz direction at every odd site"): flipping the spins of one
    sublattice in the operator without the rule does not give the operator with the rule. -/
theorem C228_flip_refuted :
    ¬ ∀ (edges : List ((Fin 2 × Fin 2) × ℤ)) (J : ℤ) (col : Fin 2 → Bool), (∀ e ∈ edges, col e.1.1 ≠ col e.1.2) →
      ∀ op op', heisenberg intCut 2 edges true J none = .ok op → heisenberg intCut 2 edges true J (some false) = .ok op' →
        ∀ x x', IsSpins x → IsSpins x' →
          matrixOf (halfSpins 2) op x x' = matrixOf (halfSpins 2) op' (flipSub col x) (flipSub col x') := by
  intro h
  have he : ∀ e ∈ ([((0, 1), 0)] : List ((Fin 2 × Fin 2) × ℤ)), e.1.1 ≠ e.1.2 := by decide
  obtain ⟨op, h1, h2⟩ := C25_heisenberg (cut := intCut) intCut_ideal [((0, 1), 0)] true (1 : ℤ) none he (by simp)
  obtain ⟨op', h1', h2'⟩ := C25_heisenberg (cut := intCut) intCut_ideal [((0, 1), 0)] true (1 : ℤ) (some false) he (by simp)
  have hx : IsSpins (fun _ : Fin 2 => (1 : ℤ)) := fun _ => Or.inr rfl
  have hy : IsSpins (flipSub (fun i : Fin 2 => i = 1) fun _ => (1 : ℤ)) := by
    unfold IsSpins; decide
  have := h [((0, 1), 0)] 1 (fun i => i = 1) (by decide) op op' h1 h1' (fun _ => 1) (fun _ => 1) hx hx
  rw [h2 _ _ hx hx, h2' _ _ hy hy] at this
  revert this
  simp only [heisMatrix]
  decide

/-! ### the symmetries listed by `automorphisms` -/

/-- the graph with nodes `0..N-1` and these coloured edges. -/
def toGraph {N : Nat} (edges : List ((Fin N × Fin N) × ℤ)) : Verif.Grf.Graph :=
  { n := N, es := edges.map fun e => ((((e.1.1 : Nat) : ℤ), ((e.1.2 : Nat) : ℤ)), e.2) }

theorem hasEdge_toGraph {N : Nat} (edges : List ((Fin N × Fin N) × ℤ)) (u v : Fin N) (c : ℤ) :
    Verif.Grf.HasEdge (toGraph edges) (u : Nat) (v : Nat) c
      ↔ (s(u, v), c) ∈ edges.map fun e => (s(e.1.1, e.1.2), e.2) := by
  have hinj : ∀ a b : Fin N, ((a : Nat) : ℤ) = ((b : Nat) : ℤ) ↔ a = b := fun a b => by
    rw [Int.natCast_inj, Fin.val_inj]
  simp only [Verif.Grf.HasEdge, toGraph, List.mem_map, Prod.mk.injEq, hinj, Sym2.eq_iff]
  constructor
  · rintro (⟨e, h1, ⟨h2, h3⟩, h4⟩ | ⟨e, h1, ⟨h2, h3⟩, h4⟩)
    · exact ⟨e, h1, Or.inl ⟨h2, h3⟩, h4⟩
    · exact ⟨e, h1, Or.inr ⟨h2, h3⟩, h4⟩
  · rintro ⟨e, h1, ⟨h2, h3⟩ | ⟨h2, h3⟩, h4⟩
    · exact Or.inl ⟨e, h1, ⟨h2, h3⟩, h4⟩
    · exact Or.inr ⟨e, h1, ⟨h2, h3⟩, h4⟩

/-- C227: on a graph without repeated edges every array listed by `automorphisms` (C169) is a symmetry of the edges in
    the sense of the theorems above, colour by colour and without colours. -/
theorem C227_automorphisms {N : Nat} (edges : List ((Fin N × Fin N) × ℤ))
    (hnd : (edges.map fun e => (s(e.1.1, e.1.2), e.2)).Nodup) (found : List (List Int))
    (hfound : ∀ q, q ∈ found ↔ Verif.Grf.IsAut (toGraph edges) q) (q : List Int)
    (hq : q ∈ Verif.Grf.automorphisms found) :
    ∃ p : Equiv.Perm (Fin N), (∀ i : Fin N, q[(i : Nat)]? = some ((p i : Nat) : ℤ)) ∧ ColourSym edges p
      ∧ EdgeSym (edges.map Prod.fst) p := by
  have hq' : Verif.Grf.IsAut (toGraph edges) q :=
    ((Verif.Grf.C169_automorphisms (toGraph edges) found hfound).2.1 q).1 hq
  obtain ⟨⟨hlen, hqn, hrange⟩, haut⟩ := hq'
  have hlen' : q.length = N := hlen
  have hget : ∀ i : Fin N, ∃ j : Fin N, q[(i : Nat)]? = some ((j : Nat) : ℤ) := by
    intro i
    have hi : (i : Nat) < q.length := by rw [hlen']; exact i.2
    obtain ⟨h0, h1⟩ := hrange q[(i : Nat)] (List.getElem_mem hi)
    have h1' : q[(i : Nat)] < (N : ℤ) := h1
    refine ⟨⟨(q[(i : Nat)]).toNat, by omega⟩, ?_⟩
    rw [List.getElem?_eq_getElem hi]
    simp [h0]
  choose f hf using hget
  have hfi : Function.Injective f := by
    intro a b hab
    have ha := hf a
    have hb := hf b
    rw [hab, ← hb] at ha
    have hlt : (a : Nat) < q.length := by rw [hlen']; exact a.2
    exact Fin.ext ((List.getElem?_inj hlt hqn).1 ha)
  have hbij : Function.Bijective f := Finite.injective_iff_bijective.1 hfi
  let p : Equiv.Perm (Fin N) := Equiv.ofBijective f hbij
  have hp : ∀ i, p i = f i := fun i => rfl
  have hcs : ColourSym edges p := by
    unfold ColourSym
    have hmap : (edges.map fun e => (s(p e.1.1, p e.1.2), e.2))
        = (edges.map fun e => (s(e.1.1, e.1.2), e.2)).map (Prod.map (Sym2.map p) id) := by
      simp [List.map_map, Function.comp_def]
    have hnd' : (edges.map fun e => (s(p e.1.1, p e.1.2), e.2)).Nodup := by
      rw [hmap]
      exact hnd.map (Function.Injective.prodMap (Sym2.map.injective p.injective) Function.injective_id)
    rw [List.perm_ext_iff_of_nodup hnd' hnd]
    rintro ⟨z, c⟩
    have key : ∀ u v : Fin N, (s(p u, p v), c) ∈ (edges.map fun e => (s(e.1.1, e.1.2), e.2))
        ↔ (s(u, v), c) ∈ (edges.map fun e => (s(e.1.1, e.1.2), e.2)) := by
      intro u v
      rw [← hasEdge_toGraph, ← hasEdge_toGraph]
      have := haut u v u.2 v.2 c
      rw [List.getD_eq_getElem?_getD, List.getD_eq_getElem?_getD, hf, hf] at this
      exact this.symm
    have hin : ∀ y : Sym2 (Fin N), (y, c) ∈ (edges.map fun e => (s(p e.1.1, p e.1.2), e.2))
        ↔ (y.map p.symm, c) ∈ (edges.map fun e => (s(e.1.1, e.1.2), e.2)) := by
      intro y
      rw [hmap, List.mem_map]
      constructor
      · rintro ⟨⟨w, d⟩, hw, heq⟩
        simp only [Prod.map_apply, id, Prod.mk.injEq] at heq
        obtain ⟨rfl, rfl⟩ := heq
        rw [Sym2.map_map]
        simpa using hw
      · intro h
        refine ⟨_, h, ?_⟩
        simp [Sym2.map_map]
    rw [hin]
    induction z with
    | _ a b =>
      have := key (p.symm a) (p.symm b)
      simp only [Equiv.apply_symm_apply] at this
      rw [Sym2.map_mk]
      exact this.symm
  refine ⟨p, hf, hcs, ?_⟩
  have := hcs.map Prod.fst
  simpa [EdgeSym, List.map_map, Function.comp_def] using this

/-! ### consequences for local energies -/

/-- C227: if the matrix of the operator is unchanged by a relabelling of the sites and the wave function is multiplied by
    a factor, the local values (`local_values`) of relabelled configurations are those of the configurations. -/
theorem C227_local_values {α : Type} [LinearOrder α] [Inhabited α] {N : Nat} {hi : Fin N → List α} {cut : Cutoff ℂ}
    (hid : Ideal cut) (hs : SortedSpace hi) (op : LOp ℂ α N) (h : Built cut hi op) (p : Equiv.Perm (Fin N))
    (hhi : ∀ i, hi (p i) = hi i)
    (hinv : ∀ x x', Valid hi x → Valid hi x' →
      matrixOf hi op (fun s => x (p s)) (fun s => x' (p s)) = matrixOf hi op x x')
    (gm : Nat → ℂ) (gx : Nat → Fin N → α) (logVal : (Fin N → α) → ℂ) (χ : ℂ)
    (hψ : ∀ x, Valid hi x → Complex.exp (logVal fun s => x (p s)) = χ * Complex.exp (logVal x))
    (v : List (Fin N → α)) (hv : ∀ x ∈ v, Valid hi x) :
    localValues hi op gm gx logVal 2 N (v.map fun x s => x (p s)) none = localValues hi op gm gx logVal 2 N v none := by
  have hval : ∀ x : Fin N → α, Valid hi (fun s => x (p s)) ↔ Valid hi x := by
    intro x
    unfold Valid
    rw [← forall_perm p (fun s => x s ∈ hi s)]
    simp only [hhi]
  rw [C93_local_values hid hs op h gm gx logVal v hv,
    C93_local_values hid hs op h gm gx logVal _ (by
      intro y hy
      obtain ⟨x, hx, rfl⟩ := List.mem_map.1 hy
      exact (hval x).2 (hv x hx)), List.map_map]
  congr 1
  apply List.map_congr_left
  intro x hx
  have hx' := hv x hx
  simp only [Function.comp_def]
  rw [hψ x hx']
  have hχ : χ ≠ 0 := by
    rintro rfl
    have := hψ x hx'
    rw [zero_mul] at this
    exact Complex.exp_ne_zero _ this
  have hsum : ∑ y ∈ basisStates hi, matrixOf hi op (fun s => x (p s)) y * Complex.exp (logVal y)
      = ∑ y ∈ basisStates hi, matrixOf hi op x y * (χ * Complex.exp (logVal y)) := by
    symm
    refine Finset.sum_bij (fun y _ s => y (p s)) ?_ ?_ ?_ ?_
    · intro y hy
      rw [Verif.LocalOp.mem_basis] at hy ⊢
      exact (hval y).2 hy
    · intro a _ b _ hab
      exact (comp_perm_eq p a b).1 hab
    · intro y hy
      refine ⟨fun s => y (p.symm s), ?_, ?_⟩
      · rw [Verif.LocalOp.mem_basis] at hy ⊢
        rw [← hval]
        simpa using hy
      · funext s; simp
    · intro y hy
      rw [Verif.LocalOp.mem_basis] at hy
      rw [hinv x y hx' hy, hψ y hy]
  rw [hsum]
  simp_rw [mul_left_comm _ χ]
  rw [← Finset.mul_sum, mul_div_mul_left _ _ hχ]

/-! ### witnesses -/

/-- the edges of a triangle and its rotation. -/
def triangle : List ((Fin 3 × Fin 3) × ℤ) := [((0, 1), 0), ((1, 2), 0), ((0, 2), 0)]

/-- the rotation `0 → 1 → 2 → 0`. -/
def rot3 : Equiv.Perm (Fin 3) := finRotate 3

theorem triangle_sym : ColourSym triangle rot3 := by unfold ColourSym; decide

/-- C227: the bond operators must not distinguish their sites: with `sz ⊗ 1` on the bonds of the triangle the operator
    is not symmetric under the rotation, which is a symmetry of the graph. -/
theorem C227_asymmetric_bond :
    ∃ (op : LOp ℤ ℤ 3) (x : Fin 3 → ℤ), graphOperator intCut (halfSpins 3) 3 triangle []
        [⟨4, fun i j => if i = j then (if i < 2 then 1 else -1) else 0⟩] [] = .ok op
      ∧ ColourSym triangle rot3 ∧ IsSpins x
      ∧ matrixOf (halfSpins 3) op (fun s => x (rot3 s)) (fun s => x (rot3 s)) ≠ matrixOf (halfSpins 3) op x x := by
  have hg : GraphArgs (halfSpins 3) triangle ([] : List (Mat ℤ))
      [⟨4, fun i j => if i = j then (if i < 2 then 1 else -1) else 0⟩] := by
    refine ⟨by simp, ?_, by decide, fun e _ => halfSpins_uniform.reorderable _⟩
    intro m' hm' e _
    rw [List.mem_singleton] at hm'
    rw [hm']; rfl
  obtain ⟨op, h1, h2⟩ := C25_graph_operator (cut := intCut) intCut_ideal halfSpins_sorted triangle [] _ [] hg
    (Or.inr ⟨rfl, rfl⟩)
  have hx : IsSpins (fun i : Fin 3 => if i = 0 then (1 : ℤ) else -1) := by unfold IsSpins; decide
  have hy : IsSpins (fun i : Fin 3 => (fun i : Fin 3 => if i = 0 then (1 : ℤ) else -1) (rot3 i)) := fun s => hx _
  refine ⟨op, fun i => if i = 0 then 1 else -1, h1, triangle_sym, hx, ?_⟩
  rw [(h2 (fun _ => 0) (fun _ _ => 0) _ _ ((valid_halfSpins _).2 hx) ((valid_halfSpins _).2 hx)).1,
    (h2 (fun _ => 0) (fun _ _ => 0) _ _ ((valid_halfSpins _).2 hy) ((valid_halfSpins _).2 hy)).1]
  decide +kernel

theorem triangle_edgeSym : EdgeSym (triangle.map Prod.fst) rot3 := by unfold EdgeSym; decide

/-- hypotheses of `C227_ising` on a triangle. -/
example := C227_ising (⟨2, 3, triangle.map Prod.fst⟩ : Ising ℤ 3) rot3 triangle_edgeSym
  (fun i => if i = 0 then 1 else -1) (fun _ => -1)

/-- hypotheses of `C227_heisenberg`: a triangle, which is not bipartite. -/
example := C227_heisenberg (cut := intCut) intCut_ideal triangle false 5 none (by decide) (by simp) rot3 triangle_edgeSym

/-- hypotheses of `C227_graph_operator`: the Heisenberg bond on a triangle. -/
example : SwapSym 2 (exchange : Mat ℤ).f ∧ ColourSym triangle rot3 ∧ (∀ e ∈ triangle, e.1.1 ≠ e.1.2)
    ∧ ∀ i, halfSpins 3 i = [-1, 1] := by
  refine ⟨?_, triangle_sym, by decide, fun _ => rfl⟩
  intro a b a' b' ha hb ha' hb'
  have h : ∀ n : Nat, n < 2 → n = 0 ∨ n = 1 := by omega
  rcases h a ha with rfl | rfl <;> rcases h b hb with rfl | rfl <;> rcases h a' ha' with rfl | rfl <;>
    rcases h b' hb' with rfl | rfl <;> rfl

/-- hypotheses of `C228_sign_rule` and `C228_stoquastic`: a path of three sites. -/
example := C228_sign_rule (cut := intCut) intCut_ideal ([((0, 1), 0), ((1, 2), 0)] : List ((Fin 3 × Fin 3) × ℤ)) 2
  (by decide) (fun i => i = 1) (by decide) none (by simp)

example := C228_stoquastic (cut := intCut) intCut_ideal ([((0, 1), 0), ((1, 2), 0)] : List ((Fin 3 × Fin 3) × ℤ)) 2
  (by decide) (by decide) none (by simp)

/-- hypotheses of `C228_rotations`: the total raising operator is a derivative of these; here spin flips of all sites. -/
example := C228_rotations (cut := intCut) intCut_ideal triangle false 5 (by decide) (fun a b => if a = b then 1 else 2)

/-- hypotheses of `C227_automorphisms`: two nodes joined by an edge, and their exchange. -/
example := C227_automorphisms ([((0, 1), 5)] : List ((Fin 2 × Fin 2) × ℤ)) (by decide) [[1, 0], [0, 1], [1, 0]]
  Verif.Grf.pair_automorphisms [1, 0] (by decide +kernel)

/-- hypotheses of `C227_local_values`: `Heisenberg` on two sites, their exchange, and a wave function of the total spin. -/
example : ∃ (cut : Cutoff ℂ) (op : LOp ℂ ℤ 2), Ideal cut ∧ Built cut (halfSpins 2) op
    ∧ heisenberg cut 2 [((0, 1), 0)] true 1 none = .ok op
    ∧ (∀ x x', Valid (halfSpins 2) x → Valid (halfSpins 2) x' →
      matrixOf (halfSpins 2) op (fun s => x (Equiv.swap 0 1 s)) (fun s => x' (Equiv.swap 0 1 s)) = matrixOf (halfSpins 2) op x x')
    ∧ ∀ x : Fin 2 → ℤ, Complex.exp ((x (Equiv.swap 0 1 0) + x (Equiv.swap 0 1 1) : ℤ) : ℂ)
      = 1 * Complex.exp ((x 0 + x 1 : ℤ) : ℂ) := by
  classical
  let cut : Cutoff ℂ := ⟨fun z => decide (z ≠ 0), fun z => decide (z ≠ 0)⟩
  have hid : Ideal cut := by constructor <;> simp [cut]
  have hsym : EdgeSym (([((0, 1), 0)] : List ((Fin 2 × Fin 2) × ℤ)).map Prod.fst) (Equiv.swap 0 1) := by
    unfold EdgeSym; decide
  obtain ⟨op, h1, h2⟩ := C227_heisenberg (cut := cut) hid [((0, 1), 0)] true (1 : ℂ) none (by decide) (by simp) _ hsym
  have ha : ArgsOK (halfSpins 2)
      [((⟨4, fun i j => 1 * (szsz.f i j - exchange.f i j)⟩ : Mat ℂ), ([0, 1] : List (Fin 2)))] := by
    intro q hq
    rw [List.mem_singleton] at hq
    subst hq
    exact ⟨by simp, by simp, by simp [dims, halfSpins], halfSpins_uniform.reorderable _⟩
  refine ⟨cut, op, hid, .mk ha h1, h1, fun x x' hx hx' => (h2 x x' ((valid_halfSpins _).1 hx) ((valid_halfSpins _).1 hx')).1, ?_⟩
  intro x
  simp [add_comm]

/-- hypotheses of `C227_bose`: three sites with at most two bosons each. -/
example := C227_bose ratRoots (⟨2, 3, 5, 7, 2, triangle.map Prod.fst⟩ : Bose ℚ 3) (by decide) rot3 triangle_edgeSym
  (fun i => if i = 0 then 2 else 1) (fun i => if i = 0 then 1 else 2) (by unfold InFock; decide)

end Verif.Ham

import Mathlib.Algebra.BigOperators.Fin
import Verif.Lemmas.Ham
import Verif.Props.LocalOpConn
import Verif.Props.LocalOpHeap
import Verif.Props.Ising

/-! C25 (GraphOperator, Heisenberg) and C77 (dtype of the constructor of LocalOperator). -/

set_option linter.unusedSectionVars false

namespace Verif.Ham
open Verif.Hilbert Verif.LocalOp

/-! ### specification -/

section
variable {K : Type} [CommRing K] {α : Type} [LinearOrder α] {N : Nat}

/-- sum of the site operators over the nodes and of the bond operators over the edges they apply to
    (`applies k e`: bond operator `k` applies to edges of the colour of `e`). -/
def graphMatrix (hi : Fin N → List α) (edges : List ((Fin N × Fin N) × ℤ)) (siteOps bondOps : List (Mat K))
    (colour : Nat → ℤ → Bool) (x x' : Fin N → α) : K :=
  (∑ i : Fin N, (siteOps.map fun m => embed hi m.f [i] x x').sum)
    + (edges.map fun e => ∑ k : Fin bondOps.length,
        if colour k e.2 then embed hi (bondOps[k]).f [e.1.1, e.1.2] x x' else 0).sum

/-- which bond operators apply: the listed colour, or every edge without a list of colours. -/
def byColour (colors : List ℤ) (k : Nat) (c : ℤ) : Bool := colors = [] ∨ colors[k]? = some c

/-- `J sum_(i,j) (sz_i sz_j + s (sx_i sx_j + sy_i sy_j))` on spins 1/2; `s = -1` for the sign rule. -/
def heisMatrix (J s : K) (edges : List ((Fin N × Fin N) × ℤ)) (x x' : Fin N → ℤ) : K :=
  J * (edges.map fun e =>
    (if x = x' then ((x e.1.1 * x e.1.2 : ℤ) : K) else 0)
    + s * (if x e.1.1 ≠ x e.1.2 ∧ x' = fun t => if t = e.1.1 then x e.1.2 else if t = e.1.2 then x e.1.1
        else x t then 2 else 0)).sum

end

section
variable {K : Type} [CommRing K] [DecidableEq K] [Star K] {α : Type} [LinearOrder α] [Inhabited α] {N : Nat}
  {hi : Fin N → List α} {cut : Cutoff K}

/-- the matrices have the sizes of the sites they act on, edges join different sites, and the order of the
    two sites of an edge does not matter (C11). -/
structure GraphArgs (hi : Fin N → List α) (edges : List ((Fin N × Fin N) × ℤ)) (siteOps bondOps : List (Mat K)) :
    Prop where
  site : ∀ m ∈ siteOps, ∀ i, m.n = (hi i).length
  bond : ∀ m ∈ bondOps, ∀ e ∈ edges, m.n = (hi e.1.1).length * (hi e.1.2).length
  edge : ∀ e ∈ edges, e.1.1 ≠ e.1.2
  order : ∀ e ∈ edges, Reorderable hi [e.1.1, e.1.2]

theorem argsOK_sites {edges : List ((Fin N × Fin N) × ℤ)} {siteOps bondOps : List (Mat K)}
    (h : GraphArgs hi edges siteOps bondOps) :
    ArgsOK hi ((List.finRange N).flatMap fun i => siteOps.map fun m => (m, [i])) := by
  intro p hp
  rw [List.mem_flatMap] at hp
  obtain ⟨i, -, hp⟩ := hp
  rw [List.mem_map] at hp
  obtain ⟨m, hm, rfl⟩ := hp
  exact ⟨List.nodup_singleton _, List.cons_ne_nil _ _, by simp [dims, h.site m hm i], Or.inl (by simp)⟩

theorem argsOK_bond {edges : List ((Fin N × Fin N) × ℤ)} {siteOps bondOps : List (Mat K)}
    (h : GraphArgs hi edges siteOps bondOps) (m : Mat K) (hm : m ∈ bondOps) (e) (he : e ∈ edges) :
    ([e.1.1, e.1.2] : List (Fin N)).Nodup ∧ ([e.1.1, e.1.2] : List (Fin N)) ≠ []
      ∧ m.n = (dims hi [e.1.1, e.1.2]).prod ∧ Reorderable hi [e.1.1, e.1.2] :=
  ⟨by simp [h.edge e he], List.cons_ne_nil _ _, by simp [dims, h.bond m hm e he], h.order e he⟩

theorem sum_sites (siteOps : List (Mat K)) (x x' : Fin N → α) :
    (((List.finRange N).flatMap fun i => siteOps.map fun m => (m, [i])).map
      fun p : Mat K × List (Fin N) => embed hi p.1.f p.2 x x').sum
      = ∑ i : Fin N, (siteOps.map fun m => embed hi m.f [i] x x').sum := by
  rw [Fin.sum_univ_def, List.map_flatMap, List.flatMap, List.sum_flatten, List.map_map]
  congr 1
  apply List.map_congr_left
  intro i _
  simp [Function.comp_def]

theorem filterMap_sum {β γ : Type} (l : List β) (p : β → Option γ) (f : γ → K) :
    ((l.filterMap p).map f).sum = (l.map fun b => ((p b).map f).getD 0).sum := by
  induction l with
  | nil => rfl
  | cons b l ih =>
    rw [List.filterMap_cons, List.map_cons, List.sum_cons]
    cases h : p b with
    | none => simp [ih]
    | some c => simp [ih]

theorem zip_sum {β : Type} (f : β → ℤ → K) (l : List β) (colors : List ℤ) (h : l.length = colors.length) :
    ((l.zip colors).map fun p => f p.1 p.2).sum
      = ∑ k : Fin l.length, f l[k] (colors[k.1]'(h ▸ k.2)) := by
  induction l generalizing colors with
  | nil => simp
  | cons b l ih =>
    cases colors with
    | nil => simp at h
    | cons c cs =>
      rw [List.zip_cons_cons, List.map_cons, List.sum_cons, ih cs (by simpa using h)]
      simp only [List.length_cons]
      rw [Fin.sum_univ_succ]
      rfl

/-! ### C25 -/

/-- C25 (for matrices given by value; with colours, or exactly one bond operator without colours):
    the operator is the sum over nodes and matching edges. -/
theorem C25_graph_operator (hid : Ideal cut) (hs : SortedSpace hi)
    (edges : List ((Fin N × Fin N) × ℤ)) (siteOps bondOps : List (Mat K)) (colors : List ℤ)
    (h : GraphArgs hi edges siteOps bondOps)
    (hc : (colors ≠ [] ∧ bondOps.length = colors.length) ∨ (colors = [] ∧ bondOps.length = 1)) :
    ∃ op, graphOperator cut hi N edges siteOps bondOps colors = .ok op
      ∧ ∀ (gm : Nat → K) (gx : Nat → Fin N → α) x x', Valid hi x → Valid hi x' →
        matrixOf hi op x x' = graphMatrix hi edges siteOps bondOps (byColour colors) x x'
        ∧ melAt (getConn hi op gm gx x) x'
          = graphMatrix hi edges siteOps bondOps (byColour colors) x x' := by
  suffices hsuf : ∃ terms, graphTerms N N edges siteOps bondOps colors = .ok terms ∧ ArgsOK hi terms
      ∧ ∀ x x', (terms.map fun p => embed hi p.1.f p.2 x x').sum
        = graphMatrix hi edges siteOps bondOps (byColour colors) x x' by
    obtain ⟨terms, t1, t2, t3⟩ := hsuf
    obtain ⟨op, o1, o2, _, o3⟩ := mk_ok hid hs (0 : K) terms t2
    refine ⟨op, by unfold graphOperator; rw [t1]; exact o1, fun gm gx x x' hx hx' => ?_⟩
    have : matrixOf hi op x x' = graphMatrix hi edges siteOps bondOps (byColour colors) x x' := by
      rw [o3 x x' hx hx', matrixOfList, t3]; simp
    exact ⟨this, by rw [getConn_sum hs op o2.ok gm gx x x' hx hx', this]⟩
  have hsites : (if siteOps.length > 0 then
      (List.finRange N).flatMap fun i => siteOps.map fun m => (m, [i]) else [])
      = (List.finRange N).flatMap fun i => siteOps.map fun m => (m, [i]) := by
    split_ifs with h0
    · rfl
    · have : siteOps = [] := by
        rw [← List.length_eq_zero_iff]; omega
      simp [this]
  have hpos : bondOps.length > 0 := by
    rcases hc with ⟨h1, h2⟩ | ⟨-, h2⟩
    · rw [h2]; exact List.length_pos_iff.2 h1
    · omega
  unfold graphTerms
  rw [if_neg (by simp), if_neg (by omega)]
  simp only
  rw [hsites]
  rcases hc with ⟨h1, h2⟩ | ⟨rfl, h2⟩
  · rw [if_pos (List.length_pos_iff.2 h1), if_neg (by simp [h2]), if_pos hpos]
    refine ⟨_, rfl, ?_, ?_⟩
    · intro p hp
      rw [List.mem_append] at hp
      rcases hp with hp | hp
      · exact argsOK_sites h p hp
      · rw [List.mem_flatMap] at hp
        obtain ⟨e, he, hp⟩ := hp
        rw [List.mem_filterMap] at hp
        obtain ⟨q, hq, hp⟩ := hp
        split_ifs at hp
        simp only [Option.some.injEq] at hp
        subst hp
        exact argsOK_bond h q.1 (List.of_mem_zip hq).1 e he
    · intro x x'
      rw [List.map_append, List.sum_append, sum_sites]
      unfold graphMatrix
      congr 1
      rw [List.map_flatMap, List.flatMap, List.sum_flatten, List.map_map]
      congr 1
      apply List.map_congr_left
      intro e _
      simp only [Function.comp]
      rw [filterMap_sum]
      have := zip_sum (fun (m : Mat K) (c : ℤ) =>
        if c = e.2 then embed hi m.f [e.1.1, e.1.2] x x' else 0) bondOps colors h2
      rw [show (fun b : Mat K × ℤ => (Option.map (fun p : Mat K × List (Fin N) => embed hi p.1.f p.2 x x')
          (if b.2 = e.2 then some (b.1, [e.1.1, e.1.2]) else none)).getD 0)
        = fun p => if p.2 = e.2 then embed hi p.1.f [e.1.1, e.1.2] x x' else 0 from by
          funext b; split_ifs <;> rfl]
      rw [this]
      apply Finset.sum_congr rfl
      intro k _
      have hk : k.1 < colors.length := h2 ▸ k.2
      simp [byColour, h1, List.getElem?_eq_getElem hk]
  · rw [if_neg (by simp)]
    obtain ⟨b, rfl⟩ := List.length_eq_one_iff.1 h2
    refine ⟨_, rfl, ?_, ?_⟩
    · intro p hp
      rw [List.mem_append] at hp
      rcases hp with hp | hp
      · exact argsOK_sites h p hp
      · rw [List.mem_map] at hp
        obtain ⟨e, he, rfl⟩ := hp
        exact argsOK_bond h b (by simp) e he
    · intro x x'
      rw [List.map_append, List.sum_append, sum_sites]
      unfold graphMatrix
      congr 1
      rw [List.map_map]
      congr 1
      apply List.map_congr_left
      intro e _
      have : byColour [] 0 e.2 = true := by simp [byColour]
      simp [Function.comp, this]

/-- C25: inconsistent arguments are rejected with `ValueError`. -/
theorem C25_rejects (nNodes : Nat) (edges : List ((Fin N × Fin N) × ℤ)) (siteOps bondOps : List (Mat K))
    (colors : List ℤ) (h : nNodes ≠ N ∨ (siteOps = [] ∧ bondOps = [])
      ∨ (colors ≠ [] ∧ bondOps.length ≠ colors.length)) :
    graphOperator cut hi nNodes edges siteOps bondOps colors = .error .valueError := by
  have : graphTerms N nNodes edges siteOps bondOps colors = .error .valueError := by
    unfold graphTerms
    by_cases h1 : nNodes ≠ N
    · rw [if_pos h1]
    rw [if_neg h1]
    by_cases h2 : bondOps.length = 0 ∧ siteOps.length = 0
    · rw [if_pos h2]
    rw [if_neg h2]
    rcases h with h | ⟨rfl, rfl⟩ | ⟨h3, h4⟩
    · exact absurd h h1
    · simp at h2
    · simp only
      rw [if_pos (List.length_pos_iff.2 h3), if_pos h4]
  unfold graphOperator
  rw [this]

end

section
variable {K : Type} [CommRing K] [DecidableEq K] [Star K] {N : Nat} {cut : Cutoff K}

theorem lex_bond (i j : Fin N) (x : Fin N → ℤ) (hx : IsSpins x) :
    lexIdx (halfSpins N) [i, j] x = (if x i = -1 then 0 else 2) + if x j = -1 then 0 else 1 := by
  rcases hx i with a | a <;> rcases hx j with b | b <;>
    simp [lexIdx, Verif.Radix.enc, halfSpins, a, b]

theorem heis_term (J s : K) (i j : Fin N) (hij : i ≠ j) (x x' : Fin N → ℤ) (hx : IsSpins x)
    (hx' : IsSpins x') :
    embed (halfSpins N) (fun a b => J * (szsz.f a b + s * exchange.f a b)) [i, j] x x'
      = J * ((if x = x' then ((x i * x j : ℤ) : K) else 0)
        + s * (if x i ≠ x j ∧ x' = fun t => if t = i then x j else if t = j then x i else x t
            then 2 else 0)) := by
  unfold embed
  by_cases h : ∀ t, t ∉ [i, j] → x t = x' t
  · rw [if_pos h, lex_bond i j x hx, lex_bond i j x' hx']
    have h1 : x = x' ↔ x i = x' i ∧ x j = x' j := by
      refine ⟨fun e => by rw [e]; exact ⟨rfl, rfl⟩, fun e => ?_⟩
      funext t
      by_cases hi : t = i
      · rw [hi, e.1]
      · by_cases hj : t = j
        · rw [hj, e.2]
        · exact h t (by simp [hi, hj])
    have h2 : (x' = fun t => if t = i then x j else if t = j then x i else x t)
        ↔ x' i = x j ∧ x' j = x i := by
      constructor
      · intro e
        rw [e]; simp [hij.symm]
      · intro e
        funext t
        by_cases hi : t = i
        · rw [hi, e.1]; simp
        · by_cases hj : t = j
          · rw [hj, e.2]; simp [hij.symm]
          · simp only [if_neg hi, if_neg hj]; exact (h t (by simp [hi, hj])).symm
    simp only [h2, h1]
    rcases hx i with a | a <;> rcases hx j with b | b <;> rcases hx' i with a' | a' <;>
      rcases hx' j with b' | b' <;> simp [a, b, a', b', szsz, exchange]
  · rw [if_neg h]
    have h1 : x ≠ x' := by
      rintro rfl; exact h fun _ _ => rfl
    have h2 : ¬ (x' = fun t => if t = i then x j else if t = j then x i else x t) := by
      intro e
      apply h
      intro t ht
      simp only [List.mem_cons, List.not_mem_nil, or_false, not_or] at ht
      rw [e]; simp [ht.1, ht.2]
    rw [if_neg h1, if_neg (fun hc => h2 hc.2)]
    simp

/-- C25 for Heisenberg: the matrix of the documented Hamiltonian, with the sign of the exchange reversed by
    the sign rule. -/
theorem C25_heisenberg (hid : Ideal cut) (edges : List ((Fin N × Fin N) × ℤ)) (bip : Bool) (J : K)
    (rule : Option Bool) (he : ∀ e ∈ edges, e.1.1 ≠ e.1.2) (hr : rule = some true → bip = true) :
    ∃ op, heisenberg cut N edges bip J rule = .ok op ∧ ∀ x x', IsSpins x → IsSpins x' →
      matrixOf (halfSpins N) op x x' = heisMatrix J (if rule.getD bip then -1 else 1) edges x x' := by
  have main : ∀ (m : Mat K) (s : K), m.n = 4 → m.f = (fun a b => J * (szsz.f a b + s * exchange.f a b)) →
      ∃ op, graphOperator cut (halfSpins N) N edges [] [m] [] = .ok op ∧ ∀ x x', IsSpins x → IsSpins x' →
        matrixOf (halfSpins N) op x x' = heisMatrix J s edges x x' := by
    intro m s hm hf
    have hg : GraphArgs (halfSpins N) edges [] [m] := by
      refine ⟨by simp, ?_, he, fun e _ => halfSpins_uniform.reorderable _⟩
      intro m' hm' e _
      rw [List.mem_singleton] at hm'
      rw [hm', hm]; rfl
    obtain ⟨op, o1, o2⟩ := C25_graph_operator hid halfSpins_sorted edges [] [m] [] hg
      (Or.inr ⟨rfl, rfl⟩)
    refine ⟨op, o1, fun x x' hx hx' => ?_⟩
    rw [(o2 (fun _ => 0) (fun _ _ => 0) x x' ((valid_halfSpins x).2 hx) ((valid_halfSpins x').2 hx')).1]
    unfold graphMatrix heisMatrix
    rw [← List.sum_map_mul_left]
    simp only [List.map_nil, List.sum_nil, Finset.sum_const_zero, zero_add]
    congr 1
    apply List.map_congr_left
    intro e hee
    have : byColour [] 0 e.2 = true := by simp [byColour]
    have h1 : (∑ k : Fin [m].length, if byColour [] k e.2 then
        embed (halfSpins N) ([m][k]).f [e.1.1, e.1.2] x x' else 0)
        = embed (halfSpins N) m.f [e.1.1, e.1.2] x x' := by
      simp [this]
    rw [h1, hf, heis_term J s _ _ (he e hee) x x' hx hx']
  unfold heisenberg
  cases hrb : rule.getD bip with
  | true =>
    have hb : bip = true := by
      cases rule with
      | none => simpa using hrb
      | some r => simp at hrb; subst hrb; exact hr rfl
    simp only [if_true, hb, Bool.not_true, Bool.false_eq_true, if_false]
    exact main _ (-1) rfl (by funext a b; ring)
  | false =>
    simp only [Bool.false_eq_true, if_false]
    exact main _ 1 rfl (by funext a b; ring)

/-- C25 for Heisenberg: the sign rule is refused, with a ValueError, on lattices that are not bipartite, and nothing else is
    refused. -/
theorem C25_heisenberg_sign_rule (hid : Ideal cut) (edges : List ((Fin N × Fin N) × ℤ)) (bip : Bool) (J : K)
    (rule : Option Bool) (he : ∀ e ∈ edges, e.1.1 ≠ e.1.2) :
    (heisenberg cut N edges bip J rule = .error .valueError ↔ rule = some true ∧ bip = false)
    ∧ ((∃ op, heisenberg cut N edges bip J rule = .ok op) ↔ (rule = some true → bip = true)) := by
  by_cases h : rule = some true → bip = true
  · obtain ⟨op, h1, _⟩ := C25_heisenberg hid edges bip J rule he h
    refine ⟨⟨fun h2 => ?_, fun h2 => ?_⟩, fun _ => h, fun _ => ⟨op, h1⟩⟩
    · rw [h1] at h2; cases h2
    · have := h h2.1
      rw [h2.2] at this
      exact absurd this Bool.false_ne_true
  · rw [Classical.not_imp, Bool.not_eq_true] at h
    obtain ⟨hr, hb⟩ := h
    subst hr hb
    have e : heisenberg cut N edges false J (some true) = .error .valueError := rfl
    refine ⟨⟨fun _ => ⟨rfl, rfl⟩, fun _ => e⟩, fun ⟨op, h2⟩ => ?_, fun h2 => absurd (h2 rfl) Bool.false_ne_true⟩
    rw [e] at h2; cases h2

end

/-! ### witnesses -/

/-- C111 is false: site operators alone fail an assertion. -/
theorem C111_site_only_refuted :
    ¬ ∀ siteOps : List (Mat ℤ), siteOps ≠ [] → (∀ m ∈ siteOps, m.n = 2) →
      ∃ op, graphOperator intCut spins 2 [((0, 1), 0)] siteOps [] [] = .ok op := by
  intro h
  obtain ⟨op, ho⟩ := h [sx] (by simp) (by simp [sx])
  simp [graphOperator, graphTerms] at ho

/-- C111 is false: several bond operators without colours fail an assertion. -/
theorem C111_bond_operators_refuted :
    ¬ ∀ bondOps : List (Mat ℤ), bondOps ≠ [] → (∀ m ∈ bondOps, m.n = 4) →
      ∃ op, graphOperator intCut spins 2 [((0, 1), 0)] [] bondOps [] = .ok op := by
  intro h
  obtain ⟨op, ho⟩ := h [szsz, exchange] (by simp) (by simp [szsz, exchange])
  simp [graphOperator, graphTerms] at ho

/-- arrays `sx`, `sz`, `szsz` of the user. -/
def graphHeap : Heap ℤ :=
  ⟨fun r => if r = 0 then ⟨0, sx⟩ else if r = 1 then ⟨0, sz⟩ else ⟨0, szsz⟩, 3⟩

/-- C111 is false for numpy arrays of the final dtype: with site operators `[sx, sz]` the buffer of `sx` is
    shared by all nodes and `sz` is added to it at every node, so that node 1 gets `sx + 2 sz`. -/
theorem C111_shared_arrays_refuted :
    ∃ H' op, hGraphOperator intCut spins graphHeap 0 2 [((0, 1), 0)] [0, 1] [2] [] = .ok (H', op)
      ∧ ¬ ∀ (gm : Nat → ℤ) (gx : Nat → Fin 2 → ℤ) x x', IsSpins x → IsSpins x' →
        melAt (getConn spins (op.load H') gm gx x) x'
          = graphMatrix spins [((0, 1), 0)] [sx, sz] [szsz] (byColour []) x x' := by
  have hw : (match hGraphOperator intCut spins graphHeap 0 2 [((0, 1), 0)] [0, 1] [2] [] with
      | .ok p => decide (melAt (getConn spins (p.2.load p.1) (fun _ => 0) (fun _ _ => 0) ![1, 1]) ![1, 1]
          ≠ graphMatrix spins [((0, 1), 0)] [sx, sz] [szsz] (byColour []) ![1, 1] ![1, 1])
      | .error _ => false) = true := by decide +kernel
  rcases h : hGraphOperator intCut spins graphHeap 0 2 [((0, 1), 0)] [0, 1] [2] [] with e | ⟨H', op⟩
  · rw [h] at hw; exact absurd hw Bool.false_ne_true
  rw [h] at hw
  refine ⟨H', op, rfl, fun hc => ?_⟩
  exact of_decide_eq_true hw (hc _ _ ![1, 1] ![1, 1] (by unfold IsSpins; decide)
    (by unfold IsSpins; decide))

/-- C25 instances: two colours on a square, and the square as a Heisenberg model. -/
def square : List ((Fin 4 × Fin 4) × ℤ) := [((0, 1), 0), ((1, 2), 1), ((2, 3), 0), ((0, 3), 1)]

example : GraphArgs (halfSpins 4) square [sigmaX (K := ℤ)] [szsz, exchange]
    ∧ [szsz (K := ℤ), exchange].length = [(0 : ℤ), 1].length := by
  refine ⟨⟨?_, ?_, by decide, fun e _ => halfSpins_uniform.reorderable _⟩, rfl⟩
  · intro m hm i
    rw [List.mem_singleton] at hm; subst hm; rfl
  · intro m hm e _
    simp only [List.mem_cons, List.not_mem_nil, or_false] at hm
    rcases hm with rfl | rfl <;> rfl
example : (∀ e ∈ square, e.1.1 ≠ e.1.2) ∧ (none : Option Bool).getD true = true := by decide

example : ([0, 1] : List ℤ) ≠ [] ∧ [szsz (K := ℤ)].length ≠ [(0 : ℤ), 1].length := by decide

/-! ### C77: dtype -/

/-- C77 (partial: a dtype is given, or the first matrix has the largest kind): the constructor accepts the
    list exactly if all matrices can be cast, with the stated dtype. -/
theorem C77_dtype_partial (dtype : Option NpType) (ops : List (NpType × Bool)) (d : NpType)
    (hd : ctorDtype dtype (ops.map Prod.fst) = .ok d) :
    (ctorDtypes dtype ops = .ok d ↔ ∀ p ∈ ops, p.2 = true → p.1.kind ≤ d.kind)
    ∧ (ctorDtypes dtype ops ≠ .ok d → ctorDtypes dtype ops = .error .valueError) := by
  unfold ctorDtypes
  rw [hd]
  simp only
  have : (ops.all fun p => !p.2 || canCast p.1 d) = true ↔ ∀ p ∈ ops, p.2 = true → p.1.kind ≤ d.kind := by
    simp only [List.all_eq_true, Bool.or_eq_true, Bool.not_eq_true', canCast, decide_eq_true_eq]
    refine forall₂_congr fun p _ => ?_
    cases p.2 <;> simp
  by_cases h : (ops.all fun p => !p.2 || canCast p.1 d) = true
  · rw [if_pos h]; exact ⟨⟨fun _ => this.1 h, fun _ => rfl⟩, fun hc => absurd rfl hc⟩
  · rw [if_neg h]
    refine ⟨⟨by simp, fun hc => absurd (this.2 hc) h⟩, fun _ => rfl⟩

/-- C77 (partial: the first matrix has the largest kind). -/
theorem C77_dtype_first_partial (o : NpType) (a : Bool) (ops : List (NpType × Bool))
    (h : ∀ p ∈ ops, p.1.kind ≤ max o.kind 2) :
    ctorDtypes none ((o, a) :: ops) = .ok (promote o .float32) := by
  have hk : (promote o .float32).kind = max o.kind 2 := by cases o <;> decide
  refine (C77_dtype_partial none _ _ rfl).1.2 ?_
  intro p hp _
  rw [hk]
  rcases List.mem_cons.1 hp with rfl | hp
  · exact le_max_left _ _
  · exact h p hp

/-- C77 is false: `[real, complex]` is rejected although `[complex, real]` is accepted. -/
theorem C77_dtype_refuted :
    ¬ ∀ ops : List (NpType × Bool), ops ≠ [] →
      ∃ d, ctorDtypes none ops = .ok d ∧ ∀ p ∈ ops, promote d p.1 = d := by
  intro h
  obtain ⟨d, hd, -⟩ := h [(.float64, true), (.complex128, true)] (by simp)
  have : ctorDtypes none [(.float64, true), (.complex128, true)] = .error .valueError := by rfl
  rw [this] at hd
  exact absurd hd (by simp)

/-- C77 is false also when nothing is raised: double precision matrices after a single precision one are
    stored in single precision. -/
theorem C77_precision_refuted :
    ctorDtypes none [(.float32, true), (.float64, true)] = .ok .float32
      ∧ promote .float32 .float64 = .float64 := ⟨rfl, rfl⟩

example : ctorDtypes none [(.complex128, true), (.float64, true)] = .ok .complex128 := rfl
example : ∀ p ∈ [(NpType.float64, true), (.int64, false)], p.1.kind ≤ max NpType.complex64.kind 2 := by
  decide

end Verif.Ham

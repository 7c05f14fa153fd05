import Mathlib.Algebra.BigOperators.Ring.Finset
import Verif.Model.Sparse
import Verif.Props.Hilbert
import Verif.Props.LocalOpConn

/-! C19: `to_sparse`, `to_dense`, `apply`. -/

set_option linter.unusedSectionVars false

namespace Verif.Sparse
open Verif.Hilbert Verif.LocalOp

section
variable {K : Type} [CommRing K] {α : Type} [LinearOrder α]

/-- total matrix element from the listed connected elements to `τ`. -/
def elementSum (l : List (List α × K)) (τ : List α) : K :=
  (l.map fun p => if p.1 = τ then p.2 else 0).sum

/-- `get_conn_flattened` returns on every batch the rows `conn` one after the other, delimited by
    `sections` (C18), and only configurations of the space. -/
structure RowWise (valid : List α → Prop) (flat : List (List α) → List (List α × K) × List Nat)
    (conn : List α → List (List α × K)) : Prop where
  concat : ∀ L, (∀ σ ∈ L, valid σ) → (flat L).1 = L.flatMap conn
  split : ∀ L, (∀ σ ∈ L, valid σ) → splitSections (flat L).1 0 (flat L).2 = L.map conn
  closed : ∀ σ, valid σ → ∀ p ∈ conn σ, valid p.1

theorem splitSections_get {β : Type} (l : List β) (low : Nat) (ss : List Nat) (i : Nat)
    (hi : i < ss.length) :
    (splitSections l low ss)[i]? =
      some ((l.drop ((low :: ss).getD i 0)).take ((low :: ss).getD (i + 1) 0 - (low :: ss).getD i 0)) := by
  induction ss generalizing low i with
  | nil => simp at hi
  | cons s ss ih =>
    rw [splitSections]
    cases i with
    | zero => simp
    | succ i =>
      rw [List.getElem?_cons_succ, ih s i (by simpa using hi)]
      simp

theorem length_splitSections {β : Type} (l : List β) (low : Nat) (ss : List Nat) :
    (splitSections l low ss).length = ss.length := by
  induction ss generalizing low with
  | nil => rfl
  | cons s ss ih => simp [splitSections, ih]

theorem mapM_ok_iff_map {β γ : Type} (f : β → Except Err γ) (g : β → γ) (l : List β)
    (h : ∀ b ∈ l, f b = .ok (g b)) : l.mapM f = .ok (l.map g) := by
  induction l with
  | nil => rfl
  | cons b l ih =>
    rw [List.mapM_cons, h b List.mem_cons_self, ih fun c hc => h c (List.mem_cons_of_mem _ hc)]
    rfl

theorem mapM_ok_get {β γ : Type} (f : β → Except Err γ) (l : List β) (r : List γ)
    (h : l.mapM f = .ok r) : r.length = l.length ∧ ∀ (i : Nat) b, l[i]? = some b → ∃ c, r[i]? = some c ∧ f b = .ok c := by
  induction l generalizing r with
  | nil => simp [pure, Except.pure] at h; subst h; simp
  | cons b l ih =>
    rw [List.mapM_cons] at h
    rcases hb : f b with e | c
    · rw [hb] at h; exact absurd h (by simp [bind, Except.bind])
    rcases hl : l.mapM f with e | cs
    · rw [hb, hl] at h; exact absurd h (by simp [bind, Except.bind])
    rw [hb, hl] at h
    simp only [bind, Except.bind, pure, Except.pure, Except.ok.injEq] at h
    subst h
    obtain ⟨h1, h2⟩ := ih cs hl
    refine ⟨by simp [h1], ?_⟩
    intro i b' hi
    cases i with
    | zero => simp only [List.getElem?_cons_zero, Option.some.injEq] at hi; subst hi; exact ⟨c, rfl, hb⟩
    | succ i => simpa using h2 i b' (by simpa using hi)

/-- rows of the CSR matrix. -/
theorem toSparse_rows (h : Disc α) (valid : List α → Prop) (hi : Indexes h valid)
    (flat : List (List α) → List (List α × K) × List Nat) (conn : List α → List (List α × K))
    (hf : RowWise valid flat conn) :
    ∃ m, toSparse h flat = .ok m ∧ m.n = h.nStates ∧ ∃ num : List α → Nat,
      (∀ σ, valid σ → h.statesToNumbers σ = .ok (num σ) ∧ num σ < h.nStates)
      ∧ (∀ σ τ, valid σ → valid τ → num σ = num τ → σ = τ)
      ∧ ∀ σ, valid σ → m.row (num σ) = (conn σ).map fun p => (num p.1, p.2) := by
  classical
  obtain ⟨L, hL, hsort, hmem⟩ := C02_all_states h valid hi
  have hvalL : ∀ σ ∈ L, valid σ := fun σ hσ => (hmem σ).1 hσ
  have hex : ∀ σ, ∃ n : Nat, valid σ →
      n < h.nStates ∧ h.statesToNumbers σ = .ok n ∧ h.numbersToStates n = .ok σ := by
    intro σ
    by_cases hv : valid σ
    · obtain ⟨n, hn⟩ := hi.toNum σ hv; exact ⟨n, fun _ => hn⟩
    · exact ⟨0, fun hh => absurd hh hv⟩
  choose num hnum using hex
  have hm : (flat L).1.mapM (fun p => h.statesToNumbers p.1) = .ok ((flat L).1.map fun p => num p.1) := by
    apply mapM_ok_iff_map
    intro p hp
    rw [hf.concat L hvalL, List.mem_flatMap] at hp
    obtain ⟨σ, hσ, hp⟩ := hp
    exact (hnum p.1 (hf.closed σ (hvalL σ hσ) p hp)).2.1
  have hzip : ((flat L).1.map fun p => num p.1).zip ((flat L).1.map Prod.snd)
      = (flat L).1.map fun p => (num p.1, p.2) := by
    rw [List.zip_map', ]
  -- position of a state in the list
  have hpos : ∀ σ, valid σ → L[num σ]? = some σ := by
    intro σ hv
    obtain ⟨h1, h2, h3⟩ := hnum σ hv
    obtain ⟨c, hc, hc'⟩ := (mapM_ok_get _ _ _ hL).2 (num σ) (num σ) (by simp [h1])
    rw [h3, Except.ok.injEq] at hc'
    rw [hc, ← hc']
  refine ⟨⟨h.nStates, ((flat L).1.map fun p => num p.1).zip ((flat L).1.map Prod.snd), 0 :: (flat L).2⟩,
    ?_, rfl, num, fun σ hv => ⟨(hnum σ hv).2.1, (hnum σ hv).1⟩, ?_, ?_⟩
  · unfold toSparse
    rw [hL]
    simp only
    rw [hm]
  · intro σ τ hσ hτ he
    have h1 := (hnum σ hσ).2.2
    rw [he, (hnum τ hτ).2.2] at h1
    simp only [Except.ok.injEq] at h1
    exact h1.symm
  · intro σ hv
    have hp := hpos σ hv
    have hsec : (flat L).2.length = L.length := by
      have := congrArg List.length (hf.split L hvalL)
      rw [length_splitSections, List.length_map] at this
      exact this
    have hlt : num σ < L.length := by
      by_contra hc
      rw [List.getElem?_eq_none (by omega)] at hp
      exact absurd hp (by simp)
    have h1 := splitSections_get (flat L).1 0 (flat L).2 (num σ) (by omega)
    rw [hf.split L hvalL, List.getElem?_map, hp, Option.map_some, Option.some.injEq] at h1
    unfold CSR.row
    rw [hzip, ← List.map_drop, ← List.map_take]
    simp only
    rw [← h1]

/-- C19: entry `(i, j)` of `to_dense` is the sum of the matrix elements from state `i` to state `j`. -/
theorem C19_to_dense (h : Disc α) (valid : List α → Prop) (hi : Indexes h valid)
    (flat : List (List α) → List (List α × K) × List Nat) (conn : List α → List (List α × K))
    (hf : RowWise valid flat conn) :
    ∃ m, toSparse h flat = .ok m ∧ ∀ σ τ i j, valid σ → valid τ → h.statesToNumbers σ = .ok i →
      h.statesToNumbers τ = .ok j → m.dense i j = elementSum (conn σ) τ := by
  obtain ⟨m, h1, _, num, h2, h3, h4⟩ := toSparse_rows h valid hi flat conn hf
  refine ⟨m, h1, fun σ τ i j hσ hτ hi' hj => ?_⟩
  rw [(h2 σ hσ).1, Except.ok.injEq] at hi'
  rw [(h2 τ hτ).1, Except.ok.injEq] at hj
  subst hi' hj
  unfold CSR.dense elementSum
  rw [h4 σ hσ, List.map_map]
  congr 1
  apply List.map_congr_left
  intro p hp
  simp only [Function.comp]
  by_cases he : p.1 = τ
  · rw [if_pos he, if_pos (by rw [he])]
  · rw [if_neg he, if_neg fun hc => he (h3 _ _ (hf.closed σ hσ p hp) hτ hc)]

theorem dot_eq_sum (n : Nat) (l : List (Nat × K)) (hl : ∀ e ∈ l, e.1 < n) (v : Nat → K) :
    (l.map fun e => e.2 * v e.1).sum
      = ∑ j ∈ Finset.range n, (l.map fun e => if e.1 = j then e.2 else 0).sum * v j := by
  induction l with
  | nil => simp
  | cons e l ih =>
    simp only [List.map_cons, List.sum_cons]
    rw [ih fun x hx => hl x (List.mem_cons_of_mem _ hx)]
    have : ∀ j ∈ Finset.range n, ((if e.1 = j then e.2 else 0)
        + (l.map fun e => if e.1 = j then e.2 else 0).sum) * v j
        = (if e.1 = j then e.2 * v e.1 else 0) + (l.map fun e => if e.1 = j then e.2 else 0).sum * v j := by
      intro j _
      rw [add_mul]
      congr 1
      by_cases hj : e.1 = j
      · subst hj; simp
      · simp [hj]
    rw [Finset.sum_congr rfl this, Finset.sum_add_distrib, Finset.sum_ite_eq]
    rw [if_pos (Finset.mem_range.2 (hl e List.mem_cons_self))]

/-- C19: applying the operator to a vector is multiplication with `to_dense`. -/
theorem C19_apply (h : Disc α) (valid : List α → Prop) (hi : Indexes h valid)
    (flat : List (List α) → List (List α × K) × List Nat) (conn : List α → List (List α × K))
    (hf : RowWise valid flat conn) :
    ∃ m, toSparse h flat = .ok m ∧ ∀ v i, i < h.nStates →
      m.dot v i = ∑ j ∈ Finset.range h.nStates, m.dense i j * v j := by
  obtain ⟨m, h1, _, num, h2, h3, h4⟩ := toSparse_rows h valid hi flat conn hf
  refine ⟨m, h1, fun v i hlt => ?_⟩
  obtain ⟨σ, _, hσ, hn⟩ := hi.toState i hlt
  rw [(h2 σ hσ).1, Except.ok.injEq] at hn
  subst hn
  unfold CSR.dot CSR.dense
  rw [h4 σ hσ]
  apply dot_eq_sum
  intro e he
  obtain ⟨p, hp, rfl⟩ := List.mem_map.1 he
  exact (h2 p.1 (hf.closed σ hσ p hp)).2

end

/-! ### LocalOperator -/

section
variable {K : Type} [CommRing K] [DecidableEq K] [Star K] {α : Type} [LinearOrder α] [Inhabited α]
  {N : Nat} {hi : Fin N → List α} {cut : Cutoff K}

/-- a row of the array `x` as a function of the site. -/
def asConf (N : Nat) (σ : List α) : Fin N → α := fun s => σ.getD s default

/-- `LocalOperator.get_conn_flattened` on rows given as lists. -/
def localFlat (hi : Fin N → List α) (op : LOp K α N) (gm : Nat → K) (gx : Nat → Fin N → α)
    (L : List (List α)) : List (List α × K) × List Nat :=
  (((connFlattened hi op gm gx (L.map (asConf N))).1.xp.zip
      (connFlattened hi op gm gx (L.map (asConf N))).1.mels).map fun p => (List.ofFn p.1, p.2),
    (connFlattened hi op gm gx (L.map (asConf N))).2)

/-- configurations of the local spaces `hi`, as lists. -/
def ValidConf (hi : Fin N → List α) (σ : List α) : Prop := ∃ x, LocalOp.Valid hi x ∧ σ = List.ofFn x

theorem asConf_ofFn (x : Fin N → α) : asConf N (List.ofFn x) = x := by
  funext s
  simp [asConf]

theorem split_map {β γ : Type} (f : β → γ) (l : List β) (low : Nat) (ss : List Nat) :
    splitSections (l.map f) low ss = (splitSections l low ss).map (List.map f) := by
  induction ss generalizing low with
  | nil => rfl
  | cons s ss ih => simp [splitSections, ih, List.map_take, List.map_drop]

theorem localFlat_rowWise (hid : Ideal cut) (hs : SortedSpace hi) (op : LOp K α N)
    (h : Built cut hi op) (gm : Nat → K) (gx : Nat → Fin N → α) :
    RowWise (ValidConf hi) (localFlat hi op gm gx)
      (fun σ => (getConn hi op gm gx (asConf N σ)).map fun p => (List.ofFn p.1, p.2)) := by
  have hg := h.good hid hs
  have hval : ∀ L : List (List α), (∀ σ ∈ L, ValidConf hi σ) →
      ∀ x ∈ L.map (asConf N), LocalOp.Valid hi x := by
    intro L hL x hx
    obtain ⟨σ, hσ, rfl⟩ := List.mem_map.1 hx
    obtain ⟨y, hy, rfl⟩ := hL σ hσ
    rwa [asConf_ofFn]
  refine ⟨?_, ?_, ?_⟩
  · intro L hL
    have hv := hval L hL
    have he := connFlattened_eq (hi := hi) op gm gx (L.map (asConf N))
      fun x hxx => hg.ok.diagOK hs x (hv x hxx)
    simp only [localFlat]
    rw [he.1, he.2, toPairs_zip]
    rw [List.flatMap_map]
    unfold toPairs
    rw [List.map_flatMap, List.map_flatMap]
    apply List.flatMap_congr
    intro σ hσ
    rw [getConn_eq hs op hg.ok gm gx _ (hv _ (List.mem_map_of_mem hσ))]
    rfl
  · intro L hL
    have hv := hval L hL
    simp only [localFlat]
    rw [split_map, C18_batch_is_concatenation hid hs op h gm gm gx gx _ hv, List.map_map, List.map_map]
    rfl
  · rintro σ ⟨x, hx, rfl⟩ p hp
    rw [asConf_ofFn] at hp
    obtain ⟨q, hq, rfl⟩ := List.mem_map.1 hp
    exact ⟨q.1, C10_connected_valid hid hs op h gm gx x hx q hq, rfl⟩

/-- C19 for `LocalOperator`: on every indexed space of configurations, `to_dense` is the matrix meant by
    the operator's terms, and applying the operator multiplies with it. -/
theorem C19_local_operator (hid : Ideal cut) (hs : SortedSpace hi) (op : LOp K α N)
    (hb : Built cut hi op) (gm : Nat → K) (gx : Nat → Fin N → α) (h : Disc α)
    (hidx : Indexes h (ValidConf hi)) :
    ∃ m, toSparse h (localFlat hi op gm gx) = .ok m
      ∧ (∀ x x' i j, LocalOp.Valid hi x → LocalOp.Valid hi x' →
          h.statesToNumbers (List.ofFn x) = .ok i → h.statesToNumbers (List.ofFn x') = .ok j →
          m.dense i j = matrixOf hi op x x')
      ∧ ∀ v i, i < h.nStates → m.dot v i = ∑ j ∈ Finset.range h.nStates, m.dense i j * v j := by
  have hf := localFlat_rowWise hid hs op hb gm gx
  obtain ⟨m, h1, h2⟩ := C19_to_dense h _ hidx _ _ hf
  obtain ⟨m', h1', h3⟩ := C19_apply h _ hidx _ _ hf
  rw [h1, Except.ok.injEq] at h1'
  subst h1'
  refine ⟨m, h1, fun x x' i j hx hx' hi' hj => ?_, h3⟩
  rw [h2 _ _ i j ⟨x, hx, rfl⟩ ⟨x', hx', rfl⟩ hi' hj, asConf_ofFn,
    ← C10_get_conn_reachable hid hs op hb gm gx x x' hx hx']
  unfold elementSum melAt
  rw [List.map_map]
  congr 1
  apply List.map_congr_left
  intro p _
  simp only [Function.comp]
  by_cases he : p.1 = x'
  · rw [if_pos he, if_pos (by rw [he])]
  · rw [if_neg he, if_neg fun hc => he (List.ofFn_injective hc)]

/-- homogeneous unconstrained spaces satisfy the hypothesis of `C19_local_operator`. -/
theorem indexes_homog (ls : List α) (hn : ls.Nodup) (hne : ls ≠ []) :
    Indexes (homog ls N) (ValidConf fun _ : Fin N => ls) := by
  have h := C01_homogeneous_indexing ls hn hne N
  have e : (ValidConf fun _ : Fin N => ls) = ValidHomog ls N := by
    funext σ
    apply propext
    constructor
    · rintro ⟨x, hx, rfl⟩
      refine ⟨by simp, fun y hy => ?_⟩
      obtain ⟨s, rfl⟩ := (List.mem_ofFn' x y).1 hy
      exact hx s
    · rintro ⟨hl, hm⟩
      subst hl
      exact ⟨fun s => σ[s], fun s => hm _ (List.getElem_mem _), by simp⟩
  rw [e]; exact h

end

/-! ### constrained spaces -/

/-- C108 fails silently when an operator leaves a constrained space: with one excitation on two sites,
    `to_dense` of an operator whose only element in the space is 1 in row `[1, 0]`, column `[0, 0]` (outside
    of the space; a destruction/creation operator on site 0) has this element in column `[0, 1]`. -/
theorem C108_constrained_refuted :
    ¬ ∀ (h : Disc ℤ) (valid : List ℤ → Prop), Indexes h valid →
      ∀ (flat : List (List ℤ) → List (List ℤ × ℤ) × List Nat) (conn : List ℤ → List (List ℤ × ℤ)),
        (∀ L, (∀ σ ∈ L, valid σ) → (flat L).1 = L.flatMap conn) →
        (∀ L, (∀ σ ∈ L, valid σ) → splitSections (flat L).1 0 (flat L).2 = L.map conn) →
        ∀ m, toSparse h flat = .ok m →
          ∀ σ τ i j, valid σ → valid τ → h.statesToNumbers σ = .ok i → h.statesToNumbers τ = .ok j →
            m.dense i j = elementSum (conn σ) τ := by
  intro hall
  let c : List ℤ → Bool := fun σ => σ.sum == 1
  let conn : List ℤ → List (List ℤ × ℤ) := fun σ => if σ = [1, 0] then [([0, 0], 1)] else []
  let flat : List (List ℤ) → List (List ℤ × ℤ) × List Nat := fun L =>
    (L.flatMap conn, runningTotals 0 ((L.map conn).map List.length))
  have hidx := C02_constrained_indexing [0, (1 : ℤ)] (by decide) (by decide) 2 c
  have hw : (match toSparse (homogConstrained [0, (1 : ℤ)] 2 c) flat with
      | .ok m => decide (m.dense 1 0 = 1)
      | .error _ => false) = true := by decide +kernel
  rcases hm : toSparse (homogConstrained [0, (1 : ℤ)] 2 c) flat with e | m
  · rw [hm] at hw; exact absurd hw Bool.false_ne_true
  rw [hm] at hw
  have h1 : (homogConstrained [0, (1 : ℤ)] 2 c).statesToNumbers [1, 0] = .ok 1 := by decide +kernel
  have h2 : (homogConstrained [0, (1 : ℤ)] 2 c).statesToNumbers [0, 1] = .ok 0 := by decide +kernel
  have := hall _ _ hidx flat conn (fun _ _ => rfl)
    (fun L _ => split_runningTotals [] _ 0 rfl _ (by simp [flat, List.flatMap])) m hm
    [1, 0] [0, 1] 1 0 ⟨⟨rfl, by decide⟩, rfl⟩ ⟨⟨rfl, by decide⟩, rfl⟩ h1 h2
  rw [of_decide_eq_true hw] at this
  revert this
  decide

example : ∃ m, toSparse (homog [-1, 1] 2) (localFlat spins
      (match mk intCut spins 3 [(sx, [0]), (m44, [1, 0]), (sz, [0])] with
        | .ok op => op | .error _ => zeroOp intCut 0) (fun _ => 7) (fun _ _ => 5)) = .ok m
    ∧ m.dense 0 0 = 4 := by
  have hw : (match toSparse (homog [-1, 1] 2) (localFlat spins
      (match mk intCut spins 3 [(sx, [0]), (m44, [1, 0]), (sz, [0])] with
        | .ok op => op | .error _ => zeroOp intCut 0) (fun _ => 7) (fun _ _ => 5)) with
      | .ok m => decide (m.dense 0 0 = 4)
      | .error _ => false) = true := by decide +kernel
  revert hw
  rcases toSparse (homog [-1, 1] 2) (localFlat spins
      (match mk intCut spins 3 [(sx, [0]), (m44, [1, 0]), (sz, [0])] with
        | .ok op => op | .error _ => zeroOp intCut 0) (fun _ => 7) (fun _ _ => 5)) with e | m
  · intro hw; exact absurd hw Bool.false_ne_true
  · intro hw; exact ⟨m, rfl, of_decide_eq_true hw⟩

example : Indexes (homog [-1, 1] 2) (ValidConf spins) :=
  indexes_homog (N := 2) [-1, (1 : ℤ)] (by decide) (by decide)

end Verif.Sparse

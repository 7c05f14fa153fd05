import Verif.Props.LocalOperator

/-! C17 (`max_conn_size`, padding), C18 (batches and sections), C72 (memory safety of the kernel),
C73 (matrix shapes are checked), C74 (in-place product with itself). -/

namespace Verif.LocalOp
open Verif.Hilbert

/-! ### specification -/

/-- `np.split(arr, sections)` with `sections[-1] = len(arr)` (last, empty piece dropped):
    `arr[0:s0], arr[s0:s1], ...`. -/
def splitSections {β : Type} (l : List β) : Nat → List Nat → List (List β)
  | _, [] => []
  | low, s :: ss => ((l.drop low).take (s - low)) :: splitSections l s ss

/-- cut a list in consecutive pieces of length `n` (`reshape(-1, n)`), `k` of them. -/
def pieces {β : Type} (l : List β) (n : Nat) : Nat → List (List β)
  | 0 => []
  | k + 1 => l.take n :: pieces (l.drop n) n k

/-- _abstract_operator.py:226-233 `_n_conn_from_sections`. -/
def nConnFromSections : Nat → List Nat → List Nat
  | _, [] => []
  | low, s :: ss => (s - low) :: nConnFromSections s ss

/-! ### lemmas on running totals -/

theorem split_runningTotals {β : Type} (pre : List β) (rows : List (List β)) (low : Nat)
    (hl : low = pre.length) (l : List β) (h : l = pre ++ rows.flatten) :
    splitSections l low (runningTotals low (rows.map List.length)) = rows := by
  induction rows generalizing pre low with
  | nil => rfl
  | cons r rows ih =>
    rw [List.map_cons, runningTotals, splitSections]
    congr 1
    · subst h hl; simp
    · refine ih (pre ++ r) (low + r.length) (by simp [hl]) ?_
      rw [h]; simp

theorem nConn_runningTotals (low : Nat) (ns : List Nat) :
    nConnFromSections low (runningTotals low ns) = ns := by
  induction ns generalizing low with
  | nil => rfl
  | cons n ns ih => simp [runningTotals, nConnFromSections, ih]

theorem pieces_flatMap {γ β : Type} (xs : List γ) (f : γ → List β) (n : Nat)
    (h : ∀ x ∈ xs, (f x).length = n) :
    pieces (xs.flatMap f) n xs.length = xs.map f := by
  induction xs with
  | nil => rfl
  | cons x xs ih =>
    have hx := h x List.mem_cons_self
    have := ih fun y hy => h y (List.mem_cons_of_mem _ hy)
    simp [pieces, ← hx] at this ⊢
    exact this

section
variable {K : Type} [CommRing K] [DecidableEq K] {α : Type} [LinearOrder α] [Inhabited α]
  {N : Nat} {hi : Fin N → List α} {cut : Cutoff K}

/-! ### C18 -/

/-- C18: splitting the flattened batch at `sections` gives, row by row, the connected elements of
    each configuration alone; the last section is the total length. -/
theorem C18_batch_is_concatenation [Star K] (hid : Ideal cut) (hs : SortedSpace hi)
    (op : LOp K α N) (h : Built cut hi op) (gm gm' : Nat → K) (gx gx' : Nat → Fin N → α)
    (xs : List (Fin N → α)) (hx : ∀ x ∈ xs, Valid hi x) :
    splitSections
        ((connFlattened hi op gm gx xs).1.xp.zip (connFlattened hi op gm gx xs).1.mels) 0
        (connFlattened hi op gm gx xs).2
      = xs.map fun x => getConn hi op gm' gx' x := by
  have hg := h.good hid hs
  have he := connFlattened_eq (hi := hi) op gm gx xs fun x hxx => hg.ok.diagOK hs x (hx x hxx)
  have e2 : (connFlattened hi op gm gx xs).2
      = runningTotals 0 ((xs.map fun x => getConn hi op gm' gx' x).map List.length) := by
    show runningTotals 0 (xs.map (connCount hi op)) = _
    congr 1
    rw [List.map_map]
    apply List.map_congr_left
    intro x hxx
    simp only [Function.comp]
    rw [getConn_eq hs op hg.ok gm' gx' x (hx x hxx)]
    simp [toPairs, length_rowEntries]
  rw [e2, he.1, he.2, toPairs_zip]
  refine split_runningTotals [] _ 0 rfl _ ?_
  rw [List.nil_append]
  have : toPairs (xs.flatMap (rowEntries hi op)) = (xs.map fun x => toPairs (rowEntries hi op x)).flatten := by
    simp [toPairs, List.flatMap, List.map_flatten]; rfl
  rw [this]
  congr 1
  apply List.map_congr_left
  intro x hxx
  rw [getConn_eq hs op hg.ok gm' gx' x (hx x hxx)]

/-- C18: `n_conn` returns the row lengths. -/
theorem C18_n_conn [Star K] (hid : Ideal cut) (hs : SortedSpace hi)
    (op : LOp K α N) (h : Built cut hi op) (gm gm' : Nat → K) (gx gx' : Nat → Fin N → α)
    (xs : List (Fin N → α)) (hx : ∀ x ∈ xs, Valid hi x) :
    nConnFromSections 0 (connFlattened hi op gm gx xs).2
      = xs.map fun x => (getConn hi op gm' gx' x).length := by
  have hg := h.good hid hs
  show nConnFromSections 0 (runningTotals 0 (xs.map (connCount hi op))) = _
  rw [nConn_runningTotals]
  apply List.map_congr_left
  intro x hxx
  rw [getConn_eq hs op hg.ok gm' gx' x (hx x hxx)]
  simp [toPairs, length_rowEntries]

/-! ### C17 -/

/-- C17, padding: every padded row consists of the connected elements of its configuration followed by
    entries at the configuration itself with matrix element zero; all rows have the same length. -/
theorem C17_padding [Star K] (hid : Ideal cut) (hs : SortedSpace hi)
    (op : LOp K α N) (h : Built cut hi op) (gm gm' : Nat → K) (gx gx' : Nat → Fin N → α)
    (xs : List (Fin N → α)) (hx : ∀ x ∈ xs, Valid hi x) :
    ∃ M, (connFlattenedPad hi op gm gx xs).2 = (List.range xs.length).map (fun b => (b + 1) * M)
      ∧ (∀ x ∈ xs, (getConn hi op gm' gx' x).length ≤ M)
      ∧ pieces ((connFlattenedPad hi op gm gx xs).1.xp.zip (connFlattenedPad hi op gm gx xs).1.mels)
          M xs.length
        = xs.map fun x => getConn hi op gm' gx' x
            ++ List.replicate (M - (getConn hi op gm' gx' x).length) (x, 0) := by
  have hg := h.good hid hs
  have hlen : ∀ x ∈ xs, (getConn hi op gm' gx' x).length = connCount hi op x := by
    intro x hxx
    rw [getConn_eq hs op hg.ok gm' gx' x (hx x hxx)]
    simp [toPairs, length_rowEntries]
  have hM : ∀ x ∈ xs, connCount hi op x ≤ (xs.map (connCount hi op)).foldl max 0 := by
    have key : ∀ (l : List Nat) (b a : Nat), (a ∈ l ∨ a ≤ b) → a ≤ l.foldl max b := by
      intro l
      induction l with
      | nil => intro b a h; rcases h with h | h; · simp at h
               · exact h
      | cons n l ih =>
        intro b a h
        apply ih
        rcases h with h | h
        · rcases List.mem_cons.1 h with rfl | h
          · exact Or.inr (le_max_right _ _)
          · exact Or.inl h
        · exact Or.inr (le_trans h (le_max_left _ _))
    intro x hxx
    exact key _ 0 _ (Or.inl (List.mem_map.2 ⟨x, hxx, rfl⟩))
  have he := connFlattenedPad_eq (hi := hi) op gm gx xs (fun x hxx => hg.ok.diagOK hs x (hx x hxx))
    _ rfl hM
  refine ⟨(xs.map (connCount hi op)).foldl max 0, rfl, fun x hxx => by rw [hlen x hxx]; exact hM x hxx, ?_⟩
  rw [he.1, he.2, toPairs_zip]
  generalize (xs.map (connCount hi op)).foldl max 0 = M at *
  have e1 : toPairs (xs.flatMap fun x =>
        rowEntries hi op x ++ List.replicate (M - connCount hi op x) (0, x))
      = xs.flatMap fun x =>
        toPairs (rowEntries hi op x ++ List.replicate (M - connCount hi op x) (0, x)) := by
    simp [toPairs, List.map_flatMap]
  rw [e1, pieces_flatMap]
  · apply List.map_congr_left
    intro x hxx
    rw [hlen x hxx, getConn_eq hs op hg.ok gm' gx' x (hx x hxx)]
    simp [toPairs]
  · intro x hxx
    have := hM x hxx
    simp [toPairs, length_rowEntries]
    omega

/-- C17, bound (for operators returned by the constructor with at least one local term, or
    without diagonal entry). False in general: `C107_max_conn_size_refuted`. -/
theorem C17_max_conn_size [Star K] (hs : SortedSpace hi) (c : K)
    (ops : List (Mat K × List (Fin N))) (op : LOp K α N) (h : mk cut hi c ops = .ok op)
    (hr : Resolved cut op) (hne : op.terms ≠ [] ∨ op.nonzeroDiag = false)
    (gm : Nat → K) (gx : Nat → Fin N → α) (x : Fin N → α) (hx : Valid hi x) :
    (getConn hi op gm gx x).length ≤ maxConnSize cut op := by
  obtain ⟨h1, h2⟩ := mk_fresh c ops op h
  rw [getConn_eq hs op (OpOK_of_fresh op h1 h2 hr) gm gx x hx]
  simp only [toPairs, List.length_map, length_rowEntries]
  unfold connCount maxConnSize
  have hd : (if op.nonzeroDiag = true then 1 else 0)
      ≤ (if op.nonzeroDiag = true then op.terms.length else 0) := by
    rcases hn : op.nonzeroDiag with _ | _
    · simp
    · rcases hne with hne | hne
      · simp only [if_true]
        exact List.length_pos_iff.2 hne
      · rw [hn] at hne; exact absurd hne (by decide)
  have key : ∀ (l : List Nat) (b a : Nat), (a ∈ l ∨ a ≤ b) → a ≤ l.foldl max b := by
    intro l
    induction l with
    | nil => intro b a h; rcases h with h | h; · simp at h
             · exact h
    | cons n l ih =>
      intro b a h
      apply ih
      rcases h with h | h
      · rcases List.mem_cons.1 h with rfl | h
        · exact Or.inr (le_max_right _ _)
        · exact Or.inl h
      · exact Or.inr (le_trans h (le_max_left _ _))
  refine Nat.add_le_add hd ?_
  apply List.sum_le_sum
  intro t ht
  have hlt : xsN hi t.acting x < t.mat.n := by
    rw [xsN_eq hs x hx, h2.dim t ht]; exact lexIdx_lt x hx _
  apply key
  left
  rw [List.mem_map]
  refine ⟨xsN hi t.acting x, List.mem_range.2 hlt, ?_⟩
  conv_rhs => rw [h1.terms t ht]
  simp [appendMatrix]

end

/-! ### concrete cases and refutations -/

/-- C107 is false for an operator that is only a constant: one connected element, bound zero. -/
theorem C107_max_conn_size_refuted :
    ¬ ∀ (op : LOp ℤ ℤ 2), Built intCut spins op → ∀ x, Valid spins x →
      (getConn spins op (fun _ => 0) (fun _ _ => 0) x).length ≤ maxConnSize intCut op := by
  intro h
  have := h (zeroOp intCut 3) (.mk (ops := []) (by intro p hp; simp at hp) rfl) (fun _ => -1)
    (by intro s; fin_cases s <;> decide)
  exact absurd this (by decide)

/-- C107 also fails after multiplication with zero: the tables keep their entries. -/
theorem C107_zero_times_operator_refuted :
    ∃ op, Built intCut spins op ∧ op.terms ≠ [] ∧
      ¬ (getConn spins op (fun _ => 0) (fun _ _ => 0) (fun _ => -1)).length ≤ maxConnSize intCut op := by
  have hw : (match mk intCut spins 0 [(sx, [0])] with
      | .ok a => (match mulScalar intCut spins a 0 with
        | .ok r => decide (r.terms.length ≠ 0) && decide (¬ (getConn spins r (fun _ => 0) (fun _ _ => 0)
            (fun _ => -1)).length ≤ maxConnSize intCut r)
        | .error _ => false)
      | .error _ => false) = true := by decide +kernel
  have ha : ArgsOK spins [(sx, [0])] := by
    intro p hp
    rw [List.mem_singleton] at hp; subst hp
    exact ⟨by decide, by decide, by decide, spins_uniform.reorderable _⟩
  rcases hma : mk intCut spins 0 [(sx, [0])] with e | a
  · rw [hma] at hw; exact absurd hw Bool.false_ne_true
  rw [hma] at hw
  simp only at hw
  rcases hr : mulScalar intCut spins a 0 with e | r
  · rw [hr] at hw; exact absurd hw Bool.false_ne_true
  rw [hr] at hw
  simp only [Bool.and_eq_true, decide_eq_true_eq] at hw
  exact ⟨r, .mulScalar (.mk ha hma) hr, fun h => hw.1 (by rw [h]; rfl), hw.2⟩

/-- hypotheses of the partial C17: a transverse-field term plus a diagonal term. -/
example : ∃ op, mk intCut spins 5 [(sx, [0]), (sz, [1])] = .ok op ∧ Resolved intCut op
    ∧ op.terms ≠ [] ∧ maxConnSize intCut op = 3 := by
  have hw : (match mk intCut spins 5 [(sx, [0]), (sz, [1])] with
      | .ok a => decide (a.terms.length ≠ 0) && decide (maxConnSize intCut a = 3)
      | .error _ => false) = true := by decide +kernel
  rcases hma : mk intCut spins 5 [(sx, [0]), (sz, [1])] with e | a
  · rw [hma] at hw; exact absurd hw Bool.false_ne_true
  rw [hma] at hw
  simp only [Bool.and_eq_true, decide_eq_true_eq] at hw
  refine ⟨a, rfl, ⟨?_, ?_, ?_⟩, fun h => hw.1 (by rw [h]; rfl), hw.2⟩
  · intro t _ i _ j _ _ h; exact intCut_ideal.gt _ h
  · intro t _ i _ h; exact intCut_ideal.ge _ h
  · intro h; exact intCut_ideal.ge _ h

/-- a batch of two configurations, computed: sections and elements. -/
example : (match mk intCut spins 0 [(sx, [0]), (sz, [1])] with
    | .ok a => (connFlattened spins a (fun _ => 77) (fun _ _ => 9) [![-1, 1], ![1, -1]]).2
    | .error _ => []) = [2, 4] := by decide +kernel

/-! ### C72: memory safety -/

section
variable {K : Type} [CommRing K] [DecidableEq K] {α : Type} [LinearOrder α] [Inhabited α]
  {N : Nat} {hi : Fin N → List α} {cut : Cutoff K}

/-- C72 (partial: operators with a non-zero diagonal element somewhere or a constant): the kernel only
    accesses its output buffers within bounds. False in general: `C72_kernel_bounds_refuted`. -/
theorem C72_kernel_bounds_partial (op : LOp K α N) (hn : op.nonzeroDiag = true)
    (gm : Nat → K) (gx : Nat → Fin N → α) (xs : List (Fin N → α)) :
    (connFlattened hi op gm gx xs).1.oob = false :=
  rows_oob (hi := hi) op xs hn (k := 0) (init_holds gm gx ((xs.map (connCount hi op)).sum))
end

/-- lowering operator of one spin: no diagonal, one row without connected elements. -/
def sm : Mat ℤ := ⟨2, fun i j => if i = 1 ∧ j = 0 then 1 else 0⟩

/-- C72 is false in general: for an operator without diagonal elements and a last configuration without
    connected elements, `mels[c_diag] += ...` addresses one element beyond the buffer. -/
theorem C72_kernel_bounds_refuted :
    ¬ ∀ (op : LOp ℤ ℤ 2), Built intCut spins op → ∀ xs : List (Fin 2 → ℤ), (∀ x ∈ xs, Valid spins x) →
      (connFlattened spins op (fun _ => 0) (fun _ _ => 0) xs).1.oob = false := by
  intro h
  have hw : (match mk intCut spins 0 [(sm, [0])] with
      | .ok a => (connFlattened spins a (fun _ => 0) (fun _ _ => 0) [fun _ => -1]).1.oob
      | .error _ => false) = true := by decide +kernel
  have ha : ArgsOK spins [(sm, [0])] := by
    intro p hp
    rw [List.mem_singleton] at hp; subst hp
    exact ⟨by decide, by decide, by decide, spins_uniform.reorderable _⟩
  rcases hma : mk intCut spins 0 [(sm, [0])] with e | a
  · rw [hma] at hw; exact absurd hw Bool.false_ne_true
  rw [hma] at hw
  have := h a (.mk ha hma) [fun _ => -1] (by
    intro x hx
    rw [List.mem_singleton] at hx; subst hx
    intro s; fin_cases s <;> decide)
  simp only at hw
  rw [hw] at this
  exact absurd this (by decide)

example : ∃ op, mk intCut spins 5 [(sx, [0])] = .ok op ∧ op.nonzeroDiag = true := by
  have hw : (match mk intCut spins 5 [(sx, [0])] with
      | .ok a => a.nonzeroDiag | .error _ => false) = true := by decide +kernel
  rcases hma : mk intCut spins 5 [(sx, [0])] with e | a
  · rw [hma] at hw; exact absurd hw Bool.false_ne_true
  · rw [hma] at hw; exact ⟨a, rfl, hw⟩

/-! ### C73: matrix shapes -/

section
variable {K : Type} [CommRing K] [DecidableEq K] [Star K] {α : Type} [LinearOrder α] [Inhabited α]
  {N : Nat} {hi : Fin N → List α} {cut : Cutoff K}

/-- C73 (partial: first term on its support, sites listed in increasing order): a matrix of the wrong
    size, with an entry above the cutoff, is rejected. False in general: `C73_wrong_shape_refuted`. -/
theorem C73_wrong_shape_rejected_partial (op : LOp K α N) (m : Mat K) (act : List (Fin N))
    (hs : act.Pairwise (· < ·)) (hbig : allSmall cut m = false)
    (hnew : ∀ t ∈ op.terms, t.acting ≠ act) (hm : m.n ≠ (dims hi act).prod) :
    addOperator cut hi op m act = .error .runtimeError := by
  have hnd : act.Nodup := hs.imp fun h => ne_of_lt h
  unfold addOperator
  rw [if_neg (not_not.2 hnd), if_neg (by rw [hbig]; decide)]
  have hr : reorder hi m act = .ok (m, act) := by
    unfold reorder
    simp [sort_eq_of_strict act hs]
  have hmg : ∀ ts : List (Term K α N), (∀ t ∈ ts, t.acting ≠ act) →
      mergeTerm cut hi m act ts = none := by
    intro ts
    induction ts with
    | nil => intro _; rfl
    | cons t ts ih =>
      intro h
      rw [mergeTerm, if_neg (h t List.mem_cons_self), ih fun u hu => h u (List.mem_cons_of_mem _ hu)]
      rfl
  rw [hr]
  simp only [addSorted, hmg op.terms hnew]
  rw [if_pos hm]
end

example : addOperator intCut spins (zeroOp intCut 0) m44 [1] = .error .runtimeError :=
  C73_wrong_shape_rejected_partial _ _ _ (by decide) (by decide) (by simp [zeroOp]) (by decide)

/-- C73 is false in general: a 4×4 matrix on a single spin is accepted without error when the site
    already has a term, and only its upper left block is added. -/
theorem C73_wrong_shape_refuted :
    ∃ op, mk intCut spins 0 [(sx, [0]), (m44, [0])] = .ok op
      ∧ m44.n ≠ (dims spins [0]).prod
      ∧ matrixOf spins op ![1, 1] ![-1, 1] = 11 := by
  have hw : (match mk intCut spins 0 [(sx, [0]), (m44, [0])] with
      | .ok a => decide (matrixOf spins a ![1, 1] ![-1, 1] = 11)
      | .error _ => false) = true := by decide +kernel
  rcases hma : mk intCut spins 0 [(sx, [0]), (m44, [0])] with e | a
  · rw [hma] at hw; exact absurd hw Bool.false_ne_true
  · rw [hma] at hw; exact ⟨a, rfl, by decide, of_decide_eq_true hw⟩

/-! ### C74: `A @= A` -/

/-- C74 (partial: operators whose constant is below the cutoff): `A @= A` leaves the square. -/
theorem C74_inplace_square_partial {K : Type} [CommRing K] [DecidableEq K] [Star K] {α : Type}
    [LinearOrder α] [Inhabited α] {N : Nat} {hi : Fin N → List α} {cut : Cutoff K}
    (hid : Ideal cut) (hs : SortedSpace hi) (hu : Uniform hi)
    (a : LOp K α N) (ha : Built cut hi a) (hc : cut.gt a.constant = false) :
    ∃ r, imatmulSelf cut hi a = .ok r ∧ ∀ x x', Valid hi x → Valid hi x' →
      matrixOf hi r x x' = matProd hi (matrixOf hi a) (matrixOf hi a) x x' := by
  obtain ⟨r, h1, h2⟩ := C13_inplace_product hid hs hu a a ha ha
  refine ⟨r, ?_, h2⟩
  rw [← h1]
  unfold imatmulSelf imatmul combineProduct
  rw [hc]
  rfl

/-- an operator meeting the hypotheses of the partial C74: a non-symmetric two-spin term. -/
example : ∃ a, Built intCut spins a ∧ intCut.gt a.constant = false ∧ a.terms ≠ [] := by
  have hw : (match mk intCut spins 0 [(m44, [0, 1])] with
      | .ok a => (!intCut.gt a.constant) && decide (a.terms.length ≠ 0)
      | .error _ => false) = true := by decide +kernel
  have ha : ArgsOK spins [(m44, [0, 1])] := by
    intro p hp
    rw [List.mem_singleton] at hp; subst hp
    exact ⟨by decide, by decide, by decide, spins_uniform.reorderable _⟩
  rcases hma : mk intCut spins 0 [(m44, [0, 1])] with e | a
  · rw [hma] at hw; exact absurd hw Bool.false_ne_true
  rw [hma] at hw
  simp only [Bool.and_eq_true, decide_eq_true_eq, Bool.not_eq_true'] at hw
  exact ⟨a, .mk ha hma, hw.1, fun h => hw.2 (by rw [h]; rfl)⟩

/-- C74: the in-place product of an operator with itself is not its square when it has a constant
    (`A @ A` is, by `C13_product`). -/
theorem C74_inplace_square_refuted :
    ∃ a, Built intCut spins a ∧ ∃ r, imatmulSelf intCut spins a = .ok r
      ∧ matrixOf spins r ![1, 1] ![1, 1]
        ≠ matProd spins (matrixOf spins a) (matrixOf spins a) ![1, 1] ![1, 1] := by
  have hw : (match mk intCut spins 2 [(sx, [0])] with
      | .ok a => (match imatmulSelf intCut spins a with
        | .ok r => decide (matrixOf spins r ![1, 1] ![1, 1]
            ≠ matProd spins (matrixOf spins a) (matrixOf spins a) ![1, 1] ![1, 1])
        | .error _ => false)
      | .error _ => false) = true := by decide +kernel
  have ha : ArgsOK spins [(sx, [0])] := by
    intro p hp
    rw [List.mem_singleton] at hp; subst hp
    exact ⟨by decide, by decide, by decide, spins_uniform.reorderable _⟩
  rcases hma : mk intCut spins 2 [(sx, [0])] with e | a
  · rw [hma] at hw; exact absurd hw Bool.false_ne_true
  rw [hma] at hw
  simp only at hw
  rcases hr : imatmulSelf intCut spins a with e | r
  · rw [hr] at hw; exact absurd hw Bool.false_ne_true
  rw [hr] at hw
  exact ⟨a, .mk ha hma, r, hr, of_decide_eq_true hw⟩

end Verif.LocalOp

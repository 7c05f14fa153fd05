import Verif.Props.QGTMpi

/-! C183, C184: the quantum geometric tensor with the Jacobian as a tree: processes, scale, matrix and dense solvers. -/

set_option linter.unusedSectionVars false
set_option linter.unusedVariables false

namespace Verif.QGT
open Verif.Hilbert (Err)
open Verif.Symm (divmod flat_lt sum_range_flat sum_range_divmod)
open Finset

/-! ## Processes -/

theorem pyOks_pool (mode : Mode) (R ns : Nat) (J : Nat → Jac) (q s k : Nat) (part : Bool) (hq : q < R) (hs : s < ns) :
    pyOksMpi mode R ns J q s k part = pyOks mode (R * ns) (pool ns J) (q * ns + s) k part
    ∧ (mode = .complex → pyOksMpi mode R ns J q (ns + s) k part = pyOks mode (R * ns) (pool ns J) (R * ns + (q * ns + s)) k part) := by
  have hp : ∀ t, pyDeriv (pool ns J) part t = pyDeriv (J (t / ns)) part (t % ns) := by
    intro t
    funext k
    unfold pyDeriv pool
    split_ifs <;> rfl
  have hlt : q * ns + s < R * ns := flat_lt hq hs
  cases mode with
  | real =>
    refine ⟨?_, fun h => by simp at h⟩
    simp only [pyOksMpi, pyOks]
    rw [centered_pool R ns _ q s k hs]
    simp only [hp]
  | holomorphic =>
    refine ⟨?_, fun h => by simp at h⟩
    exact C183_gradients .holomorphic R ns 0 J q s k hs
  | complex =>
    refine ⟨?_, fun _ => ?_⟩
    · simp only [pyOksMpi, pyOks]
      rw [if_pos hs, if_pos hlt, centered_pool R ns _ q s k hs]
      simp only [hp]
    · simp only [pyOksMpi, pyOks]
      rw [if_neg (by omega), if_neg (by omega), Nat.add_sub_cancel_left, Nat.add_sub_cancel_left, centered_pool R ns _ q s k hs]
      simp only [hp]

/-- a sum over the rows of all processes. -/
theorem rows_sum (mode : Mode) (R ns : Nat) (J : Nat → Jac) (F : (Nat → Bool → ℂ) → ℂ) :
    ∑ q ∈ range R, ∑ r ∈ range (pyRows mode ns), F (pyOksMpi mode R ns J q r) = ∑ r ∈ range (pyRows mode (R * ns)), F (pyOks mode (R * ns) (pool ns J) r) := by
  have h1 : ∀ q < R, ∀ s < ns, pyOksMpi mode R ns J q s = pyOks mode (R * ns) (pool ns J) (q * ns + s) := fun q hq s hs =>
    funext fun k => funext fun part => (pyOks_pool mode R ns J q s k part hq hs).1
  have h2 : mode = .complex → ∀ q < R, ∀ s < ns, pyOksMpi mode R ns J q (ns + s) = pyOks mode (R * ns) (pool ns J) (R * ns + (q * ns + s)) := fun hm q hq s hs =>
    funext fun k => funext fun part => (pyOks_pool mode R ns J q s k part hq hs).2 hm
  by_cases hm : mode = .complex
  · have e1 : pyRows mode ns = ns + ns := by rw [hm]; rfl
    have e2 : pyRows mode (R * ns) = R * ns + R * ns := by rw [hm]; rfl
    rw [e1, e2, sum_range_add, sum_range_flat, sum_range_flat, ← sum_add_distrib]
    refine sum_congr rfl fun q hq => ?_
    rw [sum_range_add]
    congr 1
    · exact sum_congr rfl fun s hs => by rw [h1 q (mem_range.1 hq) s (mem_range.1 hs)]
    · exact sum_congr rfl fun s hs => by rw [h2 hm q (mem_range.1 hq) s (mem_range.1 hs)]
  · have e1 : ∀ n, pyRows mode n = n := by
      intro n
      cases mode <;> simp_all [pyRows]
    rw [e1, e1, sum_range_flat]
    refine sum_congr rfl fun q hq => sum_congr rfl fun s hs => by rw [h1 q (mem_range.1 hq) s (mem_range.1 hs)]

/-- C183: the product of `QGTJacobianPyTree` on `R` processes is that of all samples. -/
theorem C183_tree_matmul (mode : Mode) (hm : mode ≠ .holomorphic) (R ns np : Nat) (cplx : Nat → Bool) (J : Nat → Jac) (shift : ℝ) (v : Nat → ℂ) (k : Nat) :
    pyMatmulMpi R (pyRows mode ns) np cplx (pyOksMpi mode R ns J) none shift v k = pyMatmul mode (R * ns) np cplx (pool ns J) shift v k := by
  have e : ∀ part, pyCore R (pyRows mode ns) np cplx (pyOksMpi mode R ns J) shift (pySplit v) k part
      = pyMatVec (pyRows mode (R * ns)) np cplx (pyOks mode (R * ns) (pool ns J)) shift v k part := by
    intro part
    unfold pyCore pyMatVec
    congr 2
    have := rows_sum mode R ns J fun o =>
      star (∑ l ∈ range np, (o l false * pySplit v l false + if cplx l then o l true * pySplit v l true else 0)) * o k part
    rw [this]
    rfl
  unfold pyMatmulMpi pyJoin
  simp only [pyScaled, e]
  cases mode with
  | holomorphic => exact absurd rfl hm
  | real => rfl
  | complex => rfl

/-- C183: hence it is the product of `QGTOnTheFly`, for trees with real and complex leaves. -/
theorem C183_tree_onthefly (R ns np : Nat) (h : 0 < R * ns) (cplx : Nat → Bool) (J : Nat → Jac) (shift : ℝ) (v : Nat → ℂ)
    (hf : ∀ k, cplx k = false → (∀ q s, (J q).im s k = 0) ∧ (v k).im = 0) (k : Nat) (hk : k < np) :
    pyMatmulMpi R (pyRows .complex ns) np cplx (pyOksMpi .complex R ns J) none shift v k = matVecMpi R ns np J shift v k
    ∧ ((∀ q s k, ((J q).re s k).im = 0) → (∀ q s k, ((J q).im s k).im = 0) →
      pyMatmulMpi R (pyRows .real ns) np cplx (pyOksMpi .real R ns J) none shift v k = matVecMpi R ns np J shift v k) := by
  have hf' : Fits cplx (pool ns J) v := fun k hk => ⟨fun s => (hf k hk).1 _ _, (hf k hk).2⟩
  refine ⟨?_, fun hr hi => ?_⟩
  · rw [C183_tree_matmul .complex (by simp), C183_onthefly]
    exact C65_tree_complex (R * ns) np h cplx (pool ns J) shift v hf' k hk
  · rw [C183_tree_matmul .real (by simp), C183_onthefly]
    exact C65_tree_real (R * ns) np h cplx (pool ns J) (fun s k => hr _ _ _) (fun s k => hi _ _ _) shift v hf' k hk

/-- C183: the norms of the columns of a tree are those of all samples, and with the gradients divided by them the product is `S` plus the shift times the
    diagonal of `S`. -/
theorem C183_tree_rescale (R rows np : Nat) (cplx : Nat → Bool) (O : Nat → Nat → Nat → Bool → ℂ) (hc : ∀ k part, pyScale R rows O k part ≠ 0) (shift : ℝ)
    (u : Nat → Bool → ℂ) (k : Nat) (part : Bool) :
    pyScaled R rows np cplx (fun q r l p => O q r l p / ((pyScale R rows O l p : ℝ) : ℂ)) (some (pyScale R rows O)) shift u k part
      = pyCore R rows np cplx O 0 u k part + (shift : ℂ) * (∑ q ∈ range R, ∑ r ∈ range rows, star (O q r k part) * O q r k part) * u k part := by
  have hc' : ∀ l p, ((pyScale R rows O l p : ℝ) : ℂ) ≠ 0 := fun l p => by exact_mod_cast hc l p
  simp only [pyScaled, pyCore]
  have e1 : ∀ q r, (∑ l ∈ range np, (O q r l false / ((pyScale R rows O l false : ℝ) : ℂ) * (u l false * ((pyScale R rows O l false : ℝ) : ℂ))
      + if cplx l then O q r l true / ((pyScale R rows O l true : ℝ) : ℂ) * (u l true * ((pyScale R rows O l true : ℝ) : ℂ)) else 0))
      = ∑ l ∈ range np, (O q r l false * u l false + if cplx l then O q r l true * u l true else 0) := by
    intro q r
    refine sum_congr rfl fun l _ => ?_
    have h1 := hc' l false
    have h2 := hc' l true
    congr 1
    · field_simp
    · split_ifs
      · field_simp
      · rfl
  simp only [e1]
  have e2 : ∀ f : Nat → Nat → ℂ, ∑ q ∈ range R, ∑ r ∈ range rows, star (f q r) * (O q r k part / ((pyScale R rows O k part : ℝ) : ℂ))
      = (∑ q ∈ range R, ∑ r ∈ range rows, star (f q r) * O q r k part) / ((pyScale R rows O k part : ℝ) : ℂ) := by
    intro f
    rw [sum_div]
    refine sum_congr rfl fun q _ => ?_
    rw [sum_div]
    exact sum_congr rfl fun r _ => (mul_div_assoc _ _ _).symm
  rw [e2, star_div₀, star_ofReal]
  have e3 : ((pyScale R rows O k part : ℝ) : ℂ) ^ 2 = ∑ q ∈ range R, ∑ r ∈ range rows, star (O q r k part) * O q r k part := by
    rw [← Complex.ofReal_pow, pyScale, Real.sq_sqrt]
    · push_cast
      refine sum_congr rfl fun q _ => sum_congr rfl fun r _ => ?_
      change ((O q r k part * (starRingEnd ℂ) (O q r k part)).re : ℂ) = (starRingEnd ℂ) (O q r k part) * O q r k part
      rw [mul_comm, ← Complex.normSq_eq_conj_mul_self, Complex.ofReal_re]
    · refine sum_nonneg fun q _ => sum_nonneg fun r _ => ?_
      change 0 ≤ (O q r k part * (starRingEnd ℂ) (O q r k part)).re
      rw [Complex.mul_conj, Complex.ofReal_re]
      exact Complex.normSq_nonneg _
  rw [← e3]
  have := hc' k part
  push_cast
  field_simp
  ring

/-! ## The matrix -/

theorem range_map_sum (n : Nat) (g : Nat → ℂ) : ((List.range n).map g).sum = ∑ k ∈ range n, g k := by
  induction n with
  | zero => simp
  | succ n ih => rw [List.range_succ, List.map_append, List.sum_append, ih, sum_range_succ]; simp

theorem cols_sum : ∀ (ls : List Leaf) (o : Nat) (f : Nat × Bool → ℂ),
    ((treeCols o ls).map f).sum = ∑ k ∈ range (sizeOf ls), (f (o + k, false) + if leafCplx ls k then f (o + k, true) else 0)
  | [], _, _ => by simp [treeCols, sizeOf]
  | (n, c) :: ls, o, f => by
    have ih := cols_sum ls (o + n) f
    have hs : sizeOf ((n, c) :: ls) = n + sizeOf ls := by simp [sizeOf]
    rw [hs, sum_range_add]
    simp only [treeCols, List.map_append, List.sum_append, List.map_map]
    rw [ih, range_map_sum n (f ∘ fun i => (o + i, false))]
    congr 1
    · rw [sum_add_distrib]
      congr 1
      cases c with
      | false =>
        simp only [Bool.false_eq_true, if_false, List.map_nil, List.sum_nil]
        refine (sum_eq_zero fun k hk => ?_).symm
        simp [leafCplx, mem_range.1 hk]
      | true =>
        simp only [if_true, List.map_map]
        rw [range_map_sum n (f ∘ fun i => (o + i, true))]
        refine sum_congr rfl fun k hk => ?_
        simp [leafCplx, mem_range.1 hk]
    · refine sum_congr rfl fun k _ => ?_
      have : leafCplx ((n, c) :: ls) (n + k) = leafCplx ls k := by simp [leafCplx]
      rw [this, Nat.add_assoc]

theorem mem_cols : ∀ (ls : List Leaf) (o k : Nat) (p : Bool),
    (k, p) ∈ treeCols o ls ↔ o ≤ k ∧ k < o + sizeOf ls ∧ (p = true → leafCplx ls (k - o) = true)
  | [], o, k, p => by simp [treeCols, sizeOf]; omega
  | (n, c) :: ls, o, k, p => by
    have ih := mem_cols ls (o + n) k p
    have hs : sizeOf ((n, c) :: ls) = n + sizeOf ls := by simp [sizeOf]
    have hr : ∀ b : Bool, (k, p) ∈ ((List.range n).map fun i => (o + i, b)) ↔ o ≤ k ∧ k < o + n ∧ p = b := by
      intro b
      simp only [List.mem_map, List.mem_range, Prod.mk.injEq]
      constructor
      · rintro ⟨i, hi, rfl, rfl⟩; exact ⟨by omega, by omega, rfl⟩
      · rintro ⟨h1, h2, rfl⟩; exact ⟨k - o, by omega, by omega, rfl⟩
    simp only [treeCols, List.mem_append, ih, hr, hs]
    by_cases h : k < o + n
    · have hl : ∀ h1 : o ≤ k, leafCplx ((n, c) :: ls) (k - o) = c := fun h1 => by
        unfold leafCplx; rw [if_pos (by omega)]
      cases c with
      | false =>
        cases p <;> simp only [Bool.false_eq_true, if_false, List.not_mem_nil]
        · constructor
          · rintro ((⟨a, b, d⟩ | h) | ⟨a, b, d⟩)
            · exact ⟨a, by omega, by simp⟩
            · exact absurd h (by simp)
            · omega
          · rintro ⟨a, b, d⟩; exact Or.inl (Or.inl ⟨a, h, trivial⟩)
        · constructor
          · rintro ((⟨a, b, d⟩ | h) | ⟨a, b, d⟩)
            · simp at d
            · exact absurd h (by simp)
            · omega
          · rintro ⟨a, b, d⟩
            have := d trivial
            rw [hl a] at this
            simp at this
      | true =>
        simp only [if_true, hr]
        constructor
        · rintro ((⟨a, b, d⟩ | ⟨a, b, d⟩) | ⟨a, b, d⟩)
          · exact ⟨a, by omega, fun _ => hl a⟩
          · exact ⟨a, by omega, fun _ => hl a⟩
          · omega
        · rintro ⟨a, b, d⟩
          left
          cases p
          · exact Or.inl ⟨a, h, rfl⟩
          · exact Or.inr ⟨a, h, rfl⟩
    · have hl : leafCplx ((n, c) :: ls) (k - o) = leafCplx ls (k - (o + n)) := by
        rw [leafCplx, if_neg (by omega), Nat.sub_sub]
      rw [hl]
      constructor
      · rintro ((⟨a, b, d⟩ | h1) | ⟨a, b, d⟩)
        · omega
        · cases c with
          | false => simp at h1
          | true =>
            simp only [if_true] at h1
            have := (hr true).1 h1
            omega
        · exact ⟨by omega, by omega, d⟩
      · rintro ⟨a, b, d⟩; exact Or.inr ⟨by omega, by omega, d⟩

theorem getD_lt {α : Type} : ∀ (l : List α) (d : α) (i : Nat) (h : i < l.length), l.getD i d = l[i]
  | _ :: _, _, 0, _ => rfl
  | _ :: l, d, i + 1, h => getD_lt l d i (by simpa using h)

theorem getD_sum : ∀ (l : List (Nat × Bool)) (d : Nat × Bool) (g : Nat × Bool → ℂ), ∑ j ∈ range l.length, g (l.getD j d) = (l.map g).sum
  | [], _, _ => by simp
  | a :: l, d, g => by
    rw [List.length_cons, sum_range_succ', List.map_cons, List.sum_cons, add_comm, ← getD_sum l d g]
    simp

theorem col_at (cols : List (Nat × Bool)) (k : Nat) (p : Bool) (h : (k, p) ∈ cols) :
    colIndex cols k p < cols.length ∧ cols.getD (colIndex cols k p) (0, false) = (k, p) := by
  have h1 : cols.idxOf (k, p) < cols.length := List.idxOf_lt_length_of_mem h
  refine ⟨h1, ?_⟩
  unfold colIndex
  rw [getD_lt _ _ _ h1]
  exact List.getElem_idxOf h1

theorem cols_nodup : ∀ (ls : List Leaf) (o : Nat), (treeCols o ls).Nodup
  | [], _ => by simp [treeCols]
  | (n, c) :: ls, o => by
    have hi : ∀ b : Bool, ((List.range n).map fun i => (o + i, b)).Nodup := fun b =>
      (List.nodup_range).map fun i j h => by simpa using h
    simp only [treeCols]
    rw [List.nodup_append, List.nodup_append]
    refine ⟨⟨hi false, ?_, ?_⟩, cols_nodup ls (o + n), ?_⟩
    · split_ifs
      · exact hi true
      · simp
    · rintro ⟨k, p⟩ h1 ⟨k', p'⟩ h2 he
      cases he
      cases c with
      | false => simp at h2
      | true =>
        simp only [if_true, List.mem_map, Prod.mk.injEq] at h1 h2
        obtain ⟨_, _, _, rfl⟩ := h1
        obtain ⟨_, _, _, h⟩ := h2
        simp at h
    · rintro ⟨k, p⟩ h1 ⟨k', p'⟩ h2 he
      cases he
      have h3 := ((mem_cols ls (o + n) k p).1 h2).1
      have h4 : k < o + n := by
        rcases List.mem_append.1 h1 with h | h
        · simp only [List.mem_map, List.mem_range, Prod.mk.injEq] at h
          obtain ⟨i, hi, he, _⟩ := h
          omega
        · cases c with
          | false => simp at h
          | true =>
            simp only [if_true, List.mem_map, List.mem_range, Prod.mk.injEq] at h
            obtain ⟨i, hi, he, _⟩ := h
            omega
      omega

/-- C183: the ravelled tree has one column for every parameter and one more for every complex one, in the order of the leaves. -/
theorem C183_tree_columns (ls : List Leaf) :
    (treeCols 0 ls).length = columns ls ∧ (treeCols 0 ls).Nodup
    ∧ ∀ k p, (k, p) ∈ treeCols 0 ls ↔ k < sizeOf ls ∧ (p = true → leafCplx ls k = true) := by
  refine ⟨?_, cols_nodup ls 0, fun k p => by simpa using mem_cols ls 0 k p⟩
  have : ∀ o, (treeCols o ls).length = columns ls := by
    induction ls with
    | nil => intro o; rfl
    | cons a ls ih =>
      intro o
      obtain ⟨n, c⟩ := a
      simp only [treeCols, List.length_append, ih]
      cases c <;> simp [columns, sizeOf] <;> omega
  exact this 0

/-- the gradients of a tree as a matrix with the columns of the ravelled tree. -/
def flatRows (cols : List (Nat × Bool)) (O : Nat → Nat → Nat → Bool → ℂ) (q r j : Nat) : ℂ :=
  O q r (cols.getD j (0, false)).1 (cols.getD j (0, false)).2

/-- a split vector ravelled. -/
def ravelled {β : Type} (cols : List (Nat × Bool)) (u : Nat → Bool → β) (j : Nat) : β := u (cols.getD j (0, false)).1 (cols.getD j (0, false)).2

theorem flat_core (R rows : Nat) (ls : List Leaf) (O : Nat → Nat → Nat → Bool → ℂ) (shift : ℝ) (u : Nat → Bool → ℂ) (i : Nat) :
    coreMpi R rows (treeCols 0 ls).length (flatRows (treeCols 0 ls) O) shift (ravelled (treeCols 0 ls) u) i
      = pyCore R rows (sizeOf ls) (leafCplx ls) O shift u ((treeCols 0 ls).getD i (0, false)).1 ((treeCols 0 ls).getD i (0, false)).2 := by
  have e : ∀ q r, ∑ l ∈ range (treeCols 0 ls).length, flatRows (treeCols 0 ls) O q r l * ravelled (treeCols 0 ls) u l
      = ∑ l ∈ range (sizeOf ls), (O q r l false * u l false + if leafCplx ls l then O q r l true * u l true else 0) := by
    intro q r
    have h := cols_sum ls 0 fun a => O q r a.1 a.2 * u a.1 a.2
    simp only [Nat.zero_add] at h
    rw [← h, ← getD_sum _ (0, false)]
    rfl
  unfold coreMpi pyCore
  simp only [e]
  rw [star_sum]
  rfl

/-- C183: the matrix of a tree, times the ravelled split vector, is the product; with and without scale. -/
theorem C183_tree_to_dense (R rows : Nat) (ls : List Leaf) (O : Nat → Nat → Nat → Bool → ℂ) (scale : Option (Nat → Bool → ℝ)) (shift : ℝ)
    (u : Nat → Bool → ℂ) (i : Nat) (hi : i < (treeCols 0 ls).length) :
    ∑ j ∈ range (treeCols 0 ls).length, pyToDense R rows (treeCols 0 ls) O scale shift i j * ravelled (treeCols 0 ls) u j
      = ravelled (treeCols 0 ls) (pyScaled R rows (sizeOf ls) (leafCplx ls) O scale shift u) i := by
  obtain ⟨e1, e2, _⟩ := C183_rows R rows (treeCols 0 ls).length (flatRows (treeCols 0 ls) O) (scale.map (ravelled (treeCols 0 ls))) shift
    (ravelled (treeCols 0 ls) u) i 0
  have e3 : ∀ j, pyToDense R rows (treeCols 0 ls) O scale shift i j
      = toDense (R * rows) (stackRows rows (flatRows (treeCols 0 ls) O)) (scale.map (ravelled (treeCols 0 ls))) shift i j := by
    intro j
    rw [← (C183_rows R rows (treeCols 0 ls).length (flatRows (treeCols 0 ls) O) (scale.map (ravelled (treeCols 0 ls))) shift
      (ravelled (treeCols 0 ls) u) i j).2.1]
    cases scale <;> rfl
  simp only [e3]
  rw [C65_to_dense _ _ _ _ _ _ i hi, ← e1]
  cases scale with
  | none =>
    simp only [Option.map_none, scaledCoreMpi]
    exact flat_core R rows ls O shift u i
  | some c =>
    simp only [Option.map_some, scaledCoreMpi]
    have := flat_core R rows ls O shift (fun l p => u l p * c l p) i
    unfold ravelled at this ⊢
    rw [this]
    rfl

/-- what a dense solver gives for the split system. -/
noncomputable def splitSol (cols : List (Nat × Bool)) (c : Nat → Bool → ℝ) (A : Nat → Nat → ℂ) (lin : (Nat → Nat → ℂ) → (Nat → ℂ) → Nat → ℂ)
    (y : Nat → ℂ) (k : Nat) (part : Bool) : ℂ :=
  denseSolve lin A (fun i => ravelled cols (pySplit y) i / ravelled cols c i) (colIndex cols k part) / c k part

/-- C183: with a dense solver and a positive shift `solve` of `QGTJacobianPyTree` gives the solution, for trees with real and complex leaves, with and
    without rescaling, on any number of processes. -/
theorem C183_tree_solvers (R rows : Nat) (ls : List Leaf) (O : Nat → Nat → Nat → Bool → ℂ) (hO : ∀ q r k p, (O q r k p).im = 0)
    (scale : Option (Nat → Bool → ℝ)) (hc : ∀ c, scale = some c → ∀ k p, c k p ≠ 0) (shift : ℝ) (hs : 0 < shift)
    (lin : (Nat → Nat → ℂ) → (Nat → ℂ) → Nat → ℂ) (hl : DenseGood (columns ls) lin) (y : Nat → ℂ) (hy : ∀ k, leafCplx ls k = false → (y k).im = 0)
    (k : Nat) (hk : k < sizeOf ls) :
    pyMatmulMpi R rows (sizeOf ls) (leafCplx ls) O scale shift (pySolveDense R rows (treeCols 0 ls) (leafCplx ls) O scale shift lin y) k = y k := by
  obtain ⟨hlen, hnd, hmem⟩ := C183_tree_columns ls
  obtain ⟨c, hcdef⟩ : ∃ c : Nat → Bool → ℝ, c = (scale.getD fun _ _ => 1) := ⟨_, rfl⟩
  have hcne : ∀ k p, ((c k p : ℝ) : ℂ) ≠ 0 := by
    intro k p
    rw [hcdef]
    cases scale with
    | none => simp
    | some d => exact_mod_cast hc d rfl k p
  obtain ⟨A, hA⟩ : ∃ A, A = pyToDense R rows (treeCols 0 ls) O none shift := ⟨_, rfl⟩
  obtain ⟨x, hx⟩ : ∃ x, x = splitSol (treeCols 0 ls) c A lin y := ⟨_, rfl⟩
  have hsol : ∀ k, pySolveDense R rows (treeCols 0 ls) (leafCplx ls) O scale shift lin y k = pyJoin (leafCplx ls) x k := by
    intro k
    rw [hx, hA, hcdef]
    cases scale <;> rfl
  have hreal : ∀ k p, (x k p).im = 0 := by
    intro k p
    rw [hx]
    unfold splitSol
    rw [Complex.div_ofReal_im]
    have := hl.real A (fun i => ravelled (treeCols 0 ls) (pySplit y) i / ravelled (treeCols 0 ls) c i) (fun i j => by
      rw [hA]
      simp only [pyToDense]
      rw [Complex.add_im, Complex.im_sum]
      have : ∀ q ∈ range R, (∑ r ∈ range rows, star (O q r ((treeCols 0 ls).getD i (0, false)).1 ((treeCols 0 ls).getD i (0, false)).2)
          * O q r ((treeCols 0 ls).getD j (0, false)).1 ((treeCols 0 ls).getD j (0, false)).2).im = 0 := by
        intro q _
        rw [Complex.im_sum]
        refine sum_eq_zero fun r _ => ?_
        have e1 := hO q r ((treeCols 0 ls).getD i (0, false)).1 ((treeCols 0 ls).getD i (0, false)).2
        have e2 := hO q r ((treeCols 0 ls).getD j (0, false)).1 ((treeCols 0 ls).getD j (0, false)).2
        change ((starRingEnd ℂ) _ * _).im = 0
        simp only [Complex.mul_im, Complex.conj_re, Complex.conj_im, e1, e2]
        simp
      rw [sum_eq_zero this]
      split_ifs <;> simp) (fun i => by
        rw [Complex.div_ofReal_im]
        simp [ravelled, pySplit]) (colIndex (treeCols 0 ls) k p)
    simp only [denseSolve]
    rw [this, zero_div]
  -- splitting the result gives the split solution back
  have hsplit : ∀ l p, (p = true → leafCplx ls l = true) → pySplit (fun k => pyJoin (leafCplx ls) x k) l p = x l p := by
    intro l p hp
    unfold pySplit pyJoin
    dsimp only
    cases p with
    | false =>
      by_cases h : leafCplx ls l = true
      · rw [if_pos h]; apply Complex.ext <;> simp [hreal]
      · rw [if_neg h]; apply Complex.ext <;> simp [hreal]
    | true =>
      rw [if_pos (hp rfl)]
      apply Complex.ext <;> simp [hreal]
  -- the split system
  have hsys : ∀ k p, (k, p) ∈ treeCols 0 ls → pyCore R rows (sizeOf ls) (leafCplx ls) O shift (fun l p => x l p * c l p) k p = pySplit y k p / c k p := by
    intro k p hm
    obtain ⟨hi, hat⟩ := col_at _ k p hm
    have h1 := C183_tree_to_dense R rows ls O none shift (fun l p => x l p * c l p) (colIndex (treeCols 0 ls) k p) hi
    have e1 : ∀ f : Nat → Bool → ℂ, ravelled (treeCols 0 ls) f (colIndex (treeCols 0 ls) k p) = f k p := by
      intro f
      unfold ravelled
      rw [hat]
    rw [e1] at h1
    simp only [pyScaled] at h1
    rw [← h1]
    have e2 : ∀ j < (treeCols 0 ls).length, ravelled (treeCols 0 ls) (fun l p => x l p * ((c l p : ℝ) : ℂ)) j
        = lin A (fun i => ravelled (treeCols 0 ls) (pySplit y) i / ravelled (treeCols 0 ls) c i) j := by
      intro j hj
      unfold ravelled
      rw [hx]
      unfold splitSol
      dsimp only
      rw [div_mul_cancel₀ _ (hcne _ _)]
      have : colIndex (treeCols 0 ls) ((treeCols 0 ls).getD j (0, false)).1 ((treeCols 0 ls).getD j (0, false)).2 = j := by
        unfold colIndex
        rw [getD_lt _ _ _ hj]
        exact hnd.idxOf_getElem j hj
      rw [this]
      rfl
    rw [sum_congr rfl fun j hj => by rw [e2 j (mem_range.1 hj)], ← hA]
    rw [hlen] at hi ⊢
    rw [hl.solves A _ ?_ _ hi]
    · rw [show ravelled (treeCols 0 ls) (pySplit y) (colIndex (treeCols 0 ls) k p) = pySplit y k p from e1 _]
      unfold ravelled
      rw [hat]
    · intro v hv
      refine gram_regular (R * rows) (columns ls) (stackRows rows (flatRows (treeCols 0 ls) O)) shift hs v fun i hi => ?_
      rw [← hv i hi]
      refine sum_congr rfl fun j _ => ?_
      rw [hA, ← toDense_congr_none]
      rfl
  have hfin : ∀ p, (k, p) ∈ treeCols 0 ls →
      pyScaled R rows (sizeOf ls) (leafCplx ls) O scale shift (pySplit (pySolveDense R rows (treeCols 0 ls) (leafCplx ls) O scale shift lin y)) k p
        = pySplit y k p := by
    intro p hm
    have e0 : pySolveDense R rows (treeCols 0 ls) (leafCplx ls) O scale shift lin y = fun k => pyJoin (leafCplx ls) x k := funext hsol
    have hcongr : pyCore R rows (sizeOf ls) (leafCplx ls) O shift (fun l p => pySplit (fun k => pyJoin (leafCplx ls) x k) l p * ((c l p : ℝ) : ℂ)) k p
        = pySplit y k p / c k p := by
      rw [← hsys k p hm]
      unfold pyCore
      dsimp only
      rw [hsplit k p ((hmem k p).1 hm).2]
      congr 2
      refine sum_congr rfl fun q _ => sum_congr rfl fun r _ => ?_
      congr 2
      refine sum_congr rfl fun l _ => ?_
      rw [hsplit l false (by simp)]
      by_cases h : leafCplx ls l = true
      · rw [if_pos h, if_pos h, hsplit l true fun _ => h]
      · rw [if_neg h, if_neg h]
    rw [e0]
    have hk' := hcne k p
    cases scale with
    | none =>
      have h1 : ∀ k p, c k p = 1 := fun k p => by rw [hcdef]; rfl
      simp only [pyScaled]
      simpa [h1] using hcongr
    | some d =>
      have h1 : d = c := by rw [hcdef]; rfl
      simp only [pyScaled]
      rw [h1, hcongr]
      exact div_mul_cancel₀ _ hk'
  unfold pyMatmulMpi pyJoin
  have hm0 : (k, false) ∈ treeCols 0 ls := (hmem k false).2 ⟨hk, by simp⟩
  by_cases h : leafCplx ls k = true
  · rw [if_pos h, hfin false hm0, hfin true ((hmem k true).2 ⟨hk, fun _ => h⟩)]
    unfold pySplit
    apply Complex.ext <;> simp
  · rw [if_neg h, hfin false hm0]
    unfold pySplit
    apply Complex.ext
    · simp
    · simp [hy k (by simpa using h)]

/-- C183: the gradients of a tree in the split modes are real. -/
theorem C183_tree_real_gradients (mode : Mode) (hm : mode ≠ .holomorphic) (R ns : Nat) (J : Nat → Jac) (q r k : Nat) (p : Bool) :
    (pyOksMpi mode R ns J q r k p).im = 0 := by
  have hc : ∀ (A : Nat → Nat → ℝ) (q s : Nat), (centerMpi R ns (fun p t => ((A p t : ℝ) : ℂ)) q s).im = 0 := by
    intro f q s
    have : centerMpi R ns (fun p t => ((f p t : ℝ) : ℂ)) q s = ((f q s - (∑ p ∈ range R, (∑ t ∈ range ns, f p t) / ns) / R : ℝ) : ℂ) := by
      unfold centerMpi
      push_cast
      rfl
    rw [this, Complex.ofReal_im]
  have hd : ∀ (A : Nat → Nat → Nat → ℝ) (q s : Nat), (centeredMpi R ns (fun q s k => ((A q s k : ℝ) : ℂ)) q s k).im = 0 := by
    intro A q s
    unfold centeredMpi
    rw [Complex.div_ofReal_im, hc fun q s => A q s k, zero_div]
  cases mode with
  | real => exact hd (fun q s k => (pyDeriv (J q) p s k).re) q r
  | complex =>
    simp only [pyOksMpi]
    split_ifs
    · exact hd (fun q s k => (pyDeriv (J q) p s k).re) q r
    · exact hd (fun q s k => (-Complex.I * pyDeriv (J q) p s k).re) q (r - ns)
  | holomorphic => exact absurd rfl hm

/-- A tree with a complex leaf of two parameters and a real leaf of one: five columns, and a solver for them exists. -/
example : treeCols 0 [(2, true), (1, false)] = [(0, false), (1, false), (0, true), (1, true), (2, false)] ∧ columns [(2, true), (1, false)] = 5
    ∧ ∃ lin, DenseGood 5 lin := ⟨by decide, by decide, dense_exists 5⟩

/-- Two processes with two samples each, one parameter: the norm of its column is `√5`, different from zero. -/
example : pyScale 2 2 (fun q r _ _ => if q = 0 ∧ r = 0 then 2 else if q = 1 ∧ r = 1 then 1 else 0) 0 false = Real.sqrt 5 := by
  unfold pyScale
  congr 1
  simp [sum_range_succ]
  norm_num

/-! ## The initial guess -/

/-- C184: the initial guess is not split: with a complex leaf `solve` of the tree with an initial guess raises an exception in the split modes. -/
theorem C184_guess_refuted (mode : Mode) (hm : mode ≠ .holomorphic) (ls : List Leaf) (h : ∃ n, (n, true) ∈ ls) (scaled : Bool) :
    ∃ e, pySolveGuess mode ls true scaled = .error e ∧ (e = .typeError ↔ scaled = true) := by
  have h' : ls.any Prod.snd = true := by
    obtain ⟨n, hn⟩ := h
    exact List.any_eq_true.2 ⟨_, hn, rfl⟩
  unfold pySolveGuess
  rw [if_pos ⟨hm, rfl, h'⟩]
  cases scaled
  · exact ⟨.valueError, rfl, by simp⟩
  · exact ⟨.typeError, rfl, by simp⟩

example : ∃ n, (n, true) ∈ [(2, true), (1, false)] := ⟨2, by simp⟩

/-- C184, the part that holds: without a guess, for real leaves only, or in mode "holomorphic" the solver is called. -/
theorem C184_guess_partial (mode : Mode) (ls : List Leaf) (guess scaled : Bool)
    (h : guess = false ∨ mode = .holomorphic ∨ ∀ l ∈ ls, l.2 = false) : pySolveGuess mode ls guess scaled = .ok () := by
  unfold pySolveGuess
  rw [if_neg]
  rintro ⟨h1, h2, h3⟩
  rcases h with h | h | h
  · rw [h] at h2; simp at h2
  · exact h1 h
  · obtain ⟨l, hl, hc⟩ := List.any_eq_true.1 h3
    rw [h l hl] at hc
    simp at hc

example : ∀ l ∈ ([(2, false), (1, false)] : List Leaf), l.2 = false := by simp

end Verif.QGT

import Verif.Model.LocalValues
import Verif.Props.LocalOpConn
import Mathlib.Analysis.SpecialFunctions.ExpDeriv
import Mathlib.Analysis.Calculus.Deriv.Add
import Mathlib.Analysis.Calculus.Deriv.Mul
import Mathlib.Algebra.BigOperators.Field

/-! C93 (local values), C94 (derivatives of local values), C95 (cost functions). -/

set_option linter.unusedSectionVars false
set_option linter.unusedVariables false

namespace Verif.LocalValues
open Verif.LocalOp Verif.Hilbert

/-! ## Lemmas -/

theorem slice_append {β : Type} (pre mid post : List β) : slice (pre ++ mid ++ post) pre.length (pre.length + mid.length) = mid := by
  unfold slice
  rw [List.append_assoc, List.drop_left, Nat.add_sub_cancel_left, List.take_left]

theorem kernel_rows {β : Type} (E : β → List (ℂ × ℂ)) (xs : List β) (lvs : List ℂ) (pre : List (ℂ × ℂ)) :
    kernel ((pre ++ xs.flatMap E).map Prod.snd) ((pre ++ xs.flatMap E).map Prod.fst) pre.length lvs
        (runningTotals pre.length (xs.map fun x => (E x).length))
      = List.zipWith (fun x lv => weightSum ((E x).map Prod.fst) ((E x).map Prod.snd) lv) xs lvs := by
  induction xs generalizing lvs pre with
  | nil => cases lvs <;> simp [runningTotals, kernel]
  | cons x xs ih =>
    cases lvs with
    | nil => simp [runningTotals, kernel]
    | cons lv lvs =>
      rw [List.map_cons, runningTotals, kernel, List.zipWith_cons_cons, List.flatMap_cons, ← List.append_assoc]
      have h1 : slice ((pre ++ E x ++ xs.flatMap E).map Prod.fst) pre.length (pre.length + (E x).length) = (E x).map Prod.fst := by
        have := slice_append (pre.map Prod.fst) ((E x).map Prod.fst) ((xs.flatMap E).map Prod.fst)
        simpa only [List.map_append, List.length_map] using this
      have h2 : slice ((pre ++ E x ++ xs.flatMap E).map Prod.snd) pre.length (pre.length + (E x).length) = (E x).map Prod.snd := by
        have := slice_append (pre.map Prod.snd) ((E x).map Prod.snd) ((xs.flatMap E).map Prod.snd)
        simpa only [List.map_append, List.length_map] using this
      rw [h1, h2]
      congr 1
      have := ih lvs (pre ++ E x)
      rw [List.length_append] at this
      exact this

theorem weightSum_eq (l : List (ℂ × ℂ)) (lv : ℂ) :
    weightSum (l.map Prod.fst) (l.map Prod.snd) lv = (l.map fun p => p.1 * Complex.exp (p.2 - lv)).sum := by
  unfold weightSum
  congr 1
  induction l with
  | nil => rfl
  | cons p l ih => simp

variable {N : Nat} {α : Type} [LinearOrder α] [Inhabited α] {hi : Fin N → List α} {cut : Cutoff ℂ}

theorem mem_basis (x : Fin N → α) : x ∈ basisStates hi ↔ Valid hi x := by
  simp [basisStates, Valid]

/-- a sum over connected elements is a sum over the basis. -/
theorem sum_melAt (l : List ((Fin N → α) × ℂ)) (h : ∀ p ∈ l, Valid hi p.1) (F : (Fin N → α) → ℂ) :
    (l.map fun p => p.2 * F p.1).sum = ∑ x' ∈ basisStates hi, melAt l x' * F x' := by
  induction l with
  | nil => simp [melAt]
  | cons p l ih =>
    rw [List.map_cons, List.sum_cons, ih fun q hq => h q (List.mem_cons_of_mem _ hq)]
    have e : ∀ x', melAt (p :: l) x' * F x' = (if p.1 = x' then p.2 * F x' else 0) + melAt l x' * F x' := by
      intro x'
      simp only [melAt, List.map_cons, List.sum_cons, add_mul]
      congr 1
      split <;> simp
    rw [Finset.sum_congr rfl fun x' _ => e x', Finset.sum_add_distrib, Finset.sum_ite_eq,
      if_pos ((mem_basis _).2 (h p List.mem_cons_self))]

/-- the rows of `get_conn_flattened`. -/
theorem rows_sum (hid : Ideal cut) (hs : SortedSpace hi) (op : LOp ℂ α N) (h : Built cut hi op) (x : Fin N → α) (hx : Valid hi x)
    (F : (Fin N → α) → ℂ) :
    ((rowEntries hi op x).map fun p => p.1 * F p.2).sum = ∑ x' ∈ basisStates hi, matrixOf hi op x x' * F x' := by
  have hg := h.good hid hs
  have e := getConn_eq hs op hg.ok (fun _ => 0) (fun _ _ => default) x hx
  have hv := C10_connected_valid hid hs op h (fun _ => 0) (fun _ _ => default) x hx
  have hsum := sum_melAt _ hv F
  rw [e] at hsum
  simp only [toPairs, List.map_map] at hsum
  have e1 : ((rowEntries hi op x).map fun p => p.1 * F p.2)
      = (rowEntries hi op x).map ((fun p : (Fin N → α) × ℂ => p.2 * F p.1) ∘ Prod.swap) := rfl
  rw [e1, hsum]
  apply Finset.sum_congr rfl
  intro x' hx'
  congr 1
  rw [← C10_get_conn_reachable hid hs op h (fun _ => 0) (fun _ _ => default) x x' hx ((mem_basis _).1 hx'), e]
  rfl

/-! ## C93: local values -/

theorem localValues_rows (hid : Ideal cut) (hs : SortedSpace hi) (op : LOp ℂ α N) (h : Built cut hi op) (gm : Nat → ℂ) (gx : Nat → Fin N → α)
    (logVal : (Fin N → α) → ℂ) (v : List (Fin N → α)) (hv : ∀ x ∈ v, Valid hi x) (lvs : Option (List ℂ)) :
    localValues hi op gm gx logVal 2 N v lvs
      = .ok (List.zipWith (fun x lv => ∑ x' ∈ basisStates hi, matrixOf hi op x x' * Complex.exp (logVal x' - lv)) v
          (lvs.getD (v.map logVal))) := by
  have hg := h.good hid hs
  have he := connFlattened_eq (hi := hi) op gm gx v fun x hxx => hg.ok.diagOK hs x (hv x hxx)
  unfold localValues
  rw [if_neg (by simp), if_neg (by simp)]
  congr 1
  have e2 : (connFlattened hi op gm gx v).2 = runningTotals 0 (v.map fun x => ((rowEntries hi op x).map fun p => (p.1, logVal p.2)).length) := by
    show runningTotals 0 (v.map (connCount hi op)) = _
    congr 1
    apply List.map_congr_left
    intro x _
    rw [List.length_map, length_rowEntries]
  have e3 : (connFlattened hi op gm gx v).1.xp.map logVal = (v.flatMap fun x => (rowEntries hi op x).map fun p => (p.1, logVal p.2)).map Prod.snd := by
    rw [he.2]
    simp [List.map_flatMap, Function.comp_def]
  have e4 : (connFlattened hi op gm gx v).1.mels = (v.flatMap fun x => (rowEntries hi op x).map fun p => (p.1, logVal p.2)).map Prod.fst := by
    rw [he.1]
    simp [List.map_flatMap, Function.comp_def]
  simp only
  rw [e2, e3, e4]
  have := kernel_rows (fun x => (rowEntries hi op x).map fun p => (p.1, logVal p.2)) v (lvs.getD (v.map logVal)) []
  rw [List.nil_append, List.length_nil] at this
  rw [this]
  congr 1
  apply List.ext_getElem
  · simp
  · intro i h1 h2
    rw [List.getElem_zipWith, List.getElem_zipWith, weightSum_eq, List.map_map]
    have hx : Valid hi (v[i]'(by rw [List.length_zipWith] at h1; omega)) := hv _ (List.getElem_mem _)
    exact rows_sum hid hs op h _ hx fun x' => Complex.exp (logVal x' - _)

/-- C93: the local value of every row is ⟨x|O|ψ⟩/⟨x|ψ⟩ with ψ = exp(log_val). -/
theorem C93_local_values (hid : Ideal cut) (hs : SortedSpace hi) (op : LOp ℂ α N) (h : Built cut hi op) (gm : Nat → ℂ) (gx : Nat → Fin N → α)
    (logVal : (Fin N → α) → ℂ) (v : List (Fin N → α)) (hv : ∀ x ∈ v, Valid hi x) :
    localValues hi op gm gx logVal 2 N v none
      = .ok (v.map fun x => (∑ x' ∈ basisStates hi, matrixOf hi op x x' * Complex.exp (logVal x')) / Complex.exp (logVal x)) := by
  rw [localValues_rows hid hs op h gm gx logVal v hv]
  congr 1
  simp only [Option.getD_none]
  rw [List.zipWith_map_right, List.zipWith_self]
  apply List.map_congr_left
  intro x _
  rw [Finset.sum_div]
  apply Finset.sum_congr rfl
  intro x' _
  rw [Complex.exp_sub, mul_div_assoc]

/-- C93: given logarithms are used in place of those of the rows: with any list of the right length the `i`-th value is
    ⟨x_i|O|ψ⟩ divided by the exponential of the `i`-th given logarithm; giving those of the rows changes nothing. -/
theorem C93_given_log_vals (hid : Ideal cut) (hs : SortedSpace hi) (op : LOp ℂ α N) (h : Built cut hi op) (gm : Nat → ℂ) (gx : Nat → Fin N → α)
    (logVal : (Fin N → α) → ℂ) (v : List (Fin N → α)) (hv : ∀ x ∈ v, Valid hi x) :
    (∀ lvs : List ℂ, lvs.length = v.length →
      localValues hi op gm gx logVal 2 N v (some lvs)
        = .ok (List.zipWith (fun x lv => (∑ x' ∈ basisStates hi, matrixOf hi op x x' * Complex.exp (logVal x')) / Complex.exp lv) v lvs))
    ∧ localValues hi op gm gx logVal 2 N v (some (v.map logVal)) = localValues hi op gm gx logVal 2 N v none := by
  have key : ∀ lvs : List ℂ, localValues hi op gm gx logVal 2 N v (some lvs)
        = .ok (List.zipWith (fun x lv => (∑ x' ∈ basisStates hi, matrixOf hi op x x' * Complex.exp (logVal x')) / Complex.exp lv) v lvs) := by
    intro lvs
    rw [localValues_rows hid hs op h gm gx logVal v hv, Option.getD_some]
    simp only [Complex.exp_sub, Finset.sum_div, mul_div_assoc]
  refine ⟨fun lvs _ => key lvs, ?_⟩
  rw [key, C93_local_values hid hs op h gm gx logVal v hv, List.zipWith_map_right, List.zipWith_self]

/-- C93: averaged with the weights |ψ(x)|², the local values give ⟨ψ|O|ψ⟩. -/
theorem C93_expectation (hid : Ideal cut) (hs : SortedSpace hi) (op : LOp ℂ α N) (h : Built cut hi op) (gm : Nat → ℂ) (gx : Nat → Fin N → α)
    (logVal : (Fin N → α) → ℂ) (v : List (Fin N → α)) (hv : ∀ x ∈ v, Valid hi x) :
    ∃ out, localValues hi op gm gx logVal 2 N v none = .ok out ∧ out.length = v.length
      ∧ (List.zipWith (fun x o => (Complex.normSq (Complex.exp (logVal x)) : ℂ) * o) v out).sum
        = (v.map fun x => ∑ x' ∈ basisStates hi, star (Complex.exp (logVal x)) * matrixOf hi op x x' * Complex.exp (logVal x')).sum := by
  refine ⟨_, C93_local_values hid hs op h gm gx logVal v hv, by simp, ?_⟩
  rw [List.zipWith_map_right, List.zipWith_self]
  congr 1
  apply List.map_congr_left
  intro x _
  have h0 : Complex.exp (logVal x) ≠ 0 := Complex.exp_ne_zero _
  rw [Complex.normSq_eq_conj_mul_self, mul_assoc, mul_div_cancel₀ _ h0, Finset.mul_sum]
  apply Finset.sum_congr rfl
  intro x' _
  rw [mul_assoc]
  rfl

theorem unpack_runningTotals {β : Type} (xs : List β) (len : β → Nat) (low : Nat) :
    unpack low xs (runningTotals low (xs.map len)) = xs.flatMap fun x => List.replicate (len x) x := by
  induction xs generalizing low with
  | nil => rfl
  | cons x xs ih => rw [List.map_cons, runningTotals, unpack, ih, List.flatMap_cons, Nat.add_sub_cancel_left]

theorem zipWith_flatMap {β γ δ : Type} (f : γ → δ → ℂ) (xs : List β) (a : β → List γ) (b : β → List δ) (h : ∀ x ∈ xs, (a x).length = (b x).length) :
    List.zipWith f (xs.flatMap a) (xs.flatMap b) = xs.flatMap fun x => List.zipWith f (a x) (b x) := by
  induction xs with
  | nil => rfl
  | cons x xs ih =>
    rw [List.flatMap_cons, List.flatMap_cons, List.flatMap_cons, List.zipWith_append (h x List.mem_cons_self),
      ih fun y hy => h y (List.mem_cons_of_mem _ hy)]

/-- C93: for density matrices and operators on the physical space the local value is ⟨x|O ρ|x⟩/⟨x|ρ|x⟩. -/
theorem C93_density_matrix (hid : Ideal cut) (hs : SortedSpace hi) (op : LOp ℂ α N) (h : Built cut hi op) (gm : Nat → ℂ) (gx : Nat → Fin N → α)
    (logVal : (Fin N → α) → (Fin N → α) → ℂ) (v : List (Fin N → α)) (hne : v ≠ []) (hv : ∀ x ∈ v, Valid hi x) :
    localValuesOpOp hi op gm gx logVal 2 N v none
      = .ok (v.map fun x => (∑ x' ∈ basisStates hi, matrixOf hi op x x' * Complex.exp (logVal x' x)) / Complex.exp (logVal x x)) := by
  have hg := h.good hid hs
  have he := connFlattened_eq (hi := hi) op gm gx v fun x hxx => hg.ok.diagOK hs x (hv x hxx)
  unfold localValuesOpOp
  rw [if_neg (by simp), if_neg (by simp), if_neg hne]
  congr 1
  have e2 : (connFlattened hi op gm gx v).2
      = runningTotals 0 (v.map fun x => ((rowEntries hi op x).map fun p => (p.1, logVal p.2 x)).length) := by
    show runningTotals 0 (v.map (connCount hi op)) = _
    congr 1
    apply List.map_congr_left
    intro x _
    rw [List.length_map, length_rowEntries]
  have e3 : List.zipWith logVal (connFlattened hi op gm gx v).1.xp (unpack 0 v (connFlattened hi op gm gx v).2)
      = (v.flatMap fun x => (rowEntries hi op x).map fun p => (p.1, logVal p.2 x)).map Prod.snd := by
    rw [e2, unpack_runningTotals, he.2, List.map_flatMap, zipWith_flatMap, List.map_flatMap]
    · congr 1
      funext x
      apply List.ext_getElem <;> simp
    · simp
  have e4 : (connFlattened hi op gm gx v).1.mels = (v.flatMap fun x => (rowEntries hi op x).map fun p => (p.1, logVal p.2 x)).map Prod.fst := by
    rw [he.1]
    simp [List.map_flatMap, Function.comp_def]
  simp only [Option.getD_none]
  rw [e3, e4, e2]
  have := kernel_rows (fun x => (rowEntries hi op x).map fun p => (p.1, logVal p.2 x)) v (v.map fun x => logVal x x) []
  rw [List.nil_append, List.length_nil] at this
  rw [this, List.zipWith_map_right, List.zipWith_self]
  congr 1
  apply List.map_congr_left
  intro x hx
  rw [weightSum_eq, List.map_map, Finset.sum_div]
  refine (rows_sum hid hs op h x (hv x hx) fun x' => Complex.exp (logVal x' x - logVal x x)).trans ?_
  apply Finset.sum_congr rfl
  intro x' _
  rw [Complex.exp_sub, mul_div_assoc]

/-- C130: refuted for an empty batch of a density matrix: an IndexError instead of an empty result. -/
theorem C130_empty_batch_refuted (op : LOp ℂ α N) (gm : Nat → ℂ) (gx : Nat → Fin N → α) (logVal : (Fin N → α) → (Fin N → α) → ℂ)
    (logVal1 : (Fin N → α) → ℂ) :
    localValuesOpOp hi op gm gx logVal 2 N [] none = .error .indexError ∧ localValues hi op gm gx logVal1 2 N [] none = .ok [] := by
  constructor
  · simp [localValuesOpOp]
  · simp [localValues, connFlattened, kernel, runningTotals]

/-- C93: arrays that are not two-dimensional are a RuntimeError, rows of the wrong width an AssertionError. -/
theorem C93_errors (op : LOp ℂ α N) (gm : Nat → ℂ) (gx : Nat → Fin N → α) (logVal : (Fin N → α) → ℂ) (ndim width : Nat)
    (v : List (Fin N → α)) (lvs : Option (List ℂ)) :
    (ndim ≠ 2 → localValues hi op gm gx logVal ndim width v lvs = .error .runtimeError)
    ∧ (width ≠ N → localValues hi op gm gx logVal 2 width v lvs = .error .assertionError) := by
  constructor
  · intro h; exact if_pos h
  · intro h
    unfold localValues
    rw [if_neg (by simp), if_pos h]

/-- C93: the same for density matrices. -/
theorem C93_density_errors (op : LOp ℂ α N) (gm : Nat → ℂ) (gx : Nat → Fin N → α) (logVal : (Fin N → α) → (Fin N → α) → ℂ) (ndim width : Nat)
    (v : List (Fin N → α)) (lvs : Option (List ℂ)) :
    (ndim ≠ 2 → localValuesOpOp hi op gm gx logVal ndim width v lvs = .error .runtimeError)
    ∧ (width ≠ N → localValuesOpOp hi op gm gx logVal 2 width v lvs = .error .assertionError) := by
  constructor
  · intro h; exact if_pos h
  · intro h
    unfold localValuesOpOp
    rw [if_neg (by simp), if_pos h]

/-! ## C94: derivatives of local values -/

theorem derSum_eq (l : List (ℂ × ℂ × ℂ)) (lv d : ℂ) :
    derSum (l.map Prod.fst) (l.map fun p => p.2.1) (l.map fun p => p.2.2) lv d
      = (l.map fun p => p.1 * (Complex.exp (p.2.1 - lv) * (p.2.2 - d))).sum := by
  unfold derSum
  congr 1
  induction l with
  | nil => rfl
  | cons p l ih =>
    simp only [List.map_cons, List.zip_cons_cons, List.zipWith_cons_cons, ih]
    rw [mul_assoc]

theorem derSumNC_eq (l : List (ℂ × ℂ × ℂ)) (lv : ℂ) :
    derSumNC (l.map Prod.fst) (l.map fun p => p.2.1) (l.map fun p => p.2.2) lv
      = (l.map fun p => p.1 * (Complex.exp (p.2.1 - lv) * p.2.2)).sum := by
  unfold derSumNC
  congr 1
  induction l with
  | nil => rfl
  | cons p l ih =>
    simp only [List.map_cons, List.zip_cons_cons, List.zipWith_cons_cons, ih]
    rw [mul_assoc]

theorem slice_map_append {β γ : Type} (f : β → γ) (pre mid post : List β) :
    slice ((pre ++ mid ++ post).map f) pre.length (pre.length + mid.length) = mid.map f := by
  have := slice_append (pre.map f) (mid.map f) (post.map f)
  simpa only [List.map_append, List.length_map] using this

theorem derKernel_rows {β : Type} (E : β → List (ℂ × ℂ × ℂ)) (xs : List β) (lv d : β → ℂ) (pre : List (ℂ × ℂ × ℂ)) :
    derKernel ((pre ++ xs.flatMap E).map fun p => p.2.1) ((pre ++ xs.flatMap E).map Prod.fst) ((pre ++ xs.flatMap E).map fun p => p.2.2)
        pre.length (xs.map lv) (xs.map d) (runningTotals pre.length (xs.map fun x => (E x).length))
      = xs.map fun x => derSum ((E x).map Prod.fst) ((E x).map fun p => p.2.1) ((E x).map fun p => p.2.2) (lv x) (d x) := by
  induction xs generalizing pre with
  | nil => simp [runningTotals, derKernel]
  | cons x xs ih =>
    simp only [List.map_cons]
    rw [runningTotals, derKernel, List.flatMap_cons, ← List.append_assoc, slice_map_append, slice_map_append, slice_map_append]
    congr 1
    have := ih (pre ++ E x)
    rw [List.length_append] at this
    exact this

theorem derKernelNC_rows {β : Type} (E : β → List (ℂ × ℂ × ℂ)) (xs : List β) (lv : β → ℂ) (pre : List (ℂ × ℂ × ℂ)) :
    derKernelNC ((pre ++ xs.flatMap E).map fun p => p.2.1) ((pre ++ xs.flatMap E).map Prod.fst) ((pre ++ xs.flatMap E).map fun p => p.2.2)
        pre.length (xs.map lv) (runningTotals pre.length (xs.map fun x => (E x).length))
      = xs.map fun x => derSumNC ((E x).map Prod.fst) ((E x).map fun p => p.2.1) ((E x).map fun p => p.2.2) (lv x) := by
  induction xs generalizing pre with
  | nil => simp [runningTotals, derKernelNC]
  | cons x xs ih =>
    simp only [List.map_cons]
    rw [runningTotals, derKernelNC, List.flatMap_cons, ← List.append_assoc, slice_map_append, slice_map_append, slice_map_append]
    congr 1
    have := ih (pre ++ E x)
    rw [List.length_append] at this
    exact this

theorem fillBatches_eq {β : Type} (derLog : β → ℂ) (vp : List β) (batch : Nat) (hb : 0 < batch) (fuel s : Nat) (out : List ℂ)
    (hlen : out.length = vp.length) (hpre : out.take s = (vp.take s).map derLog) (hf : vp.length ≤ s + fuel) :
    fillBatches derLog vp batch fuel s out = vp.map derLog := by
  induction fuel generalizing s out with
  | zero =>
    rw [fillBatches]
    rw [List.take_of_length_le (by omega), List.take_of_length_le (by omega)] at hpre
    exact hpre
  | succ fuel ih =>
    rw [fillBatches]
    by_cases h : s < vp.length
    · rw [if_pos h]
      simp only
      have hsl : (slice vp s (min (s + batch) vp.length)).length = min (s + batch) vp.length - s := by
        simp only [slice, List.length_take, List.length_drop]
        omega
      have htk : (out.take s).length = s := by rw [List.length_take]; omega
      apply ih
      · simp only [List.length_append, List.length_take, List.length_map, hsl, List.length_drop]
        omega
      · have hlen2 : (out.take s ++ (slice vp s (min (s + batch) vp.length)).map derLog).length = min (s + batch) vp.length := by
          rw [List.length_append, htk, List.length_map, hsl]
          omega
        have hv : (vp.take (min (s + batch) vp.length)).map derLog = out.take s ++ (slice vp s (min (s + batch) vp.length)).map derLog := by
          rw [hpre, ← List.map_append]
          congr 1
          unfold slice
          have := List.take_add (l := vp) (i := s) (j := min (s + batch) vp.length - s)
          rw [← this]
          congr 1
          omega
        by_cases hc : s + batch ≤ vp.length
        · have e : min (s + batch) vp.length = s + batch := Nat.min_eq_left hc
          rw [e] at hlen2 hv ⊢
          rw [List.take_left' hlen2, hv]
        · have e : min (s + batch) vp.length = vp.length := Nat.min_eq_right (by omega)
          rw [e] at hlen2 hv ⊢
          rw [List.drop_of_length_le (by omega), List.append_nil, List.take_of_length_le (by omega), ← hv, List.take_of_length_le (le_refl _),
            List.take_of_length_le (by omega)]
      · omega
    · rw [if_neg h]
      rw [List.take_of_length_le (by omega), List.take_of_length_le (by omega)] at hpre
      exact hpre

/-- C94: evaluating the log-derivatives in batches of any positive size gives all of them. -/
theorem C94_batches {β : Type} (derLog : β → ℂ) (vp : List β) (batch : ℤ) (hb : 0 < batch) (garbage : Nat → ℂ) :
    derLogBatches derLog vp batch garbage = .ok (vp.map derLog) := by
  unfold derLogBatches
  simp only
  rw [if_neg (by omega), if_neg (by omega)]
  congr 1
  exact fillBatches_eq derLog vp batch.toNat (by omega) vp.length 0 _ (by simp) (by simp) (by omega)

example := C94_batches (fun n : ℕ => (n : ℂ)) [1, 2, 3] 2 (by decide) (fun _ => 7)

/-- C130: refuted for other batch sizes: zero is a ValueError, a negative size returns the contents of uninitialised memory. -/
theorem C130_batch_size_refuted {β : Type} (derLog : β → ℂ) (vp : List β) (garbage : Nat → ℂ) (batch : ℤ) :
    derLogBatches derLog vp 0 garbage = .error .valueError
    ∧ (batch < 0 → derLogBatches derLog vp batch garbage = .ok ((List.range vp.length).map garbage)) := by
  refine ⟨rfl, fun h => ?_⟩
  unfold derLogBatches
  simp only
  rw [if_neg (by omega), if_pos h]

/-- C94: what is returned, in terms of the matrix of the operator. -/
theorem C94_formula (hid : Ideal cut) (hs : SortedSpace hi) (op : LOp ℂ α N) (h : Built cut hi op) (gm : Nat → ℂ) (gx : Nat → Fin N → α)
    (garbage : Nat → ℂ) (logVal derLog : (Fin N → α) → ℂ) (v : List (Fin N → α)) (hv : ∀ x ∈ v, Valid hi x) (batch : ℤ) (hb : 0 < batch) :
    derLocalValues hi op gm gx garbage logVal derLog 2 N v true batch
      = .ok (v.map fun x => ∑ x' ∈ basisStates hi, matrixOf hi op x x' * (Complex.exp (logVal x' - logVal x) * (derLog x' - derLog x)))
    ∧ derLocalValues hi op gm gx garbage logVal derLog 2 N v false batch
      = .ok (v.map fun x => ∑ x' ∈ basisStates hi, matrixOf hi op x x' * (Complex.exp (logVal x' - logVal x) * derLog x')) := by
  have hg := h.good hid hs
  have he := connFlattened_eq (hi := hi) op gm gx v fun x hxx => hg.ok.diagOK hs x (hv x hxx)
  have e2 : (connFlattened hi op gm gx v).2
      = runningTotals 0 (v.map fun x => ((rowEntries hi op x).map fun p => (p.1, logVal p.2, derLog p.2)).length) := by
    show runningTotals 0 (v.map (connCount hi op)) = _
    congr 1
    apply List.map_congr_left
    intro x _
    rw [List.length_map, length_rowEntries]
  have e3 : (connFlattened hi op gm gx v).1.xp.map logVal
      = (v.flatMap fun x => (rowEntries hi op x).map fun p => (p.1, logVal p.2, derLog p.2)).map fun p => p.2.1 := by
    rw [he.2]
    simp [List.map_flatMap, Function.comp_def]
  have e4 : (connFlattened hi op gm gx v).1.mels
      = (v.flatMap fun x => (rowEntries hi op x).map fun p => (p.1, logVal p.2, derLog p.2)).map Prod.fst := by
    rw [he.1]
    simp [List.map_flatMap, Function.comp_def]
  have e5 : (connFlattened hi op gm gx v).1.xp.map derLog
      = (v.flatMap fun x => (rowEntries hi op x).map fun p => (p.1, logVal p.2, derLog p.2)).map fun p => p.2.2 := by
    rw [he.2]
    simp [List.map_flatMap, Function.comp_def]
  constructor
  · unfold derLocalValues
    rw [if_neg (by simp), if_neg (by simp)]
    simp only
    rw [C94_batches derLog _ batch hb]
    simp only [if_true]
    rw [e2, e3, e4, e5]
    have := derKernel_rows (fun x => (rowEntries hi op x).map fun p => (p.1, logVal p.2, derLog p.2)) v logVal derLog []
    rw [List.nil_append, List.length_nil] at this
    rw [this]
    congr 1
    apply List.map_congr_left
    intro x hx
    rw [derSum_eq, List.map_map]
    exact rows_sum hid hs op h x (hv x hx) fun x' => Complex.exp (logVal x' - logVal x) * (derLog x' - derLog x)
  · unfold derLocalValues
    rw [if_neg (by simp), if_neg (by simp)]
    simp only
    rw [C94_batches derLog _ batch hb]
    simp only [Bool.false_eq_true, if_false]
    rw [e2, e3, e4, e5]
    have := derKernelNC_rows (fun x => (rowEntries hi op x).map fun p => (p.1, logVal p.2, derLog p.2)) v logVal []
    rw [List.nil_append, List.length_nil] at this
    rw [this]
    congr 1
    apply List.map_congr_left
    intro x hx
    rw [derSumNC_eq, List.map_map]
    exact rows_sum hid hs op h x (hv x hx) fun x' => Complex.exp (logVal x' - logVal x) * derLog x'

/-- C94: with `center_derivative=True` row `i` is the derivative of the local value of row `i` with respect to the parameter, for every
    machine whose `der_log` is the derivative of its `log_val`. -/
theorem C94_derivative (hid : Ideal cut) (hs : SortedSpace hi) (op : LOp ℂ α N) (h : Built cut hi op) (gm : Nat → ℂ) (gx : Nat → Fin N → α)
    (garbage : Nat → ℂ) (logVal : ℂ → (Fin N → α) → ℂ) (derLog : (Fin N → α) → ℂ) (w : ℂ)
    (hd : ∀ x, HasDerivAt (fun w => logVal w x) (derLog x) w) (v : List (Fin N → α)) (hv : ∀ x ∈ v, Valid hi x) (batch : ℤ) (hb : 0 < batch) :
    ∃ out, derLocalValues hi op gm gx garbage (logVal w) derLog 2 N v true batch = .ok out ∧ out.length = v.length
      ∧ ∀ (i : Nat) (hi' : i < out.length), ∃ f : ℂ → ℂ,
        (∀ w', ∃ vals, localValues hi op gm gx (logVal w') 2 N v none = .ok vals ∧ vals[i]? = some (f w')) ∧ HasDerivAt f out[i] w := by
  refine ⟨_, (C94_formula hid hs op h gm gx garbage (logVal w) derLog v hv batch hb).1, by simp, ?_⟩
  intro i hi'
  have hiv : i < v.length := by simpa using hi'
  refine ⟨fun w' => ∑ x' ∈ basisStates hi, matrixOf hi op v[i] x' * Complex.exp (logVal w' x' - logVal w' v[i]), ?_, ?_⟩
  · intro w'
    refine ⟨_, localValues_rows hid hs op h gm gx (logVal w') v hv none, ?_⟩
    simp [hiv]
  · simp only [List.getElem_map]
    have : (fun w' => ∑ x' ∈ basisStates hi, matrixOf hi op v[i] x' * Complex.exp (logVal w' x' - logVal w' v[i]))
        = ∑ x' ∈ basisStates hi, fun w' => matrixOf hi op v[i] x' * Complex.exp (logVal w' x' - logVal w' v[i]) := by
      funext w'
      simp
    rw [this]
    apply HasDerivAt.sum
    intro x' _
    exact (((hd x').sub (hd v[i])).cexp).const_mul _

/-- C130: refuted: "v: either a single V = v or a batch": one configuration is a RuntimeError. -/
theorem C130_single_refuted (op : LOp ℂ α N) (gm : Nat → ℂ) (gx : Nat → Fin N → α) (garbage : Nat → ℂ) (logVal derLog : (Fin N → α) → ℂ)
    (v : List (Fin N → α)) (center : Bool) (batch : ℤ) :
    derLocalValues hi op gm gx garbage logVal derLog 1 N v center batch = .error .runtimeError := rfl

/-- C94: wrong numbers of dimensions are a RuntimeError, rows of the wrong width an AssertionError. -/
theorem C94_errors (op : LOp ℂ α N) (gm : Nat → ℂ) (gx : Nat → Fin N → α) (garbage : Nat → ℂ) (logVal derLog : (Fin N → α) → ℂ) (ndim width : Nat)
    (v : List (Fin N → α)) (center : Bool) (batch : ℤ) :
    (ndim ≠ 2 → derLocalValues hi op gm gx garbage logVal derLog ndim width v center batch = .error .runtimeError)
    ∧ (width ≠ N → derLocalValues hi op gm gx garbage logVal derLog 2 width v center batch = .error .assertionError) := by
  constructor
  · intro h; exact if_pos h
  · intro h
    unfold derLocalValues
    rw [if_neg (by simp), if_pos h]

/-! ## C95: cost functions -/

/-- C130: refuted: without `batch_axes` no argument is batched (documented: all but the first two), and every evaluation is a ValueError. -/
theorem C130_default_axes_refuted {V W : Type} (fn : List V → W) (npars : Nat) (c : CostFun V W) (h : define fn npars none = .ok c)
    (args : List (V × List V)) : localCost (some c) args = .error .valueError := by
  unfold define at h
  by_cases hn : npars < 2
  · rw [if_pos hn] at h; simp at h
  · rw [if_neg hn] at h
    injection h with h
    subst h
    have hnone : ∀ o ∈ [none, none] ++ List.replicate (npars - 2) (none : Option Nat), o = none := by
      intro o ho
      simp at ho
      tauto
    simp only [localCost, Option.getD_none, vmap]
    split
    · rfl
    · have : (([none, none] ++ List.replicate (npars - 2) (none : Option Nat)).zip args).filter (fun p : Option Nat × (V × List V) => p.1.isSome) = [] := by
        rw [List.filter_eq_nil_iff]
        intro p hp
        have := hnone p.1 (List.of_mem_zip hp).1
        simp [this]
      rw [this]
      rfl

example := C130_default_axes_refuted (fun l : List Nat => l.sum) 2 _ rfl [(1, []), (0, [5, 7])]

/-- C95: functions of fewer than two parameters are a ValueError, functions that were not defined as cost functions a KeyError. -/
theorem C95_errors {V W : Type} (fn : List V → W) (npars : Nat) (axes : Option (List (Option Nat))) (args : List (V × List V)) :
    (npars < 2 → define fn npars axes = .error .valueError) ∧ localCost (none : Option (CostFun V W)) args = .error .keyError :=
  ⟨fun h => if_pos h, rfl⟩

theorem mapM_rows {V : Type} (args : List (V × List V)) (n b : Nat) (hb : b < n) (axes : List (Option Nat)) (hl : axes.length = args.length)
    (hargs : ∀ p ∈ axes.zip args, p.1.isSome = true → p.2.2.length = n) :
    ((axes.zip args).mapM (m := Option) fun (p : Option Nat × (V × List V)) => if p.1.isSome then p.2.2[b]? else some p.2.1)
      = some ((axes.zip args).map fun p => if p.1.isSome then p.2.2.getD b p.2.1 else p.2.1) := by
  generalize axes.zip args = l at *
  induction l with
  | nil => rfl
  | cons p l ih =>
    rw [List.mapM_cons, ih fun q hq => hargs q (List.mem_cons_of_mem _ hq), List.map_cons]
    by_cases h : p.1.isSome = true
    · have hlen := hargs p List.mem_cons_self h
      have : p.2.2[b]? = some (p.2.2.getD b p.2.1) := by
        rw [List.getD_eq_getElem?_getD, List.getElem?_eq_getElem (by omega)]
        rfl
      simp only [if_pos h, this]
      rfl
    · simp only [if_neg h]
      rfl

/-- C95: with explicit `batch_axes`, of which at least one is mapped, and batches of one common size, result `b` is the cost function of the
    `b`-th entries of the batched arguments and the unbatched arguments. -/
theorem C95_explicit_axes {V W : Type} (fn : List V → W) (npars n : Nat) (hn : 2 ≤ npars) (axes : List (Option Nat))
    (args : List (V × List V)) (hl : axes.length = args.length) (hsome : ∃ o ∈ axes, o.isSome = true)
    (hargs : ∀ p ∈ axes.zip args, p.1.isSome = true → p.2.2.length = n) :
    ∃ c, define fn npars (some axes) = .ok c
      ∧ localCost (some c) args = .ok ((List.range n).map fun b =>
          fn ((axes.zip args).map fun p => if p.1.isSome then p.2.2.getD b p.2.1 else p.2.1)) := by
  refine ⟨⟨fn, axes⟩, ?_, ?_⟩
  · unfold define
    rw [if_neg (by omega)]
    rfl
  · simp only [localCost, vmap]
    rw [if_neg (by simpa using hl)]
    have hall : ∀ m ∈ ((axes.zip args).filter fun p => p.1.isSome).map fun p => p.2.2.length, m = n := by
      intro m hm
      obtain ⟨p, hp, rfl⟩ := List.mem_map.1 hm
      rw [List.mem_filter] at hp
      exact hargs p hp.1 hp.2
    have hne : ((axes.zip args).filter fun p => p.1.isSome).map (fun p => p.2.2.length) ≠ [] := by
      obtain ⟨o, ho, hos⟩ := hsome
      obtain ⟨i, hi, rfl⟩ := List.mem_iff_getElem.1 ho
      intro h
      rw [List.map_eq_nil_iff, List.filter_eq_nil_iff] at h
      have hz : (axes.zip args)[i]'(by simp; omega) ∈ axes.zip args := List.getElem_mem _
      have := h _ hz
      simp [List.getElem_zip] at this
      rw [this] at hos
      simp at hos
    cases e : ((axes.zip args).filter fun p => p.1.isSome).map (fun p => p.2.2.length) with
    | nil => exact absurd e hne
    | cons m rest =>
      rw [e] at hall
      have hm : m = n := hall m List.mem_cons_self
      subst hm
      simp only
      rw [if_pos]
      · congr 1
        rw [← List.filterMap_eq_map]
        apply List.filterMap_congr
        intro b hb
        rw [mapM_rows args m b (List.mem_range.1 hb) axes hl hargs]
        rfl
      · rw [List.all_eq_true]
        intro k hk
        simpa using hall k (List.mem_cons_of_mem _ hk)

example := C95_explicit_axes (fun l : List Nat => l.sum) 2 2 (by decide) [none, some 0] [(1, []), (0, [5, 7])] rfl ⟨some 0, by decide, rfl⟩ (by decide)

/-- C95: `local_value_cost` on padded connected elements is the local value: padding with zero elements does not change it. -/
theorem C95_local_value_padding {β : Type} (logpsi : β → ℂ) (vp : List β) (mel : List ℂ) (h : mel.length = vp.length) (pad : List β) (v : β) :
    localValueCost logpsi (vp ++ pad) (mel ++ pad.map fun _ => 0) v = localValueCost logpsi vp mel v := by
  unfold localValueCost
  rw [List.map_append, List.zipWith_append (by simpa using h), List.sum_append]
  have : (List.zipWith (fun m l => m * Complex.exp (l - logpsi v)) (pad.map fun _ => (0 : ℂ)) (pad.map logpsi)).sum = 0 := by
    apply List.sum_eq_zero
    intro z hz
    rw [List.mem_iff_getElem] at hz
    obtain ⟨i, hi, rfl⟩ := hz
    simp
  rw [this, add_zero]

example := C95_local_value_padding (fun n : ℕ => (n : ℂ)) [1, 2] [3, 4] rfl [9] 1

/-- C95: `local_value_cost` on the connected elements of a configuration is ⟨x|O|ψ⟩/⟨x|ψ⟩. -/
theorem C95_local_value (hid : Ideal cut) (hs : SortedSpace hi) (op : LOp ℂ α N) (h : Built cut hi op) (gm : Nat → ℂ) (gx : Nat → Fin N → α)
    (logpsi : (Fin N → α) → ℂ) (x : Fin N → α) (hx : Valid hi x) :
    localValueCost logpsi ((getConn hi op gm gx x).map Prod.fst) ((getConn hi op gm gx x).map Prod.snd) x
      = (∑ x' ∈ basisStates hi, matrixOf hi op x x' * Complex.exp (logpsi x')) / Complex.exp (logpsi x) := by
  unfold localValueCost
  have e : List.zipWith (fun m l => m * Complex.exp (l - logpsi x)) ((getConn hi op gm gx x).map Prod.snd)
      (((getConn hi op gm gx x).map Prod.fst).map logpsi)
      = (getConn hi op gm gx x).map fun p => p.2 * Complex.exp (logpsi p.1 - logpsi x) := by
    apply List.ext_getElem <;> simp
  rw [e, sum_melAt _ (C10_connected_valid hid hs op h gm gx x hx) fun x' => Complex.exp (logpsi x' - logpsi x), Finset.sum_div]
  apply Finset.sum_congr rfl
  intro x' hx'
  rw [C10_get_conn_reachable hid hs op h gm gx x x' hx ((mem_basis _).1 hx'), Complex.exp_sub, mul_div_assoc]

/-! ## Examples -/

/-- the hypotheses of the theorems on local values: an operator on two spins, not diagonal. -/
example : ∃ (cut : Cutoff ℂ) (op : LOp ℂ ℤ 2), Ideal cut ∧ SortedSpace (fun _ : Fin 2 => [-1, 1]) ∧ Built cut (fun _ => [-1, 1]) op
    ∧ Valid (fun _ : Fin 2 => [-1, 1]) ![1, -1] := by
  classical
  let cut : Cutoff ℂ := ⟨fun z => decide (z ≠ 0), fun z => decide (z ≠ 0)⟩
  have hid : Ideal cut := by constructor <;> simp [cut]
  have hs : SortedSpace (fun _ : Fin 2 => ([-1, 1] : List ℤ)) := fun _ => by simp
  have ha : ArgsOK (fun _ : Fin 2 => ([-1, 1] : List ℤ)) [((⟨2, fun i j => if i = j then 0 else 1⟩ : Mat ℂ), [0])] := by
    intro p hp
    rw [List.mem_singleton] at hp
    subst hp
    exact ⟨by simp, by simp, by simp [dims], Or.inl (by simp)⟩
  obtain ⟨op, h1, _⟩ := mk_ok hid hs (0 : ℂ) _ ha
  exact ⟨cut, op, hid, hs, .mk ha h1, fun s => by fin_cases s <;> decide⟩

/-- hypotheses of `C94_derivative`: a machine linear in its parameter. -/
example (x : Fin 2 → ℤ) (w : ℂ) : HasDerivAt (fun w : ℂ => w * ((x 0 : ℤ) : ℂ)) ((x 0 : ℤ) : ℂ) w := by
  simpa using (hasDerivAt_id w).mul_const ((x 0 : ℤ) : ℂ)

/-- hypotheses of `C95_explicit_axes`: one unbatched and one batched argument. -/
example : ∃ c, define (fun l : List Nat => l.sum) 2 (some [none, some 0]) = .ok c ∧ localCost (some c) [(1, []), (0, [5, 7])] = .ok [6, 8] := by
  refine ⟨_, rfl, by decide +kernel⟩

end Verif.LocalValues

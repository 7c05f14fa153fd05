import Verif.Lemmas.LocalOpKernel

/-! The tables of a `LocalOperator` and the matrix it represents. -/

set_option linter.unusedSectionVars false

namespace Verif.LocalOp
open Verif.HilbertIndex Verif.Radix

variable {K : Type} [CommRing K] {α : Type} [LinearOrder α] [Inhabited α] {N : Nat}
  {hi : Fin N → List α}

/-- the tables of a term list its diagonal and all its nonzero off-diagonal entries. -/
structure Faithful (hi : Fin N → List α) (t : Term K α N) : Prop where
  nodup : t.acting.Nodup
  dim : t.mat.n = (dims hi t.acting).prod
  diag : ∀ i < t.mat.n, t.diag i = t.mat.f i i
  conn : ∀ i < t.mat.n, ∃ js : List Nat, js.Nodup ∧ (∀ j ∈ js, j < t.mat.n ∧ j ≠ i)
    ∧ (∀ j < t.mat.n, j ≠ i → j ∉ js → t.mat.f i j = 0)
    ∧ t.conn i = js.map fun j => (t.mat.f i j, numberToState (t.acting.map hi) j)

/-- an operator whose tables are consistent with its matrices. -/
structure OpOK (hi : Fin N → List α) (op : LOp K α N) : Prop where
  terms : ∀ t ∈ op.terms, Faithful hi t
  nodiag : op.nonzeroDiag = false →
    op.constant = 0 ∧ ∀ t ∈ op.terms, ∀ i < t.mat.n, t.diag i = 0

theorem sum_ite_nodup (js : List Nat) (h : js.Nodup) (P : Prop) [Decidable P] (k : Nat) (f : Nat → K) :
    (js.map fun j => if P ∧ k = j then f j else 0).sum = if P ∧ k ∈ js then f k else 0 := by
  induction js with
  | nil => simp
  | cons j js ih =>
    rw [List.nodup_cons] at h
    rw [List.map_cons, List.sum_cons, ih h.2]
    by_cases hP : P
    · by_cases hk : k = j
      · subst hk; simp [hP, h.1]
      · simp [hP, hk]
    · simp [hP]

theorem melAt_append (l l' : List ((Fin N → α) × K)) (x' : Fin N → α) :
    melAt (l ++ l') x' = melAt l x' + melAt l' x' := by simp [melAt]

/-- swap used because the kernel returns `(x', mels)`. -/
def toPairs (l : List (K × (Fin N → α))) : List ((Fin N → α) × K) := l.map Prod.swap

theorem toPairs_zip (l : List (K × (Fin N → α))) :
    (l.map Prod.snd).zip (l.map Prod.fst) = toPairs l := by
  induction l with
  | nil => rfl
  | cons p l ih => simp [toPairs, ih, Prod.swap]

theorem term_sum (hs : SortedSpace hi) (t : Term K α N) (ht : Faithful hi t) (x x' : Fin N → α)
    (hx : Valid hi x) (hx' : Valid hi x') :
    (if x = x' then t.diag (xsN hi t.acting x) else 0) + melAt (toPairs (termConns hi x t)) x'
      = embed hi t.mat.f t.acting x x' := by
  have hi1 := lexIdx_lt x hx t.acting
  have hi2 := lexIdx_lt x' hx' t.acting
  rw [← ht.dim] at hi1 hi2
  obtain ⟨js, hj1, hj2, hj3, hj4⟩ := ht.conn _ hi1
  have hsum : melAt (toPairs (termConns hi x t)) x'
      = if (∀ s, s ∉ t.acting → x s = x' s) ∧ lexIdx hi t.acting x' ∈ js then
          t.mat.f (lexIdx hi t.acting x) (lexIdx hi t.acting x') else 0 := by
    rw [← sum_ite_nodup js hj1 (∀ s, s ∉ t.acting → x s = x' s) (lexIdx hi t.acting x')
      (fun j => t.mat.f (lexIdx hi t.acting x) j)]
    unfold melAt toPairs termConns
    rw [xsN_eq hs x hx, hj4]
    simp only [List.map_map]
    congr 1
    apply List.map_congr_left
    intro j hj
    simp only [Function.comp, Prod.swap]
    have := writeSites_eq_iff hs x x' hx hx' t.acting ht.nodup j
      (by rw [← ht.dim]; exact (hj2 j hj).1)
    simp only [this]
  rw [hsum, xsN_eq hs x hx, ht.diag _ hi1]
  unfold embed
  by_cases hxx : x = x'
  · subst hxx
    have : lexIdx hi t.acting x ∉ js := fun h => (hj2 _ h).2 rfl
    simp [this]
  · by_cases hag : ∀ s, s ∉ t.acting → x s = x' s
    · have hne : lexIdx hi t.acting x' ≠ lexIdx hi t.acting x := by
        intro h
        apply hxx
        funext s
        by_cases h' : s ∈ t.acting
        · exact eq_of_idx x x' hx hx' t.acting h.symm s h'
        · exact hag s h'
      by_cases hm : lexIdx hi t.acting x' ∈ js
      · rw [if_neg hxx, if_pos ⟨hag, hm⟩, if_pos hag, zero_add]
      · rw [if_neg hxx, if_neg (fun h => hm h.2), if_pos hag, hj3 _ hi2 hne hm, zero_add]
    · rw [if_neg hxx, if_neg (fun h => hag h.1), if_neg hag, zero_add]

theorem OpOK.diagOK {op : LOp K α N} (h : OpOK hi op) (hs : SortedSpace hi) (x : Fin N → α)
    (hx : Valid hi x) : DiagOK hi op x := by
  intro hn t ht
  have := (h.nodiag hn).2 t ht (xsN hi t.acting x)
  apply this
  rw [xsN_eq hs x hx, (h.terms t ht).dim]
  exact lexIdx_lt x hx t.acting

theorem terms_sum (hs : SortedSpace hi) (ts : List (Term K α N)) (ht : ∀ t ∈ ts, Faithful hi t)
    (x x' : Fin N → α) (hx : Valid hi x) (hx' : Valid hi x') :
    (if x = x' then diagSum hi x ts else 0) + melAt (toPairs (ts.flatMap (termConns hi x))) x'
      = (ts.map fun t => embed hi t.mat.f t.acting x x').sum := by
  induction ts with
  | nil => simp [diagSum, melAt, toPairs]
  | cons t ts ih =>
    rw [List.map_cons, List.sum_cons, ← ih (fun t h => ht t (List.mem_cons_of_mem _ h)),
      ← term_sum hs t (ht t List.mem_cons_self) x x' hx hx']
    have e : toPairs ((t :: ts).flatMap (termConns hi x))
        = toPairs (termConns hi x t) ++ toPairs (ts.flatMap (termConns hi x)) := by
      simp [toPairs]
    rw [e, melAt_append]
    by_cases hxx : x = x'
    · simp only [hxx, if_true, diagSum, List.map_cons, List.sum_cons]; ring
    · simp only [hxx, if_false]; ring

theorem rowEntries_sum (hs : SortedSpace hi) (op : LOp K α N) (hop : OpOK hi op)
    (x x' : Fin N → α) (hx : Valid hi x) (hx' : Valid hi x') :
    melAt (toPairs (rowEntries hi op x)) x' = matrixOf hi op x x' := by
  unfold matrixOf
  rw [← terms_sum hs op.terms hop.terms x x' hx hx']
  unfold rowEntries
  rcases hn : op.nonzeroDiag with _ | _
  · have h0 := hop.nodiag hn
    have hd : diagSum hi x op.terms = 0 := by
      unfold diagSum
      apply List.sum_eq_zero
      intro d hd
      rw [List.mem_map] at hd
      obtain ⟨t, ht, rfl⟩ := hd
      exact hop.diagOK hs x hx hn t ht
    simp [hd, h0.1]
  · simp only [if_true]
    have e : toPairs ([(op.constant + diagSum hi x op.terms, x)] ++ op.terms.flatMap (termConns hi x))
      = [(x, op.constant + diagSum hi x op.terms)] ++ toPairs (op.terms.flatMap (termConns hi x)) := by
      simp [toPairs]
    rw [e, melAt_append]
    have e2 : melAt [(x, op.constant + diagSum hi x op.terms)] x'
      = if x = x' then op.constant + diagSum hi x op.terms else 0 := by simp [melAt]
    rw [e2]
    split <;> ring

theorem getConn_eq (hs : SortedSpace hi) (op : LOp K α N) (hop : OpOK hi op)
    (gm : Nat → K) (gx : Nat → Fin N → α) (x : Fin N → α) (hx : Valid hi x) :
    getConn hi op gm gx x = toPairs (rowEntries hi op x) := by
  have h := connFlattened_eq (hi := hi) op gm gx [x] (by simpa using hop.diagOK hs x hx)
  unfold getConn
  simp only [h.1, h.2, List.flatMap_cons, List.flatMap_nil, List.append_nil]
  exact toPairs_zip _

theorem getConn_sum (hs : SortedSpace hi) (op : LOp K α N) (hop : OpOK hi op)
    (gm : Nat → K) (gx : Nat → Fin N → α) (x x' : Fin N → α) (hx : Valid hi x) (hx' : Valid hi x') :
    melAt (getConn hi op gm gx x) x' = matrixOf hi op x x' := by
  rw [getConn_eq hs op hop gm gx x hx]
  exact rowEntries_sum hs op hop x x' hx hx'

end Verif.LocalOp

import Verif.Spec.LocalOperator
import Verif.Lemmas.HilbertIndex
import Mathlib.Algebra.BigOperators.Group.List.Basic
import Mathlib.Tactic.Abel
import Mathlib.Data.List.OfFn
import Mathlib.Data.List.Nodup
import Mathlib.Data.Fintype.Pi

/-! Lemmas about the kernel of `LocalOperator`. -/

set_option linter.unusedSectionVars false

namespace Verif.LocalOp
open Verif.HilbertIndex Verif.Radix

section idx
variable {α : Type} [LinearOrder α] {N : Nat} {hi : Fin N → List α}

theorem searchsorted_eq_idxOf {a : List α} (h : a.Pairwise (· < ·)) {x : α} (hx : x ∈ a) :
    searchsorted a x = a.idxOf x := by
  have h1 : a.idxOf x < a.length := List.idxOf_lt_length_iff.2 hx
  have h2 := searchsorted_getElem h h1
  rwa [List.getElem_idxOf h1] at h2

theorem enc_map_snoc (l : List (Fin N)) (s : Fin N) (f g : Fin N → Nat) :
    enc ((l ++ [s]).map f) ((l ++ [s]).map g) = enc (l.map f) (l.map g) * f s + g s := by
  simp only [List.map_append, List.map_cons, List.map_nil]
  exact enc_snoc (by simp) _ _

theorem xsLoop_eq (hs : SortedSpace hi) (x : Fin N → α) (hx : Valid hi x) (l : List (Fin N))
    (ba acc : Nat) :
    xsLoop hi x l ba acc = acc + ba * lexIdx hi l.reverse x := by
  induction l generalizing ba acc with
  | nil => simp [xsLoop, lexIdx, enc]
  | cons s l ih =>
    rw [xsLoop, ih, searchsorted_eq_idxOf (hs s) (hx s)]
    unfold lexIdx
    rw [List.reverse_cons, enc_map_snoc]
    ring

theorem xsN_eq (hs : SortedSpace hi) (x : Fin N → α) (hx : Valid hi x) (act : List (Fin N)) :
    xsN hi act x = lexIdx hi act x := by
  unfold xsN
  rw [xsLoop_eq hs x hx, List.reverse_reverse]; simp

theorem digits_idx (x : Fin N → α) (hx : Valid hi x) (act : List (Fin N)) :
    Digits (act.map fun s => (hi s).length) (act.map fun s => (hi s).idxOf (x s)) := by
  induction act with
  | nil => exact .nil
  | cons s act ih => exact .cons (List.idxOf_lt_length_iff.2 (hx s)) ih

theorem lexIdx_lt (x : Fin N → α) (hx : Valid hi x) (act : List (Fin N)) :
    lexIdx hi act x < (dims hi act).prod := enc_lt (digits_idx x hx act)

theorem numberToStateRev_eq [Inhabited α] (states : List (List α)) (n : Nat)
    (hn : n < (states.map List.length).prod) :
    numberToStateRev states n
      = (List.zipWith (fun ls d => ls.getD d default) states.reverse
          (dec (states.reverse.map List.length) n)).reverse := by
  induction states generalizing n with
  | nil => simp [numberToStateRev, dec]
  | cons ls rest ih =>
    have hpos : 0 < ls.length := by
      rcases Nat.eq_zero_or_pos ls.length with h0 | h0
      · simp [h0] at hn
      · exact h0
    have hn' : n < ls.length * (rest.map List.length).prod := by simpa using hn
    have hr : (rest.reverse.map List.length).prod = (rest.map List.length).prod := by
      rw [List.map_reverse]; exact List.prod_reverse _
    have h2 : n < (rest.reverse.map List.length).prod * ls.length := by
      rw [hr, Nat.mul_comm]; exact hn'
    have h3 : n / ls.length < (rest.map List.length).prod := by
      rw [Nat.div_lt_iff_lt_mul hpos, Nat.mul_comm]; exact hn'
    rw [numberToStateRev, ih _ h3, List.reverse_cons, List.map_append, List.map_cons, List.map_nil,
      dec_snoc _ _ _ h2, List.zipWith_append (by simp)]
    simp only [List.zipWith_cons_cons, List.zipWith_nil_left, List.reverse_append, List.reverse_cons,
      List.reverse_nil, List.nil_append, List.cons_append]
    congr 1
    split
    · rfl
    · have : n = 0 := by omega
      simp [this]

theorem numberToState_eq' [Inhabited α] (act : List (Fin N)) (n : Nat)
    (hn : n < (dims hi act).prod) :
    numberToState (act.map hi) n
      = List.zipWith (fun s d => (hi s).getD d default) act (dec (dims hi act) n) := by
  unfold numberToState
  have h1 : (((act.map hi).reverse).map List.length).prod = (dims hi act).prod := by
    rw [List.map_reverse, List.prod_reverse]; simp [dims, Function.comp_def]
  rw [numberToStateRev_eq _ _ (by rw [h1]; exact hn), List.reverse_reverse, List.reverse_reverse]
  rw [List.zipWith_map_left]
  simp [dims, Function.comp_def]

theorem writeSites_not_mem (x : Fin N → α) (act : List (Fin N)) (vs : List α) (s : Fin N)
    (h : s ∉ act) : writeSites x act vs s = x s := by
  induction act generalizing x vs with
  | nil => simp [writeSites]
  | cons a act ih =>
    cases vs with
    | nil => simp [writeSites]
    | cons v vs =>
      rw [List.mem_cons, not_or] at h
      rw [writeSites, ih _ _ h.2, Function.update_of_ne h.1]

theorem writeSites_map (x : Fin N → α) (act : List (Fin N)) (hn : act.Nodup) (f : Fin N → α)
    (s : Fin N) : writeSites x act (act.map f) s = if s ∈ act then f s else x s := by
  induction act generalizing x with
  | nil => simp [writeSites]
  | cons a act ih =>
    rw [List.nodup_cons] at hn
    rw [List.map_cons, writeSites]
    by_cases h : s ∈ act
    · rw [ih _ hn.2, if_pos h, if_pos (List.mem_cons_of_mem _ h)]
    · rw [writeSites_not_mem _ _ _ _ h]
      by_cases hs : s = a
      · subst hs; simp
      · simp [hs, h]

/-- reading back the positions written. -/
theorem writeSites_zip [Inhabited α] (hnd : ∀ s, (hi s).Nodup) (x : Fin N → α) (act : List (Fin N))
    (hn : act.Nodup) (ds : List Nat) (hd : Digits (dims hi act) ds) :
    (act.map fun s => (hi s).idxOf
      (writeSites x act (List.zipWith (fun s d => (hi s).getD d default) act ds) s)) = ds := by
  induction act generalizing x ds with
  | nil => cases hd; rfl
  | cons a act ih =>
    rw [List.nodup_cons] at hn
    cases hd with
    | @cons _ _ d ds hd1 hd2 =>
      rw [List.zipWith_cons_cons, writeSites, List.map_cons, ih _ hn.2 _ hd2,
        writeSites_not_mem _ _ _ _ hn.1, Function.update_self]
      congr 1
      rw [List.getD_eq_getElem?_getD, List.getElem?_eq_getElem hd1, Option.getD_some]
      exact (hnd a).idxOf_getElem _ _

theorem nodup_of_sorted (hs : SortedSpace hi) (s : Fin N) : (hi s).Nodup :=
  (hs s).imp (fun h => ne_of_lt h)

theorem lexIdx_writeSites [Inhabited α] (hs : SortedSpace hi) (x : Fin N → α) (act : List (Fin N))
    (hn : act.Nodup) (j : Nat) (hj : j < (dims hi act).prod) :
    lexIdx hi act (writeSites x act (numberToState (act.map hi) j)) = j := by
  rw [numberToState_eq' act j hj]
  unfold lexIdx
  rw [writeSites_zip (nodup_of_sorted hs) x act hn _ (dec_digits hj)]
  exact enc_dec hj

theorem eq_of_idx (x x' : Fin N → α) (hx : Valid hi x) (hx' : Valid hi x') (act : List (Fin N))
    (h : lexIdx hi act x = lexIdx hi act x') (s : Fin N) (hs : s ∈ act) : x s = x' s := by
  have h1 := enc_inj (digits_idx x hx act) (digits_idx x' hx' act) h
  have h2 := (List.map_inj_left.1 h1) s hs
  exact (List.idxOf_inj (hx s)).1 h2

theorem writeSites_valid [Inhabited α] (x : Fin N → α) (hx : Valid hi x) (act : List (Fin N))
    (ds : List Nat) (hd : Digits (dims hi act) ds) :
    Valid hi (writeSites x act (List.zipWith (fun s d => (hi s).getD d default) act ds)) := by
  induction act generalizing x ds with
  | nil => cases hd; simpa [writeSites]
  | cons a act ih =>
    cases hd with
    | @cons _ _ d ds hd1 hd2 =>
      rw [List.zipWith_cons_cons, writeSites]
      refine ih _ (fun s => ?_) _ hd2
      by_cases h : s = a
      · subst h; rw [Function.update_self, List.getD_eq_getElem?_getD, List.getElem?_eq_getElem hd1, Option.getD_some]; exact List.getElem_mem _
      · rw [Function.update_of_ne h]; exact hx s

theorem conn_valid [Inhabited α] (x : Fin N → α) (hx : Valid hi x) (act : List (Fin N))
    (j : Nat) (hj : j < (dims hi act).prod) :
    Valid hi (writeSites x act (numberToState (act.map hi) j)) := by
  rw [numberToState_eq' act j hj]
  exact writeSites_valid x hx act _ (dec_digits hj)

/-- the configuration written for column `j` is `x'` exactly when `x'` agrees with `x` off the
    support and its local index is `j`. -/
theorem writeSites_eq_iff [Inhabited α] (hs : SortedSpace hi) (x x' : Fin N → α) (hx : Valid hi x)
    (hx' : Valid hi x') (act : List (Fin N)) (hn : act.Nodup) (j : Nat)
    (hj : j < (dims hi act).prod) :
    writeSites x act (numberToState (act.map hi) j) = x'
      ↔ (∀ s, s ∉ act → x s = x' s) ∧ lexIdx hi act x' = j := by
  constructor
  · rintro rfl
    exact ⟨fun s h => (writeSites_not_mem _ _ _ _ h).symm, lexIdx_writeSites hs x act hn j hj⟩
  · rintro ⟨h1, h2⟩
    funext s
    by_cases h : s ∈ act
    · refine eq_of_idx _ _ (conn_valid x hx act j hj) hx' act ?_ s h
      rw [lexIdx_writeSites hs x act hn j hj, h2]
    · rw [writeSites_not_mem _ _ _ _ h, h1 s h]

end idx

section buffer
variable {K : Type} [CommRing K] {α : Type} [LinearOrder α] {N : Nat} {hi : Fin N → List α}

/-- the buffer starts with the entries `A`, is filled up to there, and has `k` free slots. -/
def Holds (b : Buf K α N) (A : List (K × (Fin N → α))) (k : Nat) : Prop :=
  ∃ g gx, b.mels = A.map Prod.fst ++ g ∧ b.xp = A.map Prod.snd ++ gx ∧ b.c = A.length
    ∧ g.length = k ∧ gx.length = k

theorem Holds.push {b : Buf K α N} {A k} (h : Holds b A (k + 1)) (m : K) (x : Fin N → α) :
    Holds (b.push m x) (A ++ [(m, x)]) k := by
  obtain ⟨g, gx, h1, h2, h3, h4, h5⟩ := h
  cases g with
  | nil => simp at h4
  | cons g0 g =>
    cases gx with
    | nil => simp at h5
    | cons gx0 gx =>
      refine ⟨g, gx, ?_, ?_, ?_, by simpa using h4, by simpa using h5⟩
      · simp [Buf.push, h1, h3]
      · simp [Buf.push, h2, h3]
      · simp [Buf.push, h3]

theorem Holds.push_oob {b : Buf K α N} {A k} (h : Holds b A (k + 1)) (m : K) (x : Fin N → α) :
    (b.push m x).oob = b.oob := by
  obtain ⟨g, gx, h1, h2, h3, h4, h5⟩ := h
  simp [Buf.push, h1, h3, h4]

theorem Holds.addAt {b : Buf K α N} {P R m x k} (h : Holds b (P ++ (m, x) :: R) k) (d : K) :
    Holds (b.addAt P.length d) (P ++ (m + d, x) :: R) k := by
  obtain ⟨g, gx, h1, h2, h3, h4, h5⟩ := h
  refine ⟨g, gx, ?_, ?_, ?_, h4, h5⟩
  · simp only [Buf.addAt, h1]
    have e : ∀ (l : List K) (a : K) (r : List K), (l ++ a :: r).modify l.length (· + d)
        = l ++ (a + d) :: r := by
      intro l a r
      induction l with
      | nil => simp
      | cons b l ih => simpa using ih
    have := e (P.map Prod.fst) m (R.map Prod.fst ++ g)
    simpa using this
  · simpa [Buf.addAt] using h2
  · simpa [Buf.addAt] using h3

theorem Holds.addAt_oob {b : Buf K α N} {P R m x k} (h : Holds b (P ++ (m, x) :: R) k) (d : K) :
    (b.addAt P.length d).oob = b.oob := by
  obtain ⟨g, gx, h1, h2, h3, h4, h5⟩ := h
  simp [Buf.addAt, h1]

theorem Holds.addAt_zero {b : Buf K α N} {A k} (h : Holds b A k) (i : Nat) :
    Holds (b.addAt i 0) A k := by
  have : (b.addAt i 0).mels = b.mels := by
    simp only [Buf.addAt, add_zero]
    exact List.modify_id _ _
  obtain ⟨g, gx, h1, h2, h3, h4, h5⟩ := h
  exact ⟨g, gx, by rw [this, h1], h2, h3, h4, h5⟩

theorem Holds.pushAll {β : Type} (ps : List β) (f : β → K) (g : β → Fin N → α) {b : Buf K α N} {A k}
    (h : Holds b A (ps.length + k)) :
    Holds (ps.foldl (fun b p => b.push (f p) (g p)) b) (A ++ ps.map fun p => (f p, g p)) k
      ∧ (ps.foldl (fun b p => b.push (f p) (g p)) b).oob = b.oob := by
  induction ps generalizing b A with
  | nil => simpa using h
  | cons p ps ih =>
    have h' : Holds b A ((ps.length + k) + 1) := by
      have e : (p :: ps).length + k = (ps.length + k) + 1 := by rw [List.length_cons]; omega
      rwa [e] at h
    have := ih (h'.push (f p) (g p))
    rw [h'.push_oob] at this
    simpa using this

/-- off-diagonal entries written by one term. -/
def termConns (hi : Fin N → List α) (x : Fin N → α) (t : Term K α N) : List (K × (Fin N → α)) :=
  (t.conn (xsN hi t.acting x)).map fun p => (p.1, writeSites x t.acting p.2)

def diagSum (hi : Fin N → List α) (x : Fin N → α) (ts : List (Term K α N)) : K :=
  (ts.map fun t => t.diag (xsN hi t.acting x)).sum

/-- with a diagonal entry in place. -/
theorem foldTerms_diag (x x0 : Fin N → α) (ts : List (Term K α N)) {b : Buf K α N} {P R m k}
    (h : Holds b (P ++ (m, x0) :: R) ((ts.flatMap (termConns hi x)).length + k)) :
    Holds (ts.foldl (termStep hi x P.length) b)
      (P ++ (m + diagSum hi x ts, x0) :: (R ++ ts.flatMap (termConns hi x))) k
    ∧ (ts.foldl (termStep hi x P.length) b).oob = b.oob := by
  induction ts generalizing b R m with
  | nil => simpa [diagSum] using h
  | cons t ts ih =>
    have h' : Holds b (P ++ (m, x0) :: R)
        ((t.conn (xsN hi t.acting x)).length + ((ts.flatMap (termConns hi x)).length + k)) := by
      simpa [termConns, Nat.add_assoc] using h
    have h1 := Holds.pushAll (t.conn (xsN hi t.acting x)) Prod.fst
      (fun p => writeSites x t.acting p.2) (h'.addAt (t.diag (xsN hi t.acting x)))
    have e : (b.addAt P.length (t.diag (xsN hi t.acting x))).oob = b.oob := h'.addAt_oob _
    have h2 := h1.1
    rw [List.append_assoc, List.cons_append] at h2
    have h3 := ih h2
    simp only [List.foldl_cons, termStep]
    refine ⟨?_, ?_⟩
    · have := h3.1
      simpa [diagSum, termConns, add_assoc] using this
    · rw [h3.2, h1.2, e]

/-- without a diagonal entry, when the diagonal elements vanish. -/
theorem foldTerms_nodiag (x : Fin N → α) (c : Nat) (ts : List (Term K α N))
    (hz : ∀ t ∈ ts, t.diag (xsN hi t.acting x) = 0) {b : Buf K α N} {A k}
    (h : Holds b A ((ts.flatMap (termConns hi x)).length + k)) :
    Holds (ts.foldl (termStep hi x c) b) (A ++ ts.flatMap (termConns hi x)) k := by
  induction ts generalizing b A with
  | nil => simpa using h
  | cons t ts ih =>
    have h' : Holds b A
        ((t.conn (xsN hi t.acting x)).length + ((ts.flatMap (termConns hi x)).length + k)) := by
      simpa [termConns, Nat.add_assoc] using h
    have h1 := Holds.pushAll (t.conn (xsN hi t.acting x)) Prod.fst
      (fun p => writeSites x t.acting p.2) (h'.addAt_zero c)
    have h3 := ih (fun t ht => hz t (List.mem_cons_of_mem _ ht)) h1.1
    simp only [List.foldl_cons, termStep]
    rw [hz t List.mem_cons_self]
    simpa [termConns] using h3

/-- the entries of one row. -/
def rowEntries (hi : Fin N → List α) (op : LOp K α N) (x : Fin N → α) : List (K × (Fin N → α)) :=
  (if op.nonzeroDiag then [(op.constant + diagSum hi x op.terms, x)] else [])
    ++ op.terms.flatMap (termConns hi x)

theorem length_rowEntries (op : LOp K α N) (x : Fin N → α) :
    (rowEntries hi op x).length = connCount hi op x := by
  unfold rowEntries connCount
  rw [List.length_append, List.length_flatMap]
  congr 1
  · split <;> rfl
  · simp [termConns]

/-- diagonal elements vanish on this row if no diagonal entry is written. -/
def DiagOK (hi : Fin N → List α) (op : LOp K α N) (x : Fin N → α) : Prop :=
  op.nonzeroDiag = false → ∀ t ∈ op.terms, t.diag (xsN hi t.acting x) = 0

theorem rowStep_holds (op : LOp K α N) (x : Fin N → α) (hd : DiagOK hi op x) {b : Buf K α N} {A k}
    (h : Holds b A (connCount hi op x + k)) :
    Holds (rowStep hi op b x) (A ++ rowEntries hi op x) k := by
  have hc : b.c = A.length := by obtain ⟨_, _, _, _, h3, _, _⟩ := h; exact h3
  rw [← length_rowEntries] at h
  unfold rowStep rowEntries
  unfold rowEntries at h
  rcases hn : op.nonzeroDiag with _ | _
  · simp only [hn, Bool.false_eq_true, if_false, List.nil_append] at h ⊢
    exact foldTerms_nodiag x _ _ (hd hn) h
  · simp only [hn, if_true] at h ⊢
    have h' : Holds b A (((op.terms.flatMap (termConns hi x)).length + k) + 1) := by
      have e : ([(op.constant + diagSum hi x op.terms, x)]
          ++ op.terms.flatMap (termConns hi x)).length + k
        = ((op.terms.flatMap (termConns hi x)).length + k) + 1 := by
        simp; omega
      rwa [e] at h
    have := (foldTerms_diag (hi := hi) x x op.terms (R := []) (h'.push op.constant x)).1
    rw [hc]
    simpa using this

theorem rowStep_oob (op : LOp K α N) (x : Fin N → α) (hn : op.nonzeroDiag = true)
    {b : Buf K α N} {A k} (h : Holds b A (connCount hi op x + k)) :
    (rowStep hi op b x).oob = b.oob := by
  have hc : b.c = A.length := by obtain ⟨_, _, _, _, h3, _, _⟩ := h; exact h3
  rw [← length_rowEntries] at h
  unfold rowEntries at h
  simp only [hn, if_true] at h
  have h' : Holds b A (((op.terms.flatMap (termConns hi x)).length + k) + 1) := by
    have e : ([(op.constant + diagSum hi x op.terms, x)]
        ++ op.terms.flatMap (termConns hi x)).length + k
      = ((op.terms.flatMap (termConns hi x)).length + k) + 1 := by
      simp; omega
    rwa [e] at h
  have := (foldTerms_diag (hi := hi) x x op.terms (R := []) (h'.push op.constant x)).2
  unfold rowStep
  simp only [hn, if_true]
  rw [hc, this, h'.push_oob]

theorem rows_holds (op : LOp K α N) (xs : List (Fin N → α)) (hd : ∀ x ∈ xs, DiagOK hi op x)
    {b : Buf K α N} {A k} (h : Holds b A ((xs.map (connCount hi op)).sum + k)) :
    Holds (xs.foldl (rowStep hi op) b) (A ++ xs.flatMap (rowEntries hi op)) k := by
  induction xs generalizing b A with
  | nil => simpa using h
  | cons x xs ih =>
    have h' : Holds b A (connCount hi op x + ((xs.map (connCount hi op)).sum + k)) := by
      simpa [Nat.add_assoc] using h
    have := ih (fun y hy => hd y (List.mem_cons_of_mem _ hy))
      (rowStep_holds op x (hd x List.mem_cons_self) h')
    simpa using this

theorem rows_oob (op : LOp K α N) (xs : List (Fin N → α)) (hn : op.nonzeroDiag = true)
    {b : Buf K α N} {A k} (h : Holds b A ((xs.map (connCount hi op)).sum + k)) :
    (xs.foldl (rowStep hi op) b).oob = b.oob := by
  induction xs generalizing b A with
  | nil => rfl
  | cons x xs ih =>
    have h' : Holds b A (connCount hi op x + ((xs.map (connCount hi op)).sum + k)) := by
      simpa [Nat.add_assoc] using h
    have hd : DiagOK hi op x := fun h => by rw [hn] at h; exact absurd h (by decide)
    rw [List.foldl_cons, ih (rowStep_holds op x hd h'), rowStep_oob op x hn h']

theorem padRow_holds (x : Fin N → α) (n : Nat) {b : Buf K α N} {A k} (h : Holds b A (n + k)) :
    Holds (padRow x n b) (A ++ List.replicate n (0, x)) k := by
  induction n generalizing b A with
  | zero => simpa [padRow] using h
  | succ n ih =>
    have h' : Holds b A ((n + k) + 1) := by
      have e : n + 1 + k = n + k + 1 := by omega
      rwa [e] at h
    have := ih (h'.push 0 x)
    rw [padRow]
    simpa [List.replicate_succ] using this

theorem rowStepPad_holds (op : LOp K α N) (M : Nat) (x : Fin N → α) (hd : DiagOK hi op x)
    (hM : connCount hi op x ≤ M) {b : Buf K α N} {A k} (h : Holds b A (M + k)) :
    Holds (rowStepPad hi op M b x)
      (A ++ (rowEntries hi op x ++ List.replicate (M - connCount hi op x) (0, x))) k := by
  have e : M + k = connCount hi op x + ((M - connCount hi op x) + k) := by omega
  rw [e] at h
  have h1 := rowStep_holds op x hd h
  have hc : b.c = A.length := by obtain ⟨_, _, _, _, h3, _, _⟩ := h; exact h3
  have hc' : (rowStep hi op b x).c = A.length + connCount hi op x := by
    obtain ⟨_, _, _, _, h3, _, _⟩ := h1
    rw [h3, List.length_append, length_rowEntries]
  unfold rowStepPad
  simp only [hc, hc', Nat.add_sub_cancel_left]
  have := padRow_holds x _ h1
  simpa using this

theorem rowsPad_holds (op : LOp K α N) (M : Nat) (xs : List (Fin N → α))
    (hd : ∀ x ∈ xs, DiagOK hi op x) (hM : ∀ x ∈ xs, connCount hi op x ≤ M)
    {b : Buf K α N} {A k} (h : Holds b A (xs.length * M + k)) :
    Holds (xs.foldl (rowStepPad hi op M) b)
      (A ++ xs.flatMap fun x =>
        rowEntries hi op x ++ List.replicate (M - connCount hi op x) (0, x)) k := by
  induction xs generalizing b A with
  | nil => simpa using h
  | cons x xs ih =>
    have h' : Holds b A (M + (xs.length * M + k)) := by
      have e : (x :: xs).length * M + k = M + (xs.length * M + k) := by
        rw [List.length_cons]; ring
      rwa [e] at h
    have := ih (fun y hy => hd y (List.mem_cons_of_mem _ hy))
      (fun y hy => hM y (List.mem_cons_of_mem _ hy))
      (rowStepPad_holds op M x (hd x List.mem_cons_self) (hM x List.mem_cons_self) h')
    simpa using this

theorem init_holds (gm : Nat → K) (gx : Nat → Fin N → α) (n : Nat) :
    Holds (⟨(List.range n).map gm, (List.range n).map gx, 0, false⟩ : Buf K α N) [] n :=
  ⟨_, _, rfl, rfl, rfl, by simp, by simp⟩

theorem Holds.full {b : Buf K α N} {A} (h : Holds b A 0) :
    b.mels = A.map Prod.fst ∧ b.xp = A.map Prod.snd := by
  obtain ⟨g, gx, h1, h2, h3, h4, h5⟩ := h
  rw [List.length_eq_zero_iff] at h4 h5
  subst h4 h5
  simpa using And.intro h1 h2

theorem connFlattened_eq (op : LOp K α N) (gm : Nat → K) (gx : Nat → Fin N → α)
    (xs : List (Fin N → α)) (hd : ∀ x ∈ xs, DiagOK hi op x) :
    (connFlattened hi op gm gx xs).1.mels = (xs.flatMap (rowEntries hi op)).map Prod.fst
    ∧ (connFlattened hi op gm gx xs).1.xp = (xs.flatMap (rowEntries hi op)).map Prod.snd := by
  have := rows_holds (hi := hi) op xs hd (k := 0)
    (init_holds gm gx ((xs.map (connCount hi op)).sum))
  simpa [connFlattened] using this.full

theorem connFlattenedPad_eq (op : LOp K α N) (gm : Nat → K) (gx : Nat → Fin N → α)
    (xs : List (Fin N → α)) (hd : ∀ x ∈ xs, DiagOK hi op x) (M : Nat)
    (hMdef : M = (xs.map (connCount hi op)).foldl max 0) (hM : ∀ x ∈ xs, connCount hi op x ≤ M) :
    (connFlattenedPad hi op gm gx xs).1.mels = (xs.flatMap fun x =>
        rowEntries hi op x ++ List.replicate (M - connCount hi op x) (0, x)).map Prod.fst
    ∧ (connFlattenedPad hi op gm gx xs).1.xp = (xs.flatMap fun x =>
        rowEntries hi op x ++ List.replicate (M - connCount hi op x) (0, x)).map Prod.snd := by
  have := rowsPad_holds (hi := hi) op M xs hd hM (k := 0) (init_holds gm gx (xs.length * M))
  rw [List.nil_append] at this
  unfold connFlattenedPad
  simp only [← hMdef]
  exact this.full

end buffer
end Verif.LocalOp

import Verif.Lemmas.LocalOpMatrix
import Mathlib.Algebra.BigOperators.Ring.Finset
import Mathlib.Algebra.BigOperators.Group.Finset.Piecewise
import Mathlib.Data.List.Perm.Basic

/-! Algebra of embedded local matrices: reordering, identities, products. -/

set_option linter.unusedSectionVars false

namespace Verif.LocalOp
open Verif.HilbertIndex Verif.Radix

variable {K : Type} [CommRing K] {α : Type} [LinearOrder α] [Inhabited α] {N : Nat}
  {hi : Fin N → List α}

theorem mem_basis (x : Fin N → α) : x ∈ basisStates hi ↔ Valid hi x := by
  simp [basisStates, Valid]

theorem enc_append {ds xs : List Nat} (h : xs.length = ds.length) (es ys : List Nat) :
    enc (ds ++ es) (xs ++ ys) = enc ds xs * es.prod + enc es ys := by
  induction ds generalizing xs with
  | nil =>
    cases xs with
    | nil => simp [enc]
    | cons _ _ => simp at h
  | cons d ds ih =>
    cases xs with
    | nil => simp at h
    | cons x xs =>
      simp only [List.cons_append, enc, List.prod_append]
      rw [ih (by simpa using h)]
      ring

theorem lexIdx_append (S T : List (Fin N)) (x : Fin N → α) :
    lexIdx hi (S ++ T) x = lexIdx hi S x * (dims hi T).prod + lexIdx hi T x := by
  unfold lexIdx dims
  rw [List.map_append, List.map_append, enc_append (by simp)]

theorem lexIdx_single (s : Fin N) (x : Fin N → α) : lexIdx hi [s] x = (hi s).idxOf (x s) := by
  simp [lexIdx, enc]

theorem dims_append (S T : List (Fin N)) : dims hi (S ++ T) = dims hi S ++ dims hi T := by
  simp [dims]

theorem embed_congr (m m' : Nat → Nat → K) (S : List (Fin N)) (x x' : Fin N → α)
    (hx : Valid hi x) (hx' : Valid hi x')
    (h : ∀ i < (dims hi S).prod, ∀ j < (dims hi S).prod, m i j = m' i j) :
    embed hi m S x x' = embed hi m' S x x' := by
  unfold embed
  rw [h _ (lexIdx_lt x hx S) _ (lexIdx_lt x' hx' S)]

/-- summing over the configurations that agree with `x` off the support. -/
theorem sum_agree (hs : SortedSpace hi) (S : List (Fin N)) (hn : S.Nodup) (x : Fin N → α)
    (hx : Valid hi x) (g : Nat → K) :
    (∑ y ∈ basisStates hi, if ∀ s, s ∉ S → x s = y s then g (lexIdx hi S y) else 0)
      = ∑ k ∈ Finset.range (dims hi S).prod, g k := by
  rw [← Finset.sum_filter]
  refine Finset.sum_bij' (fun y _ => lexIdx hi S y)
    (fun k _ => writeSites x S (numberToState (S.map hi) k)) ?_ ?_ ?_ ?_ ?_
  · intro y hy
    rw [Finset.mem_filter, mem_basis] at hy
    exact Finset.mem_range.2 (lexIdx_lt y hy.1 S)
  · intro k hk
    rw [Finset.mem_range] at hk
    rw [Finset.mem_filter, mem_basis]
    exact ⟨conn_valid x hx S k hk, fun s h => (writeSites_not_mem _ _ _ _ h).symm⟩
  · intro y hy
    rw [Finset.mem_filter, mem_basis] at hy
    exact (writeSites_eq_iff hs x y hx hy.1 S hn _ (lexIdx_lt y hy.1 S)).2 ⟨hy.2, rfl⟩
  · intro k hk
    rw [Finset.mem_range] at hk
    exact lexIdx_writeSites hs x S hn k hk
  · intro y _; rfl

/-- product of two local matrices on the same support. -/
theorem matProd_embed_same (hs : SortedSpace hi) (S : List (Fin N)) (hn : S.Nodup) (m m' : Mat K)
    (hm : m.n = (dims hi S).prod) (x x' : Fin N → α) (hx : Valid hi x) :
    matProd hi (embed hi m.f S) (embed hi m'.f S) x x' = embed hi (matmul m m').f S x x' := by
  unfold matProd
  by_cases hag : ∀ s, s ∉ S → x s = x' s
  · have e : ∀ y ∈ basisStates hi, embed hi m.f S x y * embed hi m'.f S y x'
        = if ∀ s, s ∉ S → x s = y s then
            m.f (lexIdx hi S x) (lexIdx hi S y) * m'.f (lexIdx hi S y) (lexIdx hi S x') else 0 := by
      intro y _
      unfold embed
      by_cases h : ∀ s, s ∉ S → x s = y s
      · have h' : ∀ s, s ∉ S → y s = x' s := fun s hs => (h s hs).symm.trans (hag s hs)
        rw [if_pos h, if_pos h', if_pos h]
      · rw [if_neg h, if_neg h, zero_mul]
    rw [Finset.sum_congr rfl e,
      sum_agree hs S hn x hx (fun k => m.f (lexIdx hi S x) k * m'.f k (lexIdx hi S x'))]
    unfold embed
    rw [if_pos hag]
    simp [matmul, hm]
  · have e : ∀ y ∈ basisStates hi, embed hi m.f S x y * embed hi m'.f S y x' = 0 := by
      intro y _
      unfold embed
      by_cases h : ∀ s, s ∉ S → x s = y s
      · have h' : ¬ ∀ s, s ∉ S → y s = x' s := fun h' => hag fun s hs => (h s hs).trans (h' s hs)
        rw [if_neg h', mul_zero]
      · rw [if_neg h, zero_mul]
    rw [Finset.sum_eq_zero e]
    unfold embed
    rw [if_neg hag]

theorem lexIdx_congr (S : List (Fin N)) (x y : Fin N → α) (h : ∀ s ∈ S, x s = y s) :
    lexIdx hi S x = lexIdx hi S y := by
  unfold lexIdx
  congr 1
  exact List.map_congr_left fun s hs => by rw [h s hs]

theorem div_mod_pair {a p b : Nat} (hb : b < p) : (a * p + b) / p = a ∧ (a * p + b) % p = b := by
  have hp : 0 < p := by omega
  constructor
  · rw [Nat.mul_comm, Nat.mul_add_div hp, Nat.div_eq_of_lt hb, Nat.add_zero]
  · rw [Nat.mul_comm, Nat.mul_add_mod, Nat.mod_eq_of_lt hb]

/-- product of two local matrices on disjoint supports. -/
theorem matProd_embed_disjoint (S T : List (Fin N)) (hd : ∀ s ∈ S, s ∉ T) (m m' : Mat K)
    (hm' : m'.n = (dims hi T).prod) (x x' : Fin N → α)
    (hx : Valid hi x) (hx' : Valid hi x') :
    matProd hi (embed hi m.f S) (embed hi m'.f T) x x' = embed hi (kron m m').f (S ++ T) x x' := by
  unfold matProd
  let y0 : Fin N → α := fun s => if s ∈ S then x' s else x s
  have hy0 : Valid hi y0 := by
    intro s
    by_cases h : s ∈ S
    · simpa [y0, h] using hx' s
    · simpa [y0, h] using hx s
  rw [Finset.sum_eq_single y0]
  · have h1 : ∀ s, s ∉ S → x s = y0 s := fun s h => by simp [y0, h]
    have hS : lexIdx hi S y0 = lexIdx hi S x' := lexIdx_congr S _ _ fun s h => by simp [y0, h]
    have hT : lexIdx hi T y0 = lexIdx hi T x := lexIdx_congr T _ _ fun s h => by
      have : s ∉ S := fun h' => hd s h' h
      simp [y0, this]
    unfold embed
    rw [if_pos h1, hS, hT]
    have hiff : (∀ s, s ∉ T → y0 s = x' s) ↔ (∀ s, s ∉ S ++ T → x s = x' s) := by
      constructor
      · intro h s hs
        rw [List.mem_append, not_or] at hs
        have := h s hs.2
        simpa [y0, hs.1] using this
      · intro h s hs
        by_cases h' : s ∈ S
        · simp [y0, h']
        · simpa [y0, h'] using h s (by simp [h', hs])
    by_cases h : ∀ s, s ∉ S ++ T → x s = x' s
    · rw [if_pos (hiff.2 h), if_pos h, lexIdx_append, lexIdx_append]
      simp only [kron, hm']
      have e1 := div_mod_pair (a := lexIdx hi S x) (lexIdx_lt x hx T)
      have e2 := div_mod_pair (a := lexIdx hi S x') (lexIdx_lt x' hx' T)
      rw [e1.1, e1.2, e2.1, e2.2]
    · rw [if_neg (fun h' => h (hiff.1 h')), if_neg h, mul_zero]
  · intro y _ hne
    unfold embed
    by_cases h1 : ∀ s, s ∉ S → x s = y s
    · by_cases h2 : ∀ s, s ∉ T → y s = x' s
      · exfalso
        apply hne
        funext s
        by_cases h : s ∈ S
        · simp [y0, h, h2 s (hd s h)]
        · simp [y0, h, h1 s h]
      · rw [if_neg h2, mul_zero]
    · rw [if_neg h1, zero_mul]
  · intro h
    exact absurd ((mem_basis y0).2 hy0) h

/-- extending by an identity at the end. -/
theorem embed_kron_eye_right (S : List (Fin N)) (s : Fin N) (hsS : s ∉ S) (m : Mat K)
    (x x' : Fin N → α) (hx : Valid hi x) (hx' : Valid hi x') :
    embed hi (kron m (eye (hi s).length)).f (S ++ [s]) x x' = embed hi m.f S x x' := by
  unfold embed
  have l1 : (hi s).idxOf (x s) < (hi s).length := List.idxOf_lt_length_iff.2 (hx s)
  have l2 : (hi s).idxOf (x' s) < (hi s).length := List.idxOf_lt_length_iff.2 (hx' s)
  have d1 : (dims hi [s]).prod = (hi s).length := by simp [dims]
  rw [lexIdx_append, lexIdx_append, lexIdx_single, lexIdx_single, d1]
  simp only [kron, eye]
  have e1 := div_mod_pair (a := lexIdx hi S x) l1
  have e2 := div_mod_pair (a := lexIdx hi S x') l2
  rw [e1.1, e1.2, e2.1, e2.2]
  have hidx : (hi s).idxOf (x s) = (hi s).idxOf (x' s) ↔ x s = x' s :=
    List.idxOf_inj (hx s)
  by_cases h : ∀ r, r ∉ S → x r = x' r
  · have h' : ∀ r, r ∉ S ++ [s] → x r = x' r := fun r hr => h r (fun h => hr (by simp [h]))
    rw [if_pos h, if_pos h', if_pos (hidx.2 (h s hsS)), mul_one]
  · rw [if_neg h]
    by_cases h' : ∀ r, r ∉ S ++ [s] → x r = x' r
    · have : ¬ x s = x' s := by
        intro hss
        apply h
        intro r hr
        by_cases hrs : r = s
        · subst hrs; exact hss
        · exact h' r (by simp [hr, hrs])
      rw [if_pos h', if_neg (fun hh => this (hidx.1 hh)), mul_zero]
    · rw [if_neg h']

/-- extending by an identity in front. -/
theorem embed_kron_eye_left (S : List (Fin N)) (s : Fin N) (hsS : s ∉ S) (m : Mat K)
    (hm : m.n = (dims hi S).prod)
    (x x' : Fin N → α) (hx : Valid hi x) (hx' : Valid hi x') :
    embed hi (kron (eye (hi s).length) m).f (s :: S) x x' = embed hi m.f S x x' := by
  unfold embed
  have hc : s :: S = [s] ++ S := rfl
  rw [hc, lexIdx_append, lexIdx_append, lexIdx_single, lexIdx_single]
  simp only [kron, eye, hm]
  have e1 := div_mod_pair (a := (hi s).idxOf (x s)) (lexIdx_lt x hx S)
  have e2 := div_mod_pair (a := (hi s).idxOf (x' s)) (lexIdx_lt x' hx' S)
  rw [e1.1, e1.2, e2.1, e2.2]
  have hidx : (hi s).idxOf (x s) = (hi s).idxOf (x' s) ↔ x s = x' s :=
    List.idxOf_inj (hx s)
  by_cases h : ∀ r, r ∉ S → x r = x' r
  · have h' : ∀ r, r ∉ [s] ++ S → x r = x' r := fun r hr => h r (fun h => hr (by simp [h]))
    rw [if_pos h, if_pos h', if_pos (hidx.2 (h s hsS)), one_mul]
  · rw [if_neg h]
    by_cases h' : ∀ r, r ∉ [s] ++ S → x r = x' r
    · have : ¬ x s = x' s := by
        intro hss
        apply h
        intro r hr
        by_cases hrs : r = s
        · subst hrs; exact hss
        · exact h' r (by simp [hr, hrs])
      rw [if_pos h', if_neg (fun hh => this (hidx.1 hh)), zero_mul]
    · rw [if_neg h']

/-! ### `_reorder_kronecker_product` -/

/-- the support is already sorted or all its sites have the same local dimension. -/
def Reorderable (hi : Fin N → List α) (act : List (Fin N)) : Prop :=
  act.Pairwise (· < ·) ∨ ∃ d, ∀ s ∈ act, (hi s).length = d

theorem sort_strict (act : List (Fin N)) (hn : act.Nodup) :
    (act.insertionSort (· ≤ ·)).Pairwise (· < ·) := by
  have h1 := List.pairwise_insertionSort (· ≤ ·) act
  have h2 : (act.insertionSort (· ≤ ·)).Nodup := (List.perm_insertionSort _ act).nodup_iff.2 hn
  exact (h1.and h2).imp fun ⟨a, b⟩ => lt_of_le_of_ne a b

theorem sort_eq_of_strict (act : List (Fin N)) (h : act.Pairwise (· < ·)) :
    act.insertionSort (· ≤ ·) = act :=
  List.Pairwise.insertionSort_eq (h.imp fun h => le_of_lt h)

theorem dims_const {d : Nat} (act : List (Fin N)) (h : ∀ s ∈ act, (hi s).length = d) :
    dims hi act = List.replicate act.length d := by
  unfold dims
  rw [List.eq_replicate_iff]
  refine ⟨by simp, ?_⟩
  intro b hb
  rw [List.mem_map] at hb
  obtain ⟨s, hs, rfl⟩ := hb
  exact h s hs

theorem digits_replicate {d : Nat} (xs : List Nat) (h : ∀ x ∈ xs, x < d) :
    Digits (List.replicate xs.length d) xs := by
  induction xs with
  | nil => exact .nil
  | cons x xs ih =>
    exact .cons (h x List.mem_cons_self) (ih fun y hy => h y (List.mem_cons_of_mem _ hy))

theorem digits_lt_of_replicate {d k : Nat} {xs : List Nat} (h : Digits (List.replicate k d) xs) :
    ∀ x ∈ xs, x < d := by
  induction k generalizing xs with
  | zero => cases h; simp
  | succ k ih =>
    cases h with
    | cons h1 h2 =>
      intro x hx
      rcases List.mem_cons.1 hx with rfl | hx
      · exact h1
      · exact ih h2 x hx

theorem zipWith_min_replicate {d : Nat} (xs : List Nat) (h : ∀ x ∈ xs, x < d) :
    List.zipWith min xs (List.replicate xs.length d) = xs := by
  induction xs with
  | nil => rfl
  | cons x xs ih =>
    rw [List.length_cons, List.replicate_succ, List.zipWith_cons_cons,
      ih fun y hy => h y (List.mem_cons_of_mem _ hy), min_eq_left (le_of_lt (h x List.mem_cons_self))]

theorem getD_idxOf_map (l : List (Fin N)) (f : Fin N → Nat) (s : Fin N) (h : s ∈ l) :
    (l.map f).getD (l.idxOf s) 0 = f s := by
  have h1 : l.idxOf s < l.length := List.idxOf_lt_length_iff.2 h
  rw [List.getD_eq_getElem?_getD, List.getElem?_map, List.getElem?_eq_getElem h1]
  simp

/-- `_reorder_kronecker_product` succeeds and keeps the embedded matrix. -/
theorem reorder_ok (m : Mat K) (act : List (Fin N)) (hn : act.Nodup)
    (hm : m.n = (dims hi act).prod) (hr : Reorderable hi act) :
    ∃ m', reorder hi m act = .ok (m', act.insertionSort (· ≤ ·))
      ∧ m'.n = (dims hi (act.insertionSort (· ≤ ·))).prod
      ∧ ∀ x x', Valid hi x → Valid hi x' →
        embed hi m'.f (act.insertionSort (· ≤ ·)) x x' = embed hi m.f act x x' := by
  unfold reorder
  by_cases hsort : act.insertionSort (· ≤ ·) = act
  · simp only [hsort, if_true]
    exact ⟨m, rfl, hm, fun _ _ _ _ => rfl⟩
  · rcases hr with hr | ⟨d, hd⟩
    · exact absurd (sort_eq_of_strict act hr) hsort
    · have hperm := List.perm_insertionSort (· ≤ ·) act
      have hd' : ∀ s ∈ act.insertionSort (· ≤ ·), (hi s).length = d := fun s hs =>
        hd s (hperm.mem_iff.1 hs)
      have hlen : (act.insertionSort (· ≤ ·)).length = act.length := hperm.length_eq
      have hds : (dims hi (act.insertionSort (· ≤ ·))).reverse = List.replicate act.length d := by
        rw [dims_const _ hd', hlen, List.reverse_replicate]
      have hda : dims hi act = List.replicate act.length d := dims_const _ hd
      have hdsort : dims hi (act.insertionSort (· ≤ ·)) = List.replicate act.length d := by
        rw [dims_const _ hd', hlen]
      simp only [hsort, if_false, hds]
      have hidx : ∀ n < (List.replicate act.length d).prod,
          unsortedIndex (List.replicate act.length d)
            (act.map fun s => (act.insertionSort (· ≤ ·)).idxOf s) n
            = enc (List.replicate act.length d)
              (act.map fun s => (dec (List.replicate act.length d) n).getD
                ((act.insertionSort (· ≤ ·)).idxOf s) 0)
          ∧ Digits (List.replicate act.length d)
              (act.map fun s => (dec (List.replicate act.length d) n).getD
                ((act.insertionSort (· ≤ ·)).idxOf s) 0) := by
        intro n hnn
        have hlt : ∀ y ∈ (act.map fun s => (dec (List.replicate act.length d) n).getD
                ((act.insertionSort (· ≤ ·)).idxOf s) 0), y < d := by
          intro y hy
          rw [List.mem_map] at hy
          obtain ⟨s, hs, rfl⟩ := hy
          have h1 : (act.insertionSort (· ≤ ·)).idxOf s < (act.insertionSort (· ≤ ·)).length :=
            List.idxOf_lt_length_iff.2 (hperm.mem_iff.2 hs)
          rw [hlen] at h1
          have h2 : (act.insertionSort (· ≤ ·)).idxOf s
              < (dec (List.replicate act.length d) n).length := by simpa using h1
          rw [List.getD_eq_getElem?_getD, List.getElem?_eq_getElem h2, Option.getD_some]
          exact digits_lt_of_replicate (dec_digits hnn) _ (List.getElem_mem _)
        have hl : (act.map fun s => (dec (List.replicate act.length d) n).getD
                ((act.insertionSort (· ≤ ·)).idxOf s) 0).length = act.length := by simp
        constructor
        · unfold unsortedIndex
          rw [List.map_map]
          simp only [Function.comp_def]
          have := zipWith_min_replicate _ hlt
          rw [hl] at this
          rw [this]
        · have := digits_replicate _ hlt
          rwa [hl] at this
      have hall : ((List.range (List.replicate act.length d).prod).all fun n =>
          decide (unsortedIndex (List.replicate act.length d)
            (act.map fun s => (act.insertionSort (· ≤ ·)).idxOf s) n < m.n)) = true := by
        rw [List.all_eq_true]
        intro n hnn
        rw [List.mem_range] at hnn
        have := hidx n hnn
        rw [decide_eq_true_eq, this.1, hm, hda]
        exact enc_lt this.2
      rw [if_pos hall]
      refine ⟨_, rfl, by rw [hdsort], ?_⟩
      intro x x' hx hx'
      have key : ∀ z, Valid hi z → unsortedIndex (List.replicate act.length d)
            (act.map fun s => (act.insertionSort (· ≤ ·)).idxOf s)
            (lexIdx hi (act.insertionSort (· ≤ ·)) z) = lexIdx hi act z := by
        intro z hz
        have hlt := lexIdx_lt z hz (act.insertionSort (· ≤ ·))
        rw [hdsort] at hlt
        rw [(hidx _ hlt).1]
        have hdec : dec (List.replicate act.length d) (lexIdx hi (act.insertionSort (· ≤ ·)) z)
            = (act.insertionSort (· ≤ ·)).map fun s => (hi s).idxOf (z s) := by
          have := dec_enc (digits_idx z hz (act.insertionSort (· ≤ ·)))
          rw [← hdsort]; exact this
        rw [hdec]
        unfold lexIdx
        have hda' : (act.map fun s => (hi s).length) = List.replicate act.length d := hda
        rw [hda']
        congr 1
        apply List.map_congr_left
        intro s hs
        exact getD_idxOf_map _ (fun s => (hi s).idxOf (z s)) s (hperm.mem_iff.2 hs)
      unfold embed
      simp only [key x hx, key x' hx', hperm.mem_iff]

end Verif.LocalOp

import Verif.Model.HilbertIndex
import Verif.Lemmas.Radix
import Mathlib.Data.List.TakeWhile
import Mathlib.Algebra.BigOperators.Group.List.Basic

/-! Helper lemmas about the model of `HilbertIndex`. -/

namespace Verif.HilbertIndex
open Verif.Radix

variable {α : Type} [LinearOrder α]

theorem searchsorted_getElem {a : List α} (h : a.Pairwise (· < ·)) {i : Nat} (hi : i < a.length) :
    searchsorted a a[i] = i := by
  unfold searchsorted
  induction a generalizing i with
  | nil => simp at hi
  | cons y ys ih =>
    rw [List.pairwise_cons] at h
    cases i with
    | zero => simp
    | succ i =>
      have hy : y < ys[i]'(by simpa using hi) := h.1 _ (List.getElem_mem _)
      simp only [List.getElem_cons_succ, List.takeWhile_cons, hy, decide_true, if_true,
        List.length_cons]
      rw [ih h.2]

theorem searchsorted_mem {a : List α} (h : a.Pairwise (· < ·)) {x : α} (hx : x ∈ a) :
    searchsorted a x < a.length ∧ a[searchsorted a x]? = some x := by
  obtain ⟨i, hi, rfl⟩ := List.mem_iff_getElem.1 hx
  rw [searchsorted_getElem h hi]
  simp [hi]

theorem searchsorted_lt_iff {a : List α} (h : a.Pairwise (· < ·)) {x y : α} (hx : x ∈ a)
    (hy : y ∈ a) : searchsorted a x < searchsorted a y ↔ x < y := by
  obtain ⟨i, hi, rfl⟩ := List.mem_iff_getElem.1 hx
  obtain ⟨j, hj, rfl⟩ := List.mem_iff_getElem.1 hy
  rw [searchsorted_getElem h hi, searchsorted_getElem h hj]
  rw [List.pairwise_iff_getElem] at h
  constructor
  · intro hij; exact h _ _ hi hj hij
  · intro hlt
    rcases Nat.lt_trichotomy i j with h1 | h1 | h1
    · exact h1
    · subst h1; exact absurd hlt (lt_irrefl _)
    · exact absurd (h _ _ hj hi h1) (lt_asymm hlt)

theorem basisLoop_getElem? (d s ba i : Nat) (hi : i < s) :
    (basisLoop d s ba)[i]? = some (ba * d ^ i) := by
  induction s generalizing ba i with
  | zero => omega
  | succ s ih =>
    cases i with
    | zero => simp [basisLoop]
    | succ i =>
      simp only [basisLoop, List.getElem?_cons_succ]
      rw [ih _ _ (by omega), pow_succ]
      congr 1; ring

theorem sorted_mk (ls : List α) (hn : ls.Nodup) :
    (ls.insertionSort (· ≤ ·)).Pairwise (· < ·) := by
  have h1 : (ls.insertionSort (· ≤ ·)).Pairwise (· ≤ ·) := List.pairwise_insertionSort _ ls
  have h2 : (ls.insertionSort (· ≤ ·)).Nodup := (List.perm_insertionSort _ ls).nodup_iff.2 hn
  rw [List.pairwise_iff_getElem] at *
  intro i j hi hj hij
  refine lt_of_le_of_ne (h1 i j hi hj hij) ?_
  intro he
  have := (List.Nodup.getElem_inj_iff h2).1 he
  omega

theorem mem_mk (ls : List α) (x : α) : x ∈ (ls.insertionSort (· ≤ ·)) ↔ x ∈ ls :=
  (List.perm_insertionSort _ ls).mem_iff

@[simp] theorem length_mk (ls : List α) : (ls.insertionSort (· ≤ ·)).length = ls.length :=
  (List.perm_insertionSort _ ls).length_eq

theorem stateToNumber_eq (ls : List α) (N : Nat) (σ : List α) (hσ : σ.length = N) :
    (HIndex.mk' ls N).stateToNumber σ =
      some (enc (List.replicate N ls.length)
        (σ.map (searchsorted (ls.insertionSort (· ≤ ·))))) := by
  set f := searchsorted (ls.insertionSort (· ≤ ·)) with hf
  have key : ∀ k, k ≤ N →
      (List.range k).foldlM (fun number i => do
        let x ← σ[N - i - 1]?
        let b ← (basisLoop ls.length N 1)[i]?
        pure (number + f x * b)) 0
      = some (enc (List.replicate k ls.length) ((σ.map f).drop (N - k))) := by
    intro k
    induction k with
    | zero => intro _; simp [enc]
    | succ k ih =>
      intro hk
      rw [List.range_succ, List.foldlM_append, ih (by omega)]
      have hlt : N - k - 1 < σ.length := by omega
      have hdrop : (σ.map f).drop (N - (k + 1)) = f σ[N - k - 1] :: (σ.map f).drop (N - k) := by
        have e : N - (k + 1) = N - k - 1 := by omega
        rw [e, List.drop_eq_getElem_cons (by simpa using hlt)]
        simp only [List.getElem_map]
        congr 2; omega
      simp only [Option.bind_eq_bind, Option.bind_some, List.foldlM_cons, List.foldlM_nil,
        List.getElem?_eq_getElem hlt, basisLoop_getElem? _ _ _ _ (show k < N by omega), one_mul]
      simp only [Option.bind_some, Option.pure_def, hdrop, List.replicate_succ, enc,
        List.prod_replicate]
      congr 1; ring
  have := key N le_rfl
  simp only [Nat.sub_self, List.drop_zero] at this
  simpa [HIndex.stateToNumber, HIndex.mk', hf] using this

theorem numLoop_eq (ls : List α) (z : α) (hz : ls[0]? = some z) (k ip : Nat) (out : List α)
    (hip : ip < ls.length ^ k) (hk : k ≤ out.length) (hout : out.take k = List.replicate k z) :
    numLoop ls ls.length k ip out =
      some ((dec (List.replicate k ls.length) ip).map (fun i => ls.getD i z) ++ out.drop k) := by
  induction k generalizing ip out with
  | zero =>
    have : ip = 0 := by simpa using hip
    subst this
    simp [numLoop, dec]
  | succ k ih =>
    have hpos : 0 < ls.length := by
      rcases ls with _ | ⟨a, as⟩
      · simp at hz
      · simp
    cases ip with
    | zero =>
      simp only [numLoop]
      have hd : ∀ m, dec (List.replicate m ls.length) 0 = List.replicate m 0 := by
        intro m
        induction m with
        | zero => rfl
        | succ m ihm => simp [List.replicate_succ, dec, ihm]
      rw [hd]
      have : (List.replicate (k + 1) 0).map (fun i => ls.getD i z) = out.take (k + 1) := by
        rw [hout, List.map_replicate]
        congr 1
        simp [List.getD, hz]
      rw [this, List.take_append_drop]
    | succ ip =>
      have hm : (ip + 1) % ls.length < ls.length := Nat.mod_lt _ hpos
      simp only [numLoop, List.getElem?_eq_getElem hm, Option.bind_eq_bind, Option.bind_some]
      rw [ih]
      · have hrep : List.replicate (k + 1) ls.length = List.replicate k ls.length ++ [ls.length] := by
          rw [List.replicate_succ']
        rw [hrep, dec_snoc _ _ _ (by rw [List.prod_replicate, ← pow_succ]; exact hip)]
        have hget : ls.getD ((ip + 1) % ls.length) z = ls[(ip + 1) % ls.length] := by
          rw [List.getD_eq_getElem?_getD, List.getElem?_eq_getElem hm]; rfl
        simp only [List.map_append, List.map_cons, List.map_nil, hget, List.append_assoc,
          List.singleton_append]
        congr 2
        rw [List.drop_eq_getElem_cons (by simp; omega)]
        simp [List.drop_set]
      · rw [pow_succ] at hip
        exact (Nat.div_lt_iff_lt_mul hpos).2 hip
      · simp; omega
      · rw [List.take_set_of_le (by omega)]
        have := congrArg (List.take k) hout
        rw [List.take_take] at this
        simpa using this

theorem numberToState_eq (ls : List α) (N n : Nat) (hn : n < ls.length ^ N) (hne : ls ≠ []) :
    ∃ z, (ls.insertionSort (· ≤ ·))[0]? = some z ∧
      (HIndex.mk' ls N).numberToState n =
        some ((dec (List.replicate N ls.length) n).map
          (fun i => (ls.insertionSort (· ≤ ·)).getD i z)) := by
  have hl : 0 < (ls.insertionSort (· ≤ ·)).length := by
    rw [length_mk]; exact List.length_pos_iff.2 hne
  refine ⟨(ls.insertionSort (· ≤ ·))[0], by simp, ?_⟩
  have h0 : (ls.insertionSort (· ≤ ·))[0]? = some (ls.insertionSort (· ≤ ·))[0] := by simp
  have := numLoop_eq (ls.insertionSort (· ≤ ·)) _ h0 N n (List.replicate N (ls.insertionSort (· ≤ ·))[0])
    (by simpa using hn) (by simp) (by simp)
  simp only [HIndex.numberToState, HIndex.mk', h0, Option.bind_eq_bind, Option.bind_some, this]
  simp

theorem digits_map {ls σ : List α} (hs : (ls.insertionSort (· ≤ ·)).Pairwise (· < ·))
    (hσ : ∀ x ∈ σ, x ∈ ls) :
    Digits (List.replicate σ.length ls.length) (σ.map (searchsorted (ls.insertionSort (· ≤ ·)))) := by
  induction σ with
  | nil => exact .nil
  | cons x xs ih =>
    simp only [List.length_cons, List.replicate_succ, List.map_cons]
    refine .cons ?_ (ih fun y hy => hσ y (List.mem_cons_of_mem _ hy))
    have := (searchsorted_mem hs ((mem_mk ls x).2 (hσ x List.mem_cons_self))).1
    simpa using this

theorem map_searchsorted_lt_iff {a : List α} (hs : a.Pairwise (· < ·)) {σ τ : List α}
    (hσ : ∀ x ∈ σ, x ∈ a) (hτ : ∀ x ∈ τ, x ∈ a) :
    σ.map (searchsorted a) < τ.map (searchsorted a) ↔ σ < τ := by
  induction σ generalizing τ with
  | nil => cases τ <;> simp
  | cons x xs ih =>
    cases τ with
    | nil => simp
    | cons y ys =>
      simp only [List.map_cons, List.cons_lt_cons_iff]
      have hx := hσ x List.mem_cons_self
      have hy := hτ y List.mem_cons_self
      rw [searchsorted_lt_iff hs hx hy,
        ih (fun z hz => hσ z (List.mem_cons_of_mem _ hz)) (fun z hz => hτ z (List.mem_cons_of_mem _ hz))]
      have : searchsorted a x = searchsorted a y ↔ x = y := by
        constructor
        · intro h
          have h1 := (searchsorted_mem hs hx).2
          have h2 := (searchsorted_mem hs hy).2
          rw [h, h2] at h1
          exact (Option.some.inj h1).symm
        · rintro rfl; rfl
      rw [this]

end Verif.HilbertIndex

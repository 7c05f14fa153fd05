import Mathlib.LinearAlgebra.Matrix.Trace
import Mathlib.LinearAlgebra.Matrix.ConjTranspose
import Verif.Model.Liouvillian
import Verif.Lemmas.Ham
import Verif.Props.LocalOpConn

/-! Lemmas for `LocalLiouvillian`. -/

set_option linter.unusedSectionVars false

namespace Verif.Liou
open Verif.Hilbert Verif.LocalOp Verif.Ham

/-! ### from rows to sums -/

section
variable {K : Type} [CommRing K] [DecidableEq K] [Star K] {α : Type} [LinearOrder α] [Inhabited α] {N : Nat}
  {hi : Fin N → List α} {cut : Cutoff K}

/-- the connected elements of `op` at `x`. -/
def rowsOf (hi : Fin N → List α) (op : LOp K α N) (x : Fin N → α) : List ((Fin N → α) × K) :=
  LocalOp.getConn hi op (fun _ => 0) (fun _ _ => default) x

theorem getConn_rows (hs : SortedSpace hi) (op : LOp K α N) (h : Good hi op) (gm : Nat → K)
    (gx : Nat → Fin N → α) (x : Fin N → α) (hx : Valid hi x) :
    LocalOp.getConn hi op gm gx x = rowsOf hi op x := by
  unfold rowsOf
  rw [getConn_eq hs op h.ok gm gx x hx, getConn_eq hs op h.ok _ _ x hx]

theorem rows_valid (hs : SortedSpace hi) (op : LOp K α N) (hg : Good hi op) (x : Fin N → α)
    (hx : Valid hi x) : ∀ p ∈ rowsOf hi op x, Valid hi p.1 := by
  unfold rowsOf
  rw [getConn_eq hs op hg.ok _ _ x hx]
  intro p hp
  simp only [toPairs, List.mem_map] at hp
  obtain ⟨q, hq, rfl⟩ := hp
  unfold rowEntries at hq
  rcases List.mem_append.1 hq with hq | hq
  · split at hq
    · rw [List.mem_singleton] at hq; subst hq; exact hx
    · simp at hq
  · rw [List.mem_flatMap] at hq
    obtain ⟨t, ht, hq⟩ := hq
    have hf := hg.ok.terms t ht
    unfold termConns at hq
    rw [Verif.LocalOp.xsN_eq hs x hx] at hq
    obtain ⟨js, _, j2, _, j4⟩ := hf.conn (lexIdx hi t.acting x)
      (by rw [hf.dim]; exact lexIdx_lt x hx _)
    rw [j4, List.map_map, List.mem_map] at hq
    obtain ⟨j, hj, rfl⟩ := hq
    exact conn_valid x hx t.acting j (by rw [← hf.dim]; exact (j2 j hj).1)

theorem sum_eq_melAt (l : List ((Fin N → α) × K)) (hl : ∀ p ∈ l, p.1 ∈ basisStates hi)
    (f : (Fin N → α) → K) :
    (l.map fun p => p.2 * f p.1).sum = ∑ y ∈ basisStates hi, melAt l y * f y := by
  induction l with
  | nil => simp [melAt]
  | cons p l ih =>
    rw [List.map_cons, List.sum_cons, ih fun q hq => hl q (List.mem_cons_of_mem _ hq)]
    have e : ∀ y ∈ basisStates hi, melAt (p :: l) y * f y
        = (if p.1 = y then p.2 * f y else 0) + melAt l y * f y := by
      intro y _
      simp only [melAt, List.map_cons, List.sum_cons, add_mul]
      split <;> simp
    rw [Finset.sum_congr rfl e, Finset.sum_add_distrib, Finset.sum_ite_eq, if_pos (hl p List.mem_cons_self)]

theorem rows_sum (hs : SortedSpace hi) (op : LOp K α N) (hg : Good hi op) (x : Fin N → α)
    (hx : Valid hi x) (f : (Fin N → α) → K) :
    ((rowsOf hi op x).map fun p => p.2 * f p.1).sum = ∑ y ∈ basisStates hi, matrixOf hi op x y * f y := by
  rw [sum_eq_melAt (hi := hi) _ (fun p hp => (mem_basis _).2 (rows_valid hs op hg x hx p hp))]
  refine Finset.sum_congr rfl fun y hy => ?_
  rw [show melAt (rowsOf hi op x) y = _ from
    getConn_sum hs op hg.ok _ _ x y hx ((mem_basis _).1 hy)]

end

/-! ### the kernel -/

section
variable {X K : Type} [CommRing K] [Star K]

/-- the rows still to be read. -/
def Track.rest (t : Track X K) : List (List (X × K)) := splitSections t.flat t.prev t.secs

theorem next_of_rest (t : Track X K) (r : List (X × K)) (rs : List (List (X × K))) (h : t.rest = r :: rs) :
    t.next.1 = r ∧ t.next.2.rest = rs := by
  obtain ⟨flat, secs, prev⟩ := t
  cases secs with
  | nil => simp [Track.rest, splitSections] at h
  | cons s ss =>
    simp only [Track.rest, splitSections, List.cons.injEq] at h
    exact ⟨h.1, h.2⟩

theorem kernelRows_eq (I : K) (xs : List (X × X)) (h : X → List (X × K)) (r c : Track X K)
    (js : List (X → List (X × K))) (ls : List (Track X K × Track X K))
    (hr : r.rest = xs.map fun x => h x.1) (hc : c.rest = xs.map fun x => h x.2)
    (hl : ls.map (fun l => (l.1.rest, l.2.rest))
      = js.map fun j => (xs.map fun x => j x.1, xs.map fun x => j x.2)) :
    kernelRows I r c ls xs
      = xs.map fun x => rowOf I x (h x.1) (h x.2) (js.map fun j => (j x.1, j x.2)) := by
  induction xs generalizing r c ls with
  | nil => rfl
  | cons x xs ih =>
    obtain ⟨r1, r2⟩ := next_of_rest r _ _ hr
    obtain ⟨c1, c2⟩ := next_of_rest c _ _ hc
    have hl' : ls.map (fun l => ((l.1.next.1, l.2.next.1), (l.1.next.2.rest, l.2.next.2.rest)))
        = js.map fun j => ((j x.1, j x.2), (xs.map fun x => j x.1, xs.map fun x => j x.2)) := by
      clear hr hc ih r1 r2 c1 c2
      induction ls generalizing js with
      | nil =>
        cases js with
        | nil => rfl
        | cons j js => simp at hl
      | cons l ls ih =>
        cases js with
        | nil => simp at hl
        | cons j js =>
          simp only [List.map_cons, List.cons.injEq, Prod.mk.injEq] at hl
          obtain ⟨a1, a2⟩ := next_of_rest l.1 _ _ hl.1.1
          obtain ⟨b1, b2⟩ := next_of_rest l.2 _ _ hl.1.2
          simp only [List.map_cons]
          rw [ih js hl.2, a1, a2, b1, b2]
    rw [kernelRows, List.map_cons, r1, c1]
    have p1 := congrArg (List.map Prod.fst) hl'
    have p2 := congrArg (List.map Prod.snd) hl'
    simp only [List.map_map, Function.comp_def] at p1 p2
    rw [p1, ih r.next.2 c.next.2 _ r2 c2 (by
      rw [List.map_map]; simp only [Function.comp_def]; exact p2)]

theorem sum_rowOf (I : K) (x : X × X) (r c : List (X × K)) (ls : List (List (X × K) × List (X × K)))
    (f : X × X → K) :
    ((rowOf I x r c ls).map fun p => p.2 * f p.1).sum
      = -I * (r.map fun p => p.2 * f (p.1, x.2)).sum
        + I * (c.map fun p => star p.2 * f (x.1, p.1)).sum
        + (ls.map fun l => (l.1.map fun p => p.2 *
            (l.2.map fun q => star q.2 * f (p.1, q.1)).sum).sum).sum := by
  simp only [rowOf, List.map_append, List.sum_append, List.map_map, Function.comp_def, mul_assoc]
  congr 1
  · congr 1
    · rw [← List.sum_map_mul_left]
    · rw [← List.sum_map_mul_left]
  · induction ls with
    | nil => rfl
    | cons l ls ih =>
      rw [List.flatMap_cons, List.map_append, List.sum_append, ih, List.map_cons, List.sum_cons]
      congr 1
      generalize l.1 = a
      induction a with
      | nil => rfl
      | cons p a ih =>
        rw [List.flatMap_cons, List.map_append, List.sum_append, ih, List.map_cons, List.sum_cons]
        congr 1
        rw [List.map_map, ← List.sum_map_mul_left]
        simp only [Function.comp_def, mul_assoc]

end
end Verif.Liou

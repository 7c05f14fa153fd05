import Verif.Model.Lattice
import Mathlib.Data.List.Nodup
import Mathlib.Data.List.Basic
import Mathlib.Data.List.Infix
import Mathlib.Data.List.GetD
import Mathlib.Tactic.Ring
import Mathlib.Tactic.Linarith

/-! Lemmas about the construction of lattices: the shell of cells, wrapping, and the passage from naive to true edges. -/

set_option linter.unusedSectionVars false
set_option linter.unusedVariables false

namespace Verif.Lat
open Verif.Hilbert (Err)

/-- integers `0, …, n-1`. -/
def upto (n : Nat) : List Int := (List.range n).map fun k : Nat => (k : Int)

theorem mem_upto (n : Nat) (x : Int) : x ∈ upto n ↔ 0 ≤ x ∧ x < n := by
  simp only [upto, List.mem_map, List.mem_range]
  constructor
  · rintro ⟨k, hk, rfl⟩; omega
  · rintro ⟨h1, h2⟩; exact ⟨x.toNat, by omega, by omega⟩

theorem upto_nodup (n : Nat) : (upto n).Nodup := by
  refine List.Nodup.map ?_ List.nodup_range
  intro a b h
  exact Int.ofNat.inj h

theorem mem_axisRange (e : Nat) (p : Bool) (x : Int) :
    x ∈ axisRange e p ↔ if p then -1 ≤ x ∧ x ≤ e else 0 ≤ x ∧ x < e := by
  unfold axisRange
  cases p
  · simp only [Bool.false_eq_true, if_false]
    exact mem_upto e x
  · simp only [if_true, List.mem_map, List.mem_range]
    constructor
    · rintro ⟨k, hk, rfl⟩; omega
    · rintro ⟨h1, h2⟩; exact ⟨(x + 1).toNat, by omega, by omega⟩

theorem axisRange_nodup (e : Nat) (p : Bool) : (axisRange e p).Nodup := by
  unfold axisRange
  cases p
  · exact upto_nodup e
  · simp only [if_true]
    refine List.Nodup.map ?_ List.nodup_range
    intro a b h
    simp only at h
    omega

theorem cart_nodup (rs : List (List Int)) (h : ∀ r ∈ rs, r.Nodup) : (cart rs).Nodup := by
  induction rs with
  | nil => simp [cart]
  | cons r rs ih =>
    rw [cart, List.nodup_flatMap]
    refine ⟨fun x _ => ?_, ?_⟩
    · refine List.Nodup.map ?_ (ih fun r hr => h r (List.mem_cons_of_mem _ hr))
      intro a b hab
      exact (List.cons.inj hab).2
    · refine (h r (by simp)).imp ?_
      intro x y hxy
      rw [Function.onFun, List.disjoint_left]
      intro c hc hc'
      obtain ⟨a, _, rfl⟩ := List.mem_map.1 hc
      obtain ⟨b, _, h2⟩ := List.mem_map.1 hc'
      exact hxy (List.cons.inj h2).1.symm

theorem mem_cart_cons (r : List Int) (rs : List (List Int)) (c : List Int) :
    c ∈ cart (r :: rs) ↔ ∃ x xs, c = x :: xs ∧ x ∈ r ∧ xs ∈ cart rs := by
  rw [cart, List.mem_flatMap]
  constructor
  · rintro ⟨x, hx, hc⟩
    obtain ⟨xs, hxs, rfl⟩ := List.mem_map.1 hc
    exact ⟨x, xs, rfl, hx, hxs⟩
  · rintro ⟨x, xs, rfl, hx, hxs⟩
    exact ⟨x, hx, List.mem_map.2 ⟨xs, hxs, rfl⟩⟩

theorem mem_cart_nil (c : List Int) : c ∈ cart [] ↔ c = [] := by simp [cart]

/-- the cells and sites of the lattice proper: all `[r1, …, rD, q]` with `0 ≤ r_d < extent_d`, `0 ≤ q < nb`, last index
    fastest. -/
def inner (ext : List Nat) (nb : Nat) : List (List Int) := cart (ext.map upto ++ [upto nb])

/-- the cells with the shell around. -/
abbrev shell (ext : List Nat) (pbc : List Bool) (nb : Nat) : List (List Int) := cart (shellRanges ext pbc nb)

theorem shell_nodup (ext : List Nat) (pbc : List Bool) (nb : Nat) : (shell ext pbc nb).Nodup := by
  apply cart_nodup
  induction ext generalizing pbc with
  | nil => intro r hr; simp only [shellRanges, List.mem_singleton] at hr; subst hr; exact upto_nodup nb
  | cons e es ih =>
    cases pbc with
    | nil => intro r hr; simp only [shellRanges, List.mem_singleton] at hr; subst hr; exact upto_nodup nb
    | cons p ps =>
      intro r hr
      rw [shellRanges, List.mem_cons] at hr
      rcases hr with rfl | hr
      · exact axisRange_nodup e p
      · exact ih ps r hr

theorem filter_cart (r : List Int) (rs : List (List Int)) (p : Int → Bool) (q : List Int → Bool) :
    (cart (r :: rs)).filter (fun c => match c with
      | [] => true
      | x :: xs => p x && q xs) = (r.filter p).flatMap fun x => ((cart rs).filter q).map fun c => x :: c := by
  rw [cart]
  induction r with
  | nil => rfl
  | cons y r ih =>
    rw [List.flatMap_cons, List.filter_append, ih]
    by_cases hy : p y = true
    · rw [List.filter_cons_of_pos hy, List.flatMap_cons]
      congr 1
      rw [List.filter_map]
      congr 1
      apply List.filter_congr
      intro c _
      simp [hy]
    · rw [List.filter_cons_of_neg hy]
      convert List.nil_append _
      rw [List.filter_eq_nil_iff]
      intro c hc
      obtain ⟨a, _, rfl⟩ := List.mem_map.1 hc
      simp [hy]

theorem filter_axisRange (e : Nat) (p : Bool) :
    (axisRange e p).filter (fun x => decide (0 ≤ x) && decide (x ≤ (e : Int) - 1)) = upto e := by
  cases p with
  | false =>
    simp only [axisRange, Bool.false_eq_true, if_false]
    refine List.filter_eq_self.2 ?_
    intro x hx
    have := (mem_upto e x).1 hx
    simp only [Bool.and_eq_true, decide_eq_true_eq]; omega
  | true =>
    have h : axisRange e true = (-1 : Int) :: (upto e ++ [(e : Int)]) := by
      simp only [axisRange, if_true, upto]
      rw [List.range_succ_eq_map, List.map_cons, List.map_map, List.range_succ, List.map_append, List.map_cons,
        List.map_nil]
      simp [Function.comp_def]
    rw [h, List.filter_cons_of_neg (by simp), List.filter_append,
      List.filter_eq_self.2 (by
        intro x hx
        have := (mem_upto e x).1 hx
        simp only [Bool.and_eq_true, decide_eq_true_eq]; omega),
      List.filter_cons_of_neg (by simp), List.filter_nil, List.append_nil]

/-- the sites of the shell that are inside are those of the lattice, in the same order. -/
theorem filter_shell (ext : List Nat) (pbc : List Bool) (nb : Nat) (hlen : ext.length = pbc.length) :
    (shell ext pbc nb).filter (inside ext) = inner ext nb := by
  induction ext generalizing pbc with
  | nil =>
    cases pbc with
    | cons p ps => simp at hlen
    | nil =>
      exact List.filter_eq_self.2 (fun c _ => by cases c <;> rfl)
  | cons e es ih =>
    cases pbc with
    | nil => simp at hlen
    | cons p ps =>
      have h1 := filter_cart (axisRange e p) (shellRanges es ps nb)
        (fun x => decide (0 ≤ x) && decide (x ≤ (e : Int) - 1)) (inside es)
      have h2 : (cart (shellRanges (e :: es) (p :: ps) nb)).filter (inside (e :: es))
          = (cart (axisRange e p :: shellRanges es ps nb)).filter (fun c => match c with
            | [] => true
            | x :: xs => (decide (0 ≤ x) && decide (x ≤ (e : Int) - 1)) && inside es xs) := by
        rw [shellRanges]
        apply List.filter_congr
        intro c hc
        obtain ⟨x, xs, rfl, _, _⟩ := (mem_cart_cons _ _ _).1 hc
        rfl
      show (cart (shellRanges (e :: es) (p :: ps) nb)).filter (inside (e :: es)) = _
      rw [h2, h1, filter_axisRange, ih ps (by simpa using hlen)]
      rfl

theorem inner_subset (ext : List Nat) (pbc : List Bool) (nb : Nat) (hlen : ext.length = pbc.length) (c : List Int) :
    c ∈ inner ext nb ↔ c ∈ shell ext pbc nb ∧ inside ext c = true := by
  rw [← filter_shell ext pbc nb hlen, List.mem_filter]

theorem inner_nodup (ext : List Nat) (nb : Nat) : (inner ext nb).Nodup := by
  apply cart_nodup
  intro r hr
  rw [List.mem_append, List.mem_map, List.mem_singleton] at hr
  rcases hr with ⟨e, _, rfl⟩ | rfl <;> exact upto_nodup _

theorem wrap_mem (ext : List Nat) (pbc : List Bool) (nb : Nat) (hlen : ext.length = pbc.length)
    (hpos : ∀ e ∈ ext, 0 < e) (c : List Int) (hc : c ∈ shell ext pbc nb) : wrap ext c ∈ inner ext nb := by
  induction ext generalizing pbc c with
  | nil =>
    cases pbc with
    | cons p ps => simp at hlen
    | nil => exact hc
  | cons e es ih =>
    cases pbc with
    | nil => simp at hlen
    | cons p ps =>
      obtain ⟨x, xs, rfl, hx, hxs⟩ := (mem_cart_cons _ _ _).1 hc
      refine (mem_cart_cons _ _ _).2 ⟨_, _, rfl, ?_, ih ps (by simpa using hlen)
        (fun e he => hpos e (List.mem_cons_of_mem _ he)) xs hxs⟩
      have he : (0 : Int) < e := by exact_mod_cast hpos e (by simp)
      exact (mem_upto e _).2 ⟨Int.emod_nonneg _ (by omega), Int.emod_lt_of_pos _ he⟩

theorem wrap_inside (ext : List Nat) (c : List Int) (hc : inside ext c = true) : wrap ext c = c := by
  induction ext generalizing c with
  | nil => cases c <;> rfl
  | cons e es ih =>
    cases c with
    | nil => rfl
    | cons x xs =>
      simp only [inside, Bool.and_eq_true, decide_eq_true_eq] at hc
      rw [wrap, ih xs hc.2, Int.emod_eq_of_lt hc.1.1 (by omega)]

/-! ## Undirected edges -/

/-- the unordered pair occurs in the list. -/
def has (T : List (Nat × Nat)) (a b : Nat) : Prop := (a, b) ∈ T ∨ (b, a) ∈ T

theorem has_comm (T : List (Nat × Nat)) (a b : Nat) : has T a b ↔ has T b a := Or.comm

theorem has_append (T S : List (Nat × Nat)) (a b : Nat) : has (T ++ S) a b ↔ has T a b ∨ has S a b := by
  unfold has
  rw [List.mem_append, List.mem_append]
  constructor
  · rintro ((h | h) | (h | h))
    exacts [Or.inl (Or.inl h), Or.inr (Or.inl h), Or.inl (Or.inr h), Or.inr (Or.inr h)]
  · rintro ((h | h) | (h | h))
    exacts [Or.inl (Or.inl h), Or.inr (Or.inl h), Or.inl (Or.inr h), Or.inr (Or.inr h)]

theorem has_singleton (e : Nat × Nat) (a b : Nat) : has [e] a b ↔ e = (a, b) ∨ e = (b, a) := by
  unfold has
  rw [List.mem_singleton, List.mem_singleton, eq_comm, @eq_comm _ (b, a)]

theorem has_of_absorb (T : List (Nat × Nat)) (e : Nat × Nat) (h : e ∈ T ∨ (e.2, e.1) ∈ T) (a b : Nat) :
    has T a b ↔ has T a b ∨ has [e] a b := by
  constructor
  · exact Or.inl
  · rintro (h' | h')
    · exact h'
    · rw [has_singleton] at h'
      rcases h' with rfl | rfl
      · exact h
      · exact Or.comm.1 h

/-- the edge contributed by the naive edge `p`. -/
def wrapped (ext : List Nat) (cs : List (List Int)) (p : Nat × Nat) : Nat × Nat :=
  (siteIdx cs (wrap ext (cs.getD p.1 [])), siteIdx cs (wrap ext (cs.getD p.2 [])))

/-- at least one end of the naive edge is inside. -/
def touches (ext : List Nat) (cs : List (List Int)) (p : Nat × Nat) : Prop :=
  inside ext (cs.getD p.1 []) = true ∨ inside ext (cs.getD p.2 []) = true

theorem siteIdx_wrap (ext : List Nat) (cs : List (List Int)) (hnd : cs.Nodup) (i : Nat) (hi : i < cs.length)
    (hin : inside ext (cs.getD i []) = true) : siteIdx cs (wrap ext (cs.getD i [])) = i := by
  rw [wrap_inside ext _ hin, List.getD_eq_getElem _ _ hi, siteIdx]
  exact List.Nodup.idxOf_getElem hnd i hi

theorem trueStep_has (ext : List Nat) (cs : List (List Int)) (hnd : cs.Nodup) (T : List (Nat × Nat)) (p : Nat × Nat)
    (h1 : p.1 < cs.length) (h2 : p.2 < cs.length) (a b : Nat) :
    has (trueStep ext cs T p) a b ↔ has T a b ∨ (touches ext cs p ∧ has [wrapped ext cs p] a b) := by
  unfold trueStep touches
  simp only
  by_cases hb : (inside ext (cs.getD p.1 []) && inside ext (cs.getD p.2 [])) = true
  · rw [if_pos hb]
    rw [Bool.and_eq_true] at hb
    have hw : wrapped ext cs p = p := by
      unfold wrapped
      rw [siteIdx_wrap ext cs hnd p.1 h1 hb.1, siteIdx_wrap ext cs hnd p.2 h2 hb.2]
    rw [hw]
    have htt : (inside ext (cs.getD p.1 []) = true ∨ inside ext (cs.getD p.2 []) = true) ↔ True := by
      simp only [iff_true]; exact Or.inl hb.1
    rw [htt, true_and]
    split_ifs with hm
    · exact has_of_absorb T p (Or.inl hm) a b
    · rw [has_append]
  · rw [if_neg hb]
    by_cases ho : (inside ext (cs.getD p.1 []) || inside ext (cs.getD p.2 [])) = true
    · rw [if_pos ho]
      rw [Bool.or_eq_true] at ho
      have htt : (inside ext (cs.getD p.1 []) = true ∨ inside ext (cs.getD p.2 []) = true) ↔ True := by
        simp only [iff_true]; exact ho
      rw [htt, true_and]
      split_ifs with hm
      · rw [has_append]; rfl
      · exact has_of_absorb T (wrapped ext cs p) (by
          by_contra hc
          rw [not_or] at hc
          exact hm hc) a b
    · rw [if_neg ho]
      have hff : ¬(inside ext (cs.getD p.1 []) = true ∨ inside ext (cs.getD p.2 []) = true) := by
        rw [← Bool.or_eq_true]; exact ho
      simp only [hff, false_and, or_false]

theorem foldl_trueStep_has (ext : List Nat) (cs : List (List Int)) (hnd : cs.Nodup) (es : List (Nat × Nat))
    (hes : ∀ p ∈ es, p.1 < cs.length ∧ p.2 < cs.length) (a b : Nat) : ∀ T,
    has (es.foldl (trueStep ext cs) T) a b ↔
      has T a b ∨ ∃ p ∈ es, touches ext cs p ∧ has [wrapped ext cs p] a b := by
  induction es with
  | nil => intro T; simp
  | cons p es ih =>
    intro T
    rw [List.foldl_cons, ih (fun q hq => hes q (List.mem_cons_of_mem _ hq)),
      trueStep_has ext cs hnd T p (hes p (by simp)).1 (hes p (by simp)).2]
    simp only [List.mem_cons, exists_eq_or_imp, or_assoc]

theorem mem_pairs (n : Nat) (p : Nat × Nat) : p ∈ pairs n ↔ p.1 < p.2 ∧ p.2 < n := by
  obtain ⟨i, j⟩ := p
  simp only [pairs, List.mem_flatMap, List.mem_range, List.mem_map, List.mem_filter, decide_eq_true_eq,
    Prod.mk.injEq]
  constructor
  · rintro ⟨i', h1, j', ⟨h2, h3⟩, rfl, rfl⟩; omega
  · rintro ⟨h1, h2⟩; exact ⟨i, by omega, j, ⟨h2, h1⟩, rfl, rfl⟩

/-- specification of a nearest pair: its bin is the smallest one among all pairs of sites of the list. -/
def Closest (near : List Int → List Int → Option Int) (cs : List (List Int)) (c c' : List Int) : Prop :=
  ∃ m, near c c' = some m ∧ ∀ a ∈ cs, ∀ b ∈ cs, ∀ m', near a b = some m' → m ≤ m'

section
variable (near : List Int → List Int → Option Int) (hsym : ∀ a b, near a b = near b a) (hirr : ∀ a, near a a = none)
include hsym hirr

theorem closest_comm (cs : List (List Int)) (c c' : List Int) (h : Closest near cs c c') : Closest near cs c' c := by
  obtain ⟨m, h1, h2⟩ := h
  exact ⟨m, by rw [hsym]; exact h1, h2⟩

theorem nearIdx_some (cs : List (List Int)) (p : Nat × Nat) (m : Int) :
    nearIdx near cs p = some m ↔ ∃ a b, cs[p.1]? = some a ∧ cs[p.2]? = some b ∧ near a b = some m := by
  unfold nearIdx
  rcases cs[p.1]? with _ | a <;> rcases cs[p.2]? with _ | b <;> simp

theorem mem_bins (cs : List (List Int)) (m : Int) :
    m ∈ (pairs cs.length).filterMap (nearIdx near cs) ↔ ∃ a ∈ cs, ∃ b ∈ cs, near a b = some m := by
  rw [List.mem_filterMap]
  constructor
  · rintro ⟨p, hp, h⟩
    obtain ⟨a, b, h1, h2, h3⟩ := (nearIdx_some near hsym hirr cs p m).1 h
    exact ⟨a, List.mem_of_getElem? h1, b, List.mem_of_getElem? h2, h3⟩
  · rintro ⟨a, ha, b, hb, h⟩
    obtain ⟨i, hi⟩ := List.mem_iff_getElem?.1 ha
    obtain ⟨j, hj⟩ := List.mem_iff_getElem?.1 hb
    have hne : i ≠ j := by
      rintro rfl
      rw [hi] at hj
      obtain rfl := Option.some.inj hj
      rw [hirr] at h; simp at h
    have hil := (List.getElem?_eq_some_iff.1 hi).1
    have hjl := (List.getElem?_eq_some_iff.1 hj).1
    rcases Nat.lt_or_gt_of_ne hne with hlt | hlt
    · exact ⟨(i, j), (mem_pairs _ _).2 ⟨hlt, hjl⟩, (nearIdx_some near hsym hirr cs _ m).2 ⟨a, b, hi, hj, h⟩⟩
    · exact ⟨(j, i), (mem_pairs _ _).2 ⟨hlt, hil⟩,
        (nearIdx_some near hsym hirr cs _ m).2 ⟨b, a, hj, hi, by rw [hsym]; exact h⟩⟩

/-- the naive edges are the nearest pairs. -/
theorem mem_naiveEdges (cs : List (List Int)) (p : Nat × Nat) :
    p ∈ naiveEdges near cs ↔ p.1 < p.2 ∧ ∃ a b, cs[p.1]? = some a ∧ cs[p.2]? = some b ∧ Closest near cs a b := by
  unfold naiveEdges
  rcases hm : ((pairs cs.length).filterMap (nearIdx near cs)).min? with _ | m
  · rw [List.min?_eq_none_iff] at hm
    simp only [List.not_mem_nil, false_iff]
    rintro ⟨_, a, b, h1, h2, m, h3, _⟩
    have := (mem_bins near hsym hirr cs m).2 ⟨a, List.mem_of_getElem? h1, b, List.mem_of_getElem? h2, h3⟩
    rw [hm] at this; simp at this
  · rw [List.min?_eq_some_iff] at hm
    obtain ⟨hm1, hm2⟩ := hm
    simp only [List.mem_filter, decide_eq_true_eq]
    rw [mem_pairs]
    constructor
    · rintro ⟨⟨h1, _⟩, h2⟩
      obtain ⟨a, b, h3, h4, h5⟩ := (nearIdx_some near hsym hirr cs p m).1 h2
      refine ⟨h1, a, b, h3, h4, m, h5, ?_⟩
      intro a' ha' b' hb' m' h'
      exact hm2 m' ((mem_bins near hsym hirr cs m').2 ⟨a', ha', b', hb', h'⟩)
    · rintro ⟨h1, a, b, h2, h3, m', h4, h5⟩
      have hlt := (List.getElem?_eq_some_iff.1 h3).1
      refine ⟨⟨h1, hlt⟩, (nearIdx_some near hsym hirr cs p m).2 ⟨a, b, h2, h3, ?_⟩⟩
      obtain ⟨a', ha', b', hb', h'⟩ := (mem_bins near hsym hirr cs m).1 hm1
      have e1 := h5 a' ha' b' hb' m h'
      have e2 := hm2 m' ((mem_bins near hsym hirr cs m').2 ⟨a, List.mem_of_getElem? h2, b, List.mem_of_getElem? h3, h4⟩)
      rw [h4]
      congr 1
      omega

theorem has_naiveEdges (cs : List (List Int)) (i j : Nat) (a b : List Int) (hi : cs[i]? = some a)
    (hj : cs[j]? = some b) : has (naiveEdges near cs) i j ↔ Closest near cs a b := by
  unfold has
  rw [mem_naiveEdges near hsym hirr, mem_naiveEdges near hsym hirr]
  simp only [hi, hj, Option.some.injEq]
  constructor
  · rintro (⟨_, a', b', rfl, rfl, h⟩ | ⟨_, a', b', rfl, rfl, h⟩)
    · exact h
    · exact closest_comm near hsym hirr cs _ _ h
  · intro h
    have hne : i ≠ j := by
      rintro rfl
      rw [hi] at hj
      obtain rfl := Option.some.inj hj
      obtain ⟨m, h, _⟩ := h
      rw [hirr] at h; simp at h
    rcases Nat.lt_or_gt_of_ne hne with hlt | hlt
    · exact Or.inl ⟨hlt, a, b, rfl, rfl, h⟩
    · exact Or.inr ⟨hlt, b, a, rfl, rfl, closest_comm near hsym hirr cs _ _ h⟩

/-- the true edges in terms of coordinates. -/
theorem has_trueEdges (ext : List Nat) (cs : List (List Int)) (hnd : cs.Nodup)
    (hwm : ∀ c ∈ cs, wrap ext c ∈ cs) (a b : Nat) :
    has (trueEdges ext near cs) a b ↔ ∃ c ∈ cs, ∃ c' ∈ cs, (inside ext c = true ∨ inside ext c' = true)
      ∧ Closest near cs c c' ∧ cs[a]? = some (wrap ext c) ∧ cs[b]? = some (wrap ext c') := by
  have hidx : ∀ (c : List Int) (n : Nat), c ∈ cs → (siteIdx cs c = n ↔ cs[n]? = some c) := by
    intro c n hc
    unfold siteIdx
    constructor
    · rintro rfl
      exact List.getElem?_idxOf hc
    · intro h
      obtain ⟨hn, h⟩ := List.getElem?_eq_some_iff.1 h
      subst h
      exact List.Nodup.idxOf_getElem hnd n hn
  unfold trueEdges
  rw [foldl_trueStep_has ext cs hnd]
  · constructor
    · rintro (h | ⟨p, hp, ht, hw⟩)
      · simp [has] at h
      · obtain ⟨hlt, c, c', h1, h2, hcl⟩ := (mem_naiveEdges near hsym hirr cs p).1 hp
        have hc := List.mem_of_getElem? h1
        have hc' := List.mem_of_getElem? h2
        have g1 : cs.getD p.1 [] = c := by rw [List.getD_eq_getElem?_getD, h1]; rfl
        have g2 : cs.getD p.2 [] = c' := by rw [List.getD_eq_getElem?_getD, h2]; rfl
        unfold touches at ht
        rw [g1, g2] at ht
        rw [has_singleton, wrapped, g1, g2] at hw
        simp only [Prod.mk.injEq] at hw
        rw [hidx _ _ (hwm c hc), hidx _ _ (hwm c' hc'), hidx _ _ (hwm c hc), hidx _ _ (hwm c' hc')] at hw
        rcases hw with hw | hw
        · exact ⟨c, hc, c', hc', ht, hcl, hw.1, hw.2⟩
        · exact ⟨c', hc', c, hc, ht.symm, closest_comm near hsym hirr cs _ _ hcl, hw.2, hw.1⟩
    · rintro ⟨c, hc, c', hc', ht, hcl, ha, hb⟩
      right
      obtain ⟨i, hi⟩ := List.mem_iff_getElem?.1 hc
      obtain ⟨j, hj⟩ := List.mem_iff_getElem?.1 hc'
      have gi : cs.getD i [] = c := by rw [List.getD_eq_getElem?_getD, hi]; rfl
      have gj : cs.getD j [] = c' := by rw [List.getD_eq_getElem?_getD, hj]; rfl
      rcases (has_naiveEdges near hsym hirr cs i j c c' hi hj).2 hcl with h | h
      · refine ⟨(i, j), h, ?_, ?_⟩
        · unfold touches; rw [gi, gj]; exact ht
        · rw [has_singleton, wrapped]
          simp only [gi, gj, Prod.mk.injEq]
          left
          exact ⟨(hidx _ _ (hwm c hc)).2 ha, (hidx _ _ (hwm c' hc')).2 hb⟩
      · refine ⟨(j, i), h, ?_, ?_⟩
        · unfold touches; rw [gi, gj]; exact ht.symm
        · rw [has_singleton, wrapped]
          simp only [gi, gj, Prod.mk.injEq]
          right
          exact ⟨(hidx _ _ (hwm c' hc')).2 hb, (hidx _ _ (hwm c hc)).2 ha⟩
  · intro p hp
    obtain ⟨_, c, c', h1, h2, _⟩ := (mem_naiveEdges near hsym hirr cs p).1 hp
    exact ⟨(List.getElem?_eq_some_iff.1 h1).1, (List.getElem?_eq_some_iff.1 h2).1⟩

end

theorem mem_oldNodes (n : Nat) (T : List (Nat × Nat)) (i : Nat) :
    i ∈ oldNodes n T ↔ i < n ∧ ∃ j, has T i j := by
  unfold oldNodes has
  simp only [List.mem_filter, List.mem_range, List.any_eq_true, Bool.or_eq_true, beq_iff_eq]
  constructor
  · rintro ⟨h, ⟨a, b⟩, hm, rfl | rfl⟩
    · exact ⟨h, b, Or.inl hm⟩
    · exact ⟨h, a, Or.inr hm⟩
  · rintro ⟨h, j, hm | hm⟩
    · exact ⟨h, _, hm, Or.inl rfl⟩
    · exact ⟨h, _, hm, Or.inr rfl⟩

/-- no loops, and no pair twice in either orientation. -/
def Simple (E : List (Nat × Nat)) : Prop :=
  (∀ e ∈ E, e.1 ≠ e.2) ∧ E.Pairwise fun e e' => e ≠ e' ∧ e ≠ (e'.2, e'.1)

theorem simplify_simple (es : List (Nat × Nat)) : ∀ acc, Simple acc → Simple (simplify acc es) := by
  induction es with
  | nil => intro acc h; exact h
  | cons e r ih =>
    intro acc h
    rw [simplify]
    split_ifs with hc
    · exact ih acc h
    · rw [not_or, not_or] at hc
      refine ih _ ⟨?_, ?_⟩
      · intro e' he'
        rw [List.mem_append, List.mem_singleton] at he'
        rcases he' with h' | rfl
        · exact h.1 e' h'
        · exact hc.1
      · rw [List.pairwise_append]
        refine ⟨h.2, List.pairwise_singleton _ _, ?_⟩
        intro a ha b hb
        rw [List.mem_singleton] at hb
        subst hb
        exact ⟨fun h' => hc.2.1 (h' ▸ ha), fun h' => hc.2.2 (h' ▸ ha)⟩

theorem simplify_has (es : List (Nat × Nat)) (a b : Nat) (hab : a ≠ b) : ∀ acc,
    has (simplify acc es) a b ↔ has acc a b ∨ has es a b := by
  induction es with
  | nil => intro acc; simp [simplify, has]
  | cons e r ih =>
    intro acc
    have hcons : has (e :: r) a b ↔ has [e] a b ∨ has r a b := has_append [e] r a b
    rw [simplify, hcons]
    split_ifs with hc
    · rw [ih acc]
      rcases hc with hc | hc | hc
      · have : ¬has [e] a b := by
          rw [has_singleton]
          rintro (rfl | rfl)
          · exact hab hc
          · exact hab hc.symm
        simp only [this, false_or]
      · have := has_of_absorb acc e (Or.inl hc) a b
        rw [← or_assoc, ← this]
      · have := has_of_absorb acc e (Or.inr hc) a b
        rw [← or_assoc, ← this]
    · rw [ih, has_append, or_assoc]

theorem simplify_subset (es : List (Nat × Nat)) : ∀ acc, ∀ e ∈ simplify acc es, e ∈ acc ∨ e ∈ es := by
  induction es with
  | nil => intro acc e h; exact Or.inl h
  | cons f r ih =>
    intro acc e h
    rw [simplify] at h
    split_ifs at h
    · rcases ih acc e h with h | h
      · exact Or.inl h
      · exact Or.inr (List.mem_cons_of_mem _ h)
    · rcases ih _ e h with h | h
      · rw [List.mem_append, List.mem_singleton] at h
        rcases h with h | rfl
        · exact Or.inl h
        · exact Or.inr (by simp)
      · exact Or.inr (List.mem_cons_of_mem _ h)

end Verif.Lat

import Verif.Model.MpiPrim
import Mathlib.Data.Rat.Defs
import Mathlib.Algebra.Order.Ring.Rat
import Mathlib.Tactic.Ring
import Mathlib.Tactic.Linarith

/-! C148, C149: the MPI primitives. -/

namespace Verif.Mpi

open Verif.Hilbert (Err)

/-! ### NumPy's reshape -/

theorem addrs_filter (ax : Axes) (o : Nat) : addrs (ax.filter fun p => p.1 ≠ 1) o = addrs ax o := by
  induction ax generalizing o with
  | nil => rfl
  | cons p rest ih =>
    obtain ⟨n, t⟩ := p
    by_cases h : n = 1
    · subst h
      rw [List.filter_cons_of_neg (by simp), ih]
      simp [addrs]
    · rw [List.filter_cons_of_pos (by simpa using h)]
      simp only [addrs, ih]

theorem range_mul (n len : Nat) (f : Nat → Nat) :
    (List.range (n * len)).map f = (List.range n).flatMap fun (i : Nat) => (List.range len).map fun (j : Nat) =>
      f (i * len + j) := by
  induction n with
  | zero => simp
  | succ n ih =>
    rw [Nat.succ_mul, List.range_add, List.map_append, ih, List.range_succ, List.flatMap_append]
    simp [List.map_map, Function.comp_def]

theorem flat_head (m u : Nat) (rest : Axes) (len s : Nat) (h : flat ((m, u) :: rest) = some (len, s)) :
    m * u = s * len := by
  induction rest generalizing m u len s with
  | nil => simp only [flat, Option.some.injEq, Prod.mk.injEq] at h; obtain ⟨rfl, rfl⟩ := h; exact Nat.mul_comm _ _
  | cons p rest ih =>
    obtain ⟨m', u'⟩ := p
    simp only [flat] at h
    split at h
    · cases h
    · rename_i len' s' h'
      split at h
      · rename_i hu
        simp only [Option.some.injEq, Prod.mk.injEq] at h
        obtain ⟨rfl, rfl⟩ := h
        rw [hu, ih m' u' len' s' h']
        ring
      · cases h

/-- the view of `reshape(-1)` has the elements of the array in C order. -/
theorem flat_addrs (ax : Axes) (len s o : Nat) (h : flat ax = some (len, s)) :
    addrs ax o = (List.range len).map fun (i : Nat) => o + i * s := by
  induction ax generalizing len s o with
  | nil =>
    simp only [flat, Option.some.injEq, Prod.mk.injEq] at h
    obtain ⟨rfl, rfl⟩ := h
    simp [addrs]
  | cons p rest ih =>
    obtain ⟨n, t⟩ := p
    cases rest with
    | nil =>
      simp only [flat, Option.some.injEq, Prod.mk.injEq] at h
      obtain ⟨rfl, rfl⟩ := h
      simp only [addrs]
      induction n with
      | zero => rfl
      | succ n ihn => rw [List.range_succ, List.flatMap_append, ihn, List.map_append]; simp
    | cons q rest =>
      obtain ⟨m, u⟩ := q
      simp only [flat] at h
      split at h
      · cases h
      · rename_i len' s' h'
        split at h
        · rename_i hu
          simp only [Option.some.injEq, Prod.mk.injEq] at h
          obtain ⟨rfl, rfl⟩ := h
          have hh := flat_head m u rest len' s' h'
          rw [range_mul]
          show (List.range n).flatMap (fun (i : Nat) => addrs ((m, u) :: rest) (o + i * t)) = _
          congr 1
          funext i
          rw [ih len' s' (o + i * t) h']
          refine List.map_congr_left fun j _ => ?_
          rw [hu, hh]
          ring
        · cases h

/-- strides of a freshly made C-ordered array of a shape: the size of the rest. -/
def freshAxes : List Nat → Axes
  | [] => []
  | n :: sh => (n, sh.prod) :: freshAxes sh

theorem prod_filter (sh : List Nat) : (sh.filter (· ≠ 1)).prod = sh.prod := by
  induction sh with
  | nil => rfl
  | cons n sh ih =>
    by_cases h : n = 1
    · subst h; simpa using ih
    · rw [List.filter_cons_of_pos (by simpa using h), List.prod_cons, List.prod_cons, ih]

theorem filter_fresh (sh : List Nat) :
    (freshAxes sh).filter (fun p => p.1 ≠ 1) = freshAxes (sh.filter (· ≠ 1)) := by
  induction sh with
  | nil => rfl
  | cons n sh ih =>
    simp only [freshAxes]
    by_cases h : n = 1
    · subst h
      rw [List.filter_cons_of_neg (by simp), List.filter_cons_of_neg (by simp), ih]
    · rw [List.filter_cons_of_pos (by simpa using h), List.filter_cons_of_pos (by simpa using h), freshAxes, ih,
        prod_filter]

theorem flat_fresh (sh : List Nat) : flat (freshAxes sh) = some (sh.prod, 1) := by
  induction sh with
  | nil => rfl
  | cons n sh ih =>
    cases sh with
    | nil => simp [freshAxes, flat]
    | cons m sh =>
      simp only [freshAxes] at ih ⊢
      simp only [flat, ih, List.prod_cons, if_true]

/-- Freshly made arrays of any shape (also scalars) are reduced in place. -/
theorem reshape_fresh (sh : List Nat) (o : Nat) : reshapeFlat ⟨o, freshAxes sh⟩ = some (sh.prod, 1) := by
  rw [reshapeFlat, filter_fresh, flat_fresh, prod_filter]

/-! ### the reductions -/

/-- specification: the elementwise reduction over the ranks. -/
def elementwise {R : Type} (red : List R → R) (xs : List (List R)) (len : Nat) : List R :=
  (List.range len).map fun (i : Nat) => red (xs.filterMap fun x => x[i]?)

theorem fresh_read {R : Type} (mem : Nat → R) (sh : List Nat) (o : Nat) :
    read mem ⟨o, freshAxes sh⟩ = (List.range sh.prod).map fun (i : Nat) => mem (o + i) := by
  rw [read, ← addrs_filter, flat_addrs _ _ _ o (reshape_fresh sh o), List.map_map]
  refine List.map_congr_left fun i _ => ?_
  simp

/-- On several ranks, `mpi_sum` (and `prod`, `any`, `max`) of a C-ordered array of any shape holds, on every
    rank, the elementwise reduction over all ranks; the array passed in is overwritten with it and no other
    memory changes. -/
theorem C148_reduce {R : Type} (red : List R → R) (mems : Mems R) (o : Nat) (sh : List Nat)
    (hn : mems.length > 1) :
    let r := mpiReduce red mems ⟨o, freshAxes sh⟩
    r.2 = none ∧ r.1.length = mems.length ∧
    (∀ mem ∈ r.1, read mem ⟨o, freshAxes sh⟩ =
      elementwise red (mems.map fun m => read m ⟨o, freshAxes sh⟩) sh.prod) ∧
    (∀ (k : Nat) (m m' : Nat → R), mems[k]? = some m → r.1[k]? = some m' →
      ∀ a, a < o ∨ o + sh.prod ≤ a → m' a = m a) := by
  have hr : mpiReduce red mems ⟨o, freshAxes sh⟩ = (allreduce red mems o sh.prod, none) := by
    unfold mpiReduce
    rw [if_pos hn, reshape_fresh]
    simp
  simp only [hr]
  refine ⟨trivial, by simp [allreduce], ?_, ?_⟩
  · intro mem hmem
    simp only [allreduce, List.mem_map] at hmem
    obtain ⟨m0, _, rfl⟩ := hmem
    rw [fresh_read, elementwise]
    refine List.map_congr_left fun i hi => ?_
    have hi' : i < sh.prod := List.mem_range.1 hi
    rw [if_pos ⟨by omega, by omega⟩]
    congr 1
    rw [List.filterMap_map]
    have : ∀ m : Nat → R, ((fun x : List R => x[i]?) ∘ fun m => read m ⟨o, freshAxes sh⟩) m = some (m (o + i)) := by
      intro m
      simp [Function.comp_def, fresh_read, hi']
    rw [funext this, List.filterMap_eq_map']
  · intro k m m' hm hm' a ha
    simp only [allreduce, List.getElem?_map, hm, Option.map_some, Option.some.injEq] at hm'
    subst hm'
    simp only
    rw [if_neg (by omega)]

example := C148_reduce List.sum [fun a => (a : ℚ), fun a => 10 * (a : ℚ)] 1 [2, 2] (by decide)

/-- On one rank nothing changes, for any array; the elementwise reduction over one rank is the array itself
    for sum, product and maximum. -/
theorem C148_single {R : Type} (red : List R → R) (mem : Nat → R) (v : View) :
    mpiReduce red [mem] v = ([mem], none) ∧
      (∀ x : List R, (∀ a, red [a] = a) → elementwise red [x] x.length = x) := by
  refine ⟨rfl, fun x h => ?_⟩
  refine List.ext_getElem (by simp [elementwise]) fun i h1 h2 => ?_
  simp [elementwise, h, List.getElem?_eq_getElem h2]

/-- `mpi_mean` returns the average over ranks, elementwise, on every rank; the array passed in is left
    with the sum. -/
theorem C148_mean {R : Type} [DivisionRing R] (mems : Mems R) (o : Nat) (sh : List Nat) (hn : mems.length > 1) :
    (mpiMean mems ⟨o, freshAxes sh⟩).2 = .ok (mems.map fun _ =>
      (elementwise (fun l => l.sum / (mems.length : R)) (mems.map fun m => read m ⟨o, freshAxes sh⟩) sh.prod)) ∧
    (∀ mem ∈ (mpiMean mems ⟨o, freshAxes sh⟩).1, read mem ⟨o, freshAxes sh⟩ =
      elementwise List.sum (mems.map fun m => read m ⟨o, freshAxes sh⟩) sh.prod) := by
  obtain ⟨h1, h2, h3, h4⟩ := C148_reduce List.sum mems o sh hn
  unfold mpiMean
  generalize mpiReduce List.sum mems ⟨o, freshAxes sh⟩ = r at h1 h2 h3 h4
  obtain ⟨m, e⟩ := r
  simp only at h1
  subst h1
  refine ⟨?_, h3⟩
  simp only
  congr 1
  have : ∀ mem ∈ m, (read mem ⟨o, freshAxes sh⟩).map (fun x => x / (mems.length : R)) =
      elementwise (fun l => l.sum / (mems.length : R)) (mems.map fun m => read m ⟨o, freshAxes sh⟩) sh.prod := by
    intro mem hmem
    rw [h3 mem hmem]
    simp [elementwise, List.map_map, Function.comp_def]
  rw [List.map_congr_left this]
  simp only at h2
  simp only [List.map_const', h2]

example := C148_mean [fun a => (a : ℚ), fun a => 10 * (a : ℚ)] 1 [2, 2] (by decide)

/-- The versions for JAX arrays return the same values and change nothing. -/
theorem C148_jax {R : Type} (red : List R → R) (xs : List (List R)) (len : Nat) (hlen : ∀ x ∈ xs, x.length = len)
    (h1 : ∀ a, red [a] = a) : mpiReduceJax red xs len = xs.map fun _ => elementwise red xs len := by
  unfold mpiReduceJax
  by_cases h : xs.length = 1
  · rw [if_pos h]
    obtain ⟨x, rfl⟩ := List.length_eq_one_iff.1 h
    have hx := hlen x (by simp)
    subst hx
    have := (C148_single red (fun _ => red []) ⟨0, []⟩).2 x h1
    simp [this]
  · rw [if_neg h]; rfl

example := C148_jax List.sum [[1, 2], [3, (4 : ℚ)]] 2 (by decide) (by simp)

/-- NumPy and JAX reductions agree. -/
theorem C148_agree {R : Type} (red : List R → R) (mems : Mems R) (o : Nat) (sh : List Nat) (hn : mems.length > 1)
    (h1 : ∀ a, red [a] = a) :
    (mpiReduce red mems ⟨o, freshAxes sh⟩).1.map (fun m => read m ⟨o, freshAxes sh⟩) =
      mpiReduceJax red (mems.map fun m => read m ⟨o, freshAxes sh⟩) sh.prod := by
  obtain ⟨_, h2, h3, _⟩ := C148_reduce red mems o sh hn
  rw [C148_jax red _ _ (by simp [fresh_read]) h1, List.map_congr_left h3]
  simp only [List.map_const', h2, List.length_map]

example := C148_agree List.sum [fun a => (a : ℚ), fun a => 10 * (a : ℚ)] 1 [2, 2] (by decide) (by simp)

/-- Broadcast: every rank gets the value of the root. -/
theorem C148_bcast {A : Type} (xs : List A) (root : Nat) (x : A) (hx : xs[root]? = some x) :
    mpiBcast xs root = .ok (xs.map fun _ => x) ∧ mpiBcastJax xs root = .ok (xs.map fun _ => x) := by
  unfold mpiBcast mpiBcastJax
  by_cases h : xs.length = 1
  · obtain ⟨y, rfl⟩ := List.length_eq_one_iff.1 h
    have h0 : root = 0 := by
      have := (List.getElem?_eq_some_iff.1 hx).1
      simp at this
      omega
    subst h0
    simp at hx
    simp [hx]
  · simp [h, hx]

example := C148_bcast [5, 6, 7] 1 6 rfl

/-- All-gather on several ranks: every rank gets the list of the values, in the order of the ranks. -/
theorem C148_allgather {A : Type} (xs : List A) (h : xs.length > 1) :
    mpiAllgather xs = xs.map fun _ => .list xs := by
  unfold mpiAllgather
  rw [if_neg (by omega)]

example := C148_allgather [5, 6, 7] (by decide)

example : (mpiReduce List.sum [fun a => (a : ℚ), fun a => 10 * (a : ℚ)] ⟨1, freshAxes [2, 2]⟩).1.map
    (fun m => read m ⟨1, freshAxes [2, 2]⟩) = [[11, 22, 33, 44], [11, 22, 33, 44]] := by
  decide +kernel

/-! ### versions -/

/-- digits of a component of a version. -/
def digits (ds : List (Fin 10)) : List Ch := ds.map .digit

/-- the version string with the given components. -/
def render : List (List (Fin 10)) → List Ch
  | [] => []
  | [ds] => digits ds
  | ds :: rest => digits ds ++ .dot :: render rest

/-- the number written with the digits. -/
def value (ds : List (Fin 10)) : Nat := ds.foldl (fun n d => 10 * n + d.val) 0

theorem numericPrefix_append (cs tail : List Ch) (h : Ch.other ∉ cs) (ht : tail = [] ∨ tail.head? = some .other) :
    numericPrefix (cs ++ tail) = cs := by
  induction cs with
  | nil =>
    rcases ht with rfl | ht
    · rfl
    · cases tail with
      | nil => rfl
      | cons c t => simp at ht; subst ht; rfl
  | cons c cs ih =>
    have hc : c ≠ .other := fun e => h (by simp [e])
    have := ih (fun hm => h (by simp [hm]))
    cases c with
    | other => exact absurd rfl hc
    | digit d => simp [numericPrefix, this]
    | dot => simp [numericPrefix, this]

theorem splitDots_digits (cur ds : List (Fin 10)) (cs : List Ch) :
    splitDots cur (digits ds ++ cs) = splitDots (ds.reverse ++ cur) cs := by
  induction ds generalizing cur with
  | nil => rfl
  | cons d ds ih => simp [digits, splitDots] at ih ⊢; rw [ih]

theorem splitDots_render (comps : List (List (Fin 10))) (h : comps ≠ []) : splitDots [] (render comps) = comps := by
  induction comps with
  | nil => exact absurd rfl h
  | cons ds rest ih =>
    cases rest with
    | nil =>
      have := splitDots_digits [] ds []
      simp only [List.append_nil] at this
      simp [render, this, splitDots]
    | cons e rest =>
      show splitDots [] (digits ds ++ .dot :: render (e :: rest)) = _
      rw [splitDots_digits]
      simp only [splitDots, List.append_nil, List.reverse_reverse, ih (by simp)]

theorem other_not_mem_render (comps : List (List (Fin 10))) : Ch.other ∉ render comps := by
  induction comps with
  | nil => simp [render]
  | cons ds rest ih =>
    cases rest with
    | nil => simp [render, digits]
    | cons e rest =>
      show Ch.other ∉ digits ds ++ .dot :: render (e :: rest)
      simp [digits, ih]

theorem render_last (comps : List (List (Fin 10))) (h : comps ≠ []) (hne : ∀ ds ∈ comps, ds ≠ []) :
    ∃ pre d, render comps = pre ++ [.digit d] := by
  induction comps with
  | nil => exact absurd rfl h
  | cons ds rest ih =>
    cases rest with
    | nil =>
      have := hne ds (by simp)
      refine ⟨digits ds.dropLast, ds.getLast this, ?_⟩
      conv_lhs => rw [render, ← List.dropLast_append_getLast this]
      simp [digits]
    | cons e rest =>
      obtain ⟨pre, d, hp⟩ := ih (by simp) (fun x hx => hne x (by simp [hx]))
      exact ⟨digits ds ++ .dot :: pre, d, by show digits ds ++ .dot :: render (e :: rest) = _; rw [hp]; simp⟩

theorem rstrip_dots (cs : List Ch) (k : Nat) (pre : List Ch) (d : Fin 10) (h : cs = pre ++ [.digit d]) :
    rstripDots (cs ++ List.replicate k .dot) = cs := by
  subst h
  unfold rstripDots
  rw [List.reverse_append, List.reverse_replicate]
  have : ∀ k, List.dropWhile (fun x => decide (x = Ch.dot)) (List.replicate k Ch.dot ++ (pre ++ [Ch.digit d]).reverse) =
      (pre ++ [Ch.digit d]).reverse := by
    intro k
    induction k with
    | zero => simp
    | succ k ih => simpa [List.replicate_succ] using ih
  rw [this, List.reverse_reverse]

theorem mapM_toNat (comps : List (List (Fin 10))) (hne : ∀ ds ∈ comps, ds ≠ []) :
    comps.mapM toNat? = some (comps.map value) := by
  induction comps with
  | nil => rfl
  | cons ds rest ih =>
    rw [List.mapM_cons, ih (fun x hx => hne x (by simp [hx]))]
    simp [toNat?, hne ds (by simp), value]

/-- Of a version string (components of digits with dots, then possibly dots and anything that begins with
    another character, as ".dev0" or "rc1"), the first three components are read as numbers. -/
theorem C148_version (comps : List (List (Fin 10))) (h : comps ≠ []) (hne : ∀ ds ∈ comps, ds ≠ []) (k : Nat)
    (tail : List Ch) (ht : tail = [] ∨ tail.head? = some .other) :
    versionTuple (render comps ++ (List.replicate k .dot ++ tail)) = .ok ((comps.map value).take 3) := by
  obtain ⟨pre, d, hp⟩ := render_last comps h hne
  have h1 : numericPrefix (render comps ++ (List.replicate k .dot ++ tail)) = render comps ++ List.replicate k .dot := by
    rw [← List.append_assoc]
    refine numericPrefix_append _ _ ?_ ht
    simp [other_not_mem_render, List.mem_replicate]
  unfold versionTuple
  rw [h1, rstrip_dots _ k pre d hp, splitDots_render comps h, mapM_toNat comps hne]

example := C148_version [[0], [1, 0], [0]] (by decide) (by decide) 1 [.other, .digit 1] (Or.inr rfl)

/-- Tuples are compared at the first position where they differ. -/
theorem C148_version_order (p as bs : List Nat) (a b : Nat) (h : a ≠ b) :
    tupleLt (p ++ a :: as) (p ++ b :: bs) = decide (a < b) := by
  induction p with
  | nil =>
    simp only [List.nil_append, tupleLt]
    by_cases h1 : a < b
    · simp [h1]
    · have : b < a := by omega
      simp [h1, this]
  | cons x p ih => simp [tupleLt, ih]

example := C148_version_order [0] [1] [4, 2] 10 3 (by decide)

/-- "0.10.0.dev1" is not older than "0.3.1". -/
example : versionTuple (render [[0], [1, 0], [0]] ++ (List.replicate 1 .dot ++ [.other, .other, .other, .digit 1])) =
    .ok [0, 10, 0] ∧ tupleLt [0, 10, 0] [0, 3, 1] = false := by
  decide +kernel

/-! ### deviations -/

/-- the transpose of a C-ordered 2×2 array. -/
def transposed : View := ⟨0, [(2, 1), (2, 2)]⟩

/-- `reshape(-1)` copies the transpose of a matrix: the values returned are not reduced. -/
theorem C149_layout_refuted : ¬ ∀ (mems : Mems ℚ) (v : View), mems.length > 1 →
    (mpiReduce List.sum mems v).2 = none →
    ∀ mem ∈ (mpiReduce List.sum mems v).1, read mem v =
      elementwise List.sum (mems.map fun m => read m v) (addrs v.axes v.offset).length := by
  intro h
  have := h [fun _ => 1, fun _ => 1] transposed (by decide) (by decide +kernel) (fun _ => 1)
    (by show _ ∈ [(fun _ => 1 : Nat → ℚ), fun _ => 1]; simp)
  revert this
  decide +kernel

/-- What happens: where `reshape(-1)` copies, every rank keeps its own values without an error; where it is
    a strided view, there is an error; else the result is right. -/
theorem C149_layout_partial {R : Type} (red : List R → R) (mems : Mems R) (v : View) (hn : mems.length > 1) :
    (reshapeFlat v = none → mpiReduce red mems v = (mems, none)) ∧
    (∀ len s, reshapeFlat v = some (len, s) → s ≠ 1 → len > 1 → mpiReduce red mems v = (mems, some .valueError)) ∧
    (∀ len, reshapeFlat v = some (len, 1) → (mpiReduce red mems v).2 = none ∧
      ∀ mem ∈ (mpiReduce red mems v).1, read mem v =
        elementwise red (mems.map fun m => read m v) (addrs v.axes v.offset).length) := by
  refine ⟨fun h => by simp [mpiReduce, hn, h], fun len s h h1 h2 => by simp [mpiReduce, hn, h, h1, h2], ?_⟩
  intro len h
  have hr : mpiReduce red mems v = (allreduce red mems v.offset len, none) := by
    simp [mpiReduce, hn, h]
  have ha : addrs v.axes v.offset = (List.range len).map fun (i : Nat) => v.offset + i := by
    rw [← addrs_filter, flat_addrs _ _ _ _ h]; simp
  have hread : ∀ m : Nat → R, read m v = (List.range len).map fun (i : Nat) => m (v.offset + i) := by
    intro m
    rw [read, ha, List.map_map]
    rfl
  rw [hr]
  refine ⟨rfl, ?_⟩
  intro mem hmem
  simp only [allreduce, List.mem_map] at hmem
  obtain ⟨m0, _, rfl⟩ := hmem
  rw [hread, elementwise, ha, List.length_map, List.length_range]
  refine List.map_congr_left fun i hi => ?_
  have hi' : i < len := List.mem_range.1 hi
  rw [if_pos ⟨by omega, by omega⟩]
  congr 1
  rw [List.filterMap_map]
  have : ∀ m : Nat → R, ((fun x : List R => x[i]?) ∘ fun m => read m v) m = some (m (v.offset + i)) := by
    intro m
    simp [Function.comp_def, hread, hi']
  rw [funext this, List.filterMap_eq_map']

example := C149_layout_partial List.sum [fun a => (a : ℚ), fun a => 10 * (a : ℚ)] transposed (by decide)

/-- On one rank `mpi_allgather` returns the object, not the list of one object. -/
theorem C149_allgather_refuted : ¬ ∀ xs : List Nat, xs ≠ [] → mpiAllgather xs = xs.map fun _ => .list xs := by
  intro h
  have := h [3] (by simp)
  simp [mpiAllgather] at this

/-- specification: the objects in a result of `mpi_allgather`, a single object standing for the list of it. -/
def Gathered.objects {A : Type} : Gathered A → List A
  | .one a => [a]
  | .list as => as

/-- What holds: on one rank the object itself, and on any number of ranks every rank gets the objects of all ranks, in their order. -/
theorem C149_allgather_partial {A : Type} (xs : List A) :
    (∀ x : A, mpiAllgather [x] = [.one x]) ∧ (mpiAllgather xs).map Gathered.objects = xs.map fun _ => xs := by
  refine ⟨fun x => rfl, ?_⟩
  unfold mpiAllgather
  split
  · rename_i h
    obtain ⟨x, hx⟩ := List.length_eq_one_iff.1 h
    subst hx
    rfl
  · rw [List.map_map]
    rfl

example : (mpiAllgather [1, 2, 3]).map Gathered.objects = [[1, 2, 3], [1, 2, 3], [1, 2, 3]] := (C149_allgather_partial [1, 2, 3]).2

/-- On one rank a root that does not exist is accepted by `mpi_bcast` (AssertionError in `mpi_bcast_jax`). -/
theorem C149_bcast_refuted : ¬ ∀ (xs : List Nat) (root : Nat), xs[root]? = none → ∃ e, mpiBcast xs root = .error e := by
  intro h
  obtain ⟨e, he⟩ := h [3] 7 rfl
  cases he

/-- What holds: an error on several ranks, and on any number of ranks for JAX arrays. -/
theorem C149_bcast_partial {A : Type} (xs : List A) (root : Nat) (h : xs[root]? = none) :
    (xs.length ≠ 1 → mpiBcast xs root = .error .runtimeError) ∧ (∃ e, mpiBcastJax xs root = .error e) := by
  refine ⟨fun h1 => by simp [mpiBcast, h1, h], ?_⟩
  by_cases h1 : xs.length = 1
  · have : root ≠ 0 := by
      rintro rfl
      have := List.getElem?_eq_none_iff.1 h
      omega
    exact ⟨.assertionError, by simp [mpiBcastJax, h1, this]⟩
  · exact ⟨.runtimeError, by simp [mpiBcastJax, h1, h]⟩

example := C149_bcast_partial [5, 6, 7] 3 rfl

/-- logical OR of integers (C semantics). -/
def lor (l : List Int) : Int := if l.any (· ≠ 0) then 1 else 0

/-- `mpi_any` of integers: on one rank the values are not turned into truth values. -/
theorem C149_any_refuted : ¬ ∀ (mems : Mems Int) (v : View), mems ≠ [] →
    ∀ mem ∈ (mpiReduce lor mems v).1, ∀ x ∈ read mem v, x = 0 ∨ x = 1 := by
  intro h
  have := h [fun _ => 5] ⟨0, freshAxes [1]⟩ (by simp) (fun _ => 5) (by show _ ∈ [(fun _ => 5 : Nat → Int)]; simp) 5
    (by decide +kernel)
  revert this
  decide

/-- What holds: truth values stay truth values, and on several ranks C-ordered arrays become truth values. -/
theorem C149_any_partial (mems : Mems Int) (o : Nat) (sh : List Nat) (hn : mems.length > 1) :
    ∀ mem ∈ (mpiReduce lor mems ⟨o, freshAxes sh⟩).1, ∀ x ∈ read mem ⟨o, freshAxes sh⟩, x = 0 ∨ x = 1 := by
  intro mem hmem x hx
  rw [(C148_reduce lor mems o sh hn).2.2.1 mem hmem, elementwise, List.mem_map] at hx
  obtain ⟨i, _, rfl⟩ := hx
  unfold lor
  split <;> simp

example := C149_any_partial [fun _ => 0, fun a => a] 1 [2] (by decide) _ (List.mem_cons_self ..) _ (List.mem_cons_self ..)

end Verif.Mpi

import Mathlib.Algebra.BigOperators.Group.List.Basic
import Mathlib.Algebra.BigOperators.Fin
import Mathlib.Algebra.BigOperators.Ring.Finset
import Mathlib.Algebra.Star.BigOperators
import Mathlib.Tactic.Ring
import Verif.Model.PauliStrings
import Verif.Props.Sparse

/-! C20: PauliStrings; C75: validation of the strings. -/

set_option linter.unusedSectionVars false

namespace Verif.Pauli
open Verif.Hilbert

section
variable {K : Type} [CommRing K]

/-! ### specification -/

/-- the 2x2 matrices, rows and columns labelled by the qubit values 0, 1. -/
def pauli (im : K) (c : Char) (a b : ℤ) : K :=
  if c = 'X' then (if a = b then 0 else 1)
  else if c = 'Y' then (if a = b then 0 else if a = 0 then -im else im)
  else if c = 'Z' then (if a = b then (if a = 0 then 1 else -1) else 0)
  else (if a = b then 1 else 0)

/-- matrix element of a product of Pauli matrices. -/
def stringElement (im : K) {N : Nat} (s : Fin N → Char) (x x' : Fin N → ℤ) : K :=
  ∏ i, pauli im (s i) (x i) (x' i)

/-- matrix element of `sum_k w_k P_k`. -/
def sumElement (im : K) (N : Nat) (ops : List (List Char)) (ws : List K) (x x' : Fin N → ℤ) : K :=
  ((ops.zip ws).map fun p => p.2 * stringElement im (charAt N p.1) x x').sum

/-- qubit configurations. -/
def Qubits {N : Nat} (x : Fin N → ℤ) : Prop := ∀ s, x s = 0 ∨ x s = 1

/-- total matrix element at `x'`. -/
def melSum {N : Nat} (l : List ((Fin N → ℤ) × K)) (x' : Fin N → ℤ) : K :=
  (l.map fun p => if p.1 = x' then p.2 else 0).sum

/-- matrix elements below the cutoff are exactly zero. -/
def Exact (sc : Scalars K) : Prop := ∀ z, sc.big z = false → z = 0

/-! ### lemmas -/

theorem foldl_update_not_mem {N : Nat} (x : Fin N → ℤ) (l : List (Fin N)) (s : Fin N) (h : s ∉ l) :
    flipSites x l s = x s := by
  unfold flipSites
  induction l generalizing x with
  | nil => rfl
  | cons t l ih =>
    simp only [List.mem_cons, not_or] at h
    rw [List.foldl_cons, ih _ h.2, Function.update_of_ne h.1]

theorem flipSites_apply {N : Nat} (x : Fin N → ℤ) (l : List (Fin N)) (hn : l.Nodup) (s : Fin N) :
    flipSites x l s = if s ∈ l then 1 - x s else x s := by
  by_cases h : s ∈ l
  · rw [if_pos h]
    induction l generalizing x with
    | nil => simp at h
    | cons t l ih =>
      rw [List.nodup_cons] at hn
      show flipSites (Function.update x t (1 - x t)) l s = _
      rcases List.mem_cons.1 h with rfl | h'
      · rw [foldl_update_not_mem _ _ _ hn.1, Function.update_self]
      · rw [ih _ hn.2 h', Function.update_of_ne]
        rintro rfl
        exact hn.1 h'
  · rw [if_neg h]; exact foldl_update_not_mem x l s h

theorem groupMel_eq {N : Nat} (x : Fin N → ℤ) (vs : List (Stored K N)) :
    groupMel x vs = (vs.map fun v => v.weight * (-1) ^ (v.zCheck.filter fun s => x s = 1).length).sum := by
  have key : ∀ (l : List (Stored K N)) (a : K),
      l.foldl (fun mel v => mel + v.weight * (-1) ^ (v.zCheck.filter fun s => x s = 1).length) a
        = a + (l.map fun v => v.weight * (-1) ^ (v.zCheck.filter fun s => x s = 1).length).sum := by
    intro l
    induction l with
    | nil => simp
    | cons v l ih => intro a; rw [List.foldl_cons, ih, List.map_cons, List.sum_cons, add_assoc]
  rw [groupMel, key, zero_add]

/-- contribution of one stored product to the element `(x, x')`. -/
def storedElement {N : Nat} (x x' : Fin N → ℤ) (key : List (Fin N)) (v : Stored K N) : K :=
  if flipSites x key = x' then v.weight * (-1) ^ (v.zCheck.filter fun s => x s = 1).length else 0

/-- total over a dictionary. -/
def dictTotal {N : Nat} (f : List (Fin N) → Stored K N → K)
    (d : List (List (Fin N) × List (Stored K N))) : K :=
  (d.map fun g => (g.2.map (f g.1)).sum).sum

theorem dictTotal_append {N : Nat} (f : List (Fin N) → Stored K N → K) (key : List (Fin N))
    (v : Stored K N) (d : List (List (Fin N) × List (Stored K N))) :
    dictTotal f (append key v d) = dictTotal f d + f key v := by
  induction d with
  | nil => simp [append, dictTotal]
  | cons g d ih =>
    obtain ⟨k, vs⟩ := g
    simp only [append]
    by_cases h : k = key
    · rw [if_pos h]; subst h
      simp only [dictTotal, List.map_cons, List.map_append, List.sum_cons, List.sum_append, List.map_nil,
        List.sum_nil]
      ring
    · rw [if_neg h]
      simp only [dictTotal, List.map_cons, List.sum_cons] at ih ⊢
      rw [ih]; ring

theorem rowConn_sum {N : Nat} (sc : Scalars K) (he : Exact sc)
    (d : List (List (Fin N) × List (Stored K N))) (x x' : Fin N → ℤ) :
    melSum (rowConn sc d x) x' = dictTotal (storedElement x x') d := by
  induction d with
  | nil => rfl
  | cons g d ih =>
    have hg : (g.2.map (storedElement x x' g.1)).sum
        = if flipSites x g.1 = x' then groupMel x g.2 else 0 := by
      rw [groupMel_eq]
      by_cases h : flipSites x g.1 = x'
      · rw [if_pos h]
        congr 1
        apply List.map_congr_left
        intro v _
        rw [storedElement, if_pos h]
      · rw [if_neg h]
        apply List.sum_eq_zero
        intro y hy
        obtain ⟨v, _, rfl⟩ := List.mem_map.1 hy
        rw [storedElement, if_neg h]
    have hd : dictTotal (storedElement x x') (g :: d)
        = (g.2.map (storedElement x x' g.1)).sum + dictTotal (storedElement x x') d := by
      simp [dictTotal]
    rw [hd, ← ih, hg]
    unfold rowConn
    by_cases hb : sc.big (groupMel x g.2) = true
    · rw [List.filterMap_cons_some (by rw [if_pos hb])]
      simp [melSum]
    · rw [List.filterMap_cons_none (by rw [if_neg hb])]
      rw [he (groupMel x g.2) (by simpa using hb)]
      simp

theorem prod_ite_one {N : Nat} (p : Fin N → Bool) (a : K) :
    (∏ i, if p i then a else 1) = a ^ ((List.finRange N).filter p).length := by
  rw [← List.prod_ofFn, List.ofFn_eq_map]
  generalize List.finRange N = l
  induction l with
  | nil => simp
  | cons i l ih =>
    rw [List.map_cons, List.prod_cons, ih, List.filter_cons]
    by_cases h : p i = true
    · rw [if_pos h, if_pos h, List.length_cons, pow_succ, mul_comm]
    · rw [if_neg h, if_neg h, one_mul]

theorem findChar_disjoint {N : Nat} (s : Fin N → Char) (a b : Char) (h : a ≠ b) :
    ∀ i ∈ findChar s a, ∀ j ∈ findChar s b, i ≠ j := by
  intro i hi j hj hij
  subst hij
  simp only [findChar, List.mem_filter, decide_eq_true_eq] at hi hj
  exact h (hi.2.symm.trans hj.2)

theorem nodup_xy {N : Nat} (s : Fin N → Char) : (findChar s 'X' ++ findChar s 'Y').Nodup := by
  rw [List.nodup_append]
  exact ⟨(List.nodup_finRange N).filter _, (List.nodup_finRange N).filter _,
    findChar_disjoint s 'X' 'Y' (by decide)⟩

/-- the stored product has the matrix elements of its Pauli string. -/
theorem stored_eq (sc : Scalars K) {N : Nat} (s : Fin N → Char) (w : K) (x x' : Fin N → ℤ)
    (hx : Qubits x) (hx' : Qubits x') :
    storedElement x x' (findChar s 'X' ++ findChar s 'Y')
        ⟨if findChar s 'Y' = [] then w else w * (-sc.im) ^ (findChar s 'Y').length,
          findChar s 'Y' ++ findChar s 'Z'⟩
      = w * stringElement sc.im s x x' := by
  have hw : (if findChar s 'Y' = [] then w else w * (-sc.im) ^ (findChar s 'Y').length)
      = w * (-sc.im) ^ (findChar s 'Y').length := by
    by_cases h : findChar s 'Y' = []
    · rw [if_pos h, h]; simp
    · rw [if_neg h]
  have hfl : ∀ i, flipSites x (findChar s 'X' ++ findChar s 'Y') i
      = if s i = 'X' ∨ s i = 'Y' then 1 - x i else x i := by
    intro i
    rw [flipSites_apply x _ (nodup_xy s)]
    simp [findChar]
  rw [hw, storedElement]
  by_cases h : flipSites x (findChar s 'X' ++ findChar s 'Y') = x'
  · rw [if_pos h]
    have hfac : ∀ i, pauli sc.im (s i) (x i) (x' i)
        = (if decide (s i = 'Y') then -sc.im else 1)
          * ((if decide (s i = 'Y') && decide (x i = 1) then (-1 : K) else 1)
            * (if decide (s i = 'Z') && decide (x i = 1) then (-1 : K) else 1)) := by
      intro i
      have h1 := congrFun h i
      rw [hfl i] at h1
      unfold pauli
      by_cases hX : s i = 'X'
      · rw [if_pos (Or.inl hX)] at h1
        have : x i ≠ x' i := by rw [← h1]; rcases hx i with h | h <;> rw [h] <;> decide
        simp [hX, this]
      · by_cases hY : s i = 'Y'
        · rw [if_pos (Or.inr hY)] at h1
          have hne : x i ≠ x' i := by rw [← h1]; rcases hx i with h | h <;> rw [h] <;> decide
          rcases hx i with h0 | h0
          · simp [hY, h0 ▸ hne, h0]
          · have : ¬ (1 : ℤ) = x' i := h0 ▸ hne
            simp [hY, this, h0]
        · rw [if_neg (by tauto)] at h1
          by_cases hZ : s i = 'Z'
          · rcases hx i with h0 | h0
            · simp [hZ, ← h1, h0]
            · simp [hZ, ← h1, h0]
          · simp [hX, hY, hZ, h1]
    unfold stringElement
    rw [Finset.prod_congr rfl fun i _ => hfac i, Finset.prod_mul_distrib, Finset.prod_mul_distrib,
      prod_ite_one, prod_ite_one, prod_ite_one, List.filter_append, List.length_append, pow_add]
    simp only [findChar, List.filter_filter]
    have comm : ∀ c : Char, (List.finRange N).filter (fun a => decide (x a = 1) && decide (s a = c))
        = (List.finRange N).filter (fun i => decide (s i = c) && decide (x i = 1)) :=
      fun c => List.filter_congr fun i _ => Bool.and_comm _ _
    rw [comm, comm]
    ring
  · rw [if_neg h]
    obtain ⟨i, hi⟩ := Function.ne_iff.1 h
    rw [hfl i] at hi
    unfold stringElement
    rw [Finset.prod_eq_zero (Finset.mem_univ i), mul_zero]
    unfold pauli
    by_cases hX : s i = 'X'
    · rw [if_pos (Or.inl hX)] at hi
      have : x i = x' i := by
        rcases hx i with h0 | h0 <;> rcases hx' i with h1 | h1 <;> rw [h0, h1] at hi ⊢ <;> simp at hi
      simp [hX, this]
    · by_cases hY : s i = 'Y'
      · rw [if_pos (Or.inr hY)] at hi
        have : x i = x' i := by
          rcases hx i with h0 | h0 <;> rcases hx' i with h1 | h1 <;> rw [h0, h1] at hi ⊢ <;> simp at hi
        simp [hY, this]
      · rw [if_neg (by tauto)] at hi
        by_cases hZ : s i = 'Z'
        · simp [hZ, hi]
        · simp [hX, hY, hZ, hi]

/-- the facts contained in a successful construction. -/
theorem mk_ok (sc : Scalars K) (ops : List (List Char)) (ws : List K) (op : PauliOp K)
    (h : mk sc ops ws = .ok op) :
    ops ≠ [] ∧ ws.length = ops.length ∧ (∀ s ∈ ops, s.length = op.n ∧ validMatch s = true)
      ∧ op.groups = (ops.zip ws).foldl (fun acting p => addString sc acting (charAt op.n p.1) p.2) []
      ∧ op.isHerm = ws.all sc.realish := by
  cases ops with
  | nil => simp [mk] at h
  | cons o os =>
    simp only [mk] at h
    split at h
    · simp at h
    · rename_i h1
      split at h
      · simp at h
      · rename_i h2
        split at h
        · simp at h
        · rename_i h3
          simp only [Except.ok.injEq] at h
          subst h
          simp only [Bool.not_eq_true', Bool.not_eq_false, List.all_eq_true] at h2 h3
          refine ⟨by simp, not_not.1 h1, fun s hs => ⟨by simpa using h2 s hs, h3 s hs⟩, rfl, rfl⟩

theorem total_foldl (sc : Scalars K) {N : Nat} (x x' : Fin N → ℤ) (hx : Qubits x) (hx' : Qubits x')
    (l : List (List Char × K)) (d : List (List (Fin N) × List (Stored K N))) :
    dictTotal (storedElement x x') (l.foldl (fun acting p => addString sc acting (charAt N p.1) p.2) d)
      = dictTotal (storedElement x x') d
        + (l.map fun p => p.2 * stringElement sc.im (charAt N p.1) x x').sum := by
  induction l generalizing d with
  | nil => simp
  | cons p l ih =>
    rw [List.foldl_cons, ih, addString, dictTotal_append, stored_eq sc _ _ x x' hx hx', List.map_cons,
      List.sum_cons]
    ring

/-! ### C20 -/

/-- C20: for every accepted list of strings and weights the connected elements of `x` add up to the
    matrix of `sum_k w_k P_k`. -/
theorem C20_pauli_strings (sc : Scalars K) (he : Exact sc) (ops : List (List Char)) (ws : List K)
    (op : PauliOp K) (h : mk sc ops ws = .ok op) (x x' : Fin op.n → ℤ) (hx : Qubits x)
    (hx' : Qubits x') :
    melSum (rowConn sc op.groups x) x' = sumElement sc.im op.n ops ws x x' := by
  obtain ⟨_, _, _, hg, _⟩ := mk_ok sc ops ws op h
  rw [rowConn_sum sc he, hg, total_foldl sc x x' hx hx']
  simp [sumElement, dictTotal]

theorem rowConn_mem {N : Nat} (sc : Scalars K) (d : List (List (Fin N) × List (Stored K N)))
    (x : Fin N → ℤ) (p : (Fin N → ℤ) × K) (hp : p ∈ rowConn sc d x) :
    ∃ g ∈ d, p.1 = flipSites x g.1 := by
  simp only [rowConn, List.mem_filterMap] at hp
  obtain ⟨g, hg, hp⟩ := hp
  by_cases hb : sc.big (groupMel x g.2) = true
  · rw [if_pos hb, Option.some.injEq] at hp
    exact ⟨g, hg, by rw [← hp]⟩
  · rw [if_neg hb] at hp; simp at hp

theorem Qubits.flip {N : Nat} {x : Fin N → ℤ} (h : Qubits x) (l : List (Fin N)) :
    Qubits (flipSites x l) := by
  unfold flipSites
  induction l generalizing x with
  | nil => exact h
  | cons t l ih =>
    apply ih
    intro s
    show Function.update x t (1 - x t) s = 0 ∨ Function.update x t (1 - x t) s = 1
    by_cases hs : s = t
    · subst hs
      rw [Function.update_self]
      rcases h s with h | h <;> rw [h] <;> decide
    · rw [Function.update_of_ne hs]; exact h s

/-- C20: connected configurations are qubit configurations, and there are at most `max_conn_size`. -/
theorem C20_connected_valid (sc : Scalars K) (op : PauliOp K) (x : Fin op.n → ℤ) (hx : Qubits x) :
    (∀ p ∈ rowConn sc op.groups x, Qubits p.1) ∧ (rowConn sc op.groups x).length ≤ maxConn op := by
  refine ⟨fun p hp => ?_, List.length_filterMap_le _ _⟩
  obtain ⟨g, _, he⟩ := rowConn_mem sc _ x p hp
  rw [he]
  exact hx.flip _

/-! batches -/

theorem flattened_eq (sc : Scalars K) (op : PauliOp K) (xs : List (Fin op.n → ℤ)) :
    flattened sc op xs = (xs.flatMap (rowConn sc op.groups),
      LocalOp.runningTotals 0 ((xs.map (rowConn sc op.groups)).map List.length)) := by
  have key : ∀ (xs : List (Fin op.n → ℤ)) (a : List ((Fin op.n → ℤ) × K)) (b : List Nat),
      xs.foldl (fun out x =>
        let r := out.1 ++ rowConn sc op.groups x
        (r, out.2 ++ [r.length])) (a, b)
      = (a ++ xs.flatMap (rowConn sc op.groups),
        b ++ LocalOp.runningTotals a.length ((xs.map (rowConn sc op.groups)).map List.length)) := by
    intro xs
    induction xs with
    | nil => simp [LocalOp.runningTotals]
    | cons x xs ih =>
      intro a b
      simp only [List.foldl_cons]
      rw [ih]
      simp [LocalOp.runningTotals]
  rw [flattened, key]; simp

/-- C18 for PauliStrings: the batch is the concatenation of the rows, delimited by `sections`. -/
theorem C18_pauli_batches (sc : Scalars K) (op : PauliOp K) (xs : List (Fin op.n → ℤ)) :
    (flattened sc op xs).1 = xs.flatMap (rowConn sc op.groups)
    ∧ LocalOp.splitSections (flattened sc op xs).1 0 (flattened sc op xs).2
        = xs.map (rowConn sc op.groups) := by
  rw [flattened_eq]
  refine ⟨rfl, ?_⟩
  exact LocalOp.split_runningTotals [] _ 0 rfl _ (by simp [List.flatMap])

/-- C17 for PauliStrings: padded rows are the connected elements followed by zero matrix elements at a
    valid configuration, all of length `max_conn_size`. -/
theorem C17_pauli_padding (sc : Scalars K) (op : PauliOp K) (xs : List (Fin op.n → ℤ)) :
    (flattenedPad sc op xs).2 = (List.range xs.length).map (fun b => (b + 1) * maxConn op)
    ∧ LocalOp.pieces (flattenedPad sc op xs).1 (maxConn op) xs.length
      = xs.map fun x => rowConn sc op.groups x
          ++ List.replicate (maxConn op - (rowConn sc op.groups x).length) (fun _ => 0, 0) := by
  set row := fun x => rowConn sc op.groups x
      ++ List.replicate (maxConn op - (rowConn sc op.groups x).length) ((fun _ => 0, 0) : (Fin op.n → ℤ) × K)
    with hrow
  have hlen : ∀ x, (row x).length = maxConn op := by
    intro x
    have : (rowConn sc op.groups x).length ≤ maxConn op := List.length_filterMap_le _ _
    simp only [hrow, List.length_append, List.length_replicate]
    omega
  have key : ∀ (xs : List (Fin op.n → ℤ)) (a : List ((Fin op.n → ℤ) × K)) (b : List Nat) (k : Nat),
      a.length = k * maxConn op →
      xs.foldl (fun out x =>
        let row := rowConn sc op.groups x
        let r := out.1 ++ row ++ List.replicate (maxConn op - row.length) (fun _ => 0, 0)
        (r, out.2 ++ [r.length])) (a, b)
      = (a ++ xs.flatMap row, b ++ (List.range xs.length).map fun b => (k + b + 1) * maxConn op) := by
    intro xs
    induction xs with
    | nil => simp
    | cons x xs ih =>
      intro a b k hk
      simp only [List.foldl_cons]
      have e : a ++ rowConn sc op.groups x ++ List.replicate (maxConn op - (rowConn sc op.groups x).length)
          ((fun _ => 0, 0) : (Fin op.n → ℤ) × K) = a ++ row x := by simp [hrow]
      rw [e, ih (a ++ row x) _ (k + 1) (by rw [List.length_append, hlen, hk]; ring)]
      simp only [List.length_append, hlen, hk, List.flatMap_cons, List.append_assoc, List.length_cons,
        List.range_succ_eq_map, List.map_cons, List.map_map, Prod.mk.injEq, true_and]
      congr 1
      simp only [List.singleton_append, List.cons.injEq]
      refine ⟨by ring, ?_⟩
      apply List.map_congr_left
      intro i _
      simp only [Function.comp, Nat.succ_eq_add_one]
      congr 1
      omega
  have hk := key xs [] [] 0 (by simp)
  rw [flattenedPad, hk]
  refine ⟨by simp, ?_⟩
  simp only [List.nil_append]
  exact LocalOp.pieces_flatMap xs row _ fun x _ => hlen x

theorem pauli_herm [StarRing K] (im : K) (him : star im = -im) (c : Char) (a b : ℤ)
    (ha : a = 0 ∨ a = 1) (hb : b = 0 ∨ b = 1) : pauli im c a b = star (pauli im c b a) := by
  unfold pauli
  by_cases hX : c = 'X'
  · rw [if_pos hX, if_pos hX]
    rcases ha with rfl | rfl <;> rcases hb with rfl | rfl <;> simp
  · rw [if_neg hX, if_neg hX]
    by_cases hY : c = 'Y'
    · rw [if_pos hY, if_pos hY]
      rcases ha with rfl | rfl <;> rcases hb with rfl | rfl <;> simp [him]
    · rw [if_neg hY, if_neg hY]
      by_cases hZ : c = 'Z'
      · rw [if_pos hZ, if_pos hZ]
        rcases ha with rfl | rfl <;> rcases hb with rfl | rfl <;> simp
      · rw [if_neg hZ, if_neg hZ]
        rcases ha with rfl | rfl <;> rcases hb with rfl | rfl <;> simp

/-- C15 for PauliStrings: if `is_hermitian` is True, the matrix is hermitian. -/
theorem C15_pauli_hermitian [StarRing K] (sc : Scalars K) (him : star sc.im = -sc.im)
    (hre : ∀ z, sc.realish z = true → star z = z) (ops : List (List Char)) (ws : List K)
    (op : PauliOp K) (h : mk sc ops ws = .ok op) (hf : op.isHerm = true) (x x' : Fin op.n → ℤ)
    (hx : Qubits x) (hx' : Qubits x') :
    sumElement sc.im op.n ops ws x x' = star (sumElement sc.im op.n ops ws x' x) := by
  obtain ⟨_, _, _, _, hh⟩ := mk_ok sc ops ws op h
  rw [hh, List.all_eq_true] at hf
  unfold sumElement
  have hstar : ∀ l : List K, star l.sum = (l.map star).sum := by
    intro l
    induction l with
    | nil => simp
    | cons a l ih => simp [ih]
  rw [hstar, List.map_map]
  congr 1
  apply List.map_congr_left
  intro p hp
  have hw : star p.2 = p.2 := hre _ (hf _ (List.of_mem_zip hp).2)
  simp only [Function.comp, star_mul', hw]
  congr 1
  unfold stringElement
  rw [star_prod]
  apply Finset.prod_congr rfl
  intro i _
  exact pauli_herm sc.im him _ _ _ (hx i) (hx' i)

/-- C19 for PauliStrings: `to_dense` is the matrix of `sum_k w_k P_k`. -/
theorem C19_pauli_to_dense (sc : Scalars K) (he : Exact sc) (ops : List (List Char)) (ws : List K)
    (op : PauliOp K) (h : mk sc ops ws = .ok op) :
    ∃ m, Sparse.toSparse (homog [0, (1 : ℤ)] op.n) (fun L =>
        ((flattened sc op (L.map (Sparse.asConf op.n))).1.map fun p => (List.ofFn p.1, p.2),
          (flattened sc op (L.map (Sparse.asConf op.n))).2)) = .ok m
      ∧ ∀ x x' i j, Qubits x → Qubits x' →
        (homog [0, (1 : ℤ)] op.n).statesToNumbers (List.ofFn x) = .ok i →
        (homog [0, (1 : ℤ)] op.n).statesToNumbers (List.ofFn x') = .ok j →
        m.dense i j = sumElement sc.im op.n ops ws x x' := by
  have hidx := Sparse.indexes_homog (N := op.n) [0, (1 : ℤ)] (by decide) (by decide)
  have hq : ∀ x : Fin op.n → ℤ, LocalOp.Valid (fun _ : Fin op.n => [0, (1 : ℤ)]) x ↔ Qubits x := by
    intro x; simp [LocalOp.Valid, Qubits]
  have hrow : Sparse.RowWise (Sparse.ValidConf fun _ : Fin op.n => [0, (1 : ℤ)]) (fun L =>
        ((flattened sc op (L.map (Sparse.asConf op.n))).1.map fun p => (List.ofFn p.1, p.2),
          (flattened sc op (L.map (Sparse.asConf op.n))).2))
      (fun σ => (rowConn sc op.groups (Sparse.asConf op.n σ)).map fun p => (List.ofFn p.1, p.2)) := by
    refine ⟨?_, ?_, ?_⟩
    · intro L _
      simp only
      rw [(C18_pauli_batches sc op _).1, List.flatMap_map, List.map_flatMap]
    · intro L _
      simp only
      rw [Sparse.split_map, (C18_pauli_batches sc op _).2, List.map_map, List.map_map]
      rfl
    · rintro σ ⟨x, hx, rfl⟩ p hp
      rw [Sparse.asConf_ofFn] at hp
      obtain ⟨q, hqm, rfl⟩ := List.mem_map.1 hp
      exact ⟨q.1, (hq _).2 ((C20_connected_valid sc op x ((hq x).1 hx)).1 q hqm), rfl⟩
  obtain ⟨m, h1, h2⟩ := Sparse.C19_to_dense _ _ hidx _ _ hrow
  refine ⟨m, h1, fun x x' i j hx hx' hi' hj => ?_⟩
  rw [h2 _ _ i j ⟨x, (hq x).2 hx, rfl⟩ ⟨x', (hq x').2 hx', rfl⟩ hi' hj, Sparse.asConf_ofFn,
    ← C20_pauli_strings sc he ops ws op h x x' hx hx']
  unfold Sparse.elementSum melSum
  rw [List.map_map]
  congr 1
  apply List.map_congr_left
  intro p _
  simp only [Function.comp]
  by_cases hp : p.1 = x'
  · rw [if_pos hp, if_pos (by rw [hp])]
  · rw [if_neg hp, if_neg fun hc => hp (List.ofFn_injective hc)]

/-! ### C75 -/

/-- C75: wrong lengths, empty lists, and strings containing anything but `X, Y, Z, I` followed
    by an optional final newline are rejected. -/
theorem C75_validation (sc : Scalars K) (ops : List (List Char)) (ws : List K)
    (hbad : ops = [] ∨ ws.length ≠ ops.length ∨ (∃ s ∈ ops, ∃ t ∈ ops, s.length ≠ t.length)
      ∨ (∃ s ∈ ops, s = []) ∨ ∃ s ∈ ops, ∃ c ∈ s, isPauliChar c = false ∧ c ≠ '\n') :
    mk sc ops ws = .error .valueError := by
  rcases hm : mk sc ops ws with e | op
  · have he : ∀ e, mk sc ops ws = .error e → e = .valueError := by
      intro e h
      unfold mk at h
      split at h
      · simpa using h.symm
      · split at h
        · simpa using h.symm
        · split at h
          · simpa using h.symm
          · split at h
            · simpa using h.symm
            · simp at h
    rw [he e hm]
  · exfalso
    obtain ⟨h1, h2, h3, _⟩ := mk_ok sc ops ws op hm
    rcases hbad with h | h | ⟨s, hs, t, ht, h⟩ | ⟨s, hs, rfl⟩ | ⟨s, hs, c, hc, hp, hnl⟩
    · exact h1 h
    · exact h h2
    · exact h ((h3 s hs).1.trans (h3 t ht).1.symm)
    · have := (h3 [] hs).2
      simp [validMatch] at this
    · have := (h3 s hs).2
      simp only [validMatch, Bool.or_eq_true, Bool.and_eq_true, List.all_eq_true] at this
      rcases this with h | h
      · rw [h.2 c hc] at hp; exact absurd hp (by decide)
      · have hne : s ≠ [] := List.ne_nil_of_mem hc
        rw [← List.dropLast_append_getLast hne] at hc
        rcases List.mem_append.1 hc with hc | hc
        · rw [h.2 c hc] at hp; exact absurd hp (by decide)
        · rw [List.mem_singleton] at hc
          have h1 := h.1.1
          rw [List.getLast?_eq_some_getLast hne, ← hc] at h1
          exact hnl (by simpa using h1)

/-- C75, acceptance: a non-empty list of equally long non-empty strings over `X, Y, Z, I` with as many
    weights is accepted, as an operator on as many qubits as the strings have characters. -/
theorem C75_acceptance (sc : Scalars K) (ops : List (List Char)) (ws : List K) (n : Nat)
    (h0 : ops ≠ []) (hn : 0 < n) (hl : ws.length = ops.length) (hlen : ∀ s ∈ ops, s.length = n)
    (hc : ∀ s ∈ ops, ∀ c ∈ s, c = 'X' ∨ c = 'Y' ∨ c = 'Z' ∨ c = 'I') :
    ∃ op, mk sc ops ws = .ok op ∧ op.n = n := by
  cases ops with
  | nil => exact absurd rfl h0
  | cons o os =>
    have e0 := hlen o (List.mem_cons_self ..)
    have e1 : (o :: os).all (fun s => s.length == o.length) = true := by
      rw [List.all_eq_true]
      intro s hs
      simp [hlen s hs, e0]
    have e2 : (o :: os).all validMatch = true := by
      rw [List.all_eq_true]
      intro s hs
      have hne : s ≠ [] := by
        rintro rfl
        have := hlen [] hs
        simp at this; omega
      have hall : s.all isPauliChar = true := by
        rw [List.all_eq_true]
        intro c hcs
        rcases hc s hs c hcs with rfl | rfl | rfl | rfl <;> decide
      simp [validMatch, hall, hne]
    unfold mk
    simp only
    rw [if_neg (by simp [hl]), if_neg (by rw [e1]; simp), if_neg (by rw [e2]; simp)]
    exact ⟨_, rfl, e0⟩

end

/-! ### witnesses -/

open Verif.LocalOp in
/-- Gaussian integers. -/
def giScalars : Scalars GI := ⟨iUnit, fun z => decide (z ≠ 0), fun z => decide (star z = z)⟩

theorem giScalars_exact : Exact giScalars := by
  intro z h
  simpa [giScalars] using h

/-- C126 is false: the string `"X\n"` is accepted, as an operator on two qubits. -/
theorem C126_newline_refuted :
    ∃ op : PauliOp LocalOp.GI, mk giScalars [['X', '\n']] [1] = .ok op ∧ op.n = 2
      ∧ ¬ (['X', '\n'].all isPauliChar = true) := by
  refine ⟨_, rfl, rfl, by decide⟩

/-- hypotheses of C20 and a computed row: `XY + 2 YZ - 3 ZZ` on two qubits. -/
example : ∃ op : PauliOp LocalOp.GI,
    mk giScalars [['X', 'Y'], ['Y', 'Z'], ['Z', 'Z'], ['Y', 'X']] [1, 2, -3, 5] = .ok op
    ∧ op.groups.length = 4 ∧ op.isHerm = true :=
  ⟨_, rfl, by decide +kernel, by decide +kernel⟩
example : ∃ op : PauliOp LocalOp.GI, mk giScalars [['X', 'Y'], ['X', 'Y'], ['Z', 'I']] [1, 2, -3] = .ok op
    ∧ op.groups.length = 2 := ⟨_, rfl, by decide +kernel⟩
example : star giScalars.im = -giScalars.im := by decide +kernel

end Verif.Pauli
